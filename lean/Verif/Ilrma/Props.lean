import Verif.Ilrma.Model
import Verif.AuxIva.Props

/-!
# Properties of independent low-rank matrix analysis

**C83**: the updates do not increase the objective; the scaling is not consistent.
-/

namespace Verif.Ilrma

open Matrix Verif.AuxIva
open scoped ComplexOrder

variable {K F T B : Nat}

/-! ## The multiplicative update -/

theorem floor_ge (x : ℝ) : eps ≤ floor x := by
  unfold floor
  split
  · exact le_refl eps
  · rename_i h
    exact not_lt.mp h

theorem floor_of_ge {x : ℝ} (h : eps ≤ x) : floor x = x := by
  unfold floor
  rw [if_neg (not_lt.mpr h)]

/-- One coordinate of the auxiliary function. -/
theorem coordinate {t a b : ℝ} (ht : eps ≤ t) (ha : 0 ≤ a) (hb : 0 < b) : t ^ 2 * a / floor (t * Real.sqrt (a / b)) + b * floor (t * Real.sqrt (a / b)) ≤ t * a + b * t := by
  have he := eps_pos
  have ht0 : 0 < t := lt_of_lt_of_le he ht
  set u := Real.sqrt (a / b) with hu
  have hu0 : 0 ≤ u := Real.sqrt_nonneg _
  have hau : a = b * u ^ 2 := by
    rw [hu, Real.sq_sqrt (by positivity)]
    field_simp
  unfold floor
  split
  · rename_i h
    have h1 : t * a + b * t - (t ^ 2 * a / eps + b * eps) = (t - eps) * (b * (eps - t * u ^ 2)) / eps := by
      rw [hau]
      field_simp
      ring
    have h2 : t * u ^ 2 ≤ eps := by
      have h3 : u ≤ 1 := by
        by_contra hc
        rw [not_le] at hc
        nlinarith
      nlinarith
    have h4 : 0 ≤ (t - eps) * (b * (eps - t * u ^ 2)) / eps := by
      apply div_nonneg _ he.le
      exact mul_nonneg (by linarith) (mul_nonneg hb.le (by linarith))
    linarith
  · rename_i h
    rw [not_lt] at h
    have hup : 0 < u := by
      by_contra hc
      have : u = 0 := le_antisymm (not_lt.mp hc) hu0
      rw [this, mul_zero] at h
      linarith
    have h1 : t * a + b * t - (t ^ 2 * a / (t * u) + b * (t * u)) = t * b * (u - 1) ^ 2 := by
      rw [hau]
      field_simp
      ring
    have h4 : 0 ≤ t * b * (u - 1) ^ 2 := by positivity
    linarith

/-- The divergence of Itakura and Saito, without what does not depend on the model. -/
noncomputable def fit (p r : ℝ) : ℝ := p / r + Real.log r

/-- The multiplicative update does not increase the divergence. -/
theorem mult_fit {α τ : Type} [Fintype τ] {P iR : α → τ → ℝ} {A : α → Fin B → ℝ} {V : τ → Fin B → ℝ} (f : α) (hP : ∀ t, 0 ≤ P f t) (hA : ∀ b, eps ≤ A f b) (hV : ∀ t b, 0 < V t b)
    (hR : ∀ t, 0 < product A V f t) (hiR : ∀ t, iR f t = 1 / product A V f t) :
    ∑ t, fit (P f t) (product (fun f b => floor (mult P iR A V f b)) V f t) ≤ ∑ t, fit (P f t) (product A V f t) := by
  have he := eps_pos
  set R := product A V f with hRd
  set A' : Fin B → ℝ := fun b => floor (mult P iR A V f b) with hA'
  have hA'0 : ∀ b, 0 < A' b := fun b => lt_of_lt_of_le he (floor_ge _)
  have hA0 : ∀ b, 0 < A f b := fun b => lt_of_lt_of_le he (hA b)
  rcases isEmpty_or_nonempty τ with hτ | hτ
  · simp
  have hB : Nonempty (Fin B) := by
    by_contra hc
    rw [not_nonempty_iff] at hc
    obtain ⟨t⟩ := hτ
    have := hR t
    simp [hRd, product] at this
  set R' : τ → ℝ := fun t => ∑ b, A' b * V t b with hR'
  have hR'0 : ∀ t, 0 < R' t := fun t => Finset.sum_pos (fun b _ => mul_pos (hA'0 b) (hV t b)) Finset.univ_nonempty
  have hRs : ∀ t, R t = ∑ b, A f b * V t b := fun t => rfl
  -- bound at each frame
  have hframe : ∀ t, fit (P f t) (R' t) ≤ P f t * (∑ b, A f b ^ 2 * V t b / A' b) / R t ^ 2 + (R' t / R t - 1 + Real.log (R t)) := by
    intro t
    unfold fit
    apply add_le_add
    · have h1 := Finset.sq_sum_div_le_sum_sq_div Finset.univ (fun b => A f b * V t b) (g := fun b => A' b * V t b) (fun b _ => mul_pos (hA'0 b) (hV t b))
      have h2 : ∑ b, (A f b * V t b) ^ 2 / (A' b * V t b) = ∑ b, A f b ^ 2 * V t b / A' b := by
        apply Finset.sum_congr rfl
        intro b _
        have h3 := (hV t b).ne'
        have h4 := (hA'0 b).ne'
        field_simp
      rw [h2, ← hRs] at h1
      have h5 : 1 / R' t ≤ (∑ b, A f b ^ 2 * V t b / A' b) / R t ^ 2 := by
        rw [le_div_iff₀ (pow_pos (hR t) 2), one_div, mul_comm, ← div_eq_mul_inv]
        exact h1
      calc P f t / R' t = P f t * (1 / R' t) := by ring
        _ ≤ P f t * ((∑ b, A f b ^ 2 * V t b / A' b) / R t ^ 2) := mul_le_mul_of_nonneg_left h5 (hP t)
        _ = _ := by ring
    · have h1 := Real.log_le_sub_one_of_pos (div_pos (hR'0 t) (hR t))
      rw [Real.log_div (hR'0 t).ne' (hR t).ne'] at h1
      linarith
  -- sums over the frames, sorted by component
  set a : Fin B → ℝ := fun b => ∑ t, P f t * iR f t ^ 2 * V t b with ha
  set w : Fin B → ℝ := fun b => weight iR V f b with hw
  have ha0 : ∀ b, 0 ≤ a b := fun b => Finset.sum_nonneg fun t _ => mul_nonneg (mul_nonneg (hP t) (sq_nonneg _)) (hV t b).le
  have hw0 : ∀ b, 0 < w b := fun b => Finset.sum_pos (fun t _ => mul_pos (by rw [hiR]; exact one_div_pos.mpr (hR t)) (hV t b)) Finset.univ_nonempty
  have hs1 : ∑ t, P f t * (∑ b, A f b ^ 2 * V t b / A' b) / R t ^ 2 = ∑ b, A f b ^ 2 * a b / A' b := by
    simp only [ha, Finset.mul_sum, Finset.sum_div]
    rw [Finset.sum_comm]
    apply Finset.sum_congr rfl
    intro b _
    apply Finset.sum_congr rfl
    intro t _
    rw [hiR]
    field_simp
  have hs2 : ∑ t, R' t / R t = ∑ b, w b * A' b := by
    simp only [hw, hR', weight, Finset.sum_mul, Finset.sum_div]
    rw [Finset.sum_comm]
    apply Finset.sum_congr rfl
    intro b _
    apply Finset.sum_congr rfl
    intro t _
    rw [hiR]
    field_simp
  have hs3 : ∑ b, (A f b * a b + w b * A f b) = ∑ t, (P f t / R t + 1) := by
    have e1 : ∑ b, A f b * a b = ∑ t, P f t / R t := by
      simp only [ha, Finset.mul_sum]
      rw [Finset.sum_comm]
      apply Finset.sum_congr rfl
      intro t _
      rw [Finset.sum_congr rfl fun b _ => show A f b * (P f t * iR f t ^ 2 * V t b) = P f t * iR f t ^ 2 * (A f b * V t b) by ring, ← Finset.mul_sum, ← hRs, hiR]
      have := (hR t).ne'
      field_simp
    have e2 : ∑ b, w b * A f b = ∑ t : τ, (1 : ℝ) := by
      simp only [hw, weight, Finset.sum_mul]
      rw [Finset.sum_comm]
      apply Finset.sum_congr rfl
      intro t _
      rw [Finset.sum_congr rfl fun b _ => show iR f t * V t b * A f b = iR f t * (A f b * V t b) by ring, ← Finset.mul_sum, ← hRs, hiR]
      exact one_div_mul_cancel (hR t).ne'
    rw [Finset.sum_add_distrib, Finset.sum_add_distrib, e1, e2]
  have hco : ∑ b, A f b ^ 2 * a b / A' b + ∑ b, w b * A' b ≤ ∑ b, (A f b * a b + w b * A f b) := by
    rw [← Finset.sum_add_distrib]
    exact Finset.sum_le_sum fun b _ => coordinate (hA b) (ha0 b) (hw0 b)
  calc ∑ t, fit (P f t) (R' t) ≤ ∑ t, (P f t * (∑ b, A f b ^ 2 * V t b / A' b) / R t ^ 2 + (R' t / R t - 1 + Real.log (R t))) := Finset.sum_le_sum fun t _ => hframe t
    _ = (∑ b, A f b ^ 2 * a b / A' b + ∑ b, w b * A' b) + ∑ t, (Real.log (R t) - 1) := by
        rw [← hs1, ← hs2, ← Finset.sum_add_distrib, ← Finset.sum_add_distrib]
        exact Finset.sum_congr rfl fun t _ => by ring
    _ ≤ ∑ t, (P f t / R t + 1) + ∑ t, (Real.log (R t) - 1) := by
        rw [← hs3]
        linarith
    _ = ∑ t, fit (P f t) (R t) := by
        rw [← Finset.sum_add_distrib]
        exact Finset.sum_congr rfl fun t _ => by unfold fit; ring

/-! ## The objective -/

/-- Objective (specification): the negative logarithm of the likelihood of signals whose variances are the products of basis and activations. -/
noncomputable def objective (X : Fin F → Fin K → Fin T → ℂ) (W : Fin F → Matrix (Fin K) (Fin K) ℂ) (basis : Fin K → Fin F → Fin B → ℝ) (act : Fin K → Fin T → Fin B → ℝ) : ℝ :=
  ∑ s, ∑ f, (∑ t, (‖∑ c, W f s c * X f c t‖ ^ 2 / (∑ b, basis s f b * act s t b) + Real.log (∑ b, basis s f b * act s t b))) / T - 2 * ∑ f, Real.log ‖(W f).det‖

/-- The state during an iteration: the sources in `todo` have not been updated. -/
structure Fresh (X : Fin F → Fin K → Fin T → ℂ) (st : State K F T B) (todo : List (Fin K)) : Prop where
  P : ∀ s ∈ todo, ∀ f t, st.P s f t = ‖∑ c, st.W f s c * X f c t‖ ^ 2
  iR : ∀ s f t, st.iR s f t = 1 / ∑ b, st.basis s f b * st.act s t b
  R : ∀ s f t, 0 < ∑ b, st.basis s f b * st.act s t b
  basis : ∀ s f b, eps ≤ st.basis s f b
  act : ∀ s t b, eps ≤ st.act s t b

/-- The floor is not needed for the products in the update of a source. -/
def Above (st : State K F T B) (s : Fin K) : Prop :=
  (∀ f t, eps ≤ product ((stepBasis st s).basis s) (st.act s) f t) ∧ ∀ f t, eps ≤ product ((stepBasis st s).basis s) ((stepAct (stepBasis st s) s).act s) f t

/-- One source of the objective. -/
noncomputable def part (X : Fin F → Fin K → Fin T → ℂ) (W : Fin F → Matrix (Fin K) (Fin K) ℂ) (basis : Fin K → Fin F → Fin B → ℝ) (act : Fin K → Fin T → Fin B → ℝ) (s : Fin K) : ℝ :=
  ∑ f, (∑ t, fit (‖∑ c, W f s c * X f c t‖ ^ 2) (product (basis s) (act s) f t)) / T

theorem objective_eq (X : Fin F → Fin K → Fin T → ℂ) (W : Fin F → Matrix (Fin K) (Fin K) ℂ) (basis : Fin K → Fin F → Fin B → ℝ) (act : Fin K → Fin T → Fin B → ℝ) :
    objective X W basis act = ∑ s, part X W basis act s - 2 * ∑ f, Real.log ‖(W f).det‖ := rfl

theorem stepBasis_fresh {X : Fin F → Fin K → Fin T → ℂ} {st : State K F T B} {s : Fin K} {todo : List (Fin K)} (h : Fresh X st (s :: todo))
    (ha : ∀ f t, eps ≤ product ((stepBasis st s).basis s) (st.act s) f t) :
    Fresh X (stepBasis st s) (s :: todo) ∧ objective X st.W (stepBasis st s).basis st.act ≤ objective X st.W st.basis st.act := by
  have he := eps_pos
  have hother : ∀ k, k ≠ s → (stepBasis st s).basis k = st.basis k := by
    intro k hk
    funext f b
    simp only [stepBasis, if_neg hk]
    exact floor_of_ge (h.basis k f b)
  have hself : (stepBasis st s).basis s = fun f b => floor (mult (st.P s) (st.iR s) (st.basis s) (st.act s) f b) := by
    funext f b
    simp only [stepBasis, if_true]
  constructor
  · refine ⟨h.P, ?_, ?_, fun k f b => floor_ge _, h.act⟩
    · intro k f t
      by_cases hk : k = s
      · subst hk
        change (Function.update st.iR k fun f t => 1 / floor (product ((stepBasis st k).basis k) (st.act k) f t)) k f t = _
        rw [Function.update_self, floor_of_ge (ha f t)]
        rfl
      · change (Function.update st.iR s fun f t => 1 / floor (product ((stepBasis st s).basis s) (st.act s) f t)) k f t = _
        rw [Function.update_of_ne hk, hother k hk]
        exact h.iR k f t
    · intro k f t
      by_cases hk : k = s
      · subst hk
        exact lt_of_lt_of_le he (ha f t)
      · rw [hother k hk]
        exact h.R k f t
  · rw [objective_eq, objective_eq]
    apply sub_le_sub_right
    apply Finset.sum_le_sum
    intro k _
    unfold part
    by_cases hk : k = s
    · subst hk
      apply Finset.sum_le_sum
      intro f _
      apply div_le_div_of_nonneg_right _ (Nat.cast_nonneg _)
      rw [hself]
      simp only [← h.P k List.mem_cons_self]
      exact mult_fit f (fun t => by rw [h.P k List.mem_cons_self]; exact sq_nonneg _) (h.basis k f) (fun t b => lt_of_lt_of_le he (h.act k t b)) (h.R k f) (h.iR k f)
    · rw [hother k hk]

theorem product_comm {α τ : Type} (A : α → Fin B → ℝ) (V : τ → Fin B → ℝ) (f : α) (t : τ) : product A V f t = product V A t f := by
  unfold product
  exact Finset.sum_congr rfl fun b _ => mul_comm _ _

theorem stepAct_fresh {X : Fin F → Fin K → Fin T → ℂ} {st : State K F T B} {s : Fin K} {todo : List (Fin K)} (h : Fresh X st (s :: todo))
    (ha : ∀ f t, eps ≤ product (st.basis s) ((stepAct st s).act s) f t) :
    Fresh X (stepAct st s) (s :: todo) ∧ objective X st.W st.basis (stepAct st s).act ≤ objective X st.W st.basis st.act := by
  have he := eps_pos
  have hother : ∀ k, k ≠ s → (stepAct st s).act k = st.act k := by
    intro k hk
    funext f b
    simp only [stepAct, if_neg hk]
    exact floor_of_ge (h.act k f b)
  have hself : (stepAct st s).act s = fun t b => floor (mult (fun t f => st.P s f t) (fun t f => st.iR s f t) (st.act s) (st.basis s) t b) := by
    funext f b
    simp only [stepAct, if_true]
  constructor
  · refine ⟨h.P, ?_, ?_, h.basis, fun k f b => floor_ge _⟩
    · intro k f t
      by_cases hk : k = s
      · subst hk
        change (Function.update st.iR k fun f t => 1 / floor (product (st.basis k) ((stepAct st k).act k) f t)) k f t = _
        rw [Function.update_self, floor_of_ge (ha f t)]
        rfl
      · change (Function.update st.iR s fun f t => 1 / floor (product (st.basis s) ((stepAct st s).act s) f t)) k f t = _
        rw [Function.update_of_ne hk, hother k hk]
        exact h.iR k f t
    · intro k f t
      by_cases hk : k = s
      · subst hk
        exact lt_of_lt_of_le he (ha f t)
      · rw [hother k hk]
        exact h.R k f t
  · rw [objective_eq, objective_eq]
    apply sub_le_sub_right
    apply Finset.sum_le_sum
    intro k _
    unfold part
    by_cases hk : k = s
    · subst hk
      rw [← Finset.sum_div, ← Finset.sum_div, Finset.sum_comm, Finset.sum_comm (γ := Fin F) (f := fun f t => fit (‖∑ c, st.W f k c * X f c t‖ ^ 2) (product (st.basis k) (st.act k) f t))]
      apply div_le_div_of_nonneg_right _ (Nat.cast_nonneg _)
      apply Finset.sum_le_sum
      intro t _
      rw [hself]
      simp only [← h.P k List.mem_cons_self, product_comm (st.basis k)]
      exact mult_fit (P := fun t f => st.P k f t) (iR := fun t f => st.iR k f t) t (fun f => by simp only [h.P k List.mem_cons_self]; exact sq_nonneg _) (h.act k t) (fun f b => lt_of_lt_of_le he (h.basis k f b)) (fun f => by rw [← product_comm]; exact h.R k f t)
        (fun f => by rw [← product_comm (st.basis k)]; exact h.iR k f t)
    · rw [hother k hk]

theorem gram_eq (x : Fin K → Fin T → ℂ) {v r : Fin T → ℝ} (h : ∀ t, v t = 1 / r t) : gram x v = weighted x r := by
  ext i j
  simp only [gram, weighted, of_apply, h]

theorem stepRow_fresh {X : Fin F → Fin K → Fin T → ℂ} {st st' : State K F T B} {s : Fin K} {todo : List (Fin K)} (h : Fresh X st (s :: todo)) (hn : s ∉ todo) (hs : stepRow X st s = some st') :
    Fresh X st' todo ∧ objective X st'.W st'.basis st'.act ≤ objective X st.W st.basis st.act := by
  unfold stepRow at hs
  rw [Option.map_eq_some_iff] at hs
  obtain ⟨w, hw, rfl⟩ := hs
  rw [gather_some] at hw
  constructor
  · refine ⟨fun k hk f t => ?_, h.iR, h.R, h.basis, h.act⟩
    have hne : k ≠ s := fun e => hn (e ▸ hk)
    dsimp only
    rw [updateRow_ne hne]
    exact h.P k (List.mem_cons_of_mem _ hk) f t
  · dsimp only
    rw [objective_eq, objective_eq]
    rw [← Finset.add_sum_erase _ _ (Finset.mem_univ s), ← Finset.add_sum_erase (a := s) (f := fun s => part X st.W st.basis st.act s) _ (Finset.mem_univ s)]
    have h1 : ∑ k ∈ Finset.univ.erase s, part X (fun f => (st.W f).updateRow s (w f)) st.basis st.act k = ∑ k ∈ Finset.univ.erase s, part X st.W st.basis st.act k := by
      apply Finset.sum_congr rfl
      intro k hk
      unfold part
      simp only [updateRow_ne (Finset.ne_of_mem_erase hk)]
    rw [h1]
    have h2 : part X (fun f => (st.W f).updateRow s (w f)) st.basis st.act s - 2 * ∑ f, Real.log ‖((st.W f).updateRow s (w f)).det‖ ≤ part X st.W st.basis st.act s - 2 * ∑ f, Real.log ‖(st.W f).det‖ := by
      unfold part
      rw [Finset.mul_sum, Finset.mul_sum, ← Finset.sum_sub_distrib, ← Finset.sum_sub_distrib]
      apply Finset.sum_le_sum
      intro f _
      have hwf := hw f
      rw [gram_eq (X f) (h.iR s f)] at hwf
      have hb := C82_best (fun t => h.R s f t) hwf (st.W f s) (by
        rw [updateRow_eq_self]
        exact (row_spec (weighted_psd (X f) fun t => h.R s f t) hwf).2.1.ne_zero)
      rw [updateRow_eq_self] at hb
      unfold fit
      simp only [updateRow_self, Finset.sum_add_distrib, add_div, product]
      linarith
    linarith

/-- **C83** The update of one source does not increase the objective, as long as the products of basis and activations need no floor. -/
theorem C83_source {X : Fin F → Fin K → Fin T → ℂ} {st st' : State K F T B} {s : Fin K} {todo : List (Fin K)} (h : Fresh X st (s :: todo)) (hn : s ∉ todo) (ha : Above st s)
    (hs : source X st s = some st') : Fresh X st' todo ∧ objective X st'.W st'.basis st'.act ≤ objective X st.W st.basis st.act := by
  unfold source at hs
  split at hs
  · exact nomatch hs
  · dsimp only at hs
    split at hs
    · exact nomatch hs
    · obtain ⟨h1, h2⟩ := stepBasis_fresh h ha.1
      obtain ⟨h3, h4⟩ := stepAct_fresh h1 ha.2
      obtain ⟨h5, h6⟩ := stepRow_fresh h3 hn hs
      exact ⟨h5, (h6.trans h4).trans h2⟩

/-- The floor is not needed for the products in the updates of several sources. -/
def AboveAll (X : Fin F → Fin K → Fin T → ℂ) : List (Fin K) → State K F T B → Prop
  | [], _ => True
  | s :: l, st => Above st s ∧ ∀ st', source X st s = some st' → AboveAll X l st'

theorem sources_fresh {X : Fin F → Fin K → Fin T → ℂ} (l : List (Fin K)) (hl : l.Nodup) {st st' : State K F T B} (h : Fresh X st l) (ha : AboveAll X l st) (hs : l.foldlM (source X) st = some st') :
    Fresh X st' [] ∧ objective X st'.W st'.basis st'.act ≤ objective X st.W st.basis st.act := by
  induction l generalizing st with
  | nil =>
    simp only [List.foldlM_nil, Option.pure_def, Option.some.injEq] at hs
    subst hs
    exact ⟨h, le_refl _⟩
  | cons s l ih =>
    rw [List.foldlM_cons, Option.bind_eq_bind, Option.bind_eq_some_iff] at hs
    obtain ⟨st1, h1, h2⟩ := hs
    rw [List.nodup_cons] at hl
    obtain ⟨h3, h4⟩ := C83_source h hl.1 ha.1 h1
    obtain ⟨h5, h6⟩ := ih hl.2 h3 (ha.2 st1 h1) h2
    exact ⟨h5, h6.trans h4⟩

/-- **C83** The updates of all sources in an iteration do not increase the objective, and leave the state as consistent as it was. -/
theorem C83_pass {X : Fin F → Fin K → Fin T → ℂ} {st st' : State K F T B} (h : Fresh X st (List.finRange K)) (ha : AboveAll X (List.finRange K) st) (hs : pass X st = some st') :
    Fresh X st' (List.finRange K) ∧ objective X st'.W st'.basis st'.act ≤ objective X st.W st.basis st.act := by
  unfold pass at hs
  rw [Option.map_eq_some_iff] at hs
  obtain ⟨st1, h1, rfl⟩ := hs
  obtain ⟨h2, h3⟩ := sources_fresh _ (List.nodup_finRange K) h ha h1
  exact ⟨⟨fun _ _ _ _ => rfl, h2.iR, h2.R, h2.basis, h2.act⟩, h3⟩

/-- **C83** The first iteration starts from a consistent state. -/
theorem C83_init (X : Fin F → Fin K → Fin T → ℂ) (W0 : Option (Fin F → Matrix (Fin K) (Fin K) ℂ)) (hB : 1 ≤ B) {basis : Fin K → Fin F → Fin B → ℝ} {act : Fin K → Fin T → Fin B → ℝ}
    (hb : ∀ s f b, 1 / 10 ≤ basis s f b) (ha : ∀ s t b, 1 / 10 ≤ act s t b) : Fresh X (init X W0 basis act) (List.finRange K) := by
  have he : eps ≤ 1 / 10 := by
    unfold eps
    norm_num
  refine ⟨fun _ _ _ _ => rfl, fun _ _ _ => rfl, fun s f t => ?_, fun s f b => he.trans (hb s f b), fun s t b => he.trans (ha s t b)⟩
  have : Nonempty (Fin B) := ⟨⟨0, hB⟩⟩
  exact Finset.sum_pos (fun b _ => mul_pos (by have := hb s f b; simp only [init]; linarith) (by have := ha s t b; simp only [init]; linarith)) Finset.univ_nonempty

/-! ## The scaling -/

/-- **C83** The scaling gives the powers that are kept a mean of one. -/
theorem C83_power {st st' : State K F T B} (hF : 1 ≤ F) (hT : 1 ≤ T) (hP : ∀ s f t, 0 ≤ st.P s f t) (h : scale st = some st') (s : Fin K) : ∑ f, ∑ t, st'.P s f t = F * T := by
  unfold scale at h
  split at h
  · exact nomatch h
  · rename_i h0
    rw [Option.some.injEq] at h
    subst h
    push Not at h0
    have h1 : 0 < ∑ f, ∑ t, st.P s f t := lt_of_le_of_ne (Finset.sum_nonneg fun f _ => Finset.sum_nonneg fun t _ => hP s f t) (h0 s).symm
    have hF0 : (0 : ℝ) < F := by exact_mod_cast hF
    have hT0 : (0 : ℝ) < T := by exact_mod_cast hT
    simp only [← Finset.sum_mul]
    unfold level
    rw [div_pow, Real.sq_sqrt (by positivity)]
    field_simp

/-- **C83** Deviation: `iR` is not scaled with the rest; from the second iteration on the first update of a basis uses a variance that is wrong by the square of the factor. -/
theorem C83_stale_deviation {X : Fin F → Fin K → Fin T → ℂ} {st st' : State K F T B} {todo : List (Fin K)} (hf : Fresh X st todo) (h : scale st = some st') (s : Fin K) (f : Fin F) (t : Fin T) :
    st'.iR s f t * ∑ b, st'.basis s f b * st'.act s t b = level (st.P s) ^ 2 := by
  unfold scale at h
  split at h
  · exact nomatch h
  · rw [Option.some.injEq] at h
    subst h
    dsimp only
    rw [hf.iR, Finset.sum_congr rfl fun b _ => show st.basis s f b * level (st.P s) ^ 2 * st.act s t b = level (st.P s) ^ 2 * (st.basis s f b * st.act s t b) by ring, ← Finset.mul_sum]
    have := (hf.R s f t).ne'
    field_simp

/-- One frequency, one frame, two sources. -/
noncomputable def skew : State 2 1 1 1 where
  W := fun _ => !![1, 1; 0, 1]
  basis := fun _ _ _ => 1
  act := fun _ _ _ => 1
  P := fun s _ _ => if s = 0 then 4 else 1
  iR := fun _ _ _ => 1

/-- **C83** Deviation: the scaling multiplies the columns of the demixing matrices and not the rows. From a consistent state it leads to one where the powers are not those of the signals and
where the objective is greater. -/
theorem C83_column_deviation : ∃ (X : Fin 1 → Fin 2 → Fin 1 → ℂ) (st st' : State 2 1 1 1), Fresh X st (List.finRange 2) ∧ scale st = some st' ∧ st'.P 0 0 0 ≠ ‖demix X st'.W 0 0 0‖ ^ 2 ∧
    objective X st.W st.basis st.act < objective X st'.W st'.basis st'.act := by
  have he : eps ≤ 1 := by
    unfold eps
    norm_num
  have hl0 : level (skew.P 0) = 1 / 2 := by
    unfold level skew
    have : Real.sqrt 4 = 2 := by
      rw [show (4 : ℝ) = 2 ^ 2 by norm_num]
      exact Real.sqrt_sq (by norm_num)
    simp [this]
  have hl1 : level (skew.P 1) = 1 := by
    unfold level skew
    simp
  have hs : ¬∃ s, ∑ f, ∑ t, skew.P s f t = 0 := by
    push Not
    intro s
    fin_cases s <;> simp [skew]
  have hsc : scale skew = _ := if_neg hs
  refine ⟨fun _ _ _ => 1, skew, _, ⟨?_, ?_, ?_, ?_, ?_⟩, hsc, ?_, ?_⟩
  · intro s _ f t
    fin_cases s
    · simp [skew]
      norm_num
    · simp [skew]
  · intro s f t
    simp [skew]
  · intro s f t
    simp [skew]
  · intro s f b
    simpa [skew] using he
  · intro s f b
    simpa [skew] using he
  · dsimp only
    simp only [demix, Fin.sum_univ_two, of_apply, hl0, hl1]
    simp [skew]
    norm_num
  · dsimp only
    unfold objective
    simp only [Fin.sum_univ_two, of_apply, hl0, hl1, det_fin_two]
    simp [skew]
    norm_num
    linarith

/-! ## No division by zero -/

/-- **C83** The update of a source succeeds when the mixtures have covariance matrices that are definite and the demixing matrices are invertible, and they stay so. -/
theorem C83_total {X : Fin F → Fin K → Fin T → ℂ} {st : State K F T B} (hF : 1 ≤ F) (hT : 1 ≤ T) (hX : ∀ f, (weighted (X f) fun _ => 1).PosDef) (hW : ∀ f, IsUnit (st.W f).det)
    (hi : ∀ s f t, 0 < st.iR s f t) (hv : ∀ s t b, eps ≤ st.act s t b) (s : Fin K) :
    ∃ st', source X st s = some st' ∧ (∀ f, IsUnit (st'.W f).det) ∧ (∀ s f t, 0 < st'.iR s f t) ∧ (∀ s f b, eps ≤ st'.basis s f b) ∧ ∀ s t b, eps ≤ st'.act s t b := by
  have he := eps_pos
  have : Nonempty (Fin F) := ⟨⟨0, hF⟩⟩
  have : Nonempty (Fin T) := ⟨⟨0, hT⟩⟩
  have hupd : ∀ {R : Fin F → Fin T → ℝ} {iR : Fin K → Fin F → Fin T → ℝ}, (∀ s f t, 0 < iR s f t) → ∀ k f t, 0 < (Function.update iR s fun f t => 1 / floor (R f t)) k f t := by
    intro R iR h k f t
    by_cases hk : k = s
    · subst hk
      rw [Function.update_self]
      exact one_div_pos.mpr (lt_of_lt_of_le he (floor_ge _))
    · rw [Function.update_of_ne hk]
      exact h k f t
  have hb1 : ∀ k f b, eps ≤ (stepBasis st s).basis k f b := fun k f b => floor_ge _
  have hi1 : ∀ k f t, 0 < (stepBasis st s).iR k f t := hupd hi
  have hv2 : ∀ k t b, eps ≤ (stepAct (stepBasis st s) s).act k t b := fun k f b => floor_ge _
  have hi2 : ∀ k f t, 0 < (stepAct (stepBasis st s) s).iR k f t := hupd hi1
  have hrow : ∀ f, ∃ w, row (st.W f) (gram (X f) ((stepAct (stepBasis st s) s).iR s f)) s = some w ∧ IsUnit ((st.W f).updateRow s w).det := by
    intro f
    rw [gram_eq (X f) (r := fun t => 1 / (stepAct (stepBasis st s) s).iR s f t) fun t => (one_div_one_div _).symm]
    exact row_total (definite (fun _ => one_pos) (fun t => one_div_pos.mpr (hi2 s f t)) (hX f)) (hW f) s
  choose w hw hd using hrow
  refine ⟨{ stepAct (stepBasis st s) s with W := fun f => (st.W f).updateRow s (w f) }, ?_, hd, hi2, hb1, hv2⟩
  unfold source
  rw [if_neg]
  · dsimp only
    rw [if_neg]
    · unfold stepRow
      rw [Option.map_eq_some_iff]
      exact ⟨w, gather_some.mpr hw, rfl⟩
    · push Not
      intro t b
      exact (Finset.sum_pos (fun f _ => mul_pos (hi1 s f t) (lt_of_lt_of_le he (hb1 s f b))) Finset.univ_nonempty).ne'
  · push Not
    intro f b
    exact (Finset.sum_pos (fun t _ => mul_pos (hi s f t) (lt_of_lt_of_le he (hv s t b))) Finset.univ_nonempty).ne'

/-! ## Examples -/

/-- One frequency, one frame, one source. -/
noncomputable def unit : State 1 1 1 1 where
  W := fun _ => 1
  basis := fun _ _ _ => 2
  act := fun _ _ _ => 1
  P := fun _ _ _ => 8
  iR := fun _ _ _ => 1 / 2

theorem unit_fresh : Fresh (fun _ _ _ => ⟨2, 2⟩) unit (List.finRange 1) := by
  have he : eps ≤ 1 := by
    unfold eps
    norm_num
  refine ⟨?_, ?_, ?_, ?_, ?_⟩
  · intro s _ f t
    rw [Complex.sq_norm, Complex.normSq_apply]
    simp [unit, Fin.fin_one_eq_zero]
    norm_num
  · intro s f t
    simp [unit]
  · intro s f t
    simp [unit]
  · intro s f b
    simp only [unit]
    linarith
  · intro s f b
    simpa [unit] using he

/-- The hypotheses of `C83_source` can be met. -/
example : Above unit 0 := by
  have he := eps_pos
  have he1 : eps ≤ 1 := by
    unfold eps
    norm_num
  have h2 : Real.sqrt 4 = 2 := by
    rw [show (4 : ℝ) = 2 ^ 2 by norm_num]
    exact Real.sqrt_sq (by norm_num)
  have h1 : ∀ f b, (stepBasis unit 0).basis 0 f b = 4 := by
    intro f b
    simp only [stepBasis, if_true, mult, weight, unit, Finset.univ_unique, Finset.sum_singleton]
    rw [show (8 : ℝ) * (1 / 2) ^ 2 * 1 / (1 / 2 * 1) = 4 by norm_num, h2]
    norm_num
    exact floor_of_ge (by linarith)
  have h3 : ∀ f t, product ((stepBasis unit 0).basis 0) (unit.act 0) f t = 4 := by
    intro f t
    simp only [product, h1, Finset.univ_unique, Finset.sum_singleton]
    simp [unit]
  have h4 : ∀ f t, (stepBasis unit 0).iR 0 f t = 1 / 4 := by
    intro f t
    change (Function.update unit.iR 0 fun f t => 1 / floor (product ((stepBasis unit 0).basis 0) (unit.act 0) f t)) 0 f t = _
    rw [Function.update_self, h3, floor_of_ge (by linarith)]
  have h5 : ∀ t b, (stepAct (stepBasis unit 0) 0).act 0 t b = Real.sqrt 2 := by
    intro t b
    have h6 : (1 : ℝ) ≤ Real.sqrt 2 := by
      rw [Real.one_le_sqrt]
      norm_num
    simp only [stepAct, if_true, mult, weight, h1, h4, Finset.univ_unique, Finset.sum_singleton]
    rw [show (stepBasis unit 0).act 0 t b = 1 from rfl, show (stepBasis unit 0).P 0 default t = 8 from rfl, show (8 : ℝ) * (1 / 4) ^ 2 * 4 / (1 / 4 * 4) = 2 by norm_num, one_mul]
    exact floor_of_ge (by linarith)
  constructor
  · intro f t
    rw [h3]
    linarith
  · intro f t
    have h6 : (1 : ℝ) ≤ Real.sqrt 2 := by
      rw [Real.one_le_sqrt]
      norm_num
    simp only [product, h1, h5, Finset.univ_unique, Finset.sum_singleton]
    linarith

/-- The hypotheses of `C83_total` can be met. -/
example : (weighted (fun _ : Fin 1 => fun _ : Fin 1 => (2 : ℂ)) fun _ => 1).PosDef := by
  apply PosDef.of_dotProduct_mulVec_pos (weighted_herm _ _)
  intro v hv
  have h0 : v 0 ≠ 0 := by
    intro h
    apply hv
    funext i
    rw [Fin.fin_one_eq_zero i]
    exact h
  have h1 : star v ⬝ᵥ weighted (fun _ : Fin 1 => fun _ : Fin 1 => (2 : ℂ)) (fun _ => 1) *ᵥ v = ((4 * ‖v 0‖ ^ 2 : ℝ) : ℂ) := by
    have h2 := Complex.mul_conj' (v 0)
    simp [weighted, mulVec, dotProduct, Fin.fin_one_eq_zero]
    rw [← h2]
    ring
  rw [h1, Complex.zero_lt_real]
  have := norm_pos_iff.mpr h0
  positivity

end Verif.Ilrma
