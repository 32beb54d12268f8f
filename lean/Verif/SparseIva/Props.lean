import Verif.SparseIva.Model
import Verif.Sparir.Props
import Mathlib.Algebra.BigOperators.Field

namespace Verif.SparseIva

open Matrix

variable {T F k : ℕ}

/-! ## Specification -/

/-- The output of the filter `w` (one entry per channel) in a bin. -/
noncomputable def out (X : Fin T → Fin F → Fin 2 → ℂ) (f : Fin F) (w : Fin 2 → ℂ) (t : Fin T) : ℂ := star (w 0) * X t f 0 + star (w 1) * X t f 1

/-- The correlation of two outputs with weights. -/
noncomputable def corr (r : Fin T → ℝ) (y z : Fin T → ℂ) : ℂ := (∑ t, y t * star (z t) / (r t : ℂ)) / (T : ℂ)

open Classical in
/-- The power of a source in a frame over the selected bins. -/
noncomputable def energy (X : Fin T → Fin F → Fin 2 → ℂ) (S : Fin k → Fin F) (W : Fin F → Matrix (Fin 2) (Fin 2) ℂ) (s : Fin 2) (t : Fin T) : ℝ :=
  ∑ f with ∃ i, S i = f, ‖out X f (fun c => W f c s) t‖ ^ 2

/-- The weight of a frame. -/
noncomputable def weight (kind : Kind) (F : ℕ) (e : ℝ) : ℝ :=
  match kind with
  | .laplace => max (2 * Real.sqrt e) (1 / 10 ^ 10)
  | .gauss => max (e / F) (1 / 10 ^ 10)

/-! ## Lemmas -/

/-- Equal matrices at the selected bins, and equal outputs that vanish elsewhere. -/
structure Agree (S : Fin k → Fin F) (a b : State T F) : Prop where
  W : ∀ s, a.W (S s) = b.W (S s)
  Y : a.Y = b.Y
  off : ∀ t f i, (∀ s, S s ≠ f) → a.Y t f i = 0

theorem agree_demix {X X' : Fin T → Fin F → Fin 2 → ℂ} {S : Fin k → Fin F} (hX : ∀ t s, X t (S s) = X' t (S s)) {a b : State T F} (h : Agree S a b) :
    Agree S (demix X S k a) (demix X' S k b) := by
  refine ⟨h.W, ?_, ?_⟩
  · funext t f i
    unfold demix
    simp only
    by_cases hf : ∃ i : Fin k, (i : ℕ) < k ∧ S i = f
    · rw [if_pos hf, if_pos hf]
      obtain ⟨s, _, rfl⟩ := hf
      unfold demixBin
      rw [hX t s, h.W s]
    · rw [if_neg hf, if_neg hf, h.Y]
  · intro t f i hf
    unfold demix
    simp only
    rw [if_neg]
    · exact h.off t f i hf
    · rintro ⟨s, _, hs⟩
      exact hf s hs

theorem agree_source {X X' : Fin T → Fin F → Fin 2 → ℂ} {S : Fin k → Fin F} (hX : ∀ t s, X t (S s) = X' t (S s)) {a b a' b' : State T F} (h : Agree S a b) (r : Fin T → Fin 2 → ℝ) (i : Fin 2)
    (ha : source X r i a = some a') (hb : source X' r i b = some b') : Agree S a' b' := by
  unfold source at ha hb
  split at ha
  swap
  · simp at ha
  split at hb
  swap
  · simp at hb
  rw [← Option.some.inj ha, ← Option.some.inj hb]
  refine ⟨?_, h.Y, h.off⟩
  intro s
  simp only
  have hc : cov X r (S s) i = cov X' r (S s) i := by
    unfold cov
    congr 1
    funext c d
    congr 1
    refine Finset.sum_congr rfl fun t _ => ?_
    rw [hX t s]
  rw [h.W s, hc]

theorem agree_epoch {kind : Kind} {X X' : Fin T → Fin F → Fin 2 → ℂ} {S : Fin k → Fin F} (hX : ∀ t s, X t (S s) = X' t (S s)) {a b a' b' : State T F} (h : Agree S a b)
    (ha : epoch kind X S a = some a') (hb : epoch kind X' S b = some b') : Agree S a' b' := by
  unfold epoch at ha hb
  obtain ⟨a1, ha1, ha2⟩ := Option.bind_eq_some_iff.mp ha
  obtain ⟨b1, hb1, hb2⟩ := Option.bind_eq_some_iff.mp hb
  have h0 := agree_demix hX h
  rw [← h0.Y] at hb1 hb2
  exact agree_source hX (agree_source hX h0 _ 0 ha1 hb1) _ 1 ha2 hb2

theorem agree_iterate {kind : Kind} {X X' : Fin T → Fin F → Fin 2 → ℂ} {S : Fin k → Fin F} (hX : ∀ t s, X t (S s) = X' t (S s)) (n : ℕ) {a b a' b' : State T F} (h : Agree S a b)
    (ha : iterate kind X S n a = some a') (hb : iterate kind X' S n b = some b') : Agree S a' b' := by
  induction n generalizing a b with
  | zero =>
    rw [← Option.some.inj ha, ← Option.some.inj hb]
    exact h
  | succ n ih =>
    obtain ⟨a1, ha1, ha2⟩ := Option.bind_eq_some_iff.mp ha
    obtain ⟨b1, hb1, hb2⟩ := Option.bind_eq_some_iff.mp hb
    exact ih (agree_epoch hX h ha1 hb1) ha2 hb2

theorem agree_init (S : Fin k → Fin F) {W0 W0' : Option (Fin F → Matrix (Fin 2) (Fin 2) ℂ)} (hW : ∀ s, W0.getD (fun _ => 1) (S s) = W0'.getD (fun _ => 1) (S s)) :
    Agree S (init T W0) (init T W0') := ⟨hW, rfl, fun _ _ _ _ => rfl⟩

/-- The parts of a run. -/
theorem run_eq {X : Fin T → Fin F → Fin 2 → ℂ} {S : Fin k → Fin F} {n : ℕ} {pb : Bool} {W0} {kind : Kind} {Y W} (h : sparseauxiva X S n pb W0 kind = some (Y, W)) :
    ∃ st h0 h1, iterate kind X S n (init T W0) = some st ∧ hrtf S st.W 0 = some h0 ∧ hrtf S st.W 1 = some h1 ∧ W = assemble ![h0, h1] ∧
      Y = if pb then fun t f i => (demix X (fun f : Fin F => f) k { st with W := assemble ![h0, h1] }).Y t f i *
          star (scale X (demix X (fun f : Fin F => f) k { st with W := assemble ![h0, h1] }).Y f i)
        else (demix X (fun f : Fin F => f) k { st with W := assemble ![h0, h1] }).Y := by
  unfold sparseauxiva at h
  obtain ⟨st, hst, h⟩ := Option.bind_eq_some_iff.mp h
  obtain ⟨h0, hh0, h⟩ := Option.bind_eq_some_iff.mp h
  obtain ⟨h1, hh1, h⟩ := Option.map_eq_some_iff.mp h
  refine ⟨st, h0, h1, hst, hh0, hh1, ?_, ?_⟩
  · exact (Prod.ext_iff.mp h).2.symm
  · exact (Prod.ext_iff.mp h).1.symm

theorem hrtf_real {S : Fin k → Fin F} {W : Fin F → Matrix (Fin 2) (Fin 2) ℂ} {i : Fin 2} {h : Fin F → ℂ} (hh : hrtf S W i = some h) : ∃ g : Fin F → ℝ, (∀ f, h f = Sparir.spectrum g f) ∧ (∀ s, W (S s) 1 i ≠ 0) ∧
    Sparir.sparir S (fun s => -star (W (S s) 0 i / W (S s) 1 i)) 50 10 10 (10 ^ 5) (1 / 10 ^ 7) = some g := by
  unfold hrtf at hh
  split at hh
  · next h1 =>
    obtain ⟨g, hg, rfl⟩ := Option.map_eq_some_iff.mp hh
    refine ⟨g, fun f => Sparir.forward_eq (fun _ : Fin 1 => f) g 0, h1, ?_⟩
    rw [← hg]
    congr 1
    funext s
    rw [neg_div, star_neg]
  · simp at hh

theorem least_squares {ι : Type*} [Fintype ι] (x v : ι → ℂ) (a b : ℂ) (h : a * ((∑ t, Complex.normSq (v t) : ℝ) : ℂ) = ∑ t, x t * star (v t)) :
    ∑ t, Complex.normSq (x t - v t * a) ≤ ∑ t, Complex.normSq (x t - b * v t) := by
  have e : ∀ t, Complex.normSq (x t - b * v t) = Complex.normSq (x t - v t * a) + Complex.normSq (a - b) * Complex.normSq (v t) + 2 * (star (a - b) * (x t * star (v t) - a * Complex.normSq (v t))).re := by
    intro t
    rw [show x t - b * v t = (x t - v t * a) + (a - b) * v t by ring, Complex.normSq_add, Complex.normSq_mul]
    congr 3
    rw [show ((Complex.normSq (v t) : ℝ) : ℂ) = v t * star (v t) from (Complex.mul_conj _).symm]
    simp only [Complex.star_def, map_mul]
    ring
  rw [Finset.sum_congr rfl fun t _ => e t, Finset.sum_add_distrib, Finset.sum_add_distrib, ← Finset.mul_sum, ← Finset.mul_sum, ← Complex.re_sum, ← Finset.mul_sum, Finset.sum_sub_distrib, ← h,
    ← Finset.mul_sum, ← Complex.ofReal_sum, sub_self, mul_zero]
  have : 0 ≤ Complex.normSq (a - b) * ∑ t, Complex.normSq (v t) := mul_nonneg (Complex.normSq_nonneg _) (Finset.sum_nonneg fun _ _ => Complex.normSq_nonneg _)
  simp only [Complex.zero_re]
  linarith

theorem demixBin_eq (X : Fin T → Fin F → Fin 2 → ℂ) (W : Fin F → Matrix (Fin 2) (Fin 2) ℂ) (t : Fin T) (f : Fin F) (s : Fin 2) : demixBin X W t f s = out X f (fun c => W f c s) t := by
  unfold demixBin out
  rw [Fin.sum_univ_two]
  ring

theorem radius_eq {kind : Kind} {X : Fin T → Fin F → Fin 2 → ℂ} {S : Fin k → Fin F} {st : State T F} (hoff : ∀ t f i, (∀ s, S s ≠ f) → st.Y t f i = 0) (t : Fin T) (s : Fin 2) :
    radius kind (demix X S k st).Y t s = weight kind F (energy X S st.W s t) := by
  have hp : ∑ f, Complex.normSq ((demix X S k st).Y t f s) = energy X S st.W s t := by
    unfold energy
    rw [Finset.sum_filter]
    refine Finset.sum_congr rfl fun f _ => ?_
    unfold demix
    simp only
    by_cases hf : ∃ i, S i = f
    · rw [if_pos hf, if_pos (by obtain ⟨i, hi⟩ := hf; exact ⟨i, i.2, hi⟩), demixBin_eq, Complex.normSq_eq_norm_sq]
    · rw [if_neg hf, if_neg (by rintro ⟨i, _, hi⟩; exact hf ⟨i, hi⟩), hoff t f s (fun i hi => hf ⟨i, hi⟩), Complex.normSq_zero]
  have he : 0 ≤ energy X S st.W s t := Finset.sum_nonneg fun _ _ => sq_nonneg _
  have hm : ∀ x : ℝ, (if x < eps then eps else x) = max x (1 / 10 ^ 10) := by
    intro x
    unfold eps
    split
    · rw [max_eq_right (by linarith)]
    · rw [max_eq_left (by linarith)]
  unfold radius weight
  simp only [hp, hm]
  cases kind with
  | laplace => rfl
  | gauss => simp only [Real.sq_sqrt he]

theorem weight_pos (kind : Kind) (F : ℕ) (e : ℝ) : 0 < weight kind F e := by
  unfold weight
  split
  · exact lt_max_of_lt_right (by norm_num)
  · exact lt_max_of_lt_right (by norm_num)

theorem cov_form (X : Fin T → Fin F → Fin 2 → ℂ) (r : Fin T → Fin 2 → ℝ) (f : Fin F) (s : Fin 2) (a b : Fin 2 → ℂ) :
    ∑ c, star (a c) * ∑ d, cov X r f s c d * b d = corr (fun t => r t s) (out X f a) (out X f b) := by
  unfold cov corr out
  simp only [Fin.sum_univ_two, Matrix.of_apply, star_add, star_mul', star_star]
  simp only [Finset.sum_div, Finset.sum_mul, Finset.mul_sum, ← Finset.sum_add_distrib]
  refine Finset.sum_congr rfl fun t _ => ?_
  push_cast
  ring

theorem corr_self_re (r : Fin T → ℝ) (y : Fin T → ℂ) : corr r y y = (((∑ t, Complex.normSq (y t) / r t) / T : ℝ) : ℂ) := by
  unfold corr
  push_cast
  congr 1
  refine Finset.sum_congr rfl fun t _ => ?_
  rw [show y t * star (y t) = ((Complex.normSq (y t) : ℝ) : ℂ) from Complex.mul_conj _]

/-- The new column. -/
theorem column_spec {X : Fin T → Fin F → Fin 2 → ℂ} {r : Fin T → Fin 2 → ℝ} (hr : ∀ t s, 0 < r t s) {f : Fin F} {s : Fin 2} {W : Matrix (Fin 2) (Fin 2) ℂ}
    (hdet : (Wᴴ * cov X r f s).det ≠ 0) : corr (fun t => r t s) (out X f (column W (cov X r f s) s)) (out X f (column W (cov X r f s) s)) = 1 ∧
      ∀ j, j ≠ s → corr (fun t => r t s) (out X f fun c => W c j) (out X f (column W (cov X r f s) s)) = 0 := by
  have hsolve : (Wᴴ * cov X r f s) *ᵥ ((Wᴴ * cov X r f s)⁻¹ *ᵥ Pi.single s 1) = Pi.single s 1 := by
    rw [Matrix.mulVec_mulVec, Matrix.mul_nonsing_inv _ (isUnit_iff_ne_zero.mpr hdet), Matrix.one_mulVec]
  unfold column
  simp only
  generalize (Wᴴ * cov X r f s)⁻¹ *ᵥ Pi.single s 1 = w at hsolve
  have hrow : ∀ j, corr (fun t => r t s) (out X f fun c => W c j) (out X f w) = (Pi.single s 1 : Fin 2 → ℂ) j := by
    intro j
    rw [← cov_form, ← hsolve, ← Matrix.mulVec_mulVec]
    rfl
  rw [cov_form]
  have hlin : ∀ (y : Fin T → ℂ) (q : ℝ), corr (fun t => r t s) y (out X f fun c => w c / (q : ℂ)) = corr (fun t => r t s) y (out X f w) / (q : ℂ) := by
    intro y q
    unfold corr out
    rw [div_right_comm]
    congr 1
    rw [Finset.sum_div]
    refine Finset.sum_congr rfl fun t _ => ?_
    simp only [star_add, star_mul', star_star]
    ring
  have hlin2 : ∀ (y : Fin T → ℂ) (q : ℝ), corr (fun t => r t s) (out X f fun c => w c / (q : ℂ)) y = corr (fun t => r t s) (out X f w) y / (q : ℂ) := by
    intro y q
    unfold corr out
    rw [div_right_comm]
    congr 1
    rw [Finset.sum_div]
    refine Finset.sum_congr rfl fun t _ => ?_
    simp only [star_div₀, Complex.star_def, Complex.conj_ofReal]
    ring
  have hq : corr (fun t => r t s) (out X f w) (out X f w) ≠ 0 := by
    intro h0
    rw [corr_self_re] at h0
    have h1 : (∑ t, Complex.normSq (out X f w t) / r t s) / T = 0 := by exact_mod_cast h0
    have hT : (T : ℝ) ≠ 0 := by
      intro hT
      have hz := hrow s
      unfold corr at hz
      rw [show ((T : ℕ) : ℂ) = 0 by exact_mod_cast hT, div_zero] at hz
      simp at hz
    have h2 := (div_eq_zero_iff.mp h1).resolve_right hT
    have h3 : ∀ t, out X f w t = 0 := by
      intro t
      have := (Finset.sum_eq_zero_iff_of_nonneg (fun t _ => div_nonneg (Complex.normSq_nonneg (out X f w t)) (hr t s).le)).mp h2 t (Finset.mem_univ t)
      exact Complex.normSq_eq_zero.mp ((div_eq_zero_iff.mp this).resolve_right (hr t s).ne')
    have hz := hrow s
    unfold corr at hz
    simp [h3] at hz
  constructor
  · rw [hlin, hlin2]
    have hre : corr (fun t => r t s) (out X f w) (out X f w) = ((corr (fun t => r t s) (out X f w) (out X f w)).re : ℂ) := by
      rw [corr_self_re, Complex.ofReal_re]
    have hnn : 0 ≤ (corr (fun t => r t s) (out X f w) (out X f w)).re := by
      rw [corr_self_re, Complex.ofReal_re]
      exact div_nonneg (Finset.sum_nonneg fun t _ => div_nonneg (Complex.normSq_nonneg _) (hr t s).le) (Nat.cast_nonneg _)
    rw [div_div, ← Complex.ofReal_mul, Real.mul_self_sqrt hnn, ← hre, div_self hq]
  · intro j hj
    rw [hlin, hrow, Pi.single_eq_of_ne hj, zero_div]

/-! ## Theorems -/

/-- An iteration: with the weights from the outputs at the selected bins, the new output of the first source has weighted power one and is uncorrelated with the previous output of the second
one, and the new output of the second source has weighted power one and is uncorrelated with the new output of the first one, in every bin. The states of a run meet the hypothesis. -/
theorem C117_update {kind : Kind} {X : Fin T → Fin F → Fin 2 → ℂ} {S : Fin k → Fin F} {n : ℕ} {W0 : Option (Fin F → Matrix (Fin 2) (Fin 2) ℂ)} {st st' : State T F}
    (hst : iterate kind X S n (init T W0) = some st) (h : epoch kind X S st = some st') (f : Fin F) :
    corr (fun t => weight kind F (energy X S st.W 0 t)) (out X f fun c => st'.W f c 0) (out X f fun c => st'.W f c 0) = 1 ∧
    corr (fun t => weight kind F (energy X S st.W 0 t)) (out X f fun c => st.W f c 1) (out X f fun c => st'.W f c 0) = 0 ∧
    corr (fun t => weight kind F (energy X S st.W 1 t)) (out X f fun c => st'.W f c 1) (out X f fun c => st'.W f c 1) = 1 ∧
    corr (fun t => weight kind F (energy X S st.W 1 t)) (out X f fun c => st'.W f c 0) (out X f fun c => st'.W f c 1) = 0 := by
  have hoff := (agree_iterate (fun _ _ => rfl) n (agree_init S (fun _ => rfl)) hst hst).off
  unfold epoch at h
  simp only at h
  have hrad : radius kind (demix X S k st).Y = fun t s => weight kind F (energy X S st.W s t) := by
    funext t s
    exact radius_eq hoff t s
  rw [hrad] at h
  obtain ⟨a, ha, hb⟩ := Option.bind_eq_some_iff.mp h
  have hpos : ∀ t s, 0 < (fun t s => weight kind F (energy X S st.W s t)) t s := fun t s => weight_pos kind F _
  unfold source at ha hb
  split at ha
  swap
  · simp at ha
  next hd0 =>
  split at hb
  swap
  · simp at hb
  next hd1 =>
  obtain rfl := Option.some.inj ha
  obtain rfl := Option.some.inj hb
  have h0 := column_spec hpos (hd0 f)
  have h1 := column_spec hpos (hd1 f)
  simp only at h1
  refine ⟨?_, ?_, ?_, ?_⟩
  · simpa [Matrix.updateCol_apply] using h0.1
  · have hW : (demix X S k st).W = st.W := rfl
    simpa [Matrix.updateCol_apply, hW] using h0.2 1 (by decide)
  · simpa [Matrix.updateCol_apply] using h1.1
  · simpa [Matrix.updateCol_apply] using h1.2 0 (by decide)


/-- The filters depend on the data and the initial matrices at the selected bins only. -/
theorem C117_selected {kind : Kind} {X X' : Fin T → Fin F → Fin 2 → ℂ} {S : Fin k → Fin F} {n : ℕ} {pb pb' : Bool} {W0 W0' : Option (Fin F → Matrix (Fin 2) (Fin 2) ℂ)}
    (hX : ∀ t s, X t (S s) = X' t (S s)) (hW : ∀ s, W0.getD (fun _ => 1) (S s) = W0'.getD (fun _ => 1) (S s)) {Y Y' W W'}
    (h : sparseauxiva X S n pb W0 kind = some (Y, W)) (h' : sparseauxiva X' S n pb' W0' kind = some (Y', W')) : W = W' := by
  obtain ⟨st, h0, h1, hst, hh0, hh1, rfl, _⟩ := run_eq h
  obtain ⟨st', h0', h1', hst', hh0', hh1', rfl, _⟩ := run_eq h'
  have hA := agree_iterate hX n (agree_init S hW) hst hst'
  have he : ∀ i, hrtf S st.W i = hrtf S st'.W i := by
    intro i
    unfold hrtf
    simp only [hA.W]
  rw [he] at hh0 hh1
  rw [hh0] at hh0'
  rw [hh1] at hh1'
  rw [Option.some.inj hh0', Option.some.inj hh1']

/-- The filters are those of relative transfer functions: for each source there is a real response with the transform `H`, and in the first `k` bins (`k` the number of selected bins)
the output is `H` times the first channel minus the second one, up to a factor for the bin, which is one without the projection. The responses are what `sparir` (C116) finds from the
ratios of the entries of the last filters of the iterations at the selected bins. -/
theorem C117_output {kind : Kind} {X : Fin T → Fin F → Fin 2 → ℂ} {S : Fin k → Fin F} {n : ℕ} {pb : Bool} {W0 : Option (Fin F → Matrix (Fin 2) (Fin 2) ℂ)} {Y W}
    (h : sparseauxiva X S n pb W0 kind = some (Y, W)) : ∃ g : Fin 2 → Fin F → ℝ, (∀ f i, W f 0 i = star (Sparir.spectrum (g i) f) ∧ W f 1 i = -1) ∧
      (∃ st, iterate kind X S n (init T W0) = some st ∧ ∀ i, (∀ s, st.W (S s) 1 i ≠ 0) ∧
        Sparir.sparir S (fun s => -star (st.W (S s) 0 i / st.W (S s) 1 i)) 50 10 10 (10 ^ 5) (1 / 10 ^ 7) = some (g i)) ∧
      ∃ a : Fin F → Fin 2 → ℂ, (pb = false → ∀ f i, a f i = 1) ∧
        ∀ t (f : Fin F) i, (f : ℕ) < k → Y t f i = a f i * (Sparir.spectrum (g i) f * X t f 0 - X t f 1) := by
  obtain ⟨st, h0, h1, hst, hh0, hh1, rfl, rfl⟩ := run_eq h
  obtain ⟨g0, hg0, hs0⟩ := hrtf_real hh0
  obtain ⟨g1, hg1, hs1⟩ := hrtf_real hh1
  have hH : ∀ (i : Fin 2) (f : Fin F), (![h0, h1] : Fin 2 → Fin F → ℂ) i f = Sparir.spectrum ((![g0, g1] : Fin 2 → Fin F → ℝ) i) f := by
    intro i f
    fin_cases i
    · exact hg0 f
    · exact hg1 f
  refine ⟨![g0, g1], ?_, ⟨st, hst, ?_⟩, ?_⟩
  · intro f i
    constructor
    · show (if (0 : Fin 2) = 0 then star ((![h0, h1] : Fin 2 → Fin F → ℂ) i f) else -1) = _
      rw [if_pos rfl, hH]
    · show (if (1 : Fin 2) = 0 then star ((![h0, h1] : Fin 2 → Fin F → ℂ) i f) else -1) = _
      rw [if_neg (by decide)]
  · intro i
    fin_cases i
    · exact hs0
    · exact hs1
  · have hY : ∀ t (f : Fin F) i, (f : ℕ) < k → (demix X (fun f : Fin F => f) k { st with W := assemble ![h0, h1] }).Y t f i =
        Sparir.spectrum ((![g0, g1] : Fin 2 → Fin F → ℝ) i) f * X t f 0 - X t f 1 := by
      intro t f i hf
      unfold demix
      simp only
      rw [if_pos ⟨f, hf, rfl⟩]
      unfold demixBin
      rw [Fin.sum_univ_two]
      show X t f 0 * star (if (0 : Fin 2) = 0 then star ((![h0, h1] : Fin 2 → Fin F → ℂ) i f) else -1) + X t f 1 * star (if (1 : Fin 2) = 0 then star ((![h0, h1] : Fin 2 → Fin F → ℂ) i f) else -1) = _
      rw [if_pos rfl, if_neg (by decide), star_star, hH]
      simp
      ring
    cases pb with
    | false =>
      refine ⟨fun _ _ => 1, fun _ _ _ => rfl, ?_⟩
      intro t f i hf
      rw [one_mul]
      exact hY t f i hf
    | true =>
      refine ⟨fun f i => star (scale X (demix X (fun f : Fin F => f) k { st with W := assemble ![h0, h1] }).Y f i), fun h => by simp at h, ?_⟩
      intro t f i hf
      rw [if_pos rfl]
      simp only
      rw [hY t f i hf]
      ring

/-- The outputs of the remaining bins are not computed: a bin beyond the number of selected bins that is not one of them is zero, whatever the input. -/
theorem C117_silent_deviation {kind : Kind} {X : Fin T → Fin F → Fin 2 → ℂ} {S : Fin k → Fin F} {n : ℕ} {pb : Bool} {W0 : Option (Fin F → Matrix (Fin 2) (Fin 2) ℂ)} {Y W}
    (h : sparseauxiva X S n pb W0 kind = some (Y, W)) (t : Fin T) (f : Fin F) (i : Fin 2) (hf : k ≤ (f : ℕ)) (hS : ∀ s, S s ≠ f) : Y t f i = 0 := by
  obtain ⟨st, h0, h1, hst, hh0, hh1, rfl, rfl⟩ := run_eq h
  have hA := agree_iterate (fun _ _ => rfl) n (agree_init S (fun _ => rfl)) hst hst
  have hY : (demix X (fun f : Fin F => f) k { st with W := assemble ![h0, h1] }).Y t f i = 0 := by
    unfold demix
    simp only
    rw [if_neg]
    · exact hA.off t f i hS
    · rintro ⟨j, hj, rfl⟩
      omega
  cases pb with
  | false => exact hY
  | true =>
    rw [if_pos rfl, hY, zero_mul]

/-- With the projection the output is in every bin the multiple of the output without it that is closest to the first channel. -/
theorem C117_projection {kind : Kind} {X : Fin T → Fin F → Fin 2 → ℂ} {S : Fin k → Fin F} {n : ℕ} {W0 : Option (Fin F → Matrix (Fin 2) (Fin 2) ℂ)} {Y Y' W W'}
    (h : sparseauxiva X S n true W0 kind = some (Y, W)) (h' : sparseauxiva X S n false W0 kind = some (Y', W')) (f : Fin F) (i : Fin 2) :
    (∃ a : ℂ, ∀ t, Y t f i = a * Y' t f i) ∧ ∀ b : ℂ, ∑ t, Complex.normSq (X t f 0 - Y t f i) ≤ ∑ t, Complex.normSq (X t f 0 - b * Y' t f i) := by
  obtain ⟨st, h0, h1, hst, hh0, hh1, rfl, rfl⟩ := run_eq h
  obtain ⟨st', h0', h1', hst', hh0', hh1', rfl, rfl⟩ := run_eq h'
  rw [hst] at hst'
  obtain rfl := Option.some.inj hst'
  rw [hh0] at hh0'
  rw [hh1] at hh1'
  obtain rfl := Option.some.inj hh0'
  obtain rfl := Option.some.inj hh1'
  simp only [if_true, Bool.false_eq_true, if_false]
  refine ⟨⟨_, fun t => mul_comm _ _⟩, fun b => ?_⟩
  apply least_squares
  generalize (demix X (fun f : Fin F => f) k { st with W := assemble ![h0, h1] }).Y = V
  have hn : ∀ t, ‖V t f i‖ ^ 2 = Complex.normSq (V t f i) := fun t => (Complex.normSq_eq_norm_sq _).symm
  unfold scale
  simp only [hn]
  split
  · next hp =>
    have hp' : ((∑ t, Complex.normSq (V t f i) : ℝ) : ℂ) ≠ 0 := by exact_mod_cast hp.ne'
    rw [star_div₀, show star ((∑ t, Complex.normSq (V t f i) : ℝ) : ℂ) = ((∑ t, Complex.normSq (V t f i) : ℝ) : ℂ) from Complex.conj_ofReal _, div_mul_cancel₀ _ hp', star_sum]
    refine Finset.sum_congr rfl fun t _ => ?_
    rw [star_mul', star_star]
  · next hp =>
    have hz : ∀ t, V t f i = 0 := by
      intro t
      have h2 := le_antisymm (not_lt.mp hp) (Finset.sum_nonneg fun _ _ => Complex.normSq_nonneg _)
      exact Complex.normSq_eq_zero.mp ((Finset.sum_eq_zero_iff_of_nonneg fun _ _ => Complex.normSq_nonneg _).mp h2 t (Finset.mem_univ t))
    simp [hz]

/-! ## Example: two frames, two bins, the first of them selected, one iteration -/

/-- The channels are active in different frames, with the sign `e` in the second bin. -/
def exX (e : ℤˣ) : Fin 2 → Fin 2 → Fin 2 → ℂ := fun t f c => if t = c then (if f = 0 then 1 else ((e : ℤ) : ℂ)) else 0

/-- The initial matrices. -/
noncomputable def exW : Matrix (Fin 2) (Fin 2) ℂ := !![1, Complex.I; 1, 1]

theorem column_scaled (W : Matrix (Fin 2) (Fin 2) ℂ) (hW : W.det ≠ 0) {q : ℝ} (hq : 0 < q) : ∃ a b : ℂ, a ≠ 0 ∧ b ≠ 0 ∧
    column W ((q : ℂ) • 1) 0 = ![a * star (W 1 1), -(a * star (W 0 1))] ∧ column W ((q : ℂ) • 1) 1 = ![-(b * star (W 1 0)), b * star (W 0 0)] := by
  have hinv : (Wᴴ * ((q : ℂ) • 1))⁻¹ = ((q : ℂ) * star W.det)⁻¹ • Wᴴ.adjugate := by
    have hd : ((q : ℂ) * star W.det) ≠ 0 := mul_ne_zero (by exact_mod_cast hq.ne') (star_ne_zero.mpr hW)
    apply Matrix.inv_eq_right_inv
    rw [Matrix.mul_smul Wᴴ, Matrix.mul_one, Matrix.smul_mul, Matrix.mul_smul, Matrix.mul_adjugate, Matrix.det_conjTranspose, smul_smul, smul_smul]
    rw [mul_right_comm, mul_inv_cancel₀ hd]
    exact one_smul _ _
  have hd : ((q : ℂ) * star W.det)⁻¹ ≠ 0 := inv_ne_zero (mul_ne_zero (by exact_mod_cast hq.ne') (star_ne_zero.mpr hW))
  have hw0 : (Wᴴ * ((q : ℂ) • 1))⁻¹ *ᵥ Pi.single 0 1 = ![((q : ℂ) * star W.det)⁻¹ * star (W 1 1), -(((q : ℂ) * star W.det)⁻¹ * star (W 0 1))] := by
    rw [hinv, Matrix.adjugate_fin_two]
    funext c
    fin_cases c <;> simp [Matrix.conjTranspose_apply]
  have hw1 : (Wᴴ * ((q : ℂ) • 1))⁻¹ *ᵥ Pi.single 1 1 = ![-(((q : ℂ) * star W.det)⁻¹ * star (W 1 0)), ((q : ℂ) * star W.det)⁻¹ * star (W 0 0)] := by
    rw [hinv, Matrix.adjugate_fin_two]
    funext c
    fin_cases c <;> simp [Matrix.conjTranspose_apply]
  have hp : ∀ w : Fin 2 → ℂ, (∑ c, star (w c) * ∑ d, ((q : ℂ) • (1 : Matrix (Fin 2) (Fin 2) ℂ)) c d * w d).re = q * (Complex.normSq (w 0) + Complex.normSq (w 1)) := by
    intro w
    simp [Fin.sum_univ_two, Complex.normSq_apply]
    ring
  have hpos : ∀ w : Fin 2 → ℂ, w ≠ 0 → (Real.sqrt (q * (Complex.normSq (w 0) + Complex.normSq (w 1))) : ℂ) ≠ 0 := by
    intro w hw
    rw [Complex.ofReal_ne_zero, Real.sqrt_ne_zero']
    apply mul_pos hq
    by_contra hc
    have h0 := Complex.normSq_nonneg (w 0)
    have h1 := Complex.normSq_nonneg (w 1)
    apply hw
    funext c
    fin_cases c
    · exact Complex.normSq_eq_zero.mp (show Complex.normSq (w 0) = 0 by linarith)
    · exact Complex.normSq_eq_zero.mp (show Complex.normSq (w 1) = 0 by linarith)
  have hne : ∀ (i : Fin 2), (Wᴴ * ((q : ℂ) • 1))⁻¹ *ᵥ Pi.single i 1 ≠ 0 := by
    intro i h
    have hu : IsUnit (Wᴴ * ((q : ℂ) • 1)).det := by
      rw [isUnit_iff_ne_zero, Matrix.det_mul, Matrix.det_conjTranspose, Matrix.det_smul]
      simp [hW, hq.ne']
    have h2 := congrArg (fun v => (Wᴴ * ((q : ℂ) • 1)) *ᵥ v) h
    simp only [Matrix.mulVec_mulVec, Matrix.mulVec_zero] at h2
    rw [Matrix.mul_nonsing_inv _ hu, Matrix.one_mulVec] at h2
    have := congrFun h2 i
    simp at this
  refine ⟨((q : ℂ) * star W.det)⁻¹ / (Real.sqrt (q * (Complex.normSq (((Wᴴ * ((q : ℂ) • 1))⁻¹ *ᵥ Pi.single 0 1) 0) + Complex.normSq (((Wᴴ * ((q : ℂ) • 1))⁻¹ *ᵥ Pi.single 0 1) 1))) : ℂ),
    ((q : ℂ) * star W.det)⁻¹ / (Real.sqrt (q * (Complex.normSq (((Wᴴ * ((q : ℂ) • 1))⁻¹ *ᵥ Pi.single 1 1) 0) + Complex.normSq (((Wᴴ * ((q : ℂ) • 1))⁻¹ *ᵥ Pi.single 1 1) 1))) : ℂ),
    div_ne_zero hd (hpos _ (hne 0)), div_ne_zero hd (hpos _ (hne 1)), ?_, ?_⟩
  · unfold column
    simp only [hp]
    funext c
    rw [hw0]
    fin_cases c <;> simp <;> ring
  · unfold column
    simp only [hp]
    funext c
    rw [hw1]
    fin_cases c <;> simp <;> ring

theorem exX_cov (e : ℤˣ) {r : Fin 2 → Fin 2 → ℝ} (hr : ∀ t s, r t s = 2) (f : Fin 2) (s : Fin 2) : cov (exX e) r f s = ((1 / 4 : ℝ) : ℂ) • 1 := by
  ext c d
  unfold cov exX
  rw [Matrix.of_apply, Fin.sum_univ_two, hr, hr]
  rcases Int.units_eq_one_or e with rfl | rfl <;> fin_cases f <;> fin_cases c <;> fin_cases d <;> norm_num

/-- The matrices after the iteration. -/
theorem ex_iterate (e : ℤˣ) : ∃ st a b, iterate .laplace (exX e) (fun _ : Fin 1 => (0 : Fin 2)) 1 (init 2 (some fun _ => exW)) = some st ∧ a ≠ 0 ∧ b ≠ 0 ∧
    ∀ f, st.W f 0 0 = a ∧ st.W f 1 0 = a * Complex.I ∧ st.W f 0 1 = b * Complex.I ∧ st.W f 1 1 = b := by
  have hdet : exW.det ≠ 0 := by
    rw [exW, Matrix.det_fin_two_of]
    intro h
    have := congrArg Complex.re h
    simp at this
  have hY : ∀ t f i, (demix (exX e) (fun _ : Fin 1 => (0 : Fin 2)) 1 (init 2 (some fun _ => exW))).Y t f i = if f = 0 then star (exW t i) else 0 := by
    intro t f i
    unfold demix init
    simp only
    fin_cases f
    · rw [if_pos ⟨0, by norm_num, rfl⟩]
      unfold demixBin exX
      rw [Fin.sum_univ_two]
      fin_cases t <;> simp
    · rw [if_neg (by simp)]
      simp
  have hr : ∀ t s, radius .laplace (demix (exX e) (fun _ : Fin 1 => (0 : Fin 2)) 1 (init 2 (some fun _ => exW))).Y t s = 2 := by
    intro t s
    have hp : ∑ f, Complex.normSq ((demix (exX e) (fun _ : Fin 1 => (0 : Fin 2)) 1 (init 2 (some fun _ => exW))).Y t f s) = 1 := by
      rw [Fin.sum_univ_two, hY, hY]
      fin_cases t <;> fin_cases s <;> simp [exW]
    unfold radius
    simp only [hp, Real.sqrt_one]
    rw [if_neg (by unfold eps; norm_num)]
    norm_num
  obtain ⟨a, _, ha, _, hc0, _⟩ := column_scaled exW hdet (q := 1 / 4) (by norm_num)
  have hc0' : column exW (((1 / 4 : ℝ) : ℂ) • 1) 0 = ![a, a * Complex.I] := by
    rw [hc0]
    funext c
    fin_cases c <;> simp [exW]
  have hdet' : (exW.updateCol 0 ![a, a * Complex.I]).det ≠ 0 := by
    rw [Matrix.det_fin_two]
    simp [exW]
    intro h
    have h2 : a * 2 = 0 := by linear_combination h + a * Complex.I_mul_I
    exact ha (by simpa using h2)
  obtain ⟨_, b, _, hb, _, hc1⟩ := column_scaled (exW.updateCol 0 ![a, a * Complex.I]) hdet' (q := 1 / 4) (by norm_num)
  have hdd : ∀ W : Matrix (Fin 2) (Fin 2) ℂ, W.det ≠ 0 → (Wᴴ * (((1 / 4 : ℝ) : ℂ) • 1)).det ≠ 0 := by
    intro W hW
    rw [Matrix.det_mul, Matrix.det_conjTranspose, Matrix.det_smul]
    simp [hW]
  refine ⟨⟨fun _ => (exW.updateCol 0 ![a, a * Complex.I]).updateCol 1 (column (exW.updateCol 0 ![a, a * Complex.I]) (((1 / 4 : ℝ) : ℂ) • 1) 1),
    (demix (exX e) (fun _ : Fin 1 => (0 : Fin 2)) 1 (init 2 (some fun _ => exW))).Y⟩, a, b * star a, ?_, ha, mul_ne_zero hb (star_ne_zero.mpr ha), ?_⟩
  · unfold iterate epoch
    simp only
    have h1 : source (exX e) (radius .laplace (demix (exX e) (fun _ : Fin 1 => (0 : Fin 2)) 1 (init 2 (some fun _ => exW))).Y) 0 (demix (exX e) (fun _ : Fin 1 => (0 : Fin 2)) 1 (init 2 (some fun _ => exW))) =
        some ⟨fun _ => exW.updateCol 0 ![a, a * Complex.I], (demix (exX e) (fun _ : Fin 1 => (0 : Fin 2)) 1 (init 2 (some fun _ => exW))).Y⟩ := by
      unfold source
      simp only [exX_cov e hr]
      have hWf : ∀ f, (demix (exX e) (fun _ : Fin 1 => (0 : Fin 2)) 1 (init 2 (some fun _ => exW))).W f = exW := fun _ => rfl
      simp only [hWf]
      rw [if_pos (fun _ => hdd _ hdet), hc0']
    rw [h1, Option.bind_some]
    unfold source
    simp only [exX_cov e hr]
    rw [if_pos (fun _ => hdd _ hdet'), Option.bind_some]
    rfl
  · intro f
    simp only [hc1]
    refine ⟨?_, ?_, ?_, ?_⟩ <;> simp
    ring

theorem ex_sparir {z : ℂ} (hz : z.re = 0) (hz2 : Complex.normSq z = 1) : Sparir.sparir (fun _ : Fin 1 => (0 : Fin 2)) (fun _ => z) 50 10 10 (10 ^ 5) (1 / 10 ^ 7) = some fun (i : Fin 2) => if (i : ℕ) = 0 then 1 else 0 := by
  apply Sparir.C116_start
  · refine ⟨0, ?_⟩
    intro h
    rw [h] at hz2
    simp at hz2
  · right
    intro i hi
    have hp : Sparir.power (fun _ : Fin 1 => z) = 1 := by simp [Sparir.power, hz2]
    have hi' : i = 0 := Fin.ext hi
    rw [hp, hi', Sparir.grad_eq (fun a b _ => Subsingleton.elim a b)]
    have hg : ∑ s : Fin 1, Sparir.count 2 ((0 : Fin 2) : ℕ) * ((Sparir.spectrum (fun (i : Fin 2) => if (i : ℕ) = 0 then 1 else 0) ((0 : Fin 2) : ℕ) - z) * DFT.tw 2 (((0 : Fin 2) : ℕ) * ((0 : Fin 2) : ℕ))).re = 1 := by
      simp [Sparir.count, Sparir.spectrum, DFT.tw_zero, hz]
    rw [hg]
    have ht : Sparir.tau 2 1 0 ≤ 2 := by
      unfold Sparir.tau
      have he : Real.exp (11 / 100 * |((0 : Fin 2) : ℕ) + (1 : ℝ)| ^ (3 / 10 : ℝ)) ≤ 5 / 4 := by
        simp only [Fin.val_zero, Nat.cast_zero, zero_add, abs_one, Real.one_rpow, mul_one]
        have := Real.exp_bound' (x := 11 / 100) (by norm_num) (by norm_num) (n := 2) (by norm_num)
        norm_num [Finset.sum_range_succ] at this ⊢
        linarith
      have hs : Real.sqrt (2 : ℕ) ≤ 3 / 2 := by
        rw [Real.sqrt_le_left (by norm_num)]
        norm_num
      have h0 := Real.exp_pos (11 / 100 * |((0 : Fin 2) : ℕ) + (1 : ℝ)| ^ (3 / 10 : ℝ))
      have h1 := Real.sqrt_nonneg (2 : ℕ)
      rw [div_one]
      nlinarith
    have ht0 : 0 ≤ Sparir.tau 2 1 0 := by
      unfold Sparir.tau
      positivity
    nlinarith

/-- The run of the example. -/
theorem ex_run (e : ℤˣ) (pb : Bool) : ∃ Y W, sparseauxiva (exX e) (fun _ : Fin 1 => (0 : Fin 2)) 1 pb (some fun _ => exW) .laplace = some (Y, W) := by
  obtain ⟨st, a, b, hst, ha, hb, hW⟩ := ex_iterate e
  unfold sparseauxiva
  rw [hst, Option.bind_some]
  have h0 : hrtf (fun _ : Fin 1 => (0 : Fin 2)) st.W 0 ≠ none := by
    unfold hrtf
    obtain ⟨e1, e2, _, _⟩ := hW 0
    rw [if_pos (by intro s; rw [e2]; exact mul_ne_zero ha Complex.I_ne_zero)]
    simp only [e1, e2]
    have : star (-a / (a * Complex.I)) = -Complex.I := by
      rw [show -a / (a * Complex.I) = Complex.I by rw [div_eq_iff (mul_ne_zero ha Complex.I_ne_zero)]; linear_combination (-a) * Complex.I_mul_I]
      simp
    rw [this, ex_sparir (by simp) (by simp)]
    simp
  have h1 : hrtf (fun _ : Fin 1 => (0 : Fin 2)) st.W 1 ≠ none := by
    unfold hrtf
    obtain ⟨_, _, e1, e2⟩ := hW 0
    rw [if_pos (by intro s; rw [e2]; exact hb)]
    simp only [e1, e2]
    have : star (-(b * Complex.I) / b) = Complex.I := by
      rw [show -(b * Complex.I) / b = -Complex.I by field_simp]
      simp
    rw [this, ex_sparir (by simp) (by simp)]
    simp
  obtain ⟨g0, hg0⟩ := Option.ne_none_iff_exists'.mp h0
  obtain ⟨g1, hg1⟩ := Option.ne_none_iff_exists'.mp h1
  rw [hg0, hg1]
  exact ⟨_, _, rfl⟩

/-- The second channel of the second frame is one in both bins, the output is not zero in the first bin only. -/
example : ∃ Y W, sparseauxiva (exX 1) (fun _ : Fin 1 => (0 : Fin 2)) 1 false (some fun _ => exW) .laplace = some (Y, W) ∧ Y 1 0 0 = -1 ∧ Y 1 1 0 = 0 := by
  obtain ⟨Y, W, h⟩ := ex_run 1 false
  refine ⟨Y, W, h, ?_, ?_⟩
  · obtain ⟨g, _, _, a, ha, hY⟩ := C117_output h
    rw [hY 1 0 0 (by norm_num), ha rfl]
    simp [exX]
  · exact C117_silent_deviation h 1 1 0 (by norm_num) (by intro s; decide)

/-- The iteration of the example. -/
example : ∃ st', epoch .laplace (exX 1) (fun _ : Fin 1 => (0 : Fin 2)) (init 2 (some fun _ => exW)) = some st' ∧
    corr (fun t => weight .laplace 2 (energy (exX 1) (fun _ : Fin 1 => (0 : Fin 2)) (fun _ => exW) 1 t)) (out (exX 1) 1 fun c => st'.W 1 c 0) (out (exX 1) 1 fun c => st'.W 1 c 1) = 0 := by
  obtain ⟨st, _, _, hst, _⟩ := ex_iterate 1
  unfold iterate at hst
  obtain ⟨st', h', _⟩ := Option.bind_eq_some_iff.mp hst
  exact ⟨st', h', (C117_update (n := 0) rfl h' 1).2.2.2⟩

example (b : ℂ) : ∃ Y, ∃ Y' : Fin 2 → Fin 2 → Fin 2 → ℂ, ∃ W, sparseauxiva (exX 1) (fun _ : Fin 1 => (0 : Fin 2)) 1 true (some fun _ => exW) .laplace = some (Y, W) ∧
    ∑ t, Complex.normSq (exX 1 t 0 0 - Y t 0 0) ≤ ∑ t, Complex.normSq (exX 1 t 0 0 - b * Y' t 0 0) ∧ Y' 1 0 0 = -1 := by
  obtain ⟨Y, W, h⟩ := ex_run 1 true
  obtain ⟨Y', W', h'⟩ := ex_run 1 false
  obtain ⟨g, _, _, a, ha, hY⟩ := C117_output h'
  refine ⟨Y, Y', W, h, (C117_projection h h' 0 0).2 b, ?_⟩
  rw [hY 1 0 0 (by norm_num), ha rfl]
  simp [exX]

example : ∃ Y Y' W, sparseauxiva (exX 1) (fun _ : Fin 1 => (0 : Fin 2)) 1 false (some fun _ => exW) .laplace = some (Y, W) ∧
    sparseauxiva (exX (-1)) (fun _ : Fin 1 => (0 : Fin 2)) 1 true (some fun _ => exW) .laplace = some (Y', W) := by
  obtain ⟨Y, W, h⟩ := ex_run 1 false
  obtain ⟨Y', W', h'⟩ := ex_run (-1) true
  rw [← C117_selected (fun t s => by funext c; simp [exX]) (fun _ => rfl) h h'] at h'
  exact ⟨Y, Y', W, h, h'⟩

end Verif.SparseIva
