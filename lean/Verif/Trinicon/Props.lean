import Verif.Trinicon.Lemmas

namespace Verif.Trinicon

open Py

variable {P L : ℕ}

/-- The signals as functions of time: zero before the beginning and after the end. -/
def ext {S0 : ℕ} (signals : Fin P → Fin S0 → ℝ) (p : Fin P) (t : ℤ) : ℝ := if h : 0 ≤ t ∧ t < S0 then signals p ⟨t.toNat, by omega⟩ else 0

/-- The shift between the online blocks. -/
def Par.hop (par : Par) (L : ℕ) : ℕ := par.K * L / par.alpha

/-- The parameters for which the function is meant: the blocks are not shorter than the filters, there is a shift and the regularisation is positive. -/
structure Valid (par : Par) (L : ℕ) : Prop where
  filter : 0 < L
  shift : 0 < par.hop L
  block : L ≤ par.N
  reg : 0 < par.deltaMax
  noise : par.sigma0 ≠ 0

/-! ## Lemmas -/

theorem Valid.alpha {par : Par} (h : Valid par L) : par.alpha ≠ 0 := by
  intro e
  have := h.shift
  unfold Par.hop at this
  rw [e, Nat.div_zero] at this
  omega

theorem Valid.hop_le {par : Par} (_ : Valid par L) : par.hop L ≤ par.K * L := Nat.div_le_self _ _

theorem getD_zeros (n j : ℕ) : (List.replicate n (0 : ℝ)).getD j 0 = 0 := by
  rw [List.getD_eq_getElem?_getD, List.getElem?_replicate]
  split <;> rfl

/-- The padded signals. -/
theorem padded_get {S0 S : ℕ} (hS : S0 ≤ S) (signals : Fin P → Fin S0 → ℝ) (p : Fin P) : (List.ofFn (signals p) ++ List.replicate (S - S0) (0 : ℝ)).length = S ∧
    ∀ j : ℕ, (List.ofFn (signals p) ++ List.replicate (S - S0) (0 : ℝ)).getD j 0 = ext signals p j := by
  constructor
  · simp
    omega
  · intro j
    unfold ext
    by_cases h : j < S0
    · rw [dif_pos (by omega), List.getD_append _ _ _ _ (by simpa using h), getD_ofFn _ h]
      rfl
    · rw [dif_neg (by omega), List.getD_append_right _ _ _ _ (by simp; omega)]
      exact getD_zeros _ _

theorem chunk_ok {par : Par} {S0 S hop m : ℕ} (signals : Fin P → Fin S0 → ℝ) (hS : S0 ≤ S) (hm : m * hop ≤ S) :
    ∃ x, chunk par L (fun p => List.ofFn (signals p) ++ List.replicate (S - S0) 0) S hop m = .ok x ∧ Holds par L (ext signals) (m * hop : ℕ) x := by
  have hsig := padded_get hS signals
  unfold chunk
  rw [if_neg (by omega)]
  by_cases h : par.K * L + par.N ≤ m * hop
  · rw [if_pos h]
    refine ⟨_, rfl, ?_⟩
    have e : ((m * hop : ℕ) - (par.K : ℤ) * L - par.N : ℤ) = ((m * hop - (par.K * L + par.N) : ℕ) : ℤ) := by
      rw [Nat.cast_sub h]
      push_cast
      ring
    constructor
    · intro p
      rw [e, (slice_nat _ (by omega) (by rw [(hsig p).1]; exact hm)).1]
      omega
    · intro p j hj
      rw [e, (slice_nat _ (by omega) (by rw [(hsig p).1]; exact hm)).2 j (by omega), (hsig p).2]
      congr 1
      rw [Nat.cast_add, Nat.cast_sub h]
  · rw [if_neg h]
    refine ⟨_, rfl, ?_⟩
    have e : ∀ p, slice (List.ofFn (signals p) ++ List.replicate (S - S0) (0 : ℝ)) none (some ((m * hop : ℕ) : ℤ)) = (List.ofFn (signals p) ++ List.replicate (S - S0) (0 : ℝ)).take (m * hop) := by
      intro p
      unfold slice sliceStart sliceStop clampIdx
      simp only [if_neg (show ¬ (((m * hop : ℕ) : ℤ) < 0) by omega), Int.toNat_natCast, List.drop_zero, Nat.sub_zero]
      rw [(hsig p).1, Nat.min_eq_left hm]
    constructor
    · intro p
      rw [e, List.length_append, List.length_replicate, List.length_take, (hsig p).1]
      omega
    · intro p j hj
      rw [e]
      by_cases hj' : j < par.K * L + par.N - m * hop
      · rw [List.getD_append _ _ _ _ (by simpa using hj')]
        unfold ext
        rw [dif_neg (by omega)]
        exact getD_zeros _ _
      · rw [List.getD_append_right _ _ _ _ (by simp; omega), List.length_replicate, List.getD_eq_getElem?_getD, List.getElem?_take, if_pos (by omega), ← List.getD_eq_getElem?_getD, (hsig p).2]
        congr 1
        omega

theorem outputs_ok {par : Par} (hv : Valid par L) {s : Fin P → ℤ → ℝ} {e : ℤ} {x : Fin P → List ℝ} (hx : Holds par L s e x) (w : Filters P L) :
    outputs (par.hop L) x w = .ok fun q u => out s w q (e - par.hop L + (u : ℕ)) := by
  have h1 := hv.filter
  have h2 := hv.shift
  have h3 := hv.block
  have h4 := hv.hop_le
  set hop := par.hop L
  unfold outputs
  refine allFin_ok fun q => ?_
  rw [sumFin_ok (g := fun p (u : Fin hop) => ∑ l : Fin L, w p q l * s p (e - hop + (u : ℕ) - (l : ℕ)))]
  · rfl
  · intro p
    have hlen := hx.length p
    have e1 : slice (x p) (some (-(hop : ℤ) - L + 1)) none = (x p).drop (par.K * L + par.N - (hop + L - 1)) := by
      unfold slice sliceStart sliceStop clampIdx
      simp only
      rw [if_pos (by omega), hlen, show (-(hop : ℤ) - L + 1 + (par.K * L + par.N : ℕ)).toNat = par.K * L + par.N - (hop + L - 1) by omega, List.take_of_length_le]
      rw [List.length_drop, hlen]
    have e2 : ((x p).drop (par.K * L + par.N - (hop + L - 1))).length = hop + L - 1 := by
      rw [List.length_drop, hlen]
      omega
    have e3 : (List.ofFn (w p q)).length = L := by simp
    rw [e1, toArr_ok (by rw [convValid_length (by omega) (by omega), e2, e3]; omega)]
    congr 1
    funext u
    have hu := u.2
    rw [convValid_getD (by omega) (by omega) (by omega), e3, Finset.sum_range]
    refine Finset.sum_congr rfl fun l _ => ?_
    have hl := l.2
    rw [getD_ofFn _ l.2, List.getD_eq_getElem?_getD, List.getElem?_drop, ← List.getD_eq_getElem?_getD, hx.get p _ (by omega)]
    congr 2
    omega

/-- The output after `m` blocks. -/
noncomputable def outputAt (par : Par) (s : Fin P → ℤ → ℝ) (hop : ℕ) (w0 : Filters P L) (m : ℕ) (q : Fin 2) (t : ℕ) : ℝ :=
  if t < m * hop then out s (filters par s hop w0 (t / hop + 1)) q t else 0

theorem loop_ok {par : Par} (hv : Valid par L) {S0 S : ℕ} (signals : Fin P → Fin S0 → ℝ) (hS : S0 ≤ S) (w0 : Filters P L) (m : ℕ) (hm : m * par.hop L ≤ S) :
    (List.range m).foldlM (fun st m => online par (fun p => List.ofFn (signals p) ++ List.replicate (S - S0) 0) S (par.hop L) st (m + 1)) (w0, fun _ _ => 0) =
      .ok (filters par (ext signals) (par.hop L) w0 m, fun q t => outputAt par (ext signals) (par.hop L) w0 m q t) := by
  have hhop := hv.shift
  induction m with
  | zero =>
    rw [List.range_zero, List.foldlM_nil]
    unfold filters outputAt
    simp only [Nat.zero_mul, Nat.not_lt_zero, if_false]
    rfl
  | succ m ih =>
    have e1 : (m + 1) * par.hop L = m * par.hop L + par.hop L := by ring
    rw [List.range_succ, List.foldlM_append, ih (by omega), ok_bind, List.foldlM_cons]
    obtain ⟨x, hx, hh⟩ := chunk_ok (par := par) (L := L) signals hS hm
    unfold online
    rw [hx, ok_bind, offlines_ok hh hv.filter hv.block hv.reg hv.noise, ok_bind]
    simp only
    rw [outputs_ok hv hh, ok_bind]
    change Except.ok _ = Except.ok _
    congr 2
    funext q t
    simp only [Nat.add_sub_cancel]
    have hfil : (fun p q l => par.lam * filters par (ext signals) (par.hop L) w0 m p q l + (1 - par.lam) * ((step par (ext signals) (((m + 1) * par.hop L : ℕ) : ℤ))^[par.jMax]
      (filters par (ext signals) (par.hop L) w0 m)) p q l) = filters par (ext signals) (par.hop L) w0 (m + 1) := rfl
    rw [hfil]
    unfold outputAt
    by_cases h1 : (t : ℕ) < m * par.hop L
    · rw [dif_neg (by omega), if_pos h1, if_pos (by omega)]
    · by_cases h2 : (t : ℕ) < (m + 1) * par.hop L
      · rw [dif_pos (by omega), if_neg h1, if_pos h2, zero_add]
        have h3 : (t : ℕ) / par.hop L = m := Nat.div_eq_of_lt_le (by omega) h2
        rw [h3]
        congr 1
        omega
      · rw [dif_neg (by omega), if_neg h1, if_neg h2]

theorem padded_ge (P S0 hop : ℕ) : S0 ≤ padded P S0 hop := by
  unfold padded
  split <;> omega

/-! ## Theorems -/

/-- `trinicon` refines the specification for all signals: the result has the length of the padded signals, its sample `t` is the output of the filters of its block, which depends only on
the signals up to `t`, and the samples after the last whole block are zero. -/
theorem C122_output {par : Par} (hv : Valid par L) (w0 : Option (Filters P L)) {S0 : ℕ} (signals : Fin P → Fin S0 → ℝ) : trinicon par w0 signals =
    .ok (fun q t => if (t : ℕ) < padded P S0 (par.hop L) / par.hop L * par.hop L then out (ext signals) (filters par (ext signals) (par.hop L) (w0.getD (initial P L)) ((t : ℕ) / par.hop L + 1)) q (t : ℕ) else 0,
      filters par (ext signals) (par.hop L) (w0.getD (initial P L)) (padded P S0 (par.hop L) / par.hop L)) := by
  unfold trinicon
  rw [if_neg hv.filter.ne', if_neg hv.alpha, if_neg (show par.K * L / par.alpha ≠ 0 from hv.shift.ne')]
  have := loop_ok hv signals (padded_ge P S0 (par.hop L)) (w0.getD (initial P L)) _ (Nat.div_mul_le_self (padded P S0 (par.hop L)) (par.hop L))
  unfold Par.hop at this ⊢
  simp only
  rw [this]
  rfl

/-- What the initial filters do: the first half of the microphones and the second half are summed with a delay of half of the filter. -/
theorem C122_initial (hL : 0 < L) (s : Fin P → ℤ → ℝ) (t : ℤ) : out s (initial P L) 0 t = ∑ p : Fin P with p.val < P / 2, s p (t - (L / 2 : ℕ)) ∧
    out s (initial P L) 1 t = ∑ p : Fin P with ¬ p.val < P / 2, s p (t - (L / 2 : ℕ)) := by
  have h : ∀ q, out s (initial P L) q t = ∑ p : Fin P, if ((p : ℕ) < P / 2 ↔ q = 0) then s p (t - (L / 2 : ℕ)) else 0 := by
    intro q
    unfold out initial
    refine Finset.sum_congr rfl fun p _ => ?_
    rw [Finset.sum_eq_single ⟨L / 2, by omega⟩]
    · simp
    · intro l _ hl
      have : (l : ℕ) ≠ L / 2 := fun e => hl (Fin.ext e)
      simp [this]
    · simp
  rw [h, h, Finset.sum_filter, Finset.sum_filter]
  simp

theorem corr_scale (N : ℕ) (u v : ℕ → ℝ) (a b : ℝ) (tau : ℤ) : corr N (fun n => a * u n) (fun n => b * v n) tau = a * b * corr N u v tau := by
  unfold corr
  simp only [Finset.mul_sum, mul_ite, mul_zero]
  refine Finset.sum_congr rfl fun i _ => Finset.sum_congr rfl fun j _ => ?_
  split
  · ring
  · rfl

/-- The outputs in another order and with other signs. -/
def relabel (sigma : Fin 2 → Fin 2) (eps : Fin 2 → ℝ) (w : Filters P L) : Filters P L := fun p q l => eps q * w p (sigma q) l

theorem out_relabel (sigma : Fin 2 → Fin 2) (eps : Fin 2 → ℝ) (s : Fin P → ℤ → ℝ) (w : Filters P L) (q : Fin 2) (t : ℤ) : out s (relabel sigma eps w) q t = eps q * out s w (sigma q) t := by
  unfold out relabel
  simp only [Finset.mul_sum, mul_assoc]

theorem step_relabel {sigma : Fin 2 → Fin 2} {eps : Fin 2 → ℝ} (hsigma : ∀ q, sigma (1 - q) = 1 - sigma q) (heps : ∀ q, eps q ^ 2 = 1) (par : Par) (s : Fin P → ℤ → ℝ) (e : ℤ) (w : Filters P L) :
    step par s e (relabel sigma eps w) = relabel sigma eps (step par s e w) := by
  have hb : ∀ i q, blocks par s (relabel sigma eps w) e i q = fun n => eps q * blocks par s w e i (sigma q) n := fun i q => funext fun n => out_relabel _ _ _ _ _ _
  have he : ∀ i q, energy par (blocks par s (relabel sigma eps w) e i q) = energy par (blocks par s w e i (sigma q)) := by
    intro i q
    rw [hb]
    unfold energy
    simp only [mul_pow, heps, one_mul]
  have hc : ∀ i q tau, lagCorr par.N (blocks par s (relabel sigma eps w) e i) q tau = eps (1 - q) * eps q * lagCorr par.N (blocks par s w e i) (sigma q) tau := by
    intro i q tau
    unfold lagCorr
    rw [hb, hb, corr_scale, hsigma]
  funext p q k
  unfold step grad
  simp only [he, hc]
  unfold relabel
  rw [mul_sub, hsigma]
  have hsum : (∑ i : Fin par.K, ∑ l : Fin L, eps (1 - q) * w p (1 - sigma q) l * (eps (1 - q) * eps q * lagCorr par.N (blocks par s w e i) (sigma q) ((l : ℕ) - (k : ℕ))) /
      energy par (blocks par s w e i (sigma q))) =
      eps q * ∑ i : Fin par.K, ∑ l : Fin L, w p (1 - sigma q) l * lagCorr par.N (blocks par s w e i) (sigma q) ((l : ℕ) - (k : ℕ)) / energy par (blocks par s w e i (sigma q)) := by
    simp only [Finset.mul_sum]
    refine Finset.sum_congr rfl fun i _ => Finset.sum_congr rfl fun l _ => ?_
    rw [← mul_div_assoc]
    congr 1
    linear_combination (eps q * w p (1 - sigma q) l * lagCorr par.N (blocks par s w e i) (sigma q) ((l : ℕ) - (k : ℕ))) * heps (1 - q)
  rw [hsum]
  ring

theorem filters_relabel {sigma : Fin 2 → Fin 2} {eps : Fin 2 → ℝ} (hsigma : ∀ q, sigma (1 - q) = 1 - sigma q) (heps : ∀ q, eps q ^ 2 = 1) (par : Par) (s : Fin P → ℤ → ℝ) (hop : ℕ) (w : Filters P L)
    (m : ℕ) : filters par s hop (relabel sigma eps w) m = relabel sigma eps (filters par s hop w m) := by
  induction m with
  | zero => rfl
  | succ m ih =>
    unfold filters
    rw [ih]
    unfold next
    rw [← (Function.Semiconj.iterate_right (f := relabel sigma eps) (fun w => (step_relabel hsigma heps par s (((m + 1) * hop : ℕ) : ℤ) w).symm) par.jMax).eq]
    funext p q k
    unfold relabel
    ring

/-- The outputs have no order and no sign: with initial filters whose outputs are exchanged (`sigma q = 1 - q`) or negated, the results are. -/
theorem C122_symmetry {par : Par} (hv : Valid par L) {sigma : Fin 2 → Fin 2} {eps : Fin 2 → ℝ} (hsigma : ∀ q, sigma (1 - q) = 1 - sigma q) (heps : ∀ q, eps q ^ 2 = 1) (w0 : Filters P L) {S0 : ℕ}
    (signals : Fin P → Fin S0 → ℝ) : ∃ y w, trinicon par (some w0) signals = .ok (y, w) ∧ trinicon par (some (relabel sigma eps w0)) signals = .ok (fun q t => eps q * y (sigma q) t, relabel sigma eps w) := by
  refine ⟨_, _, C122_output hv _ _, ?_⟩
  rw [C122_output hv]
  simp only [Option.getD_some, filters_relabel hsigma heps, out_relabel, mul_ite, mul_zero]

theorem step_fixed {par : Par} {s : Fin P → ℤ → ℝ} {e : ℤ} {w : Filters P L} (h : ∀ i < par.K, ∀ tau : ℤ, |tau| < L → corr par.N (blocks par s w e i 0) (blocks par s w e i 1) tau = 0) :
    step par s e w = w := by
  have hc : ∀ i < par.K, ∀ q tau, |tau| < (L : ℤ) → lagCorr par.N (blocks par s w e i) q tau = 0 := by
    intro i hi q tau ht
    unfold lagCorr
    match q with
    | 0 =>
      have := h i hi (-tau) (by rwa [abs_neg])
      rw [corr_symm] at this
      exact this
    | 1 => exact h i hi tau ht
  funext p q k
  unfold step grad
  rw [Finset.sum_eq_zero, zero_div, mul_zero, sub_zero]
  intro i _
  refine Finset.sum_eq_zero fun l _ => ?_
  have h1 := l.2
  have h2 := k.2
  rw [hc i i.2 q _ (by rw [abs_lt]; omega), mul_zero, zero_div]

/-- Separated outputs are a fixed point: if the two outputs of the initial filters are uncorrelated in every block, for all lags shorter than the filters, then the filters stay as they are and
the output is that of one filter. -/
theorem C122_fixed {par : Par} (hv : Valid par L) (w0 : Filters P L) {S0 : ℕ} (signals : Fin P → Fin S0 → ℝ)
    (h : ∀ m ≤ padded P S0 (par.hop L) / par.hop L, ∀ i < par.K, ∀ tau : ℤ, |tau| < L →
      corr par.N (blocks par (ext signals) w0 (m * par.hop L : ℕ) i 0) (blocks par (ext signals) w0 (m * par.hop L : ℕ) i 1) tau = 0) :
    trinicon par (some w0) signals = .ok (fun q t => if (t : ℕ) < padded P S0 (par.hop L) / par.hop L * par.hop L then out (ext signals) w0 q (t : ℕ) else 0, w0) := by
  have hf : ∀ m ≤ padded P S0 (par.hop L) / par.hop L, filters par (ext signals) (par.hop L) w0 m = w0 := by
    intro m
    induction m with
    | zero => intro _; rfl
    | succ m ih =>
      intro hm
      unfold filters
      rw [ih (by omega)]
      unfold next
      rw [Function.iterate_fixed (step_fixed (h (m + 1) hm))]
      funext p q k
      ring
  rw [C122_output hv]
  congr 2
  · funext q t
    split
    · rename_i ht
      rw [Option.getD_some, hf _ (Nat.succ_le_of_lt ((Nat.div_lt_iff_lt_mul hv.shift).mpr ht))]
    · rfl
  · exact hf _ le_rfl

theorem out_congr {s s' : Fin P → ℤ → ℝ} {e : ℤ} (h : ∀ p t, t < e → s p t = s' p t) (w : Filters P L) (q : Fin 2) {t : ℤ} (ht : t < e) : out s w q t = out s' w q t := by
  unfold out
  refine Finset.sum_congr rfl fun p _ => Finset.sum_congr rfl fun l _ => ?_
  rw [h p _ (by omega)]

theorem step_congr {par : Par} {s s' : Fin P → ℤ → ℝ} {e : ℤ} (h : ∀ p t, t < e → s p t = s' p t) (w : Filters P L) : step par s e w = step par s' e w := by
  have hb : ∀ i < par.K, ∀ q, ∀ n < par.N, blocks par s w e i q n = blocks par s' w e i q n := by
    intro i hi q n hn
    refine out_congr h w q ?_
    have : 0 ≤ (par.K - 1 - i : ℤ) * L := mul_nonneg (by omega) (by omega)
    omega
  funext p q k
  unfold step grad
  congr 3
  refine Finset.sum_congr rfl fun i _ => Finset.sum_congr rfl fun l _ => ?_
  have h1 : energy par (blocks par s w e i q) = energy par (blocks par s' w e i q) := by
    unfold energy
    rw [Finset.sum_congr rfl fun n hn => by rw [hb i i.2 q n (Finset.mem_range.mp hn)]]
  have h2 : ∀ tau, lagCorr par.N (blocks par s w e i) q tau = lagCorr par.N (blocks par s' w e i) q tau := fun tau => corr_congr (hb i i.2 (1 - q)) (hb i i.2 q) tau
  rw [h1, h2]

theorem filters_congr {par : Par} {s s' : Fin P → ℤ → ℝ} {hop : ℕ} (w0 : Filters P L) (m : ℕ) (h : ∀ p (t : ℤ), t < (m * hop : ℕ) → s p t = s' p t) : filters par s hop w0 m = filters par s' hop w0 m := by
  induction m with
  | zero => rfl
  | succ m ih =>
    unfold filters
    rw [ih fun p t ht => h p t (ht.trans_le (by exact_mod_cast Nat.mul_le_mul_right hop (Nat.le_succ m)))]
    unfold next
    rw [show step (L := L) par s (((m + 1) * hop : ℕ) : ℤ) = step par s' (((m + 1) * hop : ℕ) : ℤ) from funext fun w => step_congr h w]

/-- The processing is online: a sample of the output depends only on the signals up to the end of its block. -/
theorem C122_causal {par : Par} (hv : Valid par L) (w0 : Option (Filters P L)) {S0 : ℕ} (signals signals' : Fin P → Fin S0 → ℝ) {m : ℕ} (h : ∀ p (t : Fin S0), (t : ℕ) < m * par.hop L → signals p t = signals' p t) :
    ∃ y w y' w', trinicon par w0 signals = .ok (y, w) ∧ trinicon par w0 signals' = .ok (y', w') ∧ ∀ q (t : Fin _), (t : ℕ) < m * par.hop L → y q t = y' q t := by
  refine ⟨_, _, _, _, C122_output hv _ _, C122_output hv _ _, fun q t ht => ?_⟩
  have hs : ∀ p (t : ℤ), t < (m * par.hop L : ℕ) → ext signals p t = ext signals' p t := by
    intro p t ht
    unfold ext
    split
    · exact h p _ (by simp only; omega)
    · rfl
  have hm : (t : ℕ) / par.hop L + 1 ≤ m := Nat.succ_le_of_lt ((Nat.div_lt_iff_lt_mul hv.shift).mpr ht)
  split
  · rw [filters_congr _ _ fun p t ht => hs p t (ht.trans_le (by exact_mod_cast Nat.mul_le_mul_right (par.hop L) hm))]
    exact out_congr hs _ _ (by omega)
  · rfl

/-- All samples of the signals are processed unless the padding is too short, which takes the number of microphones for the number of samples. -/
theorem C122_covered {P S0 hop : ℕ} (hhop : 0 < hop) : S0 ≤ padded P S0 hop / hop * hop ↔ S0 % hop = 0 ∨ P % hop ≤ S0 % hop := by
  have h1 := Nat.div_add_mod' S0 hop
  have h2 := Nat.mod_lt S0 hhop
  have h3 := Nat.mod_lt P hhop
  unfold padded
  by_cases h0 : S0 % hop = 0
  · rw [if_neg (by omega)]
    exact ⟨fun _ => Or.inl h0, fun _ => by omega⟩
  · rw [if_pos h0]
    set d := S0 / hop
    set r := S0 % hop
    set k := P % hop
    by_cases h4 : k ≤ r
    · have h5 : (S0 + (hop - k)) / hop = d + 1 := Nat.div_eq_of_lt_le (by rw [Nat.add_mul]; omega) (by rw [Nat.add_mul, Nat.add_mul]; omega)
      rw [h5, Nat.add_mul]
      exact ⟨fun _ => Or.inr h4, fun _ => by omega⟩
    · have h5 : (S0 + (hop - k)) / hop = d := Nat.div_eq_of_lt_le (by omega) (by rw [Nat.add_mul]; omega)
      rw [h5]
      exact ⟨fun h => by omega, fun h => by omega⟩

/-- The padding is computed from the number of microphones: if the signals have less than that many samples after the last whole block, these samples never reach the output, which is zero there. -/
theorem C122_padding_deviation {par : Par} (hv : Valid par L) (w0 : Option (Filters P L)) {S0 : ℕ} (signals : Fin P → Fin S0 → ℝ) (h0 : S0 % par.hop L ≠ 0) (hP : S0 % par.hop L < P % par.hop L) :
    ∃ y w, trinicon par w0 signals = .ok (y, w) ∧ ∀ q (t : Fin _), S0 / par.hop L * par.hop L ≤ (t : ℕ) → y q t = 0 := by
  refine ⟨_, _, C122_output hv _ _, fun q t ht => ?_⟩
  have h1 := Nat.div_add_mod' S0 (par.hop L)
  have h2 := Nat.mod_lt P hv.shift
  have h5 : padded P S0 (par.hop L) / par.hop L = S0 / par.hop L := by
    unfold padded
    rw [if_pos h0]
    exact Nat.div_eq_of_lt_le (by omega) (by rw [Nat.add_mul]; omega)
  rw [if_neg (by rw [h5]; omega)]

/-- Blocks that are shorter than the filters by one sample are accepted, and one product is taken as the correlation for all lags. -/
theorem C122_block_deviation {par : Par} (hN : par.N + 1 = L) (h1 : 0 < par.N) {b0 b1 : List ℝ} (hb0 : b0.length = par.N) (hb1 : b1.length = par.N) :
    cross0 par L b0 b1 = .ok fun _ => b1.getD (par.N - 1) 0 * b0.getD 0 0 := by
  have hlen : (conv b1 b0.reverse).length = 2 * par.N - 1 := by
    rw [conv_length, List.length_reverse]
    omega
  have e : slice (conv b1 b0.reverse) (some ((par.N : ℤ) - L)) (some ((par.N : ℤ) + L - 1)) = ((conv b1 b0.reverse).drop (2 * par.N - 2)).take 1 := by
    unfold slice sliceStart sliceStop clampIdx
    simp only [if_pos (show (par.N : ℤ) - L < 0 by omega), if_neg (show ¬ ((par.N : ℤ) + L - 1 < 0) by omega)]
    rw [hlen]
    have h2 : ((par.N : ℤ) - L + (2 * par.N - 1 : ℕ)).toNat = 2 * par.N - 2 := by omega
    have h3 : min ((par.N : ℤ) + L - 1).toNat (2 * par.N - 1) = 2 * par.N - 1 := by omega
    rw [h2, h3]
    congr 1
    omega
  unfold cross0
  rw [e]
  have hl : (((conv b1 b0.reverse).drop (2 * par.N - 2)).take 1).length = 1 := by
    rw [List.length_take, List.length_drop, hlen]
    omega
  unfold toArr
  rw [hl, if_neg (by omega), if_pos rfl, getD_take_drop _ _ _ (by omega), conv_getD _ _ (by rw [List.length_reverse]; omega), List.length_reverse, hb0, hb1]
  congr 1
  funext _
  rw [Finset.sum_eq_single (par.N - 1), Finset.sum_eq_single (par.N - 1), if_pos (by omega), getD_reverse _ (by omega), hb0, Nat.sub_self]
  · intro j hj hne
    rw [Finset.mem_range] at hj
    rw [if_neg (by omega)]
  · intro h
    exact absurd (Finset.mem_range.mpr (by omega)) h
  · intro i hi hne
    rw [Finset.mem_range] at hi
    refine Finset.sum_eq_zero fun j hj => ?_
    rw [Finset.mem_range] at hj
    rw [if_neg (by omega)]
  · intro h
    exact absurd (Finset.mem_range.mpr (by omega)) h

/-! ## The hypotheses can be met -/

/-- The default parameters. -/
noncomputable def defaults (L : ℕ) : Par := ⟨8, 2 * L, 8, 10, 1e-4, 1e-7, 1e-3, 1 / 5⟩

theorem defaults_valid (hL : 0 < L) : Valid (defaults L) L ∧ (defaults L).hop L = L := by
  have e : (defaults L).hop L = L := by
    change 8 * L / 8 = L
    omega
  refine ⟨⟨hL, by rw [e]; exact hL, ?_, ?_, ?_⟩, e⟩
  · change L ≤ 2 * L
    omega
  · change (0 : ℝ) < 1e-4
    norm_num
  · change (1e-7 : ℝ) ≠ 0
    norm_num

/-- The outputs of the defaults can be exchanged. -/
example (w0 : Filters 2 2048) (signals : Fin 2 → Fin 100000 → ℝ) : ∃ y w, trinicon (defaults 2048) (some w0) signals = .ok (y, w) ∧
    trinicon (defaults 2048) (some (relabel (fun q => 1 - q) (fun _ => -1) w0)) signals = .ok (fun q t => -1 * y (1 - q) t, relabel (fun q => 1 - q) (fun _ => -1) w) :=
  C122_symmetry (defaults_valid (by norm_num)).1 (fun _ => rfl) (fun _ => by norm_num) w0 signals

/-- Two microphones, the second of which is silent: the filters stay and the second output is zero. -/
example (f : Fin 4096 → ℝ) : ∃ y, trinicon (L := 2048) (defaults 2048) none (fun p : Fin 2 => if p = 0 then f else 0) = .ok (y, initial 2 2048) ∧ ∀ t, y 1 t = 0 := by
  obtain ⟨hv, _⟩ := defaults_valid (L := 2048) (by norm_num)
  set sg : Fin 2 → Fin 4096 → ℝ := fun p => if p = 0 then f else 0 with hsg
  have hz : ∀ t, ext sg 1 t = 0 := by
    intro t
    unfold ext
    rw [hsg]
    split <;> simp
  have ho : ∀ t, out (ext sg) (initial 2 2048) 1 t = 0 := by
    intro t
    rw [(C122_initial (L := 2048) (by norm_num) (ext sg) t).2]
    refine Finset.sum_eq_zero fun p hp => ?_
    have : p = 1 := by
      have := (Finset.mem_filter.mp hp).2
      fin_cases p <;> simp_all
    rw [this, hz]
  have := C122_fixed hv (initial 2 2048) sg (by
    intro m _ i _ tau _
    unfold corr
    refine Finset.sum_eq_zero fun a _ => Finset.sum_eq_zero fun b _ => ?_
    rw [show blocks (defaults 2048) (ext sg) (initial 2 2048) (m * (defaults 2048).hop 2048 : ℕ) i 1 b = 0 from ho _, mul_zero, ite_self])
  refine ⟨_, this, fun t => ?_⟩
  split
  · exact ho _
  · rfl

/-- Six microphones and 4 samples more than whole blocks: these are lost. -/
example (signals : Fin 6 → Fin 20004 → ℝ) : ∃ y w, trinicon (L := 100) (defaults 100) none signals = .ok (y, w) ∧ ∀ q (t : Fin _), 20000 ≤ (t : ℕ) → y q t = 0 := by
  obtain ⟨hv, he⟩ := defaults_valid (L := 100) (by norm_num)
  have := C122_padding_deviation hv none signals (by rw [he]; norm_num) (by rw [he]; norm_num)
  rw [he] at this
  exact this

example (signals : Fin 2 → Fin 100 → ℝ) (h : ∀ p (t : Fin 100), (t : ℕ) < 30 → signals p t = 0) : ∃ y w y' w', trinicon (L := 10) (defaults 10) none signals = .ok (y, w) ∧
    trinicon (L := 10) (defaults 10) none (fun _ _ => 0) = .ok (y', w') ∧ ∀ (q : Fin 2) (t : Fin _), (t : ℕ) < 3 * (defaults 10).hop 10 → y q t = y' q t :=
  C122_causal (defaults_valid (by norm_num)).1 none signals _ fun p t ht => h p t (by rw [(defaults_valid (by norm_num)).2] at ht; exact ht)

example : cross0 (⟨1, 2, 1, 1, 1, 1, 1, 1⟩ : Par) 3 [1, 2] [5, 7] = .ok fun _ => 7 * 1 := C122_block_deviation rfl (by norm_num) rfl rfl

end Verif.Trinicon
