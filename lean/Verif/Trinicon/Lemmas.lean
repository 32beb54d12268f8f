import Verif.Trinicon.Model

namespace Verif.Trinicon

open Py

variable {P L : ℕ}

/-! ## Specification -/

/-- The output `q` of the filters `w` at time `t`. -/
def out (s : Fin P → ℤ → ℝ) (w : Filters P L) (q : Fin 2) (t : ℤ) : ℝ := ∑ p, ∑ l : Fin L, w p q l * s p (t - (l : ℕ))

/-- The correlation of two blocks of length `N` at the lag `tau`. -/
def corr (N : ℕ) (u v : ℕ → ℝ) (tau : ℤ) : ℝ := ∑ i ∈ Finset.range N, ∑ j ∈ Finset.range N, if (i : ℤ) - j = tau then u i * v j else 0

/-- The correlation with which output `q` is updated: of the other output with it. -/
def lagCorr (N : ℕ) (z : Fin 2 → ℕ → ℝ) (q : Fin 2) (tau : ℤ) : ℝ := corr N (z (1 - q)) (z q) tau

/-- The regularised energy of a block. -/
noncomputable def energy (par : Par) (z : ℕ → ℝ) : ℝ :=
  ∑ n ∈ Finset.range par.N, z n ^ 2 + par.deltaMax * Real.exp (-(∑ n ∈ Finset.range par.N, z n ^ 2) / par.sigma0)

/-- Block `i` of the outputs that end at time `e`. -/
def blocks (par : Par) (s : Fin P → ℤ → ℝ) (w : Filters P L) (e : ℤ) (i : ℕ) (q : Fin 2) (n : ℕ) : ℝ := out s w q (e - par.N - (par.K - 1 - i : ℤ) * L + n)

/-- The update of the filters from the `K` blocks that end at time `e`. -/
noncomputable def grad (par : Par) (s : Fin P → ℤ → ℝ) (w : Filters P L) (e : ℤ) (p : Fin P) (q : Fin 2) (k : Fin L) : ℝ :=
  (∑ i : Fin par.K, ∑ l : Fin L, w p (1 - q) l * lagCorr par.N (blocks par s w e i) q ((l : ℕ) - (k : ℕ)) / energy par (blocks par s w e i q)) / par.K

/-- A turn of the offline loop. -/
noncomputable def step (par : Par) (s : Fin P → ℤ → ℝ) (e : ℤ) (w : Filters P L) : Filters P L := fun p q k => w p q k - par.mu * grad par s w e p q k

/-- The filters after the block that ends at time `e`. -/
noncomputable def next (par : Par) (s : Fin P → ℤ → ℝ) (e : ℤ) (w : Filters P L) : Filters P L := fun p q k => par.lam * w p q k + (1 - par.lam) * ((step par s e)^[par.jMax] w) p q k

/-- The filters after `m` blocks of `hop` samples. -/
noncomputable def filters (par : Par) (s : Fin P → ℤ → ℝ) (hop : ℕ) (w0 : Filters P L) : ℕ → Filters P L
  | 0 => w0
  | m + 1 => next par s ((m + 1) * hop : ℕ) (filters par s hop w0 m)

/-! ## Lists -/

theorem toArr_ok {n : ℕ} {l : List ℝ} (h : l.length = n) : toArr n l = .ok fun i => l.getD i 0 := by
  unfold toArr
  rw [if_pos h]

theorem allFin_ok {α : Type} {n : ℕ} {f : Fin n → Except Err α} {g : Fin n → α} (h : ∀ i, f i = .ok (g i)) : allFin f = .ok g := by
  induction n with
  | zero =>
    unfold allFin
    congr 1
    funext i
    exact i.elim0
  | succ n ih =>
    unfold allFin
    rw [h 0, ih (fun i => h i.succ)]
    change Except.ok (Fin.cons (α := fun _ => α) (g 0) fun i => g i.succ) = _
    congr 1
    funext i
    exact Fin.cases rfl (fun i => rfl) i

theorem sumFin_ok {m n : ℕ} {f : Fin m → Except Err (Fin n → ℝ)} {g : Fin m → Fin n → ℝ} (h : ∀ i, f i = .ok (g i)) : sumFin f = .ok fun k => ∑ i, g i k := by
  unfold sumFin
  rw [allFin_ok h]
  rfl

theorem getD_ofFn {n : ℕ} (f : Fin n → ℝ) {i : ℕ} (h : i < n) : (List.ofFn f).getD i 0 = f ⟨i, h⟩ := by
  rw [List.getD_eq_getElem _ _ (by simpa using h)]
  simp

theorem conv_length (a b : List ℝ) : (conv a b).length = a.length + b.length - 1 := by simp [conv]

theorem conv_getD (a b : List ℝ) {k : ℕ} (h : k < a.length + b.length - 1) :
    (conv a b).getD k 0 = ∑ i ∈ Finset.range a.length, ∑ j ∈ Finset.range b.length, if i + j = k then a.getD i 0 * b.getD j 0 else 0 := by
  rw [List.getD_eq_getElem _ _ (by rw [conv_length]; exact h)]
  simp [conv]

theorem getD_take_drop (l : List ℝ) (a n : ℕ) {k : ℕ} (h : k < n) : ((l.drop a).take n).getD k 0 = l.getD (a + k) 0 := by
  simp [List.getD_eq_getElem?_getD, h, List.getElem?_drop]

theorem convValid_length {a b : List ℝ} (hb : 0 < b.length) (hab : b.length ≤ a.length) : (convValid a b).length = a.length - b.length + 1 := by
  unfold convValid
  rw [List.length_take, List.length_drop, conv_length]
  omega

theorem convValid_getD {a b : List ℝ} (hb : 0 < b.length) (hab : b.length ≤ a.length) {k : ℕ} (hk : k ≤ a.length - b.length) :
    (convValid a b).getD k 0 = ∑ j ∈ Finset.range b.length, b.getD j 0 * a.getD (k + (b.length - 1 - j)) 0 := by
  unfold convValid
  rw [getD_take_drop _ _ _ (by omega), conv_getD _ _ (by omega), Finset.sum_comm]
  refine Finset.sum_congr rfl fun j hj => ?_
  rw [Finset.mem_range] at hj
  rw [Finset.sum_eq_single (k + (b.length - 1 - j))]
  · rw [if_pos (by omega), mul_comm]
  · intro i _ hi
    rw [if_neg (by omega)]
  · intro h
    exact absurd (Finset.mem_range.mpr (by omega)) h

theorem getD_reverse (l : List ℝ) {i : ℕ} (h : i < l.length) : l.reverse.getD i 0 = l.getD (l.length - 1 - i) 0 := by
  rw [List.getD_eq_getElem _ _ (by simpa using h), List.getD_eq_getElem _ _ (by omega)]
  simp

theorem slice_nat (l : List ℝ) {a b : ℕ} (hab : a ≤ b) (hb : b ≤ l.length) :
    (slice l (some (a : ℤ)) (some (b : ℤ))).length = b - a ∧ ∀ k < b - a, (slice l (some (a : ℤ)) (some (b : ℤ))).getD k 0 = l.getD (a + k) 0 := by
  have e : slice l (some (a : ℤ)) (some (b : ℤ)) = (l.drop a).take (b - a) := by
    unfold slice sliceStart sliceStop clampIdx
    simp only [if_neg (show ¬ ((a : ℤ) < 0) by omega), if_neg (show ¬ ((b : ℤ) < 0) by omega), Int.toNat_natCast]
    rw [Nat.min_eq_left hb, Nat.min_eq_left (hab.trans hb)]
  rw [e]
  refine ⟨?_, fun k hk => getD_take_drop _ _ _ hk⟩
  rw [List.length_take, List.length_drop]
  omega

/-! ## The turns refine the specification -/

/-- The chunk holds the signals up to time `e`. -/
structure Holds (par : Par) (L : ℕ) (s : Fin P → ℤ → ℝ) (e : ℤ) (x : Fin P → List ℝ) : Prop where
  length : ∀ p, (x p).length = par.K * L + par.N
  get : ∀ p j, j < par.K * L + par.N → (x p).getD j 0 = s p (e - (par.K * L + par.N : ℕ) + j)

/-- `convValid` with filters, at the right end of the chunk. -/
theorem filtered {par : Par} {s : Fin P → ℤ → ℝ} {e : ℤ} {x : Fin P → List ℝ} (hx : Holds par L s e x) (hL : 0 < L) (hN : L ≤ par.N) (w : Filters P L) (p : Fin P) (q : Fin 2) :
    (convValid (x p) (List.ofFn (w p q))).length = par.K * L + par.N - L + 1 ∧ ∀ k ≤ par.K * L + par.N - L,
      (convValid (x p) (List.ofFn (w p q))).getD k 0 = ∑ l : Fin L, w p q l * s p (e - (par.K * L + par.N : ℕ) + k + L - 1 - (l : ℕ)) := by
  have hlen := hx.length p
  have h1 : (List.ofFn (w p q)).length = L := by simp
  have h2 : L ≤ par.K * L + par.N := by omega
  refine ⟨?_, fun k hk => ?_⟩
  · rw [convValid_length (by omega) (by omega), hlen, h1]
  · rw [convValid_getD (by omega) (by omega) (by omega), h1, Finset.sum_range]
    refine Finset.sum_congr rfl fun l _ => ?_
    have hl := l.2
    rw [getD_ofFn _ l.2, hx.get p _ (by omega)]
    congr 2
    push_cast [Nat.cast_sub (show (l : ℕ) ≤ L - 1 by omega), Nat.cast_sub (show 1 ≤ L by omega)]
    ring

theorem chunkOut_ok {par : Par} {s : Fin P → ℤ → ℝ} {e : ℤ} {x : Fin P → List ℝ} (hx : Holds par L s e x) (hL : 0 < L) (hN : L ≤ par.N) (w : Filters P L) (q : Fin 2) :
    chunkOut par x w q = .ok fun n => out s w q (e - (par.K * L + par.N : ℕ) + L + (n : ℕ)) := by
  unfold chunkOut
  rw [sumFin_ok (g := fun p n => ∑ l : Fin L, w p q l * s p (e - (par.K * L + par.N : ℕ) + L + (n : ℕ) - (l : ℕ)))]
  · rfl
  · intro p
    obtain ⟨h1, h2⟩ := filtered hx hL hN w p q
    have e1 : slice (convValid (x p) (List.ofFn (w p q))) (some 1) none = (convValid (x p) (List.ofFn (w p q))).drop 1 := by
      unfold slice sliceStart sliceStop clampIdx
      simp only [if_neg (show ¬ ((1 : ℤ) < 0) by omega)]
      rw [h1, show min (Int.toNat 1) (par.K * L + par.N - L + 1) = 1 by simp, List.take_of_length_le]
      rw [List.length_drop, h1]
    rw [e1, toArr_ok (by rw [List.length_drop, h1]; omega)]
    congr 1
    funext n
    have hn := n.2
    rw [List.getD_eq_getElem?_getD, List.getElem?_drop, ← List.getD_eq_getElem?_getD, h2 _ (by omega)]
    refine Finset.sum_congr rfl fun l _ => ?_
    congr 2
    push_cast
    ring

theorem block_ok {par : Par} (hN : L ≤ par.N) (y : Fin (par.K * L + par.N - L) → ℝ) (i : Fin par.K) (z : ℕ → ℝ) (hz : ∀ n (h : n < par.K * L + par.N - L), (i : ℕ) * L ≤ n → y ⟨n, h⟩ = z (n - (i : ℕ) * L)) :
    (block par L y i).length = par.N ∧ ∀ n < par.N, (block par L y i).getD n 0 = z n := by
  have hi : (i : ℕ) * L + par.N ≤ par.K * L + par.N - L := by
    have := Nat.mul_le_mul_right L (show (i : ℕ) + 1 ≤ par.K from i.2)
    rw [Nat.add_mul, Nat.one_mul] at this
    omega
  obtain ⟨h1, h2⟩ := slice_nat (List.ofFn y) (a := (i : ℕ) * L) (b := (i : ℕ) * L + par.N) (by omega) (by rw [List.length_ofFn]; exact hi)
  unfold block
  refine ⟨by rw [h1]; omega, fun n hn => ?_⟩
  rw [h2 n (by omega), getD_ofFn _ (by omega), hz _ _ (by omega)]
  congr 1
  omega

/-- The correlation of the code. -/
theorem cross0_ok {par : Par} (hL : 0 < L) (hN : L ≤ par.N) {b0 b1 : List ℝ} (h0 : b0.length = par.N) (h1 : b1.length = par.N) :
    cross0 par L b0 b1 = .ok fun t => corr par.N (fun n => b1.getD n 0) (fun n => b0.getD n 0) ((t : ℕ) - (L : ℤ) + 1) := by
  unfold cross0
  have hlen : (conv b1 b0.reverse).length = 2 * par.N - 1 := by
    rw [conv_length, List.length_reverse]
    omega
  have ea : ((par.N : ℤ) - L) = ((par.N - L : ℕ) : ℤ) := by omega
  have eb : ((par.N : ℤ) + L - 1) = ((par.N + L - 1 : ℕ) : ℤ) := by omega
  rw [ea, eb]
  obtain ⟨s1, s2⟩ := slice_nat (conv b1 b0.reverse) (a := par.N - L) (b := par.N + L - 1) (by omega) (by omega)
  rw [toArr_ok (by rw [s1]; omega)]
  congr 1
  funext t
  have ht := t.2
  rw [s2 _ (by omega), conv_getD _ _ (by rw [List.length_reverse]; omega), List.length_reverse, h0, h1]
  unfold corr
  refine Finset.sum_congr rfl fun i hi => ?_
  rw [Finset.mem_range] at hi
  rw [← Finset.sum_range_reflect]
  refine Finset.sum_congr rfl fun j hj => ?_
  rw [Finset.mem_range] at hj
  rw [getD_reverse _ (by omega), h0]
  have e1 : par.N - 1 - (par.N - 1 - j) = j := by omega
  rw [e1]
  exact if_congr (by omega) rfl rfl

theorem corr_symm (N : ℕ) (u v : ℕ → ℝ) (tau : ℤ) : corr N u v (-tau) = corr N v u tau := by
  unfold corr
  rw [Finset.sum_comm]
  refine Finset.sum_congr rfl fun i _ => Finset.sum_congr rfl fun j _ => ?_
  rw [mul_comm]
  exact if_congr (by omega) rfl rfl

theorem corr_congr {N : ℕ} {u v u' v' : ℕ → ℝ} (hu : ∀ n < N, u n = u' n) (hv : ∀ n < N, v n = v' n) (tau : ℤ) : corr N u v tau = corr N u' v' tau := by
  unfold corr
  refine Finset.sum_congr rfl fun i hi => Finset.sum_congr rfl fun j hj => ?_
  rw [hu i (Finset.mem_range.mp hi), hv j (Finset.mem_range.mp hj)]

/-- A term of the update. -/
theorem term_ok (hL : 0 < L) (c : Fin (2 * L - 1) → ℝ) (d : ℝ) (w : Fin L → ℝ) (R : ℤ → ℝ) (hc : ∀ t, c t = R ((t : ℕ) - (L : ℤ) + 1)) :
    term c d w = .ok fun k => ∑ l : Fin L, w l * R ((l : ℕ) - (k : ℕ)) / d := by
  unfold term
  have hb : (List.ofFn w).reverse.length = L := by simp
  have ha : (List.ofFn fun s => c s / d).length = 2 * L - 1 := by simp
  have hlen := convValid_length (a := List.ofFn fun s => c s / d) (b := (List.ofFn w).reverse) (by omega) (by omega)
  rw [hb, ha] at hlen
  rw [toArr_ok (by rw [List.length_reverse, hlen]; omega)]
  congr 1
  funext k
  have hk := k.2
  rw [getD_reverse _ (by omega), hlen, convValid_getD (by omega) (by omega) (by omega), hb, ← Finset.sum_range_reflect, Finset.sum_range]
  refine Finset.sum_congr rfl fun l _ => ?_
  have hl := l.2
  rw [getD_reverse _ (by rw [List.length_ofFn]; omega), List.length_ofFn, getD_ofFn _ (show L - 1 - (L - 1 - (l : ℕ)) < L by omega), getD_ofFn _ (by omega), hc]
  have e1 : (⟨L - 1 - (L - 1 - (l : ℕ)), by omega⟩ : Fin L) = l := Fin.ext (by simp only; omega)
  rw [e1, mul_div_assoc]
  congr 3
  simp only
  omega

theorem denom_ok {par : Par} (hd : 0 < par.deltaMax) (h0 : par.sigma0 ≠ 0) {b : Fin par.N → ℝ} {z : ℕ → ℝ} (hz : ∀ n, b n = z (n : ℕ)) : denom par b = .ok (energy par z) := by
  have e : ∑ n, b n ^ 2 = ∑ n ∈ Finset.range par.N, z n ^ 2 := by
    rw [Finset.sum_range]
    exact Finset.sum_congr rfl fun n _ => by rw [hz]
  unfold denom energy
  rw [if_neg h0, e, if_neg]
  have := mul_pos hd (Real.exp_pos (-(∑ n ∈ Finset.range par.N, z n ^ 2) / par.sigma0))
  have := Finset.sum_nonneg fun n (_ : n ∈ Finset.range par.N) => sq_nonneg (z n)
  linarith

theorem ok_bind {α β : Type} (a : α) (f : α → Except Err β) : (Except.ok a >>= f) = f a := rfl

theorem offline_ok {par : Par} {s : Fin P → ℤ → ℝ} {e : ℤ} {x : Fin P → List ℝ} (hx : Holds par L s e x) (hL : 0 < L) (hN : L ≤ par.N) (hd : 0 < par.deltaMax) (h0 : par.sigma0 ≠ 0)
    (w : Filters P L) : offline par x w = .ok (step par s e w) := by
  obtain ⟨y, hy⟩ : ∃ y : (q : Fin 2) → Fin (par.K * L + par.N - L) → ℝ, y = fun q (n : Fin _) => out s w q (e - (par.K * L + par.N : ℕ) + L + (n : ℕ)) := ⟨_, rfl⟩
  have k1 : allFin (chunkOut par x w) = .ok y := by
    rw [hy]
    exact allFin_ok (chunkOut_ok hx hL hN w)
  unfold offline
  rw [k1, ok_bind]
  have hb := fun q i => block_ok hN (y q) i (blocks par s w e i q) (by
    intro n h hn
    rw [hy]
    unfold blocks
    simp only
    congr 1
    push_cast [Nat.cast_sub hn]
    ring)
  have k2 : (allFin fun q => allFin fun i => toArr par.N (block par L (y q) i)) = .ok fun q i n => (block par L (y q) i).getD n 0 := allFin_ok fun q => allFin_ok fun i => toArr_ok (hb q i).1
  have k3 := allFin_ok fun i => cross0_ok hL hN (hb 0 i).1 (hb 1 i).1
  have k4 : (allFin fun q => allFin fun i => denom par fun n : Fin par.N => (block par L (y q) i).getD n 0) = .ok fun q i => energy par (blocks par s w e i q) :=
    allFin_ok fun q => allFin_ok fun i => denom_ok hd h0 fun n => (hb q i).2 n n.2
  rw [k2, ok_bind, k3, ok_bind, k4, ok_bind]
  rw [allFin_ok (g := fun (p : Fin P) (q : Fin 2) (k : Fin L) => ∑ i : Fin par.K, ∑ l : Fin L, w p (1 - q) l * lagCorr par.N (blocks par s w e i) q ((l : ℕ) - (k : ℕ)) / energy par (blocks par s w e i q))]
  · rfl
  · intro p
    refine allFin_ok fun q => sumFin_ok fun i => term_ok hL _ _ _ (lagCorr par.N (blocks par s w e i) q) fun t => ?_
    unfold crossOf lagCorr
    have ht := t.2
    match q with
    | 0 =>
      rw [if_pos rfl]
      exact corr_congr (hb 1 i).2 (hb 0 i).2 _
    | 1 =>
      rw [if_neg (by decide)]
      simp only [sub_self]
      rw [← corr_symm, Fin.val_rev]
      rw [show (((2 * L - 1 - ((t : ℕ) + 1) : ℕ) : ℤ) - L + 1) = -((t : ℕ) - (L : ℤ) + 1) by omega]
      rw [neg_neg]
      exact corr_congr (hb 0 i).2 (hb 1 i).2 _

theorem offlines_ok {par : Par} {s : Fin P → ℤ → ℝ} {e : ℤ} {x : Fin P → List ℝ} (hx : Holds par L s e x) (hL : 0 < L) (hN : L ≤ par.N) (hd : 0 < par.deltaMax) (h0 : par.sigma0 ≠ 0) (n : ℕ) :
    ∀ w : Filters P L, offlines par x n w = .ok ((step par s e)^[n] w) := by
  induction n with
  | zero => intro w; rfl
  | succ n ih =>
    intro w
    unfold offlines
    rw [offline_ok hx hL hN hd h0, ok_bind, ih]
    rfl

end Verif.Trinicon
