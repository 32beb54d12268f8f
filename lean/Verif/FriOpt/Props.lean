import Verif.FriOpt.Sources

namespace Verif.FriOpt

open Matrix FriAlg ComplexConjugate

variable {μ : Type*} [Fintype μ] {M K : ℕ}

/-! ## Specification -/

/-- The squared distance of the measurements from those of a sequence. -/
def misfit (x : Band μ M) (b : Seq M → ℝ) : ℝ := ∑ i, (x.a i - (x.G *ᵥ b) i) ^ 2

/-- The energy of the measurements of a sequence. -/
def energy (x : Band μ M) (d : Seq M → ℝ) : ℝ := ∑ i, (x.G *ᵥ d) i ^ 2

/-- The filter annihilates the sequence. -/
def Annihilates (c : Fil K → ℝ) (b : Seq M → ℝ) : Prop := ∀ i < 2 * M + 1 - K, conv (toC (coefD K *ᵥ c)) (toC (hermD (M + 1) *ᵥ b)) i = 0

/-- The measurements determine the sequence. -/
def Regular (x : Band μ M) : Prop := ∀ b, x.G *ᵥ b = 0 → b = 0

/-- The measurements are those of a sequence that consists of the sinusoids of sources at the azimuths, with these amplitudes. -/
def Sources (x : Band μ M) {n : ℕ} (phi alpha : Fin n → ℝ) (b : Seq M → ℝ) : Prop :=
  x.a = x.G *ᵥ b ∧ ∀ i, toC (hermD (M + 1) *ᵥ b) i = ∑ k, (alpha k : ℂ) * Complex.exp (-Complex.I * ((((i : ℕ) : ℝ) - M) * (phi k + Real.pi) : ℝ))

/-- The iterates for one initial filter. -/
noncomputable def iter (bands : List (Band μ M)) (c0 : Fil K → ℝ) : ℕ → Option (Fil K → ℝ)
  | 0 => some c0
  | n + 1 => (iter bands c0 n).bind fun x => (mtxObj bands (rmtxHalf M K x)).bind fun m => kkt m c0

/-! ## Lemmas -/

theorem misfit_eq (x : Band μ M) (b : Seq M → ℝ) : misfit x b = (x.a - x.G *ᵥ b) ⬝ᵥ (x.a - x.G *ᵥ b) := by
  unfold misfit dotProduct
  exact Finset.sum_congr rfl fun i _ => by rw [Pi.sub_apply]; ring

theorem energy_eq (x : Band μ M) (d : Seq M → ℝ) : energy x d = quad x d := by
  unfold energy quad dotProduct
  exact Finset.sum_congr rfl fun i _ => by ring

theorem det_of_regular {x : Band μ M} (h : Regular x) : x.gtg.det ≠ 0 := by
  intro h0
  obtain ⟨v, hv, hv0⟩ := Matrix.exists_mulVec_eq_zero_iff.mpr h0
  apply hv
  apply h
  apply dotProduct_self_eq_zero.mp
  rw [quad_gtg, hv0, dotProduct_zero]

theorem regular_of_det {x : Band μ M} (h : x.gtg.det ≠ 0) : Regular x := by
  intro b hb
  apply quad_eq_zero h
  unfold quad
  rw [hb, zero_dotProduct]

/-- Equal reduced outputs. -/
theorem half_eq (c y : Fil K → ℝ) (b d : Seq M → ℝ) : rmtxHalf M K c *ᵥ d = tmtxHalf M K b *ᵥ y ↔
    ∀ i < 2 * M + 1 - K, conv (toC (coefD K *ᵥ c)) (toC (hermD (M + 1) *ᵥ d)) i = conv (toC (coefD K *ᵥ y)) (toC (hermD (M + 1) *ᵥ b)) i := by
  have hR : rmtxHalf M K c *ᵥ d = shrink (2 * (M + 1) - 1 - K) *ᵥ (rmtx K (hermD (M + 1)) (coefD K *ᵥ c) *ᵥ d) := by
    unfold rmtxHalf
    rw [Matrix.mulVec_mulVec]
  have hT : tmtxHalf M K b *ᵥ y = shrink (2 * (M + 1) - 1 - K) *ᵥ (tmtx K (hermD (M + 1)) b *ᵥ (coefD K *ᵥ y)) := by
    unfold tmtxHalf
    rw [Matrix.mulVec_mulVec, Matrix.mulVec_mulVec, Matrix.mul_assoc]
  have hval : ∀ i, toC (rmtx K (hermD (M + 1)) (coefD K *ᵥ c) *ᵥ d - tmtx K (hermD (M + 1)) b *ᵥ (coefD K *ᵥ y)) i =
      conv (toC (coefD K *ᵥ c)) (toC (hermD (M + 1) *ᵥ d)) i - conv (toC (coefD K *ᵥ y)) (toC (hermD (M + 1) *ᵥ b)) i := by
    intro i
    rw [← rmtx_conv, ← tmtx_conv]
    rfl
  rw [hR, hT, ← sub_eq_zero, ← Matrix.mulVec_sub, shrink_zero]
  · constructor
    · intro h i hi
      have := h ⟨i, by omega⟩
      rw [hval, sub_eq_zero] at this
      exact this
    · intro h i
      rw [hval, sub_eq_zero]
      exact h i (by have := i.2; omega)
  · intro i
    rw [hval, hval, Fin.val_rev]
    have hi := i.2
    rw [show 2 * (M + 1) - 1 - K - ((i : ℕ) + 1) = 2 * (M + 1) - 1 - K - 1 - i by omega, conv_symm ((C119_filter K).1 c) ((C119_sequence M).1 d) i hi,
      conv_symm ((C119_filter K).1 y) ((C119_sequence M).1 b) i hi, map_sub]

theorem annihilates_iff (c : Fil K → ℝ) (b : Seq M → ℝ) : Annihilates c b ↔ rmtxHalf M K c *ᵥ b = 0 := by
  rw [← (C119_half M K b c).1, (C119_half M K b c).2]
  rfl

/-- The sequence of `compute_b`, without the exception. -/
noncomputable def pureB (R : Matrix (Out M K) (Seq M) ℝ) (x : Band μ M) : Seq M → ℝ := x.beta - x.gi *ᵥ (Rᵀ *ᵥ ((R * (x.gi * Rᵀ))⁻¹ *ᵥ (R *ᵥ x.beta)))

theorem computeB_eq {R : Matrix (Out M K) (Seq M) ℝ} {x : Band μ M} (h : (R * (x.gi * Rᵀ)).det ≠ 0) : computeB R x = some (pureB R x) := by
  unfold computeB solve
  rw [if_neg h]
  rfl

theorem computeB_some {R : Matrix (Out M K) (Seq M) ℝ} {x : Band μ M} {b : Seq M → ℝ} (h : computeB R x = some b) : (R * (x.gi * Rᵀ)).det ≠ 0 ∧ b = pureB R x := by
  by_cases hd : (R * (x.gi * Rᵀ)).det = 0
  · unfold computeB solve at h
    rw [if_pos hd] at h
    cases h
  · rw [computeB_eq hd] at h
    exact ⟨hd, (Option.some.inj h).symm⟩

/-- The value of the objective. -/
noncomputable def err (bands : List (Band μ M)) (c : Fil K → ℝ) : ℝ :=
  Real.sqrt (c ⬝ᵥ ((bands.map fun x => (x.tb K)ᵀ * ((rmtxHalf M K c * (x.gi * (rmtxHalf M K c)ᵀ))⁻¹ * x.tb K)).sum *ᵥ c))

theorem objVal_eq (bands : List (Band μ M)) (c : Fil K → ℝ) {e : ℝ} {m : Matrix (Fil K) (Fil K) ℝ} :
    objVal bands (rmtxHalf M K c) c = some (e, m) ↔ mtxObj bands (rmtxHalf M K c) = some m ∧ e = err bands c := by
  unfold objVal
  cases h : mtxObj bands (rmtxHalf M K c) with
  | none => simp
  | some m' =>
    have := (mtxObj_eq bands (rmtxHalf M K c)).mp h
    simp only [Option.bind_eq_bind, Option.bind_some, Option.pure_def, Option.some.injEq, Prod.mk.injEq]
    constructor
    · rintro ⟨h1, h2⟩
      refine ⟨h2, ?_⟩
      rw [← h1, this.2]
      rfl
    · rintro ⟨h1, h2⟩
      refine ⟨?_, h1⟩
      rw [h2, this.2]
      rfl

/-- The terms of the objective are energies. -/
theorem term_nonneg {bands : List (Band μ M)} (hreg : ∀ x ∈ bands, x.gtg.det ≠ 0) {R : Matrix (Out M K) (Seq M) ℝ} (hS : ∀ x ∈ bands, (R * (x.gi * Rᵀ)).det ≠ 0) (y : Fil K → ℝ) :
    ∀ x ∈ bands, 0 ≤ (x.tb K *ᵥ y) ⬝ᵥ ((R * (x.gi * Rᵀ))⁻¹ *ᵥ (x.tb K *ᵥ y)) := by
  intro x hx
  rw [← (core (hreg x hx) R (hS x hx) (x.tb K *ᵥ y)).2.1]
  exact quad_nonneg _ _

theorem form_nonneg {bands : List (Band μ M)} (hreg : ∀ x ∈ bands, x.gtg.det ≠ 0) {R : Matrix (Out M K) (Seq M) ℝ} (hS : ∀ x ∈ bands, (R * (x.gi * Rᵀ)).det ≠ 0) (y : Fil K → ℝ) :
    0 ≤ (bands.map fun x => (x.tb K *ᵥ y) ⬝ᵥ ((R * (x.gi * Rᵀ))⁻¹ *ᵥ (x.tb K *ᵥ y))).sum := by
  apply List.sum_nonneg
  intro t ht
  obtain ⟨x, hx, rfl⟩ := List.mem_map.mp ht
  exact term_nonneg hreg hS y x hx

theorem form_zero {bands : List (Band μ M)} (hreg : ∀ x ∈ bands, x.gtg.det ≠ 0) {R : Matrix (Out M K) (Seq M) ℝ} (hS : ∀ x ∈ bands, (R * (x.gi * Rᵀ)).det ≠ 0) {y : Fil K → ℝ} :
    (bands.map fun x => (x.tb K *ᵥ y) ⬝ᵥ ((R * (x.gi * Rᵀ))⁻¹ *ᵥ (x.tb K *ᵥ y))).sum = 0 ↔ ∀ x ∈ bands, x.tb K *ᵥ y = 0 := by
  constructor
  · intro h x hx
    have h1 : (x.tb K *ᵥ y) ⬝ᵥ ((R * (x.gi * Rᵀ))⁻¹ *ᵥ (x.tb K *ᵥ y)) ≤ 0 := by
      rw [← h]
      apply List.single_le_sum
      · intro t ht
        obtain ⟨x, hx, rfl⟩ := List.mem_map.mp ht
        exact term_nonneg hreg hS y x hx
      · exact List.mem_map.mpr ⟨x, hx, rfl⟩
    obtain ⟨c1, c2, _⟩ := core (hreg x hx) R (hS x hx) (x.tb K *ᵥ y)
    have h2 := quad_eq_zero (hreg x hx) (c2.trans (le_antisymm h1 (term_nonneg hreg hS y x hx)))
    rw [← c1, h2, Matrix.mulVec_zero]
  · intro h
    apply List.sum_eq_zero
    intro t ht
    obtain ⟨x, hx, rfl⟩ := List.mem_map.mp ht
    rw [h x hx, zero_dotProduct]

/-- The matrices are symmetric forms. -/
theorem form_comm {bands : List (Band μ M)} {R : Matrix (Out M K) (Seq M) ℝ} (y z : Fil K → ℝ) :
    (bands.map fun x => (x.tb K *ᵥ y) ⬝ᵥ ((R * (x.gi * Rᵀ))⁻¹ *ᵥ (x.tb K *ᵥ z))).sum = (bands.map fun x => (x.tb K *ᵥ z) ⬝ᵥ ((R * (x.gi * Rᵀ))⁻¹ *ᵥ (x.tb K *ᵥ y))).sum := by
  congr 1
  refine List.map_congr_left fun x _ => ?_
  have h1 : (R * (x.gi * Rᵀ))⁻¹ᵀ = (R * (x.gi * Rᵀ))⁻¹ := by
    rw [Matrix.transpose_nonsing_inv]
    congr 1
    rw [Matrix.transpose_mul, Matrix.transpose_mul, Matrix.transpose_transpose, Matrix.mul_assoc]
    congr 2
    unfold Band.gi Band.gtg
    rw [Matrix.transpose_nonsing_inv, Matrix.transpose_mul, Matrix.transpose_transpose]
  rw [Matrix.dotProduct_mulVec (x.tb K *ᵥ y) (R * (x.gi * Rᵀ))⁻¹, ← Matrix.mulVec_transpose, h1, dotProduct_comm]

/-- No exception for filters other than zero. -/
theorem dets {bands : List (Band μ M)} (hreg : ∀ x ∈ bands, x.gtg.det ≠ 0) {c : Fil K → ℝ} (hc : c ≠ 0) : ∀ x ∈ bands, (rmtxHalf M K c * (x.gi * (rmtxHalf M K c)ᵀ)).det ≠ 0 :=
  fun x hx => det_ne_zero (hreg x hx) (rmtxHalf_surj hc)

theorem mtxObj_some {bands : List (Band μ M)} (hreg : ∀ x ∈ bands, x.gtg.det ≠ 0) {c : Fil K → ℝ} (hc : c ≠ 0) : ∃ m, mtxObj bands (rmtxHalf M K c) = some m :=
  ⟨_, (mtxObj_eq bands _).mpr ⟨dets hreg hc, rfl⟩⟩

theorem kkt_ne_zero {m : Matrix (Fil K) (Fil K) ℝ} {c0 c : Fil K → ℝ} (h : kkt m c0 = some c) : c ≠ 0 := by
  rintro rfl
  have := (kkt_eq h).2.1
  rw [dotProduct_zero] at this
  exact zero_ne_one this

/-! ## Theorems -/

/-- `beta_ri` is the sequence with the least distance from the measurements. -/
theorem C120_fit {x : Band μ M} (h : Regular x) (b : Seq M → ℝ) : misfit x x.beta ≤ misfit x b ∧ (misfit x b = misfit x x.beta → b = x.beta) := by
  have hd := det_of_regular h
  rw [misfit_eq, misfit_eq, misfit_beta hd b]
  refine ⟨le_add_of_nonneg_right (quad_nonneg _ _), fun e => ?_⟩
  exact sub_eq_zero.mp (quad_eq_zero hd (by linarith))

/-- `compute_b`: for every filter other than zero, the sequence annihilated by it with the least distance from the measurements. -/
theorem C120_sequence {x : Band μ M} (h : Regular x) {c : Fil K → ℝ} (hc : c ≠ 0) : ∃ b, computeB (rmtxHalf M K c) x = some b ∧ Annihilates c b ∧
    ∀ b', Annihilates c b' → misfit x b ≤ misfit x b' ∧ (misfit x b' = misfit x b → b' = b) := by
  have hd := det_of_regular h
  have hS := det_ne_zero hd (rmtxHalf_surj (M := M) hc)
  obtain ⟨c1, c2, c3⟩ := core hd _ hS (rmtxHalf M K c *ᵥ x.beta)
  refine ⟨_, computeB_eq hS, ?_, ?_⟩
  · rw [annihilates_iff]
    unfold pureB
    rw [Matrix.mulVec_sub, c1, sub_self]
  · intro b' hb'
    rw [annihilates_iff] at hb'
    have h1 := c3 (x.beta - b') (by rw [Matrix.mulVec_sub, hb', sub_zero])
    have h2 : quad x (b' - x.beta) = quad x (x.beta - b') := by
      unfold quad
      rw [← neg_sub, Matrix.mulVec_neg, neg_dotProduct_neg]
    have h3 : quad x (pureB (rmtxHalf M K c) x - x.beta) = quad x (x.gi *ᵥ ((rmtxHalf M K c)ᵀ *ᵥ ((rmtxHalf M K c * (x.gi * (rmtxHalf M K c)ᵀ))⁻¹ *ᵥ (rmtxHalf M K c *ᵥ x.beta)))) := by
      unfold quad pureB
      rw [sub_sub_cancel_left, Matrix.mulVec_neg, neg_dotProduct_neg]
    rw [misfit_eq, misfit_eq, misfit_beta hd b', misfit_beta hd (pureB _ _), h2, h3, c2, h1]
    refine ⟨by linarith [quad_nonneg x (x.beta - b' - x.gi *ᵥ ((rmtxHalf M K c)ᵀ *ᵥ ((rmtxHalf M K c * (x.gi * (rmtxHalf M K c)ᵀ))⁻¹ *ᵥ (rmtxHalf M K c *ᵥ x.beta))))], fun e => ?_⟩
    have h4 := quad_eq_zero hd (show quad x (x.beta - b' - x.gi *ᵥ ((rmtxHalf M K c)ᵀ *ᵥ ((rmtxHalf M K c * (x.gi * (rmtxHalf M K c)ᵀ))⁻¹ *ᵥ (rmtxHalf M K c *ᵥ x.beta)))) = 0 by linarith)
    unfold pureB
    rw [← sub_eq_zero.mp h4]
    abel

/-- `lu_compute_mtx_obj_initial`: the value of the quadratic form for a filter `y` is the least energy of sequences that have, with the current filter, the same output as the
least squares sequences with `y`. -/
theorem C120_objective {bands : List (Band μ M)} (hreg : ∀ x ∈ bands, Regular x) {c : Fil K → ℝ} (hc : c ≠ 0) : ∃ m, mtxObj bands (rmtxHalf M K c) = some m ∧ ∀ y : Fil K → ℝ,
    (∃ d : Band μ M → Seq M → ℝ, (∀ x ∈ bands, ∀ i < 2 * M + 1 - K, conv (toC (coefD K *ᵥ c)) (toC (hermD (M + 1) *ᵥ d x)) i = conv (toC (coefD K *ᵥ y)) (toC (hermD (M + 1) *ᵥ x.beta)) i) ∧
      y ⬝ᵥ (m *ᵥ y) = (bands.map fun x => energy x (d x)).sum) ∧
    ∀ d : Band μ M → Seq M → ℝ, (∀ x ∈ bands, ∀ i < 2 * M + 1 - K, conv (toC (coefD K *ᵥ c)) (toC (hermD (M + 1) *ᵥ d x)) i = conv (toC (coefD K *ᵥ y)) (toC (hermD (M + 1) *ᵥ x.beta)) i) →
      y ⬝ᵥ (m *ᵥ y) ≤ (bands.map fun x => energy x (d x)).sum := by
  have hdet : ∀ x ∈ bands, x.gtg.det ≠ 0 := fun x hx => det_of_regular (hreg x hx)
  have hS := dets hdet hc
  refine ⟨_, (mtxObj_eq bands _).mpr ⟨hS, rfl⟩, fun y => ⟨⟨fun x => x.gi *ᵥ ((rmtxHalf M K c)ᵀ *ᵥ ((rmtxHalf M K c * (x.gi * (rmtxHalf M K c)ᵀ))⁻¹ *ᵥ (x.tb K *ᵥ y))), ?_, ?_⟩, ?_⟩⟩
  · intro x hx
    rw [← half_eq]
    exact (core (hdet x hx) _ (hS x hx) (x.tb K *ᵥ y)).1
  · rw [obj_quad]
    congr 1
    refine List.map_congr_left fun x hx => ?_
    rw [energy_eq, (core (hdet x hx) _ (hS x hx) (x.tb K *ᵥ y)).2.1]
  · intro d hd
    rw [obj_quad]
    apply List.sum_le_sum
    intro x hx
    rw [energy_eq, (core (hdet x hx) _ (hS x hx) (x.tb K *ᵥ y)).2.2 (d x) ((half_eq c y x.beta (d x)).mpr (hd x hx))]
    exact le_add_of_nonneg_right (quad_nonneg _ _)

/-- The linear system: the new filter has inner product one with the initial one, and among these the objective is least for it, and only for it. -/
theorem C120_step {bands : List (Band μ M)} (hreg : ∀ x ∈ bands, Regular x) {x c0 c : Fil K → ℝ} {m : Matrix (Fil K) (Fil K) ℝ} (hm : mtxObj bands (rmtxHalf M K x) = some m)
    (h : kkt m c0 = some c) : c0 ⬝ᵥ c = 1 ∧ ∀ y, c0 ⬝ᵥ y = 1 → y ≠ c → c ⬝ᵥ (m *ᵥ c) < y ⬝ᵥ (m *ᵥ y) := by
  have hdet : ∀ x ∈ bands, x.gtg.det ≠ 0 := fun x hx => det_of_regular (hreg x hx)
  obtain ⟨⟨l, hl⟩, h1, huniq⟩ := kkt_eq h
  obtain ⟨hS, hm⟩ := (mtxObj_eq bands _).mp hm
  refine ⟨h1, fun y hy hne => ?_⟩
  set z := y - c with hz
  have hz0 : z ≠ 0 := sub_ne_zero.mpr hne
  have hc0z : c0 ⬝ᵥ z = 0 := by rw [hz, dotProduct_sub, hy, h1, sub_self]
  have hzc : z ⬝ᵥ (m *ᵥ c) = 0 := by
    have : m *ᵥ c = -(l • c0) := eq_neg_of_add_eq_zero_left hl
    rw [this, dotProduct_neg, dotProduct_smul, dotProduct_comm, hc0z, smul_zero, neg_zero]
  have hcz : c ⬝ᵥ (m *ᵥ z) = 0 := by
    rw [← hzc, hm, obj_quad, obj_quad]
    exact form_comm _ _
  have hzz : 0 < z ⬝ᵥ (m *ᵥ z) := by
    rw [hm, obj_quad]
    refine lt_of_le_of_ne (form_nonneg hdet hS z) fun e => hz0 ?_
    have h2 := (form_zero hdet hS).mp e.symm
    have h3 : m *ᵥ z = 0 := by
      apply dotProduct_self_eq_zero.mp
      rw [hm, obj_quad]
      apply List.sum_eq_zero
      intro t ht
      obtain ⟨x, hx, rfl⟩ := List.mem_map.mp ht
      rw [h2 x hx, Matrix.mulVec_zero, dotProduct_zero]
    exact huniq z 0 (by rw [h3, zero_smul, add_zero]) hc0z
  have hy : y = c + z := by rw [hz]; abel
  rw [hy, Matrix.mulVec_add, add_dotProduct, dotProduct_add, dotProduct_add, hzc, hcz]
  linarith

/-- `compute_obj_val`: the error is the square root of what the annihilation by the filter costs. -/
theorem C120_error {bands : List (Band μ M)} (hreg : ∀ x ∈ bands, Regular x) {c : Fil K → ℝ} (hc : c ≠ 0) : ∃ e m, objVal bands (rmtxHalf M K c) c = some (e, m) ∧ 0 ≤ e ∧
    ∀ b : Band μ M → Seq M → ℝ, (∀ x ∈ bands, computeB (rmtxHalf M K c) x = some (b x)) → e ^ 2 = (bands.map fun x => misfit x (b x) - misfit x x.beta).sum := by
  have hdet : ∀ x ∈ bands, x.gtg.det ≠ 0 := fun x hx => det_of_regular (hreg x hx)
  have hS := dets hdet hc
  obtain ⟨m, hm⟩ := mtxObj_some hdet hc
  refine ⟨_, m, (objVal_eq bands c).mpr ⟨hm, rfl⟩, Real.sqrt_nonneg _, fun b hb => ?_⟩
  unfold err
  rw [obj_quad, Real.sq_sqrt (form_nonneg hdet hS c)]
  congr 1
  refine List.map_congr_left fun x hx => ?_
  rw [(computeB_some (hb x hx)).2, misfit_eq, misfit_eq, misfit_beta (hdet x hx) (pureB _ _), add_sub_cancel_left]
  have h1 : x.tb K *ᵥ c = rmtxHalf M K c *ᵥ x.beta := (C119_half M K x.beta c).1
  rw [h1, ← (core (hdet x hx) _ (hS x hx) (rmtxHalf M K c *ᵥ x.beta)).2.1]
  unfold quad pureB
  rw [sub_sub_cancel_left, Matrix.mulVec_neg, neg_dotProduct_neg]

/-- The best of the given one and of iterates. -/
theorem update_spec (best : Option (Best M K)) (b : Best M K) : ∃ b', update best b = some b' ∧ b'.err ≤ b.err ∧ (∀ b0, best = some b0 → b'.err ≤ b0.err) ∧ (b' = b ∨ best = some b') := by
  unfold update
  cases best with
  | none => exact ⟨b, rfl, le_rfl, fun b0 h => (by cases h), Or.inl rfl⟩
  | some b0 =>
    by_cases h : b.err < b0.err
    · refine ⟨b, by simp [h], le_rfl, fun b1 h1 => ?_, Or.inl rfl⟩
      cases h1
      exact h.le
    · refine ⟨b0, by simp [h], not_lt.mp h, fun b1 h1 => ?_, Or.inr rfl⟩
      cases h1
      exact le_rfl

theorem iter_none {bands : List (Band μ M)} {c0 : Fil K → ℝ} {j : ℕ} (h : iter bands c0 j = none) (k : ℕ) : iter bands c0 (j + k) = none := by
  induction k with
  | zero => exact h
  | succ k ih =>
    rw [← Nat.add_assoc]
    unfold iter
    rw [ih]
    rfl

/-- The inner loop keeps the best of all iterates. -/
theorem inner_spec (bands : List (Band μ M)) (c0 : Fil K → ℝ) (n : ℕ) : ∀ (j : ℕ) (x : Fil K → ℝ) (m : Matrix (Fil K) (Fil K) ℝ) (best best' : Option (Best M K)), iter bands c0 j = some x →
    mtxObj bands (rmtxHalf M K x) = some m → inner bands c0 n m best = some best' →
    (∀ b, best = some b → ∃ b', best' = some b' ∧ b'.err ≤ b.err) ∧
    (∀ k y, k < n → iter bands c0 (j + k + 1) = some y → ∃ b', best' = some b' ∧ b'.err ≤ err bands y) ∧
    ∀ b', best' = some b' → best = some b' ∨ ∃ k y, k < n ∧ iter bands c0 (j + k + 1) = some y ∧ (∃ m, mtxObj bands (rmtxHalf M K y) = some m) ∧ b' = ⟨err bands y, y, rmtxHalf M K y⟩ := by
  induction n with
  | zero =>
    intro j x m best best' hx hm h
    unfold inner at h
    cases h
    exact ⟨fun b hb => ⟨b, hb, le_rfl⟩, fun k y hk => absurd hk (by omega), fun b' hb' => Or.inl hb'⟩
  | succ n ih =>
    intro j x m best best' hx hm h
    have hstep : iter bands c0 (j + 1) = kkt m c0 := by
      rw [iter, hx, Option.bind_some, hm, Option.bind_some]
    unfold inner at h
    cases hk : kkt m c0 with
    | none =>
      rw [hk] at h hstep
      cases h
      refine ⟨fun b hb => ⟨b, hb, le_rfl⟩, fun k y _ hy => ?_, fun b' hb' => Or.inl hb'⟩
      have := iter_none hstep k
      rw [show j + 1 + k = j + k + 1 by omega, hy] at this
      cases this
    | some c =>
      rw [hk] at h hstep
      simp only [Option.bind_eq_bind, Option.bind_eq_some_iff] at h
      obtain ⟨⟨e, m'⟩, hobj, h⟩ := h
      obtain ⟨hm', he⟩ := (objVal_eq bands c).mp hobj
      simp only at h
      obtain ⟨h1, h2, h3⟩ := ih (j + 1) c m' _ best' hstep hm' h
      obtain ⟨b0, hb0, hle, hbest, hor⟩ := update_spec best ⟨e, c, rmtxHalf M K c⟩
      obtain ⟨b1, hb1, hle1⟩ := h1 b0 hb0
      refine ⟨fun b hb => ⟨b1, hb1, hle1.trans (hbest b hb)⟩, fun k y hk hy => ?_, fun b' hb' => ?_⟩
      · cases k with
        | zero =>
          rw [show j + 0 + 1 = j + 1 from rfl, hstep] at hy
          cases hy
          refine ⟨b1, hb1, hle1.trans ?_⟩
          rw [← he]
          exact hle
        | succ k => exact h2 k y (by omega) (by rw [← hy]; congr 1; omega)
      · rcases h3 b' hb' with h4 | ⟨k, y, hk, hy, hmy, e'⟩
        · rw [hb0] at h4
          cases h4
          rcases hor with h5 | h5
          · refine Or.inr ⟨0, c, by omega, hstep, ⟨m', hm'⟩, ?_⟩
            rw [h5, he]
          · exact Or.inl h5
        · exact Or.inr ⟨k + 1, y, by omega, by rw [← hy]; congr 1; omega, hmy, e'⟩

/-- The same for the outer loop. -/
theorem outer_spec (bands : List (Band μ M)) (maxIter : ℕ) (inits : List (Fil K → ℝ)) : ∀ best best' : Option (Best M K), inits.foldlM (outer bands maxIter) best = some best' →
    (∀ b, best = some b → ∃ b', best' = some b' ∧ b'.err ≤ b.err) ∧
    (∀ c0 ∈ inits, ∀ k y, k < maxIter → iter bands c0 (k + 1) = some y → ∃ b', best' = some b' ∧ b'.err ≤ err bands y) ∧
    ∀ b', best' = some b' → best = some b' ∨ ∃ c0 ∈ inits, ∃ k y, k < maxIter ∧ iter bands c0 (k + 1) = some y ∧ (∃ m, mtxObj bands (rmtxHalf M K y) = some m) ∧ b' = ⟨err bands y, y, rmtxHalf M K y⟩ := by
  induction inits with
  | nil =>
    intro best best' h
    rw [List.foldlM_nil] at h
    cases h
    exact ⟨fun b hb => ⟨b, hb, le_rfl⟩, fun c0 hc => absurd hc (by simp), fun b' hb' => Or.inl hb'⟩
  | cons c0 cs ih =>
    intro best best' h
    rw [List.foldlM_cons] at h
    obtain ⟨b1, h1, h2⟩ := Option.bind_eq_some_iff.mp h
    unfold outer at h1
    obtain ⟨m, hm, h1⟩ := Option.bind_eq_some_iff.mp h1
    obtain ⟨i1, i2, i3⟩ := inner_spec bands c0 maxIter 0 c0 m best b1 rfl hm h1
    obtain ⟨o1, o2, o3⟩ := ih b1 best' h2
    refine ⟨fun b hb => ?_, fun c hc k y hk hy => ?_, fun b' hb' => ?_⟩
    · obtain ⟨b2, hb2, hle⟩ := i1 b hb
      obtain ⟨b3, hb3, hle3⟩ := o1 b2 hb2
      exact ⟨b3, hb3, hle3.trans hle⟩
    · rcases List.mem_cons.mp hc with rfl | hc
      · obtain ⟨b2, hb2, hle⟩ := i2 k y hk (by rw [Nat.zero_add]; exact hy)
        obtain ⟨b3, hb3, hle3⟩ := o1 b2 hb2
        exact ⟨b3, hb3, hle3.trans hle⟩
      · exact o2 c hc k y hk hy
    · rcases o3 b' hb' with h3 | ⟨c, hc, r⟩
      · rcases i3 b' h3 with h4 | ⟨k, y, hk, hy, r⟩
        · exact Or.inl h4
        · rw [Nat.zero_add] at hy
          exact Or.inr ⟨c0, by simp, k, y, hk, hy, r⟩
      · exact Or.inr ⟨c, List.mem_cons_of_mem _ hc, r⟩

/-- There is no exception for filters other than zero. -/
theorem inner_some {bands : List (Band μ M)} (hdet : ∀ x ∈ bands, x.gtg.det ≠ 0) (c0 : Fil K → ℝ) (n : ℕ) : ∀ (m : Matrix (Fil K) (Fil K) ℝ) (best : Option (Best M K)), ∃ best', inner bands c0 n m best = some best' := by
  induction n with
  | zero => exact fun m best => ⟨best, rfl⟩
  | succ n ih =>
    intro m best
    unfold inner
    cases hk : kkt m c0 with
    | none => exact ⟨best, rfl⟩
    | some c =>
      obtain ⟨m', hm'⟩ := mtxObj_some (M := M) hdet (kkt_ne_zero hk)
      have := (objVal_eq bands c).mpr ⟨hm', rfl⟩
      simp only [this, Option.bind_eq_bind, Option.bind_some]
      exact ih _ _

theorem outer_some {bands : List (Band μ M)} (hdet : ∀ x ∈ bands, x.gtg.det ≠ 0) (maxIter : ℕ) (inits : List (Fil K → ℝ)) (hinits : ∀ c ∈ inits, c ≠ 0) :
    ∀ best : Option (Best M K), ∃ best', inits.foldlM (outer bands maxIter) best = some best' := by
  induction inits with
  | nil => exact fun best => ⟨best, rfl⟩
  | cons c0 cs ih =>
    intro best
    rw [List.foldlM_cons]
    obtain ⟨m, hm⟩ := mtxObj_some (M := M) hdet (hinits c0 (by simp))
    obtain ⟨b1, hb1⟩ := inner_some hdet c0 maxIter m best
    have : outer bands maxIter best c0 = some b1 := by
      unfold outer
      rw [hm, Option.bind_eq_bind, Option.bind_some, hb1]
    rw [this, Option.bind_eq_bind, Option.bind_some]
    exact ih (fun c hc => hinits c (List.mem_cons_of_mem _ hc)) _

theorem mapM_computeB {bands : List (Band μ M)} {R : Matrix (Out M K) (Seq M) ℝ} (h : ∀ x ∈ bands, (R * (x.gi * Rᵀ)).det ≠ 0) : bands.mapM (computeB R) = some (bands.map (pureB R)) := by
  induction bands with
  | nil => rfl
  | cons x xs ih =>
    rw [List.mapM_cons, computeB_eq (h x (by simp)), ih fun y hy => h y (List.mem_cons_of_mem _ hy)]
    rfl

/-- What a returned result consists of. -/
theorem run_some {bands : List (Band μ M)} {maxIter : ℕ} {inits : List (Fil K → ℝ)} {f : Fin (K + 1) → ℂ} {e : ℝ} {bs : List (Fin (2 * (M + 1) - 1) → ℂ)} (h : run K bands maxIter inits = some (f, e, bs)) :
    (∀ x ∈ bands, x.gtg.det ≠ 0) ∧ ∃ c, (∃ c0 ∈ inits, ∃ k, k < maxIter ∧ iter bands c0 (k + 1) = some c) ∧ (∀ x ∈ bands, (rmtxHalf M K c * (x.gi * (rmtxHalf M K c)ᵀ)).det ≠ 0) ∧
      f = toC (coefD K *ᵥ c) ∧ e = err bands c ∧ bs = bands.map (fun x => toC (hermD (M + 1) *ᵥ pureB (rmtxHalf M K c) x)) ∧
      ∀ c0 ∈ inits, ∀ k y, k < maxIter → iter bands c0 (k + 1) = some y → err bands c ≤ err bands y := by
  unfold run at h
  split at h
  · cases h
  · rename_i hd
    push Not at hd
    refine ⟨hd, ?_⟩
    simp only [Option.bind_eq_bind, Option.bind_eq_some_iff, Option.pure_def] at h
    obtain ⟨best, h1, b, rfl, bl, h3, h4⟩ := h
    obtain ⟨_, o2, o3⟩ := outer_spec bands maxIter inits none (some b) h1
    rcases o3 b rfl with h5 | ⟨c0, hc0, k, y, hk, hy, ⟨m, hm⟩, rfl⟩
    · cases h5
    · have hS := ((mtxObj_eq bands _).mp hm).1
      rw [mapM_computeB hS] at h3
      cases h3
      simp only [Option.some.injEq, Prod.mk.injEq] at h4
      refine ⟨y, ⟨c0, hc0, k, hk, hy⟩, hS, h4.1.symm, h4.2.1.symm, ?_, fun c1 hc1 k z hk hz => ?_⟩
      · rw [← h4.2.2, List.map_map]
        rfl
      · obtain ⟨b', hb', hle⟩ := o2 c1 hc1 k z hk hz
        cases hb'
        exact hle

theorem iter_ne_zero {bands : List (Band μ M)} {c0 c : Fil K → ℝ} {k : ℕ} (h : iter bands c0 (k + 1) = some c) : c ≠ 0 ∧ c0 ⬝ᵥ c = 1 := by
  rw [iter] at h
  obtain ⟨x, _, h⟩ := Option.bind_eq_some_iff.mp h
  obtain ⟨m, _, h⟩ := Option.bind_eq_some_iff.mp h
  exact ⟨kkt_ne_zero h, (kkt_eq h).2.1⟩

/-- `dirac_recon_ri_half_multiband_lu`: the filter returned is one of the iterates, its error is the least of all of them, and the sequences are those of `compute_b` for this filter. -/
theorem C120_best {bands : List (Band μ M)} {maxIter : ℕ} {inits : List (Fil K → ℝ)} {f : Fin (K + 1) → ℂ} {e : ℝ} {bs : List (Fin (2 * (M + 1) - 1) → ℂ)}
    (h : run K bands maxIter inits = some (f, e, bs)) : ∃ c m, (∃ c0 ∈ inits, ∃ k, k < maxIter ∧ iter bands c0 (k + 1) = some c) ∧ f = toC (coefD K *ᵥ c) ∧
      objVal bands (rmtxHalf M K c) c = some (e, m) ∧
      (∀ c0 ∈ inits, ∀ k y, k < maxIter → iter bands c0 (k + 1) = some y → ∀ e' m', objVal bands (rmtxHalf M K y) y = some (e', m') → e ≤ e') ∧
      ∃ b : Band μ M → Seq M → ℝ, (∀ x ∈ bands, computeB (rmtxHalf M K c) x = some (b x)) ∧ bs = bands.map fun x => toC (hermD (M + 1) *ᵥ b x) := by
  obtain ⟨hdet, c, hit, hS, rfl, rfl, rfl, hmin⟩ := run_some h
  refine ⟨c, _, hit, rfl, (objVal_eq bands c).mpr ⟨(mtxObj_eq bands _).mpr ⟨hS, rfl⟩, rfl⟩, fun c0 hc0 k y hk hy e' m' he' => ?_, pureB (rmtxHalf M K c), fun x hx => computeB_eq (hS x hx), rfl⟩
  rw [((objVal_eq bands y).mp he').2]
  exact hmin c0 hc0 k y hk hy

/-- The system with the constraint is singular exactly if filters annihilate all least squares sequences without any part along the initial filter. -/
theorem kkt_none_iff {bands : List (Band μ M)} (hdet : ∀ x ∈ bands, x.gtg.det ≠ 0) {x c0 : Fil K → ℝ} (hx : c0 ≠ 0) {m : Matrix (Fil K) (Fil K) ℝ} (hm : mtxObj bands (rmtxHalf M K x) = some m) :
    kkt m c0 = none ↔ ∃ y : Fil K → ℝ, y ≠ 0 ∧ c0 ⬝ᵥ y = 0 ∧ ∀ x ∈ bands, Annihilates y x.beta := by
  obtain ⟨hS, rfl⟩ := (mtxObj_eq bands _).mp hm
  have hann : ∀ (y : Fil K → ℝ) (x : Band μ M), Annihilates y x.beta ↔ x.tb K *ᵥ y = 0 := fun y x => (C119_half M K x.beta y).2.symm
  constructor
  · intro h
    obtain ⟨y, l, hne, h1, h2⟩ := kkt_none h
    have h3 : y ⬝ᵥ ((bands.map fun x' => (x'.tb K)ᵀ * ((rmtxHalf M K x * (x'.gi * (rmtxHalf M K x)ᵀ))⁻¹ * x'.tb K)).sum *ᵥ y) = 0 := by
      rw [eq_neg_of_add_eq_zero_left h1, dotProduct_neg, dotProduct_smul, dotProduct_comm, h2, smul_zero, neg_zero]
    rw [obj_quad] at h3
    have h4 := (form_zero hdet hS).mp h3
    refine ⟨y, fun hy => ?_, h2, fun x hx => (hann y x).mpr (h4 x hx)⟩
    rw [hy, Matrix.mulVec_zero, zero_add] at h1
    rcases hne with hne | hne
    · exact hne hy
    · exact (smul_ne_zero hne hx) h1
  · rintro ⟨y, hy, h1, h2⟩
    cases hk : kkt ((bands.map fun x' => (x'.tb K)ᵀ * ((rmtxHalf M K x * (x'.gi * (rmtxHalf M K x)ᵀ))⁻¹ * x'.tb K)).sum) c0 with
    | none => rfl
    | some c =>
      exfalso
      apply hy
      apply (kkt_eq hk).2.2 y 0 ?_ h1
      rw [zero_smul, add_zero]
      apply dotProduct_self_eq_zero.mp
      rw [obj_quad]
      apply List.sum_eq_zero
      intro t ht
      obtain ⟨x', hx', rfl⟩ := List.mem_map.mp ht
      rw [(hann y x').mp (h2 x' hx'), Matrix.mulVec_zero, dotProduct_zero]

/-- When there is no result (`Rmtx_opt` is not bound): exactly if there is no turn, or for every initial filter some filter orthogonal to it annihilates the least squares sequences of all subbands. -/
theorem C120_fails {bands : List (Band μ M)} (hreg : ∀ x ∈ bands, Regular x) {inits : List (Fil K → ℝ)} (hinits : ∀ c0 ∈ inits, c0 ≠ 0) (maxIter : ℕ) :
    run K bands maxIter inits = none ↔ maxIter = 0 ∨ ∀ c0 ∈ inits, ∃ y : Fil K → ℝ, y ≠ 0 ∧ c0 ⬝ᵥ y = 0 ∧ ∀ x ∈ bands, Annihilates y x.beta := by
  have hdet : ∀ x ∈ bands, x.gtg.det ≠ 0 := fun x hx => det_of_regular (hreg x hx)
  have hfirst : ∀ c0 ∈ inits, iter bands c0 1 = none ↔ ∃ y : Fil K → ℝ, y ≠ 0 ∧ c0 ⬝ᵥ y = 0 ∧ ∀ x ∈ bands, Annihilates y x.beta := by
    intro c0 hc0
    obtain ⟨m, hm⟩ := mtxObj_some (M := M) hdet (hinits c0 hc0)
    rw [← kkt_none_iff hdet (hinits c0 hc0) hm, iter, iter, Option.bind_some, hm, Option.bind_some]
  obtain ⟨best, hbest⟩ := outer_some hdet maxIter inits hinits none
  obtain ⟨_, o2, o3⟩ := outer_spec bands maxIter inits none best hbest
  have hrun : run K bands maxIter inits = none ↔ best = none := by
    unfold run
    rw [if_neg (by push Not; exact hdet), hbest]
    cases best with
    | none => simp
    | some b =>
      rcases o3 b rfl with h5 | ⟨c0, hc0, k, y, hk, hy, ⟨m, hm⟩, rfl⟩
      · cases h5
      · rw [Option.bind_eq_bind, Option.bind_some, Option.bind_eq_bind, Option.bind_some, mapM_computeB ((mtxObj_eq bands _).mp hm).1]
        simp
  rw [hrun]
  constructor
  · intro h
    by_contra hcon
    push Not at hcon
    obtain ⟨h0, c0, hc0, hno⟩ := hcon
    cases hi : iter bands c0 1 with
    | none =>
      obtain ⟨y, h1, h2, h3⟩ := (hfirst c0 hc0).mp hi
      obtain ⟨x, hx, hxn⟩ := hno y h1 h2
      exact hxn (h3 x hx)
    | some y =>
      obtain ⟨b', hb', _⟩ := o2 c0 hc0 0 y (by omega) hi
      rw [h] at hb'
      cases hb'
  · intro h
    cases hb : best with
    | none => rfl
    | some b =>
      rcases o3 b hb with h5 | ⟨c0, hc0, k, y, hk, hy, _⟩
      · cases h5
      · rcases h with h | h
        · omega
        · have := iter_none ((hfirst c0 hc0).mpr (h c0 hc0)) k
          rw [Nat.add_comm, hy] at this
          cases this

theorem exp_inj {n : ℕ} {phi : Fin n → ℝ} (hinj : Function.Injective phi) (hrange : ∀ k, 0 ≤ phi k ∧ phi k < 2 * Real.pi) :
    Function.Injective fun k => Complex.exp (-Complex.I * ((phi k + Real.pi : ℝ) : ℂ)) := by
  intro k l h
  have h1 := angle_back (hrange k).1 (hrange k).2 rfl
  have h2 := angle_back (hrange l).1 (hrange l).2 rfl
  simp only at h
  rw [h] at h1
  exact hinj (h1.symm.trans h2)

/-- Without noise the least squares sequence is the true one. -/
theorem beta_eq {x : Band μ M} (h : Regular x) {n : ℕ} {phi alpha : Fin n → ℝ} {b : Seq M → ℝ} (hs : Sources x phi alpha b) : x.beta = b := by
  unfold Band.beta
  rw [hs.1, Matrix.mulVec_mulVec (M := x.Gᵀ)]
  exact gi_gtg (det_of_regular h) b

omit [Fintype μ] in
/-- Filters with zeros at the sources annihilate. -/
theorem annihilates_of_zeros {x : Band μ M} {n : ℕ} {phi alpha : Fin n → ℝ} {b : Seq M → ℝ} (hs : Sources x phi alpha b) {y : Fil K → ℝ} (hy : zeros K (fun k => phi k + Real.pi) y = 0) : Annihilates y b :=
  C119_annihilate (M := M) (psi := fun k => phi k + Real.pi) (alpha := fun k => (alpha k : ℂ)) _ hs.2 (zeros_iff.mp hy)

omit [Fintype μ] in
/-- The converse, if every source has an amplitude in some subband. -/
theorem zeros_of_annihilates {bands : List (Band μ M)} {n : ℕ} (hn : n + K ≤ 2 * M + 1) {phi : Fin n → ℝ} (hinj : Function.Injective phi) (hrange : ∀ k, 0 ≤ phi k ∧ phi k < 2 * Real.pi)
    {alpha : Band μ M → Fin n → ℝ} {b : Band μ M → Seq M → ℝ} (hs : ∀ x ∈ bands, Sources x phi (alpha x) (b x)) (hall : ∀ k, ∃ x ∈ bands, alpha x k ≠ 0) {y : Fil K → ℝ}
    (hy : ∀ x ∈ bands, Annihilates y (b x)) : zeros K (fun k => phi k + Real.pi) y = 0 := by
  rw [zeros_iff]
  intro k
  obtain ⟨x, hx, hk⟩ := hall k
  exact root_of_annihilate (M := M) (psi := fun k => phi k + Real.pi) (alpha := fun k => (alpha x k : ℂ)) hn (exp_inj hinj hrange) (hs x hx).2 (hy x hx) k (by exact_mod_cast hk)

/-- Without noise, every result is exact: zero error, the true sequences, and exactly the azimuths of the sources. -/
theorem C120_exact {bands : List (Band μ M)} (hreg : ∀ x ∈ bands, Regular x) (hKM : K ≤ M) {phi : Fin K → ℝ} (hinj : Function.Injective phi) (hrange : ∀ k, 0 ≤ phi k ∧ phi k < 2 * Real.pi)
    {alpha : Band μ M → Fin K → ℝ} {b : Band μ M → Seq M → ℝ} (hs : ∀ x ∈ bands, Sources x phi (alpha x) (b x))
    {maxIter : ℕ} {inits : List (Fil K → ℝ)} {f : Fin (K + 1) → ℂ} {e : ℝ} {bs : List (Fin (2 * (M + 1) - 1) → ℂ)} (h : run K bands maxIter inits = some (f, e, bs)) :
    e = 0 ∧ azimuths f = Finset.univ.val.map phi ∧ bs = bands.map fun x => toC (hermD (M + 1) *ᵥ b x) := by
  obtain ⟨hdet, c, ⟨c0, hc0, k, hk, hit⟩, hS, rfl, rfl, rfl, _⟩ := run_some h
  obtain ⟨hc, hone⟩ := iter_ne_zero hit
  have hc00 : c0 ≠ 0 := by
    rintro rfl
    rw [zero_dotProduct] at hone
    exact zero_ne_one hone
  have hbeta : ∀ x ∈ bands, x.beta = b x := fun x hx => beta_eq (hreg x hx) (hs x hx)
  obtain ⟨y, hy, hy0⟩ := exists_filter le_rfl fun k : Fin K => phi k + Real.pi
  have hyann : ∀ x ∈ bands, Annihilates y x.beta := fun x hx => by
    rw [hbeta x hx]
    exact annihilates_of_zeros (hs x hx) hy0
  have htb : ∀ (y : Fil K → ℝ) (x : Band μ M), Annihilates y x.beta ↔ x.tb K *ᵥ y = 0 := fun y x => (C119_half M K x.beta y).2.symm
  rw [iter] at hit
  obtain ⟨x', _, hit⟩ := Option.bind_eq_some_iff.mp hit
  obtain ⟨m, hm, hit⟩ := Option.bind_eq_some_iff.mp hit
  have hcy : c0 ⬝ᵥ y ≠ 0 := by
    intro h0
    rw [(kkt_none_iff hdet hc00 hm).mpr ⟨y, hy, h0, hyann⟩] at hit
    cases hit
  have hceq : (c0 ⬝ᵥ y)⁻¹ • y = c := by
    by_contra hne
    have h1 := (C120_step hreg hm hit).2 ((c0 ⬝ᵥ y)⁻¹ • y) (by rw [dotProduct_smul, smul_eq_mul, inv_mul_cancel₀ hcy]) hne
    obtain ⟨hS', rfl⟩ := (mtxObj_eq bands _).mp hm
    rw [obj_quad, obj_quad] at h1
    have h2 := form_nonneg hdet hS' c
    have h3 := (form_zero hdet hS' (y := (c0 ⬝ᵥ y)⁻¹ • y)).mpr fun x hx => by rw [Matrix.mulVec_smul, (htb y x).mp (hyann x hx), smul_zero]
    linarith
  have hct : ∀ x ∈ bands, x.tb K *ᵥ c = 0 := fun x hx => by rw [← hceq, Matrix.mulVec_smul, (htb y x).mp (hyann x hx), smul_zero]
  refine ⟨?_, ?_, ?_⟩
  · unfold err
    rw [obj_quad, (form_zero hdet hS).mpr hct, Real.sqrt_zero]
  · have hcz : zeros K (fun k => phi k + Real.pi) c = 0 := by
      rw [← hceq, map_smul, hy0, smul_zero]
    refine C119_recover hKM (coefD_ne_zero hc) hinj hrange (alpha := fun _ => 1) (fun _ => one_ne_zero) (b := fun i => ∑ k, 1 * Complex.exp (-Complex.I * ((((i : ℕ) : ℝ) - M) * (phi k + Real.pi) : ℝ))) (fun i => rfl) ?_
    exact C119_annihilate _ (fun i => rfl) (zeros_iff.mp hcz)
  · refine List.map_congr_left fun x hx => ?_
    have h1 : rmtxHalf M K c *ᵥ x.beta = 0 := by
      rw [← (C119_half M K x.beta c).1]
      exact hct x hx
    unfold pureB
    rw [h1, Matrix.mulVec_zero, Matrix.mulVec_zero, Matrix.mulVec_zero, sub_zero, hbeta x hx]

/-- Without noise there is a result if one of the initial filters is not orthogonal to the filter that annihilates the sequences. -/
theorem C120_found {bands : List (Band μ M)} (hreg : ∀ x ∈ bands, Regular x) (hKM : K ≤ M) {phi : Fin K → ℝ} (hinj : Function.Injective phi) (hrange : ∀ k, 0 ≤ phi k ∧ phi k < 2 * Real.pi)
    {alpha : Band μ M → Fin K → ℝ} {b : Band μ M → Seq M → ℝ} (hs : ∀ x ∈ bands, Sources x phi (alpha x) (b x)) (hall : ∀ k, ∃ x ∈ bands, alpha x k ≠ 0)
    {maxIter : ℕ} (hmax : 0 < maxIter) {inits : List (Fil K → ℝ)} (hinits : ∀ c0 ∈ inits, c0 ≠ 0) (hgood : ∃ c0 ∈ inits, ∃ f, (∀ x ∈ bands, Annihilates f (b x)) ∧ c0 ⬝ᵥ f ≠ 0) :
    ∃ f bs, run K bands maxIter inits = some (f, 0, bs) := by
  cases h : run K bands maxIter inits with
  | some r =>
    obtain ⟨f, e, bs⟩ := r
    obtain ⟨rfl, _⟩ := C120_exact hreg hKM hinj hrange hs h
    exact ⟨f, bs, rfl⟩
  | none =>
    exfalso
    rcases (C120_fails hreg hinits maxIter).mp h with h0 | h0
    · omega
    · obtain ⟨c0, hc0, f, hf, hne⟩ := hgood
      obtain ⟨y, hy, hy0, hyann⟩ := h0 c0 hc0
      have hz := zeros_of_annihilates (K := K) (y := y) (by omega) hinj hrange hs hall fun x hx => by
        have := hyann x hx
        rw [beta_eq (hreg x hx) (hs x hx)] at this
        exact this
      obtain ⟨r, rfl⟩ := filter_unique (exp_inj hinj hrange) hy hz (zeros_of_annihilates (by omega) hinj hrange hs hall hf)
      rw [dotProduct_smul, hy0, smul_zero] at hne
      exact hne rfl

/-- With fewer sources than filter coefficients allow, and without noise, there is never a result, whatever the initial filters. -/
theorem C120_fewer_deviation {bands : List (Band μ M)} (hreg : ∀ x ∈ bands, Regular x) {n : ℕ} (hn : n < K) {phi : Fin n → ℝ} {alpha : Band μ M → Fin n → ℝ} {b : Band μ M → Seq M → ℝ}
    (hs : ∀ x ∈ bands, Sources x phi (alpha x) (b x)) (maxIter : ℕ) {inits : List (Fil K → ℝ)} (hinits : ∀ c0 ∈ inits, c0 ≠ 0) : run K bands maxIter inits = none := by
  refine (C120_fails hreg hinits maxIter).mpr (Or.inr fun c0 _ => ?_)
  obtain ⟨y, hy, hy0, hz⟩ := exists_filter_orth hn (fun k => phi k + Real.pi) c0
  refine ⟨y, hy, hy0, fun x hx => ?_⟩
  rw [beta_eq (hreg x hx) (hs x hx)]
  exact annihilates_of_zeros (hs x hx) hz

/-! ## Examples -/

/-- There are sequences for all azimuths and amplitudes. -/
theorem exists_seq (M : ℕ) {n : ℕ} (phi alpha : Fin n → ℝ) : ∃ b : Seq M → ℝ, ∀ i, toC (hermD (M + 1) *ᵥ b) i = ∑ k, (alpha k : ℂ) * Complex.exp (-Complex.I * ((((i : ℕ) : ℝ) - M) * (phi k + Real.pi) : ℝ)) := by
  obtain ⟨b, hb, _⟩ := (C119_sequence M).2 (fun i => ∑ k, (alpha k : ℂ) * Complex.exp (-Complex.I * ((((i : ℕ) : ℝ) - M) * (phi k + Real.pi) : ℝ))) (by
    intro i
    have hi := i.2
    rw [map_sum]
    refine Finset.sum_congr rfl fun k _ => ?_
    rw [map_mul, Complex.conj_ofReal, ← Complex.exp_conj, map_mul, map_neg, Complex.conj_I, Complex.conj_ofReal, Fin.val_rev,
      show 2 * (M + 1) - 1 - ((i : ℕ) + 1) = 2 * M - i by omega, Nat.cast_sub (by omega)]
    congr 2
    push_cast
    ring)
  exact ⟨b, fun i => congrFun hb i⟩

/-- Two sources, three harmonics, two subbands measured directly (one with the first source only), one initial filter: the azimuths are found. -/
example : ∃ (bands : List (Band (Seq 3) 3)) (inits : List (Fil 2 → ℝ)) (f : Fin 3 → ℂ) (bs : List (Fin 7 → ℂ)), bands.length = 2 ∧ run 2 bands 1 inits = some (f, 0, bs) ∧ azimuths f = {1, 2} := by
  have hpi := Real.two_le_pi
  have hinj : Function.Injective (![1, 2] : Fin 2 → ℝ) := by
    intro a b hab
    fin_cases a <;> fin_cases b <;> simp_all
  have hrange : ∀ k, 0 ≤ (![1, 2] : Fin 2 → ℝ) k ∧ (![1, 2] : Fin 2 → ℝ) k < 2 * Real.pi := by
    intro k
    fin_cases k <;> constructor <;> norm_num <;> linarith
  obtain ⟨b1, hb1⟩ := exists_seq 3 ![1, 2] ![1, 0]
  obtain ⟨b2, hb2⟩ := exists_seq 3 ![1, 2] ![3, 4]
  obtain ⟨y, hy, hy0⟩ := exists_filter (K := 2) le_rfl fun k : Fin 2 => (![1, 2] : Fin 2 → ℝ) k + Real.pi
  have hs1 : Sources (⟨1, b1⟩ : Band (Seq 3) 3) ![1, 2] ![1, 0] b1 := ⟨(Matrix.one_mulVec _).symm, hb1⟩
  have hs2 : Sources (⟨1, b2⟩ : Band (Seq 3) 3) ![1, 2] ![3, 4] b2 := ⟨(Matrix.one_mulVec _).symm, hb2⟩
  have hne : b1 ≠ b2 := by
    intro e
    have h1 := C119_annihilate (K := 1) (n := 1) (M := 3) ![1, -Complex.exp (-Complex.I * ((1 + Real.pi : ℝ) : ℂ))] (psi := ![1 + Real.pi]) (alpha := ![1]) (b := toC (hermD (3 + 1) *ᵥ b1))
      (by
        intro i
        have := hb1 i
        rw [this]
        simp) (by
        intro k
        fin_cases k
        simp)
    have h2 := root_of_annihilate (M := 3) (K := 1) (psi := fun k => (![1, 2] : Fin 2 → ℝ) k + Real.pi) (alpha := fun k => ((![3, 4] : Fin 2 → ℝ) k : ℂ)) (by norm_num) (exp_inj hinj hrange) hb2 (by rw [← e]; exact h1) 1 (by simp)
    have h3 := (exp_inj hinj hrange).ne (show (1 : Fin 2) ≠ 0 by decide)
    apply h3
    simp [Fin.sum_univ_two] at h2
    simp
    linear_combination h2
  have hreg : ∀ b : Seq 3 → ℝ, Regular (⟨1, b⟩ : Band (Seq 3) 3) := fun b d hd => by rw [← hd]; exact (Matrix.one_mulVec d).symm
  set bands : List (Band (Seq 3) 3) := [⟨1, b1⟩, ⟨1, b2⟩] with hbands
  have hregs : ∀ x ∈ bands, Regular x := by
    intro x hx
    simp only [hbands, List.mem_cons, List.not_mem_nil, or_false] at hx
    rcases hx with rfl | rfl <;> exact hreg _
  classical
  have hs : ∀ x ∈ bands, Sources x ![1, 2] ((fun x : Band (Seq 3) 3 => if x.a = b1 then ![1, 0] else ![3, 4]) x) (x.a) := by
    intro x hx
    simp only [hbands, List.mem_cons, List.not_mem_nil, or_false] at hx
    rcases hx with rfl | rfl
    · simp only [if_true]
      exact hs1
    · simp only [if_neg hne.symm]
      exact hs2
  have hall : ∀ k : Fin 2, ∃ x ∈ bands, (fun x : Band (Seq 3) 3 => if x.a = b1 then (![1, 0] : Fin 2 → ℝ) else ![3, 4]) x k ≠ 0 := by
    intro k
    refine ⟨⟨1, b2⟩, by simp [hbands], ?_⟩
    simp only [if_neg hne.symm]
    fin_cases k <;> simp
  obtain ⟨f, bs, hrun⟩ := C120_found (K := 2) hregs (by norm_num) hinj hrange hs hall (maxIter := 1) (by norm_num) (inits := [y]) (by simpa using hy)
    ⟨y, by simp, y, fun x hx => annihilates_of_zeros (hs x hx) hy0, fun h => hy (dotProduct_self_eq_zero.mp h)⟩
  refine ⟨bands, [y], f, bs, rfl, hrun, ?_⟩
  rw [(C120_exact hregs (by norm_num) hinj hrange hs hrun).2.1]
  rfl

/-- One source where two are looked for: the search ends without a filter. -/
example : ∃ band : Band (Seq 2) 2, band.a ≠ 0 ∧ ∀ (maxIter : ℕ) (inits : List (Fil 2 → ℝ)), (∀ c0 ∈ inits, c0 ≠ 0) → run 2 [band] maxIter inits = none := by
  obtain ⟨b, hb⟩ := exists_seq 2 (n := 1) ![1] ![1]
  refine ⟨⟨1, b⟩, ?_, fun maxIter inits hinits => ?_⟩
  · rintro h
    have := hb 2
    rw [show b = 0 from h, Matrix.mulVec_zero] at this
    simp [toC, Complex.ext_iff] at this
  · refine C120_fewer_deviation (n := 1) (K := 2) (phi := ![1]) (alpha := fun _ => ![1]) (b := fun _ => b) ?_ (by norm_num) ?_ maxIter hinits
    · intro x hx
      rw [List.mem_singleton.mp hx]
      exact fun d hd => by rw [← hd]; exact (Matrix.one_mulVec d).symm
    · intro x hx
      rw [List.mem_singleton.mp hx]
      exact ⟨(Matrix.one_mulVec _).symm, hb⟩

end Verif.FriOpt
