import Verif.FriOpt.Surjective
import Mathlib.LinearAlgebra.FiniteDimensional.Lemmas

namespace Verif.FriOpt

open Matrix FriAlg ComplexConjugate

variable {M K : ℕ}

theorem toC_add {n : ℕ} (v w : Fin n ⊕ Fin n → ℝ) : toC (v + w) = toC v + toC w := by
  funext i
  apply Complex.ext <;> simp [toC]

theorem toC_smul {n : ℕ} (s : ℝ) (v : Fin n ⊕ Fin n → ℝ) : toC (s • v) = (s : ℂ) • toC v := by
  funext i
  apply Complex.ext <;> simp [toC]

/-- The polynomial of a symmetric filter on the unit circle, turned to the real axis. -/
noncomputable def onCircle (f : Fin (K + 1) → ℂ) (psi : ℝ) : ℂ := Complex.exp (Complex.I * ((psi * K / 2 : ℝ) : ℂ)) * ∑ l : Fin (K + 1), f l * Complex.exp (-Complex.I * (psi : ℝ)) ^ (K - (l : ℕ))

theorem onCircle_sum (f : Fin (K + 1) → ℂ) (psi : ℝ) : onCircle f psi = ∑ l : Fin (K + 1), f l * Complex.exp (Complex.I * ((psi * ((l : ℕ) - K / 2) : ℝ) : ℂ)) := by
  unfold onCircle
  rw [Finset.mul_sum]
  refine Finset.sum_congr rfl fun l _ => ?_
  have hl : (l : ℕ) ≤ K := by have := l.2; omega
  rw [← Complex.exp_nat_mul, mul_left_comm, ← Complex.exp_add]
  congr 2
  push_cast [Nat.cast_sub hl]
  ring

theorem onCircle_real {f : Fin (K + 1) → ℂ} (hf : Symm f) (psi : ℝ) : (onCircle f psi).im = 0 := by
  rw [← Complex.conj_eq_iff_im, onCircle_sum, map_sum, ← Equiv.sum_comp Fin.revPerm]
  refine Finset.sum_congr rfl fun l _ => ?_
  have hl : (l : ℕ) ≤ K := by have := l.2; omega
  rw [map_mul, Fin.revPerm_apply, hf l, Complex.conj_conj, ← Complex.exp_conj]
  congr 2
  rw [map_mul, Complex.conj_I, Complex.conj_ofReal, Fin.val_rev, Nat.add_sub_add_right, Nat.cast_sub hl]
  push_cast
  ring

theorem onCircle_add (f g : Fin (K + 1) → ℂ) (psi : ℝ) : onCircle (f + g) psi = onCircle f psi + onCircle g psi := by
  unfold onCircle
  rw [← mul_add, ← Finset.sum_add_distrib]
  congr 1
  exact Finset.sum_congr rfl fun l _ => by rw [Pi.add_apply]; ring

theorem onCircle_smul (s : ℂ) (f : Fin (K + 1) → ℂ) (psi : ℝ) : onCircle (s • f) psi = s * onCircle f psi := by
  unfold onCircle
  rw [mul_left_comm, Finset.mul_sum (a := s)]
  congr 1
  exact Finset.sum_congr rfl fun l _ => by rw [Pi.smul_apply, smul_eq_mul]; ring

/-- The conditions on the half of a filter: zeros at the sinusoids. -/
noncomputable def zeros (K : ℕ) {n : ℕ} (psi : Fin n → ℝ) : (Fil K → ℝ) →ₗ[ℝ] (Fin n → ℝ) where
  toFun y k := (onCircle (toC (coefD K *ᵥ y)) (psi k)).re
  map_add' y z := by
    funext k
    rw [Matrix.mulVec_add, toC_add, onCircle_add]
    rfl
  map_smul' s y := by
    funext k
    rw [Matrix.mulVec_smul, toC_smul, onCircle_smul]
    simp

theorem zeros_iff {n : ℕ} {psi : Fin n → ℝ} {y : Fil K → ℝ} : zeros K psi y = 0 ↔ ∀ k, ∑ l : Fin (K + 1), toC (coefD K *ᵥ y) l * Complex.exp (-Complex.I * (psi k : ℝ)) ^ (K - (l : ℕ)) = 0 := by
  constructor
  · intro h k
    have h1 : onCircle (toC (coefD K *ᵥ y)) (psi k) = 0 := Complex.ext (congrFun h k) (onCircle_real ((C119_filter K).1 y) _)
    unfold onCircle at h1
    exact (mul_eq_zero.mp h1).resolve_left (Complex.exp_ne_zero _)
  · intro h
    funext k
    have h1 : onCircle (toC (coefD K *ᵥ y)) (psi k) = 0 := by
      unfold onCircle
      rw [h k, mul_zero]
    exact congrArg Complex.re h1

theorem card_fil : Module.finrank ℝ (Fil K → ℝ) = K + 1 := by
  rw [Module.finrank_fintype_fun_eq_card, Fintype.card_sum, Fintype.card_fin, Fintype.card_fin]
  omega

/-- There is a symmetric filter with zeros at up to `K` sinusoids. -/
theorem exists_filter {n : ℕ} (hn : n ≤ K) (psi : Fin n → ℝ) : ∃ y : Fil K → ℝ, y ≠ 0 ∧ zeros K psi y = 0 := by
  have h : LinearMap.ker (zeros K psi) ≠ ⊥ := by
    apply LinearMap.ker_ne_bot_of_finrank_lt
    rw [card_fil, Module.finrank_fintype_fun_eq_card, Fintype.card_fin]
    omega
  obtain ⟨y, hy, hy0⟩ := (Submodule.ne_bot_iff _).mp h
  exact ⟨y, hy0, hy⟩

/-- With fewer sinusoids there is one orthogonal to any given vector. -/
theorem exists_filter_orth {n : ℕ} (hn : n < K) (psi : Fin n → ℝ) (c0 : Fil K → ℝ) : ∃ y : Fil K → ℝ, y ≠ 0 ∧ c0 ⬝ᵥ y = 0 ∧ zeros K psi y = 0 := by
  let g : (Fil K → ℝ) →ₗ[ℝ] ℝ :=
    { toFun := fun y => c0 ⬝ᵥ y
      map_add' := fun y z => dotProduct_add _ _ _
      map_smul' := fun s y => dotProduct_smul _ _ _ }
  have h : LinearMap.ker (g.prod (zeros K psi)) ≠ ⊥ := by
    apply LinearMap.ker_ne_bot_of_finrank_lt
    rw [card_fil, Module.finrank_prod, Module.finrank_self, Module.finrank_fintype_fun_eq_card, Fintype.card_fin]
    omega
  obtain ⟨y, hy, hy0⟩ := (Submodule.ne_bot_iff _).mp h
  have := LinearMap.mem_ker.mp hy
  exact ⟨y, hy0, congrArg Prod.fst this, congrArg Prod.snd this⟩

/-- A polynomial of smaller degree with `K` zeros. -/
theorem eq_zero_of_roots {u : Fin K → ℂ} (hu : Function.Injective u) {h : Fin (K + 1) → ℂ} (h0 : h 0 = 0) (hr : ∀ k, ∑ l : Fin (K + 1), h l * u k ^ (K - (l : ℕ)) = 0) : h = 0 := by
  have hv : (fun i : Fin K => h i.rev.succ) = 0 := by
    apply Matrix.eq_zero_of_forall_index_sum_pow_mul_eq_zero hu
    intro k
    have := hr k
    rw [Fin.sum_univ_succ, h0, zero_mul, zero_add, ← Equiv.sum_comp Fin.revPerm] at this
    rw [← this]
    refine Finset.sum_congr rfl fun i _ => ?_
    rw [Fin.revPerm_apply, mul_comm]
    congr 2
    rw [Fin.val_succ, Fin.val_rev]
    have := i.2
    omega
  funext l
  refine Fin.cases h0 (fun i => ?_) l
  have := congrFun hv i.rev
  simpa using this

/-- The filter with zeros at `K` different sinusoids is unique up to a real factor. -/
theorem filter_unique {psi : Fin K → ℝ} (hinj : Function.Injective fun k => Complex.exp (-Complex.I * (psi k : ℝ))) {f y : Fil K → ℝ} (hf : f ≠ 0) (hf0 : zeros K psi f = 0) (hy0 : zeros K psi y = 0) :
    ∃ r : ℝ, y = r • f := by
  have hF := coefD_ne_zero hf
  have hFs := (C119_filter K).1 f
  have hYs := (C119_filter K).1 y
  rw [zeros_iff] at hf0 hy0
  set F := toC (coefD K *ᵥ f) with hFd
  set Y := toC (coefD K *ᵥ y) with hYd
  have hF0 : F 0 ≠ 0 := fun h => hF (eq_zero_of_roots hinj h hf0)
  have hlin : F 0 • Y - Y 0 • F = 0 := by
    refine eq_zero_of_roots hinj ?_ ?_
    · simp [mul_comm]
    · intro k
      have : ∑ l : Fin (K + 1), (F 0 • Y - Y 0 • F) l * Complex.exp (-Complex.I * (psi k : ℝ)) ^ (K - (l : ℕ)) =
          F 0 * ∑ l : Fin (K + 1), Y l * Complex.exp (-Complex.I * (psi k : ℝ)) ^ (K - (l : ℕ)) - Y 0 * ∑ l : Fin (K + 1), F l * Complex.exp (-Complex.I * (psi k : ℝ)) ^ (K - (l : ℕ)) := by
        rw [Finset.mul_sum, Finset.mul_sum, ← Finset.sum_sub_distrib]
        refine Finset.sum_congr rfl fun l _ => ?_
        simp only [Pi.sub_apply, Pi.smul_apply, smul_eq_mul]
        ring
      rw [this, hf0, hy0]
      ring
  have hs : ∀ l, Y l = Y 0 / F 0 * F l := by
    intro l
    have := congrFun hlin l
    simp only [Pi.sub_apply, Pi.smul_apply, smul_eq_mul, Pi.zero_apply] at this
    field_simp
    linear_combination this
  have hreal : conj (Y 0 / F 0) = Y 0 / F 0 := by
    have h1 := hYs 0
    rw [hs (Fin.rev 0), hFs 0] at h1
    have h2 : conj (F 0) ≠ 0 := (map_ne_zero _).mpr hF0
    rw [map_div₀, ← h1]
    field_simp
  refine ⟨(Y 0 / F 0).re, ?_⟩
  by_contra hne
  apply coefD_ne_zero (sub_ne_zero.mpr hne)
  rw [sub_eq_add_neg, ← neg_smul, Matrix.mulVec_add, Matrix.mulVec_smul, toC_add, toC_smul, ← hFd, ← hYd]
  funext l
  have h3 : (((Y 0 / F 0).re : ℝ) : ℂ) = Y 0 / F 0 := Complex.conj_eq_iff_re.mp hreal
  rw [Pi.add_apply, Pi.smul_apply, smul_eq_mul, Complex.ofReal_neg, h3, hs l]
  simp

/-- A filter that annihilates the samples of sources has zeros at those with an amplitude. -/
theorem root_of_annihilate {n : ℕ} (hn : n + K ≤ 2 * M + 1) {c : Fin (K + 1) → ℂ} {psi : Fin n → ℝ} (hinj : Function.Injective fun k => Complex.exp (-Complex.I * (psi k : ℝ))) {alpha : Fin n → ℂ}
    {b : Fin (2 * M + 1) → ℂ} (hb : ∀ i : Fin (2 * M + 1), b i = ∑ k, alpha k * Complex.exp (-Complex.I * ((((i : ℕ) : ℝ) - M) * psi k : ℝ))) (hann : ∀ i < 2 * M + 1 - K, conv c b i = 0)
    (k : Fin n) (hk : alpha k ≠ 0) : ∑ l : Fin (K + 1), c l * Complex.exp (-Complex.I * (psi k : ℝ)) ^ (K - (l : ℕ)) = 0 := by
  have hz : (fun k => alpha k * Complex.exp (Complex.I * ((M : ℝ) * psi k : ℝ)) * (poly c).eval (Complex.exp (-Complex.I * (psi k : ℝ)))) = 0 := by
    apply Matrix.eq_zero_of_forall_pow_sum_mul_pow_eq_zero hinj
    intro i
    have := hann i (by have := i.2; omega)
    rw [conv_exp c hb i (by have := i.2; omega)] at this
    exact this
  have := congrFun hz k
  simp only [Pi.zero_apply, mul_eq_zero, Complex.exp_ne_zero, or_false] at this
  rw [← poly_eval]
  exact this.resolve_left hk

end Verif.FriOpt
