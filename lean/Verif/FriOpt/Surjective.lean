import Verif.FriOpt.Lemmas
import Mathlib.LinearAlgebra.Dual.Lemmas

namespace Verif.FriOpt

open Matrix FriAlg ComplexConjugate

theorem get_add {n : ℕ} (v w : Fin n → ℂ) (i : ℕ) : get (v + w) i = get v i + get w i := by
  unfold FriAlg.get
  split <;> simp

theorem get_smul {n : ℕ} (s : ℂ) (v : Fin n → ℂ) (i : ℕ) : get (s • v) i = s * get v i := by
  unfold FriAlg.get
  split <;> simp

theorem conv_add {L K : ℕ} (f : Fin (K + 1) → ℂ) (v w : Fin L → ℂ) (i : ℕ) : conv f (v + w) i = conv f v i + conv f w i := by
  unfold conv
  rw [← Finset.sum_add_distrib]
  exact Finset.sum_congr rfl fun l _ => by rw [get_add, mul_add]

theorem conv_smul {L K : ℕ} (f : Fin (K + 1) → ℂ) (s : ℂ) (v : Fin L → ℂ) (i : ℕ) : conv f (s • v) i = s * conv f v i := by
  unfold conv
  rw [Finset.mul_sum]
  exact Finset.sum_congr rfl fun l _ => by rw [get_smul]; ring

theorem conv_single {L K : ℕ} (f : Fin (K + 1) → ℂ) (j : Fin L) (i : ℕ) (hi : i < L - K) : conv f (Pi.single j 1) i = ∑ l : Fin (K + 1), if K + i - l = (j : ℕ) then f l else 0 := by
  unfold conv
  refine Finset.sum_congr rfl fun l _ => ?_
  have hl := l.2
  have h1 : K + i - l < L := by omega
  unfold FriAlg.get
  rw [dif_pos h1, Pi.single_apply]
  by_cases h : K + i - l = (j : ℕ)
  · rw [if_pos h, if_pos (Fin.ext h), mul_one]
  · rw [if_neg h, if_neg fun e => h (congrArg Fin.val e), mul_zero]

/-- Every filter other than zero can produce every output. -/
theorem conv_surj {L K : ℕ} {f : Fin (K + 1) → ℂ} (hf : f ≠ 0) (u : Fin (L - K) → ℂ) : ∃ b : Fin L → ℂ, ∀ i : Fin (L - K), conv f b i = u i := by
  let F : (Fin L → ℂ) →ₗ[ℂ] (Fin (L - K) → ℂ) :=
    { toFun := fun b i => conv f b i
      map_add' := fun v w => funext fun i => conv_add f v w i
      map_smul' := fun s v => funext fun i => conv_smul f s v i }
  suffices h : LinearMap.range F = ⊤ by
    obtain ⟨b, hb⟩ := LinearMap.range_eq_top.mp h u
    exact ⟨b, fun i => congrFun hb i⟩
  by_contra hne
  obtain ⟨g, hg0, hg⟩ := Submodule.exists_le_ker_of_lt_top _ (lt_top_iff_ne_top.mpr hne)
  set w : Fin (L - K) → ℂ := fun i => g (fun j => if i = j then 1 else 0) with hw
  have hgw : ∀ x, g x = ∑ i, x i * w i := by
    intro x
    rw [LinearMap.pi_apply_eq_sum_univ g x]
    rfl
  have hw0 : ∃ i, w i ≠ 0 := by
    by_contra hh
    push Not at hh
    apply hg0
    ext x
    rw [LinearMap.coe_comp, Function.comp_apply, hgw]
    simp [hh]
  have hl0 : ∃ l, f l ≠ 0 := by
    by_contra hh
    push Not at hh
    exact hf (funext hh)
  obtain ⟨i0, hi0, hmax⟩ := Finset.exists_max_image (Finset.univ.filter fun i => w i ≠ 0) (fun i => (i : ℕ)) ⟨hw0.choose, by simpa using hw0.choose_spec⟩
  obtain ⟨l0, hl0, hmin⟩ := Finset.exists_min_image (Finset.univ.filter fun l => f l ≠ 0) (fun l => (l : ℕ)) ⟨hl0.choose, by simpa using hl0.choose_spec⟩
  simp only [Finset.mem_filter, Finset.mem_univ, true_and] at hi0 hmax hl0 hmin
  have hi := i0.2
  have hl := l0.2
  have h1 : g (F (Pi.single ⟨K + i0 - l0, by omega⟩ 1)) = 0 := hg ⟨_, rfl⟩
  rw [hgw, Finset.sum_eq_single i0] at h1
  · change conv f (Pi.single ⟨K + i0 - l0, by omega⟩ 1) i0 * w i0 = 0 at h1
    rw [conv_single _ _ _ i0.2, Finset.sum_eq_single l0] at h1
    · rw [if_pos rfl] at h1
      exact (mul_ne_zero hl0 hi0) h1
    · intro l _ hne
      have := l.2
      rw [if_neg]
      intro e
      simp only at e
      exact hne (Fin.ext (by omega))
    · simp
  · intro i _ hne
    by_cases hwi : w i = 0
    · rw [hwi, mul_zero]
    · have h2 := hmax i hwi
      have h3 : (i : ℕ) < i0 := lt_of_le_of_ne h2 fun e => hne (Fin.ext e)
      change conv f (Pi.single _ 1) i * w i = 0
      rw [conv_single _ _ _ i.2, Finset.sum_eq_zero, zero_mul]
      intro l _
      have := l.2
      split
      · rename_i e
        simp only at e
        by_contra hfl
        have := hmin l hfl
        omega
      · rfl
  · simp

/-- The other half of a sequence. -/
noncomputable def flip {n : ℕ} (b : Fin n → ℂ) : Fin n → ℂ := fun i => conj (b i.rev)

theorem conv_flip {L K : ℕ} {f : Fin (K + 1) → ℂ} (hf : Symm f) (b : Fin L → ℂ) (i : ℕ) (hi : i < L - K) : conv f (flip b) i = conj (conv f b (L - K - 1 - i)) := by
  unfold conv
  rw [map_sum, ← Equiv.sum_comp Fin.revPerm]
  refine Finset.sum_congr rfl fun l _ => ?_
  have hl := l.2
  rw [map_mul, Fin.revPerm_apply, hf l, Fin.val_rev]
  congr 1
  have h1 : K + (L - K - 1 - i) - l < L := by omega
  have h2 : K + i - (K + 1 - ((l : ℕ) + 1)) < L := by omega
  unfold FriAlg.get flip
  rw [dif_pos h1, dif_pos h2]
  congr 2
  ext
  rw [Fin.val_rev]
  simp only
  omega

theorem conv_surj_symm {L K : ℕ} {f : Fin (K + 1) → ℂ} (hf : f ≠ 0) (hs : Symm f) {u : Fin (L - K) → ℂ} (hu : Symm u) : ∃ b : Fin L → ℂ, Symm b ∧ ∀ i : Fin (L - K), conv f b i = u i := by
  obtain ⟨b, hb⟩ := conv_surj hf u
  refine ⟨(2⁻¹ : ℂ) • (b + flip b), ?_, ?_⟩
  · intro i
    have h2 : conj (2⁻¹ : ℂ) = 2⁻¹ := by
      rw [map_inv₀, map_ofNat]
    simp only [Pi.smul_apply, Pi.add_apply, smul_eq_mul, flip, Fin.rev_rev, map_mul, map_add, h2, Complex.conj_conj]
    ring
  · intro i
    have hi := i.2
    rw [conv_smul, conv_add, conv_flip hs b i i.2, hb]
    have h1 := hb i.rev
    rw [Fin.val_rev, show L - K - ((i : ℕ) + 1) = L - K - 1 - i by omega] at h1
    rw [h1, hu i, Complex.conj_conj]
    ring

theorem shrink_val {o m : ℕ} (hm : m ≤ o) (x : Fin o → ℝ) (i : Fin m) : (mtx m o (fun i j => if j < m then eye i j else 0) *ᵥ x) i = x ⟨i, by have := i.2; omega⟩ := by
  unfold Matrix.mulVec dotProduct mtx eye
  have hi := i.2
  rw [Finset.sum_eq_single ⟨i, by omega⟩]
  · simp
  · intro j _ hj
    have : (i : ℕ) ≠ j := fun e => hj (Fin.ext e.symm)
    simp [this]
  · simp

theorem shrink_surj {o : ℕ} (v : Fin ((o + 1) / 2) ⊕ Fin (o / 2) → ℝ) : ∃ u : Fin o ⊕ Fin o → ℝ, Symm (toC u) ∧ shrink o *ᵥ u = v := by
  refine ⟨Sum.elim (fun i => v (.inl ⟨min i (o - 1 - i), by have := i.2; omega⟩))
    (fun i => if h : (i : ℕ) < o / 2 then v (.inr ⟨i, h⟩) else if h : o - 1 - i < o / 2 then -v (.inr ⟨o - 1 - i, h⟩) else 0), ?_, ?_⟩
  · intro i
    have hi := i.2
    apply Complex.ext
    · simp only [toC, Sum.elim_inl, Complex.conj_re, Fin.val_rev]
      congr 2
      ext
      simp only
      omega
    · simp only [toC, Sum.elim_inr, Complex.conj_im, Fin.val_rev]
      have e' : o - ((i : ℕ) + 1) = o - 1 - i := by omega
      simp only [e']
      by_cases h1 : (i : ℕ) < o / 2
      · have h2 : ¬ o - 1 - (i : ℕ) < o / 2 := by omega
        rw [dif_neg h2, dif_pos (by omega), dif_pos h1]
        congr 3
        ext
        simp only
        omega
      · by_cases h2 : o - 1 - (i : ℕ) < o / 2
        · rw [dif_pos h2, dif_neg h1, dif_pos h2, neg_neg]
        · rw [dif_neg h2, dif_neg h1, dif_neg (by omega), dif_neg h2, neg_zero]
  · unfold shrink
    rw [fromBlocks_mulVec]
    simp only [Matrix.zero_mulVec, add_zero, zero_add]
    funext i
    cases i with
    | inl i =>
      have hi := i.2
      rw [Sum.elim_inl, shrink_val (by omega)]
      simp only [Function.comp, Sum.elim_inl]
      congr 2
      ext
      simp only
      omega
    | inr i =>
      have hi := i.2
      rw [Sum.elim_inr, shrink_val (by omega)]
      simp only [Function.comp, Sum.elim_inr]
      rw [dif_pos hi]

/-- A half filter other than zero. -/
theorem coefD_ne_zero {K : ℕ} {c : Fil K → ℝ} (hc : c ≠ 0) : toC (coefD K *ᵥ c) ≠ 0 := by
  intro h
  obtain ⟨y, _, hy⟩ := (C119_filter K).2 0 (fun i => by simp)
  have h0 : toC (coefD K *ᵥ (0 : Fil K → ℝ)) = 0 := by
    rw [Matrix.mulVec_zero]
    rfl
  exact hc ((hy c h).trans (hy 0 h0).symm)

/-- The right dual matrix of every filter other than zero has full row rank. -/
theorem rmtxHalf_surj {M K : ℕ} {c : Fil K → ℝ} (hc : c ≠ 0) (v : Out M K → ℝ) : ∃ b, rmtxHalf M K c *ᵥ b = v := by
  obtain ⟨u, hu, hv⟩ := shrink_surj v
  obtain ⟨b, hb, hconv⟩ := conv_surj_symm (L := 2 * (M + 1) - 1) (coefD_ne_zero hc) ((C119_filter K).1 c) hu
  obtain ⟨x, hx, _⟩ := (C119_sequence M).2 b hb
  refine ⟨x, ?_⟩
  unfold rmtxHalf
  rw [← Matrix.mulVec_mulVec, ← hv]
  congr 1
  apply toC_injective
  funext i
  rw [rmtx_conv, hx, hconv]

end Verif.FriOpt
