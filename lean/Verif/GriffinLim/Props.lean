import Verif.GriffinLim.Model
import Verif.STFT.Props
import Verif.Bands.AntoniTransform

/-!
# C84: phase reconstruction
-/

namespace Verif.GriffinLim

open Verif.Py Verif.DFT Verif.STFT Finset

/-! ## Specification -/

/-- A signal continued to the left by its own end. -/
def wrap (y : List ℝ) (i : Int) : ℝ := if 0 ≤ i then y.getD i.toNat 0 else y.getD (y.length + i).toNat 0

/-- Frame `k` of the short-time transform of a signal continued in this way, at all `N` frequencies. -/
noncomputable def spectrum (N hop : Nat) (w y : List ℝ) (k j : Nat) : ℂ :=
  ∑ i ∈ range N, ((w.getD i 0 * wrap y (((k + 1) * hop : Nat) - N + i) : ℝ) : ℂ) * Complex.exp (-(2 * Real.pi * Complex.I * (i : ℂ) * (j : ℂ) / (N : ℂ)))

/-- Distance of the magnitudes to those given. -/
noncomputable def distance (N hop : Nat) (w : List ℝ) (X : List (Nat → ℝ)) (y : List ℝ) : ℝ :=
  ∑ k ∈ range X.length, ∑ j ∈ range N, (‖spectrum N hop w y k j‖ - X.getD k (fun _ => 0) (if j ≤ N / 2 then j else N - j)) ^ 2

/-! ## Fourier transform -/

theorem dft_idft {N : Nat} (Z : Nat → ℂ) {k : Nat} (hk : k < N) : dft N (idft N Z) k = Z k := by
  have hN : 0 < N := by omega
  have hN0 : (N : ℂ) ≠ 0 := by exact_mod_cast hN.ne'
  unfold idft dft
  simp only [div_mul_eq_mul_div, sum_mul]
  rw [← sum_div, sum_comm]
  have h : ∀ l ∈ range N, ∑ n ∈ range N, Z l * tw N ((n : Int) * l) * tw N (-((n : Int) * k)) = if l = k then Z k * N else 0 := by
    intro l hl
    have hl' := mem_range.mp hl
    have h1 : ∀ n ∈ range N, Z l * tw N ((n : Int) * l) * tw N (-((n : Int) * k)) = Z l * tw N (((l : Int) - k) * n) := by
      intro n _
      rw [mul_assoc, ← tw_add]
      congr 2
      ring
    rw [sum_congr rfl h1, ← mul_sum, sum_tw hN]
    by_cases hlk : l = k
    · subst hlk
      simp
    · rw [if_neg hlk, if_neg, mul_zero]
      intro hd
      have := Int.eq_zero_of_abs_lt_dvd hd (by rw [abs_lt]; omega)
      omega
  rw [sum_congr rfl h, sum_ite_eq', if_pos (mem_range.mpr hk)]
  field_simp

/-- The coefficients of a real signal, each multiplied by a real number. -/
theorem herm_real {N : Nat} (x : Nat → ℝ) (r : Nat → ℝ) {k : Nat} (hk : k < N) :
    hermExt N (fun j => rfft N x j * (r j : ℂ)) k = rfft N x k * (r (if k ≤ N / 2 then k else N - k) : ℂ) := by
  have hN : 0 < N := by omega
  unfold hermExt
  by_cases h : k ≤ N / 2
  · rw [if_pos h, if_pos h]
  · rw [if_neg h, if_neg h, map_mul, Complex.conj_ofReal]
    unfold rfft
    rw [dft_conj hN x (by omega)]

theorem idft_herm_real {N : Nat} (x : Nat → ℝ) (r : Nat → ℝ) (n : Nat) :
    ((irfft N (fun j => rfft N x j * (r j : ℂ)) n : ℝ) : ℂ) = idft N (hermExt N (fun j => rfft N x j * (r j : ℂ))) n := by
  unfold irfft
  rw [← Complex.conj_eq_iff_re]
  rcases Nat.eq_zero_or_pos N with rfl | hN
  · simp [idft]
  unfold idft
  rw [map_div₀, map_sum, Complex.conj_natCast]
  congr 1
  have h1 : ∀ k ∈ range N, (starRingEnd ℂ) (hermExt N (fun j => rfft N x j * (r j : ℂ)) k * tw N ((n : Int) * k)) =
      (fun k => (starRingEnd ℂ) (rfft N x k) * (r (if k ≤ N / 2 then k else N - k) : ℂ) * tw N (-((n : Int) * k))) k := by
    intro k hk
    rw [herm_real x r (mem_range.mp hk), map_mul, map_mul, Complex.conj_ofReal, tw_conj]
  have h2 : ∀ k ∈ range N, hermExt N (fun j => rfft N x j * (r j : ℂ)) k * tw N ((n : Int) * k) =
      (fun k => rfft N x k * (r (if k ≤ N / 2 then k else N - k) : ℂ) * tw N ((n : Int) * k)) k := by
    intro k hk
    rw [herm_real x r (mem_range.mp hk)]
  rw [sum_congr rfl h1, sum_congr rfl h2]
  obtain ⟨M, rfl⟩ : ∃ M, N = M + 1 := ⟨N - 1, by omega⟩
  rw [sum_range_succ', sum_range_succ']
  congr 1
  · rw [← sum_range_reflect]
    apply sum_congr rfl
    intro k hk
    have hk' := mem_range.mp hk
    have e1 : M - 1 - k + 1 = M + 1 - (k + 1) := by omega
    rw [e1]
    unfold rfft
    rw [dft_conj (by omega) x (by omega)]
    have e2 : tw (M + 1) (-((n : Int) * ((M + 1 - (k + 1) : Nat) : Int))) = tw (M + 1) ((n : Int) * ((k + 1 : Nat) : Int)) := by
      have : -((n : Int) * ((M + 1 - (k + 1) : Nat) : Int)) = (n : Int) * ((k + 1 : Nat) : Int) + -((n : Int) * ((M + 1 : Nat) : Int)) := by
        have : ((M + 1 - (k + 1) : Nat) : Int) = ((M + 1 : Nat) : Int) - ((k + 1 : Nat) : Int) := by omega
        rw [this]
        ring
      rw [this, tw_add, tw_dvd (by omega : 0 < M + 1) (m := -((n : Int) * ((M + 1 : Nat) : Int))) (Dvd.dvd.neg_right (Dvd.intro_left _ rfl)), mul_one]
    rw [e2]
    congr 3
    by_cases hh : k + 1 ≤ (M + 1) / 2
    · rw [if_pos hh]
      split <;> congr 1 <;> omega
    · rw [if_neg hh, if_pos (by omega)]
  · have := dft_conj (N := M + 1) (by omega) x (k := 0) (by omega)
    unfold rfft
    have h0 : (starRingEnd ℂ) (dft (M + 1) (fun n => (x n : ℂ)) 0) = dft (M + 1) (fun n => (x n : ℂ)) 0 := by
      unfold dft
      rw [map_sum]
      apply sum_congr rfl
      intro i _
      simp [tw_zero]
    rw [h0]
    simp

/-- Parseval, for a signal and the inverse transform of a multiple of coefficients. -/
theorem parseval_diff {N : Nat} (u x : Nat → ℝ) (r : Nat → ℝ) :
    N * ∑ i ∈ range N, (u i - irfft N (fun j => rfft N x j * (r j : ℂ)) i) ^ 2 =
      ∑ j ∈ range N, ‖rfft N u j - rfft N x j * (r (if j ≤ N / 2 then j else N - j) : ℂ)‖ ^ 2 := by
  have hb := idft_herm_real (N := N) x r
  have hz : ∀ j, j < N → dft N (idft N (hermExt N (fun j => rfft N x j * (r j : ℂ)))) j = rfft N x j * (r (if j ≤ N / 2 then j else N - j) : ℂ) := fun j hj => by
    rw [dft_idft _ hj, herm_real x r hj]
  rw [← funext hb] at hz
  generalize irfft N (fun j => rfft N x j * (r j : ℂ)) = b at hz ⊢
  rw [← Verif.Bands.parseval (n := N) fun i => u i - b i]
  apply sum_congr rfl
  intro j hj
  rw [← Complex.sq_norm, ← hz j (mem_range.mp hj)]
  congr 2
  unfold rfft dft
  rw [← sum_sub_distrib]
  apply sum_congr rfl
  intro i _
  push_cast
  ring

/-! ## One iteration -/

/-- The configuration of the object. -/
noncomputable def conf (N hop : Nat) (w : List ℝ) : Conf := ⟨N, hop, 0, 0, some w, some (synthesisWindow w hop), true, none⟩

theorem conf_ok {N hop : Nat} {w : List ℝ} (h1 : 1 ≤ hop) (h2 : hop ≤ N) (h3 : 2 ≤ N) (hw : w.length = N) : (conf N hop w).Ok := by
  refine ⟨h1, h2, by simpa [conf, Conf.nfft] using h3, ?_, ?_⟩
  · intro v hv
    simp only [conf, Option.mem_def, Option.some.injEq] at hv
    rw [← hv]
    simpa [conf, Conf.nfft] using hw
  · intro v hv
    simp only [conf, Option.mem_def, Option.some.injEq] at hv
    rw [← hv, synthesisWindow_length]
    simpa [conf, Conf.nfft] using hw

/-- Frame `k` of a signal over the integers, times the window. -/
def seg (N hop : Nat) (w : List ℝ) (g : Int → ℝ) (k i : Nat) : ℝ := w.getD i 0 * g (((k + 1) * hop : Nat) - N + i)

theorem rfft_seg {N hop : Nat} {w : List ℝ} (g : Int → ℝ) (k : Nat) : rfft N (block (conf N hop w) g ((0 : Int) + ((k + 1) * hop : Nat))) = rfft N (seg N hop w g k) := by
  apply rfft_congr
  intro i hi
  unfold block seg
  rw [if_pos (by simp only [conf]; omega)]
  simp only [conf, winAt]
  congr 2
  push_cast
  ring

/-- The new samples: the frames added up with the synthesis window, starting at `N - hop`. -/
noncomputable def fresh (N hop frames : Nat) (w : List ℝ) (Y : List (Nat → ℂ)) (j : Nat) : ℝ :=
  ola N hop frames (fun f i => (synthesisWindow w hop).getD i 0 * irfft N (Y.getD f fun _ => 0) i) (j + (N - hop))

theorem synth_spec {N hop nFreq : Nat} {w : List ℝ} (h1 : 1 ≤ hop) (h2 : hop ≤ N) (h3 : 2 ≤ N) (hw : w.length = N) {eng eng' : St} (hc : eng.conf = conf N hop w) {G : Nat → Nat → ℝ} {F : Nat}
    (ho : OutInv eng G F) {Y : List (Nat → ℂ)} {z : List ℝ} (h : synth eng nFreq Y = .ok (eng', z)) :
    nFreq = N / 2 + 1 ∧ eng'.conf = conf N hop w ∧ eng'.buf = eng.buf ∧ (∃ G F, OutInv eng' G F) ∧ z.length = Y.length * hop ∧
      ∀ j, j + (N - hop) < Y.length * hop → z.getD (j + (N - hop)) 0 = fresh N hop Y.length w Y j := by
  unfold synth at h
  have hnf : eng.conf.nfft = N := by
    rw [hc]
    simp [conf, Conf.nfft]
  rw [hnf] at h
  by_cases hn : (if Y.length = 1 then 1 else nFreq) ≠ N / 2 + 1
  · rw [if_pos hn] at h
    exact nomatch h
  · rw [if_neg hn] at h
    by_cases hl : Y.length = 0
    · rw [if_pos hl] at h
      exact nomatch h
    · rw [if_neg hl] at h
      have hn' : nFreq = N / 2 + 1 := by
        rw [not_not] at hn
        by_cases hl1 : Y.length = 1
        · rw [if_pos hl1] at hn
          omega
        · rw [if_neg hl1] at hn
          exact hn
      refine ⟨hn', ?_⟩
      unfold synthesis at h
      let G' : Nat → Nat → ℝ := fun f i => if f < F then G f i else (synthesisWindow w hop).getD i 0 * irfft N (Y.getD (f - F) fun _ => 0) i
      have ho' : OutInv { eng with X := Y, numFrames := Y.length } G' F := by
        intro i hi
        rw [show ({ eng with X := Y, numFrames := Y.length } : St).yp = eng.yp from rfl, ho i hi]
        apply sum_congr rfl
        intro f hf
        unfold STFT.ext
        simp only [G', if_pos (mem_range.mp hf)]
      obtain ⟨s', y, e, c', b', _, o', l', v'⟩ := synthLoop_spec Y (s := { eng with X := Y, numFrames := Y.length }) (G := G') (F := F) (by rw [hc]; exact conf_ok h1 h2 h3 hw) ho' (by
        intro k X hX i hi
        have hG : ¬F + k < F := by omega
        simp only [G', if_neg hG, hnf, Nat.add_sub_cancel_left]
        rw [hc, List.getD_eq_getElem?_getD (l := Y), hX]
        rfl)
      rw [e] at h
      simp only [Except.ok.injEq, Prod.mk.injEq] at h
      obtain ⟨rfl, rfl⟩ := h
      simp only [hc] at c' l' v'
      refine ⟨c', b', ⟨_, _, o'⟩, l', ?_⟩
      intro j hj
      have hN : (conf N hop w).nfft = N := by simp [conf, Conf.nfft]
      have hH : (conf N hop w).hop = hop := rfl
      rw [hH] at v' l'
      set m := j + (N - hop) with hm
      have hq : m / hop < Y.length := divmod_lt hj
      have hr : m % hop < hop := Nat.mod_lt _ h1
      have hdm : m / hop * hop + m % hop = m := by
        rw [Nat.mul_comm]
        exact Nat.div_add_mod m hop
      have hv := v' (m / hop) (m % hop) hq hr
      rw [hdm, hN] at hv
      rw [hv]
      unfold fresh
      rw [← hm]
      have := ola_eq (nfft := N) (hop := hop) (fun f i => (synthesisWindow w hop).getD i 0 * irfft N (Y.getD f fun _ => 0) i) Y.length (m / hop) (m % hop) hq hr
      rw [hdm] at this
      rw [← this, show F + m / hop + 1 = F + (m / hop + 1) by ring, sum_range_add]
      have h0 : ∑ f ∈ range F, STFT.ext N (G' f) ((F + m / hop - f) * hop + m % hop) = 0 := by
        apply sum_eq_zero
        intro f hf
        have hf' := mem_range.mp hf
        unfold STFT.ext
        rw [if_neg]
        have : (m / hop + 1) * hop ≤ (F + m / hop - f) * hop := Nat.mul_le_mul_right _ (by omega)
        have h4 : (m / hop + 1) * hop = m / hop * hop + hop := by ring
        omega
      rw [h0, zero_add]
      apply sum_congr rfl
      intro f hf
      have h5 : F + m / hop - (F + f) = m / hop - f := by omega
      rw [h5]
      unfold STFT.ext
      have hG : ¬F + f < F := by omega
      simp only [G', if_neg hG, Nat.add_sub_cancel_left]

/-- State of the loop: `g` is the signal that the object has seen and will see. -/
structure Good (N hop frames : Nat) (w : List ℝ) (g : Int → ℝ) (st : State) : Prop where
  conf : st.eng.conf = conf N hop w
  buf : BufInv st.eng g 0
  out : ∃ G F, OutInv st.eng G F
  length : st.y.length = frames * hop
  sig : ∀ i : Nat, i < frames * hop → st.y.getD i 0 = g i

/-- The spectra with the magnitudes enforced. -/
noncomputable def target (N hop : Nat) (w : List ℝ) (X : List (Nat → ℝ)) (g : Int → ℝ) : List (Nat → ℂ) :=
  (List.range X.length).map fun k j => rfft N (seg N hop w g k) j * ((X.getD k (fun _ => 0) j / ‖rfft N (seg N hop w g k) j‖ : ℝ) : ℂ)

theorem epoch_spec {N hop nFreq : Nat} {w : List ℝ} (h1 : 1 ≤ hop) (h2 : hop ≤ N) (h3 : 2 ≤ N) (hw : w.length = N) {X : List (Nat → ℝ)} {g : Int → ℝ} {st st' : State}
    (hg : Good N hop X.length w g st) (hs : N - hop ≤ X.length * hop) (h : epoch X nFreq st = .ok st') :
    hop < N ∧ nFreq = N / 2 + 1 ∧ (∀ k < X.length, ∀ j < nFreq, rfft N (seg N hop w g k) j ≠ 0) ∧ st'.Y = target N hop w X g ∧
      Good N hop X.length w (wrap st'.y) st' ∧ (∀ j, j + (N - hop) < X.length * hop → st'.y.getD j 0 = fresh N hop X.length w (target N hop w X g) j) ∧
      ∀ j, X.length * hop ≤ j + (N - hop) → st'.y.getD j 0 = st.y.getD j 0 := by
  unfold epoch at h
  have hok := conf_ok h1 h2 h3 hw
  have hpad : padded hop st.y = st.y := by
    unfold padded
    rw [hg.length, Nat.mul_mod_left, Nat.sub_zero, Nat.mod_self]
    simp
  have hceil : ceilDiv (X.length * hop) hop = X.length := by
    have := ceilDiv_mul h1 (X.length * hop)
    rw [Nat.mul_mod_left, Nat.sub_zero, Nat.mod_self, Nat.add_zero] at this
    exact Nat.eq_of_mul_eq_mul_right h1 this
  obtain ⟨s', e, _, b', c', y', _⟩ := analysis_spec (s := st.eng) (g := g) (t := 0) (by rw [hg.conf]; exact hok) (by rw [hg.conf]; rfl) hg.buf st.y (by rw [hg.conf]; simp [GriffinLim.conf]) (by
    rw [hg.conf]
    change ∀ i, i < (padded hop st.y).length → (padded hop st.y).getD i 0 = _
    rw [hpad, hg.length]
    intro i hi
    rw [zero_add]
    exact hg.sig i hi)
  rw [hg.conf] at e b'
  change BufInv s' g (0 + ((padded hop st.y).length : Int)) at b'
  rw [hpad, hg.length] at b'
  change analysis st.eng st.y = .ok (s', (List.range (ceilDiv st.y.length hop)).map (fun k : Nat => rfft N (block (GriffinLim.conf N hop w) g (0 + ((k + 1) * hop : Nat))))) at e
  rw [hg.length, hceil] at e
  simp only [rfft_seg] at e
  rw [e] at h
  dsimp only at h
  split at h
  · exact nomatch h
  · rename_i Y hY
    unfold enforce at hY
    split at hY
    · exact nomatch hY
    · rename_i hne
      rw [Except.ok.injEq] at hY
      have hYt : Y = target N hop w X g := by
        rw [← hY]
        unfold target
        apply List.ext_getElem
        · simp
        · intro k hk1 hk2
          simp only [List.length_map, List.length_range] at hk2
          simp only [List.getElem_zipWith, List.getElem_map, List.getElem_range, List.getD_eq_getElem _ _ hk2]
      have hYl : Y.length = X.length := by
        rw [hYt]
        simp [target]
      split at h
      · exact nomatch h
      · rename_i eng2 z hz
        obtain ⟨G, F, hGF⟩ := hg.out
        obtain ⟨hn, c2, b2, o2, l2, v2⟩ := synth_spec h1 h2 h3 hw (eng := s') (c'.trans hg.conf) (G := G) (F := F) (by
          intro i hi
          rw [c'] at hi ⊢
          rw [y']
          exact hGF i hi) hz
        rw [hYl] at l2 v2
        split at h
        · exact nomatch h
        · rename_i y hy
          unfold moveInto at hy
          split at hy
          · exact nomatch hy
          · rename_i hsh
            have hsh' : eng2.conf.N - eng2.conf.hop = N - hop := by rw [c2]; rfl
            rw [hsh'] at hsh hy
            rw [Except.ok.injEq] at hy h
            subst h
            dsimp only
            have hlen : y.length = X.length * hop := by
              rw [← hy]
              simp only [List.length_append, List.length_drop, l2, hg.length]
              omega
            have hhead : ∀ j, j + (N - hop) < X.length * hop → y.getD j 0 = z.getD (j + (N - hop)) 0 := by
              intro j hj
              rw [← hy, flatten_getD_left _ _ (by rw [List.length_drop, l2]; omega)]
              rw [List.getD_eq_getElem?_getD, List.getD_eq_getElem?_getD, List.getElem?_drop, Nat.add_comm]
            have htail : ∀ j, X.length * hop ≤ j + (N - hop) → y.getD j 0 = st.y.getD j 0 := by
              intro j hj
              obtain ⟨i, rfl⟩ : ∃ i, j = (z.drop (N - hop)).length + i := ⟨j - (z.drop (N - hop)).length, by rw [List.length_drop, l2]; omega⟩
              rw [← hy, flatten_getD_right]
              rw [List.getD_eq_getElem?_getD, List.getD_eq_getElem?_getD, List.getElem?_drop, List.length_drop, l2, hg.length]
            refine ⟨by omega, hn, ?_, hYt, ⟨c2, ?_, o2, hlen, ?_⟩, ?_, htail⟩
            · intro k hk j hj h0
              exact hne ⟨_, List.mem_map.mpr ⟨k, List.mem_range.mpr hk, rfl⟩, j, hj, h0⟩
            · intro i hi
              have hci : s'.conf = GriffinLim.conf N hop w := c'.trans hg.conf
              have := b' i (by rw [hci, ← c2]; exact hi)
              rw [b2, c2]
              rw [hci] at this
              refine ⟨fun hb => ?_, this.2⟩
              rw [this.1 hb]
              have hb2 : i < N - hop := by simpa [GriffinLim.conf, Conf.nState] using hb.2
              change g (0 + ((X.length * hop : Nat) : Int) - ((N - hop : Nat) : Int) + ((i : Int) - ((0 : Nat) : Int))) = wrap y (0 - ((N - hop : Nat) : Int) + ((i : Int) - ((0 : Nat) : Int)))
              unfold wrap
              rw [if_neg (by omega), hlen, htail _ (by omega), hg.sig _ (by omega)]
              congr 1
              omega
            · intro i _
              unfold wrap
              rw [if_pos (by omega)]
              rfl
            · intro j hj
              rw [hhead j hj, v2 j hj, hYt]

/-! ## Least squares -/

theorem by_position {N hop n : Nat} (h2 : hop ≤ N) (φ : Nat → Nat → ℝ) :
    ∑ f ∈ range n, ∑ i ∈ range N, φ f i = ∑ m ∈ range (n * hop + (N - hop)), ∑ f ∈ range n, if f * hop ≤ m ∧ m - f * hop < N then φ f (m - f * hop) else 0 := by
  rw [sum_comm (s := range (n * hop + (N - hop)))]
  apply sum_congr rfl
  intro f hf
  have hf' : (f + 1) * hop ≤ n * hop := Nat.mul_le_mul_right _ (mem_range.mp hf)
  have h4 : (f + 1) * hop = f * hop + hop := by ring
  rw [← sum_filter]
  apply sum_nbij' (fun i => i + f * hop) (fun m => m - f * hop)
  · intro i hi
    have := mem_range.mp hi
    simp only [mem_filter, mem_range]
    omega
  · intro m hm
    simp only [mem_filter, mem_range] at hm ⊢
    omega
  · intro i _
    omega
  · intro m hm
    simp only [mem_filter, mem_range] at hm
    omega
  · intro i _
    rw [Nat.add_sub_cancel]

theorem least_squares {n : Nat} (c : Nat → Prop) [DecidablePred c] (a b : Nat → ℝ) (hS : (∑ f ∈ range n, if c f then a f ^ 2 else 0) ≠ 0) (y : ℝ) :
    (∑ f ∈ range n, if c f then (a f * ((∑ f ∈ range n, if c f then a f * b f else 0) / ∑ f ∈ range n, if c f then a f ^ 2 else 0) - b f) ^ 2 else 0) ≤
      ∑ f ∈ range n, if c f then (a f * y - b f) ^ 2 else 0 := by
  have h : ∀ y : ℝ, (∑ f ∈ range n, if c f then (a f * y - b f) ^ 2 else 0) =
      (∑ f ∈ range n, if c f then a f ^ 2 else 0) * y ^ 2 - 2 * y * (∑ f ∈ range n, if c f then a f * b f else 0) + ∑ f ∈ range n, if c f then b f ^ 2 else 0 := by
    intro y
    rw [sum_mul, mul_sum, ← sum_sub_distrib, ← sum_add_distrib]
    apply sum_congr rfl
    intro f _
    split <;> ring
  have hpos : 0 < ∑ f ∈ range n, if c f then a f ^ 2 else 0 := by
    refine lt_of_le_of_ne (sum_nonneg fun f _ => ?_) hS.symm
    split
    · exact sq_nonneg _
    · exact le_refl _
  rw [h, h]
  generalize (∑ f ∈ range n, if c f then a f ^ 2 else 0) = S at hpos
  generalize (∑ f ∈ range n, if c f then a f * b f else 0) = B
  have : S * (B / S) ^ 2 - 2 * (B / S) * B = -(B ^ 2 / S) := by
    field_simp
    ring
  have h2 : 0 ≤ (S * y - B) ^ 2 / S := by positivity
  have h3 : (S * y - B) ^ 2 / S = S * y ^ 2 - 2 * y * B + B ^ 2 / S := by
    field_simp
    ring
  linarith

/-- No sample of the signal is without a frame that sees it. -/
def Covered (N hop : Nat) (w : List ℝ) : Prop := ∀ i, i < hop → ∑ t ∈ (range N).filter (fun t => t % hop = i), (w.getD t 0) ^ 2 ≠ 0

/-- The new samples are the best ones given the frames. -/
theorem fresh_best {N hop n : Nat} {w : List ℝ} (h1 : 1 ≤ hop) (h2 : hop ≤ N) (hw : w.length = N) (hcov : Covered N hop w) (Y : List (Nat → ℂ)) {g g' : Int → ℝ}
    (hnew : ∀ j : Nat, j + (N - hop) < n * hop → g' j = fresh N hop n w Y j) (hold : ∀ i : Nat, i < N - hop → g' ((i : Int) - (N - hop : Nat)) = g ((i : Int) - (N - hop : Nat)))
    (hend : ∀ j : Nat, n * hop ≤ j + (N - hop) → j < n * hop → g' j = g j) :
    ∑ f ∈ range n, ∑ i ∈ range N, (seg N hop w g' f i - irfft N (Y.getD f fun _ => 0) i) ^ 2 ≤ ∑ f ∈ range n, ∑ i ∈ range N, (seg N hop w g f i - irfft N (Y.getD f fun _ => 0) i) ^ 2 := by
  rw [by_position h2, by_position h2]
  apply sum_le_sum
  intro m hm
  have hm' := mem_range.mp hm
  have hseg : ∀ g : Int → ℝ, ∀ f, f * hop ≤ m ∧ m - f * hop < N → seg N hop w g f (m - f * hop) = w.getD (m - f * hop) 0 * g ((m : Int) - (N - hop : Nat)) := by
    intro g f hf
    unfold seg
    congr 2
    have h4 : (f + 1) * hop = f * hop + hop := by ring
    omega
  by_cases hmid : N - hop ≤ m ∧ m < n * hop
  · obtain ⟨j, rfl⟩ : ∃ j, m = j + (N - hop) := ⟨m - (N - hop), by omega⟩
    have hj : ((j + (N - hop) : Nat) : Int) - (N - hop : Nat) = j := by omega
    rw [hj] at hseg
    have hS : (∑ f ∈ range n, if f * hop ≤ j + (N - hop) ∧ j + (N - hop) - f * hop < N then w.getD (j + (N - hop) - f * hop) 0 ^ 2 else 0) =
        ∑ t ∈ (range N).filter (fun t => t % hop = (j + (N - hop)) % hop), (w.getD t 0) ^ 2 := sum_class (fun t => w.getD t 0 ^ 2) h1 (by omega) hmid.2
    have hne := hcov ((j + (N - hop)) % hop) (Nat.mod_lt _ h1)
    have hfr : g' j = (∑ f ∈ range n, if f * hop ≤ j + (N - hop) ∧ j + (N - hop) - f * hop < N then w.getD (j + (N - hop) - f * hop) 0 * irfft N (Y.getD f fun _ => 0) (j + (N - hop) - f * hop) else 0) /
        ∑ f ∈ range n, if f * hop ≤ j + (N - hop) ∧ j + (N - hop) - f * hop < N then w.getD (j + (N - hop) - f * hop) 0 ^ 2 else 0 := by
      rw [hnew j hmid.2, hS, sum_div]
      unfold fresh ola
      apply sum_congr rfl
      intro f _
      by_cases hc : f * hop ≤ j + (N - hop) ∧ j + (N - hop) - f * hop < N
      · rw [if_pos hc, if_pos hc]
        dsimp only
        rw [synthesisWindow_getD w h1 (by rw [hw]; exact hc.2)]
        unfold classSum
        have : (j + (N - hop) - f * hop) % hop = (j + (N - hop)) % hop := by
          rw [Nat.mul_comm]
          exact Nat.sub_mul_mod (by rw [Nat.mul_comm]; exact hc.1)
        rw [hw, this]
        ring
      · rw [if_neg hc, if_neg hc, zero_div]
    have hl := least_squares (n := n) (fun f => f * hop ≤ j + (N - hop) ∧ j + (N - hop) - f * hop < N) (fun f => w.getD (j + (N - hop) - f * hop) 0)
      (fun f => irfft N (Y.getD f fun _ => 0) (j + (N - hop) - f * hop)) (by rw [hS]; exact hne) (g j)
    rw [← hfr] at hl
    have hE : ∀ u : Int → ℝ, (∑ f ∈ range n, if f * hop ≤ j + (N - hop) ∧ j + (N - hop) - f * hop < N then
        (seg N hop w u f (j + (N - hop) - f * hop) - irfft N (Y.getD f fun _ => 0) (j + (N - hop) - f * hop)) ^ 2 else 0) =
        ∑ f ∈ range n, if f * hop ≤ j + (N - hop) ∧ j + (N - hop) - f * hop < N then
          (w.getD (j + (N - hop) - f * hop) 0 * u j - irfft N (Y.getD f fun _ => 0) (j + (N - hop) - f * hop)) ^ 2 else 0 := by
      intro u
      apply sum_congr rfl
      intro f _
      split
      · rename_i hc
        rw [hseg u f hc]
      · rfl
    rw [hE, hE]
    exact hl
  · apply le_of_eq
    apply sum_congr rfl
    intro f _
    split
    · rename_i hc
      rw [hseg g' f hc, hseg g f hc]
      have : g' ((m : Int) - (N - hop : Nat)) = g ((m : Int) - (N - hop : Nat)) := by
        by_cases hm1 : m < N - hop
        · exact hold m hm1
        · have : ((m : Int) - (N - hop : Nat)) = ((m - (N - hop) : Nat) : Int) := by omega
          rw [this]
          exact hend _ (by omega) (by omega)
      rw [this]
    · rfl

/-! ## Monotonicity -/

theorem spectrum_eq {N hop : Nat} (w y : List ℝ) (k j : Nat) : spectrum N hop w y k j = rfft N (seg N hop w (wrap y) k) j := by
  unfold spectrum rfft dft seg tw
  apply sum_congr rfl
  intro i _
  congr 2
  push_cast
  ring

theorem distance_eq {N hop : Nat} (w : List ℝ) (X : List (Nat → ℝ)) (y : List ℝ) :
    distance N hop w X y = ∑ k ∈ range X.length, ∑ j ∈ range N, (‖rfft N (seg N hop w (wrap y) k) j‖ - X.getD k (fun _ => 0) (if j ≤ N / 2 then j else N - j)) ^ 2 := by
  unfold distance
  simp only [spectrum_eq]

theorem norm_mirror {N : Nat} (x : Nat → ℝ) {j : Nat} (hj : j < N) : ‖rfft N x (if j ≤ N / 2 then j else N - j)‖ = ‖rfft N x j‖ := by
  split
  · rfl
  · unfold rfft
    rw [← dft_conj (by omega) x (k := j) (by omega), RCLike.norm_conj]

/-- One iteration from a signal that the object sees continued by its own end. -/
theorem epoch_mono {N hop nFreq : Nat} {w : List ℝ} (h1 : 1 ≤ hop) (h2 : hop ≤ N) (h3 : 2 ≤ N) (hw : w.length = N) (hcov : Covered N hop w) {X : List (Nat → ℝ)}
    (hX : ∀ k < X.length, ∀ j < nFreq, 0 ≤ X.getD k (fun _ => 0) j) {st st' : State} (hg : Good N hop X.length w (wrap st.y) st) (hs : N - hop ≤ X.length * hop)
    (h : epoch X nFreq st = .ok st') : distance N hop w X st'.y ≤ distance N hop w X st.y := by
  obtain ⟨hlt, hn, hne, hY, hg', hnew, hend⟩ := epoch_spec h1 h2 h3 hw hg hs h
  have hN0 : (0 : ℝ) < N := by exact_mod_cast (by omega : 0 < N)
  have hidx : ∀ j, j < N → (if j ≤ N / 2 then j else N - j) < nFreq := by
    intro j hj
    rw [hn]
    split <;> omega
  have hT : ∀ k < X.length, (target N hop w X (wrap st.y)).getD k (fun _ => 0) = fun j => rfft N (seg N hop w (wrap st.y) k) j * ((X.getD k (fun _ => 0) j / ‖rfft N (seg N hop w (wrap st.y) k) j‖ : ℝ) : ℂ) := by
    intro k hk
    unfold target
    rw [List.getD_eq_getElem _ _ (by simpa using hk)]
    simp
  have hls := fresh_best (n := X.length) h1 h2 hw hcov (target N hop w X (wrap st.y)) (g := wrap st.y) (g' := wrap st'.y) (by
      intro j hj
      rw [← hnew j hj, ← hg'.sig j (by omega)]) (by
      intro i hi
      unfold wrap
      rw [if_neg (by omega), if_neg (by omega), hg'.length, hg.length]
      exact hend _ (by omega)) (by
      intro j hj1 hj2
      rw [← hg'.sig j hj2, ← hg.sig j hj2]
      exact hend j hj1)
  have hP : ∀ u : Int → ℝ, (N : ℝ) * ∑ f ∈ range X.length, ∑ i ∈ range N, (seg N hop w u f i - irfft N ((target N hop w X (wrap st.y)).getD f fun _ => 0) i) ^ 2 =
      ∑ k ∈ range X.length, ∑ j ∈ range N, ‖rfft N (seg N hop w u k) j - rfft N (seg N hop w (wrap st.y) k) j *
        ((X.getD k (fun _ => 0) (if j ≤ N / 2 then j else N - j) / ‖rfft N (seg N hop w (wrap st.y) k) j‖ : ℝ) : ℂ)‖ ^ 2 := by
    intro u
    rw [mul_sum]
    apply sum_congr rfl
    intro k hk
    rw [hT k (mem_range.mp hk), parseval_diff (seg N hop w u k) (seg N hop w (wrap st.y) k) fun j => X.getD k (fun _ => 0) j / ‖rfft N (seg N hop w (wrap st.y) k) j‖]
    apply sum_congr rfl
    intro j hj
    rw [norm_mirror _ (mem_range.mp hj)]
  have hmul := mul_le_mul_of_nonneg_left hls hN0.le
  rw [hP, hP] at hmul
  rw [distance_eq, distance_eq]
  have hnz : ∀ k < X.length, ∀ j < N, ‖rfft N (seg N hop w (wrap st.y) k) j‖ ≠ 0 := by
    intro k hk j hj h0
    rw [← norm_mirror _ hj, norm_eq_zero] at h0
    exact hne k hk _ (hidx j hj) h0
  calc _ ≤ _ := by
        apply sum_le_sum
        intro k hk
        apply sum_le_sum
        intro j hj
        have hx := hX k (mem_range.mp hk) _ (hidx j (mem_range.mp hj))
        have hnz' := hnz k (mem_range.mp hk) j (mem_range.mp hj)
        have hy : ‖rfft N (seg N hop w (wrap st.y) k) j * ((X.getD k (fun _ => 0) (if j ≤ N / 2 then j else N - j) / ‖rfft N (seg N hop w (wrap st.y) k) j‖ : ℝ) : ℂ)‖ =
            X.getD k (fun _ => 0) (if j ≤ N / 2 then j else N - j) := by
          rw [norm_mul, Complex.norm_real, Real.norm_of_nonneg (by positivity)]
          field_simp
        have := abs_norm_sub_norm_le (rfft N (seg N hop w (wrap st'.y) k) j)
          (rfft N (seg N hop w (wrap st.y) k) j * ((X.getD k (fun _ => 0) (if j ≤ N / 2 then j else N - j) / ‖rfft N (seg N hop w (wrap st.y) k) j‖ : ℝ) : ℂ))
        rw [hy] at this
        rw [← sq_abs (‖rfft N (seg N hop w (wrap st'.y) k) j‖ - _)]
        exact pow_le_pow_left₀ (abs_nonneg _) this 2
    _ ≤ _ := hmul
    _ = _ := by
        apply sum_congr rfl
        intro k hk
        apply sum_congr rfl
        intro j hj
        have hnz' := hnz k (mem_range.mp hk) j (mem_range.mp hj)
        have : rfft N (seg N hop w (wrap st.y) k) j - rfft N (seg N hop w (wrap st.y) k) j * ((X.getD k (fun _ => 0) (if j ≤ N / 2 then j else N - j) / ‖rfft N (seg N hop w (wrap st.y) k) j‖ : ℝ) : ℂ) =
            rfft N (seg N hop w (wrap st.y) k) j * ((1 - X.getD k (fun _ => 0) (if j ≤ N / 2 then j else N - j) / ‖rfft N (seg N hop w (wrap st.y) k) j‖ : ℝ) : ℂ) := by
          push_cast
          ring
        rw [this, norm_mul, Complex.norm_real, Real.norm_eq_abs, mul_pow, sq_abs, ← mul_pow]
        congr 1
        field_simp

/-! ## The whole function -/

/-- A signal continued to the left by zeros. -/
def quiet (y : List ℝ) (i : Int) : ℝ := if 0 ≤ i then y.getD i.toNat 0 else 0

theorem start_spec {N hop nFreq : Nat} {w : List ℝ} (h1 : 1 ≤ hop) (h2 : hop ≤ N) (h3 : 2 ≤ N) (hw : w.length = N) {X : List (Nat → ℝ)} {fftSize : Option Nat} (hN : fftSize.getD (2 * (nFreq - 1)) = N)
    {ini : Option (Nat → Nat → ℂ)} (hs : N - hop ≤ X.length * hop) {st : State} (h : start X nFreq hop w fftSize ini = .ok st) :
    hop < N ∧ nFreq = N / 2 + 1 ∧ Good N hop X.length w (quiet st.y) st ∧
      ∃ p, phases X.length nFreq ini = .ok p ∧ (∀ j, j + (N - hop) < X.length * hop → st.y.getD j 0 = fresh N hop X.length w (X.mapIdx fun k x j => (x j : ℂ) * p k j) j) ∧
        (∀ j, X.length * hop ≤ j + (N - hop) → N - hop ≤ j → j < X.length * hop → st.y.getD j 0 = st.y.getD (j - (N - hop)) 0) := by
  unfold start at h
  split at h
  · exact nomatch h
  · rename_i p hp
    dsimp only at h
    rw [hN] at h
    unfold create at h
    rw [if_neg (by omega)] at h
    dsimp only at h
    split at h
    · exact nomatch h
    · rename_i eng1 z hz
      obtain ⟨hn, c2, b2, o2, l2, v2⟩ := synth_spec h1 h2 h3 hw (eng := makeBuffers (conf N hop w) none 0) rfl (G := fun _ _ => 0) (F := 0) (by
        intro i _
        simp [makeBuffers]) hz
      rw [List.length_mapIdx] at l2 v2
      split at h
      · exact nomatch h
      · rename_i y hy
        unfold moveInto at hy
        split at hy
        · exact nomatch hy
        · rename_i hsh
          rw [Except.ok.injEq] at hy h
          subst h
          have hlen : y.length = X.length * hop := by
            rw [← hy]
            simp only [List.length_append, List.length_drop, l2]
            omega
          have hhead : ∀ j, j + (N - hop) < X.length * hop → y.getD j 0 = z.getD (j + (N - hop)) 0 := by
            intro j hj
            rw [← hy, flatten_getD_left _ _ (by rw [List.length_drop, l2]; omega)]
            rw [List.getD_eq_getElem?_getD, List.getD_eq_getElem?_getD, List.getElem?_drop, Nat.add_comm]
          refine ⟨by omega, hn, ⟨c2, ?_, o2, hlen, ?_⟩, p, hp, ?_, ?_⟩
          · intro i hi
            dsimp only
            rw [b2, c2]
            refine ⟨fun hb => ?_, fun _ => rfl⟩
            have hb2 : i < N - hop := by simpa [GriffinLim.conf, Conf.nState] using hb.2
            change 0 = quiet y (0 - ((N - hop : Nat) : Int) + ((i : Int) - ((0 : Nat) : Int)))
            unfold quiet
            rw [if_neg (by omega)]
          · intro i _
            unfold quiet
            rw [if_pos (by omega)]
            rfl
          · intro j hj
            dsimp only
            rw [← v2 j hj, hhead j hj]
          · intro j hj1 hj2 hj3
            dsimp only
            rw [hhead (j - (N - hop)) (by omega), Nat.sub_add_cancel hj2]
            obtain ⟨i, rfl⟩ : ∃ i, j = (z.drop (N - hop)).length + i := ⟨j - (z.drop (N - hop)).length, by rw [List.length_drop, l2]; omega⟩
            rw [← hy, flatten_getD_right]
            rw [List.getD_eq_getElem?_getD, List.getD_eq_getElem?_getD, List.getElem?_drop, List.length_drop, l2]

theorem loop_add (X : List (Nat → ℝ)) (nFreq a b : Nat) (st : State) : loop X nFreq (a + b) st = match loop X nFreq a st with | .error e => .error e | .ok st1 => loop X nFreq b st1 := by
  induction a generalizing st with
  | zero =>
    rw [Nat.zero_add]
    rfl
  | succ a ih =>
    rw [show a + 1 + b = (a + b) + 1 by ring]
    have e : ∀ n, loop X nFreq (n + 1) st = match epoch X nFreq st with | .error e => .error e | .ok st1 => loop X nFreq n st1 := fun _ => rfl
    rw [e, e]
    cases epoch X nFreq st with
    | error e => rfl
    | ok st1 => exact ih st1

theorem griffin_ok {X : List (Nat → ℝ)} {nFreq hop : Nat} {w : List ℝ} {fftSize : Option Nat} {ini : Option (Nat → Nat → ℂ)} {n : Nat} {cb : Bool} {y : List ℝ}
    (h : griffinLim X nFreq hop w fftSize ini n cb = .ok y) : ∃ st st', start X nFreq hop w fftSize ini = .ok st ∧ loop X nFreq n st = .ok st' ∧ y = st'.y := by
  unfold griffinLim at h
  split at h
  · exact nomatch h
  · rename_i st hst
    split at h
    · exact nomatch h
    · rename_i st1 hl
      split at h
      · exact nomatch h
      · rw [Except.ok.injEq] at h
        exact ⟨st, st1, hst, hl, h.symm⟩

/-- After any number of iterations. -/
theorem loop_spec {N hop nFreq : Nat} {w : List ℝ} (h1 : 1 ≤ hop) (h2 : hop ≤ N) (h3 : 2 ≤ N) (hw : w.length = N) {X : List (Nat → ℝ)} (hs : N - hop ≤ X.length * hop) (n : Nat) {g : Int → ℝ} {st st' : State}
    (hg : Good N hop X.length w g st) (h : loop X nFreq n st = .ok st') :
    (∃ g', Good N hop X.length w g' st' ∧ (1 ≤ n → g' = wrap st'.y) ∧ (n = 0 → g' = g)) ∧ ∀ j, X.length * hop ≤ j + (N - hop) → st'.y.getD j 0 = st.y.getD j 0 := by
  induction n generalizing st g with
  | zero =>
    unfold loop at h
    rw [Except.ok.injEq] at h
    subst h
    exact ⟨⟨g, hg, fun h => by omega, fun _ => rfl⟩, fun _ _ => rfl⟩
  | succ n ih =>
    unfold loop at h
    split at h
    · exact nomatch h
    · rename_i st1 he
      obtain ⟨_, _, _, _, hg1, _, ht⟩ := epoch_spec h1 h2 h3 hw hg hs he
      obtain ⟨⟨g', hg', hw', h0'⟩, ht'⟩ := ih hg1 h
      refine ⟨⟨g', hg', fun _ => ?_, fun h => by omega⟩, fun j hj => (ht' j hj).trans (ht j hj)⟩
      rcases Nat.eq_zero_or_pos n with hn | hn
      · subst hn
        unfold loop at h
        rw [Except.ok.injEq] at h
        rw [h0' rfl, h]
      · exact hw' hn

/-- **C84** From the first iteration on, more iterations do not give magnitudes further away from those given. -/
theorem C84_monotone {N hop nFreq : Nat} {w : List ℝ} (h1 : 1 ≤ hop) (h2 : hop ≤ N) (h3 : 2 ≤ N) (hw : w.length = N) (hcov : Covered N hop w) {X : List (Nat → ℝ)}
    (hX : ∀ k < X.length, ∀ j < nFreq, 0 ≤ X.getD k (fun _ => 0) j) {fftSize : Option Nat} (hN : fftSize.getD (2 * (nFreq - 1)) = N) {ini : Option (Nat → Nat → ℂ)} (hs : N - hop ≤ X.length * hop)
    {a b : Nat} (ha : 1 ≤ a) (hab : a ≤ b) {c c' : Bool} {ya yb : List ℝ} (hya : griffinLim X nFreq hop w fftSize ini a c = .ok ya) (hyb : griffinLim X nFreq hop w fftSize ini b c' = .ok yb) :
    distance N hop w X yb ≤ distance N hop w X ya := by
  obtain ⟨st, st1, hst, hla, rfl⟩ := griffin_ok hya
  obtain ⟨st', st2, hst', hlb, rfl⟩ := griffin_ok hyb
  rw [hst, Except.ok.injEq] at hst'
  subst hst'
  obtain ⟨_, _, hg, _⟩ := start_spec h1 h2 h3 hw hN hs hst
  obtain ⟨⟨g1, hg1, hw1, -⟩, -⟩ := loop_spec h1 h2 h3 hw hs a hg hla
  rw [hw1 ha] at hg1
  obtain ⟨d, rfl⟩ : ∃ d, b = a + d := ⟨b - a, by omega⟩
  rw [loop_add, hla] at hlb
  dsimp only at hlb
  clear hla hg hw1 hyb hya hst hab
  induction d generalizing st1 with
  | zero =>
    unfold loop at hlb
    rw [Except.ok.injEq] at hlb
    rw [hlb]
  | succ d ih =>
    unfold loop at hlb
    split at hlb
    · exact nomatch hlb
    · rename_i st3 he
      have hm := epoch_mono h1 h2 h3 hw hcov hX hg1 hs he
      obtain ⟨_, _, _, _, hg3, _, _⟩ := epoch_spec h1 h2 h3 hw hg1 hs he
      exact (ih st3 hg3 hlb).trans hm

/-- **C84** The result has one hop per frame, and its last `N - hop` samples do not depend on the number of iterations. -/
theorem C84_end {N hop nFreq : Nat} {w : List ℝ} (h1 : 1 ≤ hop) (h2 : hop ≤ N) (h3 : 2 ≤ N) (hw : w.length = N) {X : List (Nat → ℝ)} {fftSize : Option Nat} (hN : fftSize.getD (2 * (nFreq - 1)) = N)
    {ini : Option (Nat → Nat → ℂ)} (hs : N - hop ≤ X.length * hop) {a b : Nat} {c c' : Bool} {ya yb : List ℝ} (hya : griffinLim X nFreq hop w fftSize ini a c = .ok ya)
    (hyb : griffinLim X nFreq hop w fftSize ini b c' = .ok yb) : ya.length = X.length * hop ∧ ya.drop (X.length * hop - (N - hop)) = yb.drop (X.length * hop - (N - hop)) := by
  obtain ⟨st, st1, hst, hla, rfl⟩ := griffin_ok hya
  obtain ⟨st', st2, hst', hlb, rfl⟩ := griffin_ok hyb
  rw [hst, Except.ok.injEq] at hst'
  subst hst'
  obtain ⟨_, _, hg, _⟩ := start_spec h1 h2 h3 hw hN hs hst
  obtain ⟨⟨_, hg1, _, _⟩, ht1⟩ := loop_spec h1 h2 h3 hw hs a hg hla
  obtain ⟨⟨_, hg2, _, _⟩, ht2⟩ := loop_spec h1 h2 h3 hw hs b hg hlb
  refine ⟨hg1.length, ?_⟩
  apply List.ext_getElem
  · simp only [List.length_drop, hg1.length, hg2.length]
  · intro i hi1 hi2
    simp only [List.length_drop, hg1.length, hg2.length] at hi1 hi2
    rw [List.getElem_drop, List.getElem_drop]
    have e1 := ht1 (X.length * hop - (N - hop) + i) (by omega)
    have e2 := ht2 (X.length * hop - (N - hop) + i) (by omega)
    rw [← e2, List.getD_eq_getElem _ _ (by rw [hg1.length]; omega), List.getD_eq_getElem _ _ (by rw [hg2.length]; omega)] at e1
    exact e1

/-- **C84** Deviation: after no matter how many iterations the last `N - hop` samples are a copy of the samples before them in the first estimate. -/
theorem C84_end_deviation {N hop nFreq : Nat} {w : List ℝ} (h1 : 1 ≤ hop) (h2 : hop ≤ N) (h3 : 2 ≤ N) (hw : w.length = N) {X : List (Nat → ℝ)} {fftSize : Option Nat} (hN : fftSize.getD (2 * (nFreq - 1)) = N)
    {ini : Option (Nat → Nat → ℂ)} (hs : N - hop ≤ X.length * hop) {n : Nat} {c c' : Bool} {y0 yn : List ℝ} (hy0 : griffinLim X nFreq hop w fftSize ini 0 c = .ok y0)
    (hyn : griffinLim X nFreq hop w fftSize ini n c' = .ok yn) (j : Nat) (hj1 : X.length * hop ≤ j + (N - hop)) (hj2 : N - hop ≤ j) (hj3 : j < X.length * hop) :
    yn.getD j 0 = y0.getD (j - (N - hop)) 0 := by
  obtain ⟨st, st1, hst, hl0, rfl⟩ := griffin_ok hy0
  obtain ⟨st', st2, hst', hln, rfl⟩ := griffin_ok hyn
  rw [hst, Except.ok.injEq] at hst'
  subst hst'
  unfold loop at hl0
  rw [Except.ok.injEq] at hl0
  subst hl0
  obtain ⟨_, _, hg, _, _, _, hcopy⟩ := start_spec h1 h2 h3 hw hN hs hst
  obtain ⟨_, ht⟩ := loop_spec h1 h2 h3 hw hs n hg hln
  rw [ht j hj1, hcopy j hj1 hj2 hj3]

/-- The short-time transform of a signal that starts after silence. -/
noncomputable def stft (N hop : Nat) (w x : List ℝ) (k j : Nat) : ℂ :=
  ∑ i ∈ range N, ((w.getD i 0 * quiet x (((k + 1) * hop : Nat) - N + i) : ℝ) : ℂ) * Complex.exp (-(2 * Real.pi * Complex.I * (i : ℂ) * (j : ℂ) / (N : ℂ)))

/-- **C84** With the magnitudes and the phases of a signal, and no iteration, all samples but the last `N - hop` are those of the signal. -/
theorem C84_known_phase {N hop nFreq : Nat} {w : List ℝ} (h1 : 1 ≤ hop) (h2 : hop ≤ N) (h3 : 2 ≤ N) (hw : w.length = N) (hcov : Covered N hop w) {X : List (Nat → ℝ)} {x : List ℝ} {p : Nat → Nat → ℂ}
    (hX : ∀ k < X.length, ∀ j < nFreq, X.getD k (fun _ => 0) j = ‖stft N hop w x k j‖) (hp : ∀ k < X.length, ∀ j < nFreq, p k j = stft N hop w x k j)
    {fftSize : Option Nat} (hN : fftSize.getD (2 * (nFreq - 1)) = N) (hs : N - hop ≤ X.length * hop)
    {y : List ℝ} (hy : griffinLim X nFreq hop w fftSize (some p) 0 false = .ok y) (j : Nat) (hj : j + (N - hop) < X.length * hop) : y.getD j 0 = x.getD j 0 := by
  obtain ⟨st, st1, hst, hl, rfl⟩ := griffin_ok hy
  unfold loop at hl
  rw [Except.ok.injEq] at hl
  subst hl
  obtain ⟨_, hn, _, q, hq, hv, _⟩ := start_spec h1 h2 h3 hw hN hs hst
  rw [hv j hj]
  unfold phases at hq
  dsimp only at hq
  split at hq
  · exact nomatch hq
  · rename_i hne
    rw [Except.ok.injEq] at hq
    subst hq
    have hst : ∀ k j, stft N hop w x k j = rfft N (seg N hop w (quiet x) k) j := by
      intro k j
      unfold stft rfft dft seg tw
      apply sum_congr rfl
      intro i _
      congr 2
      push_cast
      ring
    have hY : ∀ f < X.length, ∀ i < N, irfft N ((X.mapIdx fun k x j => (x j : ℂ) * (p k j / (‖p k j‖ : ℂ))).getD f fun _ => 0) i = seg N hop w (quiet x) f i := by
      intro f hf i hi
      rw [← irfft_rfft (seg N hop w (quiet x) f) hi]
      unfold irfft
      congr 1
      apply idft_congr
      intro k hk
      rw [List.getD_eq_getElem _ _ (by simpa using hf), List.getElem_mapIdx]
      have hx : ∀ j, j < nFreq → (((X[f] j : ℝ) : ℂ) * (p f j / (‖p f j‖ : ℂ))) = rfft N (seg N hop w (quiet x) f) j := by
        intro j hj
        have hXj := hX f hf j hj
        rw [List.getD_eq_getElem _ _ hf] at hXj
        have h0 : p f j ≠ 0 := fun h => hne ⟨f, j, hf, hj, h⟩
        have h0' : (‖p f j‖ : ℂ) ≠ 0 := by
          rw [Complex.ofReal_ne_zero]
          exact norm_ne_zero_iff.mpr h0
        rw [hXj, ← hp f hf j hj, mul_div_cancel₀ _ h0', hp f hf j hj, hst]
      unfold hermExt
      split
      · exact hx k (by omega)
      · exact congrArg _ (hx (N - k) (by omega))
    have hm := hcov ((j + (N - hop)) % hop) (Nat.mod_lt _ h1)
    have hS : (∑ f ∈ range X.length, if f * hop ≤ j + (N - hop) ∧ j + (N - hop) - f * hop < N then w.getD (j + (N - hop) - f * hop) 0 ^ 2 else 0) =
        ∑ t ∈ (range N).filter (fun t => t % hop = (j + (N - hop)) % hop), (w.getD t 0) ^ 2 := sum_class (fun t => w.getD t 0 ^ 2) h1 (by omega) hj
    unfold fresh ola
    have : x.getD j 0 = (∑ f ∈ range X.length, if f * hop ≤ j + (N - hop) ∧ j + (N - hop) - f * hop < N then w.getD (j + (N - hop) - f * hop) 0 ^ 2 else 0) * x.getD j 0 /
        ∑ t ∈ (range N).filter (fun t => t % hop = (j + (N - hop)) % hop), (w.getD t 0) ^ 2 := by
      rw [hS, mul_div_cancel_left₀ _ hm]
    rw [this, sum_mul, sum_div]
    apply sum_congr rfl
    intro f hf
    by_cases hc : f * hop ≤ j + (N - hop) ∧ j + (N - hop) - f * hop < N
    · rw [if_pos hc, if_pos hc]
      dsimp only
      rw [synthesisWindow_getD w h1 (by rw [hw]; exact hc.2), hY f (mem_range.mp hf) _ hc.2]
      unfold classSum seg quiet
      have e1 : (j + (N - hop) - f * hop) % hop = (j + (N - hop)) % hop := by
        rw [Nat.mul_comm]
        exact Nat.sub_mul_mod (by rw [Nat.mul_comm]; exact hc.1)
      have e2 : (((f + 1) * hop : Nat) : Int) - N + (j + (N - hop) - f * hop : Nat) = j := by
        have h4 : (f + 1) * hop = f * hop + hop := by ring
        omega
      rw [e2, if_pos (by omega), hw, e1, Int.toNat_natCast]
      ring
    · rw [if_neg hc, if_neg hc, zero_mul, zero_div]

/-- **C84** Deviation: without overlap the function always raises. -/
theorem C84_no_overlap_deviation {N nFreq : Nat} {w : List ℝ} (h3 : 2 ≤ N) (hw : w.length = N) (X : List (Nat → ℝ)) {fftSize : Option Nat} (hN : fftSize.getD (2 * (nFreq - 1)) = N)
    (ini : Option (Nat → Nat → ℂ)) (n : Nat) (c : Bool) : ∃ e, griffinLim X nFreq N w fftSize ini n c = .error e := by
  cases h : griffinLim X nFreq N w fftSize ini n c with
  | error e => exact ⟨e, rfl⟩
  | ok y =>
    obtain ⟨st, _, hst, _, _⟩ := griffin_ok h
    have := (start_spec (by omega) (le_refl N) h3 hw hN (by omega) hst).1
    omega

/-- **C84** Deviation: with a callback and no iteration the function raises. -/
theorem C84_callback_deviation (X : List (Nat → ℝ)) (nFreq hop : Nat) (w : List ℝ) (fftSize : Option Nat) (ini : Option (Nat → Nat → ℂ)) {st : State} (h : start X nFreq hop w fftSize ini = .ok st) :
    griffinLim X nFreq hop w fftSize ini 0 true = .error .nameError := by
  unfold griffinLim
  rw [h]
  simp [loop]

/-- **C84** Deviation: a single frame is refused. -/
theorem C84_one_frame_deviation {N hop nFreq : Nat} {w : List ℝ} (h2 : hop ≤ N) (h3 : 2 ≤ N) {x : Nat → ℝ} {fftSize : Option Nat} (hN : fftSize.getD (2 * (nFreq - 1)) = N) (n : Nat) (c : Bool) :
    griffinLim [x] nFreq hop w fftSize none n c = .error .valueError := by
  unfold griffinLim start phases
  dsimp only
  rw [hN]
  unfold create
  rw [if_neg (by omega)]
  dsimp only
  unfold synth
  rw [if_pos]
  have : (makeBuffers ⟨N, hop, 0, 0, some w, some (synthesisWindow w hop), true, none⟩ none ((none : Option Nat).getD 0)).conf.nfft = N := by simp [makeBuffers, Conf.nfft]
  rw [this]
  simp
  omega

/-! ## Success -/

theorem synth_total {N hop nFreq : Nat} {w : List ℝ} (h1 : 1 ≤ hop) (h2 : hop ≤ N) (h3 : 2 ≤ N) (hw : w.length = N) {eng : St} (hc : eng.conf = conf N hop w) {G : Nat → Nat → ℝ} {F : Nat}
    (ho : OutInv eng G F) {Y : List (Nat → ℂ)} (hn : nFreq = N / 2 + 1) (hl : 2 ≤ Y.length) : ∃ r, synth eng nFreq Y = .ok r := by
  unfold synth
  have hnf : eng.conf.nfft = N := by
    rw [hc]
    simp [conf, Conf.nfft]
  rw [hnf, if_neg (by rw [if_neg (by omega)]; omega), if_neg (by omega)]
  unfold synthesis
  let G' : Nat → Nat → ℝ := fun f i => if f < F then G f i else (synthesisWindow w hop).getD i 0 * irfft N (Y.getD (f - F) fun _ => 0) i
  have ho' : OutInv { eng with X := Y, numFrames := Y.length } G' F := by
    intro i hi
    rw [show ({ eng with X := Y, numFrames := Y.length } : St).yp = eng.yp from rfl, ho i hi]
    apply sum_congr rfl
    intro f hf
    unfold STFT.ext
    simp only [G', if_pos (mem_range.mp hf)]
  obtain ⟨s', y, e, _⟩ := synthLoop_spec Y (s := { eng with X := Y, numFrames := Y.length }) (G := G') (F := F) (by rw [hc]; exact conf_ok h1 h2 h3 hw) ho' (by
    intro k X hX i hi
    have hG : ¬F + k < F := by omega
    simp only [G', if_neg hG, hnf, Nat.add_sub_cancel_left]
    rw [hc, List.getD_eq_getElem?_getD (l := Y), hX]
    rfl)
  exact ⟨_, e⟩

theorem start_total {N hop nFreq : Nat} {w : List ℝ} (h1 : 1 ≤ hop) (h2 : hop < N) (hw : w.length = N) {X : List (Nat → ℝ)} {fftSize : Option Nat}
    (hN : fftSize.getD (2 * (nFreq - 1)) = N) {ini : Option (Nat → Nat → ℂ)} (hi : ∀ p ∈ ini, ∀ k < X.length, ∀ j < nFreq, p k j ≠ 0) (hn : nFreq = N / 2 + 1) (hl : 2 ≤ X.length) :
    ∃ st, start X nFreq hop w fftSize ini = .ok st := by
  have hp : ∃ p, phases X.length nFreq ini = .ok p := by
    unfold phases
    cases ini with
    | none => exact ⟨_, rfl⟩
    | some p =>
      dsimp only
      rw [if_neg]
      · exact ⟨_, rfl⟩
      · rintro ⟨k, j, hk, hj, h⟩
        exact hi p rfl k hk j hj h
  obtain ⟨p, hp⟩ := hp
  unfold start
  rw [hp]
  dsimp only
  rw [hN]
  unfold create
  rw [if_neg (by omega)]
  dsimp only
  obtain ⟨⟨e, z⟩, hz⟩ := synth_total (nFreq := nFreq) h1 h2.le (by omega) hw (eng := makeBuffers (conf N hop w) none 0) rfl (G := fun _ _ => 0) (F := 0) (by
    intro i _
    simp [makeBuffers]) (Y := X.mapIdx fun k x j => (x j : ℂ) * p k j) hn (by simpa using hl)
  have hz' : synth (makeBuffers ⟨N, hop, 0, 0, some w, some (synthesisWindow w hop), true, none⟩ none ((none : Option Nat).getD 0)) nFreq (X.mapIdx fun k x j => (x j : ℂ) * p k j) = .ok (e, z) := hz
  rw [hz']
  dsimp only
  unfold moveInto
  rw [if_neg (by omega)]
  exact ⟨_, rfl⟩

theorem epoch_total {N hop nFreq : Nat} {w : List ℝ} (h1 : 1 ≤ hop) (h2 : hop < N) (hw : w.length = N) {X : List (Nat → ℝ)} {g : Int → ℝ} {st : State}
    (hg : Good N hop X.length w g st) (hn : nFreq = N / 2 + 1) (hl : 2 ≤ X.length) (hne : ∀ k < X.length, ∀ j < nFreq, rfft N (seg N hop w g k) j ≠ 0) : ∃ st', epoch X nFreq st = .ok st' := by
  unfold epoch
  have hok := conf_ok h1 h2.le (by omega) hw
  have hpad : padded hop st.y = st.y := by
    unfold padded
    rw [hg.length, Nat.mul_mod_left, Nat.sub_zero, Nat.mod_self]
    simp
  have hceil : ceilDiv (X.length * hop) hop = X.length := by
    have := ceilDiv_mul h1 (X.length * hop)
    rw [Nat.mul_mod_left, Nat.sub_zero, Nat.mod_self, Nat.add_zero] at this
    exact Nat.eq_of_mul_eq_mul_right h1 this
  obtain ⟨s', e, _, b', c', y', _⟩ := analysis_spec (s := st.eng) (g := g) (t := 0) (by rw [hg.conf]; exact hok) (by rw [hg.conf]; rfl) hg.buf st.y (by rw [hg.conf]; simp [GriffinLim.conf]) (by
    rw [hg.conf]
    change ∀ i, i < (padded hop st.y).length → (padded hop st.y).getD i 0 = _
    rw [hpad, hg.length]
    intro i hi
    rw [zero_add]
    exact hg.sig i hi)
  rw [hg.conf] at e
  change analysis st.eng st.y = .ok (s', (List.range (ceilDiv st.y.length hop)).map (fun k : Nat => rfft N (block (GriffinLim.conf N hop w) g (0 + ((k + 1) * hop : Nat))))) at e
  rw [hg.length, hceil] at e
  simp only [rfft_seg] at e
  rw [e]
  dsimp only
  unfold enforce
  rw [if_neg]
  · dsimp only
    obtain ⟨G, F, hGF⟩ := hg.out
    have ho : OutInv s' G F := by
      intro i hi
      rw [c'] at hi ⊢
      rw [y']
      exact hGF i hi
    obtain ⟨⟨e2, z⟩, hz⟩ := synth_total (nFreq := nFreq) h1 h2.le (by omega) hw (eng := s') (c'.trans hg.conf) ho
      (Y := List.zipWith (fun x a j => a j * ((x j / ‖a j‖ : ℝ) : ℂ)) X ((List.range X.length).map fun k => rfft N (seg N hop w g k))) hn (by simpa using hl)
    have hc2 := (synth_spec h1 h2.le (by omega) hw (c'.trans hg.conf) ho hz).2.1
    rw [hz]
    dsimp only
    unfold moveInto
    rw [hc2, if_neg (by simp only [GriffinLim.conf]; omega)]
    exact ⟨_, rfl⟩
  · rintro ⟨a, ha, j, hj, h0⟩
    obtain ⟨k, hk, rfl⟩ := List.mem_map.mp ha
    exact hne k (List.mem_range.mp hk) j hj h0

/-! ## Examples -/

/-- Magnitudes of two frames. -/
noncomputable def mags : List (Nat → ℝ) := [fun _ => 1, fun j => if j = 0 then 3 else 1]

theorem covered_two : Covered 2 1 [1, 2] := by
  intro i hi
  have : i = 0 := by omega
  subst this
  have h0 : (range 2).filter (fun t => t % 1 = 0) = {0, 1} := by decide
  rw [h0]
  simp
  norm_num

theorem tw_two : tw 2 (-1) = -1 := by
  unfold tw
  have : 2 * (Real.pi : ℂ) * Complex.I * ((-1 : Int) : ℂ) / ((2 : Nat) : ℂ) = -(Real.pi * Complex.I) := by
    push_cast
    ring
  rw [this, Complex.exp_neg, Complex.exp_pi_mul_I]
  norm_num

theorem tw_two' : tw 2 1 = -1 := by
  have h := tw_add 2 (-1) 2
  rw [tw_dvd (m := 2) (by norm_num) (by norm_num), tw_two] at h
  simpa using h

theorem rfft_two (x : Nat → ℝ) : rfft 2 x 0 = ((x 0 + x 1 : ℝ) : ℂ) ∧ rfft 2 x 1 = ((x 0 - x 1 : ℝ) : ℂ) := by
  unfold rfft dft
  constructor
  · simp [sum_range_succ, tw_zero]
  · simp [sum_range_succ, tw_zero, tw_two]
    ring

theorem irfft_two (Z : Nat → ℂ) : irfft 2 Z 0 = ((Z 0).re + (Z 1).re) / 2 ∧ irfft 2 Z 1 = ((Z 0).re - (Z 1).re) / 2 := by
  unfold irfft idft hermExt
  constructor
  · simp [sum_range_succ, tw_zero]
  · simp [sum_range_succ, tw_zero, tw_two']
    ring

theorem fresh_two (Y : List (Nat → ℂ)) : fresh 2 1 2 [1, 2] Y 0 = (((Y.getD 0 fun _ => 0) 0).re - ((Y.getD 0 fun _ => 0) 1).re + (((Y.getD 1 fun _ => 0) 0).re + ((Y.getD 1 fun _ => 0) 1).re) / 2) / 5 := by
  have hs : ∀ i < 2, (synthesisWindow [1, 2] 1).getD i 0 = ([1, 2] : List ℝ).getD i 0 / 5 := by
    intro i hi
    rw [synthesisWindow_getD [1, 2] (le_refl 1) (by simpa using hi)]
    unfold classSum
    have h0 : (range ([1, 2] : List ℝ).length).filter (fun t => t % 1 = i % 1) = {0, 1} := by
      rw [Nat.mod_one]
      decide
    rw [h0]
    simp
    norm_num
  unfold fresh ola
  simp only [sum_range_succ, sum_range_zero]
  norm_num
  have e0 := hs 0 (by norm_num)
  have e1 := hs 1 (by norm_num)
  simp only [List.getD_eq_getElem?_getD] at e0 e1
  rw [e0, e1]
  have i0 := irfft_two (Y.getD 1 fun _ => 0)
  have i1 := irfft_two (Y.getD 0 fun _ => 0)
  simp only [List.getD_eq_getElem?_getD] at i0 i1
  rw [i0.1, i1.2]
  simp
  ring

theorem fine_two (g : Int → ℝ) (h : g (-1) ≠ 2 * g 0 ∧ g (-1) ≠ -(2 * g 0) ∧ g 0 ≠ 2 * g 1 ∧ g 0 ≠ -(2 * g 1)) : ∀ k < mags.length, ∀ j < 2, rfft 2 (seg 2 1 [1, 2] g k) j ≠ 0 := by
  intro k hk j hj h0
  have hk' : k = 0 ∨ k = 1 := by
    simp only [mags, List.length_cons, List.length_nil] at hk
    omega
  have hj' : j = 0 ∨ j = 1 := by omega
  have r0 := rfft_two (seg 2 1 [1, 2] g k)
  rcases hk' with rfl | rfl <;> rcases hj' with rfl | rfl
  · rw [r0.1, Complex.ofReal_eq_zero] at h0
    simp [seg] at h0
    apply h.2.1
    linarith
  · rw [r0.2, Complex.ofReal_eq_zero] at h0
    simp [seg] at h0
    apply h.1
    linarith
  · rw [r0.1, Complex.ofReal_eq_zero] at h0
    simp [seg] at h0
    apply h.2.2.2
    linarith
  · rw [r0.2, Complex.ofReal_eq_zero] at h0
    simp [seg] at h0
    apply h.2.2.1
    linarith

/-- The hypotheses of `C84_monotone` can be met. -/
example : ∃ y1 y2, griffinLim mags 2 1 [1, 2] none none 1 true = .ok y1 ∧ griffinLim mags 2 1 [1, 2] none none 2 true = .ok y2 := by
  have hlen : mags.length = 2 := rfl
  obtain ⟨st, hst⟩ := start_total (N := 2) (hop := 1) (nFreq := 2) (w := [1, 2]) (X := mags) (fftSize := none) (ini := none) (le_refl 1) (by norm_num) rfl rfl (by simp) rfl (le_refl 2)
  obtain ⟨_, _, hg, p, hp, hv, hcopy⟩ := start_spec (N := 2) (le_refl 1) (by norm_num) (le_refl 2) rfl rfl (by rw [hlen]; norm_num) hst
  have y0 : st.y.getD 0 0 = 2 / 5 := by
    rw [hv 0 (by rw [hlen]; norm_num), hlen, fresh_two]
    unfold phases at hp
    dsimp only at hp
    rw [Except.ok.injEq] at hp
    subst hp
    simp [mags]
    norm_num
  have y1 : st.y.getD 1 0 = 2 / 5 := by
    rw [hcopy 1 (by rw [hlen]) (by norm_num) (by rw [hlen]; norm_num)]
    exact y0
  have q0 : quiet st.y 0 = 2 / 5 := by rw [← y0]; rfl
  have q1 : quiet st.y 1 = 2 / 5 := by rw [← y1]; rfl
  have qm : quiet st.y (-1) = 0 := rfl
  have hne := fine_two (quiet st.y) (by
    rw [q0, q1, qm]
    norm_num)
  obtain ⟨st1, hst1⟩ := epoch_total (N := 2) (hop := 1) (w := [1, 2]) (X := mags) (nFreq := 2) (le_refl 1) (by norm_num) rfl hg rfl (le_refl 2) hne
  obtain ⟨_, _, _, _, hg1, hv1, ht1⟩ := epoch_spec (le_refl 1) (by norm_num) (le_refl 2) rfl hg (by rw [hlen]; norm_num) hst1
  have z0 : st1.y.getD 0 0 = 3 / 5 := by
    rw [hv1 0 (by rw [hlen]; norm_num), hlen, fresh_two]
    have ra := rfft_two (seg 2 1 [1, 2] (quiet st.y) 0)
    have rb := rfft_two (seg 2 1 [1, 2] (quiet st.y) 1)
    have s00 : seg 2 1 [1, 2] (quiet st.y) 0 0 = 0 := by simp [seg, qm]
    have s01 : seg 2 1 [1, 2] (quiet st.y) 0 1 = 4 / 5 := by
      simp [seg, q0]
      norm_num
    have s10 : seg 2 1 [1, 2] (quiet st.y) 1 0 = 2 / 5 := by simp [seg, q0]
    have s11 : seg 2 1 [1, 2] (quiet st.y) 1 1 = 4 / 5 := by
      simp [seg, q1]
      norm_num
    rw [s00, s01] at ra
    rw [s10, s11] at rb
    unfold target
    rw [hlen, List.getD_eq_getElem _ _ (by simp), List.getD_eq_getElem _ _ (by simp)]
    simp only [List.getElem_map, List.getElem_range, ra.1, ra.2, rb.1, rb.2, Complex.norm_real, ← Complex.ofReal_mul, Complex.ofReal_re, Real.norm_eq_abs]
    simp only [mags, List.getD_cons_zero, List.getD_cons_succ]
    norm_num [abs_of_pos, abs_of_neg]
  have z1 : st1.y.getD 1 0 = 2 / 5 := by
    rw [ht1 1 (by rw [hlen])]
    exact y1
  have w0 : wrap st1.y 0 = 3 / 5 := by rw [← z0]; rfl
  have w1 : wrap st1.y 1 = 2 / 5 := by rw [← z1]; rfl
  have wm : wrap st1.y (-1) = 2 / 5 := by
    rw [← z1]
    unfold wrap
    rw [if_neg (by norm_num), hg1.length, hlen]
    rfl
  have hne1 := fine_two (wrap st1.y) (by
    rw [w0, w1, wm]
    norm_num)
  obtain ⟨st2, hst2⟩ := epoch_total (N := 2) (hop := 1) (w := [1, 2]) (X := mags) (nFreq := 2) (le_refl 1) (by norm_num) rfl hg1 rfl (le_refl 2) hne1
  refine ⟨st1.y, st2.y, ?_, ?_⟩
  · unfold griffinLim
    rw [hst]
    simp [loop, hst1]
  · unfold griffinLim
    rw [hst]
    simp [loop, hst1, hst2]

end Verif.GriffinLim
