import Verif.STFT.Spec

/-! Helper lemmas for the short-time Fourier transform. -/

namespace Verif.STFT

open Verif.Py Verif.DFT Finset

theorem applyWin_ok {w : Option (List ℝ)} {n : Nat} (h : ∀ l ∈ w, l.length = n) (x : Nat → ℝ) :
    ∃ y, applyWin w n x = .ok y ∧ ∀ i, i < n → y i = winAt w i * x i := by
  cases w with
  | none => exact ⟨x, rfl, fun i _ => by simp [winAt]⟩
  | some l =>
    have hl := h l rfl
    refine ⟨fun i => l.getD i 0 * x i, by simp only [applyWin, if_pos hl], fun i _ => rfl⟩

/-! ### Analysis -/

/-- State of the input buffer after `t` samples of the signal `g`. -/
def BufInv (s : St) (g : Int → ℝ) (t : Int) : Prop :=
  ∀ i, i < s.conf.nfft →
    (s.conf.zf ≤ i ∧ i < s.conf.zf + s.conf.nState → s.buf i = g (t - s.conf.nState + (i - s.conf.zf))) ∧
    (i < s.conf.zf ∨ s.conf.zf + s.conf.N ≤ i → s.buf i = 0)

theorem frame_spec {s : St} {g : Int → ℝ} {t : Int} (hok : s.conf.Ok) (hi : BufInv s g t) (xn : Nat → ℝ)
    (hx : ∀ i : Nat, i < s.conf.hop → xn i = g (t + i)) :
    ∃ s', frame s xn = .ok (s', rfft s.conf.nfft (block s.conf g (t + s.conf.hop))) ∧
      BufInv s' g (t + s.conf.hop) ∧ s'.conf = s.conf ∧ s'.yp = s.yp ∧ s'.H = s.H := by
  have h1 := hok.hop_pos
  have h2 := hok.hop_le
  unfold frame
  unfold BufInv at hi
  simp only
  set c := s.conf with hc
  set b1 := putSlice s.buf (c.zf + c.nState) c.hop xn with hb1
  have hns : c.nState + c.hop = c.N := by unfold Conf.nState; omega
  have hb1v : ∀ i, i < c.nfft → b1 i = if c.zf ≤ i ∧ i < c.zf + c.N then g (t + c.hop - c.N + (i - c.zf)) else 0 := by
    intro i hin
    rw [hb1]; unfold putSlice
    by_cases hf : c.zf + c.nState ≤ i ∧ i < c.zf + c.nState + c.hop
    · rw [if_pos hf, if_pos (by omega), hx _ (by omega)]
      congr 1
      have : ((i - (c.zf + c.nState) : Nat) : Int) = i - (c.zf + c.nState) := by push_cast [hf.1]; ring
      rw [this]; omega
    · rw [if_neg hf]
      by_cases hz : c.zf ≤ i ∧ i < c.zf + c.N
      · rw [if_pos hz, (hi i hin).1 (by omega)]
        congr 1
        omega
      · rw [if_neg hz, (hi i hin).2 (by omega)]
  have hn2 := hok.nfft_ge
  obtain ⟨b2, hb2, hb2v⟩ := applyWin_ok hok.aw_len b1
  unfold dftAnalysis
  rw [if_neg (by omega), hb2]
  simp only
  have hr : rfft c.nfft b2 = rfft c.nfft (block c g (t + c.hop)) := by
    apply rfft_congr
    intro i hin
    rw [hb2v i hin, hb1v i hin]; rfl
  rw [hr]
  refine ⟨_, rfl, ?_, rfl, rfl, rfl⟩
  · unfold BufInv
    simp only
    intro i hin
    constructor
    · intro hz
      unfold putSlice
      have hnf : c.nfft = c.N + c.zb + c.zf := rfl
      rw [if_pos hz]
      simp only
      rw [hb1v _ (by omega), if_pos (by omega)]
      congr 1
      have : ((c.zf + c.hop + (i - c.zf) : Nat) : Int) = c.hop + i := by
        have := hz.1; omega
      rw [this]; omega
    · intro hz
      unfold putSlice
      rw [if_neg (by omega), hb2v i hin, hb1v i hin, if_neg (by omega), mul_zero]

theorem frameLoop_spec (x : Nat → ℝ) (count : Nat) : ∀ (n : Nat) {s : St} {g : Int → ℝ} {t : Int},
    s.conf.Ok → BufInv s g t → (∀ i : Nat, i < count * s.conf.hop → x (n + i) = g (t + i)) →
    ∃ s', frameLoop x count n s = .ok (s', (List.range count).map
        (fun k : Nat => rfft s.conf.nfft (block s.conf g (t + ((k + 1) * s.conf.hop : Nat))))) ∧
      BufInv s' g (t + (count * s.conf.hop : Nat)) ∧ s'.conf = s.conf ∧ s'.yp = s.yp ∧ s'.H = s.H := by
  induction count with
  | zero =>
    intro n s g t hok hi hx
    exact ⟨s, rfl, by simpa using hi, rfl, rfl, rfl⟩
  | succ count ih =>
    intro n s g t hok hi hx
    have hmul : (count + 1) * s.conf.hop = count * s.conf.hop + s.conf.hop := by ring
    obtain ⟨s1, e1, i1, c1, y1, H1⟩ := frame_spec hok hi (fun i => x (n + i)) (fun i hh => hx i (by
      rw [hmul]; omega))
    obtain ⟨s2, e2, i2, c2, y2, H2⟩ := ih (n + s.conf.hop) (s := s1) (g := g) (t := t + s.conf.hop)
      (by rw [c1]; exact hok) i1 (fun i hh => by
        rw [c1] at hh
        have := hx (s.conf.hop + i) (by rw [hmul]; omega)
        rw [← Nat.add_assoc] at this
        rw [this]
        congr 1
        push_cast; ring)
    refine ⟨s2, ?_, ?_, by rw [c2, c1], by rw [y2, y1], by rw [H2, H1]⟩
    · unfold frameLoop
      rw [e1]
      simp only
      rw [e2]
      simp only
      congr 2
      rw [List.range_succ_eq_map, List.map_cons, List.map_map, c1]
      congr 1
      · congr 2; push_cast; ring
      · apply List.map_congr_left
        intro k _
        simp only [Function.comp_apply]
        congr 2
        push_cast; ring
    · rw [c1] at i2
      convert i2 using 1
      push_cast; ring

theorem ceilDiv_mul {hop : Nat} (h : 1 ≤ hop) (n : Nat) :
    ceilDiv n hop * hop = n + (hop - n % hop) % hop := by
  unfold ceilDiv
  have hlt : n % hop < hop := Nat.mod_lt n (by omega)
  have hdm : hop * (n / hop) + n % hop = n := Nat.div_add_mod n hop
  by_cases hr : n % hop = 0
  · rw [hr] at hdm ⊢
    have h2 : (n + hop - 1) / hop = n / hop := by
      have : n + hop - 1 = (hop - 1) + hop * (n / hop) := by omega
      rw [this, Nat.add_mul_div_left _ _ (by omega), Nat.div_eq_of_lt (by omega)]; omega
    rw [h2, Nat.sub_zero, Nat.mod_self, Nat.mul_comm]; omega
  · have h2 : (n + hop - 1) / hop = n / hop + 1 := by
      have : n + hop - 1 = (n % hop - 1) + hop * (n / hop + 1) := by
        rw [Nat.mul_add]; omega
      rw [this, Nat.add_mul_div_left _ _ (by omega), Nat.div_eq_of_lt (by omega)]; omega
    rw [h2, Nat.mod_eq_of_lt (a := hop - n % hop) (by omega), Nat.add_mul, Nat.mul_comm]; omega

theorem padded_length {hop : Nat} (h : 1 ≤ hop) (x : List ℝ) :
    (padded hop x).length = ceilDiv x.length hop * hop := by
  rw [ceilDiv_mul h]; simp [padded]

theorem padded_getD (hop : Nat) (x : List ℝ) (i : Nat) : (padded hop x).getD i 0 = x.getD i 0 := by
  unfold padded
  rw [List.getD_eq_getElem?_getD, List.getD_eq_getElem?_getD]
  by_cases h : i < x.length
  · rw [List.getElem?_append_left h]
  · rw [List.getElem?_append_right (by omega), List.getElem?_eq_none (by omega : x.length ≤ i), List.getElem?_replicate]
    split <;> rfl

/-- One call of streaming analysis. -/
theorem analysis_spec {s : St} {g : Int → ℝ} {t : Int} (hok : s.conf.Ok) (hst : s.conf.streaming = true)
    (hi : BufInv s g t) (x : List ℝ) (hfix : ∀ n ∈ s.conf.fixed, x.length = n * s.conf.hop)
    (hx : ∀ i : Nat, i < (padded s.conf.hop x).length → (padded s.conf.hop x).getD i 0 = g (t + i)) :
    ∃ s', analysis s x = .ok (s', (List.range (ceilDiv x.length s.conf.hop)).map
        (fun k : Nat => rfft s.conf.nfft (block s.conf g (t + ((k + 1) * s.conf.hop : Nat))))) ∧
      s'.X = (List.range (ceilDiv x.length s.conf.hop)).map
        (fun k : Nat => rfft s.conf.nfft (block s.conf g (t + ((k + 1) * s.conf.hop : Nat)))) ∧
      BufInv s' g (t + ((padded s.conf.hop x).length : Nat)) ∧ s'.conf = s.conf ∧ s'.yp = s.yp ∧ s'.H = s.H := by
  have hh := hok.hop_pos
  rw [padded_length hh] at hx ⊢
  simp only [padded_getD] at hx
  obtain ⟨s1, e1, i1, c1, y1, H1⟩ := frameLoop_spec (fun i => x.getD i 0) (ceilDiv x.length s.conf.hop) 0 hok hi
    (fun i hlt => by rw [Nat.zero_add]; exact hx i hlt)
  refine ⟨{ s1 with X := _, numFrames := ceilDiv x.length s.conf.hop }, ?_, rfl, i1, c1, y1, H1⟩
  unfold analysis
  simp only [hst, if_true]
  cases hf : s.conf.fixed with
  | none =>
    simp only
    rw [if_neg (by omega), e1]
  | some n =>
    have hn := hfix n (by rw [hf]; rfl)
    have hcd : ceilDiv x.length s.conf.hop = n := by
      have h3 := ceilDiv_mul hh x.length
      rw [hn, Nat.mul_mod_left, Nat.sub_zero, Nat.mod_self, Nat.add_zero] at h3
      rw [hn]
      exact Nat.eq_of_mul_eq_mul_right (by omega) h3
    simp only
    rw [if_neg (by simpa using hn), ← hcd, e1]

/-! ### Overlap-add -/

/-- Frame `G f` shifted so that sample zero is at its start, zero outside. -/
def ext (nfft : Nat) (G : Nat → ℝ) (j : Nat) : ℝ := if j < nfft then G j else 0

/-- State of the output buffer after `F` frames. -/
def OutInv (s : St) (G : Nat → Nat → ℝ) (F : Nat) : Prop :=
  ∀ i, i < s.conf.nStateOut → s.yp i = ∑ f ∈ range F, ext s.conf.nfft (G f) ((F - f) * s.conf.hop + i)

theorem overlapAdd_spec {s : St} {G : Nat → Nat → ℝ} {F : Nat} (hi : OutInv s G F)
    (hle : s.conf.hop ≤ s.conf.nfft) (x : Nat → ℝ) (hx : ∀ i, i < s.conf.nfft → x i = G F i) :
    (overlapAdd s x).1.conf = s.conf ∧ (overlapAdd s x).1.buf = s.buf ∧ (overlapAdd s x).1.H = s.H ∧
      OutInv (overlapAdd s x).1 G (F + 1) ∧
      ∀ i, i < s.conf.hop → (overlapAdd s x).2 i =
        ∑ f ∈ range (F + 1), ext s.conf.nfft (G f) ((F - f) * s.conf.hop + i) := by
  have hnso : s.conf.nStateOut + s.conf.hop = s.conf.nfft := by unfold Conf.nStateOut; omega
  have hmul : ∀ f, f ∈ range F → (F - f) * s.conf.hop = (F - f - 1) * s.conf.hop + s.conf.hop := by
    intro f hf
    have hf' := mem_range.mp hf
    have : F - f = (F - f - 1) + 1 := by omega
    calc (F - f) * s.conf.hop = ((F - f - 1) + 1) * s.conf.hop := by rw [← this]
      _ = _ := by ring
  have hout : ∀ i, i < s.conf.hop → s.conf.nStateOut ≤ i →
      ∑ f ∈ range F, ext s.conf.nfft (G f) ((F - f) * s.conf.hop + i) = 0 := by
    intro i _ hns
    apply sum_eq_zero
    intro f hf
    unfold ext
    rw [if_neg]
    rw [hmul f hf]; omega
  have hlast : ∀ i, i < s.conf.hop → ext s.conf.nfft (G F) ((F - F) * s.conf.hop + i) = x i := by
    intro i hh
    unfold ext
    rw [Nat.sub_self, Nat.zero_mul, Nat.zero_add, if_pos (by omega), hx i (by omega)]
  unfold overlapAdd
  simp only
  split
  · rename_i hpos
    refine ⟨rfl, rfl, rfl, ?_, ?_⟩
    · intro i hin
      simp only at hin ⊢
      rw [sum_range_succ]
      have hl : ext s.conf.nfft (G F) ((F + 1 - F) * s.conf.hop + i) = x (s.conf.nfft - s.conf.nStateOut + i) := by
        unfold ext
        rw [show F + 1 - F = 1 by omega, Nat.one_mul, if_pos (by omega), hx _ (by omega)]
        congr 1; omega
      rw [hl]
      congr 1
      by_cases hc : s.conf.nStateOut - s.conf.hop ≤ i
      · rw [if_pos hc]
        symm
        apply sum_eq_zero
        intro f hf
        have hf' := mem_range.mp hf
        unfold ext
        rw [if_neg]
        have : (F + 1 - f) * s.conf.hop = (F - f) * s.conf.hop + s.conf.hop := by
          rw [show F + 1 - f = (F - f) + 1 by omega]; ring
        have h2 := hmul f hf
        rw [this, h2]; omega
      · rw [if_neg hc, if_pos (by omega), hi _ (by omega)]
        apply sum_congr rfl
        intro f hf
        have hf' := mem_range.mp hf
        congr 1
        rw [show F + 1 - f = (F - f) + 1 by omega]; ring
    · intro i hh
      rw [sum_range_succ, hlast i hh]
      simp only
      by_cases hm : i < min s.conf.hop s.conf.nStateOut
      · rw [if_pos hm, hi i (by omega)]; ring
      · rw [if_neg hm, hout i hh (by omega)]; ring
  · rename_i hpos
    refine ⟨rfl, rfl, rfl, ?_, ?_⟩
    · intro i hin
      simp only at hin
      omega
    · intro i hh
      rw [sum_range_succ, hlast i hh, hout i hh (by omega)]; ring

theorem synthLoop_spec (Fs : List (Nat → ℂ)) : ∀ {s : St} {G : Nat → Nat → ℝ} {F : Nat},
    s.conf.Ok → OutInv s G F →
    (∀ k X, Fs[k]? = some X → ∀ i, i < s.conf.nfft →
      G (F + k) i = winAt s.conf.sw i * irfft s.conf.nfft X i) →
    ∃ s' y, synthLoop Fs s = .ok (s', y) ∧ s'.conf = s.conf ∧ s'.buf = s.buf ∧ s'.H = s.H ∧
      OutInv s' G (F + Fs.length) ∧ y.length = Fs.length * s.conf.hop ∧
      ∀ k i, k < Fs.length → i < s.conf.hop → y.getD (k * s.conf.hop + i) 0 =
        ∑ f ∈ range (F + k + 1), ext s.conf.nfft (G f) ((F + k - f) * s.conf.hop + i) := by
  induction Fs with
  | nil =>
    intro s G F _ hi _
    exact ⟨s, [], rfl, rfl, rfl, rfl, hi, by simp, fun k i hk => by simp at hk⟩
  | cons X Xs ih =>
    intro s G F hok hi hG
    obtain ⟨x, ex, hx⟩ := applyWin_ok hok.sw_len (irfft s.conf.nfft X)
    obtain ⟨c1, b1, H1, i1, o1⟩ := overlapAdd_spec hi (by
      have := hok.hop_le; unfold Conf.nfft; omega) x (fun i hin => by
      rw [hx i hin]; exact (hG 0 X rfl i hin).symm)
    obtain ⟨s2, y, e2, c2, b2, H2, i2, l2, v2⟩ := ih (s := (overlapAdd s x).1) (G := G) (F := F + 1)
      (by rw [c1]; exact hok) i1 (fun k Y hY i hin => by
        rw [c1] at hin ⊢
        have := hG (k + 1) Y (by simpa using hY) i hin
        rw [← this]; congr 1; omega)
    refine ⟨s2, (List.range s.conf.hop).map (overlapAdd s x).2 ++ y, ?_, by rw [c2, c1], by rw [b2, b1],
      by rw [H2, H1], ?_, ?_, ?_⟩
    · unfold synthLoop
      rw [ex]
      simp only
      rw [e2]
    · simp only [List.length_cons]
      rw [show F + (Xs.length + 1) = F + 1 + Xs.length by omega]; exact i2
    · rw [List.length_append, l2, c1]; simp; ring
    · intro k i hk hh
      rw [List.getD_eq_getElem?_getD]
      cases k with
      | zero =>
        rw [Nat.zero_mul, Nat.zero_add, List.getElem?_append_left (by simpa using hh), List.getElem?_map,
          List.getElem?_range hh]
        exact o1 i hh
      | succ k =>
        have hidx : (k + 1) * s.conf.hop + i = s.conf.hop + (k * s.conf.hop + i) := by ring
        rw [hidx, List.getElem?_append_right (by simp)]
        simp only [List.length_map, List.length_range, Nat.add_sub_cancel_left]
        rw [← List.getD_eq_getElem?_getD]
        rw [c1] at v2
        rw [v2 k i (by simpa using hk) hh]
        rw [show F + 1 + k = F + (k + 1) by omega]

/-! ### Pipeline -/

/-- Effect of `process` on a spectrum. -/
noncomputable def procFrame (H : Option (Nat → ℂ)) (X : Nat → ℂ) : Nat → ℂ :=
  match H with
  | none => X
  | some H => fun k => X k * H k

theorem process_X (s : St) : (process s).X = s.X.map (procFrame s.H) := by
  unfold process procFrame
  cases s.H <;> simp

theorem process_rest (s : St) : (process s).conf = s.conf ∧ (process s).buf = s.buf ∧ (process s).yp = s.yp ∧
    (process s).H = s.H := by
  unfold process
  cases h : s.H <;> simp [h]

/-- Output frame number `f` of the pipeline. -/
noncomputable def outFrame (c : Conf) (H : Option (Nat → ℂ)) (g : Int → ℝ) (f i : Nat) : ℝ :=
  winAt c.sw i * irfft c.nfft (procFrame H (rfft c.nfft (block c g ((f + 1) * c.hop : Nat)))) i

theorem ola_eq {nfft hop : Nat} (G : Nat → Nat → ℝ) (frames k i : Nat) (hk : k < frames) (hi : i < hop) :
    ∑ f ∈ range (k + 1), ext nfft (G f) ((k - f) * hop + i) = ola nfft hop frames G (k * hop + i) := by
  unfold ola
  have hsub : range (k + 1) ⊆ range frames := by
    intro f hf; simp only [mem_range] at hf ⊢; omega
  rw [← sum_subset hsub]
  · apply sum_congr rfl
    intro f hf
    have hf' : f ≤ k := by have := mem_range.mp hf; omega
    have h1 : f * hop ≤ k * hop := Nat.mul_le_mul_right hop hf'
    have h2 : k * hop + i - f * hop = (k - f) * hop + i := by
      rw [Nat.sub_mul]; omega
    unfold ext
    rw [h2]
    by_cases h : (k - f) * hop + i < nfft
    · rw [if_pos h, if_pos ⟨by omega, h⟩]
    · rw [if_neg h, if_neg (fun hh => h hh.2)]
  · intro f _ hnf
    have hf' : k + 1 ≤ f := by simp only [mem_range] at hnf; omega
    have h1 : (k + 1) * hop ≤ f * hop := Nat.mul_le_mul_right hop hf'
    rw [Nat.add_mul, Nat.one_mul] at h1
    rw [if_neg]
    omega

theorem divmod_lt {m hop F : Nat} (hm : m < F * hop) : m / hop < F :=
  Nat.div_lt_of_lt_mul (by rw [Nat.mul_comm]; exact hm)

theorem flatten_getD_left (a b : List ℝ) {i : Nat} (h : i < a.length) : (a ++ b).getD i 0 = a.getD i 0 := by
  rw [List.getD_eq_getElem?_getD, List.getD_eq_getElem?_getD, List.getElem?_append_left h]

theorem flatten_getD_right (a b : List ℝ) (i : Nat) : (a ++ b).getD (a.length + i) 0 = b.getD i 0 := by
  rw [List.getD_eq_getElem?_getD, List.getD_eq_getElem?_getD, List.getElem?_append_right (by omega)]
  congr 2; omega

theorem runAnalysis_spec (calls : List (List ℝ)) : ∀ {s : St} {g : Int → ℝ} {t : Nat},
    s.conf.Ok → s.conf.streaming = true → BufInv s g t →
    (∀ x ∈ calls, ∀ n ∈ s.conf.fixed, x.length = n * s.conf.hop) →
    (∀ i : Nat, i < (calls.map (padded s.conf.hop)).flatten.length →
      (calls.map (padded s.conf.hop)).flatten.getD i 0 = g ((t + i : Nat) : Int)) →
    ∃ s' Xs, runAnalysis s calls = .ok (s', Xs) ∧
      Xs.map List.length = calls.map (fun x => ceilDiv x.length s.conf.hop) ∧
      Xs.flatten = (List.range ((calls.map (fun x => ceilDiv x.length s.conf.hop)).sum)).map
        (fun k : Nat => rfft s.conf.nfft (block s.conf g ((t + (k + 1) * s.conf.hop : Nat) : Int))) := by
  induction calls with
  | nil => intro s g t _ _ _ _ _; exact ⟨s, [], rfl, rfl, rfl⟩
  | cons x xs ih =>
    intro s g t hok hst hi hfix hg
    have hh := hok.hop_pos
    simp only [List.map_cons, List.flatten_cons, List.length_append] at hg
    obtain ⟨s1, e1, _, i1, c1, _, _⟩ := analysis_spec hok hst hi x (hfix x (by simp)) (fun i hlt => by
      have := hg i (by omega)
      rw [flatten_getD_left _ _ hlt] at this
      rw [this]; push_cast; rfl)
    have i1' : BufInv s1 g ((t + (padded s.conf.hop x).length : Nat) : Int) := by
      push_cast; exact i1
    obtain ⟨s2, Xs, e2, l2, f2⟩ := ih (s := s1) (g := g) (t := t + (padded s.conf.hop x).length)
      (by rw [c1]; exact hok) (by rw [c1]; exact hst) i1'
      (fun y hy n hn => by rw [c1] at hn ⊢; exact hfix y (by simp [hy]) n hn)
      (fun i hlt => by
        rw [c1] at hlt ⊢
        have := hg ((padded s.conf.hop x).length + i) (by omega)
        rw [flatten_getD_right] at this
        rw [this]; congr 1; push_cast; ring)
    rw [c1] at l2 f2
    refine ⟨s2, (List.range (ceilDiv x.length s.conf.hop)).map
        (fun k : Nat => rfft s.conf.nfft (block s.conf g ((t : Int) + ((k + 1) * s.conf.hop : Nat)))) :: Xs, ?_, ?_, ?_⟩
    · unfold runAnalysis
      rw [e1]
      simp only
      rw [e2]
    · simp [l2]
    · rw [List.flatten_cons, f2]
      simp only [List.map_cons, List.sum_cons]
      rw [List.range_add, List.map_append, List.map_map]
      congr 1
      apply List.map_congr_left
      intro k _
      simp only [Function.comp_apply]
      rw [padded_length hh]
      congr 3
      ring

theorem runPipe_spec (calls : List (List ℝ)) : ∀ {s : St} {g : Int → ℝ} {F : Nat},
    s.conf.Ok → s.conf.streaming = true → BufInv s g ((F * s.conf.hop : Nat) : Int) →
    OutInv s (outFrame s.conf s.H g) F →
    (∀ x ∈ calls, ∀ n ∈ s.conf.fixed, x.length = n * s.conf.hop) →
    (∀ i : Nat, i < (calls.map (padded s.conf.hop)).flatten.length →
      (calls.map (padded s.conf.hop)).flatten.getD i 0 = g ((F * s.conf.hop + i : Nat) : Int)) →
    ∃ s' y, runPipe s calls = .ok (s', y) ∧
      y.length = (calls.map (padded s.conf.hop)).flatten.length ∧
      ∀ k i, k < (calls.map (fun x => ceilDiv x.length s.conf.hop)).sum → i < s.conf.hop →
        y.getD (k * s.conf.hop + i) 0 =
          ∑ f ∈ range (F + k + 1), ext s.conf.nfft (outFrame s.conf s.H g f) ((F + k - f) * s.conf.hop + i) := by
  induction calls with
  | nil =>
    intro s g F _ _ _ _ _ _
    exact ⟨s, [], rfl, rfl, fun k i hk => by simp at hk⟩
  | cons x xs ih =>
    intro s g F hok hst hi ho hfix hg
    have hh := hok.hop_pos
    simp only [List.map_cons, List.flatten_cons, List.length_append] at hg
    obtain ⟨s1, e1, X1, i1, c1, y1, H1⟩ := analysis_spec hok hst hi x (hfix x (by simp)) (fun i hlt => by
      have := hg i (by omega)
      rw [flatten_getD_left _ _ hlt] at this
      rw [this]; push_cast; rfl)
    obtain ⟨pc, pb, py, pH⟩ := process_rest s1
    obtain ⟨s2, y, e2, c2, b2, H2, i2, l2, v2⟩ := synthLoop_spec (process s1).X (s := process s1)
      (G := outFrame s.conf s.H g) (F := F) (by rw [pc, c1]; exact hok)
      (by
        intro i hin
        rw [pc, c1] at hin ⊢
        rw [py, y1]; exact ho i hin)
      (by
        intro k X hX i _
        rw [process_X, X1, List.map_map, List.getElem?_map, Option.map_eq_some_iff] at hX
        obtain ⟨k', hk', rfl⟩ := hX
        rw [List.getElem?_eq_some_iff] at hk'
        obtain ⟨_, hk'⟩ := hk'
        rw [List.getElem_range] at hk'
        subst hk'
        rw [pc, c1, H1]
        unfold outFrame
        simp only [Function.comp_apply]
        congr 5
        push_cast; ring)
    have hXlen : (process s1).X.length = ceilDiv x.length s.conf.hop := by
      rw [process_X, X1]; simp
    rw [pc, c1] at l2 v2 c2
    rw [hXlen] at l2 v2 i2
    have hbuf2 : BufInv s2 g (((F + ceilDiv x.length s.conf.hop) * s2.conf.hop : Nat) : Int) := by
      intro i hin
      rw [c2] at hin ⊢
      rw [b2, pb]
      have := i1 i (by rw [c1]; exact hin)
      rw [c1, padded_length hh] at this
      convert this using 4
      push_cast; ring
    obtain ⟨s3, y3, e3, l3, v3⟩ := ih (s := s2) (g := g) (F := F + ceilDiv x.length s.conf.hop)
      (by rw [c2]; exact hok) (by rw [c2]; exact hst) hbuf2
      (by rw [c2, H2, pH, H1]; exact i2)
      (fun z hz n hn => by rw [c2] at hn ⊢; exact hfix z (by simp [hz]) n hn)
      (fun i hlt => by
        rw [c2] at hlt ⊢
        have := hg ((padded s.conf.hop x).length + i) (by omega)
        rw [flatten_getD_right] at this
        rw [this, padded_length hh]; congr 1; push_cast; ring)
    rw [c2, H2, pH, H1] at v3
    rw [c2] at l3
    refine ⟨s3, y ++ y3, ?_, ?_, ?_⟩
    · unfold runPipe
      rw [e1]
      simp only
      unfold synthesis
      rw [e2]
      simp only
      rw [e3]
    · simp only [List.length_append, List.map_cons, List.flatten_cons]
      rw [l2, l3, padded_length hh]
    · intro k i hk hii
      simp only [List.map_cons, List.sum_cons] at hk
      by_cases hkl : k < ceilDiv x.length s.conf.hop
      · rw [flatten_getD_left]
        · exact v2 k i hkl hii
        · rw [l2]
          have : (k + 1) * s.conf.hop ≤ ceilDiv x.length s.conf.hop * s.conf.hop :=
            Nat.mul_le_mul_right _ hkl
          rw [Nat.add_mul] at this; omega
      · have hsplit : k * s.conf.hop + i = y.length + ((k - ceilDiv x.length s.conf.hop) * s.conf.hop + i) := by
          rw [l2, Nat.sub_mul]
          have : ceilDiv x.length s.conf.hop * s.conf.hop ≤ k * s.conf.hop :=
            Nat.mul_le_mul_right _ (by omega)
          omega
        rw [hsplit, flatten_getD_right, v3 _ i (by omega) hii]
        rw [show F + ceilDiv x.length s.conf.hop + (k - ceilDiv x.length s.conf.hop) = F + k by omega]

/-! ### Synthesis window -/

theorem backLoop_spec (hop L : Nat) (hh : 1 ≤ hop) (m : Nat) (hm : hop ∣ m) :
    hop ∣ backLoop hop L m ∧ L ≤ backLoop hop L m + hop := by
  induction hd : L - m using Nat.strong_induction_on generalizing m with
  | _ d ih =>
    unfold backLoop
    split
    · rename_i h
      exact ih (L - (m + hop)) (by omega) (m + hop) (Nat.dvd_add hm (Nat.dvd_refl _)) rfl
    · rename_i h
      exact ⟨hm, by omega⟩

theorem shiftedSq_eq (w : Nat → ℝ) (L : Nat) (hw : ∀ i, L ≤ i → w i = 0) (n : Int) (i : Nat) (hi : i < L) :
    shiftedSq w L n i = if n ≤ i ∧ (i : Int) - n < L then w ((i : Int) - n).toNat ^ 2 else 0 := by
  unfold shiftedSq
  by_cases h0 : n = 0
  · subst h0; rw [if_pos rfl, if_pos (by omega)]; simp
  · rw [if_neg h0]
    by_cases h1 : n < 0
    · rw [if_pos h1]
      by_cases h2 : (i : Int) < n + L
      · rw [if_pos h2, if_pos (by omega)]; congr 2; omega
      · rw [if_neg h2, if_neg (by omega)]
    · rw [if_neg h1]
      by_cases h2 : n ≤ i
      · rw [if_pos h2, if_pos (by omega)]
      · rw [if_neg h2, if_neg (by omega)]

theorem sub_emod_dvd {a b n : Int} (h : b ∣ n) : (a - n) % b = a % b := by
  obtain ⟨q, rfl⟩ := h
  exact Int.sub_mul_emod_self_left a b q

/-- Sum of the squares over the positions congruent to `i`. -/
noncomputable def classSum (w : Nat → ℝ) (hop L i : Nat) : ℝ :=
  ∑ t ∈ (range L).filter (fun t => t % hop = i % hop), w t ^ 2

theorem normLoop_spec (w : Nat → ℝ) (hop L : Nat) (hh : 1 ≤ hop) (hw : ∀ i, L ≤ i → w i = 0) (n : Int)
    (hn : (hop : Int) ∣ n) (norm : Nat → ℝ)
    (hnorm : ∀ i, i < L → norm i = ∑ t ∈ (range L).filter (fun t => t % hop = i % hop ∧ (i : Int) - t < n), w t ^ 2)
    {i : Nat} (hi : i < L) : normLoop w hop L n norm i = classSum w hop L i := by
  induction hd : ((L : Int) - n).toNat using Nat.strong_induction_on generalizing n norm with
  | _ d ih =>
    unfold normLoop
    split
    · rename_i h
      refine ih _ (by omega) (n + hop) (Int.dvd_add hn (Int.dvd_refl _)) _ ?_ rfl
      intro j hj
      rw [hnorm j hj, shiftedSq_eq w L hw n j hj]
      have hiff : ∀ t : Nat, t % hop = j % hop → ((j : Int) - t < n + hop ↔ (j : Int) - t < n ∨ (j : Int) - t = n) := by
        intro t ht
        constructor
        · intro hlt
          by_contra hc
          push Not at hc
          have hd1 : (hop : Int) ∣ (j : Int) - t := by
            have : (j : Int) % hop = (t : Int) % hop := by exact_mod_cast ht.symm
            exact Int.dvd_of_emod_eq_zero (Int.emod_eq_emod_iff_emod_sub_eq_zero.mp this)
          have hd2 : (hop : Int) ∣ (j : Int) - t - n := Int.dvd_sub hd1 hn
          have := Int.eq_zero_of_abs_lt_dvd hd2 (by rw [abs_lt]; omega)
          omega
        · intro hlt; omega
      have hset : (range L).filter (fun t => t % hop = j % hop ∧ (j : Int) - t < n + hop) =
          (range L).filter (fun t => t % hop = j % hop ∧ (j : Int) - t < n) ∪
          (range L).filter (fun t => t % hop = j % hop ∧ (j : Int) - t = n) := by
        ext t
        simp only [mem_filter, mem_union, mem_range]
        constructor
        · rintro ⟨h1, h2, h3⟩
          rcases (hiff t h2).mp h3 with h4 | h4
          · exact Or.inl ⟨h1, h2, h4⟩
          · exact Or.inr ⟨h1, h2, h4⟩
        · rintro (⟨h1, h2, h3⟩ | ⟨h1, h2, h3⟩)
          · exact ⟨h1, h2, by omega⟩
          · exact ⟨h1, h2, by omega⟩
      rw [hset, sum_union]
      · congr 1
        by_cases hc : n ≤ j ∧ (j : Int) - n < L
        · rw [if_pos hc]
          have : (range L).filter (fun t => t % hop = j % hop ∧ (j : Int) - t = n) = {((j : Int) - n).toNat} := by
            ext t
            simp only [mem_filter, mem_range, mem_singleton]
            constructor
            · rintro ⟨h1, h2, h3⟩; omega
            · intro h1
              refine ⟨by omega, ?_, by omega⟩
              have h4 : (t : Int) = j - n := by omega
              have h5 : (t : Int) % hop = (j : Int) % hop := by
                rw [h4]; exact sub_emod_dvd hn
              exact_mod_cast h5
          rw [this, sum_singleton]
        · rw [if_neg hc]
          symm
          apply sum_eq_zero
          intro t ht
          simp only [mem_filter, mem_range] at ht
          omega
      · rw [disjoint_filter]
        intro t _ h1 h2
        omega
    · rename_i h
      rw [hnorm i hi]
      unfold classSum
      congr 1
      apply filter_congr
      intro t ht
      have := mem_range.mp ht
      constructor
      · exact fun h => h.1
      · intro h1; refine ⟨h1, ?_⟩; omega

theorem synthesisWindow_length (w : List ℝ) (hop : Nat) : (synthesisWindow w hop).length = w.length := by
  simp [synthesisWindow]

theorem synthesisWindow_getD (w : List ℝ) {hop : Nat} (hh : 1 ≤ hop) {i : Nat} (hi : i < w.length) :
    (synthesisWindow w hop).getD i 0 = w.getD i 0 / classSum (fun i => w.getD i 0) hop w.length i := by
  unfold synthesisWindow
  simp only
  rw [List.getD_eq_getElem?_getD, List.getElem?_map, List.getElem?_range hi]
  simp only [Option.map_some, Option.getD_some]
  congr 1
  obtain ⟨hd, hb⟩ := backLoop_spec hop w.length hh 0 (Nat.dvd_zero _)
  apply normLoop_spec _ _ _ hh
  · intro j hj
    rw [List.getD_eq_getElem?_getD, List.getElem?_eq_none hj]; rfl
  · exact Int.dvd_neg.mpr (by exact_mod_cast hd)
  · intro j hj
    symm
    apply sum_eq_zero
    intro t ht
    exfalso
    simp only [mem_filter, mem_range] at ht
    obtain ⟨h1, h2, h3⟩ := ht
    have hd1 : (hop : Int) ∣ (j : Int) - t := by
      have : (j : Int) % hop = (t : Int) % hop := by exact_mod_cast h2.symm
      exact Int.dvd_of_emod_eq_zero (Int.emod_eq_emod_iff_emod_sub_eq_zero.mp this)
    have hd2 : (hop : Int) ∣ (t : Int) - j - backLoop hop w.length 0 := by
      have := Int.dvd_sub (Int.dvd_neg.mpr hd1) (by exact_mod_cast hd : (hop : Int) ∣ (backLoop hop w.length 0 : Int))
      rwa [neg_sub] at this
    obtain ⟨q, hq⟩ := hd2
    have hqpos : 0 < q := by
      by_contra hneg
      have : (hop : Int) * q ≤ 0 := Int.mul_nonpos_of_nonneg_of_nonpos (by omega) (by omega)
      omega
    have : (hop : Int) * 1 ≤ hop * q := Int.mul_le_mul_of_nonneg_left (by omega) (by omega)
    omega
  · exact hi

end Verif.STFT
