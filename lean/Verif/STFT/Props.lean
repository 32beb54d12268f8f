import Verif.STFT.Lemmas

/-!
# Properties C14, C15, C16, C60: the short-time Fourier transform
-/

namespace Verif.STFT

open Verif.Py Verif.DFT Finset

/-- An object whose internal buffers are zero: what the constructor, the padding methods, the
filter setter and `reset` leave. -/
def Fresh (s : St) : Prop := (∀ i, s.buf i = 0) ∧ (∀ i, s.yp i = 0)

theorem fresh_create {N hop : Nat} {aw sw : Option (List ℝ)} {st : Bool} {fx : Option Nat} {s : St}
    (h : create N hop aw sw st fx = .ok s) : Fresh s := by
  unfold create at h
  split at h
  · exact absurd h (by simp)
  · cases h; exact ⟨fun _ => rfl, fun _ => rfl⟩

theorem fresh_zeroPadFront (s : St) (z : Nat) : Fresh (zeroPadFront s z) := ⟨fun _ => rfl, fun _ => rfl⟩

theorem fresh_zeroPadBack (s : St) (z : Nat) : Fresh (zeroPadBack s z) := ⟨fun _ => rfl, fun _ => rfl⟩

theorem fresh_reset (s : St) : Fresh (reset s) := ⟨fun _ => rfl, fun _ => rfl⟩

/-- The signal streamed by a history of calls. -/
def stream (hop : Nat) (calls : List (List ℝ)) : List ℝ := (calls.map (padded hop)).flatten

theorem sigAt_stream {S : List ℝ} (i : Nat) : S.getD i 0 = sigAt S (i : Int) := by
  unfold sigAt; rw [if_pos (by omega)]; rfl

theorem bufInv_fresh {s : St} (hf : Fresh s) (hok : s.conf.Ok) (S : List ℝ) : BufInv s (sigAt S) 0 := by
  intro i hin
  refine ⟨fun hz => ?_, fun _ => hf.1 i⟩
  rw [hf.1 i]
  unfold sigAt
  rw [if_neg]
  have := hok.hop_pos
  unfold Conf.nState at hz ⊢
  omega

theorem stream_length {hop : Nat} (hh : 1 ≤ hop) (calls : List (List ℝ)) :
    (stream hop calls).length = (calls.map (fun x => ceilDiv x.length hop)).sum * hop := by
  unfold stream
  induction calls with
  | nil => simp
  | cons x xs ih =>
    simp only [List.map_cons, List.flatten_cons, List.length_append, List.sum_cons]
    rw [ih, padded_length hh, Nat.add_mul]

/-! ### C14 -/

/-- **C14** For every history of `analysis` calls, the spectra returned by all the calls are
the spectra of the successive frames of the whole streamed signal, one frame per hop, each
frame ending with the last sample of its hop. -/
theorem C14_frames (s : St) (hf : Fresh s) (hok : s.conf.Ok) (hst : s.conf.streaming = true)
    (calls : List (List ℝ)) (hfix : ∀ x ∈ calls, ∀ n ∈ s.conf.fixed, x.length = n * s.conf.hop) :
    ∃ s' Xs, runAnalysis s calls = .ok (s', Xs) ∧ Xs.length = calls.length ∧
      Xs.flatten = (List.range ((stream s.conf.hop calls).length / s.conf.hop)).map (fun k : Nat =>
        rfft s.conf.nfft (block s.conf (sigAt (stream s.conf.hop calls)) (((k + 1) * s.conf.hop : Nat) : Int))) := by
  obtain ⟨s', Xs, e, l, f⟩ := runAnalysis_spec calls (s := s) (g := sigAt (stream s.conf.hop calls)) (t := 0)
    hok hst (by simpa using bufInv_fresh hf hok _) hfix (fun i _ => by
      rw [Nat.zero_add]; exact sigAt_stream i)
  refine ⟨s', Xs, e, by simpa using congrArg List.length l, ?_⟩
  rw [f, stream_length hok.hop_pos, Nat.mul_div_cancel _ hok.hop_pos]
  simp only [Nat.zero_add]

/-- **C14** Two ways of cutting the same signal, at multiples of the hop, give the same
spectra. -/
theorem C14_chunking (s : St) (hf : Fresh s) (hok : s.conf.Ok) (hst : s.conf.streaming = true)
    (hfix : s.conf.fixed = none) (a b : List (List ℝ)) (hab : a.flatten = b.flatten)
    (ha : ∀ x ∈ a, s.conf.hop ∣ x.length) (hb : ∀ x ∈ b, s.conf.hop ∣ x.length) :
    ∃ sa sb Xa Xb, runAnalysis s a = .ok (sa, Xa) ∧ runAnalysis s b = .ok (sb, Xb) ∧
      Xa.flatten = Xb.flatten := by
  have hpad : ∀ l : List (List ℝ), (∀ x ∈ l, s.conf.hop ∣ x.length) → stream s.conf.hop l = l.flatten := by
    intro l hl
    unfold stream
    congr 1
    conv_rhs => rw [← List.map_id l]
    apply List.map_congr_left
    intro x hx
    unfold padded
    rw [Nat.mod_eq_zero_of_dvd (hl x hx)]; simp
  obtain ⟨sa, Xa, e1, _, f1⟩ := C14_frames s hf hok hst a (by simp [hfix])
  obtain ⟨sb, Xb, e2, _, f2⟩ := C14_frames s hf hok hst b (by simp [hfix])
  refine ⟨sa, sb, Xa, Xb, e1, e2, ?_⟩
  rw [f1, f2, hpad a ha, hpad b hb, hab]

/-- **C14** With a fixed number of frames a signal of another length is refused. -/
theorem C14_fixed_refuses (s : St) (hst : s.conf.streaming = true) {n : Nat} (hn : s.conf.fixed = some n)
    (x : List ℝ) (hx : x.length ≠ n * s.conf.hop) : analysis s x = .error .valueError := by
  unfold analysis
  simp [hst, hn, hx]

/-- The constructor gives a fresh object; a usable one. -/
theorem create_ok {N hop : Nat} {aw sw : Option (List ℝ)} {st : Bool} {fx : Option Nat}
    (h1 : 1 ≤ hop) (h2 : hop ≤ N) (h3 : 2 ≤ N) (ha : ∀ w ∈ aw, w.length = N) (hs : ∀ w ∈ sw, w.length = N) :
    ∃ s, create N hop aw sw st fx = .ok s ∧ Fresh s ∧ s.conf.Ok ∧ s.conf.streaming = st ∧ s.conf.fixed = fx := by
  refine ⟨_, by unfold create; rw [if_neg (by omega)], ⟨fun _ => rfl, fun _ => rfl⟩, ⟨h1, h2, ?_, ?_, ?_⟩, rfl, rfl⟩
  · exact h3
  · intro w hw; exact ha w hw
  · intro w hw; exact hs w hw

/-- Non-vacuity of the C14 hypotheses: frames of 4 samples, hop 2, a window; `[1,2] [3,4]`
and `[1,2,3,4]`. -/
example : ∃ s : St, create 4 2 (some [1, 2, 2, 1]) none true none = .ok s ∧ Fresh s ∧ s.conf.Ok ∧
    s.conf.streaming = true ∧ s.conf.fixed = none ∧
    ([[1, 2], [3, 4]] : List (List ℝ)).flatten = ([[1, 2, 3, 4]] : List (List ℝ)).flatten := by
  obtain ⟨s, h⟩ := create_ok (N := 4) (hop := 2) (aw := some [1, 2, 2, 1]) (sw := none) (st := true) (fx := none)
    (by omega) (by omega) (by omega) (by simp) (by simp)
  exact ⟨s, h.1, h.2.1, h.2.2.1, h.2.2.2.1, h.2.2.2.2, rfl⟩

/-- **Deviation** With a transform of a single point no signal can be analysed. -/
theorem C14_one_point_deviation (s : St) (h : s.conf.nfft = 1) (hst : s.conf.streaming = true)
    (hfix : s.conf.fixed = none) (hh : 1 ≤ s.conf.hop) (x : List ℝ) (hx : x ≠ []) :
    analysis s x = .error .indexError := by
  have hl : 0 < x.length := List.length_pos_iff.mpr hx
  have hc : ∃ n, ceilDiv x.length s.conf.hop = n + 1 := by
    refine ⟨ceilDiv x.length s.conf.hop - 1, ?_⟩
    have : 0 < ceilDiv x.length s.conf.hop := by
      unfold ceilDiv
      exact Nat.div_pos (by omega) (by omega)
    omega
  obtain ⟨n, hn⟩ := hc
  have hfr : frameLoop (fun i => x.getD i 0) (n + 1) 0 s = .error .indexError := by
    unfold frameLoop frame dftAnalysis
    simp [h]
  unfold analysis
  simp only [hst, hfix, if_true]
  rw [if_neg (by omega), hn, hfr]

theorem analysis_bad_window {v : List ℝ} (s : St) (hst : s.conf.streaming = true) (hfix : s.conf.fixed = none)
    (hh : 1 ≤ s.conf.hop) (haw : s.conf.aw = some v) (hn1 : s.conf.nfft ≠ 1) (hv : v.length ≠ s.conf.nfft)
    (x : List ℝ) (hx : x ≠ []) : analysis s x = .error .valueError := by
  have hl : 0 < x.length := List.length_pos_iff.mpr hx
  have hc : ∃ n, ceilDiv x.length s.conf.hop = n + 1 := by
    refine ⟨ceilDiv x.length s.conf.hop - 1, ?_⟩
    have : 0 < ceilDiv x.length s.conf.hop := by
      unfold ceilDiv
      exact Nat.div_pos (by omega) (by omega)
    omega
  obtain ⟨n, hn⟩ := hc
  have hfr : frameLoop (fun i => x.getD i 0) (n + 1) 0 s = .error .valueError := by
    unfold frameLoop frame dftAnalysis applyWin
    simp [hn1, haw, hv]
  unfold analysis
  simp only [hst, hfix, if_true]
  rw [if_neg (by omega), hn, hfr]

/-- **Deviation** After calling `zero_pad_back` twice on an object with an analysis window
(the last call with the final padding) the window no longer has the length of the transform
and every analysis fails. -/
theorem C14_repad_deviation (N hop z1 z2 : Nat) (w : List ℝ) (hw : w.length = N) (h1 : 1 ≤ hop) (h2 : hop ≤ N)
    (h3 : 2 ≤ N) (hz : 1 ≤ z1) (sw : Option (List ℝ)) (x : List ℝ) (hx : x ≠ []) :
    ∃ s, create N hop (some w) sw true none = .ok s ∧
      analysis (zeroPadBack (zeroPadBack s z1) z2) x = .error .valueError := by
  refine ⟨_, by unfold create; rw [if_neg (by omega)], ?_⟩
  apply analysis_bad_window (v := w ++ List.replicate z1 0 ++ List.replicate z2 0) _ rfl rfl h1 rfl
  · show N + z2 + 0 ≠ 1
    omega
  · show (w ++ List.replicate z1 0 ++ List.replicate z2 0).length ≠ N + z2 + 0
    simp; omega
  · exact hx

example : ([0.5, 0.5] : List ℝ).length = 2 ∧ (1 : Nat) ≤ 1 ∧ 1 ≤ 2 ∧ 2 ≤ 2 ∧ ([1] : List ℝ) ≠ [] := by simp

/-! ### Analysis, process, synthesis -/

/-- What a history of `analysis`, `process`, `synthesis` gives: as many samples as were
streamed, the overlap-add of the processed frames. -/
theorem pipe_ola (s : St) (hf : Fresh s) (hok : s.conf.Ok) (hst : s.conf.streaming = true)
    (calls : List (List ℝ)) (hfix : ∀ x ∈ calls, ∀ n ∈ s.conf.fixed, x.length = n * s.conf.hop) :
    ∃ s' y, runPipe s calls = .ok (s', y) ∧ y.length = (stream s.conf.hop calls).length ∧
      ∀ m, m < y.length → y.getD m 0 = ola s.conf.nfft s.conf.hop ((stream s.conf.hop calls).length / s.conf.hop)
        (outFrame s.conf s.H (sigAt (stream s.conf.hop calls))) m := by
  obtain ⟨s', y, e, l, v⟩ := runPipe_spec calls (s := s) (g := sigAt (stream s.conf.hop calls)) (F := 0)
    hok hst (by simpa using bufInv_fresh hf hok _) (fun i _ => by simp [hf.2 i]) hfix (fun i _ => by
      rw [Nat.zero_mul, Nat.zero_add]; exact sigAt_stream i)
  refine ⟨s', y, e, l, ?_⟩
  intro m hm
  rw [l] at hm
  have hm' : m < (stream s.conf.hop calls).length := hm
  have hL := stream_length hok.hop_pos calls
  rw [hL] at hm'
  have hq : m / s.conf.hop < (calls.map (fun x => ceilDiv x.length s.conf.hop)).sum := divmod_lt hm'
  have hr : m % s.conf.hop < s.conf.hop := Nat.mod_lt _ hok.hop_pos
  have hdm : m / s.conf.hop * s.conf.hop + m % s.conf.hop = m := by
    rw [Nat.mul_comm]; exact Nat.div_add_mod m s.conf.hop
  have h := v (m / s.conf.hop) (m % s.conf.hop) hq hr
  rw [hdm] at h
  rw [h, Nat.zero_add, ola_eq _ _ _ _ hq hr, hdm, hL, Nat.mul_div_cancel _ hok.hop_pos]

/-- The samples of a class modulo the hop, collected by the frames that cover sample `j`. -/
theorem sum_class (v : Nat → ℝ) {N hop F j : Nat} (hh : 1 ≤ hop) (hj : N ≤ j + hop) (hF : j < F * hop) :
    ∑ f ∈ range F, (if f * hop ≤ j ∧ j - f * hop < N then v (j - f * hop) else 0) =
      ∑ t ∈ (range N).filter (fun t => t % hop = j % hop), v t := by
  rw [← sum_filter]
  apply sum_nbij' (fun f => j - f * hop) (fun t => (j - t) / hop)
  · intro f hf
    simp only [mem_filter, mem_range] at hf ⊢
    refine ⟨hf.2.2, ?_⟩
    rw [Nat.mul_comm]; exact Nat.sub_mul_mod (by rw [Nat.mul_comm]; exact hf.2.1)
  · intro t ht
    simp only [mem_filter, mem_range] at ht ⊢
    obtain ⟨h1, h2⟩ := ht
    have htj : t ≤ j := by
      by_contra hc
      have hd : hop ∣ t - j := (Nat.modEq_iff_dvd' (by omega)).mp h2.symm
      have := Nat.le_of_dvd (by omega) hd
      omega
    have hd : hop ∣ j - t := (Nat.modEq_iff_dvd' htj).mp h2
    rw [Nat.div_mul_cancel hd]
    refine ⟨divmod_lt (by omega), by omega, by omega⟩
  · intro f hf
    simp only [mem_filter, mem_range] at hf
    have : j - (j - f * hop) = f * hop := by omega
    rw [this, Nat.mul_div_cancel _ (by omega)]
  · intro t ht
    simp only [mem_filter, mem_range] at ht
    obtain ⟨h1, h2⟩ := ht
    have htj : t ≤ j := by
      by_contra hc
      have hd : hop ∣ t - j := (Nat.modEq_iff_dvd' (by omega)).mp h2.symm
      have := Nat.le_of_dvd (by omega) hd
      omega
    have hd : hop ∣ j - t := (Nat.modEq_iff_dvd' htj).mp h2
    rw [Nat.div_mul_cancel hd]; omega
  · intro f _; rfl

theorem sigAt_neg (S : List ℝ) {j : Int} (h : j < 0) : sigAt S j = 0 := by
  unfold sigAt; rw [if_neg (by omega)]

/-- Overlap-add of frames `i ↦ u i * x((f+1) hop - N + i - zf)` supported on
`[zf, zf + N)`: the window contributions factor out. -/
theorem ola_weights {N hop zf F m : Nat} (hh : 1 ≤ hop) (hN : hop ≤ N) (hm : m < F * hop) (u : Nat → ℝ) (S : List ℝ)
    (hu : ∀ i, i < hop → ∑ t ∈ (range N).filter (fun t => t % hop = i), u (zf + t) = 1) :
    ∑ f ∈ range F, (if zf + f * hop ≤ m ∧ m - f * hop < zf + N then
        u (m - f * hop) * sigAt S ((((f + 1) * hop : Nat) : Int) - N + (((m - f * hop : Nat) : Int) - zf)) else 0) =
      sigAt S ((m : Int) - (zf + (N - hop) : Nat)) := by
  have hsig : ∀ f ∈ range F, (if zf + f * hop ≤ m ∧ m - f * hop < zf + N then
        u (m - f * hop) * sigAt S ((((f + 1) * hop : Nat) : Int) - N + (((m - f * hop : Nat) : Int) - zf)) else 0) =
      (if zf + f * hop ≤ m ∧ m - f * hop < zf + N then u (m - f * hop) else 0) *
        sigAt S ((m : Int) - (zf + (N - hop) : Nat)) := by
    intro f _
    by_cases hc : zf + f * hop ≤ m ∧ m - f * hop < zf + N
    · rw [if_pos hc, if_pos hc]
      congr 2
      have h1 : ((m - f * hop : Nat) : Int) = m - (f * hop : Nat) := by omega
      have h2 : (((f + 1) * hop : Nat) : Int) = (f * hop : Nat) + hop := by push_cast; ring
      rw [h1, h2]; omega
    · rw [if_neg hc, if_neg hc, zero_mul]
  rw [sum_congr rfl hsig, ← sum_mul]
  by_cases hneg : (m : Int) - (zf + (N - hop) : Nat) < 0
  · rw [sigAt_neg S hneg, mul_zero]
  · obtain ⟨j, hj⟩ : ∃ j, m = zf + j := ⟨m - zf, by omega⟩
    subst hj
    have : ∑ f ∈ range F, (if zf + f * hop ≤ zf + j ∧ zf + j - f * hop < zf + N then u (zf + j - f * hop) else 0) = 1 := by
      rw [← hu (j % hop) (Nat.mod_lt _ (by omega)), ← sum_class (fun t => u (zf + t)) hh (by omega) (by omega : j < F * hop)]
      apply sum_congr rfl
      intro f _
      by_cases hc : f * hop ≤ j ∧ j - f * hop < N
      · rw [if_pos hc, if_pos (by omega)]; congr 1; omega
      · rw [if_neg hc, if_neg (by omega)]
    rw [this, one_mul]

/-! ### C15 -/

/-- An STFT object with an analysis window, the synthesis window computed from it, and zero
padding. -/
noncomputable def reconObject (N hop zf zb : Nat) (w : List ℝ) : Except Err St :=
  match create N hop (some w) (some (synthesisWindow w hop)) true none with
  | .error e => .error e
  | .ok s => .ok (zeroPadBack (zeroPadFront s zf) zb)

theorem getD_pad (zf zb : Nat) (w : List ℝ) {i : Nat} (hi : i < w.length) :
    (List.replicate zf 0 ++ w ++ List.replicate zb 0).getD (zf + i) 0 = w.getD i 0 := by
  rw [List.append_assoc]
  have := flatten_getD_right (List.replicate zf (0 : ℝ)) (w ++ List.replicate zb 0) i
  rw [List.length_replicate] at this
  rw [this, flatten_getD_left _ _ hi]

/-- **C15** Perfect reconstruction: with the window of `compute_synthesis_window`, every
signal that goes through analysis and synthesis, cut in any way, comes out delayed by the
front padding and `N - hop` samples, provided no class of samples modulo the hop has only
zero window samples. -/
theorem C15_reconstruction (N hop zf zb : Nat) (w : List ℝ) (hw : w.length = N) (h1 : 1 ≤ hop) (h2 : hop ≤ N)
    (h3 : 2 ≤ N + zb + zf)
    (hnorm : ∀ i, i < hop → ∑ t ∈ (range N).filter (fun t => t % hop = i), (w.getD t 0) ^ 2 ≠ 0)
    (calls : List (List ℝ)) :
    ∃ s s' y, reconObject N hop zf zb w = .ok s ∧ runPipe s calls = .ok (s', y) ∧
      y.length = (stream hop calls).length ∧
      ∀ m, m < y.length → y.getD m 0 = sigAt (stream hop calls) ((m : Int) - (zf + (N - hop) : Nat)) := by
  obtain ⟨s, hs⟩ : ∃ s, reconObject N hop zf zb w = .ok s := by
    unfold reconObject create
    rw [if_neg (by omega)]
    exact ⟨_, rfl⟩
  have hs' := hs
  unfold reconObject create at hs'
  rw [if_neg (by omega)] at hs'
  simp only [Except.ok.injEq] at hs'
  have hconf : s.conf = ⟨N, hop, zf, zb, some (List.replicate zf 0 ++ w ++ List.replicate zb 0),
      some (List.replicate zf 0 ++ synthesisWindow w hop ++ List.replicate zb 0), true, none⟩ := by
    rw [← hs']; rfl
  have hH : s.H = none := by rw [← hs']; rfl
  have hF : Fresh s := by rw [← hs']; exact fresh_zeroPadBack _ _
  have hok : s.conf.Ok := by
    rw [hconf]
    refine ⟨h1, h2, h3, ?_, ?_⟩
    · intro v hv
      simp only [Option.mem_def, Option.some.injEq] at hv
      rw [← hv]; simp [Conf.nfft]; omega
    · intro v hv
      simp only [Option.mem_def, Option.some.injEq] at hv
      rw [← hv]; simp [Conf.nfft, synthesisWindow_length]; omega
  obtain ⟨s', y, e, l, v⟩ := pipe_ola s hF hok (by rw [hconf]) calls (by rw [hconf]; simp)
  have hhop : s.conf.hop = hop := by rw [hconf]
  rw [hhop] at l v
  refine ⟨s, s', y, hs, e, l, ?_⟩
  intro m hm
  rw [v m hm, hH]
  have hL := stream_length h1 calls
  have hm2 : m < (calls.map (fun x => ceilDiv x.length hop)).sum * hop := by rw [← hL, ← l]; exact hm
  rw [hL, Nat.mul_div_cancel _ h1]
  rw [← ola_weights (N := N) (hop := hop) (zf := zf) h1 h2 hm2
    (fun i => winAt s.conf.sw i * winAt s.conf.aw i)]
  · unfold ola
    apply sum_congr rfl
    intro f _
    have hnf : s.conf.nfft = N + zb + zf := by rw [hconf]; rfl
    have hNc : s.conf.N = N := by rw [hconf]
    have hzc : s.conf.zf = zf := by rw [hconf]
    by_cases hc : f * hop ≤ m ∧ m - f * hop < s.conf.nfft
    · rw [if_pos hc]
      unfold outFrame procFrame
      simp only
      rw [irfft_rfft _ hc.2]
      unfold block
      rw [hhop, hNc, hzc]
      by_cases hz : zf ≤ m - f * hop ∧ m - f * hop < zf + N
      · rw [if_pos hz, if_pos (by omega)]; ring
      · rw [if_neg hz]
        rw [mul_zero, mul_zero]
        rw [if_neg (by omega)]
    · rw [if_neg hc, if_neg (by omega)]
  · intro i hi
    have hpt : ∀ t ∈ (range N).filter (fun t => t % hop = i),
        winAt s.conf.sw (zf + t) * winAt s.conf.aw (zf + t) =
          (w.getD t 0) ^ 2 / ∑ t ∈ (range N).filter (fun t => t % hop = i), (w.getD t 0) ^ 2 := by
      intro t ht
      simp only [mem_filter, mem_range] at ht
      rw [hconf]
      unfold winAt
      simp only
      rw [getD_pad _ _ w (by omega), getD_pad _ _ (synthesisWindow w hop) (by rw [synthesisWindow_length]; omega),
        synthesisWindow_getD w h1 (by omega)]
      unfold classSum
      rw [hw, ht.2]
      ring
    rw [sum_congr rfl hpt]
    simp only [div_eq_mul_inv]
    rw [← sum_mul]
    exact mul_inv_cancel₀ (hnorm i hi)

/-- Non-vacuity of C15: frames of 4 samples, hop 2, a window with zeros. -/
example : ∀ i, i < 2 → ∑ t ∈ (range 4).filter (fun t => t % 2 = i), (([0, 1, 2, 3] : List ℝ).getD t 0) ^ 2 ≠ 0 := by
  intro i hi
  have h0 : (range 4).filter (fun t => t % 2 = 0) = {0, 2} := by decide
  have h1 : (range 4).filter (fun t => t % 2 = 1) = {1, 3} := by decide
  have : i = 0 ∨ i = 1 := by omega
  rcases this with rfl | rfl
  · rw [h0]; simp
  · rw [h1]; simp; norm_num

/-! ### C16 -/

/-- An STFT object without synthesis window and with a filter; `none` if one of the calls is
refused. -/
noncomputable def filterObject (N hop : Nat) (aw : Option (List ℝ)) (h : List ℝ) (zb zf : Nat) : Option St :=
  match create N hop aw none true none with
  | .error _ => none
  | .ok s =>
    match setFilter s h (some zb) (some zf) with
    | (.error _, _) => none
    | (.ok _, s') => some s'

theorem sum_shift {n : Nat} (F : Nat → ℝ) (i b : Nat) (hi : i < n) :
    ∑ a ∈ range n, (if a + b = i then F a else 0) = if b ≤ i then F (i - b) else 0 := by
  by_cases hb : b ≤ i
  · rw [if_pos hb, sum_eq_single (i - b)]
    · rw [if_pos (by omega)]
    · intro a _ hne; rw [if_neg (by omega)]
    · intro hn; exact absurd (mem_range.mpr (by omega)) hn
  · rw [if_neg hb]
    apply sum_eq_zero
    intro a _; rw [if_neg (by omega)]

/-- **C16** Filtering: with a filter of `len(h)` taps and a back padding of at least
`len(h) - 1`, and analysis windows that sum to one over the frames, every streamed signal
comes out convolved with the filter, delayed by the front padding and `N - hop`. -/
theorem C16_filter (N hop zf zb : Nat) (aw : Option (List ℝ)) (h : List ℝ) (ha : ∀ w ∈ aw, w.length = N)
    (h1 : 1 ≤ hop) (h2 : hop ≤ N) (h3 : 2 ≤ N + zb + zf) (hzb : h.length ≤ zb + 1)
    (hcola : ∀ i, i < hop → ∑ t ∈ (range N).filter (fun t => t % hop = i), winAt aw t = 1)
    (calls : List (List ℝ)) :
    ∃ s s' y, filterObject N hop aw h zb zf = some s ∧ runPipe s calls = .ok (s', y) ∧
      y.length = (stream hop calls).length ∧
      ∀ m, m < y.length → y.getD m 0 =
        ∑ b ∈ range h.length, h.getD b 0 * sigAt (stream hop calls) ((m : Int) - b - (zf + (N - hop) : Nat)) := by
  obtain ⟨s, hs, hconf, hH, hF⟩ : ∃ s, filterObject N hop aw h zb zf = some s ∧
      s.conf = ⟨N, hop, zf, zb, aw.map (fun w => List.replicate zf 0 ++ (w ++ List.replicate zb 0)), none, true, none⟩ ∧
      s.H = some (rfft (N + zb + zf) (fun n => h.getD n 0)) ∧ Fresh s := by
    have hset : ∀ s0 : St, s0.conf = ⟨N, hop, 0, 0, aw, none, true, none⟩ →
        setFilter s0 h (some zb) (some zf) = (.ok (), { zeroPadFront (zeroPadBack s0 zb) zf with
          H := some (rfft (N + zb + zf) (fun n => h.getD n 0)) }) := by
      intro s0 h0
      unfold setFilter
      refine (if_neg ?_).trans ?_
      · simp only [zeroPadFront, zeroPadBack, makeBuffers, Conf.nfft, h0]; omega
      · simp only [zeroPadFront, zeroPadBack, makeBuffers, Conf.nfft, h0]
    unfold filterObject create
    rw [if_neg (by omega)]
    simp only
    rw [hset _ rfl]
    refine ⟨_, rfl, ?_, rfl, ⟨fun _ => rfl, fun _ => rfl⟩⟩
    cases aw <;> rfl
  have hnf : s.conf.nfft = N + zb + zf := by rw [hconf]; rfl
  have hNc : s.conf.N = N := by rw [hconf]
  have hzc : s.conf.zf = zf := by rw [hconf]
  have hsw : s.conf.sw = none := by rw [hconf]
  have hhop : s.conf.hop = hop := by rw [hconf]
  have hok : s.conf.Ok := by
    refine ⟨by rw [hhop]; exact h1, by rw [hhop, hNc]; exact h2, by rw [hnf]; exact h3, ?_, ?_⟩
    · intro v hv
      rw [hconf] at hv
      simp only [Option.mem_def, Option.map_eq_some_iff] at hv
      obtain ⟨w, hw, rfl⟩ := hv
      rw [hnf]; simp [ha w hw]; omega
    · intro v hv; rw [hsw] at hv; simp at hv
  obtain ⟨s', y, e, l, v⟩ := pipe_ola s hF hok (by rw [hconf]) calls (by rw [hconf]; simp)
  rw [hhop] at l v
  refine ⟨s, s', y, hs, e, l, ?_⟩
  intro m hm
  rw [v m hm, hH]
  have hL := stream_length h1 calls
  have hm2 : m < (calls.map (fun x => ceilDiv x.length hop)).sum * hop := by rw [← hL, ← l]; exact hm
  rw [hL, Nat.mul_div_cancel _ h1]
  set F := (calls.map (fun x => ceilDiv x.length hop)).sum with hFdef
  set S := stream hop calls with hS
  -- each frame is the linear convolution of the block with the filter
  have hframe : ∀ f i, i < s.conf.nfft →
      outFrame s.conf (some (rfft (N + zb + zf) (fun n => h.getD n 0))) (sigAt S) f i =
        ∑ b ∈ range h.length, if b ≤ i then h.getD b 0 * block s.conf (sigAt S) ((f + 1) * hop : Nat) (i - b) else 0 := by
    intro f i hi
    unfold outFrame procFrame
    rw [hsw]
    simp only [winAt, one_mul]
    rw [hhop, hnf]
    rw [irfft_mul _ _ (by omega), sum_comm]
    have hsub : range h.length ⊆ range (N + zb + zf) := by
      intro b hb; simp only [mem_range] at hb ⊢; omega
    rw [← sum_subset hsub]
    · apply sum_congr rfl
      intro b hb
      have hb' := mem_range.mp hb
      rw [← sum_shift (fun a => h.getD b 0 * block s.conf (sigAt S) ((f + 1) * hop : Nat) a) i b (by omega : i < N + zb + zf)]
      apply sum_congr rfl
      intro a ha'
      have ha2 := mem_range.mp ha'
      by_cases hsup : a < zf + N
      · rw [Nat.mod_eq_of_lt (by omega : a + b < N + zb + zf)]
        by_cases hc : a + b = i
        · rw [if_pos hc, if_pos hc, mul_comm]
        · rw [if_neg hc, if_neg hc]
      · have hz : block s.conf (sigAt S) ((f + 1) * hop : Nat) a = 0 := by
          unfold block
          rw [if_neg (by rw [hzc, hNc]; omega), mul_zero]
        rw [hz]; simp
    · intro b _ hb
      have hb' : h.length ≤ b := by simpa using hb
      apply sum_eq_zero
      intro a _
      rw [List.getD_eq_getElem?_getD, List.getElem?_eq_none hb']; simp
  -- exchange the sums
  have hexch : ola s.conf.nfft hop F (outFrame s.conf (some (rfft (N + zb + zf) (fun n => h.getD n 0))) (sigAt S)) m =
      ∑ b ∈ range h.length, h.getD b 0 * (if b ≤ m then
        ∑ f ∈ range F, (if zf + f * hop ≤ m - b ∧ m - b - f * hop < zf + N then winAt s.conf.aw (m - b - f * hop) *
          sigAt S ((((f + 1) * hop : Nat) : Int) - N + (((m - b - f * hop : Nat) : Int) - zf)) else 0) else 0) := by
    unfold ola
    have : ∀ f ∈ range F, (if f * hop ≤ m ∧ m - f * hop < s.conf.nfft then
          outFrame s.conf (some (rfft (N + zb + zf) (fun n => h.getD n 0))) (sigAt S) f (m - f * hop) else 0) =
        ∑ b ∈ range h.length, h.getD b 0 * (if b ≤ m then
          (if zf + f * hop ≤ m - b ∧ m - b - f * hop < zf + N then winAt s.conf.aw (m - b - f * hop) *
          sigAt S ((((f + 1) * hop : Nat) : Int) - N + (((m - b - f * hop : Nat) : Int) - zf)) else 0) else 0) := by
      intro f _
      by_cases hc : f * hop ≤ m ∧ m - f * hop < s.conf.nfft
      · rw [if_pos hc, hframe f _ hc.2]
        apply sum_congr rfl
        intro b _
        by_cases hb : b ≤ m - f * hop
        · rw [if_pos hb, if_pos (by omega)]
          congr 1
          unfold block
          rw [hzc, hNc, show m - f * hop - b = m - b - f * hop by omega]
          by_cases hz : zf ≤ m - b - f * hop ∧ m - b - f * hop < zf + N
          · rw [if_pos hz, if_pos (by omega)]
          · rw [if_neg hz, if_neg (by omega), mul_zero]
        · rw [if_neg hb]
          by_cases hbm : b ≤ m
          · rw [if_pos hbm, if_neg (by omega), mul_zero]
          · rw [if_neg hbm, mul_zero]
      · rw [if_neg hc]
        symm
        apply sum_eq_zero
        intro b hb
        have hb' := mem_range.mp hb
        by_cases hbm : b ≤ m
        · rw [if_pos hbm, if_neg (by rw [hnf] at hc; omega), mul_zero]
        · rw [if_neg hbm, mul_zero]
    rw [sum_congr rfl this, sum_comm]
    apply sum_congr rfl
    intro b _
    rw [← mul_sum]
    by_cases hbm : b ≤ m
    · simp only [if_pos hbm]
    · simp only [if_neg hbm]; simp
  rw [hexch]
  apply sum_congr rfl
  intro b _
  congr 1
  by_cases hbm : b ≤ m
  · rw [if_pos hbm, ola_weights (N := N) (hop := hop) (zf := zf) (m := m - b) h1 h2 (by omega) (winAt s.conf.aw) S]
    · congr 1; omega
    · intro i hi
      rw [← hcola i hi]
      apply sum_congr rfl
      intro t ht
      simp only [mem_filter, mem_range] at ht
      rw [hconf]
      cases haw : aw with
      | none => rfl
      | some w =>
        simp only [Option.map_some, winAt]
        rw [← List.append_assoc, getD_pad _ _ _ (by rw [ha w haw]; exact ht.1)]
  · rw [if_neg hbm, sigAt_neg S (by omega)]

/-- Non-vacuity of C16: a window of halves with half-overlapping frames. -/
example : ∀ i, i < 2 → ∑ t ∈ (range 4).filter (fun t => t % 2 = i), winAt (some [1/4, 1/2, 3/4, 1/2]) t = 1 := by
  intro i hi
  have h0 : (range 4).filter (fun t => t % 2 = 0) = {0, 2} := by decide
  have h1 : (range 4).filter (fun t => t % 2 = 1) = {1, 3} := by decide
  have : i = 0 ∨ i = 1 := by omega
  rcases this with rfl | rfl
  · rw [h0]; simp [winAt]; norm_num
  · rw [h1]; simp [winAt]; norm_num

/-- **C16** A filter longer than the padding allows is refused, **deviation**: but it is
already stored and will be used. -/
theorem C16_refused_filter_kept (s : St) (h : List ℝ) (hlen : s.conf.nfft < s.conf.N + h.length - 1) :
    (setFilter s h none none).1 = .error .valueError ∧
    (setFilter s h none none).2.H = some (rfft s.conf.nfft (fun n => h.getD n 0)) := by
  unfold setFilter
  simp only
  rw [if_pos hlen]
  exact ⟨rfl, rfl⟩

example : (makeBuffers ⟨4, 2, 0, 0, none, none, true, none⟩ none 0).conf.nfft <
    (makeBuffers ⟨4, 2, 0, 0, none, none, true, none⟩ none 0).conf.N + ([1, 1] : List ℝ).length - 1 := by decide

/-- **Deviation** The check of `set_filter` only counts the total padding. A padding placed in
front (`zf = len(h) - 1`, `zb = 0`) is accepted and the tail of the convolution wraps around:
a delay by one sample with one sample of front padding puts the impulse at time 0 instead
of time 2. -/
theorem C16_front_padding_deviation : ∃ s s' y, filterObject 1 1 none [0, 1] 0 1 = some s ∧
    runPipe s [[1], [0], [0]] = .ok (s', y) ∧ y.getD 0 0 = 1 ∧
    (∑ b ∈ range 2, ([0, 1] : List ℝ).getD b 0 * sigAt [1, 0, 0] ((0 : Int) - b - 1)) = 0 := by
  obtain ⟨s, hs, hconf, hH, hF⟩ : ∃ s, filterObject 1 1 none [0, 1] 0 1 = some s ∧
      s.conf = ⟨1, 1, 1, 0, none, none, true, none⟩ ∧
      s.H = some (rfft 2 (fun n => ([0, 1] : List ℝ).getD n 0)) ∧ Fresh s := by
    unfold filterObject create setFilter
    simp only [zeroPadFront, zeroPadBack, makeBuffers, Conf.nfft]
    refine ⟨_, rfl, rfl, rfl, ⟨fun _ => rfl, fun _ => rfl⟩⟩
  have hok : s.conf.Ok := by
    rw [hconf]
    exact ⟨by norm_num, by norm_num, by decide, by simp, by simp⟩
  obtain ⟨s', y, e, l, v⟩ := pipe_ola s hF hok (by rw [hconf]) [[1], [0], [0]] (by rw [hconf]; simp)
  have hst : stream s.conf.hop [[1], [0], [0]] = [1, 0, 0] := by rw [hconf]; simp [stream, padded]
  rw [hst] at l v
  refine ⟨s, s', y, hs, e, ?_, ?_⟩
  · rw [v 0 (by rw [l]; simp), hH]
    have hnf : s.conf.nfft = 2 := by rw [hconf]; rfl
    have hh : s.conf.hop = 1 := by rw [hconf]
    unfold ola
    rw [hnf, hh]
    rw [sum_eq_single 0]
    · rw [if_pos (by decide)]
      unfold outFrame procFrame
      simp only
      rw [hnf, irfft_mul _ _ (by omega)]
      rw [hconf]
      simp [winAt, block, sigAt, sum_range_succ]
    · intro f _ hf; rw [if_neg (by omega)]
    · intro hn; exact absurd (mem_range.mpr (by simp)) hn
  · rw [sum_range_succ, sum_range_succ, sum_range_zero, sigAt_neg _ (by simp), sigAt_neg _ (by simp)]; ring

/-! ### C60 -/

/-- **C60** Offline analysis: the number of frames, their contents (the samples after the end
are zero), whatever was analysed before; and every sample of the signal is in a frame. -/
theorem C60_offline (s : St) (hok : s.conf.Ok) (hst : s.conf.streaming = false) (hfix : s.conf.fixed = none)
    (x : List ℝ) :
    ∃ s' Xs, analysis s x = .ok (s', Xs) ∧ Fresh s' ∧
      Xs.length = (if x.length ≤ s.conf.N then 1 else 1 + (x.length - s.conf.N + s.conf.hop - 1) / s.conf.hop) ∧
      (∀ k X, Xs[k]? = some X → X = rfft s.conf.nfft (fun i => winAt s.conf.aw i *
        (if s.conf.zf ≤ i ∧ i < s.conf.zf + s.conf.N then sigAt x ((k * s.conf.hop + (i - s.conf.zf) : Nat) : Int) else 0))) ∧
      (∀ j, j < x.length → ∃ k, k < Xs.length ∧ k * s.conf.hop ≤ j ∧ j < k * s.conf.hop + s.conf.N) := by
  have hh := hok.hop_pos
  have hle := hok.hop_le
  have hn2 := hok.nfft_ge
  have hcol : ∀ k, nsFrame s.conf (fun i => x.getD i 0) k = .ok (rfft s.conf.nfft (fun i => winAt s.conf.aw i *
        (if s.conf.zf ≤ i ∧ i < s.conf.zf + s.conf.N then sigAt x ((k * s.conf.hop + (i - s.conf.zf) : Nat) : Int) else 0))) := by
    intro k
    unfold nsFrame dftAnalysis
    rw [if_neg (by omega)]
    obtain ⟨y, hy, hyv⟩ := applyWin_ok hok.aw_len
      (fun i => if s.conf.zf ≤ i ∧ i < s.conf.zf + s.conf.N then x.getD (k * s.conf.hop + (i - s.conf.zf)) 0 else 0)
    rw [hy]
    simp only
    congr 1
    apply rfft_congr
    intro i hi
    rw [hyv i hi]
    congr 1
  have hmap : ∀ n, (List.range n).mapM (nsFrame s.conf (fun i => x.getD i 0)) = .ok ((List.range n).map (fun k =>
      rfft s.conf.nfft (fun i => winAt s.conf.aw i *
        (if s.conf.zf ≤ i ∧ i < s.conf.zf + s.conf.N then sigAt x ((k * s.conf.hop + (i - s.conf.zf) : Nat) : Int) else 0)))) := by
    intro n
    generalize List.range n = l
    induction l with
    | nil => rfl
    | cons a l ih =>
      rw [List.mapM_cons, hcol a, ih]; rfl
  obtain ⟨n, hn, s', hF', hres⟩ : ∃ n, n = (if x.length ≤ s.conf.N then 1 else 1 + (x.length - s.conf.N + s.conf.hop - 1) / s.conf.hop) ∧
      ∃ s', Fresh s' ∧ analysis s x = .ok (s', (List.range n).map (fun k =>
      rfft s.conf.nfft (fun i => winAt s.conf.aw i *
        (if s.conf.zf ≤ i ∧ i < s.conf.zf + s.conf.N then sigAt x ((k * s.conf.hop + (i - s.conf.zf) : Nat) : Int) else 0)))) := by
    refine ⟨_, rfl, ?_⟩
    unfold analysis
    simp only [hst, hfix, Bool.false_eq_true, if_false]
    by_cases hlt : x.length < s.conf.N
    · rw [if_pos hlt, if_pos (by omega), hmap]
      exact ⟨_, ⟨fun _ => rfl, fun _ => rfl⟩, rfl⟩
    · rw [if_neg hlt, if_neg (by omega)]
      have : nsFrames s.conf x.length = if x.length ≤ s.conf.N then 1 else 1 + (x.length - s.conf.N + s.conf.hop - 1) / s.conf.hop := by
        unfold nsFrames ceilDiv
        rw [if_neg hlt]
        by_cases heq : x.length ≤ s.conf.N
        · rw [if_pos heq, show x.length - s.conf.N = 0 by omega, Nat.zero_add,
            Nat.div_eq_of_lt (by omega)]
        · rw [if_neg heq]; omega
      rw [this, hmap]
      exact ⟨_, ⟨fun _ => rfl, fun _ => rfl⟩, rfl⟩
  refine ⟨s', _, hres, hF', by simp [hn], ?_, ?_⟩
  · intro k X hX
    rw [List.getElem?_map, Option.map_eq_some_iff] at hX
    obtain ⟨k', hk', rfl⟩ := hX
    rw [List.getElem?_eq_some_iff] at hk'
    obtain ⟨_, hk'⟩ := hk'
    rw [List.getElem_range] at hk'
    subst hk'; rfl
  · intro j hj
    simp only [List.length_map, List.length_range]
    by_cases hjN : j < s.conf.N
    · refine ⟨0, ?_, by omega, by omega⟩
      rw [hn]; split
      · omega
      · exact Nat.add_pos_left (by omega) _
    · refine ⟨(j - s.conf.N) / s.conf.hop + 1, ?_, ?_, ?_⟩
      · rw [hn, if_neg (by omega)]
        have : (j - s.conf.N) / s.conf.hop + 1 ≤ (x.length - s.conf.N + s.conf.hop - 1) / s.conf.hop := by
          rw [← Nat.add_div_right _ (by omega)]
          exact Nat.div_le_div_right (by omega)
        omega
      · have := Nat.div_mul_le_self (j - s.conf.N) s.conf.hop
        rw [Nat.add_mul]; omega
      · have h1 := Nat.div_add_mod (j - s.conf.N) s.conf.hop
        have h2 := Nat.mod_lt (j - s.conf.N) (by omega : 0 < s.conf.hop)
        rw [Nat.add_mul, Nat.mul_comm _ s.conf.hop]
        omega

/-- **C60** With a fixed number of frames a signal of another length is refused. -/
theorem C60_fixed_refuses (s : St) (hst : s.conf.streaming = false) {n : Nat} (hn : s.conf.fixed = some n)
    (x : List ℝ) (hx : (x.length : Int) ≠ s.conf.hop * ((n : Int) - 1) + s.conf.N) :
    analysis s x = .error .valueError := by
  unfold analysis
  simp [hst, hn, hx]

/-- Non-vacuity of C60. -/
example : ∃ s : St, create 4 2 (some [1, 2, 2, 1]) none false none = .ok s ∧ s.conf.Ok ∧
    s.conf.streaming = false ∧ s.conf.fixed = none := by
  obtain ⟨s, h⟩ := create_ok (N := 4) (hop := 2) (aw := some [1, 2, 2, 1]) (sw := none) (st := false) (fx := none)
    (by omega) (by omega) (by omega) (by simp) (by simp)
  exact ⟨s, h.1, h.2.2.1, h.2.2.2.1, h.2.2.2.2⟩

end Verif.STFT
