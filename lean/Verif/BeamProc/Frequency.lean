import Verif.BeamProc.Model
import Verif.STFT.Props
import Verif.Simulate.Props
import Mathlib.Data.List.GetD

/-!
# Processing in the frequency domain
-/

namespace Verif.BeamProc

open Verif.Py Verif.DFT Verif.STFT Finset

variable {M : Nat}

/-- The configuration of the transform objects. -/
def config (L hop zpf zpb : Nat) (aw : Option (List ℝ)) : Conf :=
  ⟨L, hop, zpf, zpb, aw.map (fun w => List.replicate zpf 0 ++ (w ++ List.replicate zpb 0)), none, true, none⟩

theorem engine_ok {L hop zpf zpb : Nat} {aw : Option (List ℝ)} (h : hop ≤ L) :
    ∃ s, engine L hop aw zpb zpf = .ok s ∧ s.conf = config L hop zpf zpb aw ∧ Fresh s := by
  unfold engine create
  rw [if_neg (by omega)]
  simp only
  refine ⟨_, rfl, ?_, ?_⟩
  · rcases Nat.eq_zero_or_pos zpb with rfl | hb
    · rcases Nat.eq_zero_or_pos zpf with rfl | hf
      · cases aw <;> simp [makeBuffers, config]
      · rw [if_pos hf]
        cases aw <;> simp [makeBuffers, config, zeroPadFront]
    · rw [if_pos hb]
      rcases Nat.eq_zero_or_pos zpf with rfl | hf
      · cases aw <;> simp [makeBuffers, config, zeroPadBack]
      · rw [if_pos hf]
        cases aw <;> simp [makeBuffers, config, zeroPadFront, zeroPadBack]
  · split <;> split <;> exact ⟨fun _ => rfl, fun _ => rfl⟩

theorem config_ok {L hop zpf zpb : Nat} {aw : Option (List ℝ)} (h1 : 1 ≤ hop) (h2 : hop ≤ L) (h3 : 2 ≤ L + zpb + zpf) (ha : ∀ w ∈ aw, w.length = L) : (config L hop zpf zpb aw).Ok := by
  refine ⟨h1, h2, h3, ?_, ?_⟩
  · intro v hv
    simp only [config, Option.mem_def, Option.map_eq_some_iff] at hv
    obtain ⟨w, hw, rfl⟩ := hv
    simp [ha w hw, Conf.nfft, config]
    omega
  · intro v hv
    simp [config] at hv

theorem stream_one (hop : Nat) (x : List ℝ) : stream hop [x] = padded hop x := by
  simp [stream]

theorem spectra_ok {b : Bf M} {x : List ℝ} (h1 : 1 ≤ b.hop) (h2 : b.hop ≤ b.L) (h3 : 2 ≤ b.L + b.zpb + b.zpf) :
    spectra b x = .ok ((List.range (ceilDiv x.length b.hop)).map fun k : Nat =>
      rfft (b.L + b.zpb + b.zpf) (block (config b.L b.hop b.zpf b.zpb (some (hann b.L))) (sigAt (padded b.hop x)) ((k + 1) * b.hop : Nat))) := by
  obtain ⟨s, e, hc, hf⟩ := engine_ok (L := b.L) (hop := b.hop) (zpf := b.zpf) (zpb := b.zpb) (aw := some (hann b.L)) h2
  unfold spectra
  rw [e]
  simp only
  have hok := config_ok (zpf := b.zpf) (zpb := b.zpb) (aw := some (hann b.L)) h1 h2 h3 (by simp [hann])
  rw [← hc] at hok
  obtain ⟨s', e', -⟩ := analysis_spec (g := sigAt (padded b.hop x)) (t := 0) hok (by rw [hc]; rfl) (bufInv_fresh hf hok _) x (by rw [hc]; simp [config]) (by
    intro i hi
    rw [hc]
    simp [sigAt, config])
  rw [e', hc]
  simp only [Except.map, config]
  congr 2
  funext k
  simp [Conf.nfft]

theorem hermExt_sum {ι : Type} (s : Finset ι) (N : Nat) (X : ι → Nat → ℂ) (k : Nat) : hermExt N (fun k => ∑ m ∈ s, X m k) k = ∑ m ∈ s, hermExt N (X m) k := by
  unfold hermExt
  split
  · rfl
  · rw [map_sum]

theorem irfft_sum {ι : Type} (s : Finset ι) (N : Nat) (X : ι → Nat → ℂ) (n : Nat) : irfft N (fun k => ∑ m ∈ s, X m k) n = ∑ m ∈ s, irfft N (X m) n := by
  unfold irfft
  rw [← Complex.re_sum]
  congr 1
  unfold idft
  rw [← sum_div, sum_comm]
  congr 1
  refine sum_congr rfl fun k _ => ?_
  rw [hermExt_sum, sum_mul]

theorem ola_sum {ι : Type} (s : Finset ι) (nfft hop frames : Nat) (G : ι → Nat → Nat → ℝ) (i : Nat) :
    ola nfft hop frames (fun f j => ∑ m ∈ s, G m f j) i = ∑ m ∈ s, ola nfft hop frames (G m) i := by
  unfold ola
  rw [sum_comm]
  refine sum_congr rfl fun f _ => ?_
  split
  · rfl
  · simp

theorem getD_finRange {α : Type} (g : Fin M → List α) (m : Fin M) : ((List.finRange M).map g).getD m [] = g m := by
  rw [List.getD_eq_getElem _ _ (by simp)]
  simp

/-- What the processing in the frequency domain gives: for each channel the overlap-added frames filtered by the conjugate weights, summed over the channels, without the padding. -/
theorem frequencyDomain_ola {b : Bf M} {w : Fin M → Nat → ℂ} {x : Fin M → List ℝ} {n : Nat} (hM : 2 ≤ M) (hx : ∀ m, (x m).length = n) (h1 : 1 ≤ b.hop) (h2 : b.hop ≤ b.L) (h3 : 2 ≤ b.L + b.zpb + b.zpf)
    (hn : b.hop < n) :
    ∃ y, frequencyDomain b w x = .ok y ∧ y.length = ceilDiv n b.hop * b.hop - b.zpf - b.zpb ∧
      ∀ i, i < y.length → y.getD i 0 = ∑ m, ola (b.L + b.zpb + b.zpf) b.hop (ceilDiv n b.hop)
        (outFrame (config b.L b.hop b.zpf b.zpb (some (hann b.L))) (some fun k => star (w m k)) (sigAt (padded b.hop (x m)))) (b.zpf + i) := by
  have hF : 2 ≤ ceilDiv n b.hop := by
    unfold ceilDiv
    rw [Nat.le_div_iff_mul_le (by omega)]
    omega
  unfold frequencyDomain
  rw [dif_pos (by omega), if_neg (by omega), Simulate.mapM_ok (fun m _ => spectra_ok h1 h2 h3)]
  simp only [hx]
  rw [if_neg (by omega)]
  obtain ⟨s, e, hc, hf⟩ := engine_ok (L := b.L) (hop := b.hop) (zpf := b.zpf) (zpb := b.zpb) (aw := none) h2
  rw [e]
  simp only
  rw [if_neg (by omega)]
  have hok := config_ok (zpf := b.zpf) (zpb := b.zpb) (aw := none) h1 h2 h3 (by simp)
  rw [← hc] at hok
  have hnf : s.conf.nfft = b.L + b.zpb + b.zpf := by
    rw [hc]
    rfl
  have hhop : s.conf.hop = b.hop := by
    rw [hc]
    rfl
  have hsw : s.conf.sw = none := by
    rw [hc]
    rfl
  set Y := combine (fun m => ((List.finRange M).map fun m => (List.range (ceilDiv n b.hop)).map fun k : Nat =>
      rfft (b.L + b.zpb + b.zpf) (block (config b.L b.hop b.zpf b.zpb (some (hann b.L))) (sigAt (padded b.hop (x m))) ((k + 1) * b.hop : Nat))).getD (m : Fin M) []) w (ceilDiv n b.hop) with hY
  have hYl : Y.length = ceilDiv n b.hop := by simp [hY, combine]
  have hYk : ∀ f X, Y[f]? = some X → X = fun k => ∑ m, rfft (b.L + b.zpb + b.zpf) (block (config b.L b.hop b.zpf b.zpb (some (hann b.L))) (sigAt (padded b.hop (x m))) ((f + 1) * b.hop : Nat)) k * star (w m k) := by
    intro f X hX
    rw [hY, combine, List.getElem?_map, Option.map_eq_some_iff] at hX
    obtain ⟨k', hk', rfl⟩ := hX
    rw [List.getElem?_eq_some_iff] at hk'
    obtain ⟨hl, hk'⟩ := hk'
    rw [List.getElem_range] at hk'
    subst hk'
    rw [List.length_range] at hl
    funext k
    refine sum_congr rfl fun m _ => ?_
    congr 1
    rw [getD_finRange, List.getD_eq_getElem _ _ (by simpa using hl), List.getElem_map, List.getElem_range]
  let G : Nat → Nat → ℝ := fun f i => ∑ m, outFrame (config b.L b.hop b.zpf b.zpb (some (hann b.L))) (some fun k => star (w m k)) (sigAt (padded b.hop (x m))) f i
  obtain ⟨s2, y, e2, -, -, -, -, l2, v2⟩ := synthLoop_spec Y (s := { s with X := Y, numFrames := ceilDiv n b.hop }) (G := G) (F := 0) hok (by
      intro i _
      simp [hf.2 i]) (by
    intro k X hX i _
    simp only [Nat.zero_add]
    rw [hYk k X hX, hsw, hnf, irfft_sum]
    simp only [winAt, one_mul]
    refine sum_congr rfl fun m _ => ?_
    unfold outFrame procFrame
    simp only [config, winAt, one_mul, Conf.nfft])
  have e3 : synthesis { s with X := Y, numFrames := ceilDiv n b.hop } = .ok (s2, y) := e2
  rw [e3]
  simp only
  simp only [hhop, hYl] at l2 v2
  refine ⟨_, rfl, ?_, ?_⟩
  · split
    · rename_i h0
      rw [List.length_drop, l2, h0]
      omega
    · rw [List.length_drop, List.length_take, l2]
      omega
  · intro i hi
    have hi' : b.zpf + i < ceilDiv n b.hop * b.hop := by
      split at hi
      · rw [List.length_drop, l2] at hi
        omega
      · rw [List.length_drop, List.length_take, l2] at hi
        omega
    have hv : (if b.zpb = 0 then y.drop b.zpf else (y.take (y.length - b.zpb)).drop b.zpf).getD i 0 = y.getD (b.zpf + i) 0 := by
      split
      · rw [List.getD_eq_getElem?_getD, List.getElem?_drop, List.getD_eq_getElem?_getD]
      · rename_i h0
        rw [if_neg h0, List.length_drop, List.length_take] at hi
        rw [List.getD_eq_getElem?_getD, List.getElem?_drop, List.getD_eq_getElem?_getD, List.getElem?_take, if_pos (by omega)]
    rw [hv]
    have hq : (b.zpf + i) / b.hop < ceilDiv n b.hop := divmod_lt hi'
    have hr : (b.zpf + i) % b.hop < b.hop := Nat.mod_lt _ h1
    have hdm : (b.zpf + i) / b.hop * b.hop + (b.zpf + i) % b.hop = b.zpf + i := by
      rw [Nat.mul_comm]
      exact Nat.div_add_mod _ _
    have h := v2 ((b.zpf + i) / b.hop) ((b.zpf + i) % b.hop) hq hr
    rw [hdm] at h
    rw [h, Nat.zero_add, ola_eq _ _ _ _ hq hr, hdm, ← ola_sum]
    have : ({ s with X := Y, numFrames := ceilDiv n b.hop } : St).conf.nfft = b.L + b.zpb + b.zpf := hnf
    rw [this]

end Verif.BeamProc
