import Verif.Doa.LocateModel
import Verif.Doa.Props
import Verif.Peaks.GridProps

/-!
# Properties of the localisation of sources (C47)
-/

namespace Verif.Doa

open Verif.Py (Err)
open Verif.Bands (npRound)

/-! ## Specification -/

/-- Bins of the non-negative frequencies. -/
def ValidBin (nfft : Nat) (b : Int) : Prop := 0 ≤ b ∧ b ≤ (nfft / 2 : Nat)

/-- The data matches the object. -/
def Fits (d : DOA) (a : Call) : Prop := a.shape.1 = d.nMics ∧ a.shape.2.1 = d.nfft / 2 + 1

/-! ## Lemmas -/

theorem setNumSrc_params (d : DOA) (n : Option Int) : (setNumSrc d n).nMics = d.nMics ∧ (setNumSrc d n).fs = d.fs ∧ (setNumSrc d n).nfft = d.nfft := by
  unfold setNumSrc
  cases n with
  | none => exact ⟨rfl, rfl, rfl⟩
  | some n => simp only; split <;> exact ⟨rfl, rfl, rfl⟩

theorem locate_params (d : DOA) (a : Call) (f : List ℝ → Int → List Nat) :
    (locate d a f).1.nMics = d.nMics ∧ (locate d a f).1.fs = d.fs ∧ (locate d a f).1.nfft = d.nfft := by
  unfold locate
  simp only
  split
  · exact setNumSrc_params d _
  · split
    · exact setNumSrc_params d _
    · split
      · exact setNumSrc_params d _
      · unfold search
        simp only
        split <;> exact setNumSrc_params d _

theorem locateAll_params (d : DOA) (l : List Call) (f : List ℝ → Int → List Nat) :
    (locateAll d l f).nMics = d.nMics ∧ (locateAll d l f).fs = d.fs ∧ (locateAll d l f).nfft = d.nfft := by
  unfold locateAll
  induction l generalizing d with
  | nil => exact ⟨rfl, rfl, rfl⟩
  | cons a t ih =>
    obtain ⟨h1, h2, h3⟩ := ih (locate d a f).1
    obtain ⟨g1, g2, g3⟩ := locate_params d a f
    exact ⟨h1.trans g1, h2.trans g2, h3.trans g3⟩

theorem mem_arange (a b x : Int) : x ∈ arange a b ↔ a ≤ x ∧ x < b := by
  unfold arange
  rw [List.mem_map]
  constructor
  · rintro ⟨i, hi, rfl⟩
    have := List.mem_range.mp hi
    omega
  · rintro ⟨h1, h2⟩
    exact ⟨(x - a).toNat, List.mem_range.mpr (by omega), by omega⟩

theorem arange_sorted (a b : Int) : (arange a b).Pairwise (· < ·) := by
  unfold arange
  rw [List.pairwise_map]
  exact List.pairwise_lt_range.imp fun h => by omega

/-! ## Theorems -/

/-- The bins used by a call. -/
theorem locate_bins (d : DOA) (a : Call) (f : List ℝ → Int → List Nat) (hf : Fits d a) {bins : List Int} (hr : requested d a = .ok bins) :
    (locate d a f).1.bins = bins.filter (fun b : Int => 0 ≤ b ∧ b ≤ (d.nfft / 2 : Nat)) := by
  obtain ⟨e1, e2, e3⟩ := setNumSrc_params d a.numSrc
  unfold locate
  simp only
  rw [if_neg (by rw [e1]; simpa using hf.1), if_neg (by unfold DOA.maxBin; rw [e3]; simpa using hf.2)]
  have hr' : requested (setNumSrc d a.numSrc) a = .ok bins := by
    rw [← hr]; unfold requested; rw [e2, e3]
  rw [hr']
  have key : (bins.filter fun b => b < ((setNumSrc d a.numSrc).maxBin : Int)).filter (fun b => b ≥ 0) = bins.filter (fun b : Int => 0 ≤ b ∧ b ≤ (d.nfft / 2 : Nat)) := by
    rw [List.filter_filter]
    apply List.filter_congr
    intro b _
    unfold DOA.maxBin
    rw [e3]
    simp only [decide_eq_decide, Bool.decide_and, ge_iff_le]
    congr 1
    apply decide_eq_decide.mpr
    omega
  unfold search
  simp only
  split <;> exact key

/-- **C47, bins.** With a list of bins a call uses, in the order and number given, those of the list that are valid; with a range of
frequencies it uses, in increasing order, the valid bins from that nearest to the lower frequency to the one before that nearest to the upper
frequency. This is so after every history of calls. -/
theorem C47_bins (d0 : DOA) (h : List Call) (a : Call) (f : List ℝ → Int → List Nat) (hf : Fits d0 a) :
    (∀ l, a.freqBins = some l → (locate (locateAll d0 h f) a f).1.bins = l.filter (fun b : Int => 0 ≤ b ∧ b ≤ (d0.nfft / 2 : Nat))) ∧
      (a.freqBins = none → a.freqHz = none → (locate (locateAll d0 h f) a f).1.bins.Pairwise (· < ·) ∧
        ∀ b, b ∈ (locate (locateAll d0 h f) a f).1.bins ↔ ValidBin d0.nfft b ∧ npRound (a.freqRange.1 / d0.fs * d0.nfft) ≤ b ∧
          b < npRound (a.freqRange.2 / d0.fs * d0.nfft)) := by
  obtain ⟨e1, e2, e3⟩ := locateAll_params d0 h f
  have hf' : Fits (locateAll d0 h f) a := by unfold Fits; rw [e1, e3]; exact hf
  refine ⟨fun l hl => ?_, fun h1 h2 => ?_⟩
  · rw [locate_bins _ a f hf' (bins := l) (by unfold requested; rw [hl]), e3]
  · rw [locate_bins _ a f hf' (by unfold requested; rw [h1, h2]), e2, e3]
    refine ⟨(arange_sorted _ _).filter _, fun b => ?_⟩
    rw [List.mem_filter, mem_arange]
    unfold ValidBin
    simp
    tauto

/-- **C47, number of sources given.** The result of a call with a number of sources of at least one depends on nothing that happened
before. -/
theorem C47_explicit (d0 : DOA) (h : List Call) (a : Call) (f : List ℝ → Int → List Nat) {n : Int} (hn : 1 ≤ n) (ha : a.numSrc = some n) (n0 : Int) :
    (locate (locateAll d0 h f) a f).2 = (locate { d0 with numSrc := n0, bins := [] } a f).2 := by
  obtain ⟨e1, e2, e3⟩ := locateAll_params d0 h f
  have hs : ∀ d : DOA, (setNumSrc d a.numSrc).numSrc = n := by
    intro d
    rw [ha]
    unfold setNumSrc
    simp only
    split
    · unfold checkNumSrc
      simp only
      rw [if_neg (by omega)]
    · rename_i h; exact (not_not.mp h).symm
  have key : ∀ d d' : DOA, d.nMics = d'.nMics → d.fs = d'.fs → d.nfft = d'.nfft → d.numSrc = d'.numSrc → ∀ bins, (search d a bins f).2 = (search d' a bins f).2 := by
    intro d d' h1 h2 h3 h4 bins
    unfold search DOA.maxBin
    simp only
    rw [h3, h4]
    split <;> rfl
  generalize locateAll d0 h f = d at *
  obtain ⟨p1, p2, p3⟩ := setNumSrc_params d a.numSrc
  obtain ⟨q1, q2, q3⟩ := setNumSrc_params { d0 with numSrc := n0, bins := [] } a.numSrc
  have m1 : (setNumSrc d a.numSrc).nMics = (setNumSrc { d0 with numSrc := n0, bins := [] } a.numSrc).nMics := by rw [p1, q1, e1]
  have m2 : (setNumSrc d a.numSrc).fs = (setNumSrc { d0 with numSrc := n0, bins := [] } a.numSrc).fs := by rw [p2, q2, e2]
  have m3 : (setNumSrc d a.numSrc).nfft = (setNumSrc { d0 with numSrc := n0, bins := [] } a.numSrc).nfft := by rw [p3, q3, e3]
  have m4 : (setNumSrc d a.numSrc).numSrc = (setNumSrc { d0 with numSrc := n0, bins := [] } a.numSrc).numSrc := by rw [hs, hs]
  have m5 : requested (setNumSrc d a.numSrc) a = requested (setNumSrc { d0 with numSrc := n0, bins := [] } a.numSrc) a := by
    unfold requested; rw [m2, m3]
  unfold locate DOA.maxBin
  simp only
  rw [m1, m3, m5]
  split
  · rfl
  · split
    · rfl
    · split
      · rfl
      · exact key _ _ m1 m2 m3 m4 _

/-- **C47, number of sources of the constructor.** The object keeps the number of sources through calls without one, as long as none of them finds
fewer peaks. -/
theorem C47_default (d0 : DOA) (h : List Call) (f : List ℝ → Int → List Nat)
    (hh : ∀ a ∈ h, a.numSrc = none ∧ ∀ bins values, a.process bins d0.numSrc = .ok values → ((f values d0.numSrc).length : Int) = d0.numSrc) :
    (locateAll d0 h f).numSrc = d0.numSrc := by
  unfold locateAll
  induction h using List.reverseRecOn with
  | nil => rfl
  | append_singleton t a ih =>
    rw [List.foldl_append]
    simp only [List.foldl_cons, List.foldl_nil]
    have ih := ih fun a ha => hh a (List.mem_append_left _ ha)
    generalize t.foldl (fun d a => (locate d a f).1) d0 = d at *
    obtain ⟨h1, h2⟩ := hh a (by simp)
    unfold locate
    rw [h1, show setNumSrc d none = d from rfl]
    simp only
    split
    · exact ih
    · split
      · exact ih
      · split
        · exact ih
        · unfold search
          simp only
          split
          · exact ih
          · rename_i v hv
            simp only
            rw [ih] at hv ⊢
            exact h2 _ _ hv

/-- **C47, deviation.** A call that finds fewer peaks changes the number of sources of the object: the next call without a number looks for no
more peaks than that. -/
theorem C47_shrink_deviation (d : DOA) (a b : Call) (f : List ℝ → Int → List Nat) (hf : Fits d a) (hb : a.numSrc = none ∧ b.numSrc = none)
    {bins : List Int} (ha : requested d a = .ok bins) {values : List ℝ}
    (hv : a.process (bins.filter fun b : Int => 0 ≤ b ∧ b ≤ (d.nfft / 2 : Nat)) d.numSrc = .ok values)
    (bins' : List Int) (hrb : requested d b = .ok bins') (hfb : Fits d b) {values' : List ℝ}
    (hv' : b.process (bins'.filter fun b : Int => 0 ≤ b ∧ b ≤ (d.nfft / 2 : Nat)) (f values d.numSrc).length = .ok values') :
    (locate (locate d a f).1 b f).2 = .ok (f values' (f values d.numSrc).length) := by
  have step : ∀ (d : DOA) (a : Call) (bins : List Int) (values : List ℝ), Fits d a → a.numSrc = none → requested d a = .ok bins →
      a.process (bins.filter fun b : Int => 0 ≤ b ∧ b ≤ (d.nfft / 2 : Nat)) d.numSrc = .ok values →
      (locate d a f).2 = .ok (f values d.numSrc) ∧ (locate d a f).1.numSrc = (f values d.numSrc).length := by
    intro d a bins values hf hn hr hv
    have key : (bins.filter fun b => b < (d.maxBin : Int)).filter (fun b => b ≥ 0) = bins.filter (fun b : Int => 0 ≤ b ∧ b ≤ (d.nfft / 2 : Nat)) := by
      rw [List.filter_filter]
      apply List.filter_congr
      intro b _
      unfold DOA.maxBin
      simp only [Bool.decide_and, ge_iff_le]
      congr 1
      apply decide_eq_decide.mpr
      omega
    unfold locate
    rw [hn, show setNumSrc d none = d from rfl]
    simp only
    rw [if_neg (by simpa using hf.1), if_neg (by unfold DOA.maxBin; simpa using hf.2), hr]
    unfold search
    simp only
    rw [key, hv]
    exact ⟨rfl, rfl⟩
  obtain ⟨e1, e2, e3⟩ := locate_params d a f
  obtain ⟨_, g⟩ := step d a bins values hf hb.1 ha hv
  have := (step (locate d a f).1 b bins' values' (by unfold Fits; rw [e1, e3]; exact hfb) hb.2 (by
    rw [← hrb]; unfold requested; rw [e2, e3]) (by rw [e3, g]; exact hv')).1
  rw [this, g]

/-- **C47, deviation.** On a circular grid, after a call whose spectrum is constant the next call without a number of sources returns all peaks, however
few sources the object was created for. -/
theorem C47_all_peaks_deviation (d : DOA) {n : Nat} (hn : 0 < n) (hd : d.numSrc = n) (a b : Call) (sort : List (Option ℝ) → List Nat → List Nat)
    {argsort : List ℝ → List Nat} (hs : Peaks.ArgSorts argsort) (hf : Fits d a) (hfb : Fits d b) (hb : a.numSrc = none ∧ b.numSrc = none)
    {bins bins' : List Int} (ha : requested d a = .ok bins) (hrb : requested d b = .ok bins') {values values' : List ℝ} {c : ℝ} (hc : ∀ x ∈ values, x = c)
    (hv : a.process (bins.filter fun b : Int => 0 ≤ b ∧ b ≤ (d.nfft / 2 : Nat)) d.numSrc = .ok values)
    (hv' : b.process (bins'.filter fun b : Int => 0 ≤ b ∧ b ≤ (d.nfft / 2 : Nat)) 0 = .ok values') :
    ∃ l, (locate (locate d a fun v k => Peaks.circlePeaks v k sort argsort).1 b fun v k => Peaks.circlePeaks v k sort argsort).2 = .ok l ∧
      ∀ i, i ∈ l ↔ Peaks.CirclePeak values'.length (fun i => values'.getD i 0) i := by
  have h0 : Peaks.circlePeaks values d.numSrc sort argsort = [] := by rw [hd]; exact Peaks.C43_constant values c hc hn sort hs
  have := C47_shrink_deviation d a b (fun v k => Peaks.circlePeaks v k sort argsort) hf hb ha hv bins' hrb hfb (values' := values') (by
    simp only [h0]; exact hv')
  simp only [h0] at this
  exact ⟨_, this, Peaks.C43_zero_deviation values' sort hs⟩

/-- **C47, deviation.** A list of frequencies (without bins) always raises. -/
theorem C47_freq_hz_deviation (d : DOA) (a : Call) (f : List ℝ → Int → List Nat) (hf : Fits d a) (hb : a.freqBins = none) {l : List ℝ} (hl : a.freqHz = some l) :
    (locate d a f).2 = .error .typeError := by
  obtain ⟨e1, e2, e3⟩ := setNumSrc_params d a.numSrc
  unfold locate
  simp only
  rw [if_neg (by rw [e1]; simpa using hf.1), if_neg (by unfold DOA.maxBin; rw [e3]; simpa using hf.2)]
  unfold requested
  rw [hb, hl]

/-- **C47, deviation.** The mode has no effect on the steering vectors: in the near field they are those of plane waves. -/
theorem C47_near_deviation (mics : List (ℝ × ℝ × Option ℝ)) (fs : ℝ) (nfft : Nat) (c : ℝ) (numSrc : Int) (mode : Mode) (r : Option (List ℝ))
    (grid : List (ℝ × ℝ × ℝ)) {d : DOA} {v : ModeVector} (h : DOA.init mics fs nfft c numSrc mode r grid = .ok (d, v)) {k m g : Nat} (hk : k < nfft / 2 + 1)
    (hm : m < mics.length) (hg : g < grid.length) :
    ∃ x : ℂ, Same (getitem v [.int k, .int m, .int g]) (.ok ⟨[], fun _ => x⟩) ∧
      ∀ s, x * planeWave (2 * Real.pi * (k * fs / nfft)) c (grid.getD g (0, 0, 0)) (0, 0, 0) s =
        planeWave (2 * Real.pi * (k * fs / nfft)) c (grid.getD g (0, 0, 0)) (place (mics.getD m (0, 0, none))) s := by
  unfold DOA.init at h
  split at h
  · simp at h
  · split at h
    · simp at h
    · rename_i v' hv
      simp only [Except.ok.injEq, Prod.mk.injEq] at h
      obtain ⟨_, rfl⟩ := h
      obtain ⟨x, hx, _, hw⟩ := C46_far mics fs nfft c grid false hv hk hm hg
      exact ⟨x, hx, hw⟩

/-- **C47, deviation.** Several candidate distances in the near field are refused. -/
theorem C47_distances_deviation (mics : List (ℝ × ℝ × Option ℝ)) (fs : ℝ) (nfft : Nat) (c : ℝ) (numSrc : Int) (r : List ℝ) (hr : 1 < r.length) (grid : List (ℝ × ℝ × ℝ)) :
    DOA.init mics fs nfft c numSrc .near (some r) grid = .error .valueError := by
  unfold DOA.init checkDistances
  simp only
  rw [if_pos hr]

/-! ## The hypotheses can be met -/

/-- A call that matches an object, asking for a range, and one asking for bins, of which one is not valid. -/
example (process : List Int → Int → Except Err (List ℝ)) :
    Fits ⟨2, 16000, 512, 2, []⟩ ⟨(2, 257, 10), none, (500, 4000), none, none, process⟩ ∧
      Fits ⟨2, 16000, 512, 2, []⟩ ⟨(2, 257, 10), some 3, (500, 4000), some [5, 300, -1], none, process⟩ ∧
      [(5 : Int), 300, -1].filter (fun b : Int => 0 ≤ b ∧ b ≤ (512 / 2 : Nat)) = [5] := by
  refine ⟨⟨rfl, rfl⟩, ⟨rfl, rfl⟩, by decide⟩

/-- A history in which every call finds as many peaks as it looks for. -/
example : ∀ a ∈ [(⟨(2, 257, 10), none, (500, 4000), none, none, fun _ _ => .ok [1, 2]⟩ : Call)],
    a.numSrc = none ∧ ∀ bins values, a.process bins 2 = .ok values → (((fun (_ : List ℝ) (k : Int) => List.range k.toNat) values 2).length : Int) = 2 := by
  intro a ha
  rw [List.mem_singleton.mp ha]
  exact ⟨rfl, fun _ _ _ => by simp⟩

end Verif.Doa
