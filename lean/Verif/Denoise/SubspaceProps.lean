import Verif.Denoise.SubspaceModel
import Mathlib.Data.List.GetD
import Mathlib.Algebra.BigOperators.Group.List.Basic
import Mathlib.Algebra.Order.BigOperators.Group.List
import Mathlib.Tactic.Linarith
import Mathlib.Tactic.FieldSimp
import Mathlib.Tactic.Module
import Mathlib.Tactic.Abel
import Mathlib.Tactic.Ring
import Mathlib.Tactic.Positivity

/-!
# Properties of the covariance estimates (C50)
-/

namespace Verif.Denoise

open Verif.Py (Err)

/-! ## Specification -/

/-- The signal at any time; silence before it begins. -/
def at_ (x : Nat → ℝ) (t : Int) : ℝ := if t < 0 then 0 else x t.toNat

/-- The frame that begins at time `t`. -/
def frame (x : Nat → ℝ) (len : Nat) (t : Int) : List ℝ := (List.range len).map fun i : Nat => at_ x (t + i)

/-- The frames that are looked at with block `b` (blocks are counted from one): every `skip`-th of the frames that end in the block before. -/
def blockFrames (x : Nat → ℝ) (hop skip : Nat) (b : Int) : List (List ℝ) :=
  (steps hop skip).map fun i : Nat => frame x (2 * hop) ((b - 3) * hop + i)

open Classical in
/-- Contributions of a block to the noise estimate: the frames with small variance, or the estimate before, or, before the signal begins, silence. -/
noncomputable def noiseParts (x : Nat → ℝ) (hop skip : Nat) (thresh : ℝ) (before : Int → Mat) (b : Int) : List Mat :=
  if b ≤ 0 then List.replicate (hop / skip) 0
  else
    let quiet := (blockFrames x hop skip b).filter fun f => variance f < thresh
    if quiet = [] then [before (b - 1)] else quiet.map outer

/-- The last `lookback` blocks up to block `n`, oldest first. -/
def window {α : Type} (f : Int → α) (lookback : Nat) (n : Int) : List α := (List.range lookback).map fun p : Nat => f (n - lookback + 1 + p)

/-! ## Lists -/

theorem roll_window {α : Type} (f : Int → α) {lookback : Nat} (h : 0 < lookback) (n : Int) :
    setEnd (roll 1 (window f lookback n)) (f (n + 1)) = window f lookback (n + 1) := by
  apply List.ext_getElem
  · simp [setEnd, roll, window]; omega
  · intro i h1 h2
    have hi : i < lookback := by simpa [window] using h2
    have hl : (roll 1 (window f lookback n)).length = lookback := by simp [roll, window]; omega
    simp only [setEnd, List.getElem_set, hl]
    split
    · rename_i e
      simp only [window, List.getElem_map, List.getElem_range]
      congr 1; omega
    · rename_i e
      simp only [roll]
      rw [List.getElem_append_left (by simp [window]; omega), List.getElem_drop]
      simp only [window, List.getElem_map, List.getElem_range]
      congr 1; push_cast; omega

theorem window_cons {α : Type} (f : Int → α) (lookback : Nat) (n : Int) :
    window f (lookback + 1) n = f (n - lookback) :: (List.range lookback).map fun p : Nat => f (n - lookback + 1 + p) := by
  unfold window
  rw [List.range_succ_eq_map, List.map_cons, List.map_map]
  congr 1
  · congr 1; push_cast; omega
  · apply List.map_congr_left
    intro p _
    simp only [Function.comp]
    congr 1; push_cast; omega

theorem window_snoc {α : Type} (f : Int → α) (lookback : Nat) (n : Int) :
    window f (lookback + 1) (n + 1) = ((List.range lookback).map fun p : Nat => f (n - lookback + 1 + p)) ++ [f (n + 1)] := by
  unfold window
  rw [List.range_succ, List.map_append]
  congr 1
  · apply List.map_congr_left
    intro p _
    congr 1; push_cast; omega
  · simp only [List.map_cons, List.map_nil, List.cons.injEq, and_true]
    congr 1; push_cast; omega

theorem window_sum {M : Type} [AddCommGroup M] (f : Int → M) {lookback : Nat} (h : 0 < lookback) (n : Int) :
    (window f lookback n).sum - f (n - lookback + 1) + f (n + 1) = (window f lookback (n + 1)).sum := by
  obtain ⟨l, rfl⟩ : ∃ l, lookback = l + 1 := ⟨lookback - 1, by omega⟩
  rw [window_cons, window_snoc]
  simp only [List.sum_cons, List.sum_append, List.sum_nil, add_zero]
  rw [show n - ((l + 1 : Nat) : Int) + 1 = n - l by push_cast; omega]
  abel

theorem mem_steps {hop skip i : Nat} (hs : 0 < skip) : i ∈ steps hop skip → i < hop := by
  unfold steps
  simp only [List.mem_map, List.mem_range]
  rintro ⟨j, hj, rfl⟩
  have := (Nat.lt_div_iff_mul_lt hs).mp hj
  omega

/-- The loop collects the sums over all frames and over the frames with small variance. -/
theorem collect_fold (thresh : ℝ) (l : List (List ℝ)) (acc : Mat × Mat × ℝ) :
    (open Classical in l.foldl (fun acc f => if variance f < thresh then (acc.1 + outer f, acc.2.1 + outer f, acc.2.2 + 1) else (acc.1 + outer f, acc.2.1, acc.2.2)) acc) =
      (open Classical in (acc.1 + (l.map outer).sum, acc.2.1 + ((l.filter fun f => variance f < thresh).map outer).sum,
        acc.2.2 + ((l.filter fun f => variance f < thresh).length : ℝ))) := by
  classical
  induction l generalizing acc with
  | nil => simp
  | cons f t ih =>
    rw [List.foldl_cons, ih, List.map_cons, List.sum_cons, List.filter_cons]
    by_cases h : variance f < thresh
    · rw [if_pos h, if_pos (by simpa using h), List.map_cons, List.sum_cons, List.length_cons]
      simp only [Prod.mk.injEq]
      refine ⟨by rw [add_assoc], by rw [add_assoc], ?_⟩
      push_cast; ring
    · rw [if_neg h, if_neg (by simpa using h)]
      simp only [Prod.mk.injEq]
      exact ⟨by rw [add_assoc], trivial⟩

/-! ## States -/

/-- What holds after block `n`, given the noise estimates after each block before. -/
structure Tracks (x : Nat → ℝ) (H lookback S : Nat) (T : ℝ) (before : Int → Mat) (n : Nat) (s : Subspace) : Prop where
  frameLen : s.frameLen = 2 * H
  hop : s.hop = H
  skip : s.skip = S
  thresh : s.thresh = T
  nSamples : s.nSamples = H * lookback + 2 * H
  nFrames : s.nFrames = lookback * (H / S)
  input : s.input = frame x (H * lookback + 2 * H) (n * H - (H * lookback + 2 * H : Nat))
  snParts : s.covSnParts = window (fun b => ((blockFrames x H S b).map outer).sum) lookback n
  nParts : s.covNParts = window (fun b => (noiseParts x H S T before b).sum) lookback n
  count : s.nNoise = window (fun b => ((noiseParts x H S T before b).length : ℝ)) lookback n
  sn : (s.nFrames : ℝ) • s.covSn = s.covSnParts.sum
  noise : s.nNoise.sum • s.covN = s.covNParts.sum
  covN : s.covN = before n

theorem frame_getD (x : Nat → ℝ) (len : Nat) (t : Int) {i : Nat} (h : i < len) : (frame x len t).getD i 0 = at_ x (t + i) := by
  unfold frame
  rw [List.getD_eq_getElem _ _ (by simpa using h)]
  simp

/-- Shifting the input samples. -/
theorem shift_input (x : Nat → ℝ) (len hop n : Nat) (h : hop ≤ len) :
    (roll hop (frame x len (n * hop - len))).take ((frame x len (n * hop - len)).length - hop) ++ (List.range hop).map (fun i => x (n * hop + i)) =
      frame x len ((n + 1 : Nat) * hop - len) := by
  have hl : (frame x len (n * hop - len)).length = len := by simp [frame]
  unfold roll
  rw [hl, List.take_left' (by rw [List.length_drop, hl])]
  apply List.ext_getElem
  · simp [frame]; omega
  · intro i h1 h2
    have hi : i < len := by simpa [frame] using h2
    by_cases hc : i < len - hop
    · rw [List.getElem_append_left (by rw [List.length_drop, hl]; exact hc), List.getElem_drop]
      simp only [frame, List.getElem_map, List.getElem_range]
      congr 1; push_cast; ring
    · rw [List.getElem_append_right (by rw [List.length_drop, hl]; omega)]
      simp only [frame, List.getElem_map, List.getElem_range, List.length_drop, List.length_map, List.length_range]
      unfold at_
      have e : ((n + 1 : Nat) : Int) * hop - len + i = ((n * hop + (i - (len - hop)) : Nat) : Int) := by
        push_cast [Nat.cast_sub (show len - hop ≤ i by omega), Nat.cast_sub h]; ring
      rw [e, if_neg (by omega), Int.toNat_natCast]

/-- The frames taken out of the input samples. -/
theorem slice_frame (x : Nat → ℝ) (hop lookback i : Nat) (hl : 0 < lookback) (hi : i < hop) (n : Nat) :
    ((frame x (hop * lookback + 2 * hop) (n * hop - (hop * lookback + 2 * hop : Nat))).drop (hop * lookback + 2 * hop - hop - 2 * hop + i)).take (2 * hop) =
      frame x (2 * hop) (((n : Int) - 3) * hop + i) := by
  obtain ⟨l, rfl⟩ : ∃ l, lookback = l + 1 := ⟨lookback - 1, by omega⟩
  have ha : hop * (l + 1) + 2 * hop - hop - 2 * hop = hop * l := by rw [Nat.mul_add]; omega
  rw [ha]
  apply List.ext_getElem
  · simp [frame, Nat.mul_add]; omega
  · intro j h1 h2
    rw [List.getElem_take, List.getElem_drop]
    simp only [frame, List.getElem_map, List.getElem_range]
    congr 1; push_cast; ring

theorem collect_eq {x : Nat → ℝ} {hop lookback skip : Nat} {thresh : ℝ} {s : Subspace} (hskip : 0 < skip) (hl : 0 < lookback) (h1 : s.frameLen = 2 * hop)
    (h2 : s.hop = hop) (h3 : s.skip = skip) (h4 : s.thresh = thresh) (h5 : s.nSamples = hop * lookback + 2 * hop) (n : Nat) :
    s.collect (frame x (hop * lookback + 2 * hop) (n * hop - (hop * lookback + 2 * hop : Nat))) =
      (open Classical in (((blockFrames x hop skip n).map outer).sum, (((blockFrames x hop skip n).filter fun f => variance f < thresh).map outer).sum,
        (((blockFrames x hop skip n).filter fun f => variance f < thresh).length : ℝ))) := by
  classical
  have e := collect_fold thresh (blockFrames x hop skip n) (0, 0, 0)
  simp only [zero_add] at e
  rw [← e]
  unfold Subspace.collect blockFrames
  rw [h1, h2, h3, h4, h5, List.foldl_map]
  apply List.foldl_ext
  intro acc i hi
  simp only
  rw [slice_frame x hop lookback i hl (mem_steps hskip hi) n]

/-- Before the signal begins all frames are silent. -/
theorem blockFrames_silent (x : Nat → ℝ) {hop skip : Nat} (hs : 0 < skip) {b : Int} (hb : b ≤ 0) : ((blockFrames x hop skip b).map outer).sum = 0 := by
  apply List.sum_eq_zero
  intro M hM
  simp only [blockFrames, List.mem_map] at hM
  obtain ⟨f, ⟨i, hi, rfl⟩, rfl⟩ := hM
  have hi' := mem_steps hs hi
  funext j k
  have h0 : ∀ j, (frame x (2 * hop) ((b - 3) * hop + i)).getD j 0 = 0 := by
    intro j
    by_cases hj : j < 2 * hop
    · rw [frame_getD _ _ _ hj]
      unfold at_
      rw [if_pos]
      have : b * hop ≤ 0 := mul_nonpos_of_nonpos_of_nonneg hb (by positivity)
      rw [sub_mul]
      push_cast at *
      omega
    · exact List.getD_eq_default _ _ (by simp [frame]; omega)
  simp only [outer, h0, mul_zero]
  rfl

theorem noise_count_pos {x : Nat → ℝ} {hop skip : Nat} {thresh : ℝ} (before : Int → Mat) (h : 0 < hop / skip) (b : Int) :
    0 < (noiseParts x hop skip thresh before b).length := by
  unfold noiseParts
  split
  · simpa using h
  · simp only
    split
    · simp
    · rename_i hq
      rw [List.length_map]
      exact List.length_pos_iff.mpr hq

theorem window_pos {f : Int → ℝ} (h : ∀ b, 0 < f b) {lookback : Nat} (hl : 0 < lookback) (n : Int) : 0 < (window f lookback n).sum := by
  apply List.sum_pos
  · intro v hv
    simp only [window, List.mem_map] at hv
    obtain ⟨p, _, rfl⟩ := hv
    exact h _
  · intro e
    have := congrArg List.length e
    simp [window] at this
    omega

/-- One block. -/
theorem update_ok {x : Nat → ℝ} {hop lookback skip : Nat} {thresh : ℝ} {before : Int → Mat} {n : Nat} {s : Subspace} (hskip : 0 < skip) (hl : 0 < lookback)
    (hk : skip ≤ hop) (hs : Tracks x hop lookback skip thresh before n s) :
    ∃ t, s.update ((List.range s.hop).map fun i => x (n * s.hop + i)) = .ok t ∧
      (t.covN = before (n + 1 : Nat) → Tracks x hop lookback skip thresh before (n + 1) t) ∧
      t.covN = (1 / (window (fun b => ((noiseParts x hop skip thresh before b).length : ℝ)) lookback (n + 1)).sum) •
        (window (fun b => (noiseParts x hop skip thresh before b).sum) lookback (n + 1)).sum := by
  classical
  obtain ⟨l, rfl⟩ : ∃ l, lookback = l + 1 := ⟨lookback - 1, by omega⟩
  have hpos : 0 < hop / skip := Nat.div_pos hk hskip
  have e1 : s.covSnParts = ((blockFrames x hop skip ((n : Int) - l)).map outer).sum :: (List.range l).map fun p : Nat => ((blockFrames x hop skip ((n : Int) - l + 1 + p)).map outer).sum := by
    rw [hs.snParts, window_cons]
  have e2 : s.covNParts = (noiseParts x hop skip thresh before ((n : Int) - l)).sum :: (List.range l).map fun p : Nat => (noiseParts x hop skip thresh before ((n : Int) - l + 1 + p)).sum := by
    rw [hs.nParts, window_cons]
  have hin : (roll s.hop s.input).take (s.input.length - s.hop) ++ (List.range s.hop).map (fun i => x (n * s.hop + i)) =
      frame x (hop * (l + 1) + 2 * hop) ((n + 1 : Nat) * hop - (hop * (l + 1) + 2 * hop : Nat)) := by
    rw [hs.input, hs.hop]
    exact shift_input x _ hop n (by omega)
  have hc := collect_eq (x := x) hskip hl hs.frameLen hs.hop hs.skip hs.thresh hs.nSamples (n + 1)
  have hf : fallback s.covN (s.collect (frame x (hop * (l + 1) + 2 * hop) ((n + 1 : Nat) * hop - (hop * (l + 1) + 2 * hop : Nat)))) =
      ((noiseParts x hop skip thresh before ((n : Int) + 1)).sum, ((noiseParts x hop skip thresh before ((n : Int) + 1)).length : ℝ)) := by
    rw [hc]
    unfold fallback noiseParts
    rw [if_neg (show ¬ ((n : Int) + 1 ≤ 0) by omega)]
    simp only
    rw [show ((n + 1 : Nat) : Int) = (n : Int) + 1 by push_cast; rfl]
    by_cases hq : (blockFrames x hop skip ((n : Int) + 1)).filter (fun f => variance f < thresh) = []
    · rw [hq]
      simp [hs.covN]
    · rw [if_neg hq, if_neg]
      · simp
      · rw [Nat.cast_eq_zero, List.length_eq_zero_iff]; exact hq
  have w1 := roll_window (fun b => ((blockFrames x hop skip b).map outer).sum) hl (n : Int)
  have w2 := roll_window (fun b => (noiseParts x hop skip thresh before b).sum) hl (n : Int)
  have w3 := roll_window (fun b => ((noiseParts x hop skip thresh before b).length : ℝ)) hl (n : Int)
  have s1 := window_sum (fun b => ((blockFrames x hop skip b).map outer).sum) hl (n : Int)
  have s2 := window_sum (fun b => (noiseParts x hop skip thresh before b).sum) hl (n : Int)
  rw [show (n : Int) - ((l + 1 : Nat) : Int) + 1 = (n : Int) - l by push_cast; omega] at s1 s2
  have hcount : 0 < (window (fun b => ((noiseParts x hop skip thresh before b).length : ℝ)) (l + 1) ((n : Int) + 1)).sum :=
    window_pos (fun b => by exact_mod_cast noise_count_pos before hpos b) hl _
  have hF : (s.nFrames : ℝ) ≠ 0 := by
    rw [hs.nFrames]
    exact_mod_cast Nat.pos_iff_ne_zero.mp (Nat.mul_pos hl hpos)
  have hcovN : ((1 / (window (fun b => ((noiseParts x hop skip thresh before b).length : ℝ)) (l + 1) ((n : Int) + 1)).sum) •
      (s.nNoise.sum • s.covN - (noiseParts x hop skip thresh before ((n : Int) - l)).sum + (noiseParts x hop skip thresh before ((n : Int) + 1)).sum)) =
      (1 / (window (fun b => ((noiseParts x hop skip thresh before b).length : ℝ)) (l + 1) ((n : Int) + 1)).sum) •
        (window (fun b => (noiseParts x hop skip thresh before b).sum) (l + 1) ((n : Int) + 1)).sum := by
    rw [hs.noise, hs.nParts, s2]
  unfold Subspace.update
  rw [e1, e2]
  simp only
  rw [hin, hf, ← e1, ← e2, hc, hs.count]
  simp only
  rw [show (((n + 1 : Nat)) : Int) = (n : Int) + 1 by push_cast; rfl, w3]
  refine ⟨_, rfl, fun hb => ⟨hs.frameLen, hs.hop, hs.skip, hs.thresh, hs.nSamples, hs.nFrames, ?_, ?_, ?_, ?_, ?_, ?_, ?_⟩, ?_⟩
  · rfl
  · show setEnd (roll 1 s.covSnParts) _ = _
    rw [hs.snParts]; exact w1
  · show setEnd (roll 1 s.covNParts) _ = _
    rw [hs.nParts]; exact w2
  · rfl
  · show (s.nFrames : ℝ) • ((1 / (s.nFrames : ℝ)) • _) = (setEnd (roll 1 s.covSnParts) _).sum
    rw [smul_smul, mul_one_div_cancel hF, one_smul, hs.sn, hs.snParts, w1, ← s1]
  · show (window (fun b => ((noiseParts x hop skip thresh before b).length : ℝ)) (l + 1) ((n : Int) + 1)).sum • ((1 / (window (fun b => ((noiseParts x hop skip thresh before b).length : ℝ)) (l + 1) ((n : Int) + 1)).sum) • _) = (setEnd (roll 1 s.covNParts) _).sum
    rw [smul_smul, mul_one_div_cancel hcount.ne', one_smul, hs.nParts, w2, ← s2, ← hs.count, hs.noise, hs.nParts]
  · exact hb
  · rw [hs.count] at hcovN
    exact hcovN

/-! ## Theorems -/

/-- The noise estimate after `n` blocks. -/
noncomputable def estimate (x : Nat → ℝ) (hop lookback skip : Nat) (thresh : ℝ) (n : Int) : Mat :=
  match (Subspace.init (2 * hop) lookback skip thresh).bind fun s => s.feed x n.toNat with
  | .ok s => s.covN
  | .error _ => 0

theorem feed_hop {s t : Subspace} {x : Nat → ℝ} {n : Nat} (h : s.feed x n = .ok t) : t.hop = s.hop := by
  induction n generalizing t with
  | zero => cases h; rfl
  | succ n ih =>
    simp only [Subspace.feed] at h
    cases hf : s.feed x n with
    | error e => rw [hf] at h; cases h
    | ok u =>
      rw [hf] at h
      rw [← ih hf]
      change u.update _ = .ok t at h
      unfold Subspace.update at h
      split at h
      · cases h; rfl
      · cases h

/-- The object follows the signal. -/
theorem feed_ok (x : Nat → ℝ) {hop lookback skip : Nat} (thresh : ℝ) (hskip : 0 < skip) (hl : 0 < lookback) (hk : skip ≤ hop) (n : Nat) :
    ∃ s, ((Subspace.init (2 * hop) lookback skip thresh).bind fun s => s.feed x n) = .ok s ∧
      Tracks x hop lookback skip thresh (estimate x hop lookback skip thresh) n s := by
  have hinit : Subspace.init (2 * hop) lookback skip thresh = .ok ⟨2 * hop, hop, lookback, skip, thresh, hop * lookback + 2 * hop, List.replicate (hop * lookback + 2 * hop) 0, lookback * (hop / skip),
      List.replicate lookback ((hop / skip : Nat) : ℝ), 0, List.replicate lookback 0, 0, List.replicate lookback 0⟩ := by
    unfold Subspace.init
    rw [if_neg (by omega), if_neg (by omega)]
    simp only [Nat.mul_div_cancel_left hop (show 0 < 2 by norm_num)]
  have wr : ∀ {α : Type} (f : Int → α) (v : α), (∀ b ≤ 0, f b = v) → List.replicate lookback v = window f lookback ((0 : Nat) : Int) := by
    intro α f v hf
    apply List.ext_getElem
    · simp [window]
    · intro i h1 h2
      have : i < lookback := by simpa using h1
      rw [List.getElem_replicate]
      simp only [window, List.getElem_map, List.getElem_range]
      rw [hf _ (by push_cast; omega)]
  induction n with
  | zero =>
    refine ⟨_, by rw [hinit]; rfl, ⟨rfl, rfl, rfl, rfl, rfl, rfl, ?_, ?_, ?_, ?_, ?_, ?_, ?_⟩⟩
    · apply List.ext_getElem
      · simp [frame]
      · intro i h1 h2
        have hi : i < hop * lookback + 2 * hop := by simpa using h1
        simp only [List.getElem_replicate, frame, List.getElem_map, List.getElem_range, at_]
        rw [if_pos]
        push_cast at *
        omega
    · exact wr _ _ fun b hb => blockFrames_silent x hskip hb
    · refine wr _ _ fun b hb => ?_
      unfold noiseParts
      rw [if_pos hb]; simp
    · refine wr _ _ fun b hb => ?_
      unfold noiseParts
      rw [if_pos hb]; simp
    · simp
    · simp
    · unfold estimate
      rw [hinit]
      rfl
  | succ n ih =>
    obtain ⟨s, e, hs⟩ := ih
    obtain ⟨t, e', ht, _⟩ := update_ok hskip hl hk hs
    have hrun : ((Subspace.init (2 * hop) lookback skip thresh).bind fun s => s.feed x (n + 1)) = .ok t := by
      rw [hinit] at e ⊢
      simp only [Except.bind, Subspace.feed] at e ⊢
      rw [e]
      simp only
      rw [hs.hop] at e'
      exact e'
    refine ⟨t, hrun, ht ?_⟩
    unfold estimate
    rw [Int.toNat_natCast, hrun]

/-- **C50, signal.** For every signal and however many blocks have been processed, the covariance is the sum over the frames of the last `lookback` blocks,
divided by `lookback * (hop // skip)`. -/
theorem C50_signal (x : Nat → ℝ) {hop lookback skip : Nat} (thresh : ℝ) (hskip : 0 < skip) (hl : 0 < lookback) (hk : skip ≤ hop) (n : Nat) :
    ∃ s, ((Subspace.init (2 * hop) lookback skip thresh).bind fun s => s.feed x n) = .ok s ∧
      s.covSn = (1 / ((lookback * (hop / skip) : Nat) : ℝ)) •
        ((List.range lookback).map fun p : Nat => ((blockFrames x hop skip ((n : Int) - lookback + 1 + p)).map outer).sum).sum := by
  obtain ⟨s, e, hs⟩ := feed_ok x thresh hskip hl hk n
  refine ⟨s, e, ?_⟩
  have h := hs.sn
  have hF : ((lookback * (hop / skip) : Nat) : ℝ) ≠ 0 := by
    exact_mod_cast Nat.pos_iff_ne_zero.mp (Nat.mul_pos hl (Nat.div_pos hk hskip))
  rw [hs.nFrames, hs.snParts] at h
  unfold window at h
  rw [← h, smul_smul, one_div_mul_cancel hF, one_smul]

theorem sum_regroup {M : Type} [AddCommMonoid M] (g : Nat → M) (l q : Nat) :
    ((List.range l).map fun p => ((List.range q).map fun i => g (p * q + i)).sum).sum = ((List.range (l * q)).map g).sum := by
  induction l with
  | zero => simp
  | succ l ih =>
    rw [List.range_succ, List.map_append, List.sum_append, ih, Nat.succ_mul, List.range_add, List.map_append, List.sum_append]
    congr 1
    simp [Function.comp_def]

/-- **C50, average.** If `skip` divides the hop this is the average over the `lookback * hop / skip` most recent frames that begin `skip` samples apart, the last
one ending a step before the end of the signal so far. -/
theorem C50_average (x : Nat → ℝ) {hop lookback skip : Nat} (thresh : ℝ) (hskip : 0 < skip) (hl : 0 < lookback) (hd : skip ∣ hop) (hh : 0 < hop) (n : Nat) :
    ∃ s, ((Subspace.init (2 * hop) lookback skip thresh).bind fun s => s.feed x n) = .ok s ∧
      s.covSn = (1 / ((lookback * (hop / skip) : Nat) : ℝ)) •
        ((List.range (lookback * (hop / skip))).map fun j : Nat => outer (frame x (2 * hop) ((n : Int) * hop - (lookback + 2) * hop + skip * j))).sum := by
  obtain ⟨s, e, hs⟩ := C50_signal x thresh hskip hl (Nat.le_of_dvd hh hd) n
  refine ⟨s, e, ?_⟩
  rw [hs, ← sum_regroup]
  congr 2
  apply List.map_congr_left
  intro p _
  obtain ⟨q, rfl⟩ := hd
  have hq : (skip * q + skip - 1) / skip = q := by
    rw [show skip * q + skip - 1 = (skip - 1) + skip * q by omega, Nat.add_mul_div_left _ _ hskip, Nat.div_eq_of_lt (by omega), zero_add]
  unfold blockFrames steps
  rw [hq, Nat.mul_div_cancel_left q hskip, List.map_map, List.map_map]
  congr 1
  apply List.map_congr_left
  intro i _
  simp only [Function.comp]
  congr 2
  push_cast
  ring

/-- **C50, noise.** The noise estimate is the average of the contributions of the last `lookback` blocks: of a block those of its frames whose variance is below the
threshold, or, if there are none, the estimate before that block, once; the blocks before the signal count as silence. -/
theorem C50_noise (x : Nat → ℝ) {hop lookback skip : Nat} (thresh : ℝ) (hskip : 0 < skip) (hl : 0 < lookback) (hk : skip ≤ hop) (n : Nat) :
    estimate x hop lookback skip thresh 0 = 0 ∧
      (((List.range lookback).map fun p : Nat => ((noiseParts x hop skip thresh (estimate x hop lookback skip thresh) ((n : Int) + 1 - lookback + 1 + p)).length : ℝ)).sum) •
          estimate x hop lookback skip thresh (n + 1) =
        ((List.range lookback).map fun p : Nat => (noiseParts x hop skip thresh (estimate x hop lookback skip thresh) ((n : Int) + 1 - lookback + 1 + p)).sum).sum ∧
      0 < (((List.range lookback).map fun p : Nat => ((noiseParts x hop skip thresh (estimate x hop lookback skip thresh) ((n : Int) + 1 - lookback + 1 + p)).length : ℝ)).sum) := by
  obtain ⟨s0, e0, hs0⟩ := feed_ok x thresh hskip hl hk 0
  obtain ⟨s, e, hs⟩ := feed_ok x thresh hskip hl hk (n + 1)
  refine ⟨?_, ?_, ?_⟩
  · have h := hs0.covN
    rw [Nat.cast_zero] at h
    rw [← h]
    have : s0.covN = 0 := by
      unfold Subspace.init at e0
      rw [if_neg (by omega), if_neg (by omega)] at e0
      simp only [Except.bind, Subspace.feed, Except.ok.injEq] at e0
      rw [← e0]
    exact this
  · have h := hs.noise
    rw [hs.count, hs.nParts, hs.covN] at h
    simpa [window] using h
  · have := window_pos (f := fun b => ((noiseParts x hop skip thresh (estimate x hop lookback skip thresh) b).length : ℝ))
      (fun b => by exact_mod_cast noise_count_pos _ (Nat.div_pos hk hskip) b) hl ((n : Int) + 1)
    simpa [window] using this

/-- **C50, deviation.** If `skip` does not divide the hop the sum has one frame per block more than the number it is divided by. -/
theorem C50_count_deviation (x : Nat → ℝ) {hop skip : Nat} (hskip : 0 < skip) (h : ¬ skip ∣ hop) (b : Int) :
    (blockFrames x hop skip b).length = hop / skip + 1 := by
  unfold blockFrames steps
  simp only [List.length_map, List.length_range]
  have hm : 0 < hop % skip := Nat.pos_of_ne_zero fun e => h (Nat.dvd_of_mod_eq_zero e)
  have hlt := Nat.mod_lt hop hskip
  have hd := Nat.div_add_mod hop skip
  rw [show hop + skip - 1 = (hop % skip - 1) + skip * (hop / skip + 1) by rw [Nat.mul_add]; omega, Nat.add_mul_div_left _ _ hskip, Nat.div_eq_of_lt (by omega), zero_add]

/-! ## The hypotheses can be met -/

/-- The default parameters, and parameters where `skip` does not divide the hop. -/
example : (0 < 2 ∧ 0 < 10 ∧ 2 ∣ 128 ∧ 2 ≤ 128) ∧ ¬ 3 ∣ 128 := by decide

/-- A block can have quiet frames and frames that are not quiet: the variance tells an impulse from silence. -/
example : variance (frame (fun _ => 1) 4 0) = 0 ∧ variance [1, 0] = 1 / 4 := by
  constructor
  · simp [variance, frame, at_, List.range_succ]
    norm_num
  · norm_num [variance]

end Verif.Denoise
