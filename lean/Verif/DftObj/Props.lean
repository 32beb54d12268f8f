import Verif.DftObj.Model
import Mathlib.Tactic.Ring
import Mathlib.Tactic.NormNum

/-!
# C92: the class `DFT` transforms windowed signals and back

Small specification: `pos` (where a sample of a channel is stored), `shapeOf` (dimensions of the arrays), `weight` (the window), `dft` of
`Verif.DFT` (the sum that defines the discrete Fourier transform), and `Arr`/`Heap` of the model for what the caller can see.
-/

namespace Verif.DftObj

open Verif.Py Verif.DFT

/-- Where entry `t` of channel `d` is stored. -/
def pos (o : Obj) (d t : Nat) : List Nat := if o.D = 1 then [t] else if o.axis = 0 then [t, d] else [d, t]

/-- Dimensions of an array with `n` entries per channel. -/
def shapeOf (o : Obj) (n : Nat) : List Nat := if o.D = 1 then [n] else if o.axis = 0 then [n, o.D] else [o.D, n]

/-- The factor of a window, one without a window. -/
def weight (w : Option (List ℝ)) (t : Nat) : ℝ := match w with
  | none => 1
  | some w => w.getD t 0

/-- Objects with which one can work: at least two samples and one channel, windows of the length of the transform; one channel needs
the first axis or `pyfftw`. -/
structure Usable (o : Obj) (aw sw : Option (List ℝ)) : Prop where
  nfft : 2 ≤ o.nfft
  D : 1 ≤ o.D
  axis : o.axis ≤ 1
  mono : o.D = 1 → o.axis = 0 ∨ o.package = .fftw
  before : o.analysisWindow = aw.map (window o.axis o.D)
  after : o.synthesisWindow = sw.map (window o.axis o.D)
  awLen : ∀ w, aw = some w → w.length = o.nfft
  swLen : ∀ w, sw = some w → w.length = o.nfft

/-- The buffers of the object have their dimensions. -/
structure Ready (o : Obj) (h : Heap) : Prop where
  x : (h.re o.x).shape = shapeOf o o.nfft
  X : (h.cx o.X).shape = shapeOf o (o.nfft / 2 + 1)
  float : (h.re o.x).isFloat = true

theorem squeeze_pair {a b : Nat} (ha : a ≠ 1) : squeeze [a, b] = if b = 1 then [a] else [a, b] := by
  by_cases hb : b = 1 <;> simp [squeeze, ha, hb]

theorem squeeze_pair' {a b : Nat} (hb : b ≠ 1) : squeeze [a, b] = if a = 1 then [b] else [a, b] := by
  by_cases ha : a = 1 <;> simp [squeeze, ha, hb]

/-- **C92, construction.** The constructor makes an object that is ready, for every number of channels and both axes; other axes are refused. -/
theorem C92_new {nfft D : Nat} (hn : 2 ≤ nfft) (hD : 1 ≤ D) {axis : Nat} (aw sw : Option (List ℝ)) (wanted : Package) (fftw mkl : Bool) (rx rX : Nat)
    (h : Heap) (haw : ∀ w, aw = some w → w.length = nfft) (hsw : ∀ w, sw = some w → w.length = nfft) :
    (axis ≤ 1 → ∃ o h', new nfft D aw sw wanted fftw mkl axis rx rX h = .ok (o, h') ∧ Ready o h' ∧ o.nfft = nfft ∧ o.D = D ∧ o.axis = axis ∧
      o.x = rx ∧ o.X = rX ∧ ((D = 1 → axis = 0 ∨ (wanted = .fftw ∧ fftw = true)) → Usable o aw sw) ∧
      (∀ r, r ≠ rx → h'.re r = h.re r) ∧ ∀ r, r ≠ rX → h'.cx r = h.cx r) ∧
    (1 < axis → new nfft D aw sw wanted fftw mkl axis rx rX h = .error .valueError) := by
  constructor
  · intro ha
    have hd : ∀ n, ∃ s, dims axis n D = .ok s ∧ (2 ≤ n → squeeze s = if D = 1 then [n] else if axis = 0 then [n, D] else [D, n]) := by
      intro n
      unfold dims
      by_cases h0 : axis = 0
      · refine ⟨[n, D], by rw [if_pos h0], fun hn => ?_⟩
        rw [squeeze_pair (by omega), if_pos h0]
      · refine ⟨[D, n], by rw [if_neg h0, if_pos (by omega)], fun hn => ?_⟩
        rw [squeeze_pair' (by omega), if_neg h0]
    obtain ⟨s, hs, hs'⟩ := hd nfft
    obtain ⟨t, ht, ht'⟩ := hd (nfft / 2 + 1)
    refine ⟨_, _, by unfold new; rw [hs, ht]; rfl, ⟨?_, ?_, ?_⟩, rfl, rfl, rfl, rfl, rfl, fun hm => ⟨hn, hD, ha, ?_, rfl, rfl, haw, hsw⟩, ?_, ?_⟩
    · simp only [Heap.setCx, Heap.setRe, Function.update_self, shapeOf]
      exact hs' hn
    · simp only [Heap.setCx, Heap.setRe, Function.update_self, shapeOf]
      exact ht' (by omega)
    · simp [Heap.setCx, Heap.setRe]
    · intro h1
      rcases hm h1 with h0 | ⟨h0, h2⟩
      · exact Or.inl h0
      · right
        simp only [choose, h0, h2, if_true]
    · intro r hr
      simp [Heap.setCx, Heap.setRe, Function.update_of_ne hr]
    · intro r hr
      simp [Heap.setCx, Heap.setRe, Function.update_of_ne hr]
  · intro ha
    unfold new dims
    rw [if_neg (by omega), if_neg (by omega)]
    rfl

theorem fits_refl : ∀ l, fits l l = true
  | [] => rfl
  | a :: l => by simp [fits, fits_refl l]

/-- Broadcasting to the own dimensions, none of which is one, changes nothing at indices of the right length. -/
theorem index_refl : ∀ (l i : List Nat), 1 ∉ l → i.length = l.length → index l i = i
  | [], i, _, h => (List.length_eq_zero_iff.mp (by simpa using h)).symm
  | a :: l, [], _, h => by simp at h
  | a :: l, b :: i, hl, h => by
    have := index_refl l i (fun hc => hl (List.mem_cons_of_mem _ hc)) (by simpa using h)
    simp only [index, this]
    rw [if_neg (fun hc => hl (by simp [hc]))]

theorem broadcast_self {α : Type} (a : Arr α) {shape : List Nat} (hs : a.shape = shape) (h1 : 1 ∉ shape) :
    ∃ b, broadcast shape a = .ok b ∧ b.shape = shape ∧ b.isFloat = a.isFloat ∧ ∀ i, i.length = shape.length → b.at' i = a.at' i := by
  subst hs
  refine ⟨{ shape := a.shape, at' := fun i => a.at' (index a.shape.reverse i.reverse).reverse, isFloat := a.isFloat },
    by unfold broadcast; rw [if_pos (fits_refl _)], rfl, rfl, fun i hi => ?_⟩
  simp only
  rw [index_refl _ _ (by simpa using h1) (by simpa using hi), List.reverse_reverse]

theorem assign_self {α : Type} (dst src : Arr α) (hs : src.shape = dst.shape) (h1 : 1 ∉ dst.shape) (h0 : dst.shape ≠ []) :
    ∃ b, assign dst src = .ok b ∧ b.shape = dst.shape ∧ b.isFloat = dst.isFloat ∧ ∀ i, i.length = dst.shape.length → b.at' i = src.at' i := by
  obtain ⟨b, hb, hbs, _, hv⟩ := broadcast_self src hs h1
  refine ⟨{ b with isFloat := dst.isFloat }, by unfold assign; rw [if_neg h0, hb]; rfl, hbs, rfl, hv⟩

variable {o : Obj} {aw sw : Option (List ℝ)} {h : Heap}

theorem shapeOf_ok {n : Nat} (hn : 2 ≤ n) : 1 ∉ shapeOf o n ∧ shapeOf o n ≠ [] := by
  unfold shapeOf
  split
  · simp
    omega
  · split <;> simp <;> omega

theorem pos_length (n d t : Nat) : (pos o d t).length = (shapeOf o n).length := by
  unfold pos shapeOf
  split
  · rfl
  · split <;> rfl

/-- The axis along which the transforms are done. -/
def theAxis (o : Obj) : Nat := if o.D = 1 then 0 else o.axis

theorem theAxis_lt (ha : o.axis ≤ 1) (n : Nat) : theAxis o < (shapeOf o n).length := by
  unfold theAxis shapeOf
  by_cases h1 : o.D = 1
  · simp [h1]
  · rw [if_neg h1, if_neg h1]
    split <;> simp <;> omega

theorem pos_set (ha : o.axis ≤ 1) (d t t' : Nat) : (pos o d t).set (theAxis o) t' = pos o d t' := by
  unfold theAxis pos
  by_cases h1 : o.D = 1
  · simp [h1]
  · simp only [if_neg h1]
    by_cases h0 : o.axis = 0
    · simp [h0]
    · have : o.axis = 1 := by omega
      simp [this]

theorem pos_get (ha : o.axis ≤ 1) (d t : Nat) : (pos o d t).getD (theAxis o) 0 = t := by
  unfold theAxis pos
  by_cases h1 : o.D = 1
  · simp [h1]
  · simp only [if_neg h1]
    by_cases h0 : o.axis = 0
    · simp [h0]
    · have : o.axis = 1 := by omega
      simp [this]

theorem shapeOf_set (ha : o.axis ≤ 1) (n m : Nat) : (shapeOf o n).set (theAxis o) m = shapeOf o m := by
  unfold theAxis shapeOf
  by_cases h1 : o.D = 1
  · simp [h1]
  · simp only [if_neg h1]
    by_cases h0 : o.axis = 0
    · simp [h0]
    · have : o.axis = 1 := by omega
      simp [this]

theorem shapeOf_get (ha : o.axis ≤ 1) (n : Nat) : (shapeOf o n).getD (theAxis o) 0 = n := by
  unfold theAxis shapeOf
  by_cases h1 : o.D = 1
  · simp [h1]
  · simp only [if_neg h1]
    by_cases h0 : o.axis = 0
    · simp [h0]
    · have : o.axis = 1 := by omega
      simp [this]

theorem multiply_eq (hu1 : 2 ≤ o.nfft) (hD : 1 ≤ o.D) (hlen : ∀ w, aw = some w → w.length = o.nfft) (x : Arr ℝ)
    (hx : x.shape = shapeOf o o.nfft) (hf : aw = none ∨ x.isFloat = true) :
    ∃ y, multiply (aw.map (window o.axis o.D)) x = .ok y ∧ y.shape = shapeOf o o.nfft ∧ y.isFloat = x.isFloat ∧
      ∀ d t, y.at' (pos o d t) = weight aw t * x.at' (pos o d t) := by
  cases aw with
  | none => exact ⟨x, rfl, hx, rfl, fun d t => by simp [weight]⟩
  | some w =>
    have hf : x.isFloat = true := by simpa using hf
    have hl := hlen w rfl
    have hb : ∃ b, broadcast x.shape (window o.axis o.D w) = .ok b ∧ ∀ d t, b.at' (pos o d t) = w.getD t 0 := by
      rw [hx]
      unfold window shapeOf pos
      by_cases h1 : o.D = 1
      · refine ⟨_, by unfold broadcast; rw [if_pos (by simp [h1, fits, hl])], fun d t => ?_⟩
        simp [h1, index, show w.length ≠ 1 by omega]
      · by_cases h0 : o.axis = 0
        · have h2 : 1 < o.D := by omega
          refine ⟨_, by unfold broadcast; rw [if_pos (by simp [h1, h0, h2, fits, hl])], fun d t => ?_⟩
          simp [h1, h0, h2, index, show w.length ≠ 1 by omega]
        · refine ⟨_, by unfold broadcast; rw [if_pos (by simp [h1, h0, fits, hl])], fun d t => ?_⟩
          simp [h1, h0, index, show w.length ≠ 1 by omega]
    obtain ⟨b, hb, hv⟩ := hb
    refine ⟨{ x with at' := fun i => b.at' i * x.at' i }, by simp only [Option.map_some, multiply]; rw [if_neg (by simp [hf]), hb]; rfl, hx, rfl, fun d t => ?_⟩
    simp only [weight, hv]

theorem fftwDims_eq (n : Nat) : fftwDims o n = shapeOf o n := rfl

theorem fftwAxis_eq : fftwAxis o = theAxis o := rfl

theorem rfftAxis_eq (hn : 2 ≤ o.nfft) (ha : o.axis ≤ 1) (x : Arr ℝ) (hx : x.shape = shapeOf o o.nfft) :
    ∃ Y, rfftAxis o.nfft (theAxis o) x = .ok Y ∧ Y.shape = shapeOf o (o.nfft / 2 + 1) ∧
      ∀ d k, Y.at' (pos o d k) = rfft o.nfft (fun t => x.at' (pos o d t)) k := by
  refine ⟨_, by unfold rfftAxis; rw [hx, if_pos ⟨theAxis_lt ha _, by omega⟩], shapeOf_set ha _ _, fun d k => ?_⟩
  simp only [pos_get ha, pos_set ha, shapeOf_get ha]
  exact congrFun (rfft_congr fun t ht => by rw [if_pos ht]) k

theorem irfft_congr {N : Nat} {X Y : Nat → ℂ} (h : ∀ k, k < N / 2 + 1 → X k = Y k) (n : Nat) : irfft N X n = irfft N Y n := by
  unfold irfft
  rw [idft_congr (Y := hermExt N Y)]
  intro k hk
  unfold hermExt
  split
  · exact h k (by omega)
  · rw [h _ (by omega)]

theorem irfftAxis_eq (hn : 2 ≤ o.nfft) (ha : o.axis ≤ 1) (X : Arr ℂ) (hX : X.shape = shapeOf o (o.nfft / 2 + 1)) :
    ∃ y, irfftAxis o.nfft (theAxis o) X = .ok y ∧ y.shape = shapeOf o o.nfft ∧
      ∀ d t, y.at' (pos o d t) = irfft o.nfft (fun k => X.at' (pos o d k)) t := by
  refine ⟨_, by unfold irfftAxis; rw [hX, if_pos ⟨theAxis_lt ha _, by omega⟩], shapeOf_set ha _ _, fun d t => ?_⟩
  simp only [pos_get ha, pos_set ha, shapeOf_get ha]
  exact irfft_congr (fun k hk => by rw [if_pos hk]) t

theorem axis_eq (hu : Usable o aw sw) (hp : o.package ≠ .fftw) : o.axis = theAxis o := by
  unfold theAxis
  split
  · rename_i h1
    exact (hu.mono h1).resolve_right hp
  · rfl

theorem forward_eq (hu : Usable o aw sw) (x : Arr ℝ) (hx : x.shape = shapeOf o o.nfft) :
    ∃ Y, forward o x = .ok Y ∧ Y.shape = shapeOf o (o.nfft / 2 + 1) ∧
      ∀ d k, Y.at' (pos o d k) = rfft o.nfft (fun t => x.at' (pos o d t)) k := by
  by_cases hp : o.package = .fftw
  · obtain ⟨b, hb, hs, -, hv⟩ := broadcast_self x hx (shapeOf_ok hu.nfft).1
    obtain ⟨Y, hY, hYs, hYv⟩ := rfftAxis_eq hu.nfft hu.axis b hs
    refine ⟨Y, ?_, hYs, fun d k => ?_⟩
    · unfold forward
      rw [hp]
      simp only [fftwDims_eq, fftwAxis_eq, hb]
      exact hY
    · rw [hYv]
      exact congrFun (rfft_congr fun t _ => hv _ (pos_length _ d t)) k
  · obtain ⟨Y, hY, hYs, hYv⟩ := rfftAxis_eq hu.nfft hu.axis x hx
    refine ⟨Y, ?_, hYs, hYv⟩
    rw [← axis_eq hu hp] at hY
    unfold forward
    cases h : o.package
    · exact hY
    · exact hY
    · exact absurd h hp

theorem backward_eq (hu : Usable o aw sw) (X : Arr ℂ) (hX : X.shape = shapeOf o (o.nfft / 2 + 1)) :
    ∃ y, backward o X = .ok y ∧ y.shape = shapeOf o o.nfft ∧
      ∀ d t, y.at' (pos o d t) = irfft o.nfft (fun k => X.at' (pos o d k)) t := by
  have hn := hu.nfft
  by_cases hp : o.package = .fftw
  · obtain ⟨b, hb, hs, -, hv⟩ := broadcast_self X hX (shapeOf_ok (by omega)).1
    obtain ⟨Y, hY, hYs, hYv⟩ := irfftAxis_eq hu.nfft hu.axis b hs
    refine ⟨Y, ?_, hYs, fun d k => ?_⟩
    · unfold backward
      rw [hp]
      simp only [fftwDims_eq, fftwAxis_eq, hb]
      exact hY
    · rw [hYv]
      exact irfft_congr (fun t _ => hv _ (pos_length _ d t)) k
  · obtain ⟨Y, hY, hYs, hYv⟩ := irfftAxis_eq hu.nfft hu.axis X hX
    refine ⟨Y, ?_, hYs, hYv⟩
    rw [← axis_eq hu hp] at hY
    unfold backward
    cases h : o.package
    · exact hY
    · exact hY
    · exact absurd h hp

/-- **C92, analysis.** `analysis` answers with the buffer `X` of the object, in which every channel is the discrete Fourier transform of the windowed
channel. The window is multiplied into the array of the caller; no other array changes. -/
theorem C92_analysis (hu : Usable o aw sw) (hr : Ready o h) (r : Nat) (hx : (h.re r).shape = shapeOf o o.nfft)
    (hf : aw = none ∨ (h.re r).isFloat = true) :
    ∃ h', analysis o r h = (.ok o.X, h') ∧ Ready o h' ∧
      (∀ d k, (h'.cx o.X).at' (pos o d k) = dft o.nfft (fun t => ((weight aw t * (h.re r).at' (pos o d t) : ℝ) : ℂ)) k) ∧
      (h'.re r).shape = (h.re r).shape ∧ (h'.re r).isFloat = (h.re r).isFloat ∧
      (∀ d t, (h'.re r).at' (pos o d t) = weight aw t * (h.re r).at' (pos o d t)) ∧
      (∀ q, q ≠ r → h'.re q = h.re q) ∧ (∀ q, q ≠ o.X → h'.cx q = h.cx q) := by
  obtain ⟨y, hy, hys, hyf, hyv⟩ := multiply_eq hu.nfft hu.D hu.awLen (h.re r) hx hf
  obtain ⟨Y, hY, hYs, hYv⟩ := forward_eq hu y hys
  have hn := hu.nfft
  obtain ⟨Z, hZ, hZs, -, hZv⟩ := assign_self (h.cx o.X) Y (by rw [hYs, hr.X]) (by rw [hr.X]; exact (shapeOf_ok (by omega)).1)
    (by rw [hr.X]; exact (shapeOf_ok (by omega)).2)
  have hY0 : ((forward o y).bind fun Y => assign (h.cx o.X) Y) = .ok Z := by rw [hY]; exact hZ
  refine ⟨(h.setRe r y).setCx o.X Z, ?_, ⟨?_, ?_, ?_⟩, ?_, ?_, ?_, ?_, ?_, ?_⟩
  · unfold analysis
    rw [if_neg (by rw [hx, hr.x]; simp), hu.before, hy]
    simp only
    rw [show (h.setRe r y).cx o.X = h.cx o.X from rfl, hY0]
  · by_cases he : o.x = r
    · simp [Heap.setCx, Heap.setRe, he, hys]
    · simp [Heap.setCx, Heap.setRe, Function.update_of_ne he, hr.x]
  · simp [Heap.setCx, Heap.setRe, hZs, hr.X]
  · by_cases he : o.x = r
    · simp only [Heap.setCx, Heap.setRe, he, Function.update_self]
      rw [hyf, ← he, hr.float]
    · simp [Heap.setCx, Heap.setRe, Function.update_of_ne he, hr.float]
  · intro d k
    simp only [Heap.setCx, Function.update_self]
    rw [hZv _ (by rw [hr.X]; exact pos_length _ d k), hYv]
    unfold rfft
    exact dft_congr (fun t _ => by beta_reduce; rw [hyv]) k
  · simp [Heap.setCx, Heap.setRe, hys, hx]
  · simp [Heap.setCx, Heap.setRe, hyf]
  · intro d t
    simp [Heap.setCx, Heap.setRe, hyv]
  · intro q hq
    simp [Heap.setCx, Heap.setRe, Function.update_of_ne hq]
  · intro q hq
    simp [Heap.setCx, Heap.setRe, Function.update_of_ne hq]

/-- **C92, synthesis.** `synthesis` answers with the buffer `x` of the object: in every channel the inverse transform times the window. The array
of the caller, if there is one, is copied to `X` and does not change, nor does any other array. -/
theorem C92_synthesis (hu : Usable o aw sw) (hr : Ready o h) (r : Option Nat) (hX : ∀ q, r = some q → (h.cx q).shape = shapeOf o (o.nfft / 2 + 1)) :
    ∃ h', synthesis o r h = (.ok o.x, h') ∧ Ready o h' ∧
      (∀ d t, (h'.re o.x).at' (pos o d t) = weight sw t * irfft o.nfft (fun k => (h.cx (r.getD o.X)).at' (pos o d k)) t) ∧
      (∀ d k, (h'.cx o.X).at' (pos o d k) = (h.cx (r.getD o.X)).at' (pos o d k)) ∧
      (∀ q, q ≠ o.x → h'.re q = h.re q) ∧ (∀ q, q ≠ o.X → h'.cx q = h.cx q) := by
  have hn := hu.nfft
  have hst : ∃ h1, store o r h = .ok h1 ∧ h1.re = h.re ∧ (h1.cx o.X).shape = shapeOf o (o.nfft / 2 + 1) ∧
      (∀ d k, (h1.cx o.X).at' (pos o d k) = (h.cx (r.getD o.X)).at' (pos o d k)) ∧ ∀ q, q ≠ o.X → h1.cx q = h.cx q := by
    cases r with
    | none => exact ⟨h, rfl, rfl, hr.X, fun _ _ => rfl, fun _ _ => rfl⟩
    | some q =>
      have hq := hX q rfl
      obtain ⟨Z, hZ, hZs, -, hZv⟩ := assign_self (h.cx o.X) (h.cx q) (by rw [hq, hr.X]) (by rw [hr.X]; exact (shapeOf_ok (by omega)).1)
        (by rw [hr.X]; exact (shapeOf_ok (by omega)).2)
      refine ⟨h.setCx o.X Z, ?_, rfl, ?_, ?_, ?_⟩
      · simp only [store]
        rw [if_neg (by rw [hq, hr.X]; simp), hZ]
        rfl
      · simp [Heap.setCx, hZs, hr.X]
      · intro d k
        simp only [Heap.setCx, Function.update_self, Option.getD_some]
        exact hZv _ (by rw [hr.X]; exact pos_length _ d k)
      · intro p hp
        simp [Heap.setCx, Function.update_of_ne hp]
  obtain ⟨h1, hst, hre, hXs, hXv, hXo⟩ := hst
  obtain ⟨y, hy, hys, hyv⟩ := backward_eq hu (h1.cx o.X) hXs
  obtain ⟨z, hz, hzs, hzf, hzv⟩ := assign_self (h1.re o.x) y (by rw [hys, hre, hr.x]) (by rw [hre, hr.x]; exact (shapeOf_ok hu.nfft).1)
    (by rw [hre, hr.x]; exact (shapeOf_ok hu.nfft).2)
  have hzs' : z.shape = shapeOf o o.nfft := by rw [hzs, hre, hr.x]
  have hzf' : z.isFloat = true := by rw [hzf, hre, hr.float]
  obtain ⟨u, hm, hus, huf, huv⟩ := multiply_eq (aw := sw) hu.nfft hu.D hu.swLen z hzs' (Or.inr hzf')
  have hb : ((backward o (h1.cx o.X)).bind fun y => assign (h1.re o.x) y) = .ok z := by rw [hy]; exact hz
  refine ⟨(h1.setRe o.x z).setRe o.x u, ?_, ⟨?_, ?_, ?_⟩, ?_, ?_, ?_, ?_⟩
  · unfold synthesis
    rw [hst]
    simp only
    rw [hb]
    simp only
    rw [hu.after, hm]
  · simp [Heap.setRe, hus]
  · exact hXs
  · simp [Heap.setRe, huf, hzf']
  · intro d t
    simp only [Heap.setRe, Function.update_self]
    rw [huv, hzv _ (by rw [hre, hr.x]; exact pos_length _ d t), hyv]
    congr 1
    exact irfft_congr (fun k _ => hXv d k) t
  · exact hXv
  · intro q hq
    simp [Heap.setRe, Function.update_of_ne hq, hre]
  · exact hXo

/-- **C92, round trip.** `synthesis()` after `analysis(x)` gives the signal times both windows; without windows, the signal itself. -/
theorem C92_round_trip (hu : Usable o aw sw) (hr : Ready o h) (r : Nat) (hx : (h.re r).shape = shapeOf o o.nfft)
    (hf : aw = none ∨ (h.re r).isFloat = true) :
    ∃ h₁ h₂, analysis o r h = (.ok o.X, h₁) ∧ synthesis o none h₁ = (.ok o.x, h₂) ∧
      ∀ d t, t < o.nfft → (h₂.re o.x).at' (pos o d t) = weight sw t * weight aw t * (h.re r).at' (pos o d t) := by
  obtain ⟨h₁, ha, hr₁, hv, -⟩ := C92_analysis hu hr r hx hf
  obtain ⟨h₂, hs, -, hv₂, -⟩ := C92_synthesis hu hr₁ none (by simp)
  refine ⟨h₁, h₂, ha, hs, fun d t ht => ?_⟩
  rw [hv₂, mul_assoc]
  congr 1
  rw [← irfft_rfft (N := o.nfft) (fun t => weight aw t * (h.re r).at' (pos o d t)) ht]
  exact irfft_congr (fun k _ => hv d k) t

/-- **C92, other direction.** `analysis` of the answer of `synthesis(X)`, for an object without windows, gives back `X`, if `X` is the transform of
a real signal. -/
theorem C92_round_trip_frequency (hu : Usable o none none) (hr : Ready o h) (r : Nat) (hX : (h.cx r).shape = shapeOf o (o.nfft / 2 + 1))
    (x : Nat → Nat → ℝ) (hx : ∀ d k, k ≤ o.nfft / 2 → (h.cx r).at' (pos o d k) = rfft o.nfft (x d) k) :
    ∃ h₁ h₂, synthesis o (some r) h = (.ok o.x, h₁) ∧ analysis o o.x h₁ = (.ok o.X, h₂) ∧
      ∀ d k, k ≤ o.nfft / 2 → (h₂.cx o.X).at' (pos o d k) = (h.cx r).at' (pos o d k) := by
  obtain ⟨h₁, hs, hr₁, hv, -⟩ := C92_synthesis hu hr (some r) (fun q hq => by cases hq; exact hX)
  obtain ⟨h₂, ha, -, hv₂, -⟩ := C92_analysis hu hr₁ o.x hr₁.x (Or.inl rfl)
  refine ⟨h₁, h₂, hs, ha, fun d k hk => ?_⟩
  rw [hv₂, hx d k hk]
  unfold rfft
  refine dft_congr (fun t ht => ?_) k
  rw [hv]
  simp only [weight, one_mul, Option.getD_some]
  congr 1
  rw [irfft_congr (fun k hk => hx d k (by omega)), irfft_rfft _ ht]

/-- **C92, packages.** The package makes no difference for the values. -/
theorem C92_packages {o' : Obj} (hu : Usable o aw sw) (hu' : Usable o' aw sw) (he : o' = { o with package := o'.package }) (hr : Ready o h) (r : Nat)
    (hx : (h.re r).shape = shapeOf o o.nfft) (hf : aw = none ∨ (h.re r).isFloat = true) :
    ∃ h₁ h₂, analysis o r h = (.ok o.X, h₁) ∧ analysis o' r h = (.ok o.X, h₂) ∧
      ∀ d k, (h₁.cx o.X).at' (pos o d k) = (h₂.cx o.X).at' (pos o d k) := by
  generalize o'.package = p at he
  subst he
  obtain ⟨h₁, ha, hr₁, hv, -⟩ := C92_analysis hu hr r hx hf
  obtain ⟨h₂, ha₂, -, hv₂, -⟩ := C92_analysis hu' ⟨hr.x, hr.X, hr.float⟩ r hx hf
  refine ⟨h₁, h₂, ha, ha₂, fun d k => ?_⟩
  rw [hv]
  exact (hv₂ d k).symm

/-- **C92, refusals.** Arrays of other dimensions are refused and nothing changes; `ValueError` for several channels. **Deviation:** for
one channel the message of the exception cannot be made, and `IndexError` is raised. -/
theorem C92_refused (hr : Ready o h) (r : Nat) (hx : (h.re r).shape ≠ shapeOf o o.nfft) :
    analysis o r h = (.error (if 2 ≤ (h.re r).shape.length ∧ o.D ≠ 1 then .valueError else .indexError), h) := by
  unfold analysis
  rw [hr.x, if_pos hx]
  congr 2
  unfold shapeError
  congr 1
  unfold shapeOf
  by_cases h1 : o.D = 1
  · simp [h1]
  · simp only [if_neg h1]
    split <;> simp [h1]

/-- The same for `synthesis`. -/
theorem C92_refused_synthesis (hr : Ready o h) (r : Nat) (hx : (h.cx r).shape ≠ shapeOf o (o.nfft / 2 + 1)) :
    synthesis o (some r) h = (.error (if 2 ≤ (h.cx r).shape.length ∧ o.D ≠ 1 then .valueError else .indexError), h) := by
  unfold synthesis store
  simp only
  rw [hr.X, if_pos hx]
  simp only
  congr 2
  unfold shapeError
  congr 1
  unfold shapeOf
  by_cases h1 : o.D = 1
  · simp [h1]
  · simp only [if_neg h1]
    split <;> simp [h1]

/-- **C92, deviation.** The array of the caller is changed: with an analysis window, a second analysis of the same array applies the window twice. -/
theorem C92_input_overwritten_deviation (hu : Usable o aw sw) (hr : Ready o h) (r : Nat) (hx : (h.re r).shape = shapeOf o o.nfft)
    (hf : aw = none ∨ (h.re r).isFloat = true) :
    ∃ h₁ h₂, analysis o r h = (.ok o.X, h₁) ∧ analysis o r h₁ = (.ok o.X, h₂) ∧
      ∀ d k, (h₂.cx o.X).at' (pos o d k) = dft o.nfft (fun t => ((weight aw t ^ 2 * (h.re r).at' (pos o d t) : ℝ) : ℂ)) k := by
  obtain ⟨h₁, ha, hr₁, hv, hs, hfl, hin, -⟩ := C92_analysis hu hr r hx hf
  obtain ⟨h₂, ha₂, -, hv₂, -⟩ := C92_analysis hu hr₁ r (by rw [hs, hx]) (by rw [hfl]; exact hf)
  refine ⟨h₁, h₂, ha, ha₂, fun d k => ?_⟩
  rw [hv₂]
  refine dft_congr (fun t _ => ?_) k
  rw [hin]
  congr 1
  ring

/-- **C92, deviation.** Arrays of integers are refused if there is an analysis window. -/
theorem C92_integers_deviation (hr : Ready o h) (w : List ℝ) (hw : o.analysisWindow = some (window o.axis o.D w)) (r : Nat)
    (hx : (h.re r).shape = shapeOf o o.nfft) (hf : (h.re r).isFloat = false) : analysis o r h = (.error .typeError, h) := by
  unfold analysis
  rw [if_neg (by rw [hx, hr.x]; simp), hw]
  simp only [multiply]
  rw [if_pos hf]

/-- **C92, deviation.** The answers are the buffers of the object: after the analysis of another signal, the answer of the first analysis contains
the transform of the second signal. -/
theorem C92_answers_overwritten_deviation (hu : Usable o aw sw) (hr : Ready o h) (r s : Nat) (hne : s ≠ r) (hx : (h.re r).shape = shapeOf o o.nfft)
    (hs : (h.re s).shape = shapeOf o o.nfft) (hf : aw = none ∨ (h.re r).isFloat = true) (hfs : aw = none ∨ (h.re s).isFloat = true) :
    ∃ a b h₁ h₂, analysis o r h = (.ok a, h₁) ∧ analysis o s h₁ = (.ok b, h₂) ∧ a = b ∧
      (∀ d k, (h₁.cx a).at' (pos o d k) = dft o.nfft (fun t => ((weight aw t * (h.re r).at' (pos o d t) : ℝ) : ℂ)) k) ∧
      ∀ d k, (h₂.cx a).at' (pos o d k) = dft o.nfft (fun t => ((weight aw t * (h.re s).at' (pos o d t) : ℝ) : ℂ)) k := by
  obtain ⟨h₁, ha, hr₁, hv, -, -, -, ho, -⟩ := C92_analysis hu hr r hx hf
  have he : h₁.re s = h.re s := ho s hne
  obtain ⟨h₂, ha₂, -, hv₂, -⟩ := C92_analysis hu hr₁ s (by rw [he, hs]) (by rw [he]; exact hfs)
  refine ⟨_, _, h₁, h₂, ha, ha₂, rfl, hv, fun d k => ?_⟩
  rw [hv₂, he]

/-- **C92, deviation.** With one channel and `axis=1`, no signal can be transformed (except with `pyfftw`): the buffers have one dimension. -/
theorem C92_mono_axis_deviation {nfft : Nat} (hn : 2 ≤ nfft) (wanted : Package) (fftw mkl : Bool) (hp : choose wanted fftw mkl ≠ .fftw) (rx rX : Nat) (h h' : Heap) {o : Obj}
    (ho : new nfft 1 none none wanted fftw mkl 1 rx rX h = .ok (o, h')) (r : Nat) (h'' : Heap) (hx : (h''.re o.x).shape = (h'.re o.x).shape) :
    ∃ e h₃, analysis o r h'' = (.error e, h₃) := by
  have hd : o = { nfft := nfft, D := 1, axis := 1, analysisWindow := none, synthesisWindow := none, package := choose wanted fftw mkl, x := rx, X := rX } ∧
      (h'.re rx).shape = [nfft] := by
    simp only [new, dims, if_neg one_ne_zero, if_true, Except.bind, Except.map, Except.ok.injEq, Prod.mk.injEq] at ho
    refine ⟨ho.1.symm, ?_⟩
    rw [← ho.2]
    simp [Heap.setCx, Heap.setRe, squeeze_pair' (show nfft ≠ 1 by omega)]
  obtain ⟨rfl, hs⟩ := hd
  simp only at hx
  unfold analysis
  by_cases he : (h''.re r).shape ≠ (h''.re rx).shape
  · exact ⟨_, _, by rw [if_pos he]⟩
  · have hr : (h''.re r).shape = [nfft] := by rw [not_not.mp he, hx, hs]
    refine ⟨.valueError, h''.setRe r (h''.re r), ?_⟩
    rw [if_neg he]
    simp only [multiply]
    have : forward { nfft := nfft, D := 1, axis := 1, analysisWindow := none, synthesisWindow := none, package := choose wanted fftw mkl, x := rx, X := rX } (h''.re r)
        = .error .valueError := by
      unfold forward
      cases hc : choose wanted fftw mkl
      · simp [rfftAxis, hr]
      · simp [rfftAxis, hr]
      · exact absurd hc hp
    rw [this]
    rfl

/-- **C92, deviation.** Transforms of length one: several channels along the second axis of an array are all replaced by the first channel. -/
theorem C92_one_sample_deviation {D : Nat} (hD : 2 ≤ D) (wanted : Package) (fftw mkl : Bool) (hp : choose wanted fftw mkl ≠ .fftw) (rx rX : Nat) (h : Heap)
    (r : Nat) (hne : r ≠ rx) (hx : (h.re r).shape = [D]) :
    ∃ o h₁ h₂, new 1 D none none wanted fftw mkl 0 rx rX h = .ok (o, h₁) ∧ analysis o r h₁ = (.ok rX, h₂) ∧ (h₂.cx rX).shape = [D] ∧
      ∀ d, d < D → (h₂.cx rX).at' [d] = (((h.re r).at' [0] : ℝ) : ℂ) := by
  refine ⟨_, _, (((h.setRe rx { shape := [D], at' := fun _ => 0 }).setCx rX { shape := [D], at' := fun _ => 0 }).setRe r (h.re r)).setCx rX
    { shape := [D], at' := fun _ => rfft 1 (fun t => if t < D then (h.re r).at' [t] else 0) 0 }, rfl, ?_, ?_, ?_⟩
  · unfold analysis
    simp only [Option.map_none, multiply]
    have h0 : squeeze [1, D] = [D] := by rw [squeeze_pair' (by omega), if_pos rfl]
    simp only [Heap.setCx, Heap.setRe, Function.update_self, Function.update_of_ne hne, h0]
    rw [if_neg (by simp [hx])]
    have hf : forward { nfft := 1, D := D, axis := 0, analysisWindow := none, synthesisWindow := none, package := choose wanted fftw mkl, x := rx, X := rX } (h.re r)
        = .ok { shape := [1], at' := fun i => rfft 1 (fun t => if t < D then (h.re r).at' (i.set 0 t) else 0) (i.getD 0 0) } := by
      unfold forward
      cases hc : choose wanted fftw mkl
      · simp [rfftAxis, hx]
      · simp [rfftAxis, hx]
      · exact absurd hc hp
    rw [hf]
    simp only [Except.bind, assign, List.cons_ne_nil, if_false]
    have hb : broadcast [D] { shape := [1], at' := fun i => rfft 1 (fun t => if t < D then (h.re r).at' (i.set 0 t) else 0) (i.getD 0 0) }
        = .ok { shape := [D], at' := fun i => rfft 1 (fun t => if t < D then (h.re r).at' ((index [1] i.reverse).reverse.set 0 t) else 0) ((index [1] i.reverse).reverse.getD 0 0) } := by
      unfold broadcast
      rw [if_pos (by simp [fits])]
      rfl
    have hi : ∀ i : List Nat, index [1] i.reverse = [0] := by
      intro i
      cases i.reverse <;> simp [index]
    simp only [hi] at hb
    rw [hb]
    simp [Except.map]
  · simp [Heap.setCx]
  · intro d hd
    simp only [Heap.setCx, Function.update_self]
    simp [rfft, dft, tw_zero, show 0 < D by omega]

/-- **C92, precision.** Single precision is used if it is asked for; **deviation:** the deprecated `bits` has an effect only if `precision=None` is
given explicitly, since the default of `precision` is not `None`. -/
theorem C92_precision (p : Option Precision) (bits : Option Nat) : single p bits = true ↔ p = some .single ∨ (p = none ∧ bits = some 32) := by
  rcases p with _ | p
  · rcases bits with _ | b
    · simp [single]
    · by_cases h32 : b = 32
      · simp [single, h32]
      · by_cases h64 : b = 64
        · simp [single, h64]
        · have : single none (some b) = false := by
            unfold single
            split <;> simp_all
          rw [this]
          simp [h32]
  · simp [single]

/-- There are usable objects: two channels of four samples along the second axis, with windows. -/
example : ∃ o aw sw h, Usable o aw sw ∧ Ready o h ∧ aw ≠ none ∧ o.D = 2 ∧ o.axis = 1 := by
  obtain ⟨o, h, -, hr, -, h2, h3, -, -, hu, -⟩ := (C92_new (nfft := 4) (D := 2) (by norm_num) (by norm_num) (axis := 1) (some [1, 2, 3, 4]) (some [1, 1, 1, 1])
    .numpy false false 0 0 ⟨fun _ => ⟨[], fun _ => 0, true⟩, fun _ => ⟨[], fun _ => 0, true⟩⟩ (by rintro w ⟨⟩; rfl) (by rintro w ⟨⟩; rfl)).1 (by norm_num)
  exact ⟨o, _, _, h, hu (by norm_num), hr, by simp, h2, h3⟩

/-- The same with one channel, and an array that is ready to be analysed. -/
example : ∃ o aw sw h, ∃ r, Usable o aw sw ∧ Ready o h ∧ (h.re r).shape = shapeOf o o.nfft ∧ (h.re r).isFloat = true ∧ r ≠ o.x := by
  obtain ⟨o, h, -, hr, h1, h2, h3, hx, -, hu, ho, -⟩ := (C92_new (nfft := 3) (D := 1) (by norm_num) (by norm_num) (axis := 0) (some [1, 2, 3]) none
    .fftw true false 1 0 ⟨fun _ => ⟨[3], fun _ => 5, true⟩, fun _ => ⟨[], fun _ => 0, true⟩⟩ (by rintro w ⟨⟩; rfl) (by simp)).1 (by norm_num)
  refine ⟨o, _, _, h, 0, hu (by simp), hr, ?_, ?_, by omega⟩
  · rw [ho 0 (by norm_num)]
    simp [shapeOf, h1, h2]
  · rw [ho 0 (by norm_num)]

end Verif.DftObj
