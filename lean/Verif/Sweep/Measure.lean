import Verif.Sweep.Props
import Verif.Deconv.Wiener
import Mathlib.RingTheory.PowerSeries.Basic

/-!
# C104: measurement of responses
-/

namespace Verif.Sweep

open Verif.Py Finset Verif.Deconv

theorem mapM_ok {α β : Type} {f : α → Except Err β} {g : α → β} (l : List α) (h : ∀ c ∈ l, f c = .ok (g c)) : l.mapM f = .ok (l.map g) := by
  induction l with
  | nil => rfl
  | cons a l ih =>
    rw [List.mapM_cons, h a (by simp), ih fun c hc => h c (by simp [hc])]
    rfl

theorem numbers_map (l : List ℝ) : numbers (l.map some) = some l := by
  unfold numbers
  induction l with
  | nil => rfl
  | cons a l ih =>
    rw [List.map_cons, List.mapM_cons, ih]
    rfl

theorem conv_shift (u v : Nat → ℝ) (d n : Nat) :
    ∑ p ∈ antidiagonal n, u p.1 * (if d ≤ p.2 then v (p.2 - d) else 0) = ∑ p ∈ antidiagonal n, (if d ≤ p.1 then u (p.1 - d) else 0) * v p.2 := by
  have h : ∀ w : Nat → ℝ, PowerSeries.mk (fun m => if d ≤ m then w (m - d) else 0) = PowerSeries.X ^ d * PowerSeries.mk w := by
    intro w
    ext m
    rw [PowerSeries.coeff_X_pow_mul', PowerSeries.coeff_mk, PowerSeries.coeff_mk]
  have h1 := PowerSeries.coeff_mul n (PowerSeries.mk u) (PowerSeries.mk fun m => if d ≤ m then v (m - d) else 0)
  have h2 := PowerSeries.coeff_mul n (PowerSeries.mk fun m => if d ≤ m then u (m - d) else 0) (PowerSeries.mk v)
  simp only [PowerSeries.coeff_mk] at h1 h2
  rw [← h1, ← h2, h, h]
  congr 1
  ring

theorem getD_delay (l : List ℝ) (d m : Nat) : (List.replicate d 0 ++ l).getD m 0 = if d ≤ m then l.getD (m - d) 0 else 0 := by
  split
  · rename_i h
    rw [List.getD_append_right _ _ _ _ (by simpa using h), List.length_replicate]
  · rename_i h
    rw [List.getD_append _ _ _ _ (by simpa using h), List.getD_replicate _ (by omega)]

theorem getD_pad (l : List ℝ) (d m : Nat) : (l ++ List.replicate d 0).getD m 0 = l.getD m 0 := by
  by_cases h : m < l.length
  · rw [List.getD_append _ _ _ _ h]
  · rw [List.getD_append_right _ _ _ _ (by omega), Sync.getD_zero l (by omega)]
    by_cases h2 : m - l.length < d
    · rw [List.getD_replicate _ h2]
    · rw [Sync.getD_zero _ (by simpa using h2)]

/-- The sound device and the room: every channel of the recording is as long as the signal played, and the response of the channel convolved with it. -/
def IsRoom (playrec : List (Option ℝ) → List (List ℝ)) (m : Nat) (h : Nat → List ℝ) : Prop :=
  ∀ (t : List ℝ) (c : Nat), c < m → ∃ y, (playrec (t.map some))[c]? = some y ∧ y.length = t.length ∧ ∀ n, n < t.length → y.getD n 0 = ∑ p ∈ antidiagonal n, (h c).getD p.1 0 * t.getD p.2 0

/-- The sweep that the arguments ask for. -/
def IsSweep (a : Args) (s : List ℝ) : Prop :=
  a.kind = "exponential" ∧ exponential a.length a.fs a.flo a.fhi (some a.fade) a.ascending = .ok (s.map some) ∨
    a.kind = "linear" ∧ linear a.length a.fs a.flo a.fhi (some a.fade) a.ascending = .ok (s.map some)

theorem zeros_ok {x : ℝ} (hx : 0 ≤ x) : zeros (trunc x) = .ok ((List.replicate ⌊x⌋₊ (0 : ℝ)).map some) := by
  unfold zeros trunc
  rw [if_pos hx, if_neg (by have := Int.floor_nonneg.mpr hx; omega), List.map_replicate]
  rfl

theorem sweepOf_ok {a : Args} {s : List ℝ} (hs : IsSweep a s) : sweepOf a = .ok (s.map some) := by
  unfold sweepOf
  rcases hs with ⟨hk, hs⟩ | ⟨hk, hs⟩
  · rw [if_pos hk, hs]
  · rw [if_neg (by rw [hk]; decide), if_pos hk, hs]

theorem testSignal_ok {a : Args} {s : List ℝ} (hs : IsSweep a s) (h1 : 0 ≤ a.pre * a.fs) (h2 : 0 ≤ a.post * a.fs) :
    testSignal a = .ok ((s.map (· * a.volume)).map some, (List.replicate ⌊a.pre * a.fs⌋₊ 0 ++ s.map (· * a.volume) ++ List.replicate ⌊a.post * a.fs⌋₊ 0).map some) := by
  have hsc : (s.map some).map (scale · a.volume) = (s.map (· * a.volume)).map some := by
    rw [List.map_map, List.map_map]
    rfl
  unfold testSignal
  rw [zeros_ok h1, zeros_ok h2, sweepOf_ok hs]
  simp only [bind, Except.bind, hsc, List.map_append]

/-- With respect to the sweep the response is late by the delay before it. -/
theorem record_conv {h x y : List ℝ} {pre post : Nat} (hx : 1 ≤ x.length) (hh : h.length ≤ post + 1) (hl : y.length = (List.replicate pre 0 ++ x ++ List.replicate post (0 : ℝ)).length)
    (hy : ∀ n, n < y.length → y.getD n 0 = ∑ p ∈ antidiagonal n, h.getD p.1 0 * (List.replicate pre 0 ++ x ++ List.replicate post 0).getD p.2 0) :
    IsConv y (List.replicate pre 0 ++ (h ++ List.replicate (post + 1 - h.length) 0)) x := by
  simp only [List.length_append, List.length_replicate] at hl
  constructor
  · simp only [List.length_append, List.length_replicate]; omega
  · intro n
    have e : ∀ m, (List.replicate pre 0 ++ (h ++ List.replicate (post + 1 - h.length) 0)).getD m 0 = if pre ≤ m then h.getD (m - pre) 0 else 0 := by
      intro m
      rw [getD_delay, getD_pad]
    simp only [e]
    by_cases hn : n < y.length
    · rw [hy n hn]
      refine Eq.trans ?_ (conv_shift (fun m => h.getD m 0) (fun m => x.getD m 0) pre n)
      apply sum_congr rfl
      intro p _
      rw [getD_pad, getD_delay]
    · rw [Sync.getD_zero y (by omega)]
      symm
      apply sum_eq_zero
      intro p hp
      rw [mem_antidiagonal] at hp
      by_cases hp2 : p.2 < x.length
      · rw [if_pos (by omega), Sync.getD_zero h (by omega), zero_mul]
      · rw [Sync.getD_zero x (by omega), mul_zero]

theorem measure_ok {lstsq : (K J : Nat) → (Nat → Fin J → ℂ) → (Nat → ℂ) → Fin J → ℂ} {matplotlib : Bool} {playrec : List (Option ℝ) → List (List ℝ)} {a : Args} {s : List ℝ}
    (hs : IsSweep a s) (h1 : 0 ≤ a.pre * a.fs) (h2 : 0 ≤ a.post * a.fs) (hp : a.plot = true → matplotlib = true) (hd : a.deconvolution = true) {t : List ℝ}
    (ht : t = List.replicate ⌊a.pre * a.fs⌋₊ 0 ++ s.map (· * a.volume) ++ List.replicate ⌊a.post * a.fs⌋₊ 0) {g : Nat → Option (List ℝ)}
    (hr : ∀ c, c < a.inputs → ∃ y, (playrec (t.map some))[c]? = some y ∧ wiener lstsq y (s.map (· * a.volume)) none 1 15 2 = .ok (g c)) :
    measure lstsq true matplotlib playrec a = .ok (some (playrec (t.map some), some ((List.range a.inputs).map g))) := by
  unfold measure
  rw [testSignal_ok hs h1 h2, ← ht]
  simp only [bind, Except.bind, hd, if_true, numbers_map, Bool.true_eq_false, if_false]
  rw [mapM_ok (g := g) _ fun c hc => ?_]
  · simp only
    rw [if_neg]
    rintro ⟨h3, h4⟩
    rw [hp h3] at h4
    cases h4
  · obtain ⟨y, h3, h4⟩ := hr c (List.mem_range.mp hc)
    rw [h3]
    exact h4

/-- **C104, measurement.** No coefficient of the sweep is zero, and the responses fit into the silence after the sweep. The response returned of every channel is that of the channel, late by the delay before the
sweep, filtered by real gains: those Wiener gains that are the nearest to one, with the powers of the recording as weights. -/
theorem C104_measure {lstsq : (K J : Nat) → (Nat → Fin J → ℂ) → (Nat → ℂ) → Fin J → ℂ} (hls : IsLstsq lstsq) {matplotlib : Bool} {playrec : List (Option ℝ) → List (List ℝ)} {a : Args} {s : List ℝ}
    (hs : IsSweep a s) (hs0 : 1 ≤ s.length) (h1 : 0 ≤ a.pre * a.fs) (h2 : 0 ≤ a.post * a.fs) (hp : a.plot = true → matplotlib = true) (hd : a.deconvolution = true)
    {h : Nat → List ℝ} (hroom : IsRoom playrec a.inputs h) (hh : ∀ c, c < a.inputs → (h c).length ≤ ⌊a.post * a.fs⌋₊ + 1) {pre L n : Nat} (hpre : pre = ⌊a.pre * a.fs⌋₊)
    (hL : L = pre + s.length + ⌊a.post * a.fs⌋₊) (hn : n = padded L s.length) (hx : ∀ k, k ≤ n / 2 → Sync.spectrum n (s.map (· * a.volume)) k ≠ 0) :
    ∃ (rec : List (List ℝ)) (r : Nat → List ℝ), measure lstsq true matplotlib playrec a = .ok (some (rec, some ((List.range a.inputs).map fun c => some (r c)))) ∧
      ∀ c, c < a.inputs → (r c).length = n ∧ ∃ (y : List ℝ) (A : Nat → ℝ), rec[c]? = some y ∧ y.length = L ∧
        (∀ k, k ≤ n / 2 → Sync.spectrum n (r c) k = A k * Sync.spectrum n (List.replicate pre 0 ++ h c) k) ∧
        ∀ b : Fin 15 → ℝ, ∑ k ∈ range (n / 2 + 1), ‖Sync.spectrum n y k‖ ^ 2 * (A k - 1) ^ 2 ≤ ∑ k ∈ range (n / 2 + 1), ‖Sync.spectrum n y k‖ ^ 2 *
          (∑ j, b j * wienerGain n 15 (∑ k ∈ range (n / 2 + 1), ‖Sync.spectrum n y k‖ ^ 2) (∑ k ∈ range (n / 2 + 1), ‖Sync.spectrum n (s.map (· * a.volume)) k‖ ^ 2) 1 2 j
            (‖Sync.spectrum n (s.map (· * a.volume)) k‖ ^ 2) - 1) ^ 2 := by
  set x := s.map (· * a.volume) with hxd
  have hxl : x.length = s.length := by rw [hxd, List.length_map]
  set t := List.replicate ⌊a.pre * a.fs⌋₊ 0 ++ x ++ List.replicate ⌊a.post * a.fs⌋₊ 0 with ht
  have htl : t.length = L := by
    rw [ht, List.length_append, List.length_append, List.length_replicate, List.length_replicate, hxl]; omega
  have key : ∀ c, ∃ r : List ℝ, c < a.inputs → ∃ y, (playrec (t.map some))[c]? = some y ∧ wiener lstsq y x none 1 15 2 = .ok (some r) ∧ r.length = n ∧ ∃ (A : Nat → ℝ), y.length = L ∧
        (∀ k, k ≤ n / 2 → Sync.spectrum n r k = A k * Sync.spectrum n (List.replicate pre 0 ++ h c) k) ∧
        ∀ b : Fin 15 → ℝ, ∑ k ∈ range (n / 2 + 1), ‖Sync.spectrum n y k‖ ^ 2 * (A k - 1) ^ 2 ≤ ∑ k ∈ range (n / 2 + 1), ‖Sync.spectrum n y k‖ ^ 2 *
          (∑ j, b j * wienerGain n 15 (∑ k ∈ range (n / 2 + 1), ‖Sync.spectrum n y k‖ ^ 2) (∑ k ∈ range (n / 2 + 1), ‖Sync.spectrum n x k‖ ^ 2) 1 2 j (‖Sync.spectrum n x k‖ ^ 2) - 1) ^ 2 := by
    intro c
    by_cases hc : c < a.inputs
    · obtain ⟨y, hy1, hy2, hy3⟩ := hroom t c hc
      have hyL : y.length = L := hy2.trans htl
      have hn' : n = padded y.length x.length := by rw [hyL, hxl, hn]
      have hge := padded_ge y.length x.length
      rw [← hn'] at hge
      have hconv := record_conv (h := h c) (x := x) (y := y) (pre := ⌊a.pre * a.fs⌋₊) (post := ⌊a.post * a.fs⌋₊) (by omega) (hh c hc) (by rw [hy2, ht]) fun n hn => hy3 n (by omega)
      obtain ⟨r, e, hrl, w, hr1, hr2⟩ := wiener_ok hls (y := y) (x := x) (by omega) hn' hx 1 15 2
      have h2n : 2 ≤ n := by rw [hn']; exact padded_pos (by omega)
      refine ⟨r, fun _ => ⟨y, hy1, ?_, hrl, fun k => ∑ j, w j * gain (spec n x) (grid n (spec n y) (spec n x) 1 2 15 j) k, hyL, ?_, ?_⟩⟩
      · rw [e none, cut_none]
      · intro k hk
        have h5 := hr1 k hk
        rw [spectrum_conv hconv (by have := hconv.1; omega), ← mul_assoc] at h5
        rw [mul_right_cancel₀ (hx k hk) h5]
        congr 1
        unfold Sync.spectrum
        refine congrFun (DFT.rfft_congr fun j _ => ?_) k
        rw [getD_delay, getD_pad, getD_delay, hpre]
      · intro b
        have h5 := hr2 b
        simp only [gain_eq h2n] at h5 ⊢
        exact h5
    · exact ⟨[], fun hc' => absurd hc' hc⟩
  choose r hr using key
  refine ⟨playrec (t.map some), r, measure_ok hs h1 h2 hp hd ht fun c hc => ?_, ?_⟩
  · obtain ⟨y, h3, h4, _⟩ := hr c hc
    exact ⟨y, h3, h4⟩
  · intro c hc
    obtain ⟨y, h3, h4, h5, A, h6, h7, h8⟩ := hr c hc
    exact ⟨h5, y, A, h3, h6, h7, h8⟩

/-- **C104, white sweeps.** If all coefficients of the sweep have the same positive magnitude, the response of every channel is returned, but late by the delay before the sweep. -/
theorem C104_measure_exact {lstsq : (K J : Nat) → (Nat → Fin J → ℂ) → (Nat → ℂ) → Fin J → ℂ} (hls : IsLstsq lstsq) {matplotlib : Bool} {playrec : List (Option ℝ) → List (List ℝ)} {a : Args} {s : List ℝ}
    (hs : IsSweep a s) (hs0 : 1 ≤ s.length) (h1 : 0 ≤ a.pre * a.fs) (h2 : 0 ≤ a.post * a.fs) (hp : a.plot = true → matplotlib = true) (hd : a.deconvolution = true)
    {h : Nat → List ℝ} (hroom : IsRoom playrec a.inputs h) {post : Nat} (hpost : post = ⌊a.post * a.fs⌋₊) (hh : ∀ c, c < a.inputs → (h c).length = post + 1) {pre L n : Nat} (hpre : pre = ⌊a.pre * a.fs⌋₊)
    (hL : L = pre + s.length + post) (hn : n = padded L s.length) {P : ℝ} (hP : 0 < P) (hx : ∀ k, k ≤ n / 2 → ‖Sync.spectrum n (s.map (· * a.volume)) k‖ ^ 2 = P) :
    ∃ rec : List (List ℝ), measure lstsq true matplotlib playrec a =
      .ok (some (rec, some ((List.range a.inputs).map fun c => some (List.replicate pre 0 ++ h c ++ List.replicate (n - (pre + (post + 1))) 0)))) := by
  have hL' : (List.replicate ⌊a.pre * a.fs⌋₊ 0 ++ s.map (· * a.volume) ++ List.replicate ⌊a.post * a.fs⌋₊ 0).length = L := by
    rw [List.length_append, List.length_append, List.length_replicate, List.length_replicate, List.length_map]; omega
  refine ⟨_, measure_ok (g := fun c => some (List.replicate pre 0 ++ h c ++ List.replicate (n - (pre + (post + 1))) 0)) hs h1 h2 hp hd rfl fun c hc => ?_⟩
  obtain ⟨y, hy1, hy2, hy3⟩ := hroom (List.replicate ⌊a.pre * a.fs⌋₊ 0 ++ s.map (· * a.volume) ++ List.replicate ⌊a.post * a.fs⌋₊ 0) c hc
  refine ⟨y, hy1, ?_⟩
  have hlen := hh c hc
  have hconv := record_conv (h := h c) (x := s.map (· * a.volume)) (y := y) (pre := ⌊a.pre * a.fs⌋₊) (post := ⌊a.post * a.fs⌋₊) (by rw [List.length_map]; exact hs0) (by omega) hy2
    fun n hn => hy3 n (by omega)
  rw [show ⌊a.post * a.fs⌋₊ + 1 - (h c).length = 0 by omega, List.replicate_zero, List.append_nil, ← hpre] at hconv
  have := (C103_wiener_exact hls hconv (by rw [List.length_append]; omega) (by rw [List.length_map]; exact hs0) (n := n) (by rw [hy2, hL', List.length_map]; exact hn) hP hx one_pos (J := 15) (by norm_num) two_pos).1
  rw [this, List.length_append, List.length_replicate, hlen]

/-- **C104, no plots.** Without matplotlib nothing is returned, although the recording was made; without sounddevice, with unknown sweeps and with negative delays it raises. -/
theorem C104_measure_deviation {lstsq : (K J : Nat) → (Nat → Fin J → ℂ) → (Nat → ℂ) → Fin J → ℂ} {playrec : List (Option ℝ) → List (List ℝ)} (a : Args) :
    (∀ {s : List ℝ}, IsSweep a s → 0 ≤ a.pre * a.fs → 0 ≤ a.post * a.fs → a.plot = true → a.deconvolution = false → measure lstsq true false playrec a = .ok none) ∧
      (∀ m, measure lstsq false m playrec a = .error .runtimeError) ∧
      (∀ m, a.kind ≠ "exponential" → a.kind ≠ "linear" → measure lstsq true m playrec a = .error .keyError) ∧
      ∀ {s : List ℝ} (m : Bool), IsSweep a s → (a.pre * a.fs ≤ -1 ∨ 0 ≤ a.pre * a.fs ∧ a.post * a.fs ≤ -1) → measure lstsq true m playrec a = .error .valueError := by
  have hneg : ∀ v : ℝ, v ≤ -1 → zeros (trunc v) = .error .valueError := by
    intro v hv
    have h1 : ⌈v⌉ ≤ -1 := Int.ceil_le.mpr (by push_cast; exact hv)
    have h2 : trunc v = ⌈v⌉ := by
      unfold trunc
      rw [if_neg (by linarith)]
    unfold zeros
    rw [h2, if_pos (by omega)]
  refine ⟨?_, ?_, ?_, ?_⟩
  · intro s hs h1 h2 hp hd
    unfold measure
    rw [testSignal_ok hs h1 h2]
    simp only [bind, Except.bind, hd, hp, Bool.true_eq_false, Bool.false_eq_true, if_false]
    rfl
  · intro m
    rfl
  · intro m h1 h2
    unfold measure testSignal sweepOf
    rw [if_neg h1, if_neg h2]
    rfl
  · intro s m hs h
    unfold measure testSignal
    rw [sweepOf_ok hs]
    rcases h with h | ⟨h1, h2⟩
    · rw [hneg _ h]
      rfl
    · rw [zeros_ok h1, hneg _ h2]
      rfl

/-- Two samples of a linear sweep. -/
theorem sweep_two {a : Args} (h1 : a.kind = "linear") (h2 : a.length = 1) (h3 : a.fs = 2) (h4 : a.flo = 0) (h5 : a.fhi = none) (h6 : a.fade = 0) (h7 : a.ascending = false) : ∃ v : ℝ, v ≠ 0 ∧ IsSweep a [v, 0] := by
  obtain ⟨φ, f, h8, h9, h10, _, _, _, _, h11⟩ := C104_linear (T := 1) (fs := 2) (flo := 0) (lo := 0) (hi := 1) (fhi := none) (N := 2) (by norm_num) (by norm_num) (Or.inl ⟨rfl, by norm_num⟩) (by norm_num) (by norm_num) (by norm_num)
  have hφ : φ (1 / 2) = Real.pi / 4 := by
    have hd : ∀ t, HasDerivAt (fun t => φ t - Real.pi * t ^ 2) 0 t := by
      intro t
      have := (h9 t).sub ((hasDerivAt_pow 2 t).const_mul Real.pi)
      have e : 2 * Real.pi * f t - Real.pi * (((2 : Nat) : ℝ) * t ^ (2 - 1)) = 0 := by
        rw [h10]
        simp
        ring
      rw [e] at this
      exact this
    have hc := is_const_of_deriv_eq_zero (fun t => (hd t).differentiableAt) (fun t => (hd t).deriv) (1 / 2) 0
    simp only [h8] at hc
    linarith
  refine ⟨Real.sin (Real.pi / 4), ?_, Or.inr ⟨h1, ?_⟩⟩
  · rw [Real.sin_pi_div_four]
    positivity
  · rw [h2, h3, h4, h5, h6, h7, (C104_fade 0).2 h11, if_neg (lt_irrefl _)]
    simp [List.range_succ, ← hφ, h8]

theorem spectrum_first {N : Nat} (hN : 2 ≤ N) (v : ℝ) (k : Nat) : Sync.spectrum N [v, 0] k = v := by
  unfold Sync.spectrum DFT.rfft DFT.dft
  rw [Finset.sum_eq_single 0]
  · simp [DFT.tw_zero]
  · intro m _ hm
    by_cases h : m = 1
    · subst h; simp
    · simp only [Sync.getD_zero [v, 0] (show [v, (0 : ℝ)].length ≤ m by simp; omega)]
      simp
  · intro h
    exact absurd (mem_range.mpr (by omega)) h

/-- A device that plays into two rooms. -/
noncomputable def twoRooms (t : List (Option ℝ)) : List (List ℝ) :=
  (List.range 2).map fun (c : Nat) => (List.range t.length).map fun (n : Nat) => ∑ p ∈ antidiagonal n, ([[1, 2], [0, 3]].getD c []).getD p.1 0 * ((t.map (·.getD 0)).getD p.2 0)

theorem twoRooms_isRoom : IsRoom twoRooms 2 fun c => [[1, 2], [0, 3]].getD c [] := by
  intro t c hc
  refine ⟨_, by unfold twoRooms; rw [List.getElem?_map, List.getElem?_range hc]; rfl, by simp, ?_⟩
  intro n hn
  rw [List.getD_eq_getElem _ _ (by simpa using hn)]
  simp [Function.comp_def]

/-- Both responses are returned, late by one sample. -/
example : ∃ lstsq, IsLstsq lstsq ∧ ∃ rec z1 z2, measure lstsq true true twoRooms { length := 1, kind := "linear", fs := 2, pre := 0.5, post := 0.5, inputs := 2 } =
    .ok (some (rec, some [some ([0, 1, 2] ++ z1), some ([0, 0, 3] ++ z2)])) := by
  obtain ⟨lstsq, hls⟩ := exists_lstsq
  set a : Args := { length := 1, kind := "linear", fs := 2, pre := 0.5, post := 0.5, inputs := 2 } with ha
  obtain ⟨v, hv, hs⟩ := sweep_two (a := a) rfl rfl rfl rfl rfl rfl rfl
  have hf : ⌊a.pre * a.fs⌋₊ = 1 := by rw [ha]; norm_num
  have hf2 : ⌊a.post * a.fs⌋₊ = 1 := by rw [ha]; norm_num
  obtain ⟨rec, h⟩ := C104_measure_exact hls (matplotlib := true) hs (by simp) (by rw [ha]; norm_num) (by rw [ha]; norm_num) (fun _ => rfl) rfl twoRooms_isRoom hf2.symm
    (by intro c hc; have : c < 2 := hc; interval_cases c <;> rfl) hf.symm rfl rfl (P := (v * a.volume) ^ 2) (by rw [ha]; positivity) (by
      intro k hk
      have e : [v, 0].map (· * a.volume) = [v * a.volume, 0] := by simp
      rw [e, spectrum_first (by simp [padded]), Complex.norm_real, Real.norm_eq_abs, sq_abs])
  exact ⟨lstsq, hls, rec, _, _, h⟩

end Verif.Sweep
