import Verif.BeamProc.Frequency
import Verif.GriffinLim.Props
import Mathlib.Analysis.InnerProductSpace.Projection.Minimal
import Mathlib.Analysis.InnerProductSpace.PiL2
import Mathlib.LinearAlgebra.Matrix.ToLin

/-!
# C86: processing of a beamformer
-/

namespace Verif.BeamProc

open Verif.Py Verif.DFT Verif.STFT Finset

variable {M : Nat}

/-! ## Specification -/

/-- The signals, each convolved with its filter, summed. -/
noncomputable def filtered (f x : Fin M → List ℝ) (i : Int) : ℝ := ∑ m, ∑ b ∈ range (f m).length, (f m).getD b 0 * sigAt (x m) (i - b)

/-- The least squares routine minimises. -/
def IsLstsq (lstsq : {a b : Nat} → Matrix (Fin a) (Fin b) ℂ → (Fin a → ℂ) → Fin b → ℂ) : Prop :=
  ∀ {a b : Nat} (F : Matrix (Fin a) (Fin b) ℂ) (w : Fin a → ℂ) (h : Fin b → ℂ), ∑ k, ‖F.mulVec (lstsq F w) k - w k‖ ^ 2 ≤ ∑ k, ‖F.mulVec h k - w k‖ ^ 2

/-! ## Lemmas -/

theorem sigAt_padded (hop : Nat) (x : List ℝ) (j : Int) : sigAt (padded hop x) j = sigAt x j := by
  unfold sigAt
  split
  · rw [padded_getD]
  · rfl

theorem hann_cola {hop i : Nat} (hi : i < hop) : ∑ t ∈ (range (2 * hop)).filter (fun t => t % hop = i), winAt (some (hann (2 * hop))) t = 1 := by
  have hh : (0 : ℝ) < hop := by
    have : 0 < hop := by omega
    exact_mod_cast this
  have hs : (range (2 * hop)).filter (fun t => t % hop = i) = {i, i + hop} := by
    apply Finset.ext
    intro t
    simp only [mem_filter, mem_range, mem_insert, mem_singleton]
    constructor
    · rintro ⟨h1, h2⟩
      by_cases ht : t < hop
      · left
        rwa [Nat.mod_eq_of_lt ht] at h2
      · right
        have h3 : t = (t - hop) + hop := by omega
        rw [h3, Nat.add_mod_right, Nat.mod_eq_of_lt (by omega)] at h2
        omega
    · rintro (rfl | rfl)
      · exact ⟨by omega, Nat.mod_eq_of_lt hi⟩
      · exact ⟨by omega, by rw [Nat.add_mod_right, Nat.mod_eq_of_lt hi]⟩
  have hw : ∀ t, t < 2 * hop → winAt (some (hann (2 * hop))) t = 0.5 * (1 - Real.cos (2 * Real.pi * ((t : ℝ) / (2 * hop : Nat)))) := by
    intro t ht
    change (hann (2 * hop)).getD t 0 = _
    unfold hann
    rw [List.getD_eq_getElem _ _ (by simpa using ht)]
    simp
  rw [hs, sum_pair (by omega), hw i (by omega), hw (i + hop) (by omega)]
  have : 2 * Real.pi * (((i + hop : Nat) : ℝ) / (2 * hop : Nat)) = 2 * Real.pi * ((i : ℝ) / (2 * hop : Nat)) + Real.pi := by
    push_cast
    field_simp
  rw [this, Real.cos_add_pi]
  norm_num
  ring

theorem filterObject_eq {L hop zpf zpb : Nat} {aw : Option (List ℝ)} {h : List ℝ} {s : St} (hs : filterObject L hop aw h zpb zpf = some s) :
    s.conf = config L hop zpf zpb aw ∧ s.H = some (rfft (L + zpb + zpf) fun n => h.getD n 0) ∧ Fresh s := by
  unfold filterObject create at hs
  split at hs
  · exact nomatch hs
  · rename_i s0 h0
    split at h0
    · exact nomatch h0
    · rw [Except.ok.injEq] at h0
      subst h0
      split at hs
      · exact nomatch hs
      · rename_i hset
        rw [Option.some.injEq] at hs
        subst hs
        unfold setFilter at hset
        simp only at hset
        split at hset
        · simp at hset
        · simp only [Prod.mk.injEq, true_and] at hset
          subst hset
          refine ⟨?_, rfl, fun _ => rfl, fun _ => rfl⟩
          cases aw <;> rfl

/-- One channel through the transform. -/
theorem channel {hop zpf zpb : Nat} {h x : List ℝ} {i : Nat} (h1 : 1 ≤ hop) (hzb : h.length ≤ zpb + 1) (hi : i < ceilDiv x.length hop * hop) :
    ola (2 * hop + zpb + zpf) hop (ceilDiv x.length hop) (outFrame (config (2 * hop) hop zpf zpb (some (hann (2 * hop)))) (some (rfft (2 * hop + zpb + zpf) fun n => h.getD n 0)) (sigAt (padded hop x))) i =
      ∑ b ∈ range h.length, h.getD b 0 * sigAt x ((i : Int) - b - (zpf + hop : Nat)) := by
  obtain ⟨s, s', y, hs, e, l, v⟩ := C16_filter (2 * hop) hop zpf zpb (some (hann (2 * hop))) h (by simp [hann]) h1 (by omega) (by omega) hzb (fun i hi => hann_cola hi) [x]
  obtain ⟨hc, hH, hF⟩ := filterObject_eq hs
  have hok : s.conf.Ok := by
    rw [hc]
    exact config_ok h1 (by omega) (by omega) (by simp [hann])
  obtain ⟨s2, y2, e2, l2, v2⟩ := pipe_ola s hF hok (by rw [hc]; rfl) [x] (by rw [hc]; simp [config])
  rw [e] at e2
  obtain ⟨rfl, rfl⟩ : s' = s2 ∧ y = y2 := by simpa using e2
  have hhop : s.conf.hop = hop := by
    rw [hc]
    rfl
  rw [hH] at v2
  rw [hc] at v2
  simp only [config, stream_one] at v2 v
  rw [stream_one, padded_length h1] at l
  have h1' := v i (by omega)
  rw [v2 i (by omega), padded_length h1, Nat.mul_div_cancel _ h1] at h1'
  simp only [sigAt_padded] at h1' ⊢
  rw [show 2 * hop - hop = hop by omega] at h1'
  exact h1'

theorem delayed_eq (h x : List ℝ) (i : Nat) : ∑ j ∈ range h.length, (if j ≤ i then h.getD j 0 * x.getD (i - j) 0 else 0) = ∑ b ∈ range h.length, h.getD b 0 * sigAt x ((i : Int) - b) := by
  refine sum_congr rfl fun b _ => ?_
  by_cases hb : b ≤ i
  · rw [if_pos hb, sigAt, if_pos (by omega)]
    congr 2
    omega
  · rw [if_neg hb, sigAt, if_neg (by omega), mul_zero]

theorem conv_getD {h x : List ℝ} (hh : h ≠ []) (hx : x ≠ []) {i : Nat} (hi : i < h.length + x.length - 1) :
    (Simulate.fftconvolve h x).getD i 0 = ∑ b ∈ range h.length, h.getD b 0 * sigAt x ((i : Int) - b) := by
  have h1 := List.length_pos_of_ne_nil hh
  have h2 := List.length_pos_of_ne_nil hx
  unfold Simulate.fftconvolve
  rw [if_neg (by omega), Simulate.getD_map_range, if_pos hi, Simulate.sum_range_list, delayed_eq]

theorem foldl_add {n : Nat} : ∀ (ys : List (List ℝ)) (y : List ℝ), y.length = n → (∀ v ∈ ys, v.length = n) →
    (ys.foldl (fun a v => List.zipWith (· + ·) a v) y).length = n ∧ ∀ i, i < n → (ys.foldl (fun a v => List.zipWith (· + ·) a v) y).getD i 0 = y.getD i 0 + (ys.map fun v => v.getD i 0).sum
  | [], y, hy, _ => ⟨hy, fun i _ => by simp⟩
  | v :: ys, y, hy, hys => by
    have hv := hys v List.mem_cons_self
    have hl : (List.zipWith (· + ·) y v).length = n := by simp [hy, hv]
    obtain ⟨h1, h2⟩ := foldl_add ys (List.zipWith (· + ·) y v) hl fun u hu => hys u (List.mem_cons_of_mem _ hu)
    refine ⟨h1, fun i hi => ?_⟩
    have hz : (List.zipWith (· + ·) y v).getD i 0 = y.getD i 0 + v.getD i 0 := by
      rw [List.getD_eq_getElem _ _ (by omega), List.getD_eq_getElem _ _ (by omega), List.getD_eq_getElem _ _ (by omega), List.getElem_zipWith]
    rw [List.foldl_cons, h2 i hi, hz, List.map_cons, List.sum_cons]
    ring

/-! ## C86 -/

/-- **C86** In the time domain the sum of the signals convolved with the filters is returned, to the last sample. -/
theorem C86_time {lstsq : {a b : Nat} → Matrix (Fin a) (Fin b) ℂ → (Fin a → ℂ) → Fin b → ℂ} {b : Bf M} {f x : Fin M → List ℝ} {n : Nat} (hM : 1 ≤ M) (hf : b.filters = some f) (hx : b.signals = some x)
    (hfl : ∀ m, (f m).length = b.Lg) (hxl : ∀ m, (x m).length = n) (hL : 1 ≤ b.Lg) (hn : 1 ≤ n) :
    ∃ y, process lstsq b false = .ok (b, y) ∧ y.length = b.Lg + n - 1 ∧ ∀ i, i < y.length → y.getD i 0 = filtered f x i := by
  unfold process
  rw [hx]
  simp only [Bool.false_eq_true, if_false, hf]
  unfold timeDomain
  obtain ⟨M, rfl⟩ : ∃ k, M = k + 1 := ⟨M - 1, by omega⟩
  rw [List.finRange_succ, List.map_cons]
  simp only [Except.map]
  have hne : ∀ m, f m ≠ [] := fun m h => by
    have := hfl m
    rw [h] at this
    simp at this
    omega
  have hnx : ∀ m, x m ≠ [] := fun m h => by
    have := hxl m
    rw [h] at this
    simp at this
    omega
  have hlen : ∀ m, (Simulate.fftconvolve (f m) (x m)).length = b.Lg + n - 1 := fun m => by
    rw [Simulate.fftconvolve_length (hne m) (hnx m), hfl, hxl]
  obtain ⟨h1, h2⟩ := foldl_add (((List.finRange M).map Fin.succ).map fun m => Simulate.fftconvolve (f m) (x m)) (Simulate.fftconvolve (f 0) (x 0)) (hlen 0) (by
    intro v hv
    obtain ⟨m, _, rfl⟩ := List.mem_map.mp hv
    exact hlen m)
  refine ⟨_, rfl, h1, fun i hi => ?_⟩
  rw [h1] at hi
  rw [h2 i hi]
  unfold filtered
  rw [Fin.sum_univ_succ, conv_getD (hne 0) (hnx 0) (by rw [hfl, hxl]; exact hi), List.map_map, List.map_map]
  congr 1
  rw [Fin.sum_univ_def]
  congr 1
  refine List.map_congr_left fun m _ => ?_
  exact conv_getD (hne _) (hnx _) (by rw [hfl, hxl]; exact hi)

/-- **C86** With filters no longer than the padding at the end of the frames allows and the default hop of half a frame, the processing in the frequency domain gives what the one in the time domain does, delayed by
the hop (and without the end). -/
theorem C86_frequency {lstsq : {a b : Nat} → Matrix (Fin a) (Fin b) ℂ → (Fin a → ℂ) → Fin b → ℂ} {b : Bf M} {f x : Fin M → List ℝ} {n : Nat} (hM : 2 ≤ M) (hw : b.weights = none) (hf : b.filters = some f)
    (hx : b.signals = some x) (hfl : ∀ m, (f m).length ≤ b.zpb + 1) (hxl : ∀ m, (x m).length = n) (hN : b.N = b.L + b.zpf + b.zpb) (hhop : b.L = 2 * b.hop) (h1 : 1 ≤ b.hop) (hn : b.hop < n) :
    ∃ b' y, process lstsq b true = .ok (b', y) ∧ y.length = ceilDiv n b.hop * b.hop - b.zpf - b.zpb ∧ ∀ i, i < y.length → y.getD i 0 = filtered f x ((i : Int) - b.hop) := by
  unfold process
  rw [hx]
  simp only [if_true, hw]
  unfold weightsFromFilters
  rw [hf]
  simp only [Option.getD_some]
  obtain ⟨y, e, l, v⟩ := frequencyDomain_ola (b := { b with filters := some f, weights := some fun m k => star (rfft b.N (fun n => (f m).getD n 0) k) })
    (w := fun m k => star (rfft b.N (fun n => (f m).getD n 0) k)) (x := x) hM hxl h1 (by simp only; omega) (by simp only; omega) hn
  rw [e]
  refine ⟨_, y, rfl, l, fun i hi => ?_⟩
  rw [v i hi]
  simp only at l ⊢
  unfold filtered
  refine sum_congr rfl fun m _ => ?_
  have hN' : b.N = 2 * b.hop + b.zpb + b.zpf := by omega
  simp only [star_star, hN', hhop]
  have hc := channel (x := x m) (i := b.zpf + i) (zpf := b.zpf) h1 (hfl m) (by rw [hxl]; omega)
  rw [hxl] at hc
  rw [hc]
  refine sum_congr rfl fun k _ => ?_
  congr 2
  push_cast
  ring

/-- **C86** With weights given, the processing in the frequency domain gives the overlap-added frames in which the spectra of the channels (of the frames seen through a Hann window) are multiplied by the conjugate
weights and summed. -/
theorem C86_frames {lstsq : {a b : Nat} → Matrix (Fin a) (Fin b) ℂ → (Fin a → ℂ) → Fin b → ℂ} {b : Bf M} {w : Fin M → Nat → ℂ} {x : Fin M → List ℝ} {n : Nat} (hM : 2 ≤ M) (hw : b.weights = some w)
    (hx : b.signals = some x) (hxl : ∀ m, (x m).length = n) (hN : b.N = b.L + b.zpf + b.zpb) (h2 : b.hop ≤ b.L) (h3 : 2 ≤ b.N) (h1 : 1 ≤ b.hop) (hn : b.hop < n) :
    ∃ y, process lstsq b true = .ok (b, y) ∧ y.length = ceilDiv n b.hop * b.hop - b.zpf - b.zpb ∧
      ∀ i, i < y.length → y.getD i 0 = ola b.N b.hop (ceilDiv n b.hop) (fun f j => irfft b.N (fun k => ∑ m, star (w m k) *
        rfft b.N (fun t => if b.zpf ≤ t ∧ t < b.zpf + b.L then 0.5 * (1 - Real.cos (2 * Real.pi * (((t - b.zpf : Nat) : ℝ) / b.L))) * sigAt (x m) (((f + 1) * b.hop : Nat) - b.L + ((t : Int) - b.zpf)) else 0) k) j) (b.zpf + i) := by
  obtain ⟨y, e, l, v⟩ := frequencyDomain_ola (w := w) (x := x) hM hxl h1 h2 (by omega) hn
  refine ⟨y, ?_, l, fun i hi => ?_⟩
  · unfold process
    rw [hx]
    simp only [if_true, hw, e]
    rfl
  · rw [v i hi, ← ola_sum]
    have hN' : b.L + b.zpb + b.zpf = b.N := by omega
    rw [hN']
    congr 1
    funext f j
    rw [irfft_sum]
    refine sum_congr rfl fun m _ => ?_
    unfold outFrame procFrame
    have hnf : (config b.L b.hop b.zpf b.zpb (some (hann b.L))).nfft = b.N := hN'
    have hsw : winAt (config b.L b.hop b.zpf b.zpb (some (hann b.L))).sw j = 1 := rfl
    rw [hnf, hsw, one_mul]
    congr 1
    funext k
    change rfft b.N _ k * star (w m k) = _
    rw [mul_comm (rfft b.N _ k)]
    congr 1
    refine congrFun (rfft_congr fun t _ => ?_) k
    unfold block
    simp only [config, sigAt_padded, Option.map_some, winAt]
    by_cases ht : b.zpf ≤ t ∧ t < b.zpf + b.L
    · rw [if_pos ht, if_pos ht]
      congr 1
      rw [List.getD_append_right _ _ _ _ (by simpa using ht.1), List.length_replicate, List.getD_append _ _ _ _ (by simp [hann]; omega)]
      unfold hann
      rw [List.getD_eq_getElem _ _ (by simp; omega)]
      simp
    · rw [if_neg ht, if_neg ht, mul_zero]

/-! ### Weights and filters -/

/-- The spectrum that is kept: the coefficients of frequency zero and of half the sampling frequency without their imaginary parts. -/
noncomputable def realEnds (N : Nat) (X : Nat → ℂ) (k : Nat) : ℂ := if k = 0 ∨ 2 * k = N then ((X k).re : ℂ) else X k

/-- The conjugate of an inverse transform. -/
theorem idft_star {N : Nat} (Z : Nat → ℂ) (n : Nat) : star (idft N Z n) = idft N (fun k => star (Z ((N - k) % N))) n := by
  rcases Nat.eq_zero_or_pos N with rfl | hN
  · simp [idft]
  unfold idft
  rw [star_div₀, star_sum]
  congr 1
  · apply sum_nbij' (fun k => (N - k) % N) (fun k => (N - k) % N)
    · intro k _
      exact mem_range.mpr (Nat.mod_lt _ hN)
    · intro k _
      exact mem_range.mpr (Nat.mod_lt _ hN)
    · intro k hk
      exact invol hN (mem_range.mp hk)
    · intro k hk
      exact invol hN (mem_range.mp hk)
    · intro k hk
      have hk := mem_range.mp hk
      beta_reduce
      rw [invol hN hk, star_mul', ← starRingEnd_apply, ← starRingEnd_apply, tw_conj]
      congr 1
      rcases Nat.eq_zero_or_pos k with rfl | hk0
      · simp
      · rw [Nat.mod_eq_of_lt (by omega)]
        have h1 : ((n : Int) * ((N - k : Nat) : Int)) = -((n : Int) * k) + n * N := by
          push_cast [hk.le]
          ring
        rw [h1, tw_add, tw_dvd hN (Dvd.intro_left _ rfl), mul_one]
  · simp
where
  invol {N k : Nat} (hN : 0 < N) (hk : k < N) : (N - (N - k) % N) % N = k := by
    rcases Nat.eq_zero_or_pos k with rfl | hk0
    · simp
    · rw [Nat.mod_eq_of_lt (a := N - k) (by omega), Nat.mod_eq_of_lt (by omega)]
      omega

theorem irfft_idft {N : Nat} (X : Nat → ℂ) (n : Nat) : ((irfft N X n : ℝ) : ℂ) = idft N (hermExt N (realEnds N X)) n := by
  unfold irfft
  have h1 : (((idft N (hermExt N X) n).re : ℝ) : ℂ) = (idft N (hermExt N X) n + star (idft N (hermExt N X) n)) / 2 := by
    rw [Complex.re_eq_add_conj]
    rfl
  rw [h1, idft_star]
  unfold idft
  rw [← add_div, ← sum_add_distrib, div_right_comm, sum_div]
  congr 1
  refine sum_congr rfl fun k hk => ?_
  have hk := mem_range.mp hk
  rw [← add_mul, mul_div_right_comm]
  congr 1
  unfold hermExt realEnds
  beta_reduce
  rcases Nat.eq_zero_or_pos k with rfl | hk0
  · simp only [Nat.sub_zero, Nat.mod_self, Nat.zero_le, if_true, true_or]
    rw [Complex.re_eq_add_conj]
    rfl
  · rw [Nat.mod_eq_of_lt (a := N - k) (by omega)]
    by_cases h2 : k ≤ N / 2
    · rw [if_pos h2, if_pos h2]
      by_cases h3 : 2 * k = N
      · rw [if_pos (by omega), if_pos (Or.inr h3)]
        have : N - k = k := by omega
        rw [this, Complex.re_eq_add_conj]
        rfl
      · rw [if_neg (by omega), if_neg (by omega)]
        have : N - (N - k) = k := by omega
        rw [this, ← starRingEnd_apply, Complex.conj_conj]
        ring
    · rw [if_neg h2, if_neg h2, if_pos (by omega), if_neg (by omega)]
      rw [← starRingEnd_apply]
      ring

theorem dft_irfft {N : Nat} (X : Nat → ℂ) {k : Nat} (hk : k < N) : dft N (fun n => ((irfft N X n : ℝ) : ℂ)) k = hermExt N (realEnds N X) k := by
  rw [← GriffinLim.dft_idft (hermExt N (realEnds N X)) hk]
  congr 1
  funext n
  exact irfft_idft X n

theorem tw_half {N : Nat} (hN : 0 < N) (he : N % 2 = 0) (k : Nat) : tw N ((N / 2 : Nat) * k) = (-1) ^ k := by
  rw [tw_mul_nat]
  congr 1
  unfold tw
  have h : ((N / 2 : Nat) : ℂ) = N / 2 := by
    rw [Nat.cast_div (by omega) (by norm_num)]
    norm_num
  have hN0 : (N : ℂ) ≠ 0 := by exact_mod_cast hN.ne'
  have h2 : 2 * (Real.pi : ℂ) * Complex.I * (((N / 2 : Nat) : Int) : ℂ) / (N : ℂ) = Real.pi * Complex.I := by
    rw [Int.cast_natCast, h]
    field_simp
  rw [h2, Complex.exp_pi_mul_I]

/-- The filter of the first kind at its taps. -/
theorem centred_getD {N Lg : Nat} (he : N % 2 = 0) (t : Nat → ℝ) {n : Nat} (hn : n < N) :
    (centred N ((List.range N).map t) ++ List.replicate (Lg - N) 0).getD n 0 = t ((n + N / 2) % N) := by
  have h2 : 2 * (N / 2) = N := by omega
  have hl : (centred N ((List.range N).map t)).length = N := by
    simp [centred]
    omega
  rw [List.getD_append _ _ _ _ (by omega)]
  unfold centred
  rw [List.length_map, List.length_range]
  by_cases h : n < N / 2
  · rw [List.getD_append _ _ _ _ (by simp; omega), List.getD_eq_getElem?_getD, List.getElem?_drop, List.getElem?_map, List.getElem?_range (by omega), Nat.mod_eq_of_lt (by omega)]
    simp only [Option.map_some, Option.getD_some]
    congr 1
    omega
  · rw [List.getD_append_right _ _ _ _ (by simp; omega), List.length_drop, List.length_map, List.length_range, List.getD_eq_getElem?_getD, List.getElem?_take, if_pos (by omega), List.getElem?_map,
      List.getElem?_range (by omega)]
    simp only [Option.map_some, Option.getD_some]
    congr 1
    have : n + N / 2 = (n - (N - N / 2)) + N := by omega
    rw [this, Nat.add_mod_right, Nat.mod_eq_of_lt (by omega)]
    omega

theorem dft_centred {N Lg : Nat} (hN : 0 < N) (he : N % 2 = 0) (X : Nat → ℂ) {k : Nat} (hk : k < N) :
    rfft N (fun n => (centred N ((List.range N).map (irfft N X)) ++ List.replicate (Lg - N) 0).getD n 0) k = (-1) ^ k * hermExt N (realEnds N X) k := by
  rw [← dft_irfft X hk, ← tw_half hN he]
  unfold rfft dft
  rw [mul_sum]
  have h2 : 2 * (N / 2) = N := by omega
  apply sum_nbij' (fun n => (n + N / 2) % N) (fun n => (n + N / 2) % N)
  · intro n _
    exact mem_range.mpr (Nat.mod_lt _ hN)
  · intro n _
    exact mem_range.mpr (Nat.mod_lt _ hN)
  · intro n hn
    have hn := mem_range.mp hn
    rw [Nat.mod_add_mod, show n + N / 2 + N / 2 = n + N by omega, Nat.add_mod_right, Nat.mod_eq_of_lt hn]
  · intro n hn
    have hn := mem_range.mp hn
    rw [Nat.mod_add_mod, show n + N / 2 + N / 2 = n + N by omega, Nat.add_mod_right, Nat.mod_eq_of_lt hn]
  · intro n hn
    have hn := mem_range.mp hn
    beta_reduce
    rw [centred_getD he _ hn, mul_left_comm]
    congr 1
    rw [← tw_add]
    by_cases h : n < N / 2
    · rw [Nat.mod_eq_of_lt (by omega)]
      congr 1
      push_cast
      ring
    · have h3 : (n + N / 2) % N = n - N / 2 := by
        have : n + N / 2 = (n - N / 2) + N := by omega
        rw [this, Nat.add_mod_right, Nat.mod_eq_of_lt (by omega)]
      rw [h3]
      have h4 : ((N / 2 : Nat) : Int) * k + -(((n - N / 2 : Nat) : Int) * k) = -((n : Int) * k) + k * N := by
        have h5 : ((N / 2 : Nat) : Int) + (N / 2 : Nat) = N := by omega
        rw [← h5]
        push_cast [show N / 2 ≤ n by omega]
        ring
      rw [h4, tw_add, tw_dvd hN (Dvd.intro_left _ rfl), mul_one]

/-- **C86** For filters that are at least as long as the transform, the filters computed from the weights have these weights, delayed by half the transform: weight `k` is multiplied by `(-1)^k` (and the imaginary
parts at both ends are lost). -/
theorem C86_weights {lstsq : {a b : Nat} → Matrix (Fin a) (Fin b) ℂ → (Fin a → ℂ) → Fin b → ℂ} {b b' : Bf M} {w : Fin M → Nat → ℂ} {nc : ℝ} (hN : 0 < b.N) (he : b.N % 2 = 0) (hL : b.N ≤ b.Lg)
    (hw : b.weights = some w) (h : filtersFromWeights lstsq b nc = .ok b') :
    ∃ b'' w', weightsFromFilters b' = .ok b'' ∧ b''.weights = some w' ∧ ∀ m k, k ≤ b.N / 2 → w' m k = (-1) ^ k * realEnds b.N (w m) k := by
  unfold filtersFromWeights at h
  rw [hw] at h
  simp only at h
  rw [if_pos hL, Except.ok.injEq] at h
  subst h
  refine ⟨_, _, rfl, rfl, fun m k hk => ?_⟩
  simp only
  rw [dft_centred hN he _ (by omega), star_mul']
  congr 1
  · simp
  · unfold hermExt
    rw [if_pos hk]
    unfold realEnds
    split
    · simp
    · simp

/-- The response of filters to an oscillation of frequency `k`. -/
theorem response {N k i : Nat} {h x : List ℝ} {A : ℂ} (hh : ∀ j, N ≤ j → h.getD j 0 = 0) (hi : N ≤ i + 1) (hx : ∀ j, j ≤ i → x.getD j 0 = (A * tw N ((k : Int) * j)).re) :
    ∑ b ∈ range h.length, h.getD b 0 * sigAt x ((i : Int) - b) = (A * rfft N (fun n => h.getD n 0) k * tw N ((k : Int) * i)).re := by
  have h1 : ∑ b ∈ range h.length, h.getD b 0 * sigAt x ((i : Int) - b) = ∑ b ∈ range N, h.getD b 0 * sigAt x ((i : Int) - b) := by
    have h0 : ∀ b, h.length ≤ b → h.getD b 0 = 0 := fun b hb => List.getD_eq_default _ _ hb
    rcases le_total h.length N with hl | hl
    · refine sum_subset (range_subset_range.mpr hl) fun b _ hb => ?_
      rw [h0 b (by simpa using hb), zero_mul]
    · refine (sum_subset (range_subset_range.mpr hl) fun b _ hb => ?_).symm
      rw [hh b (by simpa using hb), zero_mul]
  rw [h1]
  unfold rfft dft
  rw [mul_sum, sum_mul, Complex.re_sum]
  refine sum_congr rfl fun b hb => ?_
  have hb := mem_range.mp hb
  have h2 : sigAt x ((i : Int) - b) = (A * tw N ((k : Int) * ((i : Int) - b))).re := by
    unfold sigAt
    rw [if_pos (by omega), hx _ (by omega)]
    congr 3
    rw [Int.toNat_of_nonneg (by omega)]
  rw [h2]
  have h3 : A * (((h.getD b 0 : ℝ) : ℂ) * tw N (-((b : Int) * k))) * tw N ((k : Int) * i) = ((h.getD b 0 : ℝ) : ℂ) * (A * tw N ((k : Int) * ((i : Int) - b))) := by
    have : tw N ((k : Int) * ((i : Int) - b)) = tw N (-((b : Int) * k)) * tw N ((k : Int) * i) := by
      rw [← tw_add]
      congr 1
      ring
    rw [this]
    ring
  rw [h3, Complex.re_ofReal_mul]

/-- **C86** Processing in the time domain applies the weights: once the filters have filled, oscillations of one of the frequencies of the transform come out as the sum of their amplitudes times the conjugate
weights, delayed by half a transform. -/
theorem C86_response {lstsq : {a b : Nat} → Matrix (Fin a) (Fin b) ℂ → (Fin a → ℂ) → Fin b → ℂ} {b : Bf M} {w : Fin M → Nat → ℂ} {x : Fin M → List ℝ} {A : Fin M → ℂ} {k n : Nat} (hM : 1 ≤ M)
    (hN : 0 < b.N) (he : b.N % 2 = 0) (hL : b.N ≤ b.Lg) (hw : b.weights = some w) (hf : b.filters = none) (hs : b.signals = some x) (hxl : ∀ m, (x m).length = n) (hn : 1 ≤ n) (hk : k ≤ b.N / 2)
    (hx : ∀ m j, j < n → (x m).getD j 0 = (A m * tw b.N ((k : Int) * j)).re) :
    ∃ b' y, process lstsq b false = .ok (b', y) ∧ y.length = b.Lg + n - 1 ∧
      ∀ i, b.N ≤ i + 1 → i < n → y.getD i 0 = ((∑ m, star (realEnds b.N (w m) k) * A m) * tw b.N ((k : Int) * ((i : Int) - (b.N / 2 : Nat)))).re := by
  let f : Fin M → List ℝ := fun m => centred b.N ((List.range b.N).map (irfft b.N fun k => star (w m k))) ++ List.replicate (b.Lg - b.N) 0
  have hfw : filtersFromWeights lstsq b 0 = .ok { b with filters := some f } := by
    unfold filtersFromWeights
    rw [hw]
    simp only
    rw [if_pos hL]
  have hfl : ∀ m, (f m).length = b.Lg := by
    intro m
    simp [f, centred]
    omega
  obtain ⟨y, e, l, v⟩ := C86_time (lstsq := lstsq) (b := { b with filters := some f }) hM rfl hs hfl hxl (by simp only; omega) hn
  refine ⟨{ b with filters := some f }, y, ?_, l, fun i hi hin => ?_⟩
  · unfold process at e ⊢
    rw [hs] at e ⊢
    simp only [Bool.false_eq_true, if_false, hf, hfw, hs, Option.getD_some] at e ⊢
    exact e
  · rw [v i (by simp only at l; omega)]
    unfold filtered
    have hr : ∀ m, ∑ c ∈ range (f m).length, (f m).getD c 0 * sigAt (x m) ((i : Int) - c) = (A m * ((-1) ^ k * star (realEnds b.N (w m) k)) * tw b.N ((k : Int) * i)).re := by
      intro m
      rw [response (N := b.N) (k := k) (A := A m) _ hi (fun j hj => hx m j (by omega)), dft_centred hN he _ (by omega)]
      · congr 4
        unfold hermExt realEnds
        rw [if_pos hk]
        split
        · simp
        · rfl
      · intro j hj
        have hcl : (centred b.N ((List.range b.N).map (irfft b.N fun k => star (w m k)))).length = b.N := by
          simp [centred]
          omega
        simp only [f]
        rw [List.getD_append_right _ _ _ _ (by omega), hcl]
        by_cases hj2 : j - b.N < b.Lg - b.N
        · rw [List.getD_replicate _ hj2]
        · rw [List.getD_eq_default _ _ (by simp; omega)]
    rw [sum_congr rfl fun m _ => hr m, ← Complex.re_sum, sum_mul]
    congr 1
    refine sum_congr rfl fun m _ => ?_
    have h1 : tw b.N ((k : Int) * ((i : Int) - (b.N / 2 : Nat))) = (-1) ^ k * tw b.N ((k : Int) * i) := by
      have h2 : (k : Int) * ((i : Int) - (b.N / 2 : Nat)) = ((b.N / 2 : Nat) * k : Int) + ((k : Int) * i) + -(k : Int) * b.N := by
        have h5 : ((b.N / 2 : Nat) : Int) + (b.N / 2 : Nat) = b.N := by omega
        rw [← h5]
        ring
      rw [h2, tw_add, tw_add, tw_half hN he, tw_dvd hN (Dvd.intro_left _ rfl), mul_one]
    rw [h1]
    ring

/-! ### Least squares -/

theorem taps_lt {N Lg minus j : Nat} (h : Lg < N) (hm : minus ≤ Lg) (hj : j < Lg) : taps N minus j < N := by
  unfold taps
  split <;> omega

theorem taps_inj {N Lg minus i j : Nat} (h : Lg < N) (hm : minus ≤ Lg) (hi : i < Lg) (hj : j < Lg) (e : taps N minus i = taps N minus j) : i = j := by
  unfold taps at e
  split at e <;> split at e <;> omega

/-- A matrix with orthogonal columns: the least squares solution is unique. -/
theorem lstsq_unique {lstsq : {a b : Nat} → Matrix (Fin a) (Fin b) ℂ → (Fin a → ℂ) → Fin b → ℂ} (hl : IsLstsq lstsq) {a c : Nat} (ha : 0 < a) (F : Matrix (Fin a) (Fin c) ℂ) (w : Fin a → ℂ)
    (hF : ∀ i j, ∑ k, star (F k i) * F k j = if i = j then (a : ℂ) else 0) (j : Fin c) : lstsq F w j = (∑ k, star (F k j) * w k) / a := by
  have ha0 : (a : ℂ) ≠ 0 := by exact_mod_cast ha.ne'
  let s : Fin c → ℂ := fun j => (∑ k, star (F k j) * w k) / a
  let r : Fin a → ℂ := fun k => F.mulVec s k - w k
  let u : Fin c → ℂ := fun j => lstsq F w j - s j
  have hFs : ∀ (v : Fin c → ℂ) j, ∑ k, star (F k j) * F.mulVec v k = a * v j := by
    intro v j
    have : ∀ k, star (F k j) * F.mulVec v k = ∑ i, star (F k j) * F k i * v i := by
      intro k
      unfold Matrix.mulVec dotProduct
      rw [mul_sum]
      exact sum_congr rfl fun i _ => by ring
    simp only [this]
    rw [sum_comm]
    simp only [← sum_mul, hF]
    simp
  have hr : ∀ j, ∑ k, star (F k j) * r k = 0 := by
    intro j
    simp only [r, mul_sub, sum_sub_distrib]
    rw [hFs s j]
    simp only [s]
    field_simp
    ring
  have hmv : ∀ k, F.mulVec (lstsq F w) k - w k = F.mulVec u k + r k := by
    intro k
    have : F.mulVec u k = F.mulVec (lstsq F w) k - F.mulVec s k := by
      unfold Matrix.mulVec dotProduct
      rw [← sum_sub_distrib]
      exact sum_congr rfl fun i _ => by simp only [u]; ring
    rw [this]
    simp only [r]
    ring
  have hcross : ∑ k, (star (r k) * F.mulVec u k).re = 0 := by
    rw [← Complex.re_sum]
    have : ∑ k, star (r k) * F.mulVec u k = ∑ i, star (∑ k, star (F k i) * r k) * u i := by
      unfold Matrix.mulVec dotProduct
      simp only [mul_sum, star_sum, sum_mul, star_mul', star_star]
      rw [sum_comm]
      exact sum_congr rfl fun i _ => sum_congr rfl fun k _ => by ring
    rw [this]
    simp only [hr]
    simp
  have hmin := hl F w s
  simp only [hmv] at hmin
  have hexp : ∀ k, ‖F.mulVec u k + r k‖ ^ 2 = ‖F.mulVec u k‖ ^ 2 + ‖r k‖ ^ 2 + 2 * (star (r k) * F.mulVec u k).re := by
    intro k
    rw [← Complex.normSq_eq_norm_sq, ← Complex.normSq_eq_norm_sq, ← Complex.normSq_eq_norm_sq, Complex.normSq_add]
    congr 2
    rw [mul_comm]
    rfl
  simp only [hexp, sum_add_distrib, ← mul_sum, hcross] at hmin
  have hrr : ∑ k, ‖F.mulVec s k - w k‖ ^ 2 = ∑ k, ‖r k‖ ^ 2 := rfl
  rw [hrr] at hmin
  have h0 : ∑ k, ‖F.mulVec u k‖ ^ 2 = 0 := le_antisymm (by linarith) (sum_nonneg fun k _ => by positivity)
  have h1 : ∀ k, F.mulVec u k = 0 := by
    intro k
    have := (sum_eq_zero_iff_of_nonneg fun k _ => by positivity).mp h0 k (mem_univ k)
    simpa using this
  have h2 := hFs u j
  simp only [h1, mul_zero, sum_const_zero] at h2
  have h3 : u j = 0 := by
    rcases mul_eq_zero.mp h2.symm with h | h
    · exact absurd h ha0
    · exact h
  exact sub_eq_zero.mp h3

/-- **C86** For filters shorter than the transform the least squares solution is the inverse transform of the weights at the delays asked for: `⌊(1 - non_causal) Lg⌋` of them not negative, the others before. -/
theorem C86_short {lstsq : {a b : Nat} → Matrix (Fin a) (Fin b) ℂ → (Fin a → ℂ) → Fin b → ℂ} (hl : IsLstsq lstsq) {b : Bf M} {w : Fin M → Nat → ℂ} {nc : ℝ} (hL : b.Lg < b.N) (hw : b.weights = some w)
    (h0 : 0 ≤ nc) (h1 : nc ≤ 1) :
    ∃ f, filtersFromWeights lstsq b nc = .ok { b with filters := some f } ∧
      ∀ m, (f m).length = b.Lg ∧ ∀ j, j < b.Lg → (f m).getD j 0 = irfft b.N (fun k => star (w m k)) (taps b.N (b.Lg - ⌊(1 - nc) * b.Lg⌋.toNat) j) := by
  have hLg : (0 : ℝ) ≤ b.Lg := Nat.cast_nonneg _
  have hp0 : 0 ≤ ⌊(1 - nc) * b.Lg⌋ := Int.floor_nonneg.mpr (mul_nonneg (by linarith) hLg)
  have hp1 : ⌊(1 - nc) * b.Lg⌋ ≤ (b.Lg : Int) := by
    have : ⌊(1 - nc) * b.Lg⌋ ≤ ⌊(b.Lg : ℝ)⌋ := Int.floor_le_floor (by nlinarith)
    simpa using this
  unfold filtersFromWeights
  rw [hw]
  simp only
  rw [if_neg (by omega), if_neg (by omega)]
  refine ⟨_, rfl, fun m => ⟨by simp, fun j hj => ?_⟩⟩
  rw [List.getD_eq_getElem _ _ (by simpa using hj), List.getElem_ofFn]
  set minus := b.Lg - ⌊(1 - nc) * b.Lg⌋.toNat with hminus
  have hmL : minus ≤ b.Lg := by omega
  have hN : 0 < b.N := by omega
  rw [lstsq_unique hl hN]
  · unfold irfft idft
    congr 2
    rw [Finset.sum_range]
    refine sum_congr rfl fun k _ => ?_
    simp only [Matrix.of_apply]
    rw [← starRingEnd_apply, tw_conj, neg_neg, mul_comm]
    have e : spectrum b.N (w m) k = hermExt b.N (fun k => star (w m k)) k := by
      unfold spectrum hermExt
      split
      · rfl
      · exact (Complex.conj_conj _).symm
    rw [e, mul_comm (k : Int)]
  · intro i j
    simp only [Matrix.of_apply]
    have h2 : ∀ k : Fin b.N, star (tw b.N (-((k : Nat) * (taps b.N minus i : Nat) : Int))) * tw b.N (-((k : Nat) * (taps b.N minus j : Nat) : Int)) =
        tw b.N (((taps b.N minus i : Int) - (taps b.N minus j : Int)) * (k : Nat)) := by
      intro k
      rw [← starRingEnd_apply, tw_conj, ← tw_add]
      congr 1
      ring
    simp only [h2]
    rw [← Finset.sum_range (fun k => tw b.N (((taps b.N minus i : Int) - (taps b.N minus j : Int)) * (k : Nat)))]
    have h3 := sum_tw hN ((taps b.N minus i : Int) - (taps b.N minus j : Int))
    rw [h3]
    have hi := taps_lt (j := i) hL hmL i.2
    have hj' := taps_lt (j := j) hL hmL j.2
    by_cases hij : i = j
    · subst hij
      simp
    · rw [if_neg hij, if_neg]
      intro hd
      have : (taps b.N minus i : Int) - (taps b.N minus j : Int) = 0 := Int.eq_zero_of_abs_lt_dvd hd (by rw [abs_lt]; omega)
      exact hij (Fin.ext (taps_inj hL hmL i.2 j.2 (by omega)))

/-- **C86** The constructor makes the transform even, and the frames fill it together with the padding. -/
theorem C86_lengths (N : Nat) (Lg hop : Option Nat) {zpf zpb : Nat} (h : zpf + zpb ≤ N) :
    (new N Lg hop zpf zpb : Bf M).N % 2 = 0 ∧ (new N Lg hop zpf zpb : Bf M).N = (new N Lg hop zpf zpb : Bf M).L + zpf + zpb ∧ N ≤ (new N Lg hop zpf zpb : Bf M).N := by
  unfold new
  simp only
  split <;> omega

/-! ### Deviations -/

theorem irfft_ones {N n : Nat} (hn : n < N) : irfft N (fun _ => star (1 : ℂ)) n = if n = 0 then 1 else 0 := by
  have h : (fun _ => star (1 : ℂ) : Nat → ℂ) = rfft N fun n => if n = 0 then (1 : ℝ) else 0 := by
    funext k
    unfold rfft dft
    rw [sum_eq_single 0]
    · simp [tw_zero]
    · intro b _ hb
      simp [hb]
    · intro h0
      exact absurd (mem_range.mpr (by omega)) h0
  rw [h, irfft_rfft _ hn]

/-- **C86, deviation** The two kinds of filters have different delays: those of constant weights have their pulse at half the transform if they are at least as long as it, and at zero if they are shorter. -/
theorem C86_delay_deviation {lstsq : {a b : Nat} → Matrix (Fin a) (Fin b) ℂ → (Fin a → ℂ) → Fin b → ℂ} (hl : IsLstsq lstsq) {b : Bf M} (hw : b.weights = some fun _ _ => 1) (he : b.N % 2 = 0) (hN : 0 < b.N)
    (hL : 0 < b.Lg) :
    ∃ f, filtersFromWeights lstsq b 0 = .ok { b with filters := some f } ∧ ∀ m, (f m).getD (if b.N ≤ b.Lg then b.N / 2 else 0) 0 = 1 := by
  by_cases h : b.N ≤ b.Lg
  · refine ⟨fun m => centred b.N ((List.range b.N).map (irfft b.N fun _ => star 1)) ++ List.replicate (b.Lg - b.N) 0, ?_, fun m => ?_⟩
    · unfold filtersFromWeights
      rw [hw]
      simp only
      rw [if_pos h]
    · rw [if_pos h, centred_getD he _ (by omega)]
      have : (b.N / 2 + b.N / 2) % b.N = 0 := by
        have : b.N / 2 + b.N / 2 = b.N := by omega
        rw [this, Nat.mod_self]
      rw [this, irfft_ones hN, if_pos rfl]
  · obtain ⟨f, e, hf⟩ := C86_short hl (nc := 0) (by omega) hw le_rfl zero_le_one
    refine ⟨f, e, fun m => ?_⟩
    rw [if_neg h, (hf m).2 0 hL]
    have : taps b.N (b.Lg - ⌊(1 - 0) * (b.Lg : ℝ)⌋.toNat) 0 = 0 := by
      have h2 : ⌊(1 - 0) * (b.Lg : ℝ)⌋ = (b.Lg : Int) := by
        rw [sub_zero, one_mul]
        exact Int.floor_natCast _
      rw [h2]
      simp [taps]
    rw [this, irfft_ones hN, if_pos rfl]

/-- **C86, deviation** What was computed first stays: with filters there, new weights have no effect in the time domain, and with weights there, new filters have none in the frequency domain. -/
theorem C86_stale_deviation {lstsq : {a b : Nat} → Matrix (Fin a) (Fin b) ℂ → (Fin a → ℂ) → Fin b → ℂ} (b : Bf M) :
    (∀ f w, b.filters = some f → (process lstsq { b with weights := w } false).map Prod.snd = (process lstsq b false).map Prod.snd) ∧
    ∀ w f, b.weights = some w → (process lstsq { b with filters := f } true).map Prod.snd = (process lstsq b true).map Prod.snd := by
  constructor
  · intro f w hf
    unfold process
    cases b.signals with
    | none => rfl
    | some x =>
      simp only [Bool.false_eq_true, if_false, hf]
      cases timeDomain f x <;> rfl
  · intro w f hw
    unfold process
    cases hs : b.signals with
    | none => rfl
    | some x =>
      simp only [if_true, hw]
      have : frequencyDomain { b with filters := f } w x = frequencyDomain b w x := rfl
      simp only [hw, hs] at this
      rw [this]
      cases frequencyDomain b w x <;> rfl

/-- **C86, deviation** Joining two beamformers exchanges the lengths of the transform and of the filters. -/
theorem C86_join_deviation {M' : Nat} (b : Bf M) (y : Bf M') (h : b.Lg % 2 = 0) : (add b y).N = b.Lg ∧ (add b y).Lg = b.N ∧ (add b y).weights = none ∧ (add b y).filters = none := by
  unfold add new
  simp only [Option.getD_some, and_true]
  rw [if_neg (by omega)]

/-- **C86, deviation** One microphone is refused in the frequency domain. -/
theorem C86_one_channel_deviation {lstsq : {a b : Nat} → Matrix (Fin a) (Fin b) ℂ → (Fin a → ℂ) → Fin b → ℂ} {b : Bf 1} {x : Fin 1 → List ℝ} {w : Fin 1 → Nat → ℂ} (hx : b.signals = some x)
    (hw : b.weights = some w) : process lstsq b true = .error .valueError := by
  unfold process
  rw [hx]
  simp only [if_true, hw]
  rfl

/-- **C86, deviation** A recording no longer than the hop is refused in the frequency domain. -/
theorem C86_one_frame_deviation {lstsq : {a b : Nat} → Matrix (Fin a) (Fin b) ℂ → (Fin a → ℂ) → Fin b → ℂ} {b : Bf M} {x : Fin M → List ℝ} {w : Fin M → Nat → ℂ} {n : Nat} (hM : 2 ≤ M) (hx : b.signals = some x)
    (hw : b.weights = some w) (hxl : ∀ m, (x m).length = n) (h1 : 1 ≤ n) (hn : n ≤ b.hop) (h2 : b.hop ≤ b.L) (h3 : 2 ≤ b.L + b.zpb + b.zpf) : process lstsq b true = .error .valueError := by
  unfold process
  rw [hx]
  simp only [if_true, hw]
  unfold frequencyDomain
  rw [dif_pos (by omega), if_neg (by omega), Simulate.mapM_ok (fun m _ => spectra_ok (by omega) h2 h3)]
  simp only [hxl]
  have : ceilDiv n b.hop = 1 := by
    unfold ceilDiv
    rw [Nat.div_eq_iff (by omega)]
    omega
  rw [this, if_pos rfl]
  rfl

/-- Filters of two taps, the first one a delay by one sample. -/
def wrapF : Fin 2 → List ℝ := ![[0, 1], [0, 0]]

/-- A pulse at the first microphone. -/
def wrapX : Fin 2 → List ℝ := ![[1, 0], [0, 0]]

/-- A beamformer of the default lengths: filters as long as the transform, no padding. -/
def wrapB : Bf 2 := { (new 2 none none 0 0 : Bf 2) with filters := some wrapF, signals := some wrapX }

noncomputable def wrapW (m : Fin 2) (k : Nat) : ℂ := star (rfft 2 (fun n => (wrapF m).getD n 0) k)

/-- **C86, deviation** Without padding at the end of the frames (the default) the filters wrap around: the pulse comes out before it should. -/
theorem C86_wrap_deviation {lstsq : {a b : Nat} → Matrix (Fin a) (Fin b) ℂ → (Fin a → ℂ) → Fin b → ℂ} :
    ∃ (b' : Bf 2) (y : List ℝ), process lstsq wrapB true = .ok (b', y) ∧ 0 < y.length ∧ y.getD 0 0 = 1 ∧ filtered wrapF wrapX ((0 : Nat) - wrapB.hop : Int) = 0 := by
  obtain ⟨y, e, l, v⟩ := frequencyDomain_ola (b := (⟨2, 2, 2, 1, 0, 0, some wrapW, some wrapF, some wrapX⟩ : Bf 2)) (w := wrapW) (x := wrapX) (n := 2) le_rfl (by intro m; fin_cases m <;> rfl) le_rfl (by decide)
    (by decide) (by decide)
  have hl : y.length = 2 := l
  refine ⟨⟨2, 2, 2, 1, 0, 0, some wrapW, some wrapF, some wrapX⟩, y, ?_, by omega, ?_, ?_⟩
  · have : process lstsq wrapB true = (frequencyDomain (⟨2, 2, 2, 1, 0, 0, some wrapW, some wrapF, some wrapX⟩ : Bf 2) wrapW wrapX).map fun y => (⟨2, 2, 2, 1, 0, 0, some wrapW, some wrapF, some wrapX⟩, y) := rfl
    rw [this, e]
    rfl
  · rw [v 0 (by omega), Fin.sum_univ_two]
    have hc : ceilDiv 2 1 = 2 := rfl
    simp only [hc]
    have hw0 : winAt (config 2 1 0 0 (some (hann 2))).aw 0 = 0 := by
      simp [config, winAt, hann]
    have hw1 : winAt (config 2 1 0 0 (some (hann 2))).aw 1 = 1 := by
      have : 2 * Real.pi * (((1 : Nat) : ℝ) / (2 : Nat)) = Real.pi := by
        push_cast
        ring
      simp only [config, winAt, hann, Option.map_some, List.replicate_zero, List.nil_append, List.append_nil]
      rw [List.getD_eq_getElem _ _ (by simp), List.getElem_map, List.getElem_range, this]
      norm_num
    have hola : ∀ G : Nat → Nat → ℝ, ola (2 + 0 + 0) 1 2 G (0 + 0) = G 0 0 := by
      intro G
      simp [ola]
    rw [hola, hola]
    have hof : ∀ m : Fin 2, outFrame (config 2 1 0 0 (some (hann 2))) (some fun k => star (wrapW m k)) (sigAt (padded 1 (wrapX m))) 0 0 =
        irfft 2 (fun k => rfft 2 (block (config 2 1 0 0 (some (hann 2))) (sigAt (padded 1 (wrapX m))) 1) k * rfft 2 (fun n => (wrapF m).getD n 0) k) 0 := by
      intro m
      unfold outFrame procFrame wrapW
      simp [config, winAt, Conf.nfft]
    rw [hof, hof, (GriffinLim.irfft_two _).1, (GriffinLim.irfft_two _).1]
    have hb0 : ∀ m, block (config 2 1 0 0 (some (hann 2))) (sigAt (padded 1 (wrapX m))) 1 0 = 0 := by
      intro m
      unfold block
      rw [hw0, zero_mul]
    have hb1 : ∀ m, block (config 2 1 0 0 (some (hann 2))) (sigAt (padded 1 (wrapX m))) 1 1 = (wrapX m).getD 0 0 := by
      intro m
      unfold block
      rw [hw1, one_mul]
      simp only [config, sigAt_padded]
      simp [sigAt]
    simp only [(GriffinLim.rfft_two _).1, (GriffinLim.rfft_two _).2, hb0, hb1]
    simp [wrapX, wrapF]
  · unfold filtered
    rw [Fin.sum_univ_two]
    simp [wrapF, wrapX, wrapB, new, sigAt, sum_range_succ]

/-! ## Examples -/

/-- Least squares solutions exist. -/
theorem lstsq_exists : ∃ lstsq : {a b : Nat} → Matrix (Fin a) (Fin b) ℂ → (Fin a → ℂ) → Fin b → ℂ, IsLstsq lstsq := by
  have h : ∀ {a b : Nat} (F : Matrix (Fin a) (Fin b) ℂ) (w : Fin a → ℂ), ∃ s : Fin b → ℂ, ∀ h : Fin b → ℂ, ∑ k, ‖F.mulVec s k - w k‖ ^ 2 ≤ ∑ k, ‖F.mulVec h k - w k‖ ^ 2 := by
    intro a b F w
    let K : Submodule ℂ (EuclideanSpace ℂ (Fin a)) := LinearMap.range ((WithLp.linearEquiv 2 ℂ (Fin a → ℂ)).symm.toLinearMap ∘ₗ F.mulVecLin)
    obtain ⟨v, hv, hmin⟩ := K.exists_norm_eq_iInf_of_complete_subspace (K.complete_of_finiteDimensional) (WithLp.toLp 2 w)
    obtain ⟨s, rfl⟩ := hv
    refine ⟨s, fun h => ?_⟩
    have hle : ‖WithLp.toLp 2 w - WithLp.toLp 2 (F.mulVec s)‖ ≤ ‖WithLp.toLp 2 w - WithLp.toLp 2 (F.mulVec h)‖ := by
      have h1 : ‖WithLp.toLp 2 w - WithLp.toLp 2 (F.mulVec s)‖ = ⨅ u : K, ‖WithLp.toLp 2 w - u‖ := hmin
      rw [h1]
      exact ciInf_le ⟨0, by rintro _ ⟨u, rfl⟩; exact norm_nonneg _⟩ (⟨WithLp.toLp 2 (F.mulVec h), ⟨h, rfl⟩⟩ : K)
    have hsq := pow_le_pow_left₀ (norm_nonneg _) hle 2
    rw [EuclideanSpace.norm_sq_eq, EuclideanSpace.norm_sq_eq] at hsq
    simpa [norm_sub_rev] using hsq
  choose s hs using @h
  exact ⟨fun {a b} F w => s F w, fun {a b} F w h => hs F w h⟩

/-- The hypotheses of `C86_frequency`: transform of length four, one sample of padding, filters of two taps. -/
example : ∃ b' y, process (fun _ _ _ => 0) { (new 3 none none 1 1 : Bf 2) with filters := some ![[1, 2], [3, 4]], signals := some ![[1, 2, 3, 4], [5, 6, 7, 8]] } true = .ok (b', y) ∧ y.length = 2 ∧
    ∀ i, i < y.length → y.getD i 0 = filtered ![[1, 2], [3, 4]] ![[1, 2, 3, 4], [5, 6, 7, 8]] ((i : Int) - 1) :=
  C86_frequency (n := 4) le_rfl rfl rfl rfl (by intro m; fin_cases m <;> simp [new]) (by intro m; fin_cases m <;> rfl) rfl rfl le_rfl (by decide)

/-- The hypotheses of `C86_response`: two frequencies, two microphones. -/
example : ∃ b' y, process (fun _ _ _ => 0) { (new 2 none none 0 0 : Bf 2) with weights := some fun m _ => (m : ℂ) + 1, signals := some ![[1, -1, 1], [2, -2, 2]] } false = .ok (b', y) ∧ y.length = 2 + 3 - 1 ∧
    ∀ i, 2 ≤ i + 1 → i < 3 → y.getD i 0 = ((∑ m : Fin 2, star (realEnds 2 (fun _ => (m : ℂ) + 1) 1) * ((m : ℂ) + 1)) * tw 2 (((1 : Nat) : Int) * ((i : Int) - (2 / 2 : Nat)))).re :=
  C86_response (b := { (new 2 none none 0 0 : Bf 2) with weights := some fun m _ => (m : ℂ) + 1, signals := some ![[1, -1, 1], [2, -2, 2]] }) (x := ![[1, -1, 1], [2, -2, 2]]) (A := fun m => (m : ℂ) + 1) (k := 1) (n := 3)
    (by decide) (by decide) rfl le_rfl rfl rfl rfl (by intro m; fin_cases m <;> rfl) (by decide) (by decide) (by
      intro m j hj
      have h1 : tw 2 (((1 : Nat) : Int) * (j : Nat)) = (-1) ^ j := by
        rw [tw_mul_nat]
        congr 1
        exact GriffinLim.tw_two'
      have h2 : ({ (new 2 none none 0 0 : Bf 2) with weights := some fun m _ => (m : ℂ) + 1, signals := some ![[1, -1, 1], [2, -2, 2]] } : Bf 2).N = 2 := rfl
      rw [h2, h1]
      interval_cases j <;> fin_cases m <;> norm_num)

/-- The hypotheses of `C86_time`, `C86_weights`, `C86_short` and of the deviations. -/
example : ∃ b : Bf 2, b.weights = some (fun _ _ => 1) ∧ b.N % 2 = 0 ∧ 0 < b.N ∧ b.N ≤ b.Lg ∧ b.signals.isSome := ⟨⟨2, 2, 2, 1, 0, 0, some fun _ _ => 1, none, some fun _ => [1]⟩, rfl, rfl, by decide, le_rfl, rfl⟩

example : ∃ b : Bf 2, b.weights = some (fun _ _ => 1) ∧ b.N % 2 = 0 ∧ 0 < b.N ∧ b.Lg < b.N ∧ 0 < b.Lg := ⟨⟨4, 2, 4, 2, 0, 0, some fun _ _ => 1, none, none⟩, rfl, rfl, by decide, by decide, by decide⟩

end Verif.BeamProc
