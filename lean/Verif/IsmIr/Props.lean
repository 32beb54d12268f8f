import Verif.IsmIr.Model
import Verif.IsmRir.Props
import Verif.Bands.Cosine
import Verif.Bands.AntoniOctave
import Mathlib.RingTheory.PowerSeries.Basic

/-!
# Properties of the image source method with directivities given as impulse responses (C91)
-/

namespace Verif.IsmIr

open Py (Err)
open DFT
open Finset (antidiagonal range mem_range)
open RirBuilder (fracRow oddLen delaySumCheck delaySumTasks Builds contrib hannAt lerpSinc)
open IsmRir (Img Visible select Prep Setting SrcState EngineImg imageSourceModel pathsTo distance amplitude response bandCount Fits)

/-! ## Specification -/

/-- Linear convolution of two signals. -/
noncomputable def conv (x y : Nat → ℝ) (n : Nat) : ℝ := ∑ p ∈ antidiagonal n, x p.1 * y p.2

/-- The unit impulse. -/
noncomputable def delta (i : Nat) : ℝ := if i = 0 then 1 else 0

/-- Linear convolution of any number of signals. -/
noncomputable def convAll (l : List (Nat → ℝ)) : Nat → ℝ := l.foldr conv delta

/-! ## Convolution -/

theorem mk_conv (x y : Nat → ℝ) : PowerSeries.mk (conv x y) = PowerSeries.mk x * PowerSeries.mk y := by
  ext n
  rw [PowerSeries.coeff_mk, PowerSeries.coeff_mul]
  simp [conv]

theorem mk_delta : PowerSeries.mk delta = 1 := by
  ext n
  rw [PowerSeries.coeff_mk, PowerSeries.coeff_one]
  rfl

theorem mk_inj {x y : Nat → ℝ} (h : PowerSeries.mk x = PowerSeries.mk y) : x = y := by
  funext n
  have := congrArg (PowerSeries.coeff n) h
  simpa using this

theorem mk_convAll (l : List (Nat → ℝ)) : PowerSeries.mk (convAll l) = (l.map PowerSeries.mk).prod := by
  induction l with
  | nil => simpa [convAll] using mk_delta
  | cons x t ih =>
    rw [List.map_cons, List.prod_cons, ← ih, ← mk_conv]
    rfl

theorem foldl_conv (l : List (Nat → ℝ)) (x : Nat → ℝ) : l.foldl conv x = convAll (x :: l) := by
  apply mk_inj
  rw [mk_convAll, List.map_cons, List.prod_cons]
  induction l generalizing x with
  | nil => simp
  | cons y t ih =>
    rw [List.foldl_cons, ih, mk_conv, List.map_cons, List.prod_cons, mul_assoc]

/-- A signal that is zero from sample `L` on. -/
def Short (L : Nat) (x : Nat → ℝ) : Prop := ∀ i, L ≤ i → x i = 0

theorem Short.conv {Lx Ly : Nat} {x y : Nat → ℝ} (hx : Short Lx x) (hy : Short Ly y) (h1 : 1 ≤ Ly) : Short (Lx + Ly - 1) (conv x y) := by
  intro n hn
  apply Finset.sum_eq_zero
  intro p hp
  have hp := Finset.mem_antidiagonal.mp hp
  by_cases h : Lx ≤ p.1
  · rw [hx _ h, zero_mul]
  · rw [hy _ (by omega), mul_zero]

theorem rfft_conv {Lx Ly N : Nat} {x y : Nat → ℝ} (hx : Short Lx x) (hy : Short Ly y) (hN : Lx + Ly ≤ N + 1) (k : Nat) :
    rfft N x k * rfft N y k = rfft N (conv x y) k := by
  unfold rfft dft
  set f : Nat × Nat → ℂ := fun p => (x p.1 : ℂ) * (y p.2 : ℂ) * tw N (-(((p.1 + p.2 : Nat) : Int) * k)) with hf
  have h1 : (∑ a ∈ range N, (x a : ℂ) * tw N (-((a : Int) * k))) * (∑ b ∈ range N, (y b : ℂ) * tw N (-((b : Int) * k))) =
      ∑ p ∈ range N ×ˢ range N, f p := by
    rw [Finset.sum_mul_sum, Finset.sum_product]
    refine Finset.sum_congr rfl fun a _ => Finset.sum_congr rfl fun b _ => ?_
    rw [hf]
    beta_reduce
    rw [show (-(((a + b : Nat) : Int) * k)) = -((a : Int) * k) + -((b : Int) * k) by push_cast; ring, tw_add]
    ring
  have h2 : ∑ p ∈ range N ×ˢ range N, f p = ∑ p ∈ (range N ×ˢ range N).filter (fun p => p.1 + p.2 < N), f p := by
    symm
    apply Finset.sum_filter_of_ne
    intro p _ hne
    by_contra hge
    apply hne
    rw [hf]
    beta_reduce
    by_cases h : Lx ≤ p.1
    · rw [hx _ h]; simp
    · rw [hy p.2 (by omega)]; simp
  rw [h1, h2, ← Finset.sum_fiberwise_of_maps_to (t := range N) (g := fun p : Nat × Nat => p.1 + p.2)
    (fun p hp => mem_range.mpr (Finset.mem_filter.mp hp).2)]
  refine Finset.sum_congr rfl fun n hn => ?_
  have hn := mem_range.mp hn
  have e : ((range N ×ˢ range N).filter (fun p : Nat × Nat => p.1 + p.2 < N)).filter (fun p => p.1 + p.2 = n) = antidiagonal n := by
    ext p
    simp only [Finset.mem_filter, Finset.mem_product, mem_range, Finset.mem_antidiagonal]
    omega
  rw [e]
  unfold conv
  push_cast
  rw [Finset.sum_mul]
  refine Finset.sum_congr rfl fun p hp => ?_
  rw [hf, ← Finset.mem_antidiagonal.mp hp]

/-! ## `multi_convolve` -/

/-- The rows have the length of the array. -/
def Arr.Ok (s : Arr) : Prop := 1 ≤ s.len ∧ ∀ row ∈ s.rows, row.length = s.len

theorem Arr.Ok.short {s : Arr} (h : s.Ok) (r : Nat) : Short s.len (s.row r) := by
  intro i hi
  unfold Arr.row
  by_cases hr : r < s.rows.length
  · rw [List.getD_eq_getElem _ _ hr, List.getD_eq_default _ _ (by rw [h.2 _ (List.getElem_mem hr)]; exact hi)]
  · rw [List.getD_eq_default s.rows _ (by omega)]; simp

theorem row_mk (L : Nat) {n r : Nat} (F : Nat → List ℝ) (hr : r < n) (i : Nat) : (Arr.mk L ((List.range n).map F)).row r i = (F r).getD i 0 := by
  unfold Arr.row
  rw [RirBuilder.getD_range_map hr]

/-- Length of a convolution. -/
def convLen (L : Nat) (ss : List Arr) : Nat := L + (ss.map fun t => t.len - 1).sum

theorem product_eq {N : Nat} (ss : List Arr) (hss : ∀ t ∈ ss, t.Ok) (r k : Nat) {L : Nat} {x : Nat → ℝ} (hx : Short L x) (hN : convLen L ss ≤ N) :
    ss.foldl (fun fd t => fd * rfft N (t.row r) k) (rfft N x k) = rfft N ((ss.map fun t => t.row r).foldl conv x) k ∧
      Short (convLen L ss) ((ss.map fun t => t.row r).foldl conv x) := by
  induction ss generalizing L x with
  | nil => exact ⟨rfl, by simpa [convLen] using hx⟩
  | cons t ss ih =>
    have ht := hss t (by simp)
    have h1 := ht.1
    have hc : convLen (L + t.len - 1) ss = convLen L (t :: ss) := by
      simp only [convLen, List.map_cons, List.sum_cons]
      omega
    have hle : L + t.len ≤ N + 1 := by
      simp only [convLen, List.map_cons, List.sum_cons] at hN
      omega
    obtain ⟨e1, e2⟩ := ih (fun t ht => hss t (by simp [ht])) (hx.conv (ht.short r) h1) (by rw [hc]; exact hN)
    rw [hc] at e2
    refine ⟨?_, e2⟩
    rw [List.foldl_cons, rfft_conv hx (ht.short r) hle, e1]
    rfl

theorem maxLen_eq (s : Arr) (ss : List Arr) (hss : ∀ t ∈ ss, t.Ok) (hr : ∀ t ∈ ss, t.rows.length = s.rows.length) :
    maxLen s ss = .ok (convLen s.len ss : Int) := by
  have : ∀ (ss : List Arr) (L : Nat), (∀ t ∈ ss, t.Ok) → (∀ t ∈ ss, t.rows.length = s.rows.length) →
      ss.foldlM (fun (n : Int) t => if s.rows.length = t.rows.length then (Except.ok (n + t.len - 1) : Except Err Int) else .error Err.valueError) (L : Int) =
        .ok (convLen L ss : Int) := by
    intro ss
    induction ss with
    | nil => intro L _ _; simp [convLen]; rfl
    | cons t ss ih =>
      intro L h1 h2
      rw [List.foldlM_cons, if_pos (h2 t (by simp)).symm]
      have ht := (h1 t (by simp)).1
      have e : ((L : Int) + t.len - 1) = ((L + t.len - 1 : Nat) : Int) := by omega
      change ss.foldlM _ ((L : Int) + t.len - 1) = _
      rw [e, ih _ (fun t ht => h1 t (by simp [ht])) (fun t ht => h2 t (by simp [ht]))]
      simp only [convLen, List.map_cons, List.sum_cons]
      congr 2
      omega
  exact this ss s.len hss hr

/-- **C91, convolution.** `multi_convolve` of arrays with the same number of rows gives in each row the linear convolution of the rows,
complete and without wrapping around. -/
theorem C91_convolve (s : Arr) (ss : List Arr) (hs : s.Ok) (hss : ∀ t ∈ ss, t.Ok) (hr : ∀ t ∈ ss, t.rows.length = s.rows.length) :
    ∃ c, multiConvolve s ss = .ok c ∧ c.Ok ∧ c.len = s.len + (ss.map fun t => t.len - 1).sum ∧ c.rows.length = s.rows.length ∧
      ∀ r, r < s.rows.length → c.row r = convAll ((s :: ss).map fun t => t.row r) := by
  have hl := maxLen_eq s ss hss hr
  have hpos : 1 ≤ convLen s.len ss := by have := hs.1; unfold convLen; omega
  unfold multiConvolve
  rw [hl]
  refine ⟨⟨convLen s.len ss, (List.range s.rows.length).map fun r => (List.range (convLen s.len ss)).map
      (irfft (2 ^ Nat.clog 2 (convLen s.len ss)) (product (2 ^ Nat.clog 2 (convLen s.len ss)) s ss r))⟩, ?_, ?_, ?_, ?_, ?_⟩
  · change (if ((convLen s.len ss : Nat) : Int) ≤ 0 then _ else _) = _
    rw [if_neg (by omega)]
    rfl
  · refine ⟨hpos, fun row h => ?_⟩
    obtain ⟨r, _, rfl⟩ := List.mem_map.mp h
    simp
  · rfl
  · simp
  · intro r hrr
    funext i
    have hle : convLen s.len ss ≤ 2 ^ Nat.clog 2 (convLen s.len ss) := Nat.le_pow_clog (by norm_num) _
    have hp := fun k => product_eq ss hss r k (hs.short r) hle
    rw [List.map_cons, ← foldl_conv]
    rw [row_mk _ _ hrr, Simulate.getD_map_range]
    split
    · rename_i hi
      have : product (2 ^ Nat.clog 2 (convLen s.len ss)) s ss r =
          rfft (2 ^ Nat.clog 2 (convLen s.len ss)) ((ss.map fun t => t.row r).foldl conv (s.row r)) := by
        funext k
        exact (hp k).1
      rw [this, irfft_rfft _ (by omega)]
    · rename_i hi
      exact ((hp 0).2 i (by omega)).symm

/-- **C91, convolution.** Arrays with different numbers of rows are refused. -/
theorem C91_convolve_refused (s : Arr) (ss : List Arr) {t : Arr} (ht : t ∈ ss) (hr : t.rows.length ≠ s.rows.length) :
    multiConvolve s ss = .error .valueError := by
  have : ∀ (ss : List Arr) (n : Int), t ∈ ss →
      ss.foldlM (fun (n : Int) t => if s.rows.length = t.rows.length then (Except.ok (n + t.len - 1) : Except Err Int) else .error Err.valueError) n = .error .valueError := by
    intro ss
    induction ss with
    | nil => intro _ h; cases h
    | cons u ss ih =>
      intro n h
      rw [List.foldlM_cons]
      by_cases hu : s.rows.length = u.rows.length
      · rw [if_pos hu]
        rcases List.mem_cons.mp h with rfl | h
        · exact absurd hu.symm hr
        · exact ih _ h
      · rw [if_neg hu]; rfl
  unfold multiConvolve maxLen
  rw [this ss _ ht]
  rfl

/-! ## Delays -/

/-- The signal later by `d` samples. -/
noncomputable def delayed (d : Nat) (x : Nat → ℝ) (n : Nat) : ℝ := if d ≤ n then x (n - d) else 0

theorem mk_delayed (d : Nat) (x : Nat → ℝ) : PowerSeries.mk (delayed d x) = PowerSeries.X ^ d * PowerSeries.mk x := by
  ext n
  rw [PowerSeries.coeff_mk, PowerSeries.coeff_X_pow_mul', PowerSeries.coeff_mk]
  rfl

theorem conv_delayed (x y : Nat → ℝ) (d : Nat) : conv x (delayed d y) = delayed d (conv x y) := by
  apply mk_inj
  rw [mk_conv, mk_delayed, mk_delayed, mk_conv]
  ring

theorem convAll_append (l l' : List (Nat → ℝ)) : convAll (l ++ l') = conv (convAll l) (convAll l') := by
  apply mk_inj
  rw [mk_conv, mk_convAll, mk_convAll, mk_convAll, List.map_append, List.prod_append]

theorem convAll_single (x : Nat → ℝ) : convAll [x] = x := by
  apply mk_inj
  rw [mk_convAll]
  simp

theorem conv_assoc (x y z : Nat → ℝ) : conv (conv x y) z = conv x (conv y z) := by
  apply mk_inj
  simp only [mk_conv, mul_assoc]

theorem conv_comm (x y : Nat → ℝ) : conv x y = conv y x := by
  apply mk_inj
  simp only [mk_conv, mul_comm]

theorem delta_conv (x : Nat → ℝ) : conv delta x = x := by
  apply mk_inj
  rw [mk_conv, mk_delta, one_mul]

/-! ## `delay_sum` -/

theorem foldl_max_mem (d : Int) (ds : List Int) : ds.foldl max d ∈ d :: ds := by
  induction ds generalizing d with
  | nil => simp
  | cons x t ih =>
    rw [List.foldl_cons]
    rcases List.mem_cons.mp (ih (max d x)) with h | h
    · rw [h]
      rcases max_choice d x with h | h <;> simp [h]
    · simp [h]

theorem le_foldl_max (d : Int) (ds : List Int) : ∀ x ∈ d :: ds, x ≤ ds.foldl max d := by
  induction ds generalizing d with
  | nil => simp
  | cons y t ih =>
    intro x hx
    rw [List.foldl_cons]
    have h0 := ih (max d y) (max d y) (by simp)
    rcases List.mem_cons.mp hx with rfl | hx
    · exact le_trans (le_max_left _ _) h0
    · rcases List.mem_cons.mp hx with rfl | hx
      · exact le_trans (le_max_right _ _) h0
      · exact ih _ x (by simp [hx])

theorem foldl_min_nonneg (d : Int) (ds : List Int) (h : ∀ x ∈ d :: ds, 0 ≤ x) : 0 ≤ ds.foldl min d := by
  induction ds generalizing d with
  | nil => exact h d (by simp)
  | cons y t ih =>
    rw [List.foldl_cons]
    apply ih
    intro x hx
    rcases List.mem_cons.mp hx with rfl | hx
    · exact le_min (h d (by simp)) (h y (by simp))
    · exact h x (by simp [hx])

/-- What is given to `delay_sum` has the right form. -/
structure Parts.Ok (p : Parts) : Prop where
  irs : p.irs.Ok
  rows : p.irs.rows.length = p.delays.length
  some : p.delays ≠ []
  nonneg : ∀ d ∈ p.delays, 0 ≤ d

theorem nMax_eq {p : Parts} (h : p.Ok) : ∃ d ∈ p.delays, (nMax p : Int) = d + p.irs.len ∧ ∀ d' ∈ p.delays, d' ≤ d := by
  obtain ⟨_, _, hs, hn⟩ := h
  obtain ⟨ds, irs, b⟩ := p
  cases ds with
  | nil => exact absurd rfl hs
  | cons d ds =>
    refine ⟨ds.foldl max d, foldl_max_mem d ds, ?_, le_foldl_max d ds⟩
    have := hn _ (foldl_max_mem d ds)
    simp only [nMax]
    omega

theorem check_ok {p : Parts} (h : p.Ok) : delaySumCheck p.irs.rows.length p.irs.len p.delays (nMax p) = .pass := by
  obtain ⟨_, hr, hs, hn⟩ := h
  obtain ⟨ds, irs, b⟩ := p
  cases ds with
  | nil => exact absurd rfl hs
  | cons d ds =>
    unfold delaySumCheck
    rw [if_neg (by simpa using hr)]
    simp only
    have h1 := foldl_min_nonneg d ds hn
    have h2 := hn _ (foldl_max_mem d ds)
    rw [if_neg (by omega), if_neg (by simp only [nMax]; omega)]

/-- The sum of the delayed rows. -/
noncomputable def sumOf (p : Parts) (i : Nat) : ℝ := ∑ j ∈ range p.delays.length, delayed (p.delays.getD j 0).toNat (p.irs.row j) i

theorem sumOf_beyond {p : Parts} (h : p.Ok) {i : Nat} (hi : nMax p ≤ i) : sumOf p i = 0 := by
  obtain ⟨d, _, e, hm⟩ := nMax_eq h
  apply Finset.sum_eq_zero
  intro j hj
  have hj := mem_range.mp hj
  have hd : p.delays.getD j 0 ∈ p.delays := by rw [List.getD_eq_getElem _ _ hj]; exact List.getElem_mem _
  have h1 := hm _ hd
  have h2 := h.nonneg _ hd
  unfold delayed
  split
  · exact h.irs.short j _ (by omega)
  · rfl

theorem run_iff {a : Args} {frac : List (List ℝ)} {p : Parts} (hi : a.hasIr) (hf : (sampleFrac a (imagesOf a)).mapM (fracDelay a) = some frac)
    (hp : prepare a frac = .ok p) (h : p.Ok) (ht : 1 ≤ a.base.threads) (res : Except Err (List ℝ)) :
    Run a res ↔ res = .ok (trim a p.bands ((List.range (nMax p)).map (sumOf p))) := by
  have hc := check_ok h
  have hc' : delaySumCheck p.irs.rows.length p.irs.len p.delays (List.replicate (nMax p) (0 : ℝ)).length = .pass := by rw [List.length_replicate]; exact hc
  obtain ⟨tasks, h1, _, ⟨w, h2⟩, h3⟩ := RirBuilder.C13_delay_sum h.irs.2 hc' ht
  simp only [List.length_replicate] at h1 h2 h3
  have e : ∀ r, Builds tasks a.base.threads (nMax p) (List.replicate (nMax p) 0) r → r = (List.range (nMax p)).map (sumOf p) := by
    intro r hr
    rw [h3 r hr]
    apply List.map_congr_left
    intro i hi
    rw [List.getD_eq_getElem?_getD, List.getElem?_replicate_of_lt (List.mem_range.mp hi), Option.getD_some, zero_add, h.rows]
    apply Finset.sum_congr rfl
    intro j hj
    have hj := mem_range.mp hj
    have hd : p.delays.getD j 0 ∈ p.delays := by rw [List.getD_eq_getElem _ _ hj]; exact List.getElem_mem _
    have h0 := h.nonneg _ hd
    unfold delayed
    by_cases hle : (p.delays.getD j 0).toNat ≤ i
    · rw [if_pos hle]
      have e1 : ((i : Int) - p.delays.getD j 0).toNat = i - (p.delays.getD j 0).toNat := by omega
      by_cases hlt : (i : Int) < p.delays.getD j 0 + p.irs.len
      · rw [if_pos ⟨by omega, hlt⟩, e1]
        rfl
      · rw [if_neg (fun hx => hlt hx.2)]
        exact (h.irs.short j _ (by omega)).symm
    · rw [if_neg hle, if_neg (fun hx => hle (by omega))]
  constructor
  · intro hr
    cases hr with
    | other hi' _ => exact absurd hi hi'
    | raised _ hf' h' => rw [hf] at hf'; cases hf'; rw [hp] at h'; cases h'
    | refused _ hf' h' hx => rw [hf] at hf'; cases hf'; rw [hp] at h'; cases h'; exact absurd hc hx
    | done _ hf' h' _ ht' hb =>
      rw [hf] at hf'; cases hf'
      rw [hp] at h'; cases h'
      rw [h1] at ht'; cases ht'
      rw [e _ hb]
  · rintro rfl
    rw [← e w h2]
    exact .done hi hf hp hc h1 h2

/-! ## The filters of the paths -/

/-- A directivity given as an impulse response has a fixed length. -/
def DirOk : Option Directivity → Prop
  | some (.ir taps f) => 1 ≤ taps ∧ ∀ p, (f p).length = taps
  | _ => True

/-- The filters of a directivity in direction `p`. -/
noncomputable def irOf : Option Directivity → (Nat → ℝ) → List (Nat → ℝ)
  | some (.ir _ f), p => [fun i => (f p).getD i 0]
  | _, _ => []

/-- Samples by which a directivity makes a response longer. -/
def extra : Option Directivity → Nat
  | some (.ir taps _) => taps - 1
  | _ => 0

/-- The settings make sense; the length of the fractional delay filters may be even. -/
structure Good (s : Setting) : Prop where
  c : 0 < s.c
  fs : 0 < s.fs
  fdl : 3 ≤ s.fdl
  gran : 1 ≤ s.gran
  threads : 1 ≤ s.threads

/-- A pulse that has travelled the distance `D`: the fractional delay filter around the time of flight, later by its half length. -/
noncomputable def pulse (s : Setting) (D : ℝ) (i : Nat) : ℝ :=
  contrib s.fs (oddLen s.fdl) s.gran (D / s.c + ((oddLen s.fdl / 2 : Nat) : ℝ) / s.fs) 1 i

/-- Taps of the fractional delay filter. -/
noncomputable def tapOf (s : Setting) (x : ℝ) (k : Nat) : ℝ :=
  if k < oddLen s.fdl then hannAt (oddLen s.fdl) k * lerpSinc s.gran ((k : ℝ) - (((oddLen s.fdl - 1) / 2 : Nat) : ℝ) - (x - ⌊x⌋)) else 0

theorem pulse_eq {s : Setting} (hs : Good s) {D : ℝ} (hD : 0 ≤ D) : pulse s D = delayed ⌊D / s.c * s.fs⌋.toNat (tapOf s (D / s.c * s.fs)) := by
  have hfs : (0 : ℝ) < s.fs := by exact_mod_cast hs.fs
  have hx : 0 ≤ D / s.c * s.fs := mul_nonneg (div_nonneg hD hs.c.le) hfs.le
  have hn : 0 ≤ ⌊D / s.c * s.fs⌋ := Int.floor_nonneg.mpr hx
  have ho := RirBuilder.oddLen_odd (show 1 ≤ s.fdl by have := hs.fdl; omega)
  set L := oddLen s.fdl with hL
  funext i
  unfold pulse contrib delayed tapOf
  rw [← hL]
  have e : (s.fs : ℝ) * (D / s.c + ((L / 2 : Nat) : ℝ) / s.fs) = D / s.c * s.fs + ((L / 2 : Nat) : Int) := by
    generalize L / 2 = h
    push_cast
    field_simp
  have hh : (L - 1) / 2 = L / 2 := by omega
  simp only
  rw [e, Int.floor_add_intCast, hh]
  generalize ⌊D / s.c * s.fs⌋ = n at *
  by_cases h1 : n.toNat ≤ i
  · by_cases h2 : i - n.toNat < L
    · rw [if_pos (by rw [abs_le]; omega), if_pos h1, if_pos h2]
      have e1 : (i : Int) - (n + ((L / 2 : Nat) : Int)) + ((L / 2 : Nat) : Int) = ((i - n.toNat : Nat) : Int) := by omega
      have e2 : ((i - n.toNat : Nat) : ℝ) = (i : ℝ) - n := by
        have : (((i - n.toNat : Nat) : Int) : ℝ) = (((i : Int) - n : Int) : ℝ) := by congr 1; omega
        push_cast at this
        exact this
      rw [e1, e2, one_mul]
      congr 2
      rw [Int.cast_natCast]
      ring
    · rw [if_neg (by rw [abs_le]; omega), if_pos h1, if_neg h2]
  · rw [if_neg (by rw [abs_le]; omega), if_neg h1]

/-- A row of `frac_delays`. -/
noncomputable def fracOf (s : Setting) (x : ℝ) : List ℝ := (List.range s.fdl).map (tapOf s x)

theorem fracDelay_eq {a : Args} {s : Setting} (hs : Good s) (h1 : a.base.fdl = s.fdl) (h2 : a.base.gran = s.gran) (x : ℝ) :
    fracDelay a x = some (fracOf s x) := by
  have hf := hs.fdl
  have hle : oddLen s.fdl ≤ s.fdl := by unfold oddLen; split <;> omega
  unfold fracDelay
  rw [h1, h2, RirBuilder.C58_fractional_delay_row hf hs.gran (t := x - ⌊x⌋) (by linarith [Int.floor_le x]) (by linarith [Int.lt_floor_add_one x])]
  rw [Option.map_some]
  congr 1
  apply Simulate.ext_getD
  · simp [fracOf, hle]
  · intro i hi
    unfold fracOf
    rw [Simulate.getD_map_range]
    simp only [List.length_append, List.length_map, List.length_range, List.length_replicate] at hi
    rw [if_pos (by omega)]
    unfold tapOf
    by_cases h : i < oddLen s.fdl
    · rw [List.getD_append _ _ _ _ (by simpa using h), Simulate.getD_map_range, if_pos h]
    · rw [List.getD_append_right _ _ _ _ (by simpa using h), if_neg h]
      rw [List.getD_eq_getElem?_getD, List.getElem?_replicate]
      split <;> rfl

theorem convolveAll_eq (l : List Arr) (hne : l ≠ []) (n : Nat) (hl : ∀ t ∈ l, t.Ok) (hn : ∀ t ∈ l, t.rows.length = n) :
    ∃ c, convolveAll l = .ok c ∧ c.Ok ∧ c.len = 1 + (l.map fun t => t.len - 1).sum ∧ c.rows.length = n ∧
      ∀ r, r < n → c.row r = convAll (l.map fun t => t.row r) := by
  cases l with
  | nil => exact absurd rfl hne
  | cons s ss =>
    have hsn := hn s (by simp)
    obtain ⟨c, h1, h2, h3, h4, h5⟩ := C91_convolve s ss (hl s (by simp)) (fun t ht => hl t (by simp [ht])) (fun t ht => by rw [hsn]; exact hn t (by simp [ht]))
    rw [hsn] at h4 h5
    refine ⟨c, h1, h2, ?_, h4, h5⟩
    rw [h3, List.map_cons, List.sum_cons]
    have := (hl s (by simp)).1
    omega

/-! ## The response of the visible paths -/

variable {s : Setting} {st : SrcState} {engine : List EngineImg} {rows : Nat} {inside : Nat → Bool}
  {micD srcD : Option Directivity} {o : Bank} {m : Nat} {pos : Nat → ℝ}

/-- The settings with the gain of the microphone, if it has one. -/
def withGain (s : Setting) (micD : Option Directivity) : Setting := { s with micGain := fun _ => Directivity.toGain micD }

/-- Amplitude of a path in band `b`: damping, spreading, absorption by the air, and the directivities that are gains. -/
noncomputable def amp (s : Setting) (micD srcD : Option Directivity) (rows m : Nat) (pos : Nat → ℝ) (b : Nat) (g : EngineImg) : ℝ :=
  amplitude (withGain s micD) (Directivity.toGain srcD) rows m pos b g

/-- The filter of a path: the directivities that are impulse responses. -/
noncomputable def filterOf (micD srcD : Option Directivity) (m : Nat) (g : EngineImg) : Nat → ℝ := convAll (irOf micD g.pos ++ irOf srcD (g.dirs m))

/-- The arrays of the filters. -/
def arrOf (d : Option Directivity) (l : List (Nat → ℝ)) : List Arr :=
  match d with
  | some (.ir taps f) => [⟨taps, l.map f⟩]
  | _ => []

theorem arrOf_ok {d : Option Directivity} (hd : DirOk d) (l : List (Nat → ℝ)) : ∀ t ∈ arrOf d l, t.Ok ∧ t.rows.length = l.length := by
  unfold arrOf
  split
  · rename_i taps f
    intro t ht
    obtain rfl := List.mem_singleton.mp ht
    refine ⟨⟨hd.1, fun row hr => ?_⟩, by simp⟩
    obtain ⟨p, _, rfl⟩ := List.mem_map.mp hr
    exact hd.2 p
  · intro t ht; cases ht

theorem arrOf_row (d : Option Directivity) (l : List (Nat → ℝ)) {r : Nat} (hr : r < l.length) :
    ((arrOf d l).map fun t => t.row r) = irOf d l[r] := by
  unfold arrOf irOf
  cases d with
  | none => rfl
  | some d =>
    cases d with
    | gain f => rfl
    | ir taps f =>
      simp only [List.map_cons, List.map_nil]
      congr 1
      funext i
      unfold Arr.row
      rw [List.getD_eq_getElem (l.map f) _ (by simpa using hr), List.getElem_map]

theorem arrOf_extra (d : Option Directivity) (l : List (Nat → ℝ)) : ((arrOf d l).map fun t => t.len - 1).sum = extra d := by
  unfold arrOf extra
  cases d with
  | none => rfl
  | some d => cases d <;> simp

theorem select_paths {β : Type} (hin : inside m = true) (hp : pathsTo engine m ≠ []) (f : EngineImg → β) :
    select (imageSourceModel st engine rows inside |>.visible m) (engine.map f) = .ok ((pathsTo engine m).map f) := by
  have he : 0 < engine.length := by
    cases engine with
    | nil => exact absurd rfl hp
    | cons _ _ => simp
  simp only [imageSourceModel, if_pos he, hin, if_true]
  exact IsmRir.select_mask engine _ f

theorem hasIr_iff : (argsOf s st micD srcD o m pos).hasIr ↔ (∃ taps f, micD = some (.ir taps f)) ∨ ∃ taps f, srcD = some (.ir taps f) := Iff.rfl

/-- Time of flight of the paths, in samples. -/
noncomputable def flights (s : Setting) (pos : Nat → ℝ) (paths : List EngineImg) : List ℝ := paths.map fun g => distance s.dim g.pos pos / s.c * s.fs

theorem sampleFrac_eq (imgs : List EngineImg) :
    sampleFrac (argsOf s st micD srcD o m pos) (imgs.map fun g => ⟨g.pos, g.damping⟩) = flights s pos imgs := by
  unfold sampleFrac flights
  rw [List.map_map]
  apply List.map_congr_left
  intro g _
  simp only [Function.comp_apply]
  rw [IsmRir.dist_eq]
  rfl

/-- The arrays of filters for the visible paths. -/
def arrs (micD srcD : Option Directivity) (m : Nat) (paths : List EngineImg) : List Arr :=
  arrOf micD (paths.map fun g => g.pos) ++ arrOf srcD (paths.map fun g => g.dirs m)

/-- The amplitudes and bands as arrays. -/
noncomputable def prepOf (s : Setting) (micD srcD : Option Directivity) (rows m : Nat) (pos : Nat → ℝ) (paths : List EngineImg) : Prep :=
  ⟨IsmRir.arrivals s pos paths, bandCount rows s.air, fun b => paths.map (amp s micD srcD rows m pos b),
    (⌈RirBuilder.maxOf (IsmRir.arrivals s pos paths) * s.fs + (s.fdl / 2 : Nat) + 1⌉ + 1).toNat⟩

theorem prepare_eq (hfit : Fits rows s.air) (hin : inside m = true) (hp : pathsTo engine m ≠ [])
    (hd : ∀ g ∈ pathsTo engine m, distance s.dim g.pos pos ≠ 0) (frac : List (List ℝ)) {irs : Arr}
    (h : convolved (argsOf s (imageSourceModel st engine rows inside) micD srcD o m pos) (prepOf s micD srcD rows m pos (pathsTo engine m))
      (arrs micD srcD m (pathsTo engine m)) ⟨s.fdl, frac⟩ = .ok irs) :
    prepare (argsOf s (imageSourceModel st engine rows inside) micD srcD o m pos) frac =
      .ok ⟨(flights s pos (pathsTo engine m)).map fun x => ⌊x⌋, irs, bandCount rows s.air⟩ := by
  have he : 0 < engine.length := by
    cases engine with
    | nil => exact absurd rfl hp
    | cons _ _ => simp
  have h1 : IsmRir.prepare (argsOf s (imageSourceModel st engine rows inside) micD srcD o m pos).gains = .ok (prepOf s micD srcD rows m pos (pathsTo engine m)) :=
    IsmRir.prepare_paths (s := withGain s micD) (st := st) (srcGain := Directivity.toGain srcD) hfit hin hp hd
  have h2 : select (argsOf s (imageSourceModel st engine rows inside) micD srcD o m pos).base.visible
      (argsOf s (imageSourceModel st engine rows inside) micD srcD o m pos).base.images = .ok ((pathsTo engine m).map fun g => ⟨g.pos, g.damping⟩) := by
    have := select_paths (st := st) (rows := rows) hin hp (fun g => (⟨g.pos, g.damping⟩ : Img))
    simp only [argsOf, IsmRir.argsOf]
    simp only [imageSourceModel, if_pos he] at this ⊢
    exact this
  have h3 : select (argsOf s (imageSourceModel st engine rows inside) micD srcD o m pos).base.visible
      (argsOf s (imageSourceModel st engine rows inside) micD srcD o m pos).base.dirs = .ok ((pathsTo engine m).map fun g => g.dirs m) := by
    have := select_paths (st := st) (rows := rows) hin hp (fun g => g.dirs m)
    simp only [argsOf, IsmRir.argsOf]
    simp only [imageSourceModel, if_pos he] at this ⊢
    exact this
  have h4 : micFilters (argsOf s (imageSourceModel st engine rows inside) micD srcD o m pos) ((pathsTo engine m).map fun g => ⟨g.pos, g.damping⟩) =
      arrOf micD ((pathsTo engine m).map fun g => g.pos) := by
    unfold micFilters arrOf
    simp only [argsOf]
    cases micD with
    | none => rfl
    | some d => cases d <;> simp [Function.comp_def]
  have h5 : srcFilters (argsOf s (imageSourceModel st engine rows inside) micD srcD o m pos) =
      .ok (arrOf srcD ((pathsTo engine m).map fun g => g.dirs m)) := by
    unfold srcFilters
    rw [h3]
    unfold arrOf
    simp only [argsOf]
    cases srcD with
    | none => rfl
    | some d => cases d <;> rfl
  unfold prepare
  rw [h1]
  change ((select (argsOf s (imageSourceModel st engine rows inside) micD srcD o m pos).base.visible
      (argsOf s (imageSourceModel st engine rows inside) micD srcD o m pos).base.images).bind fun images =>
    (srcFilters (argsOf s (imageSourceModel st engine rows inside) micD srcD o m pos)).bind fun src =>
    (convolved (argsOf s (imageSourceModel st engine rows inside) micD srcD o m pos) (prepOf s micD srcD rows m pos (pathsTo engine m))
      (micFilters (argsOf s (imageSourceModel st engine rows inside) micD srcD o m pos) images ++ src) ⟨s.fdl, frac⟩).bind fun irs =>
    Except.ok (⟨(sampleFrac (argsOf s (imageSourceModel st engine rows inside) micD srcD o m pos) images).map fun x => ⌊x⌋, irs, bandCount rows s.air⟩ : Parts)) = _
  rw [h2, h5]
  change (convolved _ _ (micFilters _ ((pathsTo engine m).map fun g => ⟨g.pos, g.damping⟩) ++ _) _).bind _ = _
  rw [h4]
  change (convolved _ _ (arrs micD srcD m (pathsTo engine m)) _).bind _ = _
  rw [h]
  change Except.ok (⟨_, _, _⟩ : Parts) = _
  rw [sampleFrac_eq]

theorem frac_eq (hs : Good s) (hin : inside m = true) (hp : pathsTo engine m ≠ []) :
    (sampleFrac (argsOf s (imageSourceModel st engine rows inside) micD srcD o m pos)
      (imagesOf (argsOf s (imageSourceModel st engine rows inside) micD srcD o m pos))).mapM
        (fracDelay (argsOf s (imageSourceModel st engine rows inside) micD srcD o m pos)) = some ((flights s pos (pathsTo engine m)).map (fracOf s)) := by
  have he : 0 < engine.length := by
    cases engine with
    | nil => exact absurd rfl hp
    | cons _ _ => simp
  have h2 : select (argsOf s (imageSourceModel st engine rows inside) micD srcD o m pos).base.visible
      (argsOf s (imageSourceModel st engine rows inside) micD srcD o m pos).base.images = .ok ((pathsTo engine m).map fun g => ⟨g.pos, g.damping⟩) := by
    have := select_paths (st := st) (rows := rows) hin hp (fun g => (⟨g.pos, g.damping⟩ : Img))
    simp only [argsOf, IsmRir.argsOf]
    simp only [imageSourceModel, if_pos he] at this ⊢
    exact this
  unfold imagesOf
  rw [h2]
  change (sampleFrac _ ((pathsTo engine m).map fun g => ⟨g.pos, g.damping⟩)).mapM _ = _
  rw [sampleFrac_eq]
  exact RirBuilder.mapM_some _ _ _ fun x _ => fracDelay_eq hs rfl rfl x

theorem sum_index {α : Type} (l : List α) (F : α → ℝ) (G : Nat → ℝ) (h : ∀ j (hj : j < l.length), G j = F l[j]) : ∑ j ∈ range l.length, G j = (l.map F).sum := by
  rw [← Simulate.sum_range_list]
  congr 1
  apply List.ext_getElem
  · simp
  · intro j h1 h2
    simp only [List.getElem_map, List.getElem_range]
    exact h j (by simpa using h1)

/-- The filter of a path, with the pulse and possibly other filters. -/
theorem fracArr_ok (hs : Good s) (paths : List EngineImg) : (Arr.mk s.fdl ((flights s pos paths).map (fracOf s))).Ok ∧
    (Arr.mk s.fdl ((flights s pos paths).map (fracOf s))).rows.length = paths.length := by
  refine ⟨⟨by have := hs.fdl; simp only; omega, fun row hr => ?_⟩, by simp [flights]⟩
  obtain ⟨x, _, rfl⟩ := List.mem_map.mp hr
  simp [fracOf]

theorem fracArr_row (hs : Good s) (paths : List EngineImg) {r : Nat} (hr : r < paths.length) :
    (Arr.mk s.fdl ((flights s pos paths).map (fracOf s))).row r = tapOf s (distance s.dim paths[r].pos pos / s.c * s.fs) := by
  funext i
  unfold Arr.row
  rw [List.getD_eq_getElem ((flights s pos paths).map (fracOf s)) _ (by simpa [flights] using hr)]
  simp only [List.getElem_map, flights, fracOf]
  rw [Simulate.getD_map_range]
  split
  · rfl
  · unfold tapOf
    rw [if_neg]
    have := hs.fdl
    unfold oddLen
    split <;> omega

theorem arrs_ok (h1 : DirOk micD) (h2 : DirOk srcD) (paths : List EngineImg) : ∀ t ∈ arrs micD srcD m paths, t.Ok ∧ t.rows.length = paths.length := by
  intro t ht
  rcases List.mem_append.mp ht with h | h
  · simpa using arrOf_ok h1 _ t h
  · simpa using arrOf_ok h2 _ t h

theorem arrs_row (paths : List EngineImg) {r : Nat} (hr : r < paths.length) :
    ((arrs micD srcD m paths).map fun t => t.row r) = irOf micD paths[r].pos ++ irOf srcD (paths[r].dirs m) := by
  unfold arrs
  rw [List.map_append, arrOf_row _ _ (by simpa using hr), arrOf_row _ _ (by simpa using hr)]
  simp

theorem arrs_extra (paths : List EngineImg) : ((arrs micD srcD m paths).map fun t => t.len - 1).sum = extra micD + extra srcD := by
  unfold arrs
  rw [List.map_append, List.sum_append, arrOf_extra, arrOf_extra]

/-- The result in terms of the rows given to `delay_sum`. -/
theorem run_paths (hs : Good s) (hfit : Fits rows s.air) (hin : inside m = true) (hp : pathsTo engine m ≠ [])
    (hd : ∀ g ∈ pathsTo engine m, distance s.dim g.pos pos ≠ 0) (hir : (∃ taps f, micD = some (.ir taps f)) ∨ ∃ taps f, srcD = some (.ir taps f))
    {irs : Arr} (h : convolved (argsOf s (imageSourceModel st engine rows inside) micD srcD o m pos) (prepOf s micD srcD rows m pos (pathsTo engine m))
      (arrs micD srcD m (pathsTo engine m)) ⟨s.fdl, (flights s pos (pathsTo engine m)).map (fracOf s)⟩ = .ok irs)
    (hok : irs.Ok) (hrows : irs.rows.length = (pathsTo engine m).length) (F : EngineImg → Nat → ℝ)
    (hF : ∀ r (hr : r < (pathsTo engine m).length), irs.row r = F (pathsTo engine m)[r]) :
    ∃ x : List ℝ, (∀ res, Run (argsOf s (imageSourceModel st engine rows inside) micD srcD o m pos) res ↔
        res = .ok (trim (argsOf s (imageSourceModel st engine rows inside) micD srcD o m pos) (bandCount rows s.air) x)) ∧
      (∀ i, x.getD i 0 = ((pathsTo engine m).map fun g => delayed ⌊distance s.dim g.pos pos / s.c * s.fs⌋.toNat (F g) i).sum) ∧
      ∃ g ∈ pathsTo engine m, (∀ g' ∈ pathsTo engine m, distance s.dim g'.pos pos ≤ distance s.dim g.pos pos) ∧
        (x.length : Int) = ⌊distance s.dim g.pos pos / s.c * s.fs⌋ + irs.len := by
  have hfs : (0 : ℝ) < s.fs := by exact_mod_cast hs.fs
  have hprep := prepare_eq hfit hin hp hd _ h
  have hpok : Parts.Ok ⟨(flights s pos (pathsTo engine m)).map fun x => ⌊x⌋, irs, bandCount rows s.air⟩ := by
    refine ⟨hok, by simpa [flights] using hrows, by simpa [flights] using hp, ?_⟩
    intro d hd
    simp only [flights, List.map_map, List.mem_map, Function.comp_apply] at hd
    obtain ⟨g, _, rfl⟩ := hd
    exact Int.floor_nonneg.mpr (mul_nonneg (div_nonneg (IsmRir.distance_nonneg _ _ _) hs.c.le) hfs.le)
  refine ⟨_, fun res => run_iff (hasIr_iff.mpr hir) (frac_eq hs hin hp) hprep hpok hs.threads res, fun i => ?_, ?_⟩
  · rw [Simulate.getD_map_range]
    have : sumOf ⟨(flights s pos (pathsTo engine m)).map fun x => ⌊x⌋, irs, bandCount rows s.air⟩ i =
        ((pathsTo engine m).map fun g => delayed ⌊distance s.dim g.pos pos / s.c * s.fs⌋.toNat (F g) i).sum := by
      unfold sumOf
      rw [show (Parts.delays ⟨(flights s pos (pathsTo engine m)).map fun x => ⌊x⌋, irs, bandCount rows s.air⟩).length = (pathsTo engine m).length by simp [flights]]
      apply sum_index
      intro j hj
      simp only
      rw [List.getD_eq_getElem _ _ (by simpa [flights] using hj), hF j hj]
      simp [flights]
    split
    · exact this
    · rename_i hi
      rw [← this]
      exact (sumOf_beyond hpok (by omega)).symm
  · obtain ⟨d, hd, e, hm⟩ := nMax_eq hpok
    obtain ⟨g, hg, e', hmax⟩ : ∃ g ∈ pathsTo engine m, True ∧ ∀ g' ∈ pathsTo engine m, distance s.dim g'.pos pos ≤ distance s.dim g.pos pos := by
      obtain ⟨g, hg, h⟩ := List.mem_map.mp (IsmRir.maxOf_mem (l := (pathsTo engine m).map fun g => distance s.dim g.pos pos) (by simpa using hp))
      refine ⟨g, hg, trivial, fun g' hg' => ?_⟩
      rw [h]
      exact RirBuilder.le_maxOf (List.mem_map_of_mem (f := fun g : EngineImg => distance s.dim g.pos pos) hg')
    refine ⟨g, hg, hmax, ?_⟩
    rw [List.length_map, List.length_range, e]
    simp only [flights, List.map_map, List.mem_map, Function.comp_apply] at hd hm
    obtain ⟨g', hg', rfl⟩ := hd
    have h1 := hm ⌊distance s.dim g.pos pos / s.c * s.fs⌋ ⟨g, hg, rfl⟩
    have h2 : ⌊distance s.dim g'.pos pos / s.c * s.fs⌋ ≤ ⌊distance s.dim g.pos pos / s.c * s.fs⌋ :=
      Int.floor_mono (mul_le_mul_of_nonneg_right ((div_le_div_iff_of_pos_right hs.c).mpr (hmax g' hg')) hfs.le)
    simp only
    omega

theorem distance_pulse (hs : Good s) (x : Nat → ℝ) (g : EngineImg) :
    delayed ⌊distance s.dim g.pos pos / s.c * s.fs⌋.toNat (conv x (tapOf s (distance s.dim g.pos pos / s.c * s.fs))) = conv x (pulse s (distance s.dim g.pos pos)) := by
  rw [pulse_eq hs (IsmRir.distance_nonneg _ _ _), conv_delayed]

/-- **C91.** The impulse response with directivities that are given as impulse responses, for one band: each visible path contributes
the pulse at its time of flight, filtered by the impulse responses of microphone and source in its directions, with the amplitude
`damping / distance` times the absorption by the air and the other gains. The schedule of the threads does not matter and nothing is cut off. -/
theorem C91_rir (hs : Good s) (hfit : Fits rows s.air) (hin : inside m = true) (hp : pathsTo engine m ≠ [])
    (hd : ∀ g ∈ pathsTo engine m, distance s.dim g.pos pos ≠ 0) (hir : (∃ taps f, micD = some (.ir taps f)) ∨ ∃ taps f, srcD = some (.ir taps f))
    (hm : DirOk micD) (hsrc : DirOk srcD) (hb : bandCount rows s.air = 1) :
    ∃ r : List ℝ, (∀ res, Run (argsOf s (imageSourceModel st engine rows inside) micD srcD o m pos) res ↔ res = .ok r) ∧
      (∀ i, r.getD i 0 = ((pathsTo engine m).map fun g =>
        amp s micD srcD rows m pos 0 g * conv (filterOf micD srcD m g) (pulse s (distance s.dim g.pos pos)) i).sum) ∧
      ∃ g ∈ pathsTo engine m, (∀ g' ∈ pathsTo engine m, distance s.dim g'.pos pos ≤ distance s.dim g.pos pos) ∧
        (r.length : Int) = ⌊distance s.dim g.pos pos / s.c * s.fs⌋ + s.fdl + extra micD + extra srcD := by
  set paths := pathsTo engine m with hpaths
  obtain ⟨f1, f2⟩ := fracArr_ok (pos := pos) hs paths
  obtain ⟨c, h1, h2, h3, h4, h5⟩ := convolveAll_eq (arrs micD srcD m paths ++ [⟨s.fdl, (flights s pos paths).map (fracOf s)⟩]) (by simp) paths.length
    (fun t ht => by
      rcases List.mem_append.mp ht with h | h
      · exact (arrs_ok hm hsrc paths t h).1
      · obtain rfl := List.mem_singleton.mp h; exact f1)
    (fun t ht => by
      rcases List.mem_append.mp ht with h | h
      · exact (arrs_ok hm hsrc paths t h).2
      · obtain rfl := List.mem_singleton.mp h; exact f2)
  have hcv : convolved (argsOf s (imageSourceModel st engine rows inside) micD srcD o m pos) (prepOf s micD srcD rows m pos paths)
      (arrs micD srcD m paths) ⟨s.fdl, (flights s pos paths).map (fracOf s)⟩ = .ok (scale (paths.map (amp s micD srcD rows m pos 0)) c) := by
    unfold convolved
    rw [if_pos (show (prepOf s micD srcD rows m pos paths).bands = 1 from hb), h1]
    rfl
  have hlen : (scale (paths.map (amp s micD srcD rows m pos 0)) c).rows.length = paths.length := by simp [scale, h4]
  obtain ⟨x, e1, e2, g, hg, e3, e4⟩ := run_paths (st := st) (o := o) hs hfit hin hp hd hir hcv ⟨h2.1, fun row hr => by
      obtain ⟨k, hk, rfl⟩ := List.getElem_of_mem hr
      simp only [scale, List.getElem_zipWith, List.length_map]
      exact h2.2 _ (List.getElem_mem _)⟩ hlen
    (fun g i => conv (filterOf micD srcD m g) (tapOf s (distance s.dim g.pos pos / s.c * s.fs)) i * amp s micD srcD rows m pos 0 g) (by
      intro r hr
      funext i
      have h6 := congrFun (h5 r hr) i
      rw [List.map_append, convAll_append, arrs_row _ hr, List.map_cons, List.map_nil, convAll_single, fracArr_row hs _ hr] at h6
      have hr : r < paths.length := hr
      change _ = conv (filterOf micD srcD m paths[r]) (tapOf s (distance s.dim paths[r].pos pos / s.c * s.fs)) i * amp s micD srcD rows m pos 0 paths[r]
      unfold filterOf
      rw [← h6]
      unfold Arr.row scale
      rw [List.getD_eq_getElem _ [] (by simp only [List.length_zipWith, List.length_map]; omega), List.getElem_zipWith,
        List.getD_eq_getElem c.rows [] (by omega), List.getElem_map]
      rw [List.getD_eq_getElem?_getD, List.getD_eq_getElem?_getD, List.getElem?_map]
      cases (c.rows[r])[i]? <;> simp)
  have ht : trim (argsOf s (imageSourceModel st engine rows inside) micD srcD o m pos) (bandCount rows s.air) x = x := by
    unfold trim
    rw [if_neg (by omega)]
  rw [ht] at e1
  refine ⟨x, e1, fun i => ?_, g, hg, e3, ?_⟩
  · rw [e2 i]
    congr 1
    apply List.map_congr_left
    intro g _
    rw [← distance_pulse hs]
    unfold delayed
    split
    · ring
    · ring
  · rw [e4]
    simp only [scale]
    rw [h3, List.map_append, List.sum_append, arrs_extra]
    have := hs.fdl
    simp
    omega

/-- **C91, frequency bands.** With several bands each path is also filtered by the filter designed for its amplitudes in the bands;
if the filters are not of minimum phase, then the first `octave_bands_n_fft // 2` samples are dropped. -/
theorem C91_bands (hs : Good s) (hfit : Fits rows s.air) (hin : inside m = true) (hp : pathsTo engine m ≠ [])
    (hd : ∀ g ∈ pathsTo engine m, distance s.dim g.pos pos ≠ 0) (hir : (∃ taps f, micD = some (.ir taps f)) ∨ ∃ taps f, srcD = some (.ir taps f))
    (hm : DirOk micD) (hsrc : DirOk srcD) (hb : 1 < bandCount rows s.air) (hl : 1 ≤ o.synthLen) (hsyn : ∀ l, (o.synthesis l).length = o.synthLen) :
    ∃ r : List ℝ, (∀ res, Run (argsOf s (imageSourceModel st engine rows inside) micD srcD o m pos) res ↔ res = .ok r) ∧
      (∀ i, r.getD i 0 = ((pathsTo engine m).map fun g => conv (conv (filterOf micD srcD m g)
        (fun k => (o.synthesis ((List.range (bandCount rows s.air)).map fun b => amp s micD srcD rows m pos b g)).getD k 0))
          (pulse s (distance s.dim g.pos pos)) (i + if o.minPhase then 0 else o.nfft / 2)).sum) ∧
      ∃ g ∈ pathsTo engine m, (∀ g' ∈ pathsTo engine m, distance s.dim g'.pos pos ≤ distance s.dim g.pos pos) ∧
        r.length = ⌊distance s.dim g.pos pos / s.c * s.fs⌋.toNat + s.fdl + extra micD + extra srcD + (o.synthLen - 1) - if o.minPhase then 0 else o.nfft / 2 := by
  set paths := pathsTo engine m with hpaths
  obtain ⟨f1, f2⟩ := fracArr_ok (pos := pos) hs paths
  set syn := fun g : EngineImg => o.synthesis ((List.range (bandCount rows s.air)).map fun b => amp s micD srcD rows m pos b g) with hsyn'
  set a := argsOf s (imageSourceModel st engine rows inside) micD srcD o m pos with ha
  have hbf : bandFilters a (prepOf s micD srcD rows m pos paths) paths.length = ⟨o.synthLen, paths.map syn⟩ := by
    unfold bandFilters
    have e : (List.range paths.length).map (fun j => a.synthesis ((List.range (prepOf s micD srcD rows m pos paths).bands).map fun b =>
        ((prepOf s micD srcD rows m pos paths).amp b).getD j 0)) = paths.map syn := by
      apply List.ext_getElem
      · simp
      · intro j h1 h2
        have hj : j < paths.length := by simpa using h2
        simp only [List.getElem_map, List.getElem_range, hsyn']
        change o.synthesis ((List.range (bandCount rows s.air)).map fun b => (paths.map (amp s micD srcD rows m pos b)).getD j 0) = _
        congr 1
        apply List.map_congr_left
        intro b _
        rw [List.getD_eq_getElem _ _ (by simpa using hj), List.getElem_map]
    rw [e]
    rfl
  have b1 : (Arr.mk o.synthLen (paths.map syn)).Ok := ⟨hl, fun row hr => by
    obtain ⟨g, _, rfl⟩ := List.mem_map.mp hr
    exact hsyn _⟩
  have b2 : (Arr.mk o.synthLen (paths.map syn)).rows.length = paths.length := by simp
  obtain ⟨c, h1, h2, h3, h4, h5⟩ := convolveAll_eq (arrs micD srcD m paths ++ [⟨s.fdl, (flights s pos paths).map (fracOf s)⟩] ++ [⟨o.synthLen, paths.map syn⟩]) (by simp)
    paths.length
    (fun t ht => by
      rcases List.mem_append.mp ht with h | h
      · rcases List.mem_append.mp h with h | h
        · exact (arrs_ok hm hsrc paths t h).1
        · obtain rfl := List.mem_singleton.mp h; exact f1
      · obtain rfl := List.mem_singleton.mp h; exact b1)
    (fun t ht => by
      rcases List.mem_append.mp ht with h | h
      · rcases List.mem_append.mp h with h | h
        · exact (arrs_ok hm hsrc paths t h).2
        · obtain rfl := List.mem_singleton.mp h; exact f2
      · obtain rfl := List.mem_singleton.mp h; exact b2)
  have hcv : convolved a (prepOf s micD srcD rows m pos paths)
      (arrs micD srcD m paths) ⟨s.fdl, (flights s pos paths).map (fracOf s)⟩ = .ok c := by
    unfold convolved
    rw [if_neg (show ¬ (prepOf s micD srcD rows m pos paths).bands = 1 from by change ¬ bandCount rows s.air = 1; omega), f2, hbf, h1]
  obtain ⟨x, e1, e2, g, hg, e3, e4⟩ := run_paths (st := st) (o := o) hs hfit hin hp hd hir hcv h2 h4
    (fun g => conv (conv (filterOf micD srcD m g) (fun k => (syn g).getD k 0)) (tapOf s (distance s.dim g.pos pos / s.c * s.fs))) (by
      intro r hr
      have h6 := h5 r hr
      rw [List.map_append, List.map_append, convAll_append, convAll_append, arrs_row _ hr, List.map_cons, List.map_nil, convAll_single,
        List.map_cons, List.map_nil, convAll_single, fracArr_row hs _ hr] at h6
      rw [h6]
      have : (Arr.mk o.synthLen (paths.map syn)).row r = fun k => (syn paths[r]).getD k 0 := by
        funext k
        unfold Arr.row
        rw [List.getD_eq_getElem (paths.map syn) _ (by simpa using hr), List.getElem_map]
      rw [this, conv_assoc, conv_comm (tapOf _ _), ← conv_assoc]
      rfl)
  have hfs : (0 : ℝ) < s.fs := by exact_mod_cast hs.fs
  have hfl : 0 ≤ ⌊distance s.dim g.pos pos / s.c * s.fs⌋ := Int.floor_nonneg.mpr (mul_nonneg (div_nonneg (IsmRir.distance_nonneg _ _ _) hs.c.le) hfs.le)
  have ht : trim a (bandCount rows s.air) x = x.drop (if o.minPhase then 0 else o.nfft / 2) := by
    unfold trim
    change (if 1 < bandCount rows s.air ∧ o.minPhase = false then x.drop (o.nfft / 2) else x) = _
    cases o.minPhase <;> simp [hb]
  rw [ht] at e1
  refine ⟨_, e1, fun i => ?_, g, hg, e3, ?_⟩
  · rw [List.getD_eq_getElem?_getD, List.getElem?_drop, Nat.add_comm, ← List.getD_eq_getElem?_getD, e2]
    congr 1
    apply List.map_congr_left
    intro g _
    rw [distance_pulse hs]
  · rw [List.length_drop]
    rw [h3, List.map_append, List.sum_append, List.map_append, List.sum_append, arrs_extra] at e4
    have := hs.fdl
    simp only [List.map_cons, List.map_nil, List.sum_cons, List.sum_nil] at e4
    congr 1
    omega

/-- **C91.** Without directivities that are impulse responses, the response is the one of C69. -/
theorem C91_gains (hno : ¬ ((∃ taps f, micD = some (.ir taps f)) ∨ ∃ taps f, srcD = some (.ir taps f))) (res : Except Err (List ℝ)) :
    Run (argsOf s st micD srcD o m pos) res ↔ IsmRir.Run (IsmRir.argsOf (withGain s micD) st (Directivity.toGain srcD) m pos) res := by
  constructor
  · intro h
    cases h with
    | other _ h => exact h
    | raised hi => exact absurd hi hno
    | refused hi => exact absurd hi hno
    | done hi => exact absurd hi hno
  · intro h
    exact .other hno h

/-! ## Comparison with gains -/

/-- The directivity acts as the gain `g`: it is this gain, or an impulse response that is zero after its first sample. -/
def ActsAs : Option Directivity → Option ((Nat → ℝ) → ℝ) → Prop
  | none, none => True
  | some (.gain f), some g => f = g
  | some (.ir _ f), some g => ∀ p i, (f p).getD i 0 = if i = 0 then g p else 0
  | _, _ => False

/-- The gain of an optional directivity. -/
noncomputable def optGain (g : Option ((Nat → ℝ) → ℝ)) (p : Nat → ℝ) : ℝ := match g with | none => 1 | some f => f p

/-- The gains multiply the amplitude. -/
theorem actsAs_gain {d : Option Directivity} {g : Option ((Nat → ℝ) → ℝ)} (h : ActsAs d g) (p : Nat → ℝ) :
    PowerSeries.mk (convAll (irOf d p)) * PowerSeries.C (optGain (Directivity.toGain d) p) = PowerSeries.C (optGain g p) := by
  cases d with
  | none =>
    cases g with
    | none => simp [irOf, mk_convAll, optGain, Directivity.toGain]
    | some g => cases h
  | some d =>
    cases d with
    | gain f =>
      cases g with
      | none => cases h
      | some g =>
        obtain rfl : f = g := h
        simp [irOf, mk_convAll, Directivity.toGain]
    | ir taps f =>
      cases g with
      | none => cases h
      | some g =>
        simp only [irOf, mk_convAll, Directivity.toGain, optGain, List.map_cons, List.map_nil, List.prod_cons, List.prod_nil, mul_one, map_one]
        ext n
        rw [PowerSeries.coeff_mk, PowerSeries.coeff_C]
        exact h p n

theorem conv_eq_of_mk {x : Nat → ℝ} {a b : ℝ} (h : PowerSeries.mk x * PowerSeries.C a = PowerSeries.C b) (y : Nat → ℝ) (i : Nat) : a * conv x y i = b * y i := by
  have := congrArg (fun z => PowerSeries.coeff i (z * PowerSeries.mk y)) h
  simp only [PowerSeries.coeff_C_mul, PowerSeries.coeff_mk] at this
  rw [← this, mul_assoc, mul_comm (PowerSeries.C a), ← mul_assoc, PowerSeries.coeff_mul_C, ← mk_conv, PowerSeries.coeff_mk, mul_comm]

theorem contrib_smul (fs : Int) (fdl gran : Nat) (t a : ℝ) (i : Nat) : contrib fs fdl gran t a i = a * contrib fs fdl gran t 1 i := by
  unfold contrib
  simp only
  split
  · ring
  · ring

/-- The settings with a gain for all microphones. -/
def withMic (s : Setting) (gm : Option ((Nat → ℝ) → ℝ)) : Setting := { s with micGain := fun _ => gm }

theorem amplitude_split (gm gs : Option ((Nat → ℝ) → ℝ)) (b : Nat) (g : EngineImg) :
    amplitude (withMic s gm) gs rows m pos b g = amplitude (withMic s none) none rows m pos b g * optGain gm g.pos * optGain gs (g.dirs m) := by
  unfold amplitude withMic optGain
  cases gm <;> cases gs <;> simp

/-- The samples of C91 for directivities that act as gains are those of C69. -/
theorem response_eq (hfdl : s.fdl % 2 = 1) {gm gs : Option ((Nat → ℝ) → ℝ)} (h1 : ActsAs micD gm) (h2 : ActsAs srcD gs)
    (b : Nat) (paths : List EngineImg) (i : Nat) :
    (paths.map fun g => amp s micD srcD rows m pos b g * conv (filterOf micD srcD m g) (pulse s (distance s.dim g.pos pos)) i).sum =
      response (withMic s gm) gs rows m pos b paths i := by
  unfold response
  congr 1
  apply List.map_congr_left
  intro g _
  rw [contrib_smul, amplitude_split]
  have hodd : oddLen s.fdl = s.fdl := by unfold oddLen; rw [if_neg (by omega)]
  have hp : contrib (withMic s gm).fs (withMic s gm).fdl (withMic s gm).gran
      (distance (withMic s gm).dim g.pos pos / (withMic s gm).c + (((withMic s gm).fdl / 2 : Nat) : ℝ) / (withMic s gm).fs) 1 i =
      pulse s (distance s.dim g.pos pos) i := by
    unfold pulse
    rw [hodd]
    rfl
  rw [hp]
  have e := actsAs_gain h1 g.pos
  have e' := actsAs_gain h2 (g.dirs m)
  have hf : PowerSeries.mk (filterOf micD srcD m g) *
      PowerSeries.C (optGain (Directivity.toGain micD) g.pos * optGain (Directivity.toGain srcD) (g.dirs m)) =
      PowerSeries.C (optGain gm g.pos * optGain gs (g.dirs m)) := by
    unfold filterOf
    rw [convAll_append, mk_conv, map_mul, map_mul, ← e, ← e']
    ring
  have := conv_eq_of_mk hf (pulse s (distance s.dim g.pos pos)) i
  have ha : amp s micD srcD rows m pos b g = amplitude (withMic s none) none rows m pos b g * optGain (Directivity.toGain micD) g.pos *
      optGain (Directivity.toGain srcD) (g.dirs m) := amplitude_split _ _ b g
  rw [ha, mul_assoc, mul_assoc, mul_assoc, ← mul_assoc (optGain (Directivity.toGain micD) g.pos), this]
  ring

/-- **C91, agreement of the branches.** Directivities given as impulse responses with a single sample are gains: for one band and an odd
filter length the response has the same samples as the one computed from the gains (C69). -/
theorem C91_agree (hs : Good s) (hfdl : s.fdl % 2 = 1) (hfit : Fits rows s.air) (hin : inside m = true) (hp : pathsTo engine m ≠ [])
    (hd : ∀ g ∈ pathsTo engine m, distance s.dim g.pos pos ≠ 0) (hir : (∃ taps f, micD = some (.ir taps f)) ∨ ∃ taps f, srcD = some (.ir taps f))
    (hm : DirOk micD) (hsrc : DirOk srcD) (hb : bandCount rows s.air = 1) {gm gs : Option ((Nat → ℝ) → ℝ)} (h1 : ActsAs micD gm) (h2 : ActsAs srcD gs) :
    ∃ r r' : List ℝ, (∀ res, Run (argsOf s (imageSourceModel st engine rows inside) micD srcD o m pos) res ↔ res = .ok r) ∧
      (∀ res, IsmRir.Run (IsmRir.argsOf (withMic s gm) (imageSourceModel st engine rows inside) gs m pos) res ↔ res = .ok r') ∧
      ∀ i, r.getD i 0 = r'.getD i 0 := by
  obtain ⟨r, e1, e2, _⟩ := C91_rir (st := st) (o := o) hs hfit hin hp hd hir hm hsrc hb
  obtain ⟨r', e1', e2', _⟩ := IsmRir.C69_rir (s := withMic s gm) (st := st) (srcGain := gs) (rows := rows) (mic := pos)
    ⟨hs.c, hs.fs, hfdl, by have := hs.fdl; change s.fdl ≠ 1; omega, hs.gran, hs.threads⟩ hfit hin hp hd hb
  exact ⟨r, r', e1, e1', fun i => by rw [e2, e2', response_eq hfdl h1 h2]⟩

/-! ## Flat materials -/

/-- The filter bank turns equal amplitudes in all `n` bands into an impulse at sample `p`. -/
def ImpulseAt (o : Bank) (n p : Nat) : Prop := ∀ c i, (o.synthesis (List.replicate n c)).getD i 0 = if i = p then c else 0

/-- **C91, flat materials.** If neither damping nor air depend on the frequency and the filter bank gives an impulse at sample `p`, then the
response computed with several bands is the one computed with one band, shifted by `p` minus the number of samples that are dropped. -/
theorem C91_flat (hs : Good s) (hair : s.air = none) (hin : inside m = true) (hp : pathsTo engine m ≠ [])
    (hd : ∀ g ∈ pathsTo engine m, distance s.dim g.pos pos ≠ 0) (hir : (∃ taps f, micD = some (.ir taps f)) ∨ ∃ taps f, srcD = some (.ir taps f))
    (hm : DirOk micD) (hsrc : DirOk srcD) (hb : 1 < rows) (hl : 1 ≤ o.synthLen) (hsyn : ∀ l, (o.synthesis l).length = o.synthLen)
    (hmp : o.minPhase = false) (hflat : ∀ g ∈ pathsTo engine m, ∀ b, g.damping b = g.damping 0) {p : Nat} (himp : ImpulseAt o rows p) :
    ∃ r r' : List ℝ, (∀ res, Run (argsOf s (imageSourceModel st engine rows inside) micD srcD o m pos) res ↔ res = .ok r) ∧
      (∀ res, Run (argsOf s (imageSourceModel st engine 1 inside) micD srcD o m pos) res ↔ res = .ok r') ∧
      ∀ i, r.getD i 0 = if p ≤ i + o.nfft / 2 then r'.getD (i + o.nfft / 2 - p) 0 else 0 := by
  have hb1 : bandCount rows s.air = rows := by rw [hair]; rfl
  obtain ⟨r, e1, e2, _⟩ := C91_bands (st := st) (o := o) (rows := rows) hs (by simp [Fits, hair]) hin hp hd hir hm hsrc (by rw [hb1]; exact hb) hl hsyn
  obtain ⟨r', e1', e2', _⟩ := C91_rir (st := st) (o := o) (rows := 1) hs (by simp [Fits, hair]) hin hp hd hir hm hsrc (by rw [hair]; rfl)
  refine ⟨r, r', e1, e1', fun i => ?_⟩
  rw [e2, e2', hmp, hb1]
  simp only [Bool.false_eq_true, if_false]
  generalize i + o.nfft / 2 = k
  have key : ∀ g ∈ pathsTo engine m, conv (conv (filterOf micD srcD m g) (fun k => (o.synthesis ((List.range rows).map fun b => amp s micD srcD rows m pos b g)).getD k 0))
      (pulse s (distance s.dim g.pos pos)) k = delayed p (fun j => amp s micD srcD 1 m pos 0 g * conv (filterOf micD srcD m g) (pulse s (distance s.dim g.pos pos)) j) k := by
    intro g hg
    have ea : ∀ b, amp s micD srcD rows m pos b g = amp s micD srcD 1 m pos 0 g := by
      intro b
      unfold amp amplitude
      rw [show (withGain s micD).air = none from hair, hflat g hg (if rows = 1 then 0 else b), if_pos rfl]
    have el : (List.range rows).map (fun b => amp s micD srcD rows m pos b g) = List.replicate rows (amp s micD srcD 1 m pos 0 g) := by
      rw [List.eq_replicate_iff]
      refine ⟨by simp, fun x hx => ?_⟩
      obtain ⟨b, _, rfl⟩ := List.mem_map.mp hx
      exact ea b
    rw [el]
    generalize amp s micD srcD 1 m pos 0 g = c
    have es : (fun k => (o.synthesis (List.replicate rows c)).getD k 0) = delayed p (fun j => c * delta j) := by
      funext k
      rw [himp c k]
      unfold delayed delta
      by_cases h : k = p
      · subst h; simp
      · rw [if_neg h]
        by_cases h' : p ≤ k
        · rw [if_pos h']
          beta_reduce
          rw [if_neg (by omega), mul_zero]
        · rw [if_neg h']
    rw [es]
    have hmk : PowerSeries.mk (fun j => c * delta j) = PowerSeries.C c := by
      ext n
      rw [PowerSeries.coeff_mk, PowerSeries.coeff_C]
      unfold delta
      split <;> simp
    refine congrFun (mk_inj ?_) k
    rw [mk_conv, mk_conv, mk_delayed, mk_delayed, hmk]
    have : PowerSeries.mk (fun j => c * conv (filterOf micD srcD m g) (pulse s (distance s.dim g.pos pos)) j) =
        PowerSeries.C c * (PowerSeries.mk (filterOf micD srcD m g) * PowerSeries.mk (pulse s (distance s.dim g.pos pos))) := by
      ext n
      rw [PowerSeries.coeff_mk, PowerSeries.coeff_C_mul, ← mk_conv, PowerSeries.coeff_mk]
    rw [this]
    ring
  rw [List.map_congr_left key]
  unfold delayed
  by_cases h : p ≤ k
  · simp only [if_pos h]
  · simp [if_neg h]

/-- **C91, flat materials, filter bank of the room.** With Antoni's filters, designed with `octave_bands_n_fft` taps, several bands with
the same coefficients give the response of one band. -/
theorem C91_flat_antoni (hs : Good s) (hair : s.air = none) (hin : inside m = true) (hp : pathsTo engine m ≠ [])
    (hd : ∀ g ∈ pathsTo engine m, distance s.dim g.pos pos ≠ 0) (hir : (∃ taps f, micD = some (.ir taps f)) ∨ ∃ taps f, srcD = some (.ir taps f))
    (hm : DirOk micD) (hsrc : DirOk srcD) (hflat : ∀ g ∈ pathsTo engine m, ∀ b, g.damping b = g.damping 0)
    (bins : Bands.AntoniBins) (slope nfft length : Nat) (hbins : Bands.Separated bins) (hN : ∀ b < bins.n, 0 < bins.half b) (hf : bins.nfreq = nfft / 2 + 1)
    (hb : 1 < bins.n) (h1 : 1 ≤ length) (hlen : length ≤ nfft) :
    ∃ r r' : List ℝ, (∀ res, Run (argsOf s (imageSourceModel st engine bins.n inside) micD srcD
          ⟨fun l => (List.range length).map (Bands.antoniDesign bins slope nfft length l), length, false, length⟩ m pos) res ↔ res = .ok r) ∧
      (∀ res, Run (argsOf s (imageSourceModel st engine 1 inside) micD srcD
          ⟨fun l => (List.range length).map (Bands.antoniDesign bins slope nfft length l), length, false, length⟩ m pos) res ↔ res = .ok r') ∧
      ∀ i, r.getD i 0 = r'.getD i 0 := by
  obtain ⟨r, r', e1, e2, e3⟩ := C91_flat (st := st) (rows := bins.n) (p := length / 2)
    (o := ⟨fun l => (List.range length).map (Bands.antoniDesign bins slope nfft length l), length, false, length⟩) hs hair hin hp hd hir hm hsrc hb h1
    (by simp) rfl hflat (by
      intro c i
      simp only
      rw [Simulate.getD_map_range]
      split
      · rename_i hi
        exact Bands.C68_design bins slope nfft hbins hN hf length c (by omega)
      · rename_i hi
        rw [if_neg (by omega)])
  refine ⟨r, r', e1, e2, fun i => ?_⟩
  rw [e3, if_pos (by simp only; omega)]
  congr 1
  simp only
  omega

/-- **C91, deviation.** With the cosine filters of `OctaveBandsFactory` and an even `octave_bands_n_fft` one sample too many is dropped: the
response comes one sample too early, and its first sample is lost. -/
theorem C91_flat_cosine_deviation (hs : Good s) (hair : s.air = none) (hin : inside m = true) (hp : pathsTo engine m ≠ [])
    (hd : ∀ g ∈ pathsTo engine m, distance s.dim g.pos pos ≠ 0) (hir : (∃ taps f, micD = some (.ir taps f)) ∨ ∃ taps f, srcD = some (.ir taps f))
    (hm : DirOk micD) (hsrc : DirOk srcD) (hflat : ∀ g ∈ pathsTo engine m, ∀ b, g.damping b = g.damping 0)
    {nfft : Nat} {centers : List ℝ} {fs : ℝ} {mag : Nat → Nat → ℝ} (hc : centers.Pairwise (· < ·)) (h0 : 0 < centers.getD 0 0)
    (hok : Bands.cosineResponse nfft centers fs true = .ok mag) (hb : 1 < centers.length) (he : nfft % 2 = 0) (h1 : 2 ≤ nfft) :
    ∃ r r' : List ℝ, (∀ res, Run (argsOf s (imageSourceModel st engine centers.length inside) micD srcD
          ⟨fun l => (List.range nfft).map (Bands.cosSynthesis nfft mag l), nfft, false, nfft⟩ m pos) res ↔ res = .ok r) ∧
      (∀ res, Run (argsOf s (imageSourceModel st engine 1 inside) micD srcD
          ⟨fun l => (List.range nfft).map (Bands.cosSynthesis nfft mag l), nfft, false, nfft⟩ m pos) res ↔ res = .ok r') ∧
      ∀ i, r.getD i 0 = r'.getD (i + 1) 0 := by
  obtain ⟨r, r', e1, e2, e3⟩ := C91_flat (st := st) (rows := centers.length) (p := (nfft - 1) / 2)
    (o := ⟨fun l => (List.range nfft).map (Bands.cosSynthesis nfft mag l), nfft, false, nfft⟩) hs hair hin hp hd hir hm hsrc hb (by simp only; omega)
    (by simp) rfl hflat (by
      intro c i
      simp only
      rw [Simulate.getD_map_range]
      split
      · rename_i hi
        exact Bands.C34_synthesis hc h0 hok c hi
      · rename_i hi
        rw [if_neg (by omega)])
  refine ⟨r, r', e1, e2, fun i => ?_⟩
  rw [e3, if_pos (by simp only; omega)]
  congr 1
  simp only
  omega

/-! ## The hypotheses can be met -/

/-- A microphone with a filter of three taps, a source with a filter of two taps that depends on the direction. -/
noncomputable def micIr : Option Directivity := some (.ir 3 fun _ => [1, 1 / 2, 1 / 4])
@[inherit_doc micIr]
noncomputable def srcIr : Option Directivity := some (.ir 2 fun d => [d 0, -d 0])

theorem good3 : Good IsmRir.setting3 := ⟨by norm_num [IsmRir.setting3], by simp [IsmRir.setting3], by simp [IsmRir.setting3], by simp [IsmRir.setting3], by simp [IsmRir.setting3]⟩

theorem paths2 : pathsTo IsmRir.engine2 0 ≠ [] ∧ ∀ g ∈ pathsTo IsmRir.engine2 0, distance IsmRir.setting3.dim g.pos (fun _ => 0) ≠ 0 := by
  have h0 : pathsTo IsmRir.engine2 0 = IsmRir.engine2 := rfl
  refine ⟨by rw [h0]; simp [IsmRir.engine2], ?_⟩
  rw [h0]
  intro g hg
  simp only [IsmRir.engine2, List.mem_cons, List.not_mem_nil, or_false] at hg
  rcases hg with rfl | rfl
  · exact IsmRir.far 1 (by norm_num)
  · exact IsmRir.far 2 (by norm_num)

/-- Two arrays with two rows. -/
example : ∃ c, multiConvolve ⟨2, [[1, 2], [3, 4]]⟩ [⟨3, [[1, 0, 1], [0, 1, 0]]⟩] = .ok c ∧ c.len = 4 := by
  obtain ⟨c, h1, _, h3, _⟩ := C91_convolve ⟨2, [[1, 2], [3, 4]]⟩ [⟨3, [[1, 0, 1], [0, 1, 0]]⟩] ⟨by norm_num, by simp⟩ (by simp [Arr.Ok]) (by simp)
  exact ⟨c, h1, by simpa using h3⟩

example (st : SrcState) (o : Bank) : ∃ r : List ℝ, ∀ res, Run (argsOf IsmRir.setting3 (imageSourceModel st IsmRir.engine2 1 fun _ => true) micIr srcIr o 0 fun _ => 0) res ↔
    res = .ok r := by
  obtain ⟨r, h, _⟩ := C91_rir (s := IsmRir.setting3) (st := st) (engine := IsmRir.engine2) (rows := 1) (inside := fun _ => true) (micD := micIr) (srcD := srcIr)
    (o := o) (m := 0) (pos := fun _ => 0) good3 (by simp [Fits, IsmRir.setting3]) rfl paths2.1 paths2.2 (.inl ⟨_, _, rfl⟩)
    ⟨by norm_num, by simp⟩ ⟨by norm_num, by simp⟩ rfl
  exact ⟨r, h⟩

/-- Directivities that act as gains. -/
example : ActsAs (some (.ir 2 fun d => [d 0, 0])) (some fun d => d 0) ∧ ActsAs none none ∧ ActsAs (some (.gain fun d => d 1)) (some fun d => d 1) ∧
    DirOk (some (.ir 2 fun d => [d 0, 0])) := by
  refine ⟨fun p i => ?_, trivial, rfl, ⟨by norm_num, by simp⟩⟩
  match i with
  | 0 => rfl
  | 1 => rfl
  | i + 2 => simp

/-- Filters with 4096 taps of the bank of the room at 16 kHz. -/
example : ∃ bins : Bands.AntoniBins, Bands.Separated bins ∧ (∀ b < bins.n, 0 < bins.half b) ∧ bins.nfreq = 8192 / 2 + 1 ∧ 1 < bins.n := by
  obtain ⟨h1, h2, h3⟩ := Bands.C68_separated (fc := 125) (fs := 16000) (overlap := 1 / 2) (nfft := 8192) false (by norm_num) (by norm_num) (by norm_num) (by norm_num) (by norm_num)
  refine ⟨_, h1, h2, h3, ?_⟩
  have : Real.logb 2 ((16000 : ℝ) / 125) = 7 := by
    rw [show (16000 : ℝ) / 125 = 2 ^ (7 : ℝ) by norm_num, Real.logb_rpow (by norm_num) (by norm_num)]
  simp [Bands.classBins, Bands.antoniBins, Bands.octaveCenters, this]

/-- The cosine filters with 512 taps at 16 kHz. -/
example : ∃ mag, Bands.cosineResponse 512 (Bands.octaveCenters 125 1 (Nat.floor (Real.logb 2 (16000 / 125)))) 16000 true = .ok mag ∧
    1 < (Bands.octaveCenters 125 1 (Nat.floor (Real.logb 2 (16000 / 125)))).length := by
  obtain ⟨mag, h, _⟩ := Bands.C34_octaves (nfft := 512) (fc := 125) (fs := 16000) (by norm_num) (by norm_num) (by norm_num)
  exact ⟨mag, h, (Bands.response_ok h).1⟩

end Verif.IsmIr
