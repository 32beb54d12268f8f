import Verif.SaveWav.Model
import Mathlib.Data.Fin.VecNotation
import Mathlib.Tactic.FinCases
import Mathlib.Tactic.Linarith
import Mathlib.Tactic.Ring
import Mathlib.Tactic.NormNum
import Mathlib.Tactic.FieldSimp
import Mathlib.Tactic.Positivity

/-!
# C132: saving signals
-/

namespace Verif.SaveWav

open Verif.Py

/-- The integer types and their widths. -/
def Width : BitDepth → Nat → Prop := fun d k =>
  (d = .int8 ∧ k = 8) ∨ (d = .int16 ∧ k = 16) ∨ (d = .int32 ∧ k = 32) ∨ (d = .int64 ∧ k = 64)

/-- `m` is the largest size in the array. -/
def IsPeak {ι : Type} (x : ι → ℝ) (m : ℝ) : Prop := (∀ i, |x i| ≤ m) ∧ ∃ i, |x i| = m

/-- `z` is `v` without its fraction. -/
def IsTrunc (v : ℝ) (z : Int) : Prop := |(z : ℝ)| ≤ |v| ∧ |v - z| < 1 ∧ 0 ≤ v * z

theorem bits_width {d : BitDepth} {k : Nat} (h : Width d k) : bits d = .ok (some k) ∧ 8 ≤ k := by
  rcases h with ⟨rfl, rfl⟩ | ⟨rfl, rfl⟩ | ⟨rfl, rfl⟩ | ⟨rfl, rfl⟩ <;> simp [bits]

theorem peak_eq {ι : Type} [Fintype ι] {x : ι → ℝ} {m : ℝ} (hm : IsPeak x m) (h : (Finset.univ : Finset ι).Nonempty) : Finset.univ.sup' h (fun i => |x i|) = m := by
  obtain ⟨h1, i, h2⟩ := hm
  apply le_antisymm
  · exact Finset.sup'_le _ _ fun j _ => h1 j
  · rw [← h2]; exact Finset.le_sup' (fun i => |x i|) (Finset.mem_univ i)

theorem peak_nonempty {ι : Type} [Fintype ι] {x : ι → ℝ} {m : ℝ} (hm : IsPeak x m) : (Finset.univ : Finset ι).Nonempty := by
  obtain ⟨_, i, _⟩ := hm
  exact ⟨i, Finset.mem_univ i⟩

theorem clip_inside {v h l : ℝ} (h1 : v ≤ h) (h2 : l ≤ v) : clip v h l = v := by
  simp [clip, not_lt.mpr h1, not_lt.mpr h2]

/-- C132: clipping gives the number of the interval that is nearest. -/
theorem C132_clip {v h l : ℝ} (hl : l ≤ h) : clip v h l = max l (min v h) := by
  simp only [clip, gt_iff_lt]
  rcases lt_or_ge h v with h1 | h1
  · rw [if_pos h1, min_eq_right h1.le, if_neg (not_lt.mpr hl), max_eq_right hl]
  · rw [if_neg (not_lt.mpr h1), min_eq_left h1]
    split_ifs with h2
    · rw [max_eq_left h2.le]
    · rw [max_eq_right (not_lt.mp h2)]

example : clip 5 3 (-4) = 3 := by rw [C132_clip (by norm_num)]; norm_num

theorem trunc_spec (v : ℝ) : IsTrunc v (if 0 ≤ v then ⌊v⌋ else ⌈v⌉) := by
  split_ifs with h
  · have h1 := Int.floor_le v
    have h2 := Int.lt_floor_add_one v
    have h3 : (0 : ℝ) ≤ (⌊v⌋ : Int) := by exact_mod_cast Int.floor_nonneg.mpr h
    refine ⟨?_, ?_, mul_nonneg h h3⟩
    · rw [abs_of_nonneg h3, abs_of_nonneg h]; exact h1
    · rw [abs_of_nonneg (by linarith)]; linarith
  · have h := not_le.mp h
    have h1 := Int.le_ceil v
    have h2 := Int.ceil_lt_add_one v
    have h3 : ((⌈v⌉ : Int) : ℝ) ≤ 0 := by exact_mod_cast Int.ceil_le.mpr (by simpa using h.le)
    refine ⟨?_, ?_, mul_nonneg_of_nonpos_of_nonpos h.le h3⟩
    · rw [abs_of_nonpos h3, abs_of_neg h]; linarith
    · rw [abs_of_nonpos (by linarith)]; linarith

theorem trunc_unique {v : ℝ} {a b : Int} (ha : IsTrunc v a) (hb : IsTrunc v b) : a = b := by
  obtain ⟨a1, a2, a3⟩ := ha
  obtain ⟨b1, b2, b3⟩ := hb
  rcases lt_trichotomy v 0 with h | h | h
  · have ha0 : (a : ℝ) ≤ 0 := by by_contra hc; nlinarith [not_le.mp hc]
    have hb0 : (b : ℝ) ≤ 0 := by by_contra hc; nlinarith [not_le.mp hc]
    rw [abs_of_nonpos ha0, abs_of_neg h] at a1
    rw [abs_of_nonpos hb0, abs_of_neg h] at b1
    have c1 := abs_lt.mp a2
    have c2 := abs_lt.mp b2
    have d1 : (a : ℝ) < b + 1 := by linarith
    have d2 : (b : ℝ) < a + 1 := by linarith
    have e1 : a < b + 1 := by exact_mod_cast d1
    have e2 : b < a + 1 := by exact_mod_cast d2
    omega
  · subst h
    simp only [abs_zero] at a1 b1
    have e1 : (a : ℝ) = 0 := abs_eq_zero.mp (le_antisymm a1 (abs_nonneg _))
    have e2 : (b : ℝ) = 0 := abs_eq_zero.mp (le_antisymm b1 (abs_nonneg _))
    exact_mod_cast e1.trans e2.symm
  · have ha0 : 0 ≤ (a : ℝ) := by by_contra hc; nlinarith [not_le.mp hc]
    have hb0 : 0 ≤ (b : ℝ) := by by_contra hc; nlinarith [not_le.mp hc]
    rw [abs_of_nonneg ha0, abs_of_pos h] at a1
    rw [abs_of_nonneg hb0, abs_of_pos h] at b1
    have c1 := abs_lt.mp a2
    have c2 := abs_lt.mp b2
    have d1 : (a : ℝ) < b + 1 := by linarith
    have d2 : (b : ℝ) < a + 1 := by linarith
    have e1 : a < b + 1 := by exact_mod_cast d1
    have e2 : b < a + 1 := by exact_mod_cast d2
    omega

theorem cast_trunc {k : Nat} {v : ℝ} {z : Int} (hz : IsTrunc v z) (h : |z| ≤ 2 ^ (k - 1) - 1) : cast (some k) (some v) = .int z := by
  have e := trunc_unique (trunc_spec v) hz
  have h' := abs_le.mp h
  simp only [cast, e]
  rw [if_pos ⟨by linarith [h'.1], h'.2⟩]

theorem scaled_size {ι : Type} {x : ι → ℝ} {m : ℝ} (hm : IsPeak x m) (h0 : 0 < m) (g : ℝ) (hg : 0 ≤ g) (i : ι) : |x i / m * g| ≤ g := by
  rw [abs_mul, abs_div, abs_of_pos h0, abs_of_nonneg hg]
  have : |x i| / m ≤ 1 := (div_le_one h0).mpr (hm.1 i)
  nlinarith

/-- The whole conversion with normalisation to an integer type. -/
theorem convert_norm {ι : Type} [Fintype ι] {x : ι → ℝ} {m : ℝ} (hm : IsPeak x m) (h0 : 0 < m) {d : BitDepth} {k : Nat} (hk : Width d k) :
    ∃ z : ι → Int, convert x true d = .ok (fun i => .int (z i)) ∧ (∀ i, IsTrunc (x i / m * (2 ^ (k - 1) - 1)) (z i)) ∧
      (∀ i, |z i| ≤ 2 ^ (k - 1) - 1) ∧ ∀ i, |x i| = m → |z i| = 2 ^ (k - 1) - 1 := by
  obtain ⟨hb, h8⟩ := bits_width hk
  have hg : (0 : ℝ) ≤ 2 ^ (k - 1) - 1 := by
    have : (1 : ℝ) ≤ 2 ^ (k - 1) := one_le_pow₀ (by norm_num)
    linarith
  have hs := scaled_size hm h0 _ hg
  have key : ∀ i, ∃ z : Int, IsTrunc (x i / m * (2 ^ (k - 1) - 1)) z ∧ |z| ≤ 2 ^ (k - 1) - 1 := by
    intro i
    refine ⟨_, trunc_spec _, ?_⟩
    have := (trunc_spec (x i / m * (2 ^ (k - 1) - 1))).1.trans (hs i)
    exact_mod_cast this
  choose z hz hz' using key
  refine ⟨z, ?_, hz, hz', ?_⟩
  · simp only [convert, hb, normalize, dif_pos (peak_nonempty hm), peak_eq hm (peak_nonempty hm), if_neg h0.ne', if_true, bind, Except.bind]
    congr 1
    funext i
    have hc := abs_le.mp (hs i)
    rw [clip_inside hc.2 (by linarith [hc.1])]
    exact cast_trunc (hz i) (hz' i)
  · intro i hi
    have e : |x i / m * ((2 : ℝ) ^ (k - 1) - 1)| = 2 ^ (k - 1) - 1 := by
      rw [abs_mul, abs_div, abs_of_pos h0, abs_of_nonneg hg, hi, div_self h0.ne', one_mul]
    have h1 := (hz i).2.1
    have h2 : (2 : ℝ) ^ (k - 1) - 1 < |(z i : ℝ)| + 1 := by
      rw [← e]
      have := abs_sub_abs_le_abs_sub (x i / m * ((2 : ℝ) ^ (k - 1) - 1)) (z i)
      linarith
    have h3 : (2 : Int) ^ (k - 1) - 1 < |z i| + 1 := by exact_mod_cast h2
    have := hz' i
    omega

/-- C132: with `norm=True` and an integer type, all channels are scaled by one factor that brings the largest size to the largest integer, and cut towards zero; frame `t` holds the samples at `t` of the
channels in order. -/
theorem C132_normalized {R L M fs : Nat} (s : Fin R → Fin L → ℝ) {m : ℝ} (hm : IsPeak (fun p : Fin R × Fin L => s p.1 p.2) m) (h0 : 0 < m) {d : BitDepth} {k : Nat} (hk : Width d k) :
    ∃ z : Fin L → Fin R → Int, toWav M fs (some s) false true d = .ok (fs, .frames fun t c => .int (z t c)) ∧
      (∀ t c, IsTrunc (s c t / m * (2 ^ (k - 1) - 1)) (z t c)) ∧ (∀ t c, |z t c| ≤ 2 ^ (k - 1) - 1) ∧ ∀ t c, |s c t| = m → |z t c| = 2 ^ (k - 1) - 1 := by
  have hm' : IsPeak (fun p : Fin L × Fin R => s p.2 p.1) m := ⟨fun p => hm.1 (p.2, p.1), by obtain ⟨i, hi⟩ := hm.2; exact ⟨(i.2, i.1), hi⟩⟩
  obtain ⟨z, h1, h2, h3, h4⟩ := convert_norm hm' h0 hk
  refine ⟨fun t c => z (t, c), ?_, fun t c => h2 (t, c), fun t c => h3 (t, c), fun t c => h4 (t, c)⟩
  simp only [toWav, h1, Except.map]

/-- C132: with `mono=True` only channel `M // 2` is written, scaled by its own largest size. -/
theorem C132_mono_normalized {R L M fs : Nat} (s : Fin R → Fin L → ℝ) (hM : M / 2 < R) {m : ℝ} (hm : IsPeak (s ⟨M / 2, hM⟩) m) (h0 : 0 < m) {d : BitDepth} {k : Nat} (hk : Width d k) :
    ∃ z : Fin L → Int, toWav M fs (some s) true true d = .ok (fs, .mono fun t => .int (z t)) ∧
      (∀ t, IsTrunc (s ⟨M / 2, hM⟩ t / m * (2 ^ (k - 1) - 1)) (z t)) ∧ ∀ t, |s ⟨M / 2, hM⟩ t| = m → |z t| = 2 ^ (k - 1) - 1 := by
  obtain ⟨z, h1, h2, _, h4⟩ := convert_norm hm h0 hk
  exact ⟨z, by simp only [toWav, dif_pos hM, h1, Except.map], h2, h4⟩

/-- C132: floating-point files hold the signals themselves, or with `norm=True` the signals divided by the largest size. -/
theorem C132_float {R L M fs : Nat} (s : Fin R → Fin L → ℝ) {m : ℝ} (hm : IsPeak (fun p : Fin R × Fin L => s p.1 p.2) m) (h0 : 0 < m) :
    toWav M fs (some s) false false .float = .ok (fs, .frames fun t c => .real (s c t)) ∧
      toWav M fs (some s) false true .float = .ok (fs, .frames fun t c => .real (s c t / m)) := by
  have hm' : IsPeak (fun p : Fin L × Fin R => s p.2 p.1) m := ⟨fun p => hm.1 (p.2, p.1), by obtain ⟨i, hi⟩ := hm.2; exact ⟨(i.2, i.1), hi⟩⟩
  refine ⟨by simp [toWav, convert, bits, cast, bind, Except.bind, Except.map], ?_⟩
  simp [toWav, convert, bits, cast, normalize, peak_nonempty hm', peak_eq hm' (peak_nonempty hm'), h0.ne', bind, Except.bind, Except.map]

/-- C132: the same for the centre channel alone. -/
theorem C132_mono_float {R L M fs : Nat} (s : Fin R → Fin L → ℝ) (hM : M / 2 < R) {m : ℝ} (hm : IsPeak (s ⟨M / 2, hM⟩) m) (h0 : 0 < m) :
    toWav M fs (some s) true false .float = .ok (fs, .mono fun t => .real (s ⟨M / 2, hM⟩ t)) ∧
      toWav M fs (some s) true true .float = .ok (fs, .mono fun t => .real (s ⟨M / 2, hM⟩ t / m)) := by
  refine ⟨by simp [toWav, hM, convert, bits, cast, bind, Except.bind, Except.map], ?_⟩
  simp [toWav, hM, convert, bits, cast, normalize, peak_nonempty hm, peak_eq hm (peak_nonempty hm), h0.ne', bind, Except.bind, Except.map]

/-- C132: without `norm`, samples whose integer part fits are cut towards zero, without any scaling. -/
theorem C132_plain {R L M fs : Nat} (s : Fin R → Fin L → ℝ) {d : BitDepth} {k : Nat} (hk : Width d k) (hs : ∀ c t, |s c t| < 2 ^ (k - 1)) :
    ∃ z : Fin L → Fin R → Int, toWav M fs (some s) false false d = .ok (fs, .frames fun t c => .int (z t c)) ∧ ∀ t c, IsTrunc (s c t) (z t c) := by
  obtain ⟨hb, _⟩ := bits_width hk
  refine ⟨fun t c => if 0 ≤ s c t then ⌊s c t⌋ else ⌈s c t⌉, ?_, fun t c => trunc_spec _⟩
  have key : ∀ t c, cast (some k) (some (s c t)) = .int (if 0 ≤ s c t then ⌊s c t⌋ else ⌈s c t⌉) := by
    intro t c
    refine cast_trunc (trunc_spec _) ?_
    have h := (trunc_spec (s c t)).1.trans_lt (hs c t)
    have h' : |(if 0 ≤ s c t then ⌊s c t⌋ else ⌈s c t⌉)| < (2 : Int) ^ (k - 1) := by exact_mod_cast h
    omega
  simp [toWav, convert, hb, key, bind, Except.bind, Except.map]

/-- C132, deviation: signals inside (-1, 1), the range of floating-point audio, are written to integer files as silence unless `norm=True`. -/
theorem C132_silence_deviation {R L M fs : Nat} (s : Fin R → Fin L → ℝ) {d : BitDepth} {k : Nat} (hk : Width d k) (hs : ∀ c t, |s c t| < 1) :
    toWav M fs (some s) false false d = .ok (fs, .frames fun _ _ => .int 0) := by
  obtain ⟨hb, _⟩ := bits_width hk
  have key : ∀ t c, cast (some k) (some (s c t)) = .int 0 := by
    intro t c
    refine cast_trunc ⟨by simp, by simpa using hs c t, by simp⟩ ?_
    have : (1 : Int) ≤ 2 ^ (k - 1) := one_le_pow₀ (by norm_num)
    simpa using this
  simp [toWav, convert, hb, key, bind, Except.bind, Except.map]

/-- C132, deviation: signals of zeros are not written as zeros with `norm=True`, but as `nan`. -/
theorem C132_zero_deviation {R L M fs : Nat} {d : BitDepth} (hd : d ≠ .other) (hR : 0 < R) (hL : 0 < L) :
    toWav M fs (some fun (_ : Fin R) (_ : Fin L) => 0) false true d = .ok (fs, .frames fun _ _ => .undefined) := by
  have hm : IsPeak (fun _ : Fin L × Fin R => (0 : ℝ)) 0 := ⟨by simp, ⟨⟨0, hL⟩, ⟨0, hR⟩⟩, by simp⟩
  have hn := peak_nonempty hm
  have hp := peak_eq hm hn
  cases d <;> simp_all [toWav, convert, bits, cast, normalize, bind, Except.bind, Except.map]

/-- C132: what is refused: other types, arrays without signals, a centre channel that has no signal, and normalisation of no samples. -/
theorem C132_refused {R L M fs : Nat} (s : Fin R → Fin L → ℝ) (norm mono : Bool) (d : BitDepth) :
    (M / 2 < R → toWav M fs (some s) mono norm .other = .error .nameError) ∧
      toWav M fs (none : Option (Fin R → Fin L → ℝ)) true norm d = .error .typeError ∧
      toWav M fs (none : Option (Fin R → Fin L → ℝ)) false norm d = .error .attributeError ∧
      (R ≤ M / 2 → toWav M fs (some s) true norm d = .error .indexError) ∧
      (L = 0 → d ≠ .other → toWav M fs (some s) false true d = .error .valueError) := by
  refine ⟨?_, rfl, rfl, ?_, ?_⟩
  · intro h
    cases mono <;> simp [toWav, h, convert, bits, bind, Except.bind, Except.map]
  · intro h
    simp [toWav, not_lt.mpr h]
  · rintro rfl hd
    cases d <;> simp_all [toWav, convert, bits, normalize, bind, Except.bind, Except.map]

/-- Two channels with two samples each. -/
noncomputable def sig : Fin 2 → Fin 2 → ℝ := ![![1 / 2, -1], ![0, 3 / 4]]

theorem sig_peak : IsPeak (fun p : Fin 2 × Fin 2 => sig p.1 p.2) 1 := by
  refine ⟨?_, (0, 1), by simp [sig]⟩
  rintro ⟨a, b⟩
  fin_cases a <;> fin_cases b <;> norm_num [sig, abs_le]

example : ∃ z : Fin 2 → Fin 2 → Int, toWav 2 16000 (some sig) false true .int16 = .ok (16000, .frames fun t c => .int (z t c)) ∧ |z 1 0| = 32767 := by
  obtain ⟨z, h1, _, _, h4⟩ := C132_normalized (M := 2) (fs := 16000) sig sig_peak one_pos (d := .int16) (k := 16) (by simp [Width])
  exact ⟨z, h1, by simpa using h4 1 0 (by simp [sig])⟩

theorem sig_centre : IsPeak (sig ⟨2 / 2, by norm_num⟩) (3 / 4) := by
  refine ⟨?_, 1, by norm_num [sig, abs_of_pos]⟩
  intro t
  fin_cases t <;> norm_num [sig, abs_le]

example := C132_mono_normalized (M := 2) (fs := 16000) sig (by norm_num) sig_centre (by norm_num) (d := .int8) (k := 8) (by simp [Width])
example := C132_mono_float (M := 2) (fs := 16000) sig (by norm_num) sig_centre (by norm_num)
example := C132_float (M := 2) (fs := 16000) sig sig_peak one_pos
example := C132_silence_deviation (M := 1) (fs := 8000) (fun (_ : Fin 1) (_ : Fin 3) => (1 / 2 : ℝ)) (d := .int32) (k := 32) (by simp [Width]) (by intro _ _; norm_num [abs_of_pos])
example := C132_plain (M := 1) (fs := 8000) (fun (_ : Fin 1) (_ : Fin 3) => (100 : ℝ)) (d := .int64) (k := 64) (by simp [Width]) (by intro _ _; norm_num [abs_of_pos])
example := C132_zero_deviation (M := 2) (fs := 8000) (R := 2) (L := 5) (d := .float) (by simp) (by norm_num) (by norm_num)

end Verif.SaveWav
