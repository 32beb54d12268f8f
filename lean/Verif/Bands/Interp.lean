import Verif.Bands.Model
import Mathlib.Data.List.Sort
import Mathlib.Data.List.GetD
import Mathlib.Tactic.Linarith
import Mathlib.Tactic.Ring
import Mathlib.Tactic.FieldSimp
import Mathlib.Tactic.NormNum

/-!
# Interpolated coefficients of octave bands: C33
-/

namespace Verif.Bands

open Py (Err)

/-! ## Sorting and searching -/

/-- The abscissas increase. -/
def Increasing (s : List (ℝ × ℝ)) : Prop := s.Pairwise fun a b => a.1 < b.1

theorem sort_perm (pts : List (ℝ × ℝ)) : (pts.mergeSort leFst).Perm pts := List.mergeSort_perm _ _

theorem sort_increasing (pts : List (ℝ × ℝ)) (h : (pts.map Prod.fst).Nodup) : Increasing (pts.mergeSort leFst) := by
  have h1 : (pts.mergeSort leFst).Pairwise fun a b => leFst a b = true := by
    apply List.pairwise_mergeSort
    · intro a b c hab hbc
      simp only [leFst, decide_eq_true_eq] at *
      exact le_trans hab hbc
    · intro a b
      simp only [leFst, Bool.or_eq_true, decide_eq_true_eq]
      exact le_total _ _
  have h2 : ((pts.mergeSort leFst).map Prod.fst).Nodup := ((sort_perm pts).map _).nodup_iff.mpr h
  have h3 : (pts.mergeSort leFst).Pairwise fun a b => a.1 ≠ b.1 := by
    rw [List.Nodup, List.pairwise_map] at h2
    exact h2
  unfold Increasing
  refine (h1.and h3).imp ?_
  rintro a b ⟨hab, hne⟩
  simp only [leFst, decide_eq_true_eq] at hab
  exact lt_of_le_of_ne hab hne

theorem increasing_unique {s t : List (ℝ × ℝ)} (hp : s.Perm t) (hs : Increasing s) (ht : Increasing t) : s = t := by
  apply hp.eq_of_pairwise ?_ hs ht
  intro a b _ _ h1 h2
  exact absurd (lt_trans h1 h2) (lt_irrefl _)

theorem sort_of_increasing {pts : List (ℝ × ℝ)} (h : Increasing pts) : pts.mergeSort leFst = pts := by
  have hn : (pts.map Prod.fst).Nodup := by
    rw [List.Nodup, List.pairwise_map]
    exact h.imp fun hab => ne_of_lt hab
  exact increasing_unique (sort_perm pts) (sort_increasing pts hn) h

/-- `searchsorted`: the positions before it are those with a smaller abscissa. -/
theorem lt_countP {s : List (ℝ × ℝ)} (hs : Increasing s) (x : ℝ) (j : Nat) (hj : j < s.length) :
    j < (s.countP fun p => decide (p.1 < x)) ↔ (s.getD j (0, 0)).1 < x := by
  induction s generalizing j with
  | nil => simp at hj
  | cons a s ih =>
    obtain ⟨ha, hs'⟩ := List.pairwise_cons.mp hs
    by_cases hax : a.1 < x
    · rw [List.countP_cons, if_pos (by simpa using hax)]
      cases j with
      | zero => simp [hax]
      | succ j =>
        rw [Nat.add_lt_add_iff_right, ih hs' j (by simpa using hj)]
        simp
    · have h0 : (s.countP fun p => decide (p.1 < x)) = 0 := by
        rw [List.countP_eq_zero]
        intro b hb
        simp only [decide_eq_true_eq, not_lt]
        linarith [ha b hb, not_lt.mp hax]
      rw [List.countP_cons, if_neg (by simpa using hax), h0]
      constructor
      · intro h; omega
      · intro h
        exfalso
        cases j with
        | zero => exact hax (by simpa using h)
        | succ j =>
          have hj' : j < s.length := by simpa using hj
          have hm : s.getD j (0, 0) ∈ s := by
            rw [List.getD_eq_getElem _ _ hj']; exact List.getElem_mem _
          have := ha _ hm
          have h' : (s.getD j (0, 0)).1 < x := by simpa using h
          linarith [not_lt.mp hax]

/-- The line through two points. -/
noncomputable def lineThrough (p q : ℝ × ℝ) (x : ℝ) : ℝ := p.2 + (q.2 - p.2) * ((x - p.1) / (q.1 - p.1))

theorem getD_lt {s : List (ℝ × ℝ)} (hs : Increasing s) {i j : Nat} (hij : i < j) (hj : j < s.length) :
    (s.getD i (0, 0)).1 < (s.getD j (0, 0)).1 := by
  rw [List.getD_eq_getElem _ _ (by omega), List.getD_eq_getElem _ _ hj]
  exact List.pairwise_iff_getElem.mp hs i j (by omega) hj hij

/-- The value on the interval between two neighbours; the first and the last interval are unbounded. -/
theorem interp_interval {s : List (ℝ × ℝ)} (hs : Increasing s) (x : ℝ) (j : Nat) (hj : j + 1 < s.length)
    (hlo : j = 0 ∨ (s.getD j (0, 0)).1 < x) (hhi : j + 2 = s.length ∨ x ≤ (s.getD (j + 1) (0, 0)).1) :
    interpLinear s x = lineThrough (s.getD j (0, 0)) (s.getD (j + 1) (0, 0)) x := by
  unfold interpLinear
  simp only
  rw [sort_of_increasing hs]
  have hidx : min (max (s.countP fun p => decide (p.1 < x)) 1) (s.length - 1) = j + 1 := by
    have h1 : j + 1 ≤ max (s.countP fun p => decide (p.1 < x)) 1 := by
      rcases hlo with h | h
      · omega
      · have := (lt_countP hs x j (by omega)).mpr h
        omega
    rcases hhi with h | h
    · omega
    · have : ¬(j + 1 < s.countP fun p => decide (p.1 < x)) := by
        rw [lt_countP hs x (j + 1) hj]; exact not_lt.mpr h
      omega
  rw [hidx]
  have := getD_lt hs (Nat.lt_succ_self j) hj
  rw [Nat.add_sub_cancel]
  unfold lineThrough
  field_simp
  ring

/-- There is such an interval for every abscissa. -/
theorem exists_interval {s : List (ℝ × ℝ)} (hs : Increasing s) (h2 : 2 ≤ s.length) (x : ℝ) :
    ∃ j, j + 1 < s.length ∧ (j = 0 ∨ (s.getD j (0, 0)).1 < x) ∧ (j + 2 = s.length ∨ x ≤ (s.getD (j + 1) (0, 0)).1) := by
  set k := s.countP fun p => decide (p.1 < x) with hk
  have hkl : k ≤ s.length := List.countP_le_length
  refine ⟨min (k - 1) (s.length - 2), by omega, ?_, ?_⟩
  · by_cases h : min (k - 1) (s.length - 2) = 0
    · exact Or.inl h
    · right
      rw [← lt_countP hs x _ (by omega)]
      omega
  · by_cases h : min (k - 1) (s.length - 2) + 2 = s.length
    · exact Or.inl h
    · right
      rw [← not_lt, ← lt_countP hs x _ (by omega)]
      omega

theorem interp_perm {p q : List (ℝ × ℝ)} (hp : p.Perm q) (h : (p.map Prod.fst).Nodup) (x : ℝ) : interpLinear p x = interpLinear q x := by
  have hq : (q.map Prod.fst).Nodup := (hp.map _).nodup_iff.mp h
  unfold interpLinear
  rw [increasing_unique (((sort_perm p).trans hp).trans (sort_perm q).symm) (sort_increasing p h) (sort_increasing q hq)]

/-- At the abscissas of the data. -/
theorem interp_node (pts : List (ℝ × ℝ)) (h : (pts.map Prod.fst).Nodup) (h2 : 2 ≤ pts.length) (p : ℝ × ℝ) (hp : p ∈ pts) :
    interpLinear pts p.1 = p.2 := by
  have hs := sort_increasing pts h
  have hperm := sort_perm pts
  rw [interp_perm hperm.symm h]
  set s := pts.mergeSort leFst with hsd
  have hps : p ∈ s := hperm.mem_iff.mpr hp
  obtain ⟨i, hi, hpi⟩ := List.getElem_of_mem hps
  have hl : s.length = pts.length := hperm.length_eq
  have hpi' : s.getD i (0, 0) = p := by rw [List.getD_eq_getElem _ _ hi, hpi]
  cases i with
  | zero =>
    have hlt := getD_lt hs (Nat.zero_lt_one) (by omega : 1 < s.length)
    rw [interp_interval hs p.1 0 (by omega) (Or.inl rfl) (Or.inr ?_), hpi']
    · simp [lineThrough]
    · rw [hpi'] at hlt; exact hlt.le
  | succ i =>
    have hlt := getD_lt hs (Nat.lt_succ_self i) hi
    rw [hpi'] at hlt
    rw [interp_interval hs p.1 i hi (Or.inr hlt) (Or.inr (by rw [hpi'])), hpi']
    unfold lineThrough
    rw [div_self (by linarith)]
    ring

/-- Data on a line give the line. -/
theorem interp_affine (pts : List (ℝ × ℝ)) (h : (pts.map Prod.fst).Nodup) (h2 : 2 ≤ pts.length) (a b : ℝ) (hab : ∀ p ∈ pts, p.2 = a + b * p.1) (x : ℝ) :
    interpLinear pts x = a + b * x := by
  have hs := sort_increasing pts h
  have hperm := sort_perm pts
  rw [interp_perm hperm.symm h]
  set s := pts.mergeSort leFst with hsd
  have hl : s.length = pts.length := hperm.length_eq
  obtain ⟨j, hj, h1, h2'⟩ := exists_interval hs (by omega) x
  have hmem : ∀ i, i < s.length → s.getD i (0, 0) ∈ pts := by
    intro i hi
    rw [List.getD_eq_getElem _ _ hi]
    exact hperm.mem_iff.mp (List.getElem_mem _)
  rw [interp_interval hs x j hj h1 h2']
  have e1 := hab _ (hmem j (by omega))
  have e2 := hab _ (hmem (j + 1) hj)
  have hlt := getD_lt hs (Nat.lt_succ_self j) hj
  unfold lineThrough
  rw [e1, e2]
  have : (s.getD (j + 1) (0, 0)).1 - (s.getD j (0, 0)).1 ≠ 0 := by linarith
  generalize (s.getD (j + 1) (0, 0)).1 = u at *
  generalize (s.getD j (0, 0)).1 = v at *
  field_simp
  ring

/-! ## C33 -/

theorem clip01_mem (x : ℝ) : 0 ≤ clip01 x ∧ clip01 x ≤ 1 := by
  unfold clip01
  simp only
  split_ifs <;> constructor <;> linarith

theorem clip01_of_mem {x : ℝ} (h0 : 0 ≤ x) (h1 : x ≤ 1) : clip01 x = x := by
  unfold clip01
  simp only
  rw [if_neg (not_lt.mpr h0), if_neg (not_lt.mpr h1)]

theorem clip01_eq (x : ℝ) : clip01 x = max 0 (min x 1) := by
  unfold clip01
  simp only
  split_ifs with h1 h2 h3
  · linarith
  · rw [max_eq_left]; exact (min_le_left _ _).trans h1.le
  · rw [min_eq_right h3.le, max_eq_right (by norm_num)]
  · rw [min_eq_left (not_lt.mp h3), max_eq_right (not_lt.mp h1)]

/-- Good data: as many frequencies as coefficients, at least two, all frequencies positive and different. -/
structure Good (freqs coeffs : List ℝ) : Prop where
  len : freqs.length = coeffs.length
  two : 2 ≤ coeffs.length
  pos : ∀ f ∈ freqs, 0 < f
  nodup : freqs.Nodup

theorem Good.points {freqs coeffs : List ℝ} (g : Good freqs coeffs) :
    ((List.zip (freqs.map (Real.logb 2)) coeffs).map Prod.fst).Nodup ∧ 2 ≤ (List.zip (freqs.map (Real.logb 2)) coeffs).length := by
  constructor
  · rw [List.map_fst_zip (by rw [List.length_map, g.len])]
    apply List.Nodup.map_on ?_ g.nodup
    intro a ha b hb h
    exact Real.logb_injOn_pos (by norm_num) (Set.mem_Ioi.mpr (g.pos a ha)) (Set.mem_Ioi.mpr (g.pos b hb)) h
  · rw [List.length_zip, List.length_map, g.len, min_self]
    exact g.two

/-- The value before the clipping. -/
theorem call_good (centers freqs coeffs : List ℝ) (isArray : Bool) (g : Good freqs coeffs) :
    octaveCall centers (if isArray then .array coeffs else .list coeffs) (some freqs) =
      .ok (centers.map fun c => clip01 (interpLinear (List.zip (freqs.map (Real.logb 2)) coeffs) (Real.logb 2 c))) := by
  have h2 := g.two
  have hl := g.len
  have h1 : ¬coeffs.length = 1 := by omega
  have h3 : ¬(coeffs.length = 0 ∨ freqs.length ≠ coeffs.length) := by omega
  unfold octaveCall
  simp only [Option.getD_some]
  cases isArray <;> simp only [if_true, Bool.false_eq_true, if_false, if_neg h1, if_neg h3]

/-- **C33** One coefficient per band, each in [0, 1]. -/
theorem C33_wellformed (centers freqs coeffs : List ℝ) (isArray : Bool) (g : Good freqs coeffs) :
    ∃ r, octaveCall centers (if isArray then .array coeffs else .list coeffs) (some freqs) = .ok r ∧ r.length = centers.length ∧
      ∀ a ∈ r, 0 ≤ a ∧ a ≤ 1 := by
  refine ⟨_, call_good centers freqs coeffs isArray g, by simp, ?_⟩
  intro a ha
  obtain ⟨c, _, rfl⟩ := List.mem_map.mp ha
  exact clip01_mem _

/-- **C33** A band whose centre is one of the frequencies of the data has the coefficient of the data. -/
theorem C33_node (centers freqs coeffs : List ℝ) (isArray : Bool) (g : Good freqs coeffs) (i k : Nat) (hi : i < centers.length) (hk : k < freqs.length)
    (hc : centers.getD i 0 = freqs.getD k 0) :
    ∃ r, octaveCall centers (if isArray then .array coeffs else .list coeffs) (some freqs) = .ok r ∧
      r.getD i 0 = max 0 (min (coeffs.getD k 0) 1) := by
  refine ⟨_, call_good centers freqs coeffs isArray g, ?_⟩
  have hk' : k < coeffs.length := by rw [← g.len]; exact hk
  rw [List.getD_eq_getElem _ _ (by simpa using hi), List.getElem_map, clip01_eq]
  rw [List.getD_eq_getElem _ _ hi, List.getD_eq_getElem _ _ hk] at hc
  rw [hc, List.getD_eq_getElem _ _ hk']
  have hm : (Real.logb 2 freqs[k], coeffs[k]) ∈ List.zip (freqs.map (Real.logb 2)) coeffs := by
    have hz : k < (List.zip (freqs.map (Real.logb 2)) coeffs).length := by simp; omega
    have : (List.zip (freqs.map (Real.logb 2)) coeffs)[k] = (Real.logb 2 freqs[k], coeffs[k]) := by simp
    rw [← this]
    exact List.getElem_mem hz
  have := interp_node _ g.points.1 g.points.2 _ hm
  simp only at this
  rw [this]

/-- **C33** Data that are an affine function of the logarithm of the frequency (for instance constant data) are continued by this function. -/
theorem C33_affine (centers freqs coeffs : List ℝ) (isArray : Bool) (g : Good freqs coeffs) (a b : ℝ)
    (hab : ∀ k, k < freqs.length → coeffs.getD k 0 = a + b * Real.logb 2 (freqs.getD k 0)) :
    octaveCall centers (if isArray then .array coeffs else .list coeffs) (some freqs) =
      .ok (centers.map fun c => max 0 (min (a + b * Real.logb 2 c) 1)) := by
  rw [call_good centers freqs coeffs isArray g]
  congr 1
  apply List.map_congr_left
  intro c _
  rw [clip01_eq, interp_affine _ g.points.1 g.points.2 a b]
  intro p hp
  obtain ⟨k, hk, hpk⟩ := List.getElem_of_mem hp
  have hk1 : k < freqs.length := by simp at hk; omega
  have hk2 : k < coeffs.length := by simp at hk; omega
  have := hab k hk1
  rw [List.getD_eq_getElem _ _ hk1, List.getD_eq_getElem _ _ hk2] at this
  rw [← hpk]
  simpa using this

/-- **C33** Between two neighbouring frequencies the coefficient is interpolated linearly in the logarithm of the frequency, below the second lowest
and above the second highest on the line through the two outer points. (For data with increasing frequencies; C33_order says that the order
does not matter.) -/
theorem C33_between (centers freqs coeffs : List ℝ) (isArray : Bool) (g : Good freqs coeffs) (hinc : freqs.Pairwise (· < ·)) (i j : Nat)
    (hi : i < centers.length) (hci : 0 < centers.getD i 0) (hj : j + 1 < freqs.length) (hlo : j = 0 ∨ freqs.getD j 0 < centers.getD i 0)
    (hhi : j + 2 = freqs.length ∨ centers.getD i 0 ≤ freqs.getD (j + 1) 0) :
    ∃ r t, octaveCall centers (if isArray then .array coeffs else .list coeffs) (some freqs) = .ok r ∧
      t = (Real.logb 2 (centers.getD i 0) - Real.logb 2 (freqs.getD j 0)) / (Real.logb 2 (freqs.getD (j + 1) 0) - Real.logb 2 (freqs.getD j 0)) ∧
      r.getD i 0 = max 0 (min (coeffs.getD j 0 + (coeffs.getD (j + 1) 0 - coeffs.getD j 0) * t) 1) := by
  refine ⟨_, _, call_good centers freqs coeffs isArray g, rfl, ?_⟩
  have hl := g.len
  rw [List.getD_eq_getElem (List.map _ centers) _ (by simpa using hi), List.getElem_map, clip01_eq]
  rw [List.getD_eq_getElem _ _ hi] at hci hlo hhi ⊢
  have hs : Increasing (List.zip (freqs.map (Real.logb 2)) coeffs) := by
    unfold Increasing
    rw [List.pairwise_iff_getElem]
    intro u v hu hv huv
    simp only [List.getElem_zip, List.getElem_map]
    apply Real.logb_lt_logb (by norm_num)
    · exact g.pos _ (List.getElem_mem _)
    · exact List.pairwise_iff_getElem.mp hinc u v _ _ huv
  have hget : ∀ u, u < freqs.length → (List.zip (freqs.map (Real.logb 2)) coeffs).getD u (0, 0) = (Real.logb 2 (freqs.getD u 0), coeffs.getD u 0) := by
    intro u hu
    rw [List.getD_eq_getElem _ _ (by simp; omega), List.getElem_zip, List.getElem_map, List.getD_eq_getElem _ _ hu, List.getD_eq_getElem _ _ (by omega)]
  have hfpos : ∀ u, u < freqs.length → 0 < freqs.getD u 0 := by
    intro u hu
    rw [List.getD_eq_getElem _ _ hu]; exact g.pos _ (List.getElem_mem _)
  have hzl : (List.zip (freqs.map (Real.logb 2)) coeffs).length = freqs.length := by simp; omega
  rw [interp_interval hs _ j (by omega)]
  · rw [hget j (by omega), hget (j + 1) hj]
    rfl
  · rcases hlo with h | h
    · exact Or.inl h
    · right
      rw [hget j (by omega)]
      exact Real.logb_lt_logb (by norm_num) (hfpos j (by omega)) h
  · rcases hhi with h | h
    · exact Or.inl (by omega)
    · right
      rw [hget (j + 1) hj]
      exact Real.logb_le_logb_of_le (by norm_num) hci h

/-- **C33** The order in which the pairs of frequency and coefficient are given does not matter. -/
theorem C33_order (centers freqs coeffs freqs' coeffs' : List ℝ) (isArray : Bool) (g : Good freqs coeffs) (g' : Good freqs' coeffs')
    (hp : (List.zip freqs coeffs).Perm (List.zip freqs' coeffs')) :
    octaveCall centers (if isArray then .array coeffs else .list coeffs) (some freqs) =
      octaveCall centers (if isArray then .array coeffs' else .list coeffs') (some freqs') := by
  rw [call_good centers freqs coeffs isArray g, call_good centers freqs' coeffs' isArray g']
  congr 1
  apply List.map_congr_left
  intro c _
  have hz : ∀ f a : List ℝ, List.zip (f.map (Real.logb 2)) a = (List.zip f a).map (Prod.map (Real.logb 2) id) := by
    intro f a; rw [List.zip_map_left]
  rw [interp_perm (q := List.zip (freqs'.map (Real.logb 2)) coeffs') ?_ g.points.1]
  rw [hz, hz]
  exact hp.map _

/-- **C33** Resampling coefficients that are already given at the bands changes nothing: an object used for several walls may be resampled several
times. -/
theorem C33_idempotent (centers coeffs : List ℝ) (isArray : Bool) (g : Good centers coeffs) (h01 : ∀ a ∈ coeffs, 0 ≤ a ∧ a ≤ 1) :
    octaveCall centers (if isArray then .array coeffs else .list coeffs) (some centers) = .ok coeffs := by
  obtain ⟨r, hr, hl, _⟩ := C33_wellformed centers centers coeffs isArray g
  rw [hr]
  congr 1
  have hlen := g.len
  apply List.ext_getElem (by omega)
  intro i h1 h2
  obtain ⟨r', hr', hv⟩ := C33_node centers centers coeffs isArray g i i (by omega) (by omega) rfl
  rw [hr] at hr'
  injection hr' with hr'
  subst hr'
  rw [List.getD_eq_getElem _ _ h1, List.getD_eq_getElem _ _ h2] at hv
  obtain ⟨p0, p1⟩ := h01 _ (List.getElem_mem h2)
  rw [hv, min_eq_left p1, max_eq_right p0]

/-- **C33** A list with one coefficient is repeated for all bands (without clipping). -/
theorem C33_single (centers : List ℝ) (a : ℝ) (freqs : Option (List ℝ)) : octaveCall centers (.list [a]) freqs = .ok (List.replicate centers.length a) := by
  unfold octaveCall pyMul
  simp

/-- **C33** Without frequencies the data are those of the lowest bands. -/
theorem C33_default (centers coeffs : List ℝ) (isArray : Bool) :
    octaveCall centers (if isArray then .array coeffs else .list coeffs) none =
      octaveCall centers (if isArray then .array coeffs else .list coeffs) (some (centers.take coeffs.length)) := by
  unfold octaveCall
  cases isArray <;> simp

/-- **C33** Deviation: an array with one coefficient is multiplied by the number of bands instead of being repeated, and a number (also the default
value of the argument) is refused although the documentation and the first lines of the method accept it. -/
theorem C33_deviation (centers : List ℝ) (a : ℝ) (freqs : Option (List ℝ)) :
    octaveCall centers (.array [a]) freqs = .ok [a * centers.length] ∧ octaveCall centers (.scalar a) freqs = .error .typeError := by
  unfold octaveCall pyMul
  simp

/-- Non-vacuity of C33: two coefficients, the first two bands of three. -/
example : Good [125, 250] [0.1, 0.2] ∧
    octaveCall [125, 250, 500] (.list [0.1, 0.2]) (some [125, 250]) = .ok [0.1, 0.2, 0.3] := by
  have g : Good [125, 250] [0.1, 0.2] := ⟨rfl, by simp, by simp, by norm_num⟩
  refine ⟨g, ?_⟩
  have hl2 : Real.logb 2 250 = Real.logb 2 125 + 1 := by
    rw [show (250 : ℝ) = 125 * 2 by norm_num, Real.logb_mul (by norm_num) (by norm_num), Real.logb_self_eq_one (by norm_num)]
  have hl3 : Real.logb 2 500 = Real.logb 2 125 + 2 := by
    rw [show (500 : ℝ) = 250 * 2 by norm_num, Real.logb_mul (by norm_num) (by norm_num), Real.logb_self_eq_one (by norm_num), hl2]; ring
  have := C33_affine [125, 250, 500] [125, 250] [0.1, 0.2] false g (0.1 - 0.1 * Real.logb 2 125) 0.1 (by
    intro k hk
    match k, hk with
    | 0, _ => simp
    | 1, _ => simp [hl2]; ring)
  simp only [Bool.false_eq_true, if_false] at this
  rw [this]
  simp only [List.map_cons, List.map_nil, hl2, hl3]
  norm_num
  constructor
  · rw [min_eq_left (by linarith), max_eq_right (by linarith)]; ring
  · rw [min_eq_left (by linarith), max_eq_right (by linarith)]; ring

end Verif.Bands
