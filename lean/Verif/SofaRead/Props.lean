import Verif.SofaRead.Model
import Verif.Angles.Props
import Mathlib.Data.List.GetD
import Mathlib.Data.List.Perm.Basic
import Mathlib.Data.List.Range
import Mathlib.Tactic.Linarith
import Mathlib.Tactic.Positivity

/-!
# C130: locations read from measurement files are those of the file
-/

namespace Verif.SofaRead

open Py

/-! ## Locations -/

/-- The point at an azimuth, an elevation above the horizontal plane, and a distance. -/
noncomputable def atElevation (p : Loc) : Loc := (p.2.2 * (Real.cos p.2.1 * Real.cos p.1), p.2.2 * (Real.cos p.2.1 * Real.sin p.1), p.2.2 * Real.sin p.2.1)

/-- The point at an azimuth, an angle from the vertical axis, and a distance. -/
noncomputable def atColatitude (p : Loc) : Loc := (p.2.2 * (Real.sin p.2.1 * Real.cos p.1), p.2.2 * (Real.sin p.2.1 * Real.sin p.1), p.2.2 * Real.cos p.2.1)

/-- Stored angles in radians. -/
noncomputable def inRadians (deg : Bool) (p : Loc) : Loc := if deg then (Real.pi * p.1 / 180, Real.pi * p.2.1 / 180, p.2.2) else p

theorem spher_colatitude (p : Loc) : Angles.spher2cart p.1 (some p.2.1) p.2.2 false = atColatitude p := by
  unfold Angles.spher2cart atColatitude
  simp only [Bool.false_eq_true, if_false, Option.getD_some]
  refine Prod.ext ?_ (Prod.ext ?_ ?_) <;> simp only <;> ring

theorem rows_inRadians (deg : Bool) (rows : List Loc) : (rows.map fun p => if deg then (Angles.radians p.1, Angles.radians p.2.1, p.2.2) else p) = rows.map (inRadians deg) := by
  refine List.map_congr_left fun p _ => ?_
  unfold inRadians Angles.radians
  split_ifs
  · refine Prod.ext ?_ (Prod.ext ?_ rfl) <;> simp only <;> ring
  · rfl

theorem inRadians_neg (deg : Bool) (p : Loc) : (inRadians deg p).2.1 < 0 ↔ p.2.1 < 0 := by
  unfold inRadians
  split_ifs
  · have hpi := Real.pi_pos
    simp only
    constructor
    · intro h
      by_contra hn
      have : 0 ≤ Real.pi * p.2.1 / 180 := by have := not_lt.mp hn; positivity
      linarith
    · intro h
      have : Real.pi * p.2.1 < 0 := mul_neg_of_pos_of_neg hpi h
      linarith
  · rfl

/-- **C130** (elevations). Spherical locations with a negative second angle are read as elevations: the points are those at the stored azimuth, elevation and distance, degrees being turned to radians. -/
theorem C130_elevation (values : List Loc) (u : String) (rest : List String) (p : Loc) (hp : p ∈ values) (hneg : p.2.1 < 0) :
    parseLocations ⟨values, .many (u :: rest), "spherical"⟩ "cartesian" = .ok (values.map fun q => atElevation (inRadians (u = "degree") q)) := by
  simp only [parseLocations, Units.toList, readAngles, rows_inRadians]
  rw [if_neg (by decide), if_neg (by decide), if_pos trivial, if_pos trivial,
    if_pos ⟨_, List.mem_map_of_mem (f := inRadians (decide (u = "degree"))) hp, (inRadians_neg _ p).mpr hneg⟩]
  rw [List.map_map, List.map_map]
  refine congrArg Except.ok (List.map_congr_left fun q _ => ?_)
  have e := spher_colatitude ((inRadians (decide (u = "degree")) q).1, Real.pi / 2 - (inRadians (decide (u = "degree")) q).2.1, (inRadians (decide (u = "degree")) q).2.2)
  simp only [Function.comp] at e ⊢
  rw [e]
  unfold atColatitude atElevation
  simp only [Real.sin_pi_div_two_sub, Real.cos_pi_div_two_sub]

/-- **C130** (colatitudes). When none is negative, they are read as colatitudes. -/
theorem C130_colatitude (values : List Loc) (u : String) (rest : List String) (hpos : ∀ p ∈ values, 0 ≤ p.2.1) :
    parseLocations ⟨values, .many (u :: rest), "spherical"⟩ "cartesian" = .ok (values.map fun q => atColatitude (inRadians (u = "degree") q)) := by
  simp only [parseLocations, Units.toList, readAngles, rows_inRadians]
  rw [if_neg (by decide), if_neg (by decide), if_pos trivial, if_pos trivial, if_neg ?_]
  · rw [List.map_map]
    refine congrArg Except.ok (List.map_congr_left fun q _ => ?_)
    simp only [Function.comp, spher_colatitude]
  · rintro ⟨p, hp, hn⟩
    obtain ⟨q, hq, rfl⟩ := List.mem_map.mp hp
    exact absurd ((inRadians_neg _ q).mp hn) (not_lt.mpr (hpos q hq))

/-- **C130** (deviation). Elevations that are all on or above the horizon are taken for colatitudes: a source on the horizon at distance `r` is put at the zenith. -/
theorem C130_elevation_deviation (a r : ℝ) : parseLocations ⟨[(a, 0, r)], .many ["degree", "degree", "metre"], "spherical"⟩ "cartesian" = .ok [(0, 0, r)] ∧
    (atElevation (inRadians true (a, 0, r))).2.2 = 0 := by
  constructor
  · rw [C130_colatitude _ _ _ (by simp)]
    simp [atColatitude, inRadians]
  · simp [atElevation, inRadians]

/-- **C130** (deviation). The unit of the second angle is not looked at: only the first decides. -/
theorem C130_unit_deviation (values : List Loc) (u v w v' w' target : String) :
    parseLocations ⟨values, .many [u, v, w], "spherical"⟩ target = parseLocations ⟨values, .many [u, v', w'], "spherical"⟩ target := by
  simp only [parseLocations, Units.toList, if_neg (show ¬ ("spherical" : String) = "cartesian" by decide)]

/-- **C130** (formats). Both target formats describe the same points, for whatever is stored: the spherical one, walked, gives the cartesian one; and they are accepted for the same files. -/
theorem C130_formats (pos : Position) :
    match parseLocations pos "spherical", parseLocations pos "cartesian" with
    | .ok s, .ok c => s.map atColatitude = c
    | .error e, .error e' => e = e'
    | _, _ => False := by
  unfold parseLocations
  rw [if_neg (show ¬ (("spherical" : String) ≠ "spherical" ∧ ("spherical" : String) ≠ "cartesian") by decide), if_neg (show ¬ (("cartesian" : String) ≠ "spherical" ∧ ("cartesian" : String) ≠ "cartesian") by decide)]
  by_cases hc : pos.kind = "cartesian"
  · rw [if_pos hc, if_pos hc]
    by_cases hu : pos.units.toList.any (· ≠ "metre") = true
    · rw [if_pos hu, if_pos hu]
    · rw [if_neg hu, if_neg hu, if_pos (show ("spherical" : String) = "spherical" from rfl), if_neg (show ¬ ("cartesian" : String) = "spherical" by decide)]
      simp only [List.map_map]
      conv_rhs => rw [← List.map_id pos.values]
      refine List.map_congr_left fun v _ => ?_
      have := (Angles.C45_round_trip v).1
      rw [Function.comp, ← spher_colatitude]
      exact this
  · rw [if_neg hc, if_neg hc]
    by_cases hs : pos.kind = "spherical"
    · rw [if_pos hs, if_pos hs]
      cases hl : pos.units.toList with
      | nil => simp
      | cons u t =>
        simp only [if_neg (show ¬ ("spherical" : String) = "cartesian" by decide)]
        exact List.map_congr_left fun v _ => (spher_colatitude v).symm
    · rw [if_neg hs, if_neg hs]

/-- **C130** (cartesian). Cartesian locations are accepted exactly when all units are metres, and then returned as they are. -/
theorem C130_cartesian (values out : List Loc) (units : Units) :
    parseLocations ⟨values, units, "cartesian"⟩ "cartesian" = .ok out ↔ (∀ u ∈ units.toList, u = "metre") ∧ out = values := by
  unfold parseLocations
  simp only
  rw [if_neg (by decide), if_pos trivial]
  by_cases h : ∀ u ∈ units.toList, u = "metre"
  · rw [if_neg (by simpa using h), if_neg (by decide)]
    simp only [Except.ok.injEq]
    exact ⟨fun e => ⟨h, e.symm⟩, fun e => e.2.symm⟩
  · rw [if_pos (by simpa using h)]
    simp [h]

/-- **C130** (units). One unit for all coordinates: cartesian locations need metres, and angles are converted exactly for degrees. -/
theorem C130_one_unit (values out : List Loc) (u target : String) :
    (parseLocations ⟨values, .one u, "cartesian"⟩ "cartesian" = .ok out ↔ u = "metre" ∧ out = values) ∧
    parseLocations ⟨values, .one u, "spherical"⟩ target = parseLocations ⟨values, .many [u, u, "metre"], "spherical"⟩ target := by
  constructor
  · rw [C130_cartesian]
    simp [Units.toList]
  · simp only [parseLocations, Units.toList, if_neg (show ¬ ("spherical" : String) = "cartesian" by decide)]

/-- **C130** (errors). Another target format is a ValueError, another type of coordinates not implemented. -/
theorem C130_errors (pos : Position) (target : String) :
    (target ≠ "spherical" → target ≠ "cartesian" → parseLocations pos target = .error .valueError) ∧
    (target = "spherical" ∨ target = "cartesian" → pos.kind ≠ "cartesian" → pos.kind ≠ "spherical" → parseLocations pos target = .error .notImplemented) := by
  unfold parseLocations
  constructor
  · intro h1 h2; rw [if_pos ⟨h1, h2⟩]
  · intro h h1 h2; rw [if_neg (by tauto), if_neg h1, if_neg h2]

example : (-30 : ℝ) < 0 := by norm_num
example : ∃ c, parseLocations ⟨[(90, -30, 2), (0, 45, 2)], .many ["degree", "degree", "metre"], "spherical"⟩ "cartesian" = .ok c :=
  ⟨_, C130_elevation _ _ _ (90, -30, 2) (by simp) (by norm_num)⟩
example : parseLocations ⟨[(1, 2, 3)], .one "metre", "cartesian"⟩ "cartesian" = .ok [(1, 2, 3)] := (C130_cartesian _ _ _).mpr ⟨by simp [Units.toList], rfl⟩

/-! ## The order of the measurements -/

/-- **C130** (order). A file stored as `q` groups of `m` is turned into `m` groups of `q`: measurement `j` of group `i` goes to place `i` of group `j`; other sizes are refused. -/
theorem C130_regroup (q m : ℕ) (rows : List Loc) (hlen : rows.length = q * m) (hpos : rows ≠ []) :
    ∃ out, regroup q rows = .ok out ∧ out.length = rows.length ∧ ∀ i j, i < q → j < m → out[j * q + i]? = rows[i * m + j]? := by
  have hn : rows.length ≠ 0 := by simpa using hpos
  have hq : 0 < q := by rcases Nat.eq_zero_or_pos q with h | h <;> simp_all
  have hdiv : rows.length / q = m := by rw [hlen, Nat.mul_div_cancel_left _ hq]
  refine ⟨(List.range rows.length).map fun r => rows.getD (r % q * (rows.length / q) + r / q) (0, 0, 0), ?_, by simp, ?_⟩
  · unfold regroup
    rw [if_neg]
    push Not
    exact ⟨hn, by rw [hlen, Nat.mul_mod_right]⟩
  · intro i j hi hj
    have hlt : j * q + i < rows.length := by rw [hlen]; nlinarith [Nat.mul_le_mul_right q (Nat.succ_le_of_lt hj)]
    have hlt2 : i * m + j < rows.length := by rw [hlen]; nlinarith [Nat.mul_le_mul_right m (Nat.succ_le_of_lt hi)]
    have hmod : (j * q + i) % q = i := by rw [Nat.add_comm, Nat.add_mul_mod_self_right, Nat.mod_eq_of_lt hi]
    have hd : (j * q + i) / q = j := by rw [Nat.add_comm, Nat.add_mul_div_right _ _ hq, Nat.div_eq_of_lt hi, Nat.zero_add]
    rw [List.getElem?_map, List.getElem?_range hlt, Option.map_some, hdiv, hmod, hd, List.getD_eq_getElem _ _ hlt2, List.getElem?_eq_getElem hlt2]

/-- **C130** (order). A number of measurements that is not a multiple is refused. -/
theorem C130_regroup_error (q : ℕ) (rows : List Loc) (h : ¬ q ∣ rows.length) : regroup q rows = .error .valueError := by
  unfold regroup
  rw [if_pos (Or.inr fun e => h (Nat.dvd_of_mod_eq_zero e))]

/-- **C130** (order). No measurement is lost or repeated: regrouping by `m` after `q` gives the file's order back. -/
theorem C130_regroup_inverse (q m : ℕ) (rows : List Loc) (hlen : rows.length = q * m) (hpos : rows ≠ []) :
    ∃ out, regroup q rows = .ok out ∧ regroup m out = .ok rows := by
  obtain ⟨out, h1, h2, h3⟩ := C130_regroup q m rows hlen hpos
  have hpos' : out ≠ [] := by
    intro h; rw [h] at h2; exact hpos (List.length_eq_zero_iff.mp h2.symm)
  obtain ⟨back, b1, b2, b3⟩ := C130_regroup m q out (by rw [h2, hlen, Nat.mul_comm]) hpos'
  refine ⟨out, h1, ?_⟩
  rw [b1]
  congr 1
  have hm : 0 < m := by
    rcases Nat.eq_zero_or_pos m with h | h
    · rw [h, Nat.mul_zero] at hlen; exact absurd (List.length_eq_zero_iff.mp hlen) hpos
    · exact h
  refine List.ext_getElem? fun r => ?_
  by_cases hr : r < rows.length
  · have hi : r / m < q := by rw [Nat.div_lt_iff_lt_mul hm, ← hlen]; exact hr
    have hj : r % m < m := Nat.mod_lt _ hm
    have e : r / m * m + r % m = r := by rw [Nat.mul_comm]; exact Nat.div_add_mod r m
    have := b3 (r % m) (r / m) hj hi
    rw [e] at this
    rw [this, h3 (r / m) (r % m) hi hj, e]
  · rw [List.getElem?_eq_none (by omega), List.getElem?_eq_none (by omega)]

/-- **C130** (DIRPAT). Files of microphones have all microphones at the origin and as many sources as locations stored; the file of loudspeakers has all sources at the origin. Unknown files, and sizes that are not a multiple of the grid, are refused. -/
theorem C130_dirpat (known loudspeakers : Bool) (nSrc nMic : ℕ) (src mic s m : List Loc) (h : readDirpat known loudspeakers nSrc nMic src mic = .ok (s, m)) :
    known = true ∧ (loudspeakers = true → s = List.replicate nSrc (0, 0, 0) ∧ m.length = mic.length ∧ 36 ∣ mic.length) ∧
      (loudspeakers = false → m = List.replicate nMic (0, 0, 0) ∧ s.length = src.length ∧ 30 ∣ src.length) := by
  have hf : ∀ l : List Loc, (fixElevation l).length = l.length := by
    intro l; unfold fixElevation; split_ifs <;> simp
  have hr : ∀ (q : ℕ) (l out : List Loc), regroup q l = .ok out → out.length = l.length ∧ q ∣ l.length := by
    intro q l out h
    unfold regroup at h
    split_ifs at h with hc
    simp only [Except.ok.injEq] at h
    push Not at hc
    exact ⟨by rw [← h]; simp, Nat.dvd_of_mod_eq_zero hc.2⟩
  unfold readDirpat at h
  cases known
  · simp at h
  · refine ⟨rfl, ?_, ?_⟩
    · rintro rfl
      simp only [Bool.not_true, Bool.false_eq_true, if_false, if_true] at h
      split at h
      · simp at h
      · rename_i o ho
        simp only [Except.ok.injEq, Prod.mk.injEq] at h
        refine ⟨h.1.symm, ?_, (hr _ _ _ ho).2⟩
        rw [← h.2, List.length_map, hf, (hr _ _ _ ho).1]
    · rintro rfl
      simp only [Bool.not_true, Bool.false_eq_true, if_false] at h
      split at h
      · simp at h
      · rename_i o ho
        simp only [Except.ok.injEq, Prod.mk.injEq] at h
        refine ⟨h.2.symm, ?_, (hr _ _ _ ho).2⟩
        rw [← h.1, hf, (hr _ _ _ ho).1]

/-- **C130** (DIRPAT). Source `j * 30 + i` of a microphone file stored with elevations has the azimuth and distance of row `i * m + j` and the complement of its elevation. -/
theorem C130_dirpat_sources (nSrc nMic m : ℕ) (src mic : List Loc) (hlen : src.length = 30 * m) (p : Loc) (hp : p ∈ src) (hneg : p.2.1 < 0) :
    ∃ s, readDirpat true false nSrc nMic src mic = .ok (s, List.replicate nMic (0, 0, 0)) ∧
      ∀ i j, i < 30 → j < m → s[j * 30 + i]? = (src[i * m + j]?).map fun p => (p.1, Real.pi / 2 - p.2.1, p.2.2) := by
  have hpos : src ≠ [] := List.ne_nil_of_mem hp
  obtain ⟨out, h1, h2, h3⟩ := C130_regroup 30 m src hlen hpos
  have hm : 0 < m := by
    rcases Nat.eq_zero_or_pos m with h | h
    · rw [h, Nat.mul_zero] at hlen; exact absurd (List.length_eq_zero_iff.mp hlen) hpos
    · exact h
  have hmem : p ∈ out := by
    obtain ⟨r, hr⟩ := List.mem_iff_getElem?.mp hp
    have hrl : r < src.length := by
      by_contra hn
      rw [List.getElem?_eq_none (by omega)] at hr; simp at hr
    have hi : r / m < 30 := by rw [Nat.div_lt_iff_lt_mul hm, ← hlen]; exact hrl
    have e : r / m * m + r % m = r := by rw [Nat.mul_comm]; exact Nat.div_add_mod r m
    refine List.mem_iff_getElem?.mpr ⟨_, (h3 (r / m) (r % m) hi (Nat.mod_lt _ hm)).trans ?_⟩
    rw [e, hr]
  refine ⟨fixElevation out, ?_, ?_⟩
  · simp [readDirpat, h1]
  · intro i j hi hj
    unfold fixElevation
    rw [if_pos ⟨p, hmem, hneg⟩, List.getElem?_map, h3 i j hi hj]

/-- **C130** (DIRPAT). Microphone `j * 36 + i` of the loudspeaker file stored with elevations is the point at the azimuth, elevation and distance of row `i * m + j`. -/
theorem C130_dirpat_mics (nSrc nMic m : ℕ) (src mic : List Loc) (hlen : mic.length = 36 * m) (p : Loc) (hp : p ∈ mic) (hneg : p.2.1 < 0) :
    ∃ s, readDirpat true true nSrc nMic src mic = .ok (List.replicate nSrc (0, 0, 0), s) ∧
      ∀ i j, i < 36 → j < m → s[j * 36 + i]? = (mic[i * m + j]?).map atElevation := by
  have hpos : mic ≠ [] := List.ne_nil_of_mem hp
  obtain ⟨out, h1, h2, h3⟩ := C130_regroup 36 m mic hlen hpos
  have hm : 0 < m := by
    rcases Nat.eq_zero_or_pos m with h | h
    · rw [h, Nat.mul_zero] at hlen; exact absurd (List.length_eq_zero_iff.mp hlen) hpos
    · exact h
  have hmem : p ∈ out := by
    obtain ⟨r, hr⟩ := List.mem_iff_getElem?.mp hp
    have hrl : r < mic.length := by
      by_contra hn
      rw [List.getElem?_eq_none (by omega)] at hr; simp at hr
    have hi : r / m < 36 := by rw [Nat.div_lt_iff_lt_mul hm, ← hlen]; exact hrl
    have e : r / m * m + r % m = r := by rw [Nat.mul_comm]; exact Nat.div_add_mod r m
    refine List.mem_iff_getElem?.mpr ⟨_, (h3 (r / m) (r % m) hi (Nat.mod_lt _ hm)).trans ?_⟩
    rw [e, hr]
  refine ⟨(fixElevation out).map fun p => Angles.spher2cart p.1 (some p.2.1) p.2.2 false, ?_, ?_⟩
  · simp [readDirpat, h1]
  · intro i j hi hj
    unfold fixElevation
    rw [if_pos ⟨p, hmem, hneg⟩, List.map_map, List.getElem?_map, h3 i j hi hj]
    congr 1
    funext q
    have e := spher_colatitude (q.1, Real.pi / 2 - q.2.1, q.2.2)
    simp only [Function.comp] at e ⊢
    rw [e]
    unfold atColatitude atElevation
    simp only [Real.sin_pi_div_two_sub, Real.cos_pi_div_two_sub]

example : ∃ src : List Loc, src.length = 30 * 1 ∧ ((0, -1, 1) : Loc) ∈ src := ⟨List.replicate 30 (0, -1, 1), by simp, by simp⟩

/-! ## Labels, rate and convention -/

/-- **C130** (labels). Labels, when given, are as many as the sources or microphones, and never for both. -/
theorem C130_labels (info : Option Info) (n0 n1 : ℕ) (a b : Option (List String)) (h : labels info n0 n1 = .ok (a, b)) :
    (∀ l, a = some l → l.length = n0 ∧ b = none ∧ ∃ i, info = some i ∧ i.kind = "sources" ∧ i.contains = some l) ∧
    (∀ l, b = some l → l.length = n1 ∧ a = none ∧ ∃ i, info = some i ∧ i.kind = "microphones" ∧ i.contains = some l) := by
  unfold labels at h
  split at h
  · simp only [Except.ok.injEq, Prod.mk.injEq] at h
    obtain ⟨rfl, rfl⟩ := h
    simp
  · rename_i i
    split_ifs at h with h1 h2
    · split at h
      · rename_i l hl
        split_ifs at h with h3
        simp only [Except.ok.injEq, Prod.mk.injEq] at h
        obtain ⟨rfl, rfl⟩ := h
        refine ⟨fun l' e => ?_, fun _ e => by simp at e⟩
        simp only [Option.some.injEq] at e
        subst e
        exact ⟨not_not.mp h3, rfl, i, rfl, h1, hl⟩
      · simp only [Except.ok.injEq, Prod.mk.injEq] at h
        obtain ⟨rfl, rfl⟩ := h
        simp
    · split at h
      · rename_i l hl
        split_ifs at h with h3
        simp only [Except.ok.injEq, Prod.mk.injEq] at h
        obtain ⟨rfl, rfl⟩ := h
        refine ⟨fun _ e => by simp at e, fun l' e => ?_⟩
        simp only [Option.some.injEq] at e
        subst e
        exact ⟨not_not.mp h3, rfl, i, rfl, h2, hl⟩
      · simp only [Except.ok.injEq, Prod.mk.injEq] at h
        obtain ⟨rfl, rfl⟩ := h
        simp
    · simp only [Except.ok.injEq, Prod.mk.injEq] at h
      obtain ⟨rfl, rfl⟩ := h
      simp

/-- **C130** (labels). An entry of sources or microphones with labels is accepted exactly when their number fits, and then they are returned. -/
theorem C130_labels_used (l : List String) (n0 n1 : ℕ) :
    (labels (some ⟨"sources", some l⟩) n0 n1 = if l.length = n0 then .ok (some l, none) else .error .valueError) ∧
    (labels (some ⟨"microphones", some l⟩) n0 n1 = if l.length = n1 then .ok (none, some l) else .error .valueError) := by
  constructor
  · by_cases h : l.length = n0 <;> simp [labels, h]
  · by_cases h : l.length = n1 <;> simp [labels, h]

/-- **C130** (rate). The rate returned is the one asked for, the file's if none; without one the responses are untouched, otherwise resampled from the file's rate. -/
theorem C130_rate {R : Type} (resample : R → ℕ → ℕ → R) (msr : R) (fsFile : ℕ) (fs : Option ℕ) :
    (atRate resample msr fsFile fs).2 = fs.getD fsFile ∧ (atRate resample msr fsFile none).1 = msr ∧ ∀ f, (atRate resample msr fsFile (some f)).1 = resample msr fsFile f := by
  cases fs <;> exact ⟨rfl, rfl, fun _ => rfl⟩

/-- **C130** (convention). Files are refused exactly when they are of neither convention and not one of the DIRPAT files. -/
theorem C130_convention (d : Bool) (c : String) :
    reader d c = .error .notImplemented ↔ d = false ∧ c ≠ "SimpleFreeFieldHRIR" ∧ c ≠ "GeneralFIR" := by
  unfold reader
  split_ifs <;> simp_all

example : labels (some ⟨"sources", some ["a", "b"]⟩) 2 7 = .ok (some ["a", "b"], none) := (C130_labels_used _ _ _).1.trans (if_pos rfl)

end Verif.SofaRead
