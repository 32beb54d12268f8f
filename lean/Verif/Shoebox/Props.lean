import Verif.Shoebox.Lemmas
import Mathlib.Data.Int.Interval
import Mathlib.Order.Interval.Finset.Nat

/-!
# Properties of the shoebox image source model (C06, C07, C08, C09, C57)
-/

namespace Verif.Shoebox

/-! ## Specification

Per axis, an image is obtained by mirroring the source alternately at the two walls.
A reflection number `p` stands for `|p|` mirrorings, the last one at the wall at the
room length if `p > 0` and at the wall at coordinate zero if `p < 0`. -/

/-- Walls used for reflection number `p`, last mirroring first; `true` is the wall at the
room length, `false` the wall at coordinate zero. -/
def wallsOf (p : Int) : List Bool := (List.range p.natAbs).map (fun k => (decide (0 < p)) ^^ (k % 2 == 1))

/-- Mirroring at a wall of an axis of length `L`. -/
def mirror (L : ℝ) (wall : Bool) (x : ℝ) : ℝ := if wall then 2 * L - x else -x

/-- Image of the coordinate `s` for reflection number `p`. -/
def imageCoord (L : ℝ) (p : Int) (s : ℝ) : ℝ := (wallsOf p).foldr (mirror L) s

/-- The microphone coordinate mirrored back through the same walls: the position in which
the real source sees the microphone along that path. -/
def unfoldCoord (L : ℝ) (p : Int) (m : ℝ) : ℝ := (wallsOf p).foldl (fun x w => mirror L w x) m

/-- Number of hits of a wall. -/
def hits (p : Int) (wall : Bool) : Nat := (wallsOf p).count wall

/-- Pressure transmission of a wall: square root of the reflected energy, and of the
specular part of it if the scattered energy is handled elsewhere. -/
noncomputable def wallGain (room : Room) (band col : Nat) : ℝ :=
  Real.sqrt (1 - room.absorption band col) *
    (if room.hybrid then Real.sqrt (1 - room.scattering band col) else 1)

/-! ## Facts about the specification -/

theorem wallsOf_pos_succ (n : Nat) : wallsOf ((n : Int) + 1) = true :: wallsOf (-(n : Int)) := by
  unfold wallsOf
  rw [show ((n : Int) + 1).natAbs = n + 1 by omega, show (-(n : Int)).natAbs = n by omega,
    List.range_succ_eq_map, List.map_cons, List.map_map]
  have h1 : decide (0 < (n : Int) + 1) = true := decide_eq_true (by omega)
  have h2 : decide (0 < -(n : Int)) = false := by simp
  rw [h1, h2]
  simp only [Nat.zero_mod]
  congr 1
  apply List.map_congr_left
  intro k _
  simp only [Function.comp_apply, Nat.succ_eq_add_one]
  rcases Nat.mod_two_eq_zero_or_one k with h | h
  · rw [show (k + 1) % 2 = 1 by omega, h]; rfl
  · rw [show (k + 1) % 2 = 0 by omega, h]; rfl

theorem wallsOf_neg_succ (n : Nat) : wallsOf (-((n : Int) + 1)) = false :: wallsOf (n : Int) := by
  rcases Nat.eq_zero_or_pos n with rfl | hn
  · decide
  unfold wallsOf
  rw [show (-((n : Int) + 1)).natAbs = n + 1 by omega, show ((n : Int)).natAbs = n by omega,
    List.range_succ_eq_map, List.map_cons, List.map_map]
  have h1 : decide (0 < -((n : Int) + 1)) = false := decide_eq_false (by omega)
  have h2 : decide (0 < (n : Int)) = true := by simp [hn]
  rw [h1, h2]
  simp only [Nat.zero_mod]
  congr 1
  apply List.map_congr_left
  intro k _
  simp only [Function.comp_apply, Nat.succ_eq_add_one]
  rcases Nat.mod_two_eq_zero_or_one k with h | h
  · rw [show (k + 1) % 2 = 1 by omega, h]; rfl
  · rw [show (k + 1) % 2 = 0 by omega, h]; rfl

theorem wallsOf_zero : wallsOf 0 = [] := rfl

theorem image_closed (L s : ℝ) (n : Nat) :
    imageCoord L (n : Int) s = n * L + (if n % 2 = 1 then L - s else s) ∧
    imageCoord L (-(n : Int)) s = -(n * L) + (if n % 2 = 1 then L - s else s) := by
  induction n with
  | zero => simp [imageCoord, wallsOf_zero]
  | succ n ih =>
    obtain ⟨h1, h2⟩ := ih
    unfold imageCoord at *
    push_cast
    rw [wallsOf_pos_succ, wallsOf_neg_succ]
    simp only [List.foldr_cons, h1, h2, mirror]
    rcases Nat.mod_two_eq_zero_or_one n with h | h
    · rw [show (n + 1) % 2 = 1 by omega, h]; constructor <;> norm_num <;> ring
    · rw [show (n + 1) % 2 = 0 by omega, h]; constructor <;> norm_num <;> ring

theorem image_eq (L s : ℝ) (p : Int) :
    imageCoord L p s = p * L + (if p.natAbs % 2 = 1 then L - s else s) := by
  obtain ⟨n, rfl | rfl⟩ := Int.eq_nat_or_neg p
  · simpa using (image_closed L s n).1
  · simpa using (image_closed L s n).2

theorem hits_closed (n : Nat) :
    hits (n : Int) true = (n + 1) / 2 ∧ hits (n : Int) false = n / 2 ∧
    hits (-(n : Int)) true = n / 2 ∧ hits (-(n : Int)) false = (n + 1) / 2 := by
  induction n with
  | zero => simp [hits, wallsOf_zero]
  | succ n ih =>
    obtain ⟨h1, h2, h3, h4⟩ := ih
    unfold hits at *
    push_cast
    rw [wallsOf_pos_succ, wallsOf_neg_succ]
    simp only [List.count_cons, h1, h2, h3, h4]
    simp
    omega

theorem hits_false (p : Int) : p1 p = hits p false := by
  rw [p1_eq]
  obtain ⟨n, rfl | rfl⟩ := Int.eq_nat_or_neg p
  · rw [(hits_closed n).2.1]; split <;> omega
  · rw [(hits_closed n).2.2.2]; split <;> omega

theorem hits_true (p : Int) : p2 p = hits p true := by
  rw [p2_eq]
  obtain ⟨n, rfl | rfl⟩ := Int.eq_nat_or_neg p
  · rw [(hits_closed n).1]; split <;> omega
  · rw [(hits_closed n).2.2.1]; split <;> omega

theorem trans1_eq (room : Room) (hs : ∀ b c, 0 ≤ room.scattering b c)
    (b c : Nat) (hb : b < room.nBands) (hc : c < 2 * room.dim) :
    trans1 room b c = wallGain room b c := by
  unfold trans1 wallGain
  by_cases hh : room.hybrid = true
  · by_cases hex : ∃ b c, b < room.nBands ∧ c < 2 * room.dim ∧ room.scattering b c > 0
    · rw [if_pos ⟨hex, hh⟩, if_pos hh]
    · have h0 : room.scattering b c = 0 := by
        by_contra hne
        exact hex ⟨b, c, hb, hc, lt_of_le_of_ne (hs b c) (Ne.symm hne)⟩
      rw [if_neg (fun h => hex h.1), if_pos hh, h0]; simp
  · simp [hh]

/-! ## The result of the image source model -/

theorem mapM_option {α β} (f : α → Option β) (R : α → β → Prop) (l : List α)
    (h : ∀ x ∈ l, ∃ y, f x = some y ∧ R x y) :
    ∃ ys, l.mapM f = some ys ∧ List.Forall₂ R l ys := by
  induction l with
  | nil => exact ⟨[], rfl, List.Forall₂.nil⟩
  | cons x t ih =>
    obtain ⟨y, h1, h2⟩ := h x (by simp)
    obtain ⟨ys, h3, h4⟩ := ih (fun z hz => h z (by simp [hz]))
    exact ⟨y :: ys, by simp [List.mapM_cons, h1, h3], List.Forall₂.cons h2 h4⟩

/-- The reflection numbers of an image, as read off its `order_xyz` entries. -/
def Img.vec (i : Img) : Int × Int × Int := (i.orderXyz 0, i.orderXyz 1, i.orderXyz 2)

/-- What is claimed about one image: everything in terms of its reflection numbers. -/
structure ImgOk (room : Room) (source : Nat → ℝ) (img : Img) : Prop where
  loc : ∀ d, d < room.dim → img.loc d = imageCoord (room.size d) (img.orderXyz d) (source d)
  order : img.order = ∑ d ∈ Finset.range room.dim, |img.orderXyz d|
  atten : ∀ b, b < room.nBands → img.atten b = ∏ d ∈ Finset.range room.dim,
    (wallGain room b (2 * d) ^ hits (img.orderXyz d) false *
     wallGain room b (2 * d + 1) ^ hits (img.orderXyz d) true)
  visible : img.visible = true
  dirs : ∀ m d, m < room.mics.length → d < room.dim →
    img.dirs m d = (-1) ^ (img.orderXyz d).natAbs * ((room.mics.getD m (fun _ => 0)) d - img.loc d)

theorem image_ok (room : Room) (source : Nat → ℝ) (hdim : room.dim = 2 ∨ room.dim = 3)
    (hs : ∀ b c, 0 ≤ room.scattering b c) (p : Int × Int × Int)
    (hp : p ∈ points room.dim room.order) :
    ∃ img, image room source p = some img ∧ ImgOk room source img ∧ img.vec = p := by
  rw [mem_points] at hp
  obtain ⟨x, y, z⟩ := p
  simp only at hp
  have a1 := abs_nonneg x
  have a2 := abs_nonneg y
  have a3 := abs_nonneg z
  have hc : ∀ i, |coord (x, y, z) i| ≤ (room.order : Int) := by
    intro i
    match i with
    | 0 => simp only [coord]; omega
    | 1 => simp only [coord]; omega
    | n + 2 => simp only [coord]; omega
  obtain ⟨img, E, q1, q2, q3, q4, q5, q6⟩ := axisLoop_spec room source (x, y, z) room.order
    room.dim 0 { Img.blank with visible := true } (fun i _ _ => hc i)
  have hxyz : ∀ d, d < room.dim → img.orderXyz d = coord (x, y, z) d := by
    intro d hd
    rw [q2, if_pos ⟨Nat.zero_le _, by omega⟩]
  refine ⟨img, E, ⟨?_, ?_, ?_, q6, ?_⟩, ?_⟩
  · intro d hd
    rw [q1, if_pos ⟨Nat.zero_le _, by omega⟩, hxyz d hd, image_eq, axisLoc]
  · rw [q4]
    simp only [Img.blank, zero_add]
    exact Finset.sum_congr rfl (fun d hd => by rw [hxyz d (Finset.mem_range.mp hd)])
  · intro b hb
    rw [q5]
    simp only [Img.blank, zero_add, one_mul]
    refine Finset.prod_congr rfl (fun d hd => ?_)
    have hd' := Finset.mem_range.mp hd
    rw [hxyz d hd', hits_false, hits_true,
      trans1_eq room hs b _ hb (by omega), trans1_eq room hs b _ hb (by omega)]
  · intro m d _ hd
    have hin : 0 ≤ d ∧ d < 0 + room.dim := ⟨Nat.zero_le _, by omega⟩
    rw [q3, if_pos hin, q1 d, if_pos hin, hxyz d hd]
    rcases Nat.mod_two_eq_zero_or_one (coord (x, y, z) d).natAbs with h | h
    · rw [if_neg (by rw [h]; omega), (Nat.even_iff.mpr h).neg_one_pow]; ring
    · rw [if_pos h, (Nat.odd_iff.mpr h).neg_one_pow]; ring
  · unfold Img.vec
    rcases hdim with h | h
    · have hz : z = 0 := hp.2 h
      rw [hxyz 0 (by omega), hxyz 1 (by omega), q2 2, if_neg (by omega)]
      simp [coord, hz, Img.blank]
    · rw [hxyz 0 (by omega), hxyz 1 (by omega), hxyz 2 (by omega)]
      simp [coord]

theorem shoebox_spec (room : Room) (source : Nat → ℝ) (hdim : room.dim = 2 ∨ room.dim = 3)
    (hs : ∀ b c, 0 ≤ room.scattering b c) :
    ∃ imgs, imageSourceShoebox room source = some imgs ∧
      imgs.map Img.vec = points room.dim room.order ∧ ∀ i ∈ imgs, ImgOk room source i := by
  obtain ⟨ys, e, f⟩ := mapM_option (image room source)
    (fun p img => ImgOk room source img ∧ img.vec = p) (points room.dim room.order)
    (fun p hp => image_ok room source hdim hs p hp)
  have hlen : ys.length = if room.dim = 2 then numberImageSources2 room.order
      else numberImageSources3 room.order := by
    rw [← f.length_eq]
    split
    · rename_i h; rw [h, points_length_2]
    · rename_i h; rw [points_length_3 h]
  refine ⟨ys, ?_, ?_, ?_⟩
  · unfold imageSourceShoebox
    simp only [e]
    rw [if_pos (by rw [hlen]), hlen, Nat.sub_self]; simp
  · clear e hlen
    generalize points room.dim room.order = l at f
    induction f with
    | nil => rfl
    | cons h _ ih => rw [List.map_cons, h.2, ih]
  · clear e hlen
    generalize points room.dim room.order = l at f
    induction f with
    | nil => simp
    | cons h _ ih =>
      intro i hi
      rcases List.mem_cons.mp hi with rfl | hi
      · exact h.1
      · exact ih i hi

/-- **C06, three dimensions.** The image source model returns, for every order, exactly
one image per integer vector of L1 norm at most the order. -/
theorem C06_enumeration_3d (room : Room) (source : Nat → ℝ) (hdim : room.dim = 3)
    (hs : ∀ b c, 0 ≤ room.scattering b c) :
    ∃ imgs, imageSourceShoebox room source = some imgs ∧
      (imgs.map Img.vec).Nodup ∧
      ∀ x y z : Int, (x, y, z) ∈ imgs.map Img.vec ↔ |x| + |y| + |z| ≤ room.order := by
  obtain ⟨imgs, e, h, _⟩ := shoebox_spec room source (Or.inr hdim) hs
  refine ⟨imgs, e, by rw [h]; exact nodup_points _ _, fun x y z => ?_⟩
  rw [h, mem_points]
  simp [hdim]

/-- **C06, two dimensions.** Same statement for two-dimensional rooms (the third number
of the vector is unused and zero). -/
theorem C06_enumeration_2d (room : Room) (source : Nat → ℝ) (hdim : room.dim = 2)
    (hs : ∀ b c, 0 ≤ room.scattering b c) :
    ∃ imgs, imageSourceShoebox room source = some imgs ∧
      (imgs.map Img.vec).Nodup ∧
      ∀ x y z : Int, (x, y, z) ∈ imgs.map Img.vec ↔ (|x| + |y| ≤ room.order ∧ z = 0) := by
  obtain ⟨imgs, e, h, _⟩ := shoebox_spec room source (Or.inl hdim) hs
  refine ⟨imgs, e, by rw [h]; exact nodup_points _ _, fun x y z => ?_⟩
  rw [h, mem_points]
  simp only [hdim, forall_true_left]
  constructor
  · rintro ⟨h1, rfl⟩; exact ⟨by simpa using h1, rfl⟩
  · rintro ⟨h1, rfl⟩; exact ⟨by simpa using h1, rfl⟩

/-- Integer points of the plane with L1 norm at most `n`. -/
noncomputable def ball2 (n : Nat) : Finset (Int × Int) :=
  ((Finset.Icc (-(n : Int)) n) ×ˢ (Finset.Icc (-(n : Int)) n)).filter
    (fun p => |p.1| + |p.2| ≤ n)

/-- Integer points of space with L1 norm at most `n`. -/
noncomputable def ball3 (n : Nat) : Finset (Int × Int × Int) :=
  ((Finset.Icc (-(n : Int)) n) ×ˢ ((Finset.Icc (-(n : Int)) n) ×ˢ (Finset.Icc (-(n : Int)) n))).filter
    (fun p => |p.1| + |p.2.1| + |p.2.2| ≤ n)

/-- **C07, three dimensions.** The closed formula is the number of integer points of L1
norm at most the order. -/
theorem C07_count_3d (n : Nat) : numberImageSources3 n = (ball3 n).card := by
  rw [← points_length_3 (D := 3) (by omega) n, ← List.toFinset_card_of_nodup (nodup_points 3 n)]
  congr 1
  ext ⟨x, y, z⟩
  rw [List.mem_toFinset, mem_points]
  have a1 := abs_nonneg x
  have a2 := abs_nonneg y
  have a3 := abs_nonneg z
  simp only [ball3, Finset.mem_filter, Finset.mem_product, Finset.mem_Icc]
  constructor
  · rintro ⟨h, _⟩
    exact ⟨⟨abs_le.mp (by omega), abs_le.mp (by omega), abs_le.mp (by omega)⟩, h⟩
  · rintro ⟨_, h⟩; exact ⟨h, by omega⟩

/-- **C07, two dimensions.** -/
theorem C07_count_2d (n : Nat) : numberImageSources2 n = (ball2 n).card := by
  rw [← points_length_2 n, ← List.toFinset_card_of_nodup (nodup_points 2 n)]
  have : (points 2 n).toFinset = (ball2 n).map
      ⟨fun p => (p.1, p.2, (0 : Int)), fun a b h => by
        simp only [Prod.mk.injEq] at h; exact Prod.ext h.1 h.2.1⟩ := by
    ext ⟨x, y, z⟩
    have a1 := abs_nonneg x
    have a2 := abs_nonneg y
    rw [List.mem_toFinset, mem_points]
    simp only [ball2, Finset.mem_map, Finset.mem_filter, Finset.mem_product, Finset.mem_Icc,
      Prod.exists, forall_true_left]
    constructor
    · rintro ⟨h, rfl⟩
      simp only [abs_zero, add_zero] at h
      exact ⟨x, y, ⟨⟨abs_le.mp (by omega), abs_le.mp (by omega)⟩, h⟩, rfl⟩
    · rintro ⟨a, b, ⟨_, h⟩, hh⟩
      obtain ⟨rfl, rfl, rfl⟩ : a = x ∧ b = y ∧ (0 : Int) = z := by
        have : (a, b, (0 : Int)) = (x, y, z) := hh
        simpa using this
      exact ⟨by simpa using h, rfl⟩
  rw [this, Finset.card_map]

/-- **C07, sizing.** The number of images returned is exactly the closed formula (so the
preallocated array is neither overrun nor left with blank entries). -/
theorem C07_returned_count (room : Room) (source : Nat → ℝ) (hdim : room.dim = 2 ∨ room.dim = 3)
    (hs : ∀ b c, 0 ≤ room.scattering b c) :
    ∃ imgs, imageSourceShoebox room source = some imgs ∧ (∀ i ∈ imgs, i.visible = true) ∧
      imgs.length = if room.dim = 2 then numberImageSources2 room.order
        else numberImageSources3 room.order := by
  obtain ⟨imgs, e, h, hok⟩ := shoebox_spec room source hdim hs
  refine ⟨imgs, e, fun i hi => (hok i hi).visible, ?_⟩
  have := congrArg List.length h
  rw [List.length_map] at this
  rw [this]
  rcases hdim with h2 | h3
  · rw [if_pos h2, h2, points_length_2]
  · rw [if_neg (by omega), points_length_3 (by omega)]

/-- **C08.** Every returned image lies, on every axis, at the position obtained by mirroring
the source alternately at the two walls as its reflection number says, and its order is
the total number of mirrorings. -/
theorem C08_positions_are_mirror_images (room : Room) (source : Nat → ℝ)
    (hdim : room.dim = 2 ∨ room.dim = 3) (hs : ∀ b c, 0 ≤ room.scattering b c) :
    ∃ imgs, imageSourceShoebox room source = some imgs ∧ ∀ i ∈ imgs,
      (∀ d, d < room.dim → i.loc d = imageCoord (room.size d) (i.orderXyz d) (source d)) ∧
      i.order = ∑ d ∈ Finset.range room.dim, ((wallsOf (i.orderXyz d)).length : Int) := by
  obtain ⟨imgs, e, _, hok⟩ := shoebox_spec room source hdim hs
  refine ⟨imgs, e, fun i hi => ⟨(hok i hi).loc, ?_⟩⟩
  rw [(hok i hi).order]
  exact Finset.sum_congr rfl (fun d _ => by rw [wallsOf, List.length_map, List.length_range, Int.abs_eq_natAbs])

/-- The walls alternate, as the specification says. -/
theorem wallsOf_alternates (p : Int) (k : Nat) (h : k + 1 < p.natAbs) :
    (wallsOf p)[k + 1]? = (wallsOf p)[k]?.map not := by
  unfold wallsOf
  rw [List.getElem?_map, List.getElem?_map, List.getElem?_range h, List.getElem?_range (by omega)]
  simp only [Option.map_some]
  rcases Nat.mod_two_eq_zero_or_one k with h | h
  · rw [show (k + 1) % 2 = 1 by omega, h]; cases decide (0 < p) <;> rfl
  · rw [show (k + 1) % 2 = 0 by omega, h]; cases decide (0 < p) <;> rfl

/-- **C08, the images tile space.** Images with different reflection vectors of a source
strictly inside the room are at different places (each lies strictly inside its own copy of
the room). -/
theorem C08_image_in_own_cell (L s : ℝ) (p : Int) (h0 : 0 < s) (h1 : s < L) :
    (p : ℝ) * L < imageCoord L p s ∧ imageCoord L p s < (p + 1) * L := by
  rw [image_eq]
  constructor
  · split <;> linarith
  · rw [add_mul]; split <;> linarith

/-- **C09.** The attenuation of every returned image in every band is the product over the
walls of the wall's gain raised to the number of times the path hits that wall. -/
theorem C09_attenuation_counts_hits (room : Room) (source : Nat → ℝ)
    (hdim : room.dim = 2 ∨ room.dim = 3) (hs : ∀ b c, 0 ≤ room.scattering b c) :
    ∃ imgs, imageSourceShoebox room source = some imgs ∧ ∀ i ∈ imgs, ∀ b, b < room.nBands →
      i.atten b = ∏ d ∈ Finset.range room.dim,
        (wallGain room b (2 * d) ^ hits (i.orderXyz d) false *
         wallGain room b (2 * d + 1) ^ hits (i.orderXyz d) true) := by
  obtain ⟨imgs, e, _, hok⟩ := shoebox_spec room source hdim hs
  exact ⟨imgs, e, fun i hi => (hok i hi).atten⟩

/-- **C09, bound.** With all coefficients in `[0, 1]` no image is amplified. -/
theorem C09_attenuation_le_one (room : Room) (source : Nat → ℝ)
    (hdim : room.dim = 2 ∨ room.dim = 3) (hs : ∀ b c, 0 ≤ room.scattering b c)
    (ha : ∀ b c, 0 ≤ room.absorption b c) :
    ∃ imgs, imageSourceShoebox room source = some imgs ∧ ∀ i ∈ imgs, ∀ b, b < room.nBands →
      0 ≤ i.atten b ∧ i.atten b ≤ 1 := by
  obtain ⟨imgs, e, h⟩ := C09_attenuation_counts_hits room source hdim hs
  refine ⟨imgs, e, fun i hi b hb => ?_⟩
  rw [h i hi b hb]
  have g0 : ∀ c, 0 ≤ wallGain room b c := fun c => by
    unfold wallGain; split <;> positivity
  have g1 : ∀ c, wallGain room b c ≤ 1 := fun c => by
    unfold wallGain
    have s1 : Real.sqrt (1 - room.absorption b c) ≤ 1 :=
      Real.sqrt_le_one.mpr (by linarith [ha b c])
    have s2 : Real.sqrt (1 - room.scattering b c) ≤ 1 :=
      Real.sqrt_le_one.mpr (by linarith [hs b c])
    split
    · exact mul_le_one₀ s1 (Real.sqrt_nonneg _) s2
    · simpa using s1
  refine ⟨Finset.prod_nonneg (fun d _ => mul_nonneg (pow_nonneg (g0 _) _) (pow_nonneg (g0 _) _)),
    Finset.prod_le_one (fun d _ => mul_nonneg (pow_nonneg (g0 _) _) (pow_nonneg (g0 _) _))
      (fun d _ => mul_le_one₀ (pow_le_one₀ (g0 _) (g1 _)) (pow_nonneg (g0 _) _)
        (pow_le_one₀ (g0 _) (g1 _)))⟩

/-- Mirroring the microphone back preserves displacements up to sign. -/
theorem unfold_closed (L : ℝ) (ws : List Bool) (s m : ℝ) :
    (ws.foldl (fun x w => mirror L w x) m) - s =
      (-1) ^ ws.length * (m - ws.foldr (mirror L) s) := by
  induction ws generalizing m with
  | nil => simp
  | cons w t ih =>
    simp only [List.foldl_cons, List.foldr_cons, List.length_cons]
    rw [ih, pow_succ]
    cases w <;> simp only [mirror] <;> norm_num <;> ring

/-- **C57.** The departure direction reported for every image and microphone points (before
normalisation) from the real source to the microphone mirrored back through the walls of
the path; in particular its length is the distance from the image to the microphone. -/
theorem C57_departure_direction (room : Room) (source : Nat → ℝ)
    (hdim : room.dim = 2 ∨ room.dim = 3) (hs : ∀ b c, 0 ≤ room.scattering b c) :
    ∃ imgs, imageSourceShoebox room source = some imgs ∧ ∀ i ∈ imgs, ∀ m mic,
      room.mics[m]? = some mic → ∀ d, d < room.dim →
        source d + i.dirs m d = unfoldCoord (room.size d) (i.orderXyz d) (mic d) ∧
        (i.dirs m d) ^ 2 = (mic d - i.loc d) ^ 2 := by
  obtain ⟨imgs, e, _, hok⟩ := shoebox_spec room source hdim hs
  refine ⟨imgs, e, fun i hi m mic hm d hd => ?_⟩
  have hlt : m < room.mics.length := (List.getElem?_eq_some_iff.mp hm).1
  have h1 := (hok i hi).dirs m d hlt hd
  rw [List.getD_eq_getElem?_getD, hm, Option.getD_some] at h1
  constructor
  · have h2 := unfold_closed (room.size d) (wallsOf (i.orderXyz d)) (source d) (mic d)
    rw [show (wallsOf (i.orderXyz d)).length = (i.orderXyz d).natAbs by simp [wallsOf]] at h2
    rw [(hok i hi).loc d hd] at h1
    unfold unfoldCoord
    unfold imageCoord at h1
    rw [h1]; linarith
  · rw [h1, mul_pow, ← pow_mul, Even.neg_one_pow ⟨_, by ring⟩]; ring

/-- Non-vacuity: a 3-D room of order 2 satisfies the hypotheses; it has 25 images; the path
with reflection number 3 hits the far wall twice and the near wall once, and mirrors 1 at
walls 0 and 4 to 4·3+(4-1) = 15. -/
example : (∃ room : Room, room.dim = 3 ∧ room.order = 2 ∧ room.hybrid = true ∧
      (∀ b c, 0 ≤ room.scattering b c) ∧ numberImageSources3 room.order = 25) ∧
    wallsOf 3 = [true, false, true] ∧ hits 3 true = 2 ∧ imageCoord 4 3 1 = 15 := by
  refine ⟨⟨⟨3, fun _ => 5, 2, fun _ _ => 1/2, fun _ _ => 1/10, true, 2, [fun _ => 1]⟩, rfl, rfl, rfl,
    fun _ _ => by norm_num, by decide⟩, by decide, by decide, ?_⟩
  rw [image_eq]; norm_num

end Verif.Shoebox
