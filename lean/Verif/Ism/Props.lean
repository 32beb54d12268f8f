import Verif.Ism.Model
import Verif.Geometry.Props
import Mathlib.Data.List.FinRange
import Mathlib.Data.List.Nodup

/-!
# Image sources of polygonal rooms: property C66
-/

namespace Verif.Ism

open Verif.Geometry Matrix

variable {D : Nat}

/-! ## Specification -/

/-- The mirror image of a point in the plane of a wall. -/
def mirror (w : Wall D) (x : Vec D) : Vec D := x - (2 * sdist w x) • w.normal

/-- The location of the image of `x` after reflections in the walls of a sequence, first wall first. -/
def imageLoc (room : Room D) (x : Vec D) (seq : List (Fin room.n)) : Vec D :=
  seq.foldl (fun y w => mirror (room.walls w).geo y) x

/-- A sequence of walls is admissible if each image is inside of the next wall by more than the tolerance. -/
def Admissible (room : Room D) : Vec D → List (Fin room.n) → Prop
  | _, [] => True
  | x, w :: seq => sdist (room.walls w).geo x < -room.eps ∧ Admissible room (mirror (room.walls w).geo x) seq

/-- The amplitude factor of a wall. -/
noncomputable def gain (room : Room D) (w : Fin room.n) (b : Nat) : ℝ :=
  (room.walls w).trans b * (if (room.walls w).scatters = true ∧ room.hybrid = true then Real.sqrt (1 - (room.walls w).scat b) else 1)

/-- The image source of a wall sequence as an object. -/
noncomputable def srcOf (room : Room D) (s : Src D room.n) (seq : List (Fin room.n)) : Src D room.n := seq.foldl (child room) s

/-- Some microphone sees the image. -/
def Seen (room : Room D) (mics : List (Vec D)) (s : Src D room.n) : Prop := ∃ m ∈ mics, (isVisible room m s).isSome = true

/-! ## Enumeration -/

theorem child_loc (room : Room D) (s : Src D room.n) (w : Fin room.n) : (child room s w).loc = mirror (room.walls w).geo s.loc := by
  show (reflect room.eps (room.walls w).geo s.loc).2 = _
  rw [reflect_eq]; rfl

theorem reflect_code (eps : ℝ) (w : Wall D) (x : Vec D) : (reflect eps w x).1 ≤ 0 ↔ ¬sdist w x < -eps := by
  have hd : w.normal ⬝ᵥ (w.origin - x) = -sdist w x := by
    unfold sdist
    rw [show w.origin - x = -(x - w.origin) by abel, dotProduct_neg]
  unfold reflect
  simp only
  rw [hd]
  constructor
  · intro h h2
    rw [if_pos (by linarith)] at h
    norm_num at h
  · intro h
    rw [if_neg (by intro h2; exact h (by linarith))]
    split_ifs <;> norm_num

/-- **C66** What an image is: its location is the iterated mirror image, its attenuation the product of the factors of the walls, its order the number
of walls, its generating wall the last one. -/
theorem C66_image (room : Room D) (source : Vec D) (seq : List (Fin room.n)) :
    (srcOf room (.root source) seq).loc = imageLoc room source seq ∧
    (∀ b, (srcOf room (.root source) seq).att b = (seq.map fun w => gain room w b).prod) ∧
    (srcOf room (.root source) seq).order = seq.length ∧
    (srcOf room (.root source) seq).genWall = (seq.getLast?.map fun w : Fin room.n => (w : Int)).getD (-1) := by
  have key : ∀ (seq : List (Fin room.n)) (s : Src D room.n),
      (srcOf room s seq).loc = imageLoc room s.loc seq ∧
      (∀ b, (srcOf room s seq).att b = s.att b * (seq.map fun w => gain room w b).prod) ∧
      (srcOf room s seq).order = s.order + seq.length ∧
      (srcOf room s seq).genWall = (seq.getLast?.map fun w : Fin room.n => (w : Int)).getD s.genWall := by
    intro seq
    induction seq with
    | nil => intro s; simp [srcOf, imageLoc]
    | cons w seq ih =>
      intro s
      obtain ⟨h1, h2, h3, h4⟩ := ih (child room s w)
      refine ⟨?_, ?_, ?_, ?_⟩
      · show (srcOf room (child room s w) seq).loc = _
        rw [h1, child_loc]; rfl
      · intro b
        show (srcOf room (child room s w) seq).att b = _
        rw [h2, List.map_cons, List.prod_cons, ← mul_assoc]
        congr 1
        unfold child gain
        simp only [Src.att]
        cases (room.walls w).scatters <;> cases room.hybrid <;> simp [mul_assoc]
      · show (srcOf room (child room s w) seq).order = _
        rw [h3, List.length_cons]
        show s.order + 1 + seq.length = _
        omega
      · show (srcOf room (child room s w) seq).genWall = _
        rw [h4]
        cases seq with
        | nil => rfl
        | cons v seq => rw [List.getLast?_cons_cons]; simp [List.getLast?_cons]
  obtain ⟨h1, h2, h3, h4⟩ := key seq (.root source)
  refine ⟨h1, ?_, ?_, h4⟩
  · intro b; rw [h2]; show 1 * _ = _; rw [one_mul]
  · rw [h3]; show 0 + _ = _; rw [zero_add]

/-- The wall sequences of length at most `k` in the order of a depth first search. -/
def seqs (n : Nat) : Nat → List (List (Fin n))
  | 0 => [[]]
  | k + 1 => [] :: (List.finRange n).flatMap fun w => (seqs n k).map fun q => w :: q

theorem mem_seqs (n k : Nat) (q : List (Fin n)) : q ∈ seqs n k ↔ q.length ≤ k := by
  induction k generalizing q with
  | zero => simp [seqs]
  | succ k ih =>
    cases q with
    | nil => simp [seqs]
    | cons w q =>
      simp only [seqs, List.mem_cons, List.mem_flatMap, List.mem_map, List.length_cons]
      constructor
      · rintro (h | ⟨v, _, r, hr, h⟩)
        · simp at h
        · simp at h
          rw [← h.2]
          have := (ih r).mp hr
          omega
      · intro h
        exact Or.inr ⟨w, List.mem_finRange w, q, (ih q).mpr (by omega), rfl⟩

theorem nodup_seqs (n k : Nat) : (seqs n k).Nodup := by
  induction k with
  | zero => simp [seqs]
  | succ k ih =>
    rw [seqs, List.nodup_cons]
    constructor
    · simp [List.mem_flatMap]
    · rw [List.nodup_flatMap]
      constructor
      · intro w _
        exact ih.map fun a b h => by simpa using h
      · apply (List.nodup_finRange n).pairwise_of_forall_ne
        intro a _ b _ hab
        intro x h1 h2
        rw [List.mem_map] at h1 h2
        obtain ⟨q, _, rfl⟩ := h1
        obtain ⟨r, _, h⟩ := h2
        simp at h
        exact hab h.1.symm

open Classical in
/-- **C66** The engine returns one image for each admissible wall sequence of at most `order` reflections whose image is seen by at least one microphone, no others, each
exactly once, in the order of the depth first search. -/
theorem C66_enumeration (room : Room D) (mics : List (Vec D)) (order : Nat) (source : Vec D) :
    ∃ qs : List (List (Fin room.n)),
      imageSourceModel room mics order source =
        qs.map (fun q => ⟨srcOf room (.root source) q, mics.map fun m => isVisible room m (srcOf room (.root source) q)⟩) ∧
      qs.Sublist (seqs room.n order) ∧ qs.Nodup ∧
      ∀ q, q ∈ qs ↔ q.length ≤ order ∧ Admissible room source q ∧ Seen room mics (srcOf room (.root source) q) := by
  have hany : ∀ s : Src D room.n, ((mics.map fun m => isVisible room m s).any fun d => d.isSome) = true ↔ Seen room mics s := by
    intro s
    rw [List.any_map, List.any_eq_true]
    rfl
  have key : ∀ (k : Nat) (s : Src D room.n), dfs room mics k s =
      ((seqs room.n k).filter fun q => Admissible room s.loc q ∧ Seen room mics (srcOf room s q)).map
        (fun q => ⟨srcOf room s q, mics.map fun m => isVisible room m (srcOf room s q)⟩) := by
    intro k
    induction k with
    | zero =>
      intro s
      rw [dfs, seqs]
      by_cases h : Seen room mics s
      · rw [if_pos ((hany s).mpr h)]
        have : (decide (Admissible room s.loc [] ∧ Seen room mics (srcOf room s []))) = true := by
          simp [Admissible, srcOf, h]
        rw [List.filter_cons, if_pos this]
        rfl
      · rw [if_neg (fun h2 => h ((hany s).mp h2))]
        have : ¬(decide (Admissible room s.loc [] ∧ Seen room mics (srcOf room s []))) = true := by
          simp [Admissible, srcOf, h]
        rw [List.filter_cons, if_neg this]
        rfl
    | succ k ih =>
      intro s
      rw [dfs, seqs]
      have hhead : ∀ L : List (List (Fin room.n)), ((([] : List (Fin room.n)) :: L).filter fun q => decide (Admissible room s.loc q ∧ Seen room mics (srcOf room s q))).map
          (fun q => (⟨srcOf room s q, mics.map fun m => isVisible room m (srcOf room s q)⟩ : Vis D room.n)) =
          (if ((mics.map fun m => isVisible room m s).any fun d => d.isSome) = true then [⟨s, mics.map fun m => isVisible room m s⟩] else []) ++
          (L.filter fun q => decide (Admissible room s.loc q ∧ Seen room mics (srcOf room s q))).map
          (fun q => (⟨srcOf room s q, mics.map fun m => isVisible room m (srcOf room s q)⟩ : Vis D room.n)) := by
        intro L
        by_cases h : Seen room mics s
        · have : (decide (Admissible room s.loc [] ∧ Seen room mics (srcOf room s []))) = true := by
            simp [Admissible, srcOf, h]
          rw [if_pos ((hany s).mpr h), List.filter_cons, if_pos this]
          rfl
        · have : ¬(decide (Admissible room s.loc [] ∧ Seen room mics (srcOf room s []))) = true := by
            simp [Admissible, srcOf, h]
          rw [if_neg (fun h2 => h ((hany s).mp h2)), List.filter_cons, if_neg this]
          rfl
      rw [hhead]
      congr 1
      rw [List.filter_flatMap, List.map_flatMap]
      congr 1
      funext w
      rw [List.filter_map, List.map_map]
      by_cases hw : (reflect room.eps (room.walls w).geo s.loc).1 ≤ 0
      · rw [if_pos hw]
        have hnot := (reflect_code _ _ _).mp hw
        rw [List.filter_eq_nil_iff.mpr]
        · rfl
        · intro q _
          simp [Admissible, hnot]
      · rw [if_neg hw, ih]
        have hin : sdist (room.walls w).geo s.loc < -room.eps := by
          by_contra h
          exact hw ((reflect_code _ _ _).mpr h)
        have : ((fun q => decide (Admissible room s.loc q ∧ Seen room mics (srcOf room s q))) ∘ fun q => w :: q) =
            fun q => decide (Admissible room (child room s w).loc q ∧ Seen room mics (srcOf room (child room s w) q)) := by
          funext q
          simp only [Function.comp, Admissible, child_loc, hin, true_and]
          rfl
        rw [this]
        rfl
  refine ⟨_, key order (.root source), List.filter_sublist, (nodup_seqs _ _).filter _, ?_⟩
  intro q
  rw [List.mem_filter, mem_seqs, decide_eq_true_iff]
  rfl

/-! ## Visible images are reflection paths -/

/-- The wall test returns points of the plane of the wall on the line through the two points. -/
def WallSound (w : WallG D) : Prop :=
  ∀ p l, 0 ≤ (w.isect p l).1 → OnPlane w.geo (w.isect p l).2 ∧ ∃ s : ℝ, (w.isect p l).2 = lineAt p l s

/-- **C66** The walls of 2-D rooms. -/
theorem C66_sound2 {eps : ℝ} (he : 0 < eps) (c0 c1 junk : Vec 2) (trans scat : Nat → ℝ) (sc : Bool) :
    WallSound ⟨wall2 c0 c1, isect2 eps c0 c1 junk, trans, scat, sc⟩ := by
  intro p l h
  simp only at h ⊢
  unfold isect2 at h ⊢
  simp only at h ⊢
  obtain ⟨q, s, t, E, e, q1, q2, _⟩ := C27_segments he p l c0 c1 h
  rw [e]
  simp only [Option.getD_some]
  refine ⟨?_, s, q1⟩
  have hline : ∀ t : ℝ, OnPlane (wall2 c0 c1) (lineAt c0 c1 t) := by
    intro t
    unfold OnPlane wall2 lineAt
    simp only
    rw [add_sub_cancel_left, dotProduct_smul]
    have : normalized ![c1 1 - c0 1, c0 0 - c1 0] ⬝ᵥ (c1 - c0) = 0 := by
      unfold normalized
      split_ifs
      · rw [smul_dotProduct, vec2_dotProduct]; simp; right; ring
      · rw [vec2_dotProduct]; simp; ring
    rw [this, smul_zero]
  rw [q2]; exact hline t

/-- **C66** The walls of 3-D rooms, given that the singular vectors are orthonormal. -/
theorem C66_sound3 {eps : ℝ} (he : 0 < eps) (w : Wall 3) (basis : Vec 3 × Vec 3) (flat : List (Vec 2)) (junk : Vec 3)
    (h0 : basis.1 ⬝ᵥ basis.1 = 1) (h1 : basis.2 ⬝ᵥ basis.2 = 1) (h01 : basis.1 ⬝ᵥ basis.2 = 0) (hn : w.normal = crossProduct basis.1 basis.2)
    (trans scat : Nat → ℝ) (sc : Bool) : WallSound ⟨w, isect3 eps w basis flat junk, trans, scat, sc⟩ := by
  intro p l h
  simp only at h ⊢
  unfold isect3 at h ⊢
  simp only at h ⊢
  obtain ⟨q, s, f, e, q1, _, _, q2, _⟩ := C27_wall3 he.le w basis flat p l h0 h1 h01 hn h
  rw [e]
  simp only [Option.getD_some]
  refine ⟨?_, s, q1⟩
  rw [q2]
  unfold OnPlane planePoint
  rw [add_assoc, add_sub_cancel_left, dotProduct_add, dotProduct_smul, dotProduct_smul, hn, dotProduct_comm _ basis.1, dotProduct_comm _ basis.2,
    dot_self_cross, dot_cross_self]
  simp

theorem norm_triangle (u v : Vec D) : Geometry.norm (u + v) ≤ Geometry.norm u + Geometry.norm v := by
  have hc := cauchy_schwarz u v
  have hu := norm_sq u
  have hv := norm_sq v
  have hu0 : 0 ≤ Geometry.norm u := Real.sqrt_nonneg _
  have hv0 : 0 ≤ Geometry.norm v := Real.sqrt_nonneg _
  have huv : u ⬝ᵥ v ≤ Geometry.norm u * Geometry.norm v := by
    apply le_of_sq_le_sq _ (mul_nonneg hu0 hv0) |>.trans (le_refl _)
    rw [mul_pow, hu, hv]; exact hc
  show Real.sqrt ((u + v) ⬝ᵥ (u + v)) ≤ Geometry.norm u + Geometry.norm v
  rw [Real.sqrt_le_left (add_nonneg hu0 hv0)]
  rw [add_dotProduct, dotProduct_add, dotProduct_add, dotProduct_comm v u]
  nlinarith

theorem norm_smul' (t : ℝ) (u : Vec D) : Geometry.norm (t • u) = |t| * Geometry.norm u := by
  unfold Geometry.norm
  rw [smul_dotProduct, dotProduct_smul, smul_eq_mul, smul_eq_mul, ← mul_assoc, Real.sqrt_mul (mul_self_nonneg t), Real.sqrt_mul_self_eq_abs]

/-- Points of the plane are equally far from a point and its mirror image. -/
theorem mirror_dist {w : Wall D} (hn : w.normal ⬝ᵥ w.normal = 1) {q : Vec D} (hq : OnPlane w q) (x : Vec D) :
    Geometry.norm (q - mirror w x) = Geometry.norm (q - x) := by
  unfold Geometry.norm
  congr 1
  have hx : w.normal ⬝ᵥ (q - x) = -sdist w x := by
    have : q - x = (q - w.origin) - (x - w.origin) := by abel
    rw [this, dotProduct_sub]
    unfold OnPlane at hq
    rw [hq]; unfold sdist; ring
  have e : q - mirror w x = (q - x) + (2 * sdist w x) • w.normal := by unfold mirror; abel
  rw [e, add_dotProduct, dotProduct_add, dotProduct_add, smul_dotProduct, smul_dotProduct, dotProduct_smul, dotProduct_smul, hn, hx,
    dotProduct_comm (q - x) w.normal, hx]
  simp only [smul_eq_mul]
  ring

/-- Length of a polygonal path. -/
noncomputable def pathLength : List (Vec D) → ℝ
  | a :: b :: t => Geometry.norm (a - b) + pathLength (b :: t)
  | _ => 0

/-- `pts` are points on the planes of the walls of the sequence, from the last wall (next to the microphone) to the first (next to the source). -/
def Touches (room : Room D) (seq : List (Fin room.n)) (pts : List (Vec D)) : Prop :=
  List.Forall₂ (fun w q => OnPlane (room.walls w).geo q) seq.reverse pts

theorem srcOf_snoc (room : Room D) (s : Src D room.n) (seq : List (Fin room.n)) (w : Fin room.n) :
    srcOf room s (seq ++ [w]) = child room (srcOf room s seq) w := by
  unfold srcOf; rw [List.foldl_append]; rfl

theorem imageLoc_snoc (room : Room D) (x : Vec D) (seq : List (Fin room.n)) (w : Fin room.n) :
    imageLoc room x (seq ++ [w]) = mirror (room.walls w).geo (imageLoc room x seq) := by
  unfold imageLoc; rw [List.foldl_append]; rfl

/-- **C66** Fermat: every path from the source to the microphone by way of the planes of the walls of a sequence is at least as long as the
distance from the image of the sequence. -/
theorem C66_shortest (room : Room D) (hn : ∀ w, (room.walls w).geo.normal ⬝ᵥ (room.walls w).geo.normal = 1) (source m : Vec D)
    (seq : List (Fin room.n)) (pts : List (Vec D)) (h : Touches room seq pts) :
    Geometry.norm (m - imageLoc room source seq) ≤ pathLength (m :: pts ++ [source]) := by
  induction seq using List.reverseRecOn generalizing m pts with
  | nil =>
    cases h
    simp [pathLength, imageLoc]
  | append_singleton seq w ih =>
    unfold Touches at h
    rw [List.reverse_append] at h
    cases h with
    | cons hq hrest =>
      rename_i q qs
      have h1 := ih q qs hrest
      rw [imageLoc_snoc]
      have h2 := norm_triangle (m - q) (q - mirror (room.walls w).geo (imageLoc room source seq))
      rw [mirror_dist (hn w) hq, sub_add_sub_cancel] at h2
      show _ ≤ Geometry.norm (m - q) + pathLength (q :: (qs ++ [source]))
      have h1' : Geometry.norm (q - imageLoc room source seq) ≤ pathLength (q :: (qs ++ [source])) := h1
      linarith

/-- The hits computed by the visibility test are between the two points (not in the part of the line added by the tolerance). -/
def Proper (room : Room D) : Vec D → Src D room.n → Prop
  | _, .root _ => True
  | p, .image l _ _ w parent =>
    (∃ s : ℝ, 0 ≤ s ∧ s ≤ 1 ∧ ((room.walls w).isect p l).2 = lineAt p l s) ∧ Proper room ((room.walls w).isect p l).2 parent

/-- **C66** An image which a microphone sees belongs to a reflection path: there are points on the planes of the walls such that the direction of departure points from the source to the
first of them, and if the hits are proper the path has exactly the length of the distance between image and microphone (so by
`C66_shortest` it is a path of minimal length: the reflections are specular). -/
theorem C66_path (room : Room D) (hs : ∀ w, WallSound (room.walls w)) (hn : ∀ w, (room.walls w).geo.normal ⬝ᵥ (room.walls w).geo.normal = 1)
    (source m : Vec D) (seq : List (Fin room.n)) (d : Vec D) (h : isVisible room m (srcOf room (.root source) seq) = some d) :
    ∃ pts : List (Vec D), Touches room seq pts ∧ d = normalized ((m :: pts).getLast (by simp) - source) ∧
      (Proper room m (srcOf room (.root source) seq) → pathLength (m :: pts ++ [source]) = Geometry.norm (m - imageLoc room source seq)) := by
  induction seq using List.reverseRecOn generalizing m with
  | nil =>
    refine ⟨[], List.Forall₂.nil, ?_, ?_⟩
    · change isVisible room m (.root source) = some d at h
      rw [isVisible] at h
      split_ifs at h
      simpa using h.symm
    · intro _; simp [pathLength, imageLoc]
  | append_singleton seq w ih =>
    rw [srcOf_snoc] at h ⊢
    set par := srcOf room (.root source) seq with hpar
    have hloc : (child room par w).loc = mirror (room.walls w).geo (imageLoc room source seq) := by
      rw [child_loc, (C66_image room source seq).1]
    obtain ⟨l, a, o, hch⟩ : ∃ l a o, child room par w = .image l a o w par := ⟨_, _, _, rfl⟩
    rw [hch] at h hloc ⊢
    change l = _ at hloc
    rw [isVisible] at h
    simp only at h
    split_ifs at h with hob hret
    set q := ((room.walls w).isect m l).2 with hq
    obtain ⟨pts, ht, hd, hlen⟩ := ih q h
    obtain ⟨hon, s, hs1⟩ := hs w m l hret
    refine ⟨q :: pts, ?_, ?_, ?_⟩
    · unfold Touches
      rw [List.reverse_append]
      exact List.Forall₂.cons hon ht
    · rw [hd]; simp [List.getLast_cons]
    · rintro ⟨⟨s, s0, s1, hsq⟩, hpr⟩
      have h1 := hlen hpr
      have h2 : Geometry.norm (q - l) = Geometry.norm (q - imageLoc room source seq) := by rw [hloc]; exact mirror_dist (hn w) hon _
      rw [imageLoc_snoc, ← hloc]
      show Geometry.norm (m - q) + pathLength (q :: (pts ++ [source])) = _
      change pathLength (q :: (pts ++ [source])) = _ at h1
      rw [h1, ← h2]
      have e1 : m - q = s • (m - l) := by rw [hq, hsq]; unfold lineAt; module
      have e2 : q - l = (1 - s) • (m - l) := by rw [hq, hsq]; unfold lineAt; module
      rw [e1, e2, norm_smul', norm_smul', abs_of_nonneg s0, abs_of_nonneg (by linarith)]
      ring

/-! ## Line of sight in 2-D rooms -/

/-- A 2-D room given by the end points of its walls. -/
noncomputable def room2 (eps : ℝ) (n : Nat) (corners : Fin n → Vec 2 × Vec 2) (junk : Vec 2) (obstructing : List (Fin n)) (hybrid : Bool)
    (trans scat : Fin n → Nat → ℝ) (sc : Fin n → Bool) : Room 2 :=
  ⟨n, fun w => ⟨wall2 (corners w).1 (corners w).2, isect2 eps (corners w).1 (corners w).2 junk, trans w, scat w, sc w⟩, obstructing, hybrid, eps⟩

/-- **C66** Direct sound in 2-D rooms: a microphone sees the source exactly if none of the walls that are not on the convex hull meets the segment between
them (outside of the tolerance). -/
theorem C66_direct {eps : ℝ} (he : 0 < eps) (n : Nat) (corners : Fin n → Vec 2 × Vec 2) (junk : Vec 2) (obstructing : List (Fin n)) (hybrid : Bool)
    (trans scat : Fin n → Nat → ℝ) (sc : Fin n → Bool) (source m : Vec 2)
    (hc : ∀ w ∈ obstructing, Clear eps source m (corners w).1 ∧ Clear eps source m (corners w).2 ∧
      Clear eps (corners w).1 (corners w).2 source ∧ Clear eps (corners w).1 (corners w).2 m) :
    (isVisible (room2 eps n corners junk obstructing hybrid trans scat sc) m (.root source)).isSome = true ↔
      ∀ w ∈ obstructing, ¬Meet source m (corners w).1 (corners w).2 := by
  have hob : isObstructed (room2 eps n corners junk obstructing hybrid trans scat sc) m (.root source) = true ↔
      ∃ w ∈ obstructing, Meet source m (corners w).1 (corners w).2 := by
    unfold isObstructed
    rw [List.any_eq_true]
    constructor
    · rintro ⟨w, hw, h⟩
      refine ⟨w, hw, ?_⟩
      by_contra hno
      obtain ⟨c1, c2, c3, c4⟩ := hc w hw
      have := (C27_segments_exact he source m _ _ c1 c2 c3 c4).2 hno
      simp only [Src.genWall, Src.loc, room2, isect2, this] at h
      split_ifs at h with h1 h2 <;> simp_all
    · rintro ⟨w, hw, h⟩
      refine ⟨w, hw, ?_⟩
      obtain ⟨c1, c2, c3, c4⟩ := hc w hw
      have := (C27_segments_exact he source m _ _ c1 c2 c3 c4).1 h
      have hne : ((w : Nat) : Int) ≠ -1 := by omega
      simp only [Src.genWall, Src.loc, room2, isect2, this]
      rw [if_pos hne]
      simp
  rw [isVisible]
  by_cases h : isObstructed (room2 eps n corners junk obstructing hybrid trans scat sc) m (.root source) = true
  · rw [if_pos h]
    obtain ⟨w, hw, hm⟩ := hob.mp h
    simp only [Option.isSome_none, Bool.false_eq_true, false_iff]
    intro hall
    exact hall w hw hm
  · rw [if_neg h]
    simp only [Option.isSome_some, true_iff]
    intro w hw hm
    exact h (hob.mpr ⟨w, hw, hm⟩)

/-- There is a reflection path in a 2-D room: `rev` are the walls from the last (next to the microphone) to the first; on each wall there is a point of the
segment between the current point and the current image. The segments are not within the tolerance of the ends of each other. -/
def Reflects (eps : ℝ) {n : Nat} (corners : Fin n → Vec 2 × Vec 2) (loc : List (Fin n) → Vec 2) : List (Fin n) → Vec 2 → Prop
  | [], _ => True
  | w :: rest, m =>
    (Clear eps m (loc (w :: rest)) (corners w).1 ∧ Clear eps m (loc (w :: rest)) (corners w).2 ∧
      Clear eps (corners w).1 (corners w).2 m ∧ Clear eps (corners w).1 (corners w).2 (loc (w :: rest))) ∧
    ∃ (q : Vec 2) (s t : ℝ), 0 ≤ s ∧ s ≤ 1 ∧ 0 ≤ t ∧ t ≤ 1 ∧ q = lineAt m (loc (w :: rest)) s ∧ q = lineAt (corners w).1 (corners w).2 t ∧
      Reflects eps corners loc rest q

/-- The crossing point of two segments is unique and it is the one returned. -/
theorem isect2_exact {eps : ℝ} (he : 0 < eps) (c0 c1 junk p l q : Vec 2) {s t : ℝ} (s0 : 0 ≤ s) (s1 : s ≤ 1) (t0 : 0 ≤ t) (t1 : t ≤ 1)
    (hq1 : q = lineAt p l s) (hq2 : q = lineAt c0 c1 t) (h1 : Clear eps p l c0) (h2 : Clear eps p l c1) (h3 : Clear eps c0 c1 p)
    (h4 : Clear eps c0 c1 l) : isect2 eps c0 c1 junk p l = (0, q) := by
  have hcode := (C27_segments_exact he p l c0 c1 h1 h2 h3 h4).1 ⟨s, t, s0, s1, t0, t1, by rw [← hq1, ← hq2]⟩
  obtain ⟨q', s', t', E, e, q1, q2, hE, hE0, _⟩ := C27_segments he p l c0 c1 (by rw [hcode])
  unfold isect2
  simp only
  rw [e, hcode]
  simp only [Option.getD_some, Prod.mk.injEq, true_and]
  have hEne : E ≠ 0 := by intro h; rw [h, abs_zero] at hE0; linarith
  have hx0 := congrFun (q1.symm.trans q2) 0
  have hx1 := congrFun (q1.symm.trans q2) 1
  have hy0 := congrFun (hq1.symm.trans hq2) 0
  have hy1 := congrFun (hq1.symm.trans hq2) 1
  simp only [lineAt, Pi.add_apply, Pi.smul_apply, Pi.sub_apply, smul_eq_mul] at hx0 hx1 hy0 hy1
  have hss : (s' - s) * E = 0 := by
    rw [hE]
    linear_combination (hx0 - hy0) * (c1 1 - c0 1) - (hx1 - hy1) * (c1 0 - c0 0)
  have : s' = s := by
    rcases mul_eq_zero.mp hss with h | h
    · linarith
    · exact absurd h hEne
  rw [q1, this, hq1]

/-- The wall with the end points `c` blocks the way from `p` to the hit on the generating wall `g` of the image at `l`: it meets the segment from `l` to
`p` in a point that is not on the side of the image and not within the tolerance of the generating wall. -/
def Blocks (eps : ℝ) (g : Wall 2) (l p : Vec 2) (c : Vec 2 × Vec 2) : Prop :=
  ∃ (x : Vec 2) (s t : ℝ), 0 ≤ s ∧ s ≤ 1 ∧ 0 ≤ t ∧ t ≤ 1 ∧ x = lineAt l p s ∧ x = lineAt c.1 c.2 t ∧
    ((x - g.origin) ⬝ᵥ g.normal) * ((l - g.origin) ⬝ᵥ g.normal) < 0 ∧ eps < |(x - g.origin) ⬝ᵥ g.normal|

/-- The sides are different and none is zero. -/
theorem side_differs {eps : ℝ} (he : 0 < eps) (g : Wall 2) (l x : Vec 2) (hl : eps < |(l - g.origin) ⬝ᵥ g.normal|) :
    (side eps g l ≠ side eps g x ∧ side eps g x ≠ 0) ↔
      ((x - g.origin) ⬝ᵥ g.normal) * ((l - g.origin) ⬝ᵥ g.normal) < 0 ∧ eps < |(x - g.origin) ⬝ᵥ g.normal| := by
  unfold side
  simp only
  generalize (x - g.origin) ⬝ᵥ g.normal = a
  generalize (l - g.origin) ⬝ᵥ g.normal = b at hl
  rcases lt_abs.mp hl with hb | hb
  · rw [if_pos hb]
    rcases lt_trichotomy a 0 with ha | ha | ha
    · rw [if_neg (by linarith), abs_of_neg ha]
      by_cases h : a < -eps
      · rw [if_pos h]
        exact ⟨fun _ => ⟨mul_neg_of_neg_of_pos ha (by linarith), by linarith⟩, fun _ => by decide⟩
      · rw [if_neg h]
        exact ⟨fun hh => absurd rfl hh.2, fun hh => absurd (by linarith [hh.2]) h⟩
    · subst ha
      rw [if_neg (by linarith), if_neg (by linarith)]
      simp
    · have hm : ¬a * b < 0 := not_lt.mpr (mul_nonneg ha.le (by linarith))
      rw [if_neg (show ¬a < -eps by linarith)]
      split_ifs <;> simp [hm]
  · rw [if_neg (show ¬b > eps by linarith), if_pos (show b < -eps by linarith)]
    rcases lt_trichotomy a 0 with ha | ha | ha
    · have hm : ¬a * b < 0 := not_lt.mpr (mul_nonneg_of_nonpos_of_nonpos ha.le (by linarith))
      rw [if_neg (show ¬a > eps by linarith)]
      split_ifs <;> simp [hm]
    · subst ha
      rw [if_neg (by linarith), if_neg (by linarith)]
      simp
    · rw [abs_of_pos ha]
      by_cases h : a > eps
      · rw [if_pos h]
        exact ⟨fun _ => ⟨mul_neg_of_pos_of_neg ha (by linarith), h⟩, fun _ => by decide⟩
      · rw [if_neg h, if_neg (by linarith)]
        exact ⟨fun hh => absurd rfl hh.2, fun hh => absurd hh.2 h⟩

/-- **C66** Obstruction in 2-D rooms: the way of an image to a point is obstructed exactly if one of the obstructing walls other than the generating wall
blocks the part in front of the generating wall. A wall which meets only the part behind the mirror does not obstruct. -/
theorem C66_obstructed {eps : ℝ} (he : 0 < eps) (n : Nat) (corners : Fin n → Vec 2 × Vec 2) (junk : Vec 2) (obstructing : List (Fin n)) (hybrid : Bool)
    (trans scat : Fin n → Nat → ℝ) (sc : Fin n → Bool) (p l : Vec 2) (a : Nat → ℝ) (o : Nat) (w : Fin n) (par : Src 2 n)
    (hl : eps < |(l - (wall2 (corners w).1 (corners w).2).origin) ⬝ᵥ (wall2 (corners w).1 (corners w).2).normal|)
    (hc : ∀ v ∈ obstructing, v ≠ w → Clear eps l p (corners v).1 ∧ Clear eps l p (corners v).2 ∧
      Clear eps (corners v).1 (corners v).2 l ∧ Clear eps (corners v).1 (corners v).2 p) :
    isObstructed (room2 eps n corners junk obstructing hybrid trans scat sc) p (.image l a o w par) = true ↔
      ∃ v ∈ obstructing, v ≠ w ∧ Blocks eps (wall2 (corners w).1 (corners w).2) l p (corners v) := by
  have hf : isObstructed (room2 eps n corners junk obstructing hybrid trans scat sc) p (.image l a o w par) =
      obstructing.any (fun v : Fin n => if ((v : Nat) : Int) ≠ ((w : Nat) : Int) then
        (if (isect2 eps (corners v).1 (corners v).2 junk l p).1 = 0 ∨ (isect2 eps (corners v).1 (corners v).2 junk l p).1 = 2 then
          decide (side eps (wall2 (corners w).1 (corners w).2) l ≠
            side eps (wall2 (corners w).1 (corners w).2) (isect2 eps (corners v).1 (corners v).2 junk l p).2 ∧
            side eps (wall2 (corners w).1 (corners w).2) (isect2 eps (corners v).1 (corners v).2 junk l p).2 ≠ 0) else false) else false) := rfl
  rw [hf, List.any_eq_true]
  have hne : ∀ v : Fin n, ((v : Nat) : Int) ≠ ((w : Nat) : Int) ↔ v ≠ w := by
    intro v; rw [Ne, Ne, Fin.ext_iff]; omega
  constructor
  · rintro ⟨v, hv, h⟩
    by_cases hvw : v = w
    · rw [if_neg (by rw [hne]; simpa using hvw)] at h
      exact absurd h (by simp)
    · rw [if_pos ((hne v).mpr hvw)] at h
      obtain ⟨c1, c2, c3, c4⟩ := hc v hv hvw
      by_cases hm : Meet l p (corners v).1 (corners v).2
      · obtain ⟨s, t, s0, s1, t0, t1, e⟩ := hm
        have hx := isect2_exact he (corners v).1 (corners v).2 junk l p _ s0 s1 t0 t1 rfl e c1 c2 c3 c4
        rw [hx] at h
        simp only [true_or, if_true, decide_eq_true_eq] at h
        obtain ⟨b1, b2⟩ := (side_differs he _ l _ hl).mp h
        exact ⟨v, hv, hvw, _, s, t, s0, s1, t0, t1, rfl, e, b1, b2⟩
      · have := (C27_segments_exact he l p _ _ c1 c2 c3 c4).2 hm
        have hi : (isect2 eps (corners v).1 (corners v).2 junk l p).1 = -1 := this
        rw [hi] at h
        exact absurd h (by norm_num)
  · rintro ⟨v, hv, hvw, x, s, t, s0, s1, t0, t1, e1, e2, b1, b2⟩
    refine ⟨v, hv, ?_⟩
    obtain ⟨c1, c2, c3, c4⟩ := hc v hv hvw
    have hx := isect2_exact he (corners v).1 (corners v).2 junk l p x s0 s1 t0 t1 e1 e2 c1 c2 c3 c4
    rw [if_pos ((hne v).mpr hvw), hx]
    simp only [true_or, if_true, decide_eq_true_eq]
    exact (side_differs he _ l _ hl).mpr ⟨b1, b2⟩

theorem isVisible_def (room : Room D) (p l : Vec D) (a : Nat → ℝ) (o : Nat) (w : Fin room.n) (par : Src D room.n) :
    isVisible room p (.image l a o w par) =
      if isObstructed room p (.image l a o w par) = true then none
      else if ((room.walls w).isect p l).1 ≥ 0 then isVisible room ((room.walls w).isect p l).2 par else none := by
  rw [isVisible]

/-- **C66** Visibility in 2-D rooms, one reflection at a time: the point sees the image exactly if nothing blocks the way to the generating wall, the
segment to the image meets the generating wall, and the hit sees the parent. With C66_direct this decides the visibility of all images. -/
theorem C66_visible {eps : ℝ} (he : 0 < eps) (n : Nat) (corners : Fin n → Vec 2 × Vec 2) (junk : Vec 2) (obstructing : List (Fin n)) (hybrid : Bool)
    (trans scat : Fin n → Nat → ℝ) (sc : Fin n → Bool) (p l : Vec 2) (a : Nat → ℝ) (o : Nat) (w : Fin n) (par : Src 2 n)
    (hl : eps < |(l - (wall2 (corners w).1 (corners w).2).origin) ⬝ᵥ (wall2 (corners w).1 (corners w).2).normal|)
    (hw : Clear eps p l (corners w).1 ∧ Clear eps p l (corners w).2 ∧ Clear eps (corners w).1 (corners w).2 p ∧ Clear eps (corners w).1 (corners w).2 l)
    (hc : ∀ v ∈ obstructing, v ≠ w → Clear eps l p (corners v).1 ∧ Clear eps l p (corners v).2 ∧
      Clear eps (corners v).1 (corners v).2 l ∧ Clear eps (corners v).1 (corners v).2 p) :
    (isVisible (room2 eps n corners junk obstructing hybrid trans scat sc) p (.image l a o w par)).isSome = true ↔
      (∀ v ∈ obstructing, v ≠ w → ¬Blocks eps (wall2 (corners w).1 (corners w).2) l p (corners v)) ∧
      ∃ (q : Vec 2) (s t : ℝ), 0 ≤ s ∧ s ≤ 1 ∧ 0 ≤ t ∧ t ≤ 1 ∧ q = lineAt p l s ∧ q = lineAt (corners w).1 (corners w).2 t ∧
        (isVisible (room2 eps n corners junk obstructing hybrid trans scat sc) q par).isSome = true := by
  have hob := C66_obstructed he n corners junk obstructing hybrid trans scat sc p l a o w par hl hc
  obtain ⟨c1, c2, c3, c4⟩ := hw
  refine Iff.trans (iff_of_eq (congrArg (fun v : Option (Vec 2) => v.isSome = true)
    (isVisible_def (room2 eps n corners junk obstructing hybrid trans scat sc) p l a o w par))) ?_
  by_cases h : isObstructed (room2 eps n corners junk obstructing hybrid trans scat sc) p (.image l a o w par) = true
  · rw [if_pos h]
    obtain ⟨v, hv, hvw, hb⟩ := hob.mp h
    simp only [Option.isSome_none, Bool.false_eq_true, false_iff]
    exact fun hh => hh.1 v hv hvw hb
  · rw [if_neg h]
    have hfree : ∀ v ∈ obstructing, v ≠ w → ¬Blocks eps (wall2 (corners w).1 (corners w).2) l p (corners v) :=
      fun v hv hvw hb => h (hob.mpr ⟨v, hv, hvw, hb⟩)
    rw [and_iff_right hfree]
    have hi : ((room2 eps n corners junk obstructing hybrid trans scat sc).walls w).isect p l = isect2 eps (corners w).1 (corners w).2 junk p l := rfl
    simp only [hi]
    by_cases hm : Meet p l (corners w).1 (corners w).2
    · obtain ⟨s, t, s0, s1, t0, t1, e⟩ := hm
      have hx := isect2_exact he (corners w).1 (corners w).2 junk p l _ s0 s1 t0 t1 rfl e c1 c2 c3 c4
      rw [hx]
      simp only [ge_iff_le, le_refl, if_true]
      constructor
      · intro hv
        exact ⟨_, s, t, s0, s1, t0, t1, rfl, e, hv⟩
      · rintro ⟨q, s', t', s0', s1', t0', t1', e1, e2, hv⟩
        have hx' := isect2_exact he (corners w).1 (corners w).2 junk p l q s0' s1' t0' t1' e1 e2 c1 c2 c3 c4
        rw [hx] at hx'
        have hq : lineAt p l s = q := (Prod.ext_iff.mp hx').2
        subst hq
        exact hv
    · have := (C27_segments_exact he p l _ _ c1 c2 c3 c4).2 hm
      have hi' : (isect2 eps (corners w).1 (corners w).2 junk p l).1 = -1 := this
      rw [hi']
      simp only [ge_iff_le, Left.nonneg_neg_iff]
      rw [if_neg (by norm_num)]
      simp only [Option.isSome_none, Bool.false_eq_true, false_iff]
      rintro ⟨q, s', t', s0', s1', t0', t1', e1, e2, _⟩
      exact hm ⟨s', t', s0', s1', t0', t1', by rw [← e1, ← e2]⟩

/-- Non-vacuity of C66_obstructed: a screen between the microphone and the floor blocks the reflection on the floor; the same screen below the floor does not
(the hypotheses hold in both cases). -/
example : ∃ g : Wall 2, g = ⟨![0, -1], ![0, 0]⟩ ∧ Blocks (1 / 100) g ![1, -1] ![3, 1] (![2.5, 0.1], ![2.5, 3]) ∧
    ¬Blocks (1 / 100) g ![1, -1] ![3, 1] (![1.5, -3], ![1.5, -0.1]) ∧ Meet ![1, -1] ![3, 1] ![1.5, -3] ![1.5, -0.1] ∧
    Clear (1 / 100) ![1, -1] ![3, 1] ![2.5, 0.1] ∧ Clear (1 / 100) ![2.5, 0.1] ![2.5, 3] ![1, -1] := by
  refine ⟨_, rfl, ?_, ?_, ?_, ?_, ?_⟩
  · refine ⟨![2.5, 0.5], 3 / 4, 4 / 29, by norm_num, by norm_num, by norm_num, by norm_num, ?_, ?_, ?_, ?_⟩
    · ext i; fin_cases i <;> simp [lineAt] <;> norm_num
    · ext i; fin_cases i <;> simp [lineAt] <;> norm_num
    · simp only [vec2_dotProduct]; simp; norm_num
    · simp only [vec2_dotProduct]; simp; norm_num
  · rintro ⟨x, s, t, s0, s1, t0, t1, e1, e2, b1, b2⟩
    have y1 := congrFun e2 1
    simp only [vec2_dotProduct] at b1
    simp [lineAt] at y1 b1
    norm_num at y1
    linarith
  · refine ⟨1 / 4, 25 / 29, by norm_num, by norm_num, by norm_num, by norm_num, ?_⟩
    ext i; fin_cases i <;> simp [lineAt] <;> norm_num
  · simp [Clear, orient]; norm_num
  · simp [Clear, orient]; norm_num

theorem isVisible_image (room : Room D) (p l q : Vec D) (a : Nat → ℝ) (o : Nat) (w : Fin room.n) (par : Src D room.n)
    (h1 : isObstructed room p (.image l a o w par) = false) (h2 : (room.walls w).isect p l = (0, q)) :
    isVisible room p (.image l a o w par) = isVisible room q par := by
  rw [isVisible, h1, h2]
  simp

/-- **C66** Completeness in 2-D rooms whose walls are all on the convex hull: if there is a reflection path along a sequence of walls, the microphone
sees the image of the sequence. -/
theorem C66_complete {eps : ℝ} (he : 0 < eps) (n : Nat) (corners : Fin n → Vec 2 × Vec 2) (junk : Vec 2) (hybrid : Bool)
    (trans scat : Fin n → Nat → ℝ) (sc : Fin n → Bool) (source : Vec 2) (rev : List (Fin n)) (m : Vec 2)
    (h : Reflects eps corners (fun r => imageLoc (room2 eps n corners junk [] hybrid trans scat sc) source r.reverse) rev m) :
    (isVisible (room2 eps n corners junk [] hybrid trans scat sc) m
      (srcOf (room2 eps n corners junk [] hybrid trans scat sc) (.root source) rev.reverse)).isSome = true ∧
    Proper (room2 eps n corners junk [] hybrid trans scat sc) m
      (srcOf (room2 eps n corners junk [] hybrid trans scat sc) (.root source) rev.reverse) := by
  set room := room2 eps n corners junk [] hybrid trans scat sc with hroom
  have hob : ∀ p s, isObstructed room p s = false := fun p s => rfl
  induction rev generalizing m with
  | nil =>
    refine ⟨?_, trivial⟩
    show (isVisible room m (.root source)).isSome = true
    rw [isVisible, hob]
    rfl
  | cons w rest ih =>
    obtain ⟨⟨c1, c2, c3, c4⟩, q, s, t, s0, s1, t0, t1, hq1, hq2, hrest⟩ := h
    obtain ⟨hv, hp⟩ := ih q hrest
    set par := srcOf room (.root source) rest.reverse with hpar
    have hsrc : srcOf room (.root source) (w :: rest).reverse = child room par w := by
      rw [List.reverse_cons]; exact srcOf_snoc room _ rest.reverse w
    have hl : (child room par w).loc = imageLoc room source (w :: rest).reverse := by
      rw [← hsrc]; exact (C66_image room source (w :: rest).reverse).1
    obtain ⟨l, a, o, hch⟩ : ∃ l a o, child room par w = .image l a o w par := ⟨_, _, _, rfl⟩
    have hex : (room.walls w).isect m l = (0, q) := by
      have hl' : l = imageLoc room source (w :: rest).reverse := by rw [← hl, hch]; rfl
      rw [hl']
      exact isect2_exact he _ _ junk m _ q s0 s1 t0 t1 hq1 hq2 c1 c2 c3 c4
    rw [hsrc, hch]
    constructor
    · exact (congrArg Option.isSome (isVisible_image room m l q a o w par (hob _ _) hex)).trans hv
    · refine ⟨⟨s, s0, s1, ?_⟩, ?_⟩
      · rw [hex]
        have hl' : l = imageLoc room source (w :: rest).reverse := by rw [← hl, hch]; rfl
        rw [hl']; exact hq1
      · rw [hex]; exact hp

/-- Non-vacuity of C66: one reflection on the floor of a room of width 4. -/
example : ∃ (room : Room 2) (w : Fin room.n), Admissible room ![1, 1] [w] ∧ imageLoc room ![1, 1] [w] = ![1, -1] ∧
    (room.walls w).geo.normal ⬝ᵥ (room.walls w).geo.normal = 1 := by
  have hw : wall2 ![0, 0] ![4, 0] = ⟨![0, -1], ![0, 0]⟩ := by
    have hn : Geometry.norm ![0, -4] = 4 := by
      unfold Geometry.norm
      rw [vec2_dotProduct, show (4 : ℝ) = Real.sqrt (4 * 4) by rw [Real.sqrt_mul_self (by norm_num)]]
      congr 1; simp
    unfold wall2
    rw [show (![(![4, 0] : Vec 2) 1 - (![0, 0] : Vec 2) 1, (![0, 0] : Vec 2) 0 - (![4, 0] : Vec 2) 0] : Vec 2) = ![0, -4] by
      ext i; fin_cases i <;> simp]
    unfold normalized
    rw [if_pos (by rw [vec2_dotProduct]; simp), hn]
    congr 1
    ext i; fin_cases i <;> simp
  refine ⟨room2 (1 / 100) 1 (fun _ => (![0, 0], ![4, 0])) 0 [] false (fun _ _ => 1) (fun _ _ => 0) (fun _ => false), (0 : Fin 1), ?_, ?_, ?_⟩
  · simp only [Admissible, room2, hw, sdist, vec2_dotProduct]
    simp
    norm_num
  · simp only [imageLoc, room2, hw, sdist, List.foldl_cons, List.foldl_nil, mirror, vec2_dotProduct]
    ext i; fin_cases i <;> simp <;> norm_num
  · simp only [room2, hw, vec2_dotProduct]; simp

/-- Non-vacuity of C66_complete: the path from (1, 1) by way of the floor to (3, 1). -/
example (loc : List (Fin 1) → Vec 2) (hl : loc [0] = ![1, -1]) :
    Reflects (1 / 100) (fun _ => (![0, 0], ![4, 0])) loc [0] ![3, 1] := by
  refine ⟨?_, ![2, 0], 1 / 2, 1 / 2, ?_⟩
  · rw [hl]; simp [Clear, orient]; norm_num
  · rw [hl]
    refine ⟨by norm_num, by norm_num, by norm_num, by norm_num, ?_, ?_, trivial⟩ <;>
      (ext i; fin_cases i <;> simp [lineAt] <;> norm_num)

end Verif.Ism
