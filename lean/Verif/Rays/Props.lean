import Verif.Rays.Model
import Mathlib.Data.List.Basic
import Mathlib.Algebra.BigOperators.Field
import Mathlib.Algebra.Order.BigOperators.Ring.Finset
import Mathlib.Tactic.LinearCombination
import Mathlib.Tactic.FinCases
import Mathlib.Tactic.Positivity
import Mathlib.Tactic.Linarith
import Mathlib.Tactic.FieldSimp
import Mathlib.Tactic.Ring

/-!
# Properties of ray tracing (C56, C72, C73)
-/

namespace Verif.Rays

variable {D B : Nat} {R : Type}

/-! ## Specification -/

/-- A straight piece of the way of a ray, from a start to a wall. -/
structure Hop (D : Nat) where
  start : Vec D
  dir : Vec D
  point : Vec D
  wall : Nat
  dist : ℝ

/-- Length of the first `n` pieces. -/
def travelled (hops : List (Hop D)) (n : Nat) : ℝ := ((hops.take n).map (·.dist)).sum

/-- Energy left after `n` walls. -/
def carried (r : Room D B) (e : Bands B) (hops : List (Hop D)) (n : Nat) : Bands B := fun b =>
  e b * ((hops.take n).map fun h => (r.wall h.wall).energyReflection b).prod

/-- The next direction is the mirror image, or, at a wall that scatters, a mixture with a direction drawn for the wall. -/
def Turns (w : Wall D B) (d d' : Vec D) : Prop :=
  if w.doesScatter = true then
    ∃ u1 u2 : ℝ, d' = normalized fun i => w.averageScatter * -lambertian w u1 u2 i + (1 - w.averageScatter) * (d i - 2 * dot d w.normal * w.normal i)
  else d' = fun i => d i - 2 * dot d w.normal * w.normal i

/-- The pieces are what `next_wall_hit` gives, each starts where the one before ended. -/
def Chain (r : Room D B) : Vec D → Vec D → List (Hop D) → Prop
  | _, _, [] => True
  | start, dir, h :: t => h.start = start ∧ h.dir = dir ∧ nextWallHit r start (fun i => start i + r.maxDist * dir i) false = some (h.point, h.wall, h.dist) ∧
      (∀ h' ∈ t.head?, Turns (r.wall h.wall) dir h'.dir) ∧ Chain r h.point ((t.head?.map (·.dir)).getD 0) t

/-- The normalisation of what is stored. -/
noncomputable def weight (radius d : ℝ) : ℝ := if d ≤ radius then d ^ 2 else d ^ 2 - d * Real.sqrt (d ^ 2 - radius ^ 2)

open Classical in
/-- What a microphone at a given place stores of a passing ray. -/
noncomputable def heard (r : Room D B) (e : Bands B) (travel : ℝ) (h : Hop D) (k : Nat) (mic : Vec D) : Option (Entry D B) :=
  if -r.eps < dot (mic - h.start) h.dir ∧ dot (mic - h.start) h.dir < h.dist + r.eps ∧ norm (fun i => mic i - (h.start i + dot (mic - h.start) h.dir * h.dir i)) < r.micRadius + r.eps then
    some ⟨k, travel + |dot (mic - h.start) h.dir|, fun b => e b / weight r.micRadius (travel + |dot (mic - h.start) h.dir|), h.start⟩
  else none

/-- The part of a sphere of directions that a microphone at distance `h` takes. -/
noncomputable def fraction (radius h : ℝ) : ℝ := if h ≤ radius then 1 else 1 - Real.sqrt (1 - (radius / h) ^ 2)

/-- Energy that a wall scatters to a microphone. -/
noncomputable def share (r : Room D B) (w : Wall D B) (e : Bands B) (point mic : Vec D) : Bands B := fun b =>
  2 * |dot (mic - point) w.normal / norm (mic - point)| * fraction r.micRadius (norm (mic - point)) * w.scatter b * e b

open Classical in
/-- What a microphone stores of the energy scattered at the end of a piece. -/
noncomputable def scatteredTo (r : Room D B) (e : Bands B) (travel : ℝ) (h : Hop D) (k : Nat) (mic : Vec D) : Option (Entry D B) :=
  if side r.eps (r.wall h.wall) mic = side r.eps (r.wall h.wall) h.start ∧ nextWallHit r h.point mic true = none ∧
      travel + norm (mic - h.point) < r.timeThres * r.soundSpeed ∧ (∃ b, r.energyThres < share r (r.wall h.wall) e h.point mic b) then
    some ⟨k, travel + norm (mic - h.point), fun b => share r (r.wall h.wall) e h.point mic b / weight r.micRadius (travel + norm (mic - h.point)), h.point⟩
  else none

/-- Entries of piece `n`. -/
noncomputable def told (r : Room D B) (e : Bands B) (t0 : ℝ) (c0 : Nat) (hops : List (Hop D)) (h : Hop D × Nat) : List (Entry D B) :=
  (if r.isHybrid = true ∧ ((c0 + h.2 : Nat) : Int) < r.ismOrder then [] else r.mics.zipIdx.filterMap fun m => heard r (carried r e hops h.2) (t0 + travelled hops h.2) h.1 m.2 m.1) ++
    if (r.wall h.1.wall).doesScatter = true then r.mics.zipIdx.filterMap fun m => scatteredTo r (carried r e hops (h.2 + 1)) (t0 + travelled hops (h.2 + 1)) h.1 m.2 m.1 else []

/-! ## Basics -/

theorem dot_self_nonneg (v : Vec D) : 0 ≤ dot v v := Finset.sum_nonneg fun i _ => mul_self_nonneg _

theorem norm_nonneg (v : Vec D) : 0 ≤ norm v := Real.sqrt_nonneg _

theorem norm_sq (v : Vec D) : norm v ^ 2 = dot v v := Real.sq_sqrt (dot_self_nonneg v)

theorem lt_maxCoeff {e : Bands B} {x : ℝ} : x < maxCoeff e ↔ ∃ b, x < e b := by
  unfold maxCoeff
  rw [Finset.lt_sup'_iff]
  simp

theorem le_maxCoeff (e : Bands B) (b : Fin (B + 1)) : e b ≤ maxCoeff e := Finset.le_sup' e (Finset.mem_univ b)

theorem pHit_eq {radius h : ℝ} (hr : 0 < radius) (hh : 0 ≤ h) : pHit radius h = fraction radius h := by
  unfold pHit fraction
  split
  · rename_i hle
    rw [max_eq_left (by nlinarith), div_self (by positivity), sub_self, Real.sqrt_zero, sub_zero]
  · rename_i hlt
    rw [max_eq_right (by nlinarith [not_le.mp hlt]), div_pow]

theorem weight_eq {radius h : ℝ} (hr : 0 < radius) (hh : 0 ≤ h) : h ^ 2 * pHit radius h = weight radius h := by
  rw [pHit_eq hr hh]
  unfold fraction weight
  split
  · ring
  · rename_i hlt
    have hpos : 0 < h := hr.trans (not_le.mp hlt)
    have : Real.sqrt (h ^ 2 - radius ^ 2) = h * Real.sqrt (1 - (radius / h) ^ 2) := by
      rw [show h ^ 2 - radius ^ 2 = h ^ 2 * (1 - (radius / h) ^ 2) by field_simp, Real.sqrt_mul (by positivity), Real.sqrt_sq hh]
    rw [this]; ring

/-! ## The next wall -/

/-- The distance to the next wall is never below the tolerance. -/
theorem plane_dist {eps : ℝ} {size start dir : Vec D} {a : Fin D} {p : Vec D} {i : Nat} {d : ℝ}
    (h : shoeboxPlane eps size start dir a = some (p, i, d)) : eps ≤ d := by
  unfold shoeboxPlane at h
  split at h
  · cases h
  · simp only at h
    split at h
    · cases h
    · rename_i hd
      split at h
      · cases h
      · simp only [Option.some.injEq, Prod.mk.injEq] at h
        obtain ⟨rfl, _, rfl⟩ := h
        have hle : (facing size start dir a).2.1 ≤ |(facing size start dir a).1 - start a| := by
          unfold facing
          split
          · simp only [zero_sub, abs_neg]; exact le_abs_self _
          · exact le_abs_self _
        have hs : |(facing size start dir a).1 - start a| ^ 2 ≤
            dot ((fun i => if i = a then (facing size start dir a).1 else start i + (facing size start dir a).2.1 / |dir a| * dir i) - start)
              ((fun i => if i = a then (facing size start dir a).1 else start i + (facing size start dir a).2.1 / |dir a| * dir i) - start) := by
          generalize hv : ((fun i => if i = a then (facing size start dir a).1 else start i + (facing size start dir a).2.1 / |dir a| * dir i) - start : Vec D) = v
          have hva : v a = (facing size start dir a).1 - start a := by rw [← hv]; simp
          rw [← hva, sq_abs, sq]
          exact Finset.single_le_sum (f := fun i => v i * v i) (fun i _ => mul_self_nonneg _) (Finset.mem_univ a)
        refine (not_lt.mp hd).trans (hle.trans ?_)
        exact Real.le_sqrt_of_sq_le hs

theorem nearer_fold_dist {α : Type} (r : Room D B) (start stop : Vec D) (f : α → Nat × Wall D B) (l : List α) (best : Option (Vec D × Nat × ℝ)) (hb : ∀ b ∈ best, r.eps < b.2.2) :
    ∀ b ∈ l.foldl (fun best o => nearer r start stop best (f o).1 (f o).2) best, r.eps < b.2.2 := by
  induction l generalizing best with
  | nil => exact hb
  | cons o t ih =>
    refine ih _ fun b hb' => ?_
    simp only [nearer] at hb'
    split at hb'
    · exact hb b hb'
    · split at hb'
      · rename_i hc
        rw [Option.mem_some_iff] at hb'
        rw [← hb']
        exact hc.1
      · exact hb b hb'

theorem next_dist {r : Room D B} {start stop : Vec D} {p : Vec D} {i : Nat} {d : ℝ} (h : nextWallHit r start stop false = some (p, i, d)) : r.eps ≤ d := by
  unfold nextWallHit at h
  split at h
  · simp only [Bool.false_eq_true, if_false] at h
    obtain ⟨a, _, ha⟩ := List.exists_of_findSome?_eq_some h
    exact plane_dist ha
  · simp only [Bool.false_eq_true, if_false] at h
    exact (nearer_fold_dist r start stop (fun i => (i, r.wall i)) (List.range r.nWalls) none (fun _ hb => by cases hb) _ h).le

/-! ## The loop -/

theorem loop_succ (r : Room D B) (draw : R → (ℝ × ℝ) × R) (eThres : ℝ) (fuel : Nat) (s : Ray D B R) (log : List (Entry D B)) :
    ∀ out, loop r draw eThres fuel s log = some out → loop r draw eThres (fuel + 1) s log = some out := by
  induction fuel generalizing s log with
  | zero => intro out h; cases h
  | succ n ih =>
    intro out h
    rw [loop] at h ⊢
    split at h
    · exact h
    · simp only at h ⊢
      split at h
      · rename_i hc
        rw [if_pos hc]
        exact h
      · rename_i hc
        rw [if_neg hc]
        exact ih _ _ out h

/-- **C56, end.** Every ray ends, in every room and for every stream of random numbers: the number of walls it meets is at most the distance limit over the tolerance, and one. A larger
bound on the number of rounds changes nothing. -/
theorem C56_ends (r : Room D B) (draw : R → (ℝ × ℝ) × R) (dir source : Vec D) (energy0 : Bands B) (rng : R) {fuel : Nat} (h1 : 1 ≤ fuel)
    (hf : r.timeThres * r.soundSpeed < r.eps * fuel) :
    ∃ out, ∀ more, simulRay r draw (fuel + more) dir source energy0 rng = some out := by
  have key : ∀ (fuel : Nat) (s : Ray D B R) (log : List (Entry D B)) (eThres : ℝ), 1 ≤ fuel → r.timeThres * r.soundSpeed < s.travel + r.eps * fuel →
      ∃ out, loop r draw eThres fuel s log = some out := by
    intro fuel
    induction fuel with
    | zero => intro s log eThres h; omega
    | succ n ih =>
      intro s log eThres _ hd
      rw [loop]
      split
      · exact ⟨_, rfl⟩
      · rename_i hit i hitDist hn
        have hdist := next_dist hn
        simp only
        split
        · exact ⟨_, rfl⟩
        · rename_i hc
          push Not at hc
          push_cast at hd
          refine ih _ _ _ ?_ (by simp only; nlinarith)
          by_contra h0
          have : n = 0 := by omega
          subst this
          simp only [Nat.cast_zero, zero_add] at hd
          linarith [hc.1]
  obtain ⟨out, ho⟩ := key fuel ⟨source, dir, fun b => 1 * energy0 b, 0, 0, rng⟩ [] (maxCoeff energy0 * r.energyThres) h1 (by simpa using hf)
  refine ⟨out, fun more => ?_⟩
  induction more with
  | zero => exact ho
  | succ m ih => exact loop_succ _ _ _ _ _ _ _ ih

/-! ## What is stored -/

theorem specularEntry_eq {r : Room D B} (hr : 0 < r.micRadius) (e : Bands B) (h : Hop D) {travel : ℝ} (ht : 0 ≤ travel) (k : Nat) (mic : Vec D) :
    specularEntry r e h.start h.dir h.dist travel k mic = heard r e travel h k mic := by
  unfold specularEntry heard
  simp only
  have e1 : (mic - h.start - fun i => h.dir i * dot (mic - h.start) h.dir) = fun i => mic i - (h.start i + dot (mic - h.start) h.dir * h.dir i) := by
    funext i
    simp only [Pi.sub_apply]
    ring
  rw [e1, weight_eq hr (by positivity)]
  by_cases hc : -r.eps < dot (mic - h.start) h.dir ∧ dot (mic - h.start) h.dir < h.dist + r.eps ∧ norm (fun i => mic i - (h.start i + dot (mic - h.start) h.dir * h.dir i)) < r.micRadius + r.eps
  · rw [if_pos hc, if_pos ⟨⟨hc.1, hc.2.1⟩, hc.2.2⟩]
  · rw [if_neg hc, if_neg fun h => hc ⟨h.1.1, h.1.2, h.2⟩]

theorem scatEntry_eq {r : Room D B} (hr : 0 < r.micRadius) (e : Bands B) (h : Hop D) {travel : ℝ} (ht : 0 ≤ travel) (k : Nat) (mic : Vec D) :
    scatEntry r e (r.wall h.wall) h.start h.point travel k mic = scatteredTo r e travel h k mic := by
  have hn := norm_nonneg (mic - h.point)
  have hs : ∀ b, (r.wall h.wall).scatter b * e b * pHit r.micRadius (norm (mic - h.point)) * (2 * |cosineAngle (r.wall h.wall) (mic - h.point)|) =
      share r (r.wall h.wall) e h.point mic b := by
    intro b
    rw [pHit_eq hr hn]
    unfold share cosineAngle
    ring
  unfold scatEntry scatteredTo
  simp only [hs, gt_iff_lt]
  rw [weight_eq hr (by linarith)]
  by_cases h1 : side r.eps (r.wall h.wall) mic = side r.eps (r.wall h.wall) h.start
  · rw [if_neg (not_not_intro h1)]
    cases h2 : nextWallHit r h.point mic true with
    | some x => simp
    | none =>
      simp only [Option.isSome_none, Bool.false_eq_true, if_false]
      by_cases h3 : travel + norm (mic - h.point) < r.timeThres * r.soundSpeed ∧ r.energyThres < maxCoeff fun b => share r (r.wall h.wall) e h.point mic b
      · rw [if_pos h3, if_pos ⟨h1, trivial, h3.1, lt_maxCoeff.mp h3.2⟩]
      · rw [if_neg h3, if_neg fun h => h3 ⟨h.2.2.1, lt_maxCoeff.mpr h.2.2.2⟩]
  · rw [if_pos h1, if_neg fun h => h1 h.1]

theorem carried_cons (r : Room D B) (e : Bands B) (h : Hop D) (t : List (Hop D)) (n : Nat) :
    carried r e (h :: t) (n + 1) = carried r (fun b => e b * (r.wall h.wall).energyReflection b) t n := by
  funext b
  unfold carried
  simp only [List.take_succ_cons, List.map_cons, List.prod_cons]
  ring

theorem travelled_cons (h : Hop D) (t : List (Hop D)) (n : Nat) : travelled (h :: t) (n + 1) = h.dist + travelled t n := by
  unfold travelled
  simp

theorem told_cons (r : Room D B) (e : Bands B) (t0 : ℝ) (c0 : Nat) (h : Hop D) (t : List (Hop D)) (x : Hop D) (n : Nat) :
    told r e t0 c0 (h :: t) (x, n + 1) = told r (fun b => e b * (r.wall h.wall).energyReflection b) (t0 + h.dist) (c0 + 1) t (x, n) := by
  unfold told
  simp only [carried_cons, travelled_cons, ← add_assoc]
  rw [show c0 + n + 1 = c0 + 1 + n by omega]

theorem flatMap_told_cons (r : Room D B) (e : Bands B) (t0 : ℝ) (c0 : Nat) (h : Hop D) (t : List (Hop D)) :
    (h :: t).zipIdx.flatMap (told r e t0 c0 (h :: t)) =
      told r e t0 c0 (h :: t) (h, 0) ++ t.zipIdx.flatMap (told r (fun b => e b * (r.wall h.wall).energyReflection b) (t0 + h.dist) (c0 + 1) t) := by
  rw [List.zipIdx_cons, List.flatMap_cons]
  congr 1
  rw [List.zipIdx_succ, List.flatMap_map]
  congr 1
  funext x
  exact told_cons r e t0 c0 h t x.1 x.2

theorem rebound_turns (draw : R → (ℝ × ℝ) × R) (w : Wall D B) (dir : Vec D) (rng : R) : Turns w dir (rebound draw w dir rng).1 := by
  have e : normalReflect w dir = fun i => dir i - 2 * dot dir w.normal * w.normal i := by
    funext i
    unfold normalReflect
    ring
  unfold Turns rebound
  simp only
  split
  · refine ⟨(draw rng).1.1, (draw rng).1.2, ?_⟩
    rw [e]
  · exact e

/-- Why a ray ended: it went too far, it became too weak, or there was no wall. -/
def Ended (r : Room D B) (limit : ℝ) (e : Bands B) (t0 : ℝ) (source dir : Vec D) (hops : List (Hop D)) : Prop :=
  (hops ≠ [] ∧ (r.timeThres * r.soundSpeed < t0 + travelled hops hops.length ∨ ∀ b, carried r e hops hops.length b < limit)) ∨
    ∃ start dir', nextWallHit r start (fun i => start i + r.maxDist * dir' i) false = none ∧ (hops = [] → start = source ∧ dir' = dir) ∧
      ∀ h ∈ hops.getLast?, start = h.point ∧ Turns (r.wall h.wall) h.dir dir'

theorem stop_eq (r : Room D B) (start dir : Vec D) : (start + fun i => dir i * r.maxDist) = fun i => start i + r.maxDist * dir i := by
  funext i
  simp only [Pi.add_apply]
  ring

theorem maxCoeff_lt {e : Bands B} {x : ℝ} : maxCoeff e < x ↔ ∀ b, e b < x := by
  unfold maxCoeff
  rw [Finset.sup'_lt_iff]
  simp

theorem chain_cons {r : Room D B} {start dir : Vec D} {h : Hop D} {hops : List (Hop D)} {d : Vec D} (h1 : h.start = start) (h2 : h.dir = dir)
    (h3 : nextWallHit r start (fun i => start i + r.maxDist * dir i) false = some (h.point, h.wall, h.dist)) (h4 : Turns (r.wall h.wall) dir d) (h5 : Chain r h.point d hops) :
    Chain r start dir (h :: hops) := by
  refine ⟨h1, h2, h3, ?_, ?_⟩
  · intro h' hh
    cases hops with
    | nil => cases hh
    | cons a t =>
      cases hh
      rw [h5.2.1]
      exact h4
  · cases hops with
    | nil => trivial
    | cons a t =>
      have : ((a :: t).head?.map (·.dir)).getD 0 = d := h5.2.1
      rw [this]
      exact h5

theorem loop_log {r : Room D B} (hr : 0 < r.micRadius) (he : 0 ≤ r.eps) (draw : R → (ℝ × ℝ) × R) (limit : ℝ) :
    ∀ (fuel : Nat) (s : Ray D B R) (log : List (Entry D B)) (out : List (Entry D B)) (rng' : R), 0 ≤ s.travel → loop r draw limit fuel s log = some (out, rng') →
    ∃ hops, Chain r s.start s.dir hops ∧ out = log ++ hops.zipIdx.flatMap (told r s.transmitted s.travel s.counter hops) ∧
      (∀ n, 0 < n → n < hops.length → s.travel + travelled hops n ≤ r.timeThres * r.soundSpeed ∧ ∃ b, limit ≤ carried r s.transmitted hops n b) ∧
      Ended r limit s.transmitted s.travel s.start s.dir hops := by
  intro fuel
  induction fuel with
  | zero => intro s log out rng' _ h; cases h
  | succ fuel ih =>
    intro s log out rng' ht h
    rw [loop] at h
    split at h
    · rename_i hn
      cases h
      refine ⟨[], trivial, by simp, fun n _ h => by simp at h, Or.inr ⟨s.start, s.dir, ?_, fun _ => ⟨rfl, rfl⟩, fun h hh => by cases hh⟩⟩
      rw [← stop_eq]; exact hn
    · rename_i hit i hitDist hn
      rw [stop_eq] at hn
      have hd := he.trans (next_dist hn)
      simp only at h
      let hop : Hop D := ⟨s.start, s.dir, hit, i, hitDist⟩
      have hlog : ∀ t, (if (r.wall i).doesScatter = true then log ++ specular r s.counter s.transmitted s.start s.dir hitDist s.travel ++
            scatRay r (fun b => s.transmitted b * (r.wall i).energyReflection b) (r.wall i) s.start hit (s.travel + hitDist)
          else log ++ specular r s.counter s.transmitted s.start s.dir hitDist s.travel) = log ++ told r s.transmitted s.travel s.counter (hop :: t) (hop, 0) := by
        intro t
        have e1 : specular r s.counter s.transmitted s.start s.dir hitDist s.travel =
            if r.isHybrid = true ∧ ((s.counter + 0 : Nat) : Int) < r.ismOrder then [] else
              r.mics.zipIdx.filterMap fun m => heard r (carried r s.transmitted (hop :: t) 0) (s.travel + travelled (hop :: t) 0) hop m.2 m.1 := by
          unfold specular
          rw [Nat.add_zero]
          split
          · rfl
          · congr 1
            funext m
            rw [show carried r s.transmitted (hop :: t) 0 = s.transmitted by funext b; simp [carried], show travelled (hop :: t) 0 = 0 by simp [travelled], add_zero]
            exact specularEntry_eq hr s.transmitted hop ht m.2 m.1
        have e2 : scatRay r (fun b => s.transmitted b * (r.wall i).energyReflection b) (r.wall i) s.start hit (s.travel + hitDist) =
            r.mics.zipIdx.filterMap fun m => scatteredTo r (carried r s.transmitted (hop :: t) (0 + 1)) (s.travel + travelled (hop :: t) (0 + 1)) hop m.2 m.1 := by
          unfold scatRay
          congr 1
          funext m
          rw [carried_cons, travelled_cons, show travelled t 0 = 0 by simp [travelled], add_zero,
            show carried r (fun b => s.transmitted b * (r.wall hop.wall).energyReflection b) t 0 = fun b => s.transmitted b * (r.wall i).energyReflection b by funext b; simp [carried, hop]]
          exact scatEntry_eq hr _ hop (by show 0 ≤ s.travel + hitDist; linarith) m.2 m.1
        unfold told
        rw [← e1, ← e2]
        split
        · rw [List.append_assoc]
        · rw [List.append_nil]
      split at h
      · rename_i hc
        rw [hlog []] at h
        cases h
        refine ⟨[hop], ⟨rfl, rfl, hn, fun h' hh => (by cases hh), trivial⟩, ?_, ?_, Or.inl ⟨by simp, ?_⟩⟩
        · rw [flatMap_told_cons]; simp
        · intro n h1 h2
          simp at h2
          omega
        · simp only [List.length_cons, List.length_nil]
          rw [travelled_cons, carried_cons, show travelled ([] : List (Hop D)) 0 = 0 from rfl, add_zero]
          refine hc.imp id fun h b => ?_
          have := maxCoeff_lt.mp h b
          simpa [carried, hop] using this
      · rename_i hc
        push Not at hc
        obtain ⟨hops, c1, c2, c3, c4⟩ := ih _ _ _ _ (by simp only; linarith) h
        simp only at c1 c2 c3 c4
        refine ⟨hop :: hops, chain_cons rfl rfl hn (rebound_turns draw (r.wall i) s.dir s.rng) c1, ?_, ?_, ?_⟩
        · rw [c2, hlog hops, flatMap_told_cons, List.append_assoc]
        · intro n h1 h2
          obtain ⟨m, rfl⟩ : ∃ m, n = m + 1 := ⟨n - 1, by omega⟩
          rw [travelled_cons, carried_cons, ← add_assoc]
          cases m with
          | zero =>
            rw [show travelled hops 0 = 0 by simp [travelled], add_zero]
            refine ⟨hc.1, ?_⟩
            by_contra hne
            push Not at hne
            refine absurd (maxCoeff_lt.mpr fun b => ?_) (not_lt.mpr hc.2)
            have := hne b
            simpa [carried, hop] using this
          | succ m =>
            simp only [List.length_cons] at h2
            exact c3 (m + 1) (by omega) (by omega)
        · rcases c4 with ⟨hne, hE⟩ | ⟨st, d', hE, hnil, hlast⟩
          · refine Or.inl ⟨by simp, ?_⟩
            simp only [List.length_cons]
            rw [travelled_cons, carried_cons, ← add_assoc]
            exact hE
          · refine Or.inr ⟨st, d', hE, fun h0 => by simp at h0, ?_⟩
            intro x hx
            cases hops with
            | nil =>
              simp only [List.getLast?_singleton, Option.mem_some_iff] at hx
              rw [← hx]
              obtain ⟨a, b⟩ := hnil rfl
              exact ⟨a, b ▸ rebound_turns draw (r.wall i) s.dir s.rng⟩
            | cons a t =>
              rw [List.getLast?_cons_cons] at hx
              exact hlast x hx

/-- **C56, what is stored.** The ray goes from wall to wall, each time to the one that `next_wall_hit` gives, and turns at it; its energy is the initial one times the reflection
coefficients of the walls met; what the microphones store is exactly what they hear of each piece, in a hybrid simulation only after `ism_order` walls, and what the walls scatter to them. The ray
went on as long as it was within the limits of distance and energy, and ended because of one of them or because there was no wall. -/
theorem C56_log {r : Room D B} (hr : 0 < r.micRadius) (he : 0 ≤ r.eps) {draw : R → (ℝ × ℝ) × R} {fuel : Nat} {dir source : Vec D} {energy0 : Bands B} {rng rng' : R}
    {out : List (Entry D B)} (h : simulRay r draw fuel dir source energy0 rng = some (out, rng')) :
    ∃ hops, Chain r source dir hops ∧ out = hops.zipIdx.flatMap (told r energy0 0 0 hops) ∧
      (∀ n, 0 < n → n < hops.length → travelled hops n ≤ r.timeThres * r.soundSpeed ∧ ∃ b, maxCoeff energy0 * r.energyThres ≤ carried r energy0 hops n b) ∧
      Ended r (maxCoeff energy0 * r.energyThres) energy0 0 source dir hops := by
  unfold simulRay at h
  obtain ⟨hops, c1, c2, c3, c4⟩ := loop_log hr he draw _ fuel _ _ _ _ (by simp) h
  simp only [one_mul, zero_add, List.nil_append] at c1 c2 c3 c4
  exact ⟨hops, c1, c2, c3, c4⟩

/-! ## Amounts -/

/-- Walls as they should be. -/
structure Physical (w : Wall D B) : Prop where
  reflection : ∀ b, 0 ≤ w.energyReflection b ∧ w.energyReflection b ≤ 1
  scatter : ∀ b, 0 ≤ w.scatter b ∧ w.scatter b ≤ 1
  unit : dot w.normal w.normal = 1

theorem prod_bounds {l : List ℝ} (h : ∀ x ∈ l, 0 ≤ x ∧ x ≤ 1) : 0 ≤ l.prod ∧ l.prod ≤ 1 := by
  induction l with
  | nil => simp
  | cons a t ih =>
    obtain ⟨h1, h2⟩ := ih fun x hx => h x (List.mem_cons_of_mem _ hx)
    obtain ⟨a1, a2⟩ := h a (by simp)
    rw [List.prod_cons]
    exact ⟨mul_nonneg a1 h1, by nlinarith⟩

/-- **C56, decay.** The energy of a ray never increases in any band, whatever walls it meets, and stays between zero and the initial one. -/
theorem C56_decay {r : Room D B} (hw : ∀ i, Physical (r.wall i)) {e : Bands B} (he : ∀ b, 0 ≤ e b) (hops : List (Hop D)) {m n : Nat} (hmn : m ≤ n) (b : Fin (B + 1)) :
    0 ≤ carried r e hops n b ∧ carried r e hops n b ≤ carried r e hops m b ∧ carried r e hops m b ≤ e b := by
  have hb : ∀ l : List (Hop D), 0 ≤ (l.map fun h => (r.wall h.wall).energyReflection b).prod ∧ (l.map fun h => (r.wall h.wall).energyReflection b).prod ≤ 1 := fun l =>
    prod_bounds fun x hx => by
      obtain ⟨h, _, rfl⟩ := List.mem_map.mp hx
      exact (hw h.wall).reflection b
  have hsplit : hops.take n = hops.take m ++ (hops.take n).drop m := by
    conv_lhs => rw [← List.take_append_drop m (hops.take n)]
    rw [List.take_take, min_eq_left hmn]
  unfold carried
  refine ⟨mul_nonneg (he b) (hb _).1, ?_, ?_⟩
  · rw [hsplit, List.map_append, List.prod_append, ← mul_assoc]
    exact mul_le_of_le_one_right (mul_nonneg (he b) (hb _).1) (hb _).2
  · exact mul_le_of_le_one_right (he b) (hb _).2

theorem cauchy (u v : Vec D) : dot u v ^ 2 ≤ dot u u * dot v v := by
  unfold dot
  have := Finset.sum_mul_sq_le_sq_mul_sq Finset.univ u v
  simpa [sq] using this

theorem cos_le {w : Wall D B} (hw : dot w.normal w.normal = 1) (p : Vec D) : |dot p w.normal / norm p| ≤ 1 := by
  by_cases h0 : norm p = 0
  · rw [h0, div_zero, abs_zero]; norm_num
  · have hp : 0 < norm p := lt_of_le_of_ne (norm_nonneg p) (Ne.symm h0)
    rw [abs_div, abs_of_pos hp, div_le_one hp]
    apply abs_le_of_sq_le_sq _ hp.le
    have := cauchy p w.normal
    rw [hw, mul_one] at this
    rw [norm_sq]; exact this

theorem fraction_bounds {radius h : ℝ} (hr : 0 < radius) : 0 ≤ fraction radius h ∧ fraction radius h ≤ 1 ∧ (4 * radius ^ 2 ≤ 3 * h ^ 2 → 0 ≤ h → fraction radius h ≤ 1 / 2) := by
  unfold fraction
  split
  · rename_i hle
    refine ⟨by norm_num, le_rfl, fun h1 h2 => ?_⟩
    nlinarith
  · rename_i hlt
    have hpos : 0 < h := hr.trans (not_le.mp hlt)
    have hs : Real.sqrt (1 - (radius / h) ^ 2) ≤ 1 := Real.sqrt_le_one.mpr (by nlinarith [sq_nonneg (radius / h)])
    refine ⟨by linarith, by linarith [Real.sqrt_nonneg (1 - (radius / h) ^ 2)], fun h1 _ => ?_⟩
    have : 1 / 2 ≤ Real.sqrt (1 - (radius / h) ^ 2) := by
      apply Real.le_sqrt_of_sq_le
      have : radius ^ 2 / h ^ 2 ≤ 3 / 4 := by
        rw [div_le_iff₀ (by positivity)]
        linarith
      rw [div_pow radius h]
      linarith
    linarith

/-- **C56, scattered energy.** What a wall scatters to a microphone is not negative and at most twice the scattering coefficient times the energy that the wall reflects; for microphones that are at
least `2 / √3` radii away it is at most that product. -/
theorem C56_scattered {r : Room D B} (hr : 0 < r.micRadius) {w : Wall D B} (hw : Physical w) {e : Bands B} (he : ∀ b, 0 ≤ e b) (point mic : Vec D) (b : Fin (B + 1)) :
    0 ≤ share r w e point mic b ∧ share r w e point mic b ≤ 2 * (w.scatter b * e b) ∧
      (4 * r.micRadius ^ 2 ≤ 3 * norm (mic - point) ^ 2 → share r w e point mic b ≤ w.scatter b * e b) := by
  obtain ⟨f1, f2, f3⟩ := fraction_bounds (h := norm (mic - point)) hr
  have hc := cos_le hw.unit (mic - point)
  have hc0 := abs_nonneg (dot (mic - point) w.normal / norm (mic - point))
  have hse : 0 ≤ w.scatter b * e b := mul_nonneg (hw.scatter b).1 (he b)
  unfold share
  generalize |dot (mic - point) w.normal / norm (mic - point)| = c at *
  generalize fraction r.micRadius (norm (mic - point)) = f at *
  generalize hg : w.scatter b * e b = g at *
  rw [show 2 * c * f * w.scatter b * e b = 2 * (c * f) * g by rw [← hg]; ring]
  have hcf : c * f ≤ f := mul_le_of_le_one_left f1 hc
  refine ⟨by positivity, by nlinarith, fun h => ?_⟩
  have := f3 h (norm_nonneg _)
  nlinarith

/-- **C56, deviation (creation).** A microphone right in front of the point where a ray meets a wall, closer than its radius, is given twice the scattering coefficient times the reflected energy, while
the ray goes on with all of the reflected energy: with a coefficient above one half even the scattered part alone is more than what arrived. -/
theorem C56_creation_deviation {r : Room D B} {w : Wall D B} (hw : dot w.normal w.normal = 1) (e : Bands B) {point mic : Vec D} {c : ℝ} (hc : 0 < c) (hr : c ≤ r.micRadius)
    (hm : mic - point = fun i => -c * w.normal i) (b : Fin (B + 1)) :
    share r w e point mic b = 2 * (w.scatter b * e b) ∧ (1 / 2 < w.scatter b → 0 < e b → e b < share r w e point mic b) := by
  have hd : dot (mic - point) w.normal = -c := by
    have : dot (mic - point) w.normal = -c * dot w.normal w.normal := by
      rw [hm]; unfold dot; rw [Finset.mul_sum]
      exact Finset.sum_congr rfl fun i _ => by ring
    rw [this, hw, mul_one]
  have hn : norm (mic - point) = c := by
    have : dot (mic - point) (mic - point) = c ^ 2 * dot w.normal w.normal := by
      rw [hm]; unfold dot; rw [Finset.mul_sum]
      exact Finset.sum_congr rfl fun i _ => by ring
    unfold norm
    rw [this, hw, mul_one, Real.sqrt_sq hc.le]
  have hs : share r w e point mic b = 2 * (w.scatter b * e b) := by
    unfold share
    rw [hd, hn, neg_div, div_self hc.ne', abs_neg, abs_one, show fraction r.micRadius c = 1 by unfold fraction; rw [if_pos hr]]
    ring
  exact ⟨hs, fun h1 h2 => by rw [hs]; nlinarith⟩

/-- **C56, deviation (thresholds).** The threshold for the energy of a ray is relative to its initial energy, the one for scattered energy is absolute: with so many rays that each has at most half of
the threshold, nothing scattered is ever stored. -/
theorem C56_threshold_deviation {r : Room D B} (hr : 0 < r.micRadius) (he : 0 ≤ r.eps) (hw : ∀ i, Physical (r.wall i)) {draw : R → (ℝ × ℝ) × R} {fuel : Nat} {dir source : Vec D}
    {energy0 : Bands B} (h0 : ∀ b, 0 ≤ energy0 b) (hsmall : ∀ b, 2 * energy0 b ≤ r.energyThres) {rng rng' : R} {out : List (Entry D B)}
    (h : simulRay r draw fuel dir source energy0 rng = some (out, rng')) :
    ∃ hops, Chain r source dir hops ∧ out = hops.zipIdx.flatMap fun h =>
      if r.isHybrid = true ∧ (h.2 : Int) < r.ismOrder then [] else r.mics.zipIdx.filterMap fun m => heard r (carried r energy0 hops h.2) (travelled hops h.2) h.1 m.2 m.1 := by
  obtain ⟨hops, c1, c2, _⟩ := C56_log hr he h
  refine ⟨hops, c1, ?_⟩
  rw [c2]
  congr 1
  funext x
  have hnone : ∀ m : Vec D × Nat, scatteredTo r (carried r energy0 hops (x.2 + 1)) (0 + travelled hops (x.2 + 1)) x.1 m.2 m.1 = none := by
    intro m
    unfold scatteredTo
    rw [if_neg]
    rintro ⟨_, _, _, b, hb⟩
    have h1 := C56_scattered hr (hw x.1.wall) (e := carried r energy0 hops (x.2 + 1)) (fun b => (C56_decay hw h0 hops le_rfl b).1) x.1.point m.1 b
    have h2 := (C56_decay hw h0 hops (le_refl (x.2 + 1)) b).2.2
    have h3 := (hw x.1.wall).scatter b
    have h4 := (C56_decay hw h0 hops (le_refl (x.2 + 1)) b).1
    have h5 := hsmall b
    nlinarith
  simp only [zero_add] at hnone
  unfold told
  simp only [zero_add, hnone, List.filterMap_none, ite_self, List.append_nil]

/-! ## C72: the next wall -/

/-- **C72, shoebox.** From a point of the box the wall that is found is one of the two of an axis, the ray moves towards it, the point lies on it and on the ray, and the whole way up to it
is inside of the box up to the tolerance. -/
theorem C72_shoebox {r : Room D B} {size : Vec D} (hb : r.shoebox = some size) (he : 0 < r.eps) {start stop p : Vec D} (hs : ∀ i, 0 ≤ start i ∧ start i ≤ size i) {i : Nat} {d : ℝ}
    (h : nextWallHit r start stop false = some (p, i, d)) :
    d = norm (p - start) ∧ r.eps ≤ d ∧ ∃ t, 0 < t ∧ (∀ j, p j = start j + t * (stop j - start j)) ∧
      (∃ a : Fin D, (i = 2 * a ∧ p a = 0 ∧ stop a < start a) ∨ (i = 2 * a + 1 ∧ p a = size a ∧ start a < stop a)) ∧
      ∀ t', 0 ≤ t' → t' ≤ t → ∀ j, -r.eps < start j + t' * (stop j - start j) ∧ start j + t' * (stop j - start j) < size j + r.eps := by
  have hdist := next_dist h
  unfold nextWallHit at h
  rw [hb] at h
  simp only [Bool.false_eq_true, if_false] at h
  obtain ⟨a, _, ha⟩ := List.exists_of_findSome?_eq_some h
  unfold shoeboxPlane at ha
  split at ha
  · cases ha
  rename_i hda
  simp only at ha
  split at ha
  · cases ha
  rename_i hdd
  split at ha
  · cases ha
  rename_i hex
  simp only [Option.some.injEq, Prod.mk.injEq] at ha
  obtain ⟨rfl, rfl, rfl⟩ := ha
  simp only [Pi.sub_apply] at hda hdd hex ⊢
  have hpos : 0 < |stop a - start a| := lt_of_lt_of_le he (not_lt.mp hda)
  have hdd' := lt_of_lt_of_le he (not_lt.mp hdd)
  have hcoord : ∀ j, (if j = a then (facing size start (stop - start) a).1 else start j + (facing size start (stop - start) a).2.1 / |stop a - start a| * (stop j - start j)) =
      start j + (facing size start (stop - start) a).2.1 / |stop a - start a| * (stop j - start j) := by
    intro j
    split
    · rename_i hj
      subst hj
      unfold facing
      simp only [Pi.sub_apply]
      split
      · rename_i hneg
        simp only
        rw [abs_of_neg hneg]
        have := hneg.ne
        field_simp
        ring
      · rename_i hneg
        simp only
        have hp : 0 < stop j - start j := by
          rcases lt_or_eq_of_le (not_lt.mp hneg) with h | h
          · exact h
          · rw [← h, abs_zero] at hpos; exact absurd hpos (lt_irrefl _)
        rw [abs_of_pos hp]
        field_simp
        ring
    · rfl
  have hend : ∀ j, -r.eps < start j + (facing size start (stop - start) a).2.1 / |stop a - start a| * (stop j - start j) ∧
      start j + (facing size start (stop - start) a).2.1 / |stop a - start a| * (stop j - start j) < size j + r.eps := by
    intro j
    by_cases hj : j = a
    · rw [← hcoord j, if_pos hj]
      have := hs a
      unfold facing
      split
      · subst hj; exact ⟨by simp only; linarith, by simp only; linarith⟩
      · subst hj; exact ⟨by simp only; linarith, by simp only; linarith⟩
    · push Not at hex
      have := hex j hj
      rw [if_neg hj] at this
      exact this
  refine ⟨trivial, hdist, _, div_pos hdd' hpos, hcoord, ⟨a, ?_⟩, ?_⟩
  · simp only [if_true]
    unfold facing
    simp only [Pi.sub_apply]
    split
    · rename_i hneg
      exact Or.inl ⟨rfl, rfl, by linarith⟩
    · rename_i hneg
      refine Or.inr ⟨rfl, rfl, ?_⟩
      by_contra hc
      have : stop a - start a = 0 := by linarith [not_lt.mp hneg, not_lt.mp hc]
      rw [this, abs_zero] at hpos
      exact lt_irrefl _ hpos
  · intro t' h1 h2 j
    obtain ⟨e1, e2⟩ := hend j
    obtain ⟨s1, s2⟩ := hs j
    rcases le_total 0 (stop j - start j) with hsg | hsg
    · exact ⟨by nlinarith, by nlinarith⟩
    · exact ⟨by nlinarith, by nlinarith⟩

/-- **C72, a wall is found.** If the ray leaves the box through the wall of an axis along which it moves by more than the tolerance and that is farther than the tolerance, a wall is found. -/
theorem C72_found {r : Room D B} {size : Vec D} (hb : r.shoebox = some size) (he : 0 < r.eps) {start stop : Vec D} {a : Fin D} {t : ℝ} 
    (hm : r.eps ≤ |stop a - start a|) (hd : r.eps ≤ t * |stop a - start a|) (hx : start a + t * (stop a - start a) = if stop a < start a then 0 else size a)
    (hin : ∀ j, 0 ≤ start j + t * (stop j - start j) ∧ start j + t * (stop j - start j) ≤ size j) : (nextWallHit r start stop false).isSome := by
  unfold nextWallHit
  rw [hb]
  simp only [Bool.false_eq_true, if_false, List.findSome?_isSome_iff]
  refine ⟨a, List.mem_finRange a, ?_⟩
  have hpos : 0 < |stop a - start a| := lt_of_lt_of_le he hm
  have hf : (facing size start (stop - start) a).2.1 = t * |stop a - start a| := by
    unfold facing
    simp only [Pi.sub_apply]
    split
    · rename_i hneg
      rw [if_pos (by linarith)] at hx
      simp only
      rw [abs_of_neg hneg]
      linarith
    · rename_i hneg
      rw [if_neg (by linarith)] at hx
      simp only
      rw [abs_of_nonneg (not_lt.mp hneg)]
      linarith
  unfold shoeboxPlane
  simp only [Pi.sub_apply]
  rw [if_neg (not_lt.mpr hm), hf, if_neg (not_lt.mpr hd), if_neg]
  · rfl
  · rintro ⟨j, hj, hc⟩
    rw [if_neg hj, mul_div_assoc, div_self hpos.ne', mul_one] at hc
    have := hin j
    rcases hc with hc | hc <;> linarith

/-- **C72, deviation.** A ray that arrives where two walls meet is turned at one of them only; it then moves out through the other one, no wall is found any more, and the ray ends whatever its
energy: so for every point closer than the tolerance to a wall towards which the ray moves by more than twice the tolerance before it reaches any other wall. -/
theorem C72_edge_deviation {r : Room D B} {size : Vec D} (hb : r.shoebox = some size) {start stop : Vec D} {a : Fin D} (hs : start a < r.eps) (hm : stop a < start a)
    (ho : ∀ j, j ≠ a → r.eps ≤ |stop j - start j| → r.eps ≤ (facing size start (stop - start) j).2.1 →
      2 * r.eps * |stop j - start j| ≤ (facing size start (stop - start) j).2.1 * (start a - stop a)) : nextWallHit r start stop false = none := by
  unfold nextWallHit
  rw [hb]
  simp only [Bool.false_eq_true, if_false, List.findSome?_eq_none_iff]
  intro j _
  unfold shoeboxPlane
  simp only [Pi.sub_apply]
  by_cases hja : j = a
  · subst hja
    have : (facing size start (stop - start) j).2.1 = start j := by
      unfold facing
      rw [if_pos (by simp only [Pi.sub_apply]; linarith)]
    rw [this, if_pos hs, ite_self]
  · split
    · rfl
    · rename_i h1
      split
      · rfl
      · rename_i h2
        rw [if_pos]
        refine ⟨a, fun h => hja h.symm, Or.inl ?_⟩
        rw [if_neg fun h => hja h.symm]
        have h3 := ho j hja (not_lt.mp h1) (not_lt.mp h2)
        by_cases hz : |stop j - start j| = 0
        · have : r.eps ≤ 0 := hz ▸ not_lt.mp h1
          rw [hz, div_zero, zero_mul]
          linarith
        · have hpos : 0 < |stop j - start j| := lt_of_le_of_ne (abs_nonneg _) (Ne.symm hz)
          have : 2 * r.eps ≤ (facing size start (stop - start) j).2.1 / |stop j - start j| * (start a - stop a) := by
            rw [div_mul_eq_mul_div, le_div_iff₀ hpos]
            exact h3
          linarith

theorem fold_nearest {α : Type} (r : Room D B) (start stop : Vec D) (f : α → Nat × Wall D B) (l : List α) (best : Option (Vec D × Nat × ℝ)) :
    (hitLimit r (l.foldl (fun best o => nearer r start stop best (f o).1 (f o).2) best) ≤ hitLimit r best) ∧
      (∀ o ∈ l, ∀ q ∈ (f o).2.isect start stop, r.eps < norm (q - start) → hitLimit r (l.foldl (fun best o => nearer r start stop best (f o).1 (f o).2) best) ≤ norm (q - start)) ∧
      (l.foldl (fun best o => nearer r start stop best (f o).1 (f o).2) best = best ∨ ∃ o ∈ l, ∃ q ∈ (f o).2.isect start stop, r.eps < norm (q - start) ∧ norm (q - start) < hitLimit r best ∧
        l.foldl (fun best o => nearer r start stop best (f o).1 (f o).2) best = some (q, (f o).1, norm (q - start))) := by
  induction l generalizing best with
  | nil => exact ⟨le_rfl, fun o ho => absurd ho List.not_mem_nil, Or.inl rfl⟩
  | cons x t ih =>
    simp only [List.foldl_cons]
    have hstep : (nearer r start stop best (f x).1 (f x).2 = best ∧ ∀ q ∈ (f x).2.isect start stop, r.eps < norm (q - start) → hitLimit r best ≤ norm (q - start)) ∨
        ∃ q ∈ (f x).2.isect start stop, r.eps < norm (q - start) ∧ norm (q - start) < hitLimit r best ∧ nearer r start stop best (f x).1 (f x).2 = some (q, (f x).1, norm (q - start)) := by
      unfold nearer
      cases hq : (f x).2.isect start stop with
      | none => exact Or.inl ⟨rfl, fun q hq => by cases hq⟩
      | some q =>
        simp only
        by_cases hc : r.eps < norm (q - start) ∧ norm (q - start) < hitLimit r best
        · rw [if_pos hc]
          exact Or.inr ⟨q, rfl, hc.1, hc.2, rfl⟩
        · rw [if_neg hc]
          refine Or.inl ⟨rfl, fun q' hq' h => ?_⟩
          rw [Option.mem_some_iff] at hq'
          subst hq'
          by_contra hlt
          exact hc ⟨h, not_le.mp hlt⟩
    obtain ⟨i1, i2, i3⟩ := ih (nearer r start stop best (f x).1 (f x).2)
    have hle : hitLimit r (nearer r start stop best (f x).1 (f x).2) ≤ hitLimit r best ∧
        ∀ q ∈ (f x).2.isect start stop, r.eps < norm (q - start) → hitLimit r (nearer r start stop best (f x).1 (f x).2) ≤ norm (q - start) := by
      rcases hstep with ⟨h1, h2⟩ | ⟨q, hq, h1, h2, h3⟩
      · rw [h1]; exact ⟨le_rfl, h2⟩
      · rw [h3]
        refine ⟨h2.le, fun q' hq' _ => ?_⟩
        have : q = q' := Option.some.inj (hq.symm.trans hq')
        rw [this]
        exact le_rfl
    refine ⟨i1.trans hle.1, ?_, ?_⟩
    · intro o ho q hq hd
      rcases List.mem_cons.mp ho with rfl | ho
      · exact i1.trans (hle.2 q hq hd)
      · exact i2 o ho q hq hd
    · rcases i3 with h | ⟨o, ho, q, hq, hd, hl, he⟩
      · rw [h]
        rcases hstep with ⟨h1, _⟩ | ⟨q, hq, h1, h2, h3⟩
        · exact Or.inl h1
        · exact Or.inr ⟨x, by simp, q, hq, h1, h2, h3⟩
      · exact Or.inr ⟨o, List.mem_cons_of_mem _ ho, q, hq, hd, lt_of_lt_of_le hl hle.1, he⟩

/-- **C72, general rooms.** The wall found is one that the segment meets farther than the tolerance and closer than the largest distance, and no such wall is closer; if none is found there is no such
wall. -/
theorem C72_general {r : Room D B} (hb : r.shoebox = none) (start stop : Vec D) :
    (∀ p i d, nextWallHit r start stop false = some (p, i, d) → i < r.nWalls ∧ (r.wall i).isect start stop = some p ∧ d = norm (p - start) ∧ r.eps < d ∧ d < r.maxDist ∧
      ∀ j < r.nWalls, ∀ q ∈ (r.wall j).isect start stop, r.eps < norm (q - start) → d ≤ norm (q - start)) ∧
      (nextWallHit r start stop false = none → ∀ j < r.nWalls, ∀ q ∈ (r.wall j).isect start stop, r.eps < norm (q - start) → r.maxDist ≤ norm (q - start)) := by
  obtain ⟨_, h2, h3⟩ := fold_nearest r start stop (fun i => (i, r.wall i)) (List.range r.nWalls) none
  have e : nextWallHit r start stop false = (List.range r.nWalls).foldl (fun best i => nearer r start stop best i (r.wall i)) none := by
    unfold nextWallHit
    rw [hb]
    simp
  rw [← e] at h2 h3
  constructor
  · intro p i d h
    rw [h] at h2 h3
    rcases h3 with h3 | ⟨o, ho, q, hq, hd, hl, he⟩
    · cases h3
    · simp only [Option.some.injEq, Prod.mk.injEq] at he
      obtain ⟨rfl, rfl, rfl⟩ := he
      exact ⟨List.mem_range.mp ho, hq, rfl, hd, hl, fun j hj q hq hd => h2 j (List.mem_range.mpr hj) q hq hd⟩
  · intro h j hj q hq hd
    rw [h] at h2
    exact h2 j (List.mem_range.mpr hj) q hq hd

/-- **C72, obstruction.** Scattered energy is blocked exactly if the segment to the microphone meets one of the walls listed as obstructing, farther than the tolerance and closer than the largest
distance; never in a shoebox. -/
theorem C72_obstruction (r : Room D B) (point mic : Vec D) :
    (nextWallHit r point mic true).isSome ↔ r.shoebox = none ∧ ∃ o ∈ r.obstructing, ∃ q ∈ (r.wall o).isect point mic, r.eps < norm (q - point) ∧ norm (q - point) < r.maxDist := by
  unfold nextWallHit
  cases hb : r.shoebox with
  | some size => simp
  | none =>
    obtain ⟨_, h2, h3⟩ := fold_nearest r point mic (fun o : Nat × Nat => (o.2, r.wall o.1)) r.obstructing.zipIdx none
    simp only [if_true, true_and]
    constructor
    · intro h
      rcases h3 with h3 | ⟨o, ho, q, hq, hd, hl, he⟩
      · rw [h3] at h; cases h
      · refine ⟨o.1, ?_, q, hq, hd, hl⟩
        obtain ⟨x, y⟩ := o
        have := List.mem_zipIdx' ho
        rw [this.2]
        exact List.getElem_mem _
    · rintro ⟨o, ho, q, hq, hd, hl⟩
      obtain ⟨k, hk, rfl⟩ := List.getElem_of_mem ho
      have hmem : (r.obstructing[k], k) ∈ r.obstructing.zipIdx := by
        rw [List.mem_zipIdx_iff_getElem?]
        simp [hk]
      have h4 := h2 _ hmem q hq hd
      rw [Option.isSome_iff_ne_none]
      intro hn
      rw [hn] at h4
      exact absurd h4 (not_le.mpr hl)

/-! ## C73: directions after a wall -/

/-- The local frame of a wall. -/
structure Framed (w : Wall D B) : Prop where
  unit : dot w.normal w.normal = 1
  b0 : dot (w.basis 0) (w.basis 0) = 1
  b1 : dot (w.basis 1) (w.basis 1) = 1
  b01 : dot (w.basis 0) (w.basis 1) = 0
  n0 : dot (w.basis 0) w.normal = 0
  n1 : dot (w.basis 1) w.normal = 0

theorem dot_comb3 (x y z : Vec D) (a b c a' b' c' : ℝ) :
    dot (fun i => x i * a + y i * b + c * z i) (fun i => x i * a' + y i * b' + c' * z i) =
      a * a' * dot x x + b * b' * dot y y + c * c' * dot z z + (a * b' + b * a') * dot x y + (a * c' + c * a') * dot x z + (b * c' + c * b') * dot y z := by
  unfold dot
  simp only [Finset.mul_sum, ← Finset.sum_add_distrib]
  exact Finset.sum_congr rfl fun i _ => by ring

theorem dot_comb2 (x y z : Vec D) (a b : ℝ) : dot (fun i => a * x i + b * y i) z = a * dot x z + b * dot y z := by
  unfold dot
  simp only [Finset.mul_sum, ← Finset.sum_add_distrib]
  exact Finset.sum_congr rfl fun i _ => by ring

/-- **C73, drawn directions.** A direction drawn for a wall has length one and points to the side of the normal. -/
theorem C73_lambertian {w : Wall D B} (hw : Framed w) {u1 u2 : ℝ} (h0 : 0 ≤ u1) (h1 : u1 ≤ 1) :
    dot (lambertian w u1 u2) (lambertian w u1 u2) = 1 ∧ dot (lambertian w u1 u2) w.normal = Real.sqrt (1 - u1) := by
  have hz : max 0 (1 - u1) = 1 - u1 := max_eq_right (by linarith)
  have hs := Real.sq_sqrt h0
  have hs' := Real.sq_sqrt (show 0 ≤ 1 - u1 by linarith)
  have ht := Real.sin_sq_add_cos_sq (2 * Real.pi * u2)
  constructor
  · unfold lambertian
    rw [dot_comb3, hw.unit, hw.b0, hw.b1, hw.b01, hw.n0, hw.n1, hz]
    linear_combination u1 * ht + hs' + (Real.sin (2 * Real.pi * u2) ^ 2 + Real.cos (2 * Real.pi * u2) ^ 2) * hs
  · have := dot_comb3 (w.basis 0) (w.basis 1) w.normal (Real.sqrt u1 * Real.cos (2 * Real.pi * u2)) (Real.sqrt u1 * Real.sin (2 * Real.pi * u2)) (Real.sqrt (max 0 (1 - u1))) 0 0 1
    simp only [mul_zero, zero_add, one_mul, add_zero] at this
    unfold lambertian
    rw [this, hw.unit, hw.n0, hw.n1, hz]
    ring

theorem dot_smul_div (v : Vec D) (c : ℝ) (z : Vec D) : dot (fun i => v i / c) z = dot v z / c := by
  unfold dot
  rw [Finset.sum_div]
  exact Finset.sum_congr rfl fun i _ => by ring

theorem normalized_unit {v : Vec D} (h : norm v ≠ 0) : dot (normalized v) (normalized v) = 1 := by
  unfold normalized
  rw [if_neg h]
  have : dot (fun i => v i / norm v) (fun i => v i / norm v) = dot v v / norm v ^ 2 := by
    unfold dot
    rw [Finset.sum_div]
    exact Finset.sum_congr rfl fun i _ => by field_simp
  rw [this, norm_sq, div_self]
  rw [← norm_sq]
  exact pow_ne_zero 2 h

theorem norm_ne_of_dot {v z : Vec D} (h : dot v z ≠ 0) : norm v ≠ 0 := by
  intro h0
  have h1 := cauchy v z
  rw [← norm_sq v, h0] at h1
  have : dot v z ^ 2 = 0 := le_antisymm (by simpa using h1) (sq_nonneg _)
  exact h (pow_eq_zero_iff (two_ne_zero) |>.mp this)

/-- **C73, turning.** A ray of length one that meets the front of a wall leaves it on the front side with length one, for every mixture of mirror reflection and scattering and whatever numbers were
drawn. -/
theorem C73_front {w : Wall D B} (hw : Framed w) (hs : 0 ≤ w.averageScatter ∧ w.averageScatter ≤ 1) (draw : R → (ℝ × ℝ) × R) (hd : ∀ s, 0 ≤ (draw s).1.1 ∧ (draw s).1.1 < 1) {dir : Vec D}
    (h1 : dot dir dir = 1) (h2 : 0 < dot dir w.normal) (rng : R) : dot (rebound draw w dir rng).1 (rebound draw w dir rng).1 = 1 ∧ dot (rebound draw w dir rng).1 w.normal < 0 := by
  have hmir : dot (normalReflect w dir) w.normal = -dot dir w.normal := by
    have : normalReflect w dir = fun i => 1 * dir i + (-(2 * dot dir w.normal)) * w.normal i := by
      funext i; unfold normalReflect; ring
    rw [this, dot_comb2, hw.unit]; ring
  have hmir1 : dot (normalReflect w dir) (normalReflect w dir) = 1 := by
    have : normalReflect w dir = fun i => (fun _ => 0 : Vec D) i * 0 + dir i * 1 + (-(2 * dot dir w.normal)) * w.normal i := by
      funext i; unfold normalReflect; ring
    rw [this, dot_comb3, hw.unit, h1]; ring
  unfold rebound
  simp only
  split
  · obtain ⟨u0, u1⟩ := hd rng
    obtain ⟨_, l2⟩ := C73_lambertian (u2 := (draw rng).1.2) hw u0 u1.le
    have hpos : 0 < Real.sqrt (1 - (draw rng).1.1) := Real.sqrt_pos.mpr (by linarith)
    have hv : dot (fun i => w.averageScatter * -lambertian w (draw rng).1.1 (draw rng).1.2 i + (1 - w.averageScatter) * normalReflect w dir i) w.normal =
        -(w.averageScatter * Real.sqrt (1 - (draw rng).1.1) + (1 - w.averageScatter) * dot dir w.normal) := by
      have : (fun i => w.averageScatter * -lambertian w (draw rng).1.1 (draw rng).1.2 i + (1 - w.averageScatter) * normalReflect w dir i) =
          fun i => (-w.averageScatter) * lambertian w (draw rng).1.1 (draw rng).1.2 i + (1 - w.averageScatter) * normalReflect w dir i := by funext i; ring
      rw [this, dot_comb2, l2, hmir]; ring
    have hneg : dot (fun i => w.averageScatter * -lambertian w (draw rng).1.1 (draw rng).1.2 i + (1 - w.averageScatter) * normalReflect w dir i) w.normal < 0 := by
      rw [hv]
      rcases eq_or_lt_of_le hs.1 with h | h
      · rw [← h]; linarith
      · have : 0 < w.averageScatter * Real.sqrt (1 - (draw rng).1.1) := mul_pos h hpos
        have : 0 ≤ (1 - w.averageScatter) * dot dir w.normal := mul_nonneg (by linarith [hs.2]) h2.le
        linarith
    have hne := norm_ne_of_dot hneg.ne
    refine ⟨normalized_unit hne, ?_⟩
    unfold normalized
    rw [if_neg hne, dot_smul_div]
    exact div_neg_of_neg_of_pos hneg (lt_of_le_of_ne (norm_nonneg _) (Ne.symm hne))
  · exact ⟨hmir1, by rw [hmir]; linarith⟩

/-- **C73, deviation.** A ray that meets the back of a wall, as happens where the normal points into the room, passes through the wall when the scattered part outweighs the mirrored one. -/
theorem C73_back_deviation {w : Wall D B} (hw : Framed w) (hsc : w.doesScatter = true) (draw : R → (ℝ × ℝ) × R) {dir : Vec D} (rng : R) (hd : 0 ≤ (draw rng).1.1 ∧ (draw rng).1.1 ≤ 1)
    (h2 : dot dir w.normal < 0) (hmix : (1 - w.averageScatter) * -dot dir w.normal < w.averageScatter * Real.sqrt (1 - (draw rng).1.1)) :
    0 < dot (rebound draw w dir rng).1 w.normal * dot dir w.normal := by
  refine mul_pos_of_neg_of_neg ?_ h2
  have hmir : dot (normalReflect w dir) w.normal = -dot dir w.normal := by
    have : normalReflect w dir = fun i => 1 * dir i + (-(2 * dot dir w.normal)) * w.normal i := by
      funext i; unfold normalReflect; ring
    rw [this, dot_comb2, hw.unit]; ring
  unfold rebound
  simp only [hsc, if_true]
  obtain ⟨_, l2⟩ := C73_lambertian (u2 := (draw rng).1.2) hw hd.1 hd.2
  have hneg : dot (fun i => w.averageScatter * -lambertian w (draw rng).1.1 (draw rng).1.2 i + (1 - w.averageScatter) * normalReflect w dir i) w.normal < 0 := by
    have : (fun i => w.averageScatter * -lambertian w (draw rng).1.1 (draw rng).1.2 i + (1 - w.averageScatter) * normalReflect w dir i) =
        fun i => (-w.averageScatter) * lambertian w (draw rng).1.1 (draw rng).1.2 i + (1 - w.averageScatter) * normalReflect w dir i := by funext i; ring
    rw [this, dot_comb2, l2, hmir]
    linarith
  have hne := norm_ne_of_dot hneg.ne
  unfold normalized
  rw [if_neg hne, dot_smul_div]
  exact div_neg_of_neg_of_pos hneg (lt_of_le_of_ne (norm_nonneg _) (Ne.symm hne))

/-! ## The hypotheses can be met -/

/-- A floor with its normal downwards that reflects and scatters half. -/
noncomputable def floor3 : Wall 3 0 :=
  ⟨fun _ _ => none, ![0, 0, -1], ![0, 0, 0], ![![1, 0, 0], ![0, 1, 0]], fun _ => 1 / 2, fun _ => 1 / 2, 1 / 2, true⟩

/-- A box of 4 by 3 by 2 with a microphone. -/
noncomputable def box3 : Room 3 0 := ⟨1 / 100000, 10, some ![4, 3, 2], 6, fun _ => floor3, [], [![1, 1, 1]], 1, 343, 1 / 10000000, false, 0, 1 / 2⟩

theorem floor3_framed : Framed floor3 := by
  constructor <;> simp [floor3, dot, Fin.sum_univ_three]

theorem floor3_physical : Physical floor3 := by
  refine ⟨fun b => ?_, fun b => ?_, floor3_framed.unit⟩ <;> simp only [floor3] <;> norm_num

/-- Every ray in the box ends, with entries as in C56. -/
example (draw : R → (ℝ × ℝ) × R) (rng : R) : ∃ fuel out rng', simulRay box3 draw fuel ![1, 0, 0] ![1, 1, 1] (fun _ => 1 / 1000) rng = some (out, rng') := by
  obtain ⟨out, h⟩ := C56_ends box3 draw ![1, 0, 0] ![1, 1, 1] (fun _ => 1 / 1000) rng (fuel := 40000000) (by norm_num) (by simp only [box3]; norm_num)
  exact ⟨_, out.1, out.2, h 0⟩

/-- A ray straight to a wall of the box: the wall is found. -/
example : (nextWallHit box3 ![1, 1, 1] ![11, 1, 1] false).isSome := by
  refine C72_found (size := ![4, 3, 2]) rfl (by simp [box3]) (a := 0) (t := 3 / 10) ?_ ?_ ?_ ?_
  · simp [box3]; norm_num
  · simp [box3]; norm_num
  · simp; norm_num
  · intro j
    fin_cases j <;> simp <;> norm_num

/-- A ray that arrived in an edge of the box, turned at the wall `x = 0` and still moves down, is lost. -/
example : nextWallHit box3 ![0, 1, 0] ![6, 1, -8] false = none := by
  refine C72_edge_deviation (size := ![4, 3, 2]) rfl (a := 2) (by simp [box3]) (by simp) ?_
  intro j hj h1 h2
  fin_cases j
  · simp [box3, facing] at *; norm_num
  · simp [box3] at h1; norm_num at h1
  · exact absurd rfl hj

/-- A ray that meets the floor at an angle, for whatever is drawn. -/
example (draw : R → (ℝ × ℝ) × R) (hd : ∀ s, 0 ≤ (draw s).1.1 ∧ (draw s).1.1 < 1) (rng : R) : dot (rebound draw floor3 ![3 / 5, 0, -4 / 5] rng).1 floor3.normal < 0 := by
  refine (C73_front floor3_framed (by simp only [floor3]; norm_num) draw hd ?_ ?_ rng).2
  · simp [dot, Fin.sum_univ_three]; norm_num
  · simp [dot, floor3, Fin.sum_univ_three]; norm_num

/-- A microphone a quarter of a metre above the floor. -/
example : ![1, 1, 1 / 4] - ![1, 1, 0] = fun i => -(1 / 4) * floor3.normal i := by
  funext i
  fin_cases i <;> simp [floor3]

end Verif.Rays
