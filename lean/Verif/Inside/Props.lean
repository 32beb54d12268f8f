import Verif.Inside.Codes
import Mathlib.Algebra.BigOperators.Fin

/-!
# Points inside and outside of a room: property C74
-/

namespace Verif.Inside

open Verif.Geometry Matrix

/-! ## Specification -/

/-- The smallest coordinates of the corners. -/
def IsLowest (corners : List (Vec 2)) (lo : Vec 2) : Prop := ∀ i, (∀ v ∈ corners, lo i ≤ v i) ∧ ∃ v ∈ corners, lo i = v i

/-- The reference point after `k + 1` draws. -/
def reference {D : Nat} (lo : Vec D) (draws : Nat → Vec D) (k : Nat) : Vec D := lo - ∑ j ∈ Finset.range (k + 1), draws j

/-- A simple polygon: counter-clockwise triangles without common points which fit together along diagonals. -/
def Simple (corners : List (Vec 2)) (ts : List (Vec 2 × Vec 2 × Vec 2)) : Prop :=
  Triangulation corners ts ∧ (∀ t ∈ ts, 0 ≤ orient t.1 t.2.1 t.2.2) ∧ ts.Pairwise fun t u => ∀ x, ¬(InTriangle x t ∧ InTriangle x u)

/-- The point is in the polygon. -/
def InRoom (ts : List (Vec 2 × Vec 2 × Vec 2)) (p : Vec 2) : Prop := ∃ t ∈ ts, InTriangle p t

/-! ## Helpers -/

theorem refPoint_eq {D : Nat} (lo : Vec D) (draws : Nat → Vec D) (k : Nat) : refPoint lo draws k = reference lo draws k := by
  induction k with
  | zero => simp [refPoint, reference]
  | succ k ih =>
    unfold reference at ih ⊢
    rw [refPoint, ih, Finset.sum_range_succ _ (k + 1), sub_sub]

theorem foldl_min_le {D : Nat} (i : Fin D) (rest : List (Vec D)) (m : ℝ) :
    rest.foldl (fun m v => min m (v i)) m ≤ m ∧ (∀ v ∈ rest, rest.foldl (fun m v => min m (v i)) m ≤ v i) ∧
    (rest.foldl (fun m v => min m (v i)) m = m ∨ ∃ v ∈ rest, rest.foldl (fun m v => min m (v i)) m = v i) := by
  induction rest generalizing m with
  | nil => simp
  | cons c rest ih =>
    obtain ⟨h1, h2, h3⟩ := ih (min m (c i))
    rw [List.foldl_cons]
    refine ⟨h1.trans (min_le_left _ _), ?_, ?_⟩
    · intro v hv
      rw [List.mem_cons] at hv
      rcases hv with rfl | hv
      · exact h1.trans (min_le_right _ _)
      · exact h2 v hv
    · rcases h3 with h | ⟨v, hv, h⟩
      · rcases min_choice m (c i) with h4 | h4
        · left; rw [h, h4]
        · right; exact ⟨c, List.mem_cons_self, by rw [h, h4]⟩
      · right; exact ⟨v, List.mem_cons_of_mem _ hv, h⟩

theorem mem_walls {corners : List (Vec 2)} {v : Vec 2} : v ∈ ((edges corners).flatMap fun e => [e.1, e.2]) ↔ v ∈ corners := by
  constructor
  · intro h
    rw [List.mem_flatMap] at h
    obtain ⟨e, he, hv⟩ := h
    have := edges_mem he
    simp only [List.mem_cons, List.not_mem_nil, or_false] at hv
    rcases hv with rfl | rfl
    · exact this.1
    · exact this.2
  · intro h
    obtain ⟨i, hi, rfl⟩ := List.mem_iff_getElem.mp h
    rw [← polygonWalls_eq, List.mem_flatMap]
    refine ⟨(corners.getD i 0, corners.getD ((i + 1) % corners.length) 0), ?_, ?_⟩
    · unfold polygonWalls
      rw [List.mem_map]
      exact ⟨i, List.mem_range.mpr hi, rfl⟩
    · simp [hi]

theorem lower2_lowest {corners : List (Vec 2)} (h : corners ≠ []) : IsLowest corners (lower2 corners) := by
  intro i
  have hmem : ∀ v, v ∈ ((edges corners).flatMap fun e => [e.1, e.2]) ↔ v ∈ corners := fun v => mem_walls
  unfold lower2
  rw [polygonWalls_eq]
  generalize ((edges corners).flatMap fun e => [e.1, e.2]) = l at hmem
  cases l with
  | nil =>
    obtain ⟨v, hv⟩ := List.exists_mem_of_ne_nil _ h
    exact absurd ((hmem v).mpr hv) List.not_mem_nil
  | cons c rest =>
    obtain ⟨h1, h2, h3⟩ := foldl_min_le i rest (c i)
    refine ⟨fun v hv => ?_, ?_⟩
    · have := (hmem v).mpr hv
      rw [List.mem_cons] at this
      rcases this with rfl | hm
      · exact h1
      · exact h2 v hm
    · rcases h3 with h3 | ⟨v, hv, h3⟩
      · exact ⟨c, (hmem c).mp List.mem_cons_self, h3⟩
      · exact ⟨v, (hmem v).mp (List.mem_cons_of_mem _ hv), h3⟩

theorem lowest_unique {corners : List (Vec 2)} {a b : Vec 2} (ha : IsLowest corners a) (hb : IsLowest corners b) : a = b := by
  ext i
  obtain ⟨a1, v, hv, a2⟩ := ha i
  obtain ⟨b1, w, hw, b2⟩ := hb i
  apply le_antisymm
  · rw [b2]; exact a1 w hw
  · rw [a2]; exact b1 v hv

theorem triangulation_mem {l : List (Vec 2)} {ts} (h : Triangulation l ts) : ∀ t ∈ ts, t.1 ∈ l ∧ t.2.1 ∈ l ∧ t.2.2 ∈ l := by
  induction h with
  | tri a b c => simp
  | rotate l1 l2 ts _ ih =>
    intro t ht
    have := ih t ht
    simp only [List.mem_append] at this ⊢
    tauto
  | cut a b l1 l2 ts1 ts2 _ _ ih1 ih2 =>
    intro t ht
    rw [List.mem_append] at ht
    rcases ht with ht | ht
    · have := ih1 t ht
      simp only [List.cons_append, List.mem_cons, List.mem_append, List.not_mem_nil, or_false] at this ⊢
      tauto
    · have := ih2 t ht
      simp only [List.cons_append, List.mem_cons, List.mem_append, List.not_mem_nil, or_false] at this ⊢
      tauto

theorem triangulation_ne {l : List (Vec 2)} {ts} (h : Triangulation l ts) : l ≠ [] := by
  induction h with
  | tri a b c => simp
  | rotate l1 l2 ts _ ih => intro h; apply ih; simp at h ⊢; tauto
  | cut a b l1 l2 ts1 ts2 _ _ ih1 ih2 => simp

/-- A point in a triangle is not below and left of its corners. -/
theorem inTriangle_below {p : Vec 2} {t : Vec 2 × Vec 2 × Vec 2} (h : InTriangle p t) (i : Fin 2) (h1 : p i < t.1 i) (h2 : p i < t.2.1 i)
    (h3 : p i < t.2.2 i) : False := by
  obtain ⟨a, b, c⟩ := t
  obtain ⟨w, u, v⟩ := h
  simp only at *
  have : orient b c p * (a i - p i) + orient c a p * (b i - p i) + orient a b p * (c i - p i) = 0 := by
    fin_cases i <;> simp only [orient, Fin.zero_eta, Fin.mk_one] <;> ring
  nlinarith [mul_pos u (sub_pos.mpr h1), mul_pos v (sub_pos.mpr h2), mul_pos w (sub_pos.mpr h3)]

open Classical in
theorem sum_disjoint {ts : List (Vec 2 × Vec 2 × Vec 2)} {p : Vec 2} (h : ts.Pairwise fun t u => ∀ x, ¬(InTriangle x t ∧ InTriangle x u)) :
    (ts.map fun t => if InTriangle p t then (1 : ZMod 2) else 0).sum = if InRoom ts p then 1 else 0 := by
  induction ts with
  | nil => simp [InRoom]
  | cons t ts ih =>
    rw [List.pairwise_cons] at h
    rw [List.map_cons, List.sum_cons, ih h.2]
    have hex : InRoom (t :: ts) p ↔ InTriangle p t ∨ InRoom ts p := by simp [InRoom]
    by_cases h1 : InTriangle p t
    · have h2 : ¬InRoom ts p := by
        rintro ⟨u, hu, hpu⟩
        exact h.1 u hu p ⟨h1, hpu⟩
      rw [if_pos h1, if_neg h2, if_pos (hex.mpr (Or.inl h1)), add_zero]
    · rw [if_neg h1, zero_add]
      congr 1
      rw [eq_iff_iff, hex]; tauto

open Classical in
theorem filter_parity {α : Type} (l : List α) (P : α → Prop) :
    ((l.filter fun e => decide (P e)).length : ZMod 2) = (l.map fun e => if P e then (1 : ZMod 2) else 0).sum := by
  induction l with
  | nil => simp
  | cons a l ih =>
    by_cases h : P a
    · simp [h, ih, add_comm]
    · simp [h, ih]

theorem odd_iff (n : Nat) : n % 2 = 1 ↔ (n : ZMod 2) = 1 := by
  rw [show (1 : ZMod 2) = ((1 : Nat) : ZMod 2) by simp, ZMod.natCast_eq_natCast_iff']

/-- One iteration: the count is odd exactly for points inside. -/
theorem parity {eps : ℝ} (he : 0 < eps) {corners : List (Vec 2)} {ts} (hs : Simple corners ts) {q p : Vec 2} (hbelow : ∀ v ∈ corners, Below q v)
    (hq : ∀ e ∈ edges corners, Clear eps e.1 e.2 q) (hp : ∀ e ∈ edges corners, Clear eps e.1 e.2 p) (hoff : ∀ t ∈ ts, OffSides p t)
    (hamb : ∀ e ∈ edges corners, (intersection2d eps q p e.1 e.2).1 ≠ 2) :
    (((edges corners).map fun e => (intersection2d eps q p e.1 e.2).1).filter fun c => decide (0 ≤ c)).length % 2 = 1 ↔ InRoom ts p := by
  classical
  obtain ⟨htri, hpos, hdis⟩ := hs
  rw [odd_iff, List.filter_map, List.length_map]
  have hf : (edges corners).filter ((fun c => decide (0 ≤ c)) ∘ fun e => (intersection2d eps q p e.1 e.2).1) =
      (edges corners).filter fun e => decide (Crossing q p e.1 e.2) := by
    apply List.filter_congr
    intro e hm
    simp only [Function.comp_apply, decide_eq_decide]
    exact (code_clear he (hq e hm) (hp e hm)).2.1 (hamb e hm)
  rw [hf, filter_parity (edges corners) fun e => Crossing q p e.1 e.2]
  by_cases hahead : ∃ i, q i < p i
  · obtain ⟨i, hi⟩ := hahead
    have hqp : q ≠ p := by rintro rfl; exact lt_irrefl _ hi
    have hcut : ((edges corners).map fun e => if Crossing q p e.1 e.2 then (1 : ZMod 2) else 0).sum = closedSum (cut q p) corners := by
      unfold closedSum
      congr 1
      apply List.map_congr_left
      intro e hm
      unfold cut
      congr 1
      rw [eq_iff_iff]
      have hb := edges_mem hm
      constructor
      · rintro (⟨h1, -, h2⟩ | ⟨h1, -, h2⟩)
        · exact Or.inl ⟨h1, h2⟩
        · exact Or.inr ⟨h1, h2⟩
      · rintro (⟨h1, h2⟩ | ⟨h1, h2⟩)
        · exact Or.inl ⟨h1, straddle_ahead h1 (hbelow _ hb.1) (hbelow _ hb.2) hi, h2⟩
        · exact Or.inr ⟨h1, straddle_ahead h1 (hbelow _ hb.2) (hbelow _ hb.1) hi, h2⟩
    have htr : (ts.map fun t => closedSum (cut q p) [t.1, t.2.1, t.2.2]) = ts.map fun t => if InTriangle p t then (1 : ZMod 2) else 0 := by
      apply List.map_congr_left
      intro t ht
      exact cut_triangle (hpos t ht) (hoff t ht) hqp
    rw [hcut, triangulation_sum _ (cut_symm q p) htri, htr, sum_disjoint hdis]
    by_cases h : InRoom ts p <;> simp [h]
  · push Not at hahead
    have h0 : ((edges corners).map fun e => if Crossing q p e.1 e.2 then (1 : ZMod 2) else 0).sum = 0 := by
      apply List.sum_eq_zero
      intro x hx
      rw [List.mem_map] at hx
      obtain ⟨e, hm, rfl⟩ := hx
      rw [if_neg]
      have hb := edges_mem hm
      rintro (⟨h1, h2, -⟩ | ⟨h1, h2, -⟩)
      · have := straddle_behind h1 (hbelow _ hb.1) (hbelow _ hb.2) (hahead 0) hahead; linarith
      · have := straddle_behind h1 (hbelow _ hb.2) (hbelow _ hb.1) (hahead 0) hahead; linarith
    rw [h0]
    constructor
    · intro h; exact absurd h (by decide)
    · rintro ⟨t, ht, hin⟩
      obtain ⟨m1, m2, m3⟩ := triangulation_mem htri t ht
      exact (inTriangle_below hin 0 ((hahead 0).trans_lt (hbelow _ m1 0)) ((hahead 0).trans_lt (hbelow _ m2 0))
        ((hahead 0).trans_lt (hbelow _ m3 0))).elim

/-- The codes of the walls in iteration `k`. -/
theorem codes_eq (eps : ℝ) (corners : List (Vec 2)) (q p : Vec 2) :
    ((walls2 eps corners).map fun w => w q p) = (edges corners).map fun e => (intersection2d eps q p e.1 e.2).1 := by
  unfold walls2
  rw [List.map_map, polygonWalls_eq]
  rfl

/-- The outcome of an iteration without ambiguity. -/
def outcome (b : Bool) (codes : List Int) : Bool := if (flags codes).border then b else (flags codes).count % 2 == 1

theorem insideIter_true {D : Nat} (walls : List (Intersects D)) (lo : Vec D) (draws : Nat → Vec D) (p : Vec D) (b : Bool) (n it : Nat) :
    insideIter walls lo draws p b n it = true ↔ ∃ k, it ≤ k ∧ k < it + n ∧ 2 ∉ (walls.map fun w => w (reference lo draws k) p) ∧
      (∀ j, it ≤ j → j < k → 2 ∈ (walls.map fun w => w (reference lo draws j) p)) ∧ outcome b (walls.map fun w => w (reference lo draws k) p) = true := by
  induction n generalizing it with
  | zero =>
    simp only [insideIter, Bool.false_eq_true, false_iff]
    rintro ⟨k, h1, h2, -⟩
    omega
  | succ n ih =>
    rw [insideIter]
    simp only [refPoint_eq]
    by_cases hamb : 2 ∈ (walls.map fun w => w (reference lo draws it) p)
    · rw [if_pos ((flags_eq _).1.mpr hamb), ih]
      constructor
      · rintro ⟨k, h1, h2, h3, h4, h5⟩
        refine ⟨k, by omega, by omega, h3, ?_, h5⟩
        intro j hj hjk
        rcases Nat.lt_or_ge it j with h | h
        · exact h4 j h hjk
        · have : j = it := by omega
          rw [this]; exact hamb
      · rintro ⟨k, h1, h2, h3, h4, h5⟩
        have hne : k ≠ it := by rintro rfl; exact h3 hamb
        exact ⟨k, by omega, by omega, h3, fun j hj hjk => h4 j (by omega) hjk, h5⟩
    · have hf : (flags (walls.map fun w => w (reference lo draws it) p)).ambiguous = false := by
        rw [← Bool.not_eq_true, (flags_eq _).1]; exact hamb
      rw [hf]
      have hout : (if false = true then insideIter walls lo draws p b n (it + 1)
          else if ((flags (walls.map fun w => w (reference lo draws it) p)).border && !b) = true then false
          else if ((flags (walls.map fun w => w (reference lo draws it) p)).border && b) = true then true
          else (flags (walls.map fun w => w (reference lo draws it) p)).count % 2 == 1) = outcome b (walls.map fun w => w (reference lo draws it) p) := by
        unfold outcome
        cases (flags (walls.map fun w => w (reference lo draws it) p)).border <;> cases b <;> simp
      rw [hout]
      constructor
      · intro h; exact ⟨it, le_refl _, by omega, hamb, fun j hj hjk => by omega, h⟩
      · rintro ⟨k, h1, h2, h3, h4, h5⟩
        have : k = it := by
          by_contra hne
          exact hamb (h4 it (le_refl _) (by omega))
        rw [this] at h5; exact h5

theorem reference_below {corners : List (Vec 2)} {lo : Vec 2} (hlo : IsLowest corners lo) {draws : Nat → Vec 2} (hd : ∀ k i, 0 < draws k i) (k : Nat) :
    ∀ v ∈ corners, Below (reference lo draws k) v := by
  intro v hv i
  have h1 := (hlo i).1 v hv
  have h2 : 0 < ∑ j ∈ Finset.range (k + 1), draws j i := Finset.sum_pos (fun j _ => hd j i) ⟨0, by simp⟩
  simp only [reference, Pi.sub_apply, Finset.sum_apply]
  linarith

/-! ## C74 -/

theorem outcome_clear {eps : ℝ} (he : 0 < eps) {corners : List (Vec 2)} {ts} (hs : Simple corners ts) {lo : Vec 2} (hlo : IsLowest corners lo) {p : Vec 2}
    (hp : ∀ e ∈ edges corners, Clear eps e.1 e.2 p) (hoff : ∀ t ∈ ts, OffSides p t) {draws : Nat → Vec 2} (hd : ∀ k i, 0 < draws k i) {k : Nat}
    (hq : ∀ e ∈ edges corners, Clear eps e.1 e.2 (reference lo draws k)) (b : Bool)
    (hamb : 2 ∉ ((walls2 eps corners).map fun w => w (reference lo draws k) p)) :
    outcome b ((walls2 eps corners).map fun w => w (reference lo draws k) p) = true ↔ InRoom ts p := by
  rw [codes_eq] at hamb ⊢
  have h2 : ∀ e ∈ edges corners, (intersection2d eps (reference lo draws k) p e.1 e.2).1 ≠ 2 := by
    intro e hm h
    exact hamb (List.mem_map.mpr ⟨e, hm, h⟩)
  have hb : (flags ((edges corners).map fun e => (intersection2d eps (reference lo draws k) p e.1 e.2).1)).border = false := by
    rw [← Bool.not_eq_true, (flags_eq _).2.1]
    rintro ⟨c, hc, h0, -⟩
    rw [List.mem_map] at hc
    obtain ⟨e, hm, rfl⟩ := hc
    rcases (code_clear he (hq e hm) (hp e hm)).1 with h | h
    · omega
    · exact h2 e hm h
  unfold outcome
  rw [hb, (flags_eq _).2.2]
  simp only [Bool.false_eq_true, if_false, beq_iff_eq]
  exact parity he hs (reference_below hlo hd k) hq hp hoff h2

/-- **C74** `Room.is_inside`, point and reference points not within the tolerance of the lines of the walls: the result is exactly
whether the point is in the room, for all random numbers such that one of the lines of sight passes no corner
within the tolerance. -/
theorem C74_inside {eps : ℝ} (he : 0 < eps) {corners : List (Vec 2)} {ts} (hs : Simple corners ts) {lo : Vec 2} (hlo : IsLowest corners lo) {p : Vec 2}
    (hp : ∀ e ∈ edges corners, Clear eps e.1 e.2 p) (hoff : ∀ t ∈ ts, OffSides p t) {draws : Nat → Vec 2} (hd : ∀ k i, 0 < draws k i) {maxIter : Nat}
    (hq : ∀ k < maxIter, ∀ e ∈ edges corners, Clear eps e.1 e.2 (reference lo draws k))
    (hgood : ∃ k < maxIter, ∀ v ∈ corners, Clear eps (reference lo draws k) p v) (b : Bool) :
    isInside maxIter (walls2 eps corners) (lower2 corners) draws p b = true ↔ InRoom ts p := by
  rw [← lowest_unique hlo (lower2_lowest (triangulation_ne hs.1))]
  unfold isInside
  rw [insideIter_true]
  constructor
  · rintro ⟨k, -, hk, h3, -, h5⟩
    exact (outcome_clear he hs hlo hp hoff hd (hq k (by omega)) b h3).mp h5
  · intro hin
    have hex : ∃ k, k < maxIter ∧ 2 ∉ ((walls2 eps corners).map fun w => w (reference lo draws k) p) := by
      obtain ⟨k, hk, hc⟩ := hgood
      refine ⟨k, hk, ?_⟩
      rw [codes_eq]
      intro h
      rw [List.mem_map] at h
      obtain ⟨e, hm, h⟩ := h
      exact (code_clear he (hq k hk e hm) (hp e hm)).2.2 (hc _ (edges_mem hm).1) (hc _ (edges_mem hm).2) h
    classical
    have hmin := Nat.find_spec hex
    refine ⟨Nat.find hex, Nat.zero_le _, by omega, hmin.2, ?_, ?_⟩
    · intro j _ hj
      have := Nat.find_min hex hj
      by_contra hn
      exact this ⟨by omega, hn⟩
    · exact (outcome_clear he hs hlo hp hoff hd (hq _ hmin.1) b hmin.2).mpr hin

/-- **C74** Points outside are never reported inside, for all random numbers. -/
theorem C74_outside {eps : ℝ} (he : 0 < eps) {corners : List (Vec 2)} {ts} (hs : Simple corners ts) {lo : Vec 2} (hlo : IsLowest corners lo) {p : Vec 2}
    (hp : ∀ e ∈ edges corners, Clear eps e.1 e.2 p) (hoff : ∀ t ∈ ts, OffSides p t) {draws : Nat → Vec 2} (hd : ∀ k i, 0 < draws k i) {maxIter : Nat}
    (hq : ∀ k < maxIter, ∀ e ∈ edges corners, Clear eps e.1 e.2 (reference lo draws k)) (hout : ¬InRoom ts p) (b : Bool) :
    isInside maxIter (walls2 eps corners) (lower2 corners) draws p b = false := by
  rw [← lowest_unique hlo (lower2_lowest (triangulation_ne hs.1)), ← Bool.not_eq_true]
  unfold isInside
  rw [insideIter_true]
  rintro ⟨k, -, hk, h3, -, h5⟩
  exact hout ((outcome_clear he hs hlo hp hoff hd (hq k (by omega)) b h3).mp h5)

theorem outcome_border {eps : ℝ} (he : 0 < eps) {corners : List (Vec 2)} {p q : Vec 2} {e : Vec 2 × Vec 2} (hm : e ∈ edges corners) (hon : OnSeg e.1 e.2 p)
    (hq : Clear (2 * eps) e.1 e.2 q) (b : Bool) : outcome b ((walls2 eps corners).map fun w => w q p) = b := by
  rw [codes_eq]
  have hb : (flags ((edges corners).map fun e => (intersection2d eps q p e.1 e.2).1)).border = true := by
    rw [(flags_eq _).2.1]
    exact ⟨_, List.mem_map.mpr ⟨e, hm, rfl⟩, code_on he hq hon⟩
  unfold outcome
  rw [hb]; rfl

/-- **C74** Points on a wall: the result is `include_borders`, if one of the lines of sight passes no corner within the tolerance of
walls on whose line the point is not. -/
theorem C74_border {eps : ℝ} (he : 0 < eps) {corners : List (Vec 2)} {lo : Vec 2} (hlo : IsLowest corners lo) {p : Vec 2} {e : Vec 2 × Vec 2}
    (hm : e ∈ edges corners) (hon : OnSeg e.1 e.2 p) {draws : Nat → Vec 2} {maxIter : Nat}
    (hq : ∀ k < maxIter, Clear (2 * eps) e.1 e.2 (reference lo draws k))
    (hgood : ∃ k < maxIter, ∀ f ∈ edges corners, ¬Clear eps f.1 f.2 p ∨ (Clear eps (reference lo draws k) p f.1 ∧ Clear eps (reference lo draws k) p f.2)) (b : Bool) :
    isInside maxIter (walls2 eps corners) (lower2 corners) draws p b = b := by
  have hne : corners ≠ [] := by rintro rfl; exact absurd hm List.not_mem_nil
  rw [← lowest_unique hlo (lower2_lowest hne)]
  rw [Bool.eq_iff_iff]
  unfold isInside
  rw [insideIter_true]
  constructor
  · rintro ⟨k, -, hk, h3, -, h5⟩
    rwa [outcome_border he hm hon (hq k (by omega)) b] at h5
  · intro hb
    have hex : ∃ k, k < maxIter ∧ 2 ∉ ((walls2 eps corners).map fun w => w (reference lo draws k) p) := by
      obtain ⟨k, hk, hc⟩ := hgood
      refine ⟨k, hk, ?_⟩
      rw [codes_eq]
      intro h
      rw [List.mem_map] at h
      obtain ⟨f, hf, h⟩ := h
      obtain ⟨-, c2, c3⟩ := code_bndry he h
      rcases hc f hf with h1 | ⟨h1, h2⟩
      · exact h1 c2
      · rcases c3 with c3 | c3
        · exact c3 h1
        · exact c3 h2
    classical
    have hmin := Nat.find_spec hex
    refine ⟨Nat.find hex, Nat.zero_le _, by omega, hmin.2, ?_, ?_⟩
    · intro j _ hj
      have := Nat.find_min hex hj
      by_contra hn
      exact this ⟨by omega, hn⟩
    · rw [outcome_border he hm hon (hq _ hmin.1) b]; exact hb

theorem contains_some {D : Nat} (walls : List (Intersects D)) (lo : Vec D) (draws : Nat → Vec D) (p : Vec D) (fuel it : Nat) (r : Bool) :
    contains walls lo draws p fuel it = some r ↔ ∃ k, it ≤ k ∧ k < it + fuel ∧ (∀ c ∈ walls.map fun w => w (reference lo draws k) p, c ≤ 0) ∧
      (∀ j, it ≤ j → j < k → ∃ c ∈ walls.map fun w => w (reference lo draws j) p, 0 < c) ∧
      r = (((walls.map fun w => w (reference lo draws k) p).filter fun c => decide (0 ≤ c)).length % 2 == 1) := by
  induction fuel generalizing it with
  | zero =>
    simp only [contains, reduceCtorEq, false_iff]
    rintro ⟨k, h1, h2, -⟩
    omega
  | succ n ih =>
    rw [contains]
    simp only [refPoint_eq]
    have hfil : ((walls.map fun w => w (reference lo draws it) p).filter fun result => decide (result > -1)) =
        (walls.map fun w => w (reference lo draws it) p).filter fun c => decide (0 ≤ c) := by
      apply List.filter_congr
      intro c _
      rw [decide_eq_decide]
      omega
    by_cases hamb : ∃ c ∈ walls.map fun w => w (reference lo draws it) p, 0 < c
    · have hany : ((walls.map fun w => w (reference lo draws it) p).any fun result => decide (result > 0)) = true := by
        rw [List.any_eq_true]
        obtain ⟨c, hc, h0⟩ := hamb
        exact ⟨c, hc, by simpa using h0⟩
      rw [if_pos hany, ih]
      constructor
      · rintro ⟨k, h1, h2, h3, h4, h5⟩
        refine ⟨k, by omega, by omega, h3, ?_, h5⟩
        intro j hj hjk
        rcases Nat.lt_or_ge it j with h | h
        · exact h4 j h hjk
        · have : j = it := by omega
          rw [this]; exact hamb
      · rintro ⟨k, h1, h2, h3, h4, h5⟩
        have hne : k ≠ it := by
          rintro rfl
          obtain ⟨c, hc, h0⟩ := hamb
          exact absurd (h3 c hc) (not_le.mpr h0)
        exact ⟨k, by omega, by omega, h3, fun j hj hjk => h4 j (by omega) hjk, h5⟩
    · have hany : ¬((walls.map fun w => w (reference lo draws it) p).any fun result => decide (result > 0)) = true := by
        rw [List.any_eq_true]
        rintro ⟨c, hc, h0⟩
        exact hamb ⟨c, hc, by simpa using h0⟩
      rw [if_neg hany, hfil, Option.some_inj]
      have hle : ∀ c ∈ walls.map fun w => w (reference lo draws it) p, c ≤ 0 := by
        intro c hc
        by_contra hn
        exact hamb ⟨c, hc, not_le.mp hn⟩
      constructor
      · intro h; exact ⟨it, le_refl _, by omega, hle, fun j hj hjk => by omega, h.symm⟩
      · rintro ⟨k, h1, h2, h3, h4, h5⟩
        have : k = it := by
          by_contra hne
          exact hamb (h4 it (le_refl _) (by omega))
        rw [this] at h5; exact h5.symm

/-- **C74** `Room::contains`, point and reference points not within the tolerance of the lines of the walls: if it returns, the result is
right; it returns as soon as a line of sight passes no corner within the tolerance. -/
theorem C74_contains {eps : ℝ} (he : 0 < eps) {corners : List (Vec 2)} {ts} (hs : Simple corners ts) {lo : Vec 2} (hlo : IsLowest corners lo) {p : Vec 2}
    (hp : ∀ e ∈ edges corners, Clear eps e.1 e.2 p) (hoff : ∀ t ∈ ts, OffSides p t) {draws : Nat → Vec 2} (hd : ∀ k i, 0 < draws k i)
    (hq : ∀ k, ∀ e ∈ edges corners, Clear eps e.1 e.2 (reference lo draws k)) :
    (∀ fuel r, contains (walls2 eps corners) (lower2 corners) draws p fuel 0 = some r → (r = true ↔ InRoom ts p)) ∧
    (∀ k, (∀ v ∈ corners, Clear eps (reference lo draws k) p v) → (contains (walls2 eps corners) (lower2 corners) draws p (k + 1) 0).isSome) := by
  rw [← lowest_unique hlo (lower2_lowest (triangulation_ne hs.1))]
  constructor
  · intro fuel r h
    rw [contains_some] at h
    obtain ⟨k, -, -, h3, -, h5⟩ := h
    rw [codes_eq] at h3 h5
    rw [h5, beq_iff_eq]
    apply parity he hs (reference_below hlo hd k) (hq k) hp hoff
    intro e hm h
    have := h3 _ (List.mem_map.mpr ⟨e, hm, rfl⟩)
    omega
  · intro k hc
    have hex : ∃ k, ∀ c ∈ ((walls2 eps corners).map fun w => w (reference lo draws k) p), c ≤ 0 := by
      refine ⟨k, ?_⟩
      rw [codes_eq]
      intro c h
      rw [List.mem_map] at h
      obtain ⟨e, hm, rfl⟩ := h
      have hcc := code_clear he (hq k e hm) (hp e hm)
      exact hcc.1.resolve_right (hcc.2.2 (hc _ (edges_mem hm).1) (hc _ (edges_mem hm).2))
    classical
    have hle : Nat.find hex ≤ k := by
      apply Nat.find_min' hex
      rw [codes_eq]
      intro c h
      rw [List.mem_map] at h
      obtain ⟨e, hm, rfl⟩ := h
      have hcc := code_clear he (hq k e hm) (hp e hm)
      exact hcc.1.resolve_right (hcc.2.2 (hc _ (edges_mem hm).1) (hc _ (edges_mem hm).2))
    rw [Option.isSome_iff_exists]
    refine ⟨_, (contains_some _ _ _ _ _ _ _).mpr ⟨Nat.find hex, Nat.zero_le _, by omega, Nat.find_spec hex, ?_, rfl⟩⟩
    intro j _ hj
    have := Nat.find_min hex hj
    push Not at this
    exact this

/-- **C74**, deviation: for a point on a wall `Room::contains` never returns. -/
theorem C74_contains_wall_deviation {eps : ℝ} (he : 0 < eps) {corners : List (Vec 2)} {lo : Vec 2} (hlo : IsLowest corners lo) {p : Vec 2} {e : Vec 2 × Vec 2}
    (hm : e ∈ edges corners) (hon : OnSeg e.1 e.2 p) {draws : Nat → Vec 2} (hq : ∀ k, Clear (2 * eps) e.1 e.2 (reference lo draws k)) (fuel : Nat) :
    contains (walls2 eps corners) (lower2 corners) draws p fuel 0 = none := by
  have hne : corners ≠ [] := by rintro rfl; exact absurd hm List.not_mem_nil
  rw [← lowest_unique hlo (lower2_lowest hne)]
  rw [Option.eq_none_iff_forall_ne_some]
  intro r h
  rw [contains_some] at h
  obtain ⟨k, -, -, h3, -⟩ := h
  rw [codes_eq] at h3
  have := h3 _ (List.mem_map.mpr ⟨e, hm, rfl⟩)
  have := (code_on he (hq k) hon).1
  omega

/-- **C74** `ShoeBox.is_inside`: the closed box. -/
theorem C74_shoebox {D : Nat} (dim p : Vec D) : shoeboxInside dim p = true ↔ ∀ i, 0 ≤ p i ∧ p i ≤ dim i := by
  unfold shoeboxInside
  simp only [Bool.and_eq_true, decide_eq_true_eq, ge_iff_le]
  exact forall_and.symm

/-! ## Rectangles -/

/-- The corners of a rectangle. -/
def rect (a b : ℝ) : List (Vec 2) := [![0, 0], ![a, 0], ![a, b], ![0, b]]

/-- A diagonal of the rectangle. -/
def rectTriangles (a b : ℝ) : List (Vec 2 × Vec 2 × Vec 2) := [(![0, 0], ![a, 0], ![a, b]), (![a, b], ![0, b], ![0, 0])]

theorem rect_simple {a b : ℝ} (ha : 0 < a) (hb : 0 < b) : Simple (rect a b) (rectTriangles a b) := by
  refine ⟨?_, ?_, ?_⟩
  · exact Triangulation.cut ![0, 0] ![a, b] [![a, 0]] [![0, b]] _ _ (Triangulation.tri _ _ _) (Triangulation.tri _ _ _)
  · have := mul_pos ha hb
    simp only [rectTriangles, List.mem_cons, List.not_mem_nil, or_false, forall_eq_or_imp, forall_eq]
    constructor
    · simp [orient]; linarith
    · simp [orient]; linarith
  · simp only [rectTriangles, List.pairwise_cons, List.mem_cons, List.not_mem_nil, or_false, forall_eq, false_implies, implies_true, List.Pairwise.nil, and_true]
    rintro x ⟨⟨h1, h2, h3⟩, h4, h5, h6⟩
    simp [orient] at h3 h6
    nlinarith

theorem rect_lowest {a b : ℝ} (ha : 0 < a) (hb : 0 < b) : IsLowest (rect a b) 0 := by
  intro i
  fin_cases i
  · refine ⟨?_, ![0, 0], by simp [rect], by simp⟩
    simp [rect]; exact ha.le
  · refine ⟨?_, ![0, 0], by simp [rect], by simp⟩
    simp [rect]; exact hb.le

theorem rect_edges {a b : ℝ} (P : Vec 2 × Vec 2 → Prop) :
    (∀ e ∈ edges (rect a b), P e) ↔ P (![0, 0], ![a, 0]) ∧ P (![a, 0], ![a, b]) ∧ P (![a, b], ![0, b]) ∧ P (![0, b], ![0, 0]) := by
  simp [rect, edges, pathEdges]

/-- The reference points of the code are clear of the walls of a rectangle. -/
theorem rect_reference {eps a b : ℝ} (ha : eps ≤ 0.015 * a) (hb : eps ≤ 0.015 * b) (ha0 : 0 < a) (hb0 : 0 < b) {draws : Nat → Vec 2}
    (hd : ∀ k i, 0.015 ≤ draws k i) (k : Nat) : ∀ e ∈ edges (rect a b), Clear eps e.1 e.2 (reference 0 draws k) := by
  have hq : ∀ i, reference 0 draws k i ≤ -0.015 := by
    intro i
    have h2 : draws 0 i ≤ ∑ j ∈ Finset.range (k + 1), draws j i :=
      Finset.single_le_sum (f := fun j => draws j i) (fun j _ => by have := hd j i; norm_num at this ⊢; linarith) (by simp)
    simp only [reference, Pi.sub_apply, Finset.sum_apply, Pi.zero_apply]
    have := hd 0 i
    linarith
  have h0 := hq 0
  have h1 := hq 1
  rw [rect_edges]
  unfold Clear
  refine ⟨le_abs.mpr (Or.inr ?_), le_abs.mpr (Or.inl ?_), le_abs.mpr (Or.inl ?_), le_abs.mpr (Or.inr ?_)⟩
  · simp [orient]; nlinarith
  · simp [orient]; nlinarith
  · simp [orient]; nlinarith
  · simp [orient]; nlinarith

/-- **C74** For rectangular rooms built from corners, `Room.is_inside` and `ShoeBox.is_inside` agree (points not within the tolerance of the
walls and not on the diagonal used in the proof). -/
theorem C74_rectangle {eps a b : ℝ} (he : 0 < eps) (ha : eps ≤ 0.015 * a) (hb : eps ≤ 0.015 * b) {p : Vec 2}
    (h1 : eps ≤ a * |p 1|) (h2 : eps ≤ a * |p 1 - b|) (h3 : eps ≤ b * |p 0|) (h4 : eps ≤ b * |p 0 - a|) (hdiag : a * p 1 ≠ b * p 0)
    {draws : Nat → Vec 2} (hd : ∀ k i, 0.015 ≤ draws k i) {maxIter : Nat}
    (hgood : ∃ k < maxIter, ∀ v ∈ rect a b, Clear eps (reference 0 draws k) p v) (inc : Bool) :
    isInside maxIter (walls2 eps (rect a b)) (lower2 (rect a b)) draws p inc = shoeboxInside ![a, b] p := by
  have ha0 : 0 < a := by nlinarith
  have hb0 : 0 < b := by nlinarith
  have hpc : ∀ e ∈ edges (rect a b), Clear eps e.1 e.2 p := by
    rw [rect_edges]
    unfold Clear
    refine ⟨?_, ?_, ?_, ?_⟩
    · rw [show orient ![0, 0] ![a, 0] p = a * p 1 by simp [orient], abs_mul, abs_of_pos ha0]; exact h1
    · rw [show orient ![a, 0] ![a, b] p = b * -(p 0 - a) by simp [orient]; ring, abs_mul, abs_neg, abs_of_pos hb0]; exact h4
    · rw [show orient ![a, b] ![0, b] p = a * -(p 1 - b) by simp [orient]; ring, abs_mul, abs_neg, abs_of_pos ha0]; exact h2
    · rw [show orient ![0, b] ![0, 0] p = b * p 0 by simp [orient]; ring, abs_mul, abs_of_pos hb0]; exact h3
  have hon : ∀ {x y : Vec 2}, OnSeg x y p → orient x y p = 0 := by
    rintro x y ⟨t, -, -, e⟩
    rw [e]; unfold orient lineAt; simp; ring
  have hz : ∀ {x y : Vec 2}, Clear eps x y p → ¬OnSeg x y p := by
    intro x y hc h
    unfold Clear at hc
    rw [hon h, abs_zero] at hc
    linarith
  have hoff : ∀ t ∈ rectTriangles a b, OffSides p t := by
    have hall := (rect_edges _).mp hpc
    have d1 : ¬OnSeg ![a, b] ![0, 0] p := fun h => hdiag (by have := hon h; simp [orient] at this; linarith)
    have d2 : ¬OnSeg ![0, 0] ![a, b] p := fun h => d1 (onSeg_symm h)
    simp only [rectTriangles, List.mem_cons, List.not_mem_nil, or_false, forall_eq_or_imp, forall_eq]
    exact ⟨⟨hz hall.1, hz hall.2.1, d1⟩, ⟨hz hall.2.2.1, hz hall.2.2.2, d2⟩⟩
  rw [Bool.eq_iff_iff, C74_inside he (rect_simple ha0 hb0) (rect_lowest ha0 hb0) hpc hoff (fun k i => by have := hd k i; norm_num at this; linarith)
    (fun k _ => rect_reference ha hb ha0 hb0 hd k) hgood inc]
  unfold shoeboxInside
  simp only [Bool.and_eq_true, decide_eq_true_eq, Fin.forall_fin_two, InRoom, rectTriangles, List.mem_cons, List.not_mem_nil, or_false, exists_eq_or_imp,
    exists_eq_left, InTriangle]
  simp only [orient, Matrix.cons_val_zero, Matrix.cons_val_one, sub_zero, zero_sub, sub_self, mul_zero, zero_mul, ge_iff_le]
  have p0 : p 0 ≠ 0 := by intro h; rw [h, abs_zero] at h3; linarith
  have p1 : p 1 ≠ 0 := by intro h; rw [h, abs_zero] at h1; linarith
  have p2 : p 0 ≠ a := by intro h; rw [h, sub_self, abs_zero] at h4; linarith
  have p3 : p 1 ≠ b := by intro h; rw [h, sub_self, abs_zero] at h2; linarith
  constructor
  · rintro (⟨x1, x2, x3⟩ | ⟨x1, x2, x3⟩)
    · have e1 : 0 < p 1 := by nlinarith
      have e2 : p 0 < a := by nlinarith
      refine ⟨⟨?_, e1.le⟩, e2.le, ?_⟩ <;> nlinarith
    · have e1 : p 1 < b := by nlinarith
      have e2 : 0 < p 0 := by nlinarith
      refine ⟨⟨e2.le, ?_⟩, ?_, e1.le⟩ <;> nlinarith
  · rintro ⟨⟨x1, x2⟩, x3, x4⟩
    have y1 := lt_of_le_of_ne x1 (Ne.symm p0)
    have y2 := lt_of_le_of_ne x2 (Ne.symm p1)
    have y3 := lt_of_le_of_ne x3 p2
    have y4 := lt_of_le_of_ne x4 p3
    rcases lt_or_gt_of_ne hdiag with h | h
    · left; refine ⟨?_, ?_, ?_⟩ <;> nlinarith
    · right; refine ⟨?_, ?_, ?_⟩ <;> nlinarith

/-- Non-vacuity of C74: a rectangle of 4 m x 3 m, points inside and outside. -/
example : isInside 20 (walls2 (1 / 1000) (rect 4 3)) (lower2 (rect 4 3)) (fun _ => ![1 / 2, 1 / 4]) ![1, 2] true = true ∧
    isInside 20 (walls2 (1 / 1000) (rect 4 3)) (lower2 (rect 4 3)) (fun _ => ![1 / 2, 1 / 4]) ![5, 2] false = false := by
  have hr : ∀ p : Vec 2, reference 0 (fun _ => ![1 / 2, 1 / 4]) 0 = ![-1 / 2, -1 / 4] := by
    intro p
    ext i
    fin_cases i <;> simp [reference] <;> norm_num
  constructor
  · rw [C74_rectangle (eps := 1 / 1000) (by norm_num) (by norm_num) (by norm_num) (by norm_num) (by norm_num) (by norm_num) (by norm_num) (by norm_num)
      (by intro k i; fin_cases i <;> norm_num)]
    · rw [C74_shoebox, Fin.forall_fin_two]; norm_num
    · refine ⟨0, by norm_num, ?_⟩
      rw [hr 0]
      simp [rect, Clear, orient]
      norm_num
  · rw [C74_rectangle (eps := 1 / 1000) (by norm_num) (by norm_num) (by norm_num) (by norm_num) (by norm_num) (by norm_num) (by norm_num) (by norm_num)
      (by intro k i; fin_cases i <;> norm_num)]
    · rw [← Bool.not_eq_true, C74_shoebox, Fin.forall_fin_two]; norm_num
    · refine ⟨0, by norm_num, ?_⟩
      rw [hr 0]
      simp [rect, Clear, orient]
      norm_num

/-- Non-vacuity of C74 (walls): the centre of the left wall, for all random numbers in the range of the code. -/
example {draws : Nat → Vec 2} (hd : ∀ k i, 0.05 ≤ draws k i) (fuel : Nat) :
    contains (walls2 (1 / 1000) (rect 4 3)) (lower2 (rect 4 3)) draws ![0, 1] fuel 0 = none := by
  refine C74_contains_wall_deviation (by norm_num) (rect_lowest (by norm_num) (by norm_num)) (e := (![0, 3], ![0, 0])) (by simp [rect, edges, pathEdges])
    ⟨2 / 3, by norm_num, by norm_num, ?_⟩ (fun k => ?_) fuel
  · ext i; fin_cases i <;> simp [lineAt]; norm_num
  · exact rect_reference (eps := 2 * (1 / 1000)) (a := 4) (b := 3) (by norm_num) (by norm_num) (by norm_num) (by norm_num) (fun k i => le_trans (by norm_num) (hd k i)) k _
      (by simp [rect, edges, pathEdges])

/-- **C74**, deviation: after the last iteration the point is reported outside. If the reference points are all on the line through the point and a corner,
this happens for the centre of a square. -/
theorem C74_exhausted_deviation {eps : ℝ} (he : 0 < eps) (he2 : eps ≤ 0.03) {s : Nat → ℝ} (hs : ∀ k, 0.015 ≤ s k) (maxIter : Nat) (inc : Bool) :
    isInside maxIter (walls2 eps (rect 2 2)) (lower2 (rect 2 2)) (fun k => ![s k, s k]) ![1, 1] inc = false := by
  rw [← lowest_unique (rect_lowest (a := 2) (b := 2) (by norm_num) (by norm_num)) (lower2_lowest (by simp [rect])), ← Bool.not_eq_true]
  unfold isInside
  rw [insideIter_true]
  rintro ⟨k, -, -, h3, -⟩
  apply h3
  rw [codes_eq, List.mem_map]
  have hr : ∃ r : ℝ, 0.015 ≤ r ∧ reference 0 (fun k => ![s k, s k]) k = ![-r, -r] := by
    refine ⟨∑ j ∈ Finset.range (k + 1), s j, ?_, ?_⟩
    · exact (hs 0).trans (Finset.single_le_sum (fun j _ => by have := hs j; norm_num at this ⊢; linarith) (by simp))
    · ext i
      fin_cases i <;> simp [reference]
  obtain ⟨r, hr1, hr2⟩ := hr
  rw [hr2]
  refine ⟨(![0, 0], ![2, 0]), by simp [rect, edges, pathEdges], ?_⟩
  have o1 : orient ![-r, -r] ![1, 1] ![0, 0] = 0 := by simp [orient]; ring
  have o2 : orient ![-r, -r] ![1, 1] ![2, 0] = -(2 * (1 + r)) := by simp [orient]; ring
  have o3 : orient ![0, 0] ![2, 0] ![-r, -r] = -(2 * r) := by simp [orient]
  have o4 : orient ![0, 0] ![2, 0] ![1, 1] = 2 := by simp [orient]
  have c1 : ccw3p eps ![-r, -r] ![1, 1] ![0, 0] = 0 := by
    unfold ccw3p; rw [o1]; simp only; rw [if_pos ⟨he, by linarith⟩]
  have c2 : ccw3p eps ![-r, -r] ![1, 1] ![2, 0] = -1 := by
    unfold ccw3p; rw [o2]; simp only; rw [if_neg (by intro h; linarith [h.2]), if_neg (by linarith)]
  have c3 : ccw3p eps ![0, 0] ![2, 0] ![-r, -r] = -1 := by
    unfold ccw3p; rw [o3]; simp only; rw [if_neg (by intro h; linarith [h.2]), if_neg (by linarith)]
  have c4 : ccw3p eps ![0, 0] ![2, 0] ![1, 1] = 1 := by
    unfold ccw3p; rw [o4]; simp only; rw [if_neg (by intro h; linarith [h.1]), if_pos (by linarith)]
  have hcheck : checkIntersection2d eps ![-r, -r] ![1, 1] ![0, 0] ![2, 0] = 2 := by
    unfold checkIntersection2d
    simp only [c1, c2, c3, c4]
    norm_num
  unfold intersection2d
  simp only
  rw [hcheck, if_neg (by norm_num), denom_eq, o1, o2, if_neg]
  rw [sub_zero, abs_neg, abs_of_pos (by linarith)]
  linarith

/-! ## Walls in three dimensions -/

/-- A point of a wall in three dimensions: the bit `ENDPT` is set. -/
theorem code_on3 {eps : ℝ} (he : 0 < eps) {w : Wall 3} {basis : Vec 3 × Vec 3} {flat : List (Vec 2)} {q p : Vec 3} (hplane : w.normal ⬝ᵥ (p - w.origin) = 0)
    (hq : eps < |w.normal ⬝ᵥ (q - w.origin)|) (hin : isInside2dPolygon eps ![basis.1 ⬝ᵥ (p - w.origin), basis.2 ⬝ᵥ (p - w.origin)] flat ≠ -1) :
    0 < (intersectionWall3 eps w basis flat q p).1 ∧ (intersectionWall3 eps w basis flat q p).1 % 2 ≠ 0 := by
  have hden : w.normal ⬝ᵥ (p - q) = -(w.normal ⬝ᵥ (q - w.origin)) := by
    rw [show p - q = (p - w.origin) - (q - w.origin) by abel, dotProduct_sub, hplane, zero_sub]
  have hne : w.normal ⬝ᵥ (q - w.origin) ≠ 0 := by
    intro h; rw [h, abs_zero] at hq; linarith
  have hs : -(w.normal ⬝ᵥ (q - w.origin)) / w.normal ⬝ᵥ (p - q) = 1 := by
    rw [hden, div_self (neg_ne_zero.mpr hne)]
  have hpl : intersectionPlane eps q p w.origin w.normal = (1, some p) := by
    unfold intersectionPlane
    simp only
    rw [if_pos (by rw [hden, abs_neg]; exact hq), hs, if_pos ⟨by linarith, by linarith⟩, if_pos (by right; rw [sub_self, abs_zero]; exact he), one_smul, sub_add_cancel]
  have hcases : ∀ (x : Vec 2) (l : List (Vec 2)), isInside2dPolygon eps x l = -1 ∨ isInside2dPolygon eps x l = 0 ∨ isInside2dPolygon eps x l = 1 := by
    intro x l
    by_cases h : ∃ e ∈ edges l, NearEdge eps x e
    · exact Or.inr (Or.inr ((isInside_eq he x l).1 h))
    · rw [(isInside_eq he x l).2 h]
      split_ifs
      · exact Or.inl rfl
      · exact Or.inr (Or.inl rfl)
  have hc := (hcases _ _).resolve_left hin
  unfold intersectionWall3
  rw [hpl]
  simp only
  rw [if_neg (by norm_num), if_neg (by rcases hc with h | h <;> rw [h] <;> norm_num)]
  simp only [if_true]
  rcases hc with h | h <;> rw [h] <;> norm_num

open Classical in
/-- **C74** Points on a wall in three dimensions: `Room.is_inside` returns `include_borders` or, if all iterations are ambiguous, `False`. -/
theorem C74_border3 {eps : ℝ} (he : 0 < eps) {walls : List (Intersects 3)} {w : Wall 3} {basis : Vec 3 × Vec 3} {flat : List (Vec 2)}
    (hm : (fun a b => (intersectionWall3 eps w basis flat a b).1) ∈ walls) {lo p : Vec 3} (hplane : w.normal ⬝ᵥ (p - w.origin) = 0)
    (hin : isInside2dPolygon eps ![basis.1 ⬝ᵥ (p - w.origin), basis.2 ⬝ᵥ (p - w.origin)] flat ≠ -1) {draws : Nat → Vec 3} {maxIter : Nat}
    (hq : ∀ k < maxIter, eps < |w.normal ⬝ᵥ (reference lo draws k - w.origin)|) (b : Bool) :
    isInside maxIter walls lo draws p b = (b && decide (∃ k < maxIter, ∀ v ∈ walls, v (reference lo draws k) p ≠ 2)) := by
  have hout : ∀ k < maxIter, outcome b (walls.map fun v => v (reference lo draws k) p) = b := by
    intro k hk
    have hb : (flags (walls.map fun v => v (reference lo draws k) p)).border = true := by
      rw [(flags_eq _).2.1]
      exact ⟨_, List.mem_map.mpr ⟨_, hm, rfl⟩, code_on3 he hplane (hq k hk) hin⟩
    unfold outcome
    rw [hb]; rfl
  rw [Bool.eq_iff_iff, Bool.and_eq_true, decide_eq_true_eq]
  unfold isInside
  rw [insideIter_true]
  constructor
  · rintro ⟨k, -, hk, h3, -, h5⟩
    rw [hout k (by omega)] at h5
    exact ⟨h5, k, by omega, fun v hv h => h3 (List.mem_map.mpr ⟨v, hv, h⟩)⟩
  · rintro ⟨hb, k, hk, hc⟩
    have hex : ∃ k, k < maxIter ∧ 2 ∉ (walls.map fun v => v (reference lo draws k) p) := by
      refine ⟨k, hk, ?_⟩
      intro h
      rw [List.mem_map] at h
      obtain ⟨v, hv, h⟩ := h
      exact hc v hv h
    classical
    have hmin := Nat.find_spec hex
    refine ⟨Nat.find hex, Nat.zero_le _, by omega, hmin.2, ?_, ?_⟩
    · intro j _ hj
      have := Nat.find_min hex hj
      by_contra hn
      exact this ⟨by omega, hn⟩
    · rw [hout _ hmin.1]; exact hb

/-- **C74**, deviation: for a point on a wall in three dimensions `Room::contains` never returns. -/
theorem C74_contains_wall3_deviation {eps : ℝ} (he : 0 < eps) {walls : List (Intersects 3)} {w : Wall 3} {basis : Vec 3 × Vec 3} {flat : List (Vec 2)}
    (hm : (fun a b => (intersectionWall3 eps w basis flat a b).1) ∈ walls) {lo p : Vec 3} (hplane : w.normal ⬝ᵥ (p - w.origin) = 0)
    (hin : isInside2dPolygon eps ![basis.1 ⬝ᵥ (p - w.origin), basis.2 ⬝ᵥ (p - w.origin)] flat ≠ -1) {draws : Nat → Vec 3}
    (hq : ∀ k, eps < |w.normal ⬝ᵥ (reference lo draws k - w.origin)|) (fuel : Nat) :
    contains walls lo draws p fuel 0 = none := by
  rw [Option.eq_none_iff_forall_ne_some]
  intro r h
  rw [contains_some] at h
  obtain ⟨k, -, -, h3, -⟩ := h
  have := h3 _ (List.mem_map.mpr ⟨_, hm, rfl⟩)
  have := (code_on3 he hplane (hq k) hin).1
  omega

/-- Non-vacuity of C74 (three dimensions): the middle of the floor of a room of 2 m x 2 m. -/
example {draws : Nat → Vec 3} (hd : ∀ k i, 0.05 ≤ draws k i) (k : Nat) :
    (![0, 0, 1] : Vec 3) ⬝ᵥ (![1, 1, 0] - 0) = 0 ∧ (1 / 1000 : ℝ) < |(![0, 0, 1] : Vec 3) ⬝ᵥ (reference 0 draws k - 0)| ∧
    isInside2dPolygon (1 / 1000) ![(![1, 0, 0] : Vec 3) ⬝ᵥ (![1, 1, 0] - 0), (![0, 1, 0] : Vec 3) ⬝ᵥ (![1, 1, 0] - 0)]
      [![0, 0], ![2, 0], ![2, 2], ![0, 2]] ≠ -1 := by
  refine ⟨by simp, ?_, ?_⟩
  · have h2 : draws 0 2 ≤ ∑ j ∈ Finset.range (k + 1), draws j 2 :=
      Finset.single_le_sum (f := fun j => draws j 2) (fun j _ => by have := hd j 2; norm_num at this ⊢; linarith) (by simp)
    have h3 := hd 0 2
    have : (![0, 0, 1] : Vec 3) ⬝ᵥ (reference 0 draws k - 0) = -∑ j ∈ Finset.range (k + 1), draws j 2 := by
      simp [reference, dotProduct, Fin.sum_univ_three]
    rw [this, abs_neg]
    apply lt_of_lt_of_le _ (le_abs_self _)
    norm_num at h3 ⊢
    linarith
  · have h := C27_polygon_surrounded (eps := 1 / 1000) (by norm_num) (p := ![1, 1]) (l := [![0, 0], ![2, 0], ![2, 2], ![0, 2]]) (by simp)
      (by simp [edges, pathEdges, orient]; norm_num)
    simp
    simp at h
    rw [h]
    norm_num

end Verif.Inside
