import Verif.SoundSrc.Model
import Verif.Delays.Props
import Mathlib.Data.List.GetD
import Mathlib.Analysis.SpecialFunctions.Trigonometric.Bounds

/-!
# C98: source objects, their images, and the channel matrix

Small specification: which images an index selects, in which order; and the matrix as blocks of convolutions.
-/

namespace Verif.SoundSrc

open Verif.Py

/-- Positions have two or three coordinates. -/
def Valid (s : Src) : Prop := s.position.length = 2 ∨ s.position.length = 3

/-- `max_order` is the largest order. -/
def MaxOk (s : Src) : Prop := (∃ i ∈ s.imgs, i.ord = s.maxOrder) ∧ ∀ i ∈ s.imgs, i.ord ≤ s.maxOrder

/-- A new object with the images `imgs` at the place of `s`. -/
def Holds (r : Except Err Src) (s : Src) (imgs : List Img) : Prop :=
  if imgs = [] then r = .error .valueError
  else ∃ t, r = .ok t ∧ t.position = s.position ∧ t.imgs = imgs ∧ t.ordering = .order ∧ t.I = List.range imgs.length ∧ MaxOk t

theorem maxInt_spec {l : List Int} (hl : l ≠ []) : ∃ m, maxInt l = .ok m ∧ m ∈ l ∧ ∀ v ∈ l, v ≤ m := by
  obtain ⟨a, l, rfl⟩ := List.exists_cons_of_ne_nil hl
  refine ⟨_, rfl, ?_⟩
  have key : ∀ (l : List Int) (a : Int), (l.foldl max a = a ∨ l.foldl max a ∈ l) ∧ a ≤ l.foldl max a ∧ ∀ v ∈ l, v ≤ l.foldl max a := by
    intro l
    induction l with
    | nil => intro a; simp
    | cons b l ih =>
      intro a
      obtain ⟨h1, h2, h3⟩ := ih (max a b)
      simp only [List.foldl_cons, List.mem_cons, forall_eq_or_imp]
      refine ⟨?_, (le_max_left _ _).trans h2, (le_max_right _ _).trans h2, h3⟩
      rcases h1 with h | h
      · rcases max_choice a b with hm | hm
        · left
          rw [h, hm]
        · right
          left
          rw [h, hm]
      · right
        right
        exact h
  obtain ⟨h1, h2, h3⟩ := key l a
  refine ⟨?_, ?_⟩
  · rcases h1 with h | h
    · rw [h]
      simp
    · exact List.mem_cons_of_mem _ h
  · intro v hv
    rcases List.mem_cons.mp hv with rfl | hv
    · exact h2
    · exact h3 v hv

theorem finish_holds (s : Src) (imgs : List Img) : Holds (finish s.position imgs) s imgs := by
  unfold Holds
  split
  · rename_i h
    subst h
    rfl
  · rename_i h
    obtain ⟨m, hm, h1, h2⟩ := maxInt_spec (l := imgs.map Img.ord) (by simpa using h)
    refine ⟨⟨s.position, imgs, List.range imgs.length, .order, m, false⟩, ?_, rfl, rfl, rfl, rfl, ?_, ?_⟩
    · unfold finish
      rw [hm]
      rfl
    · obtain ⟨i, hi, ho⟩ := List.mem_map.mp h1
      exact ⟨i, hi, ho⟩
    · intro i hi
      exact h2 _ (List.mem_map.mpr ⟨i, hi, rfl⟩)

theorem assemble_map (imgs : List Img) : assemble (imgs.map Img.pos) (imgs.map Img.damp) (imgs.map Img.gen) (imgs.map Img.wall) (imgs.map Img.ord) = imgs := by
  induction imgs with
  | nil => rfl
  | cons a l ih => simp [assemble, ih]

theorem sub_holds {s : Src} (hs : Valid s) (imgs : List Img) : Holds (sub s imgs) s imgs := by
  have : sub s imgs = finish s.position imgs := by
    unfold sub newWith
    rw [if_neg (by unfold Valid at hs; omega)]
    simp [assemble_map]
  rw [this]
  exact finish_holds s imgs

/-- **C98, new objects.** A position with two or three coordinates gives an object with itself as the only image, any other raises `ValueError`. With images, every image
carries its entries of the arrays; a missing `damping` is one; arrays of different lengths raise `NameError`. -/
theorem C98_new (position : List ℝ) :
    ((position.length = 2 ∨ position.length = 3) → ∃ s, new position = .ok s ∧ s.imgs = [⟨position, [1], -1, -1, 0⟩] ∧ s.position = position ∧ Valid s ∧ MaxOk s ∧ s.ordering = .order) ∧
    (¬ (position.length = 2 ∨ position.length = 3) → new position = .error .valueError) ∧
    (∀ images : List (List ℝ), (position.length = 2 ∨ position.length = 3) → ∀ (damping : Option (List (List ℝ))) (g w o : List Int),
      images ≠ [] → (∀ d ∈ damping, d.length = images.length) → g.length = images.length → w.length = images.length → o.length = images.length →
      ∃ s, newWith position images damping (some g) (some w) (some o) = .ok s ∧ Valid s ∧ MaxOk s ∧ s.imgs.length = images.length ∧
        ∀ k, k < images.length → s.imgs[k]? = some ⟨images.getD k [], (damping.getD (images.map fun _ => [1])).getD k [], g.getD k 0, w.getD k 0, o.getD k 0⟩) ∧
    (∀ images : List (List ℝ), (position.length = 2 ∨ position.length = 3) → ∀ (damping : List (List ℝ)) (g w o : List Int),
      ¬ (damping.length = images.length ∧ g.length = images.length ∧ w.length = images.length ∧ o.length = images.length) →
      newWith position images (some damping) (some g) (some w) (some o) = .error .nameError) := by
  refine ⟨fun h => ?_, fun h => ?_, fun images h damping g w o h0 hd hg hw ho => ?_, fun images h damping g w o hne => ?_⟩
  · refine ⟨⟨position, [⟨position, [1], -1, -1, 0⟩], List.range 1, .order, 0, false⟩, ?_, rfl, rfl, h, ⟨⟨_, List.mem_singleton.mpr rfl, rfl⟩, ?_⟩, rfl⟩
    · unfold new
      rw [if_neg (by omega)]
      rfl
    · intro i hi
      rw [List.mem_singleton.mp hi]
  · unfold new
    rw [if_pos (by omega)]
  · set d := damping.getD (images.map fun _ => [1]) with hdd
    have hdl : d.length = images.length := by
      cases hdm : damping with
      | none => simp [hdd, hdm]
      | some x =>
        rw [hdd, hdm]
        exact hd x (by simp [hdm])
    have key : ∀ (ps ds : List (List ℝ)) (g w o : List Int), ds.length = ps.length → g.length = ps.length → w.length = ps.length → o.length = ps.length →
        (assemble ps ds g w o).length = ps.length ∧
        ∀ k, k < ps.length → (assemble ps ds g w o)[k]? = some ⟨ps.getD k [], ds.getD k [], g.getD k 0, w.getD k 0, o.getD k 0⟩ := by
      intro ps
      induction ps with
      | nil => intro ds g w o _ _ _ _; exact ⟨rfl, fun k hk => by simp at hk⟩
      | cons p ps ih =>
        intro ds g w o h1 h2 h3 h4
        obtain ⟨d, ds, rfl⟩ := List.exists_cons_of_length_pos (l := ds) (by simp [h1])
        obtain ⟨g0, g, rfl⟩ := List.exists_cons_of_length_pos (l := g) (by simp [h2])
        obtain ⟨w0, w, rfl⟩ := List.exists_cons_of_length_pos (l := w) (by simp [h3])
        obtain ⟨o0, o, rfl⟩ := List.exists_cons_of_length_pos (l := o) (by simp [h4])
        obtain ⟨i1, i2⟩ := ih ds g w o (by simpa using h1) (by simpa using h2) (by simpa using h3) (by simpa using h4)
        refine ⟨by simp [assemble, i1], fun k hk => ?_⟩
        cases k with
        | zero => simp [assemble]
        | succ k =>
          simp only [assemble, List.getElem?_cons_succ, List.getD_cons_succ]
          exact i2 k (by simpa using hk)
    obtain ⟨k1, k2⟩ := key images d g w o hdl hg hw ho
    have hf : newWith position images damping (some g) (some w) (some o) = finish position (assemble images d g w o) := by
      unfold newWith
      rw [if_neg (by omega)]
      simp only [← hdd]
      rw [if_neg (by omega)]
      simp [hg, hw, ho]
    have hh := finish_holds ⟨position, [], [], .order, 0, false⟩ (assemble images d g w o)
    unfold Holds at hh
    rw [if_neg (by
      intro hc
      rw [hc] at k1
      exact h0 (List.length_eq_zero_iff.mp k1.symm))] at hh
    obtain ⟨t, ht, hp, hi, -, -, hm⟩ := hh
    refine ⟨t, by rw [hf]; exact ht, ?_, hm, by rw [hi, k1], fun k hk => by rw [hi]; exact k2 k hk⟩
    unfold Valid
    rw [hp]
    exact h
  · unfold newWith
    rw [if_neg (by omega)]
    simp only [Option.getD_some, Option.any_some, decide_eq_true_eq]
    by_cases h1 : images.length ≠ damping.length
    · rw [if_pos h1]
    · rw [if_neg h1]
      by_cases h2 : g.length ≠ images.length
      · rw [if_pos h2]
      · rw [if_neg h2]
        by_cases h3 : w.length ≠ images.length
        · rw [if_pos h3]
        · rw [if_neg h3]
          by_cases h4 : o.length ≠ images.length
          · rw [if_pos h4]
          · exfalso
            push Not at h1 h2 h3 h4
            exact hne ⟨h1.symm, h2, h3, h4⟩

/-- **C98, deviation.** The arguments `generators`, `walls` and `orders` have `None` as their default, with which images cannot be given: `TypeError`. -/
theorem C98_optional_arguments_deviation {position : List ℝ} (h : position.length = 2 ∨ position.length = 3) (images : List (List ℝ)) :
    newWith position images none none none none = .error .typeError ∧
    ∀ (o : List Int), o.length = images.length → newWith position images none none none (some o) = .error .typeError := by
  constructor
  · unfold newWith
    rw [if_neg (by omega)]
    simp
  · intro o ho
    unfold newWith
    rw [if_neg (by omega)]
    simp [ho]

/-! ## Slices -/

theorem mem_slice_range (n : Nat) (a b : Option Nat) (v : Int) :
    v ∈ slice ((List.range n).map fun (k : Nat) => (k : Int)) (a.map fun (k : Nat) => (k : Int)) (b.map fun (k : Nat) => (k : Int)) ↔
      (a.getD 0 : Int) ≤ v ∧ v < n ∧ ∀ c ∈ b, v < (c : Int) := by
  have hst : sliceStart n (a.map fun (k : Nat) => (k : Int)) = min (a.getD 0) n := by
    cases a with
    | none => simp [sliceStart]
    | some a => simp [sliceStart, clampIdx_nat]
  have hsp : sliceStop n (b.map fun (k : Nat) => (k : Int)) = min (b.getD n) n := by
    cases b with
    | none => simp [sliceStop]
    | some b => simp [sliceStop, clampIdx_nat]
  unfold slice
  simp only [List.length_map, List.length_range, hst, hsp]
  rw [List.mem_iff_getElem?]
  constructor
  · rintro ⟨i, hi⟩
    rw [List.getElem?_take] at hi
    split at hi
    · rename_i hlt
      rw [List.getElem?_drop, List.getElem?_map] at hi
      have hlt' : min (a.getD 0) n + i < n := by omega
      rw [List.getElem?_range hlt'] at hi
      simp only [Option.map_some, Option.some.injEq] at hi
      refine ⟨by omega, by omega, ?_⟩
      intro c hc
      cases b with
      | none => simp at hc
      | some b =>
        simp only [Option.mem_def, Option.some.injEq] at hc
        simp only [Option.getD_some] at hlt
        omega
    · simp at hi
  · rintro ⟨h1, h2, h3⟩
    have hv : ∃ k : Nat, v = k := ⟨v.toNat, by omega⟩
    obtain ⟨k, rfl⟩ := hv
    have h1' : a.getD 0 ≤ k := by exact_mod_cast h1
    have h2' : k < n := by exact_mod_cast h2
    have h3' : k < min (b.getD n) n := by
      cases b with
      | none => simpa using h2'
      | some b =>
        have := h3 b rfl
        simp only [Option.getD_some]
        omega
    refine ⟨k - a.getD 0, ?_⟩
    rw [List.getElem?_take, if_pos (by omega), List.getElem?_drop, List.getElem?_map, show min (a.getD 0) n + (k - a.getD 0) = k by omega, List.getElem?_range h2']
    rfl

theorem getSlice_order {s : Src} (ho : s.ordering = .order) {n : Nat} (hn : (s.maxOrder + 1).toNat = n) (a b : Option Int) :
    getSlice s a b = sub s (s.imgs.filter fun i => decide (i.ord ∈ slice ((List.range n).map fun (k : Nat) => (k : Int)) a b)) := by
  subst hn
  unfold getSlice
  rw [if_pos ho]

/-- **C98, slices by order.** With the natural ordering, `source[a:b]` has exactly the images of order at least `a` and below `b`, in their order and with all their
entries, and is again such an object; if there is none it raises `ValueError`. -/
theorem C98_slice {s : Src} (hs : Valid s) (ho : s.ordering = .order) (hm : MaxOk s) (h0 : ∀ i ∈ s.imgs, 0 ≤ i.ord) (a b : Option Nat) :
    Holds (getSlice s (a.map fun (k : Nat) => (k : Int)) (b.map fun (k : Nat) => (k : Int))) s
      (s.imgs.filter fun i => decide ((a.getD 0 : Int) ≤ i.ord ∧ ∀ c ∈ b, i.ord < (c : Int))) := by
  unfold getSlice
  rw [if_pos ho]
  simp only
  have e : (s.imgs.filter fun i => decide (i.ord ∈ slice ((List.range (s.maxOrder + 1).toNat).map fun (k : Nat) => (k : Int))
      (a.map fun (k : Nat) => (k : Int)) (b.map fun (k : Nat) => (k : Int)))) =
      s.imgs.filter fun i => decide ((a.getD 0 : Int) ≤ i.ord ∧ ∀ c ∈ b, i.ord < (c : Int)) := by
    apply List.filter_congr
    intro i hi
    rw [decide_eq_decide, mem_slice_range]
    have := hm.2 i hi
    have := h0 i hi
    constructor
    · rintro ⟨h1, -, h3⟩
      exact ⟨h1, h3⟩
    · rintro ⟨h1, h3⟩
      exact ⟨h1, by omega, h3⟩
  rw [e]
  exact sub_holds hs _

/-- **C98, deviation.** `image_source_model` does not touch `max_order`. The largest order stays zero, so of the images computed `source[:k]` has only those of order zero, for every `k`,
and `source[1:]` raises. -/
theorem C98_image_source_model_deviation {position : List ℝ} {s : Src} (hs : new position = .ok s) (imgs : List Img) :
    (∀ k : Nat, 1 ≤ k → Holds (getSlice (afterIsm s imgs) none (some k)) s ((afterIsm s imgs).imgs.filter fun i => decide (i.ord = 0))) ∧
    getSlice (afterIsm s imgs) (some 1) none = .error .valueError := by
  unfold new at hs
  split at hs
  · simp at hs
  · rename_i hl
    have hv : position.length = 2 ∨ position.length = 3 := by omega
    simp only [finish, maxInt, List.map_cons, List.map_nil, List.foldl_nil, Except.map, Except.ok.injEq] at hs
    subst hs
    have hf : ∀ (a b : Option Nat), (∀ v : Int, ((a.getD 0 : Int) ≤ v ∧ v < ((1 : Nat) : Int) ∧ ∀ c ∈ b, v < (c : Int)) ↔ v = 0 ∧ a.getD 0 = 0) →
        ∀ l : List Img, (l.filter fun i => decide (i.ord ∈ slice ((List.range 1).map fun (k : Nat) => (k : Int)) (a.map fun (k : Nat) => (k : Int))
          (b.map fun (k : Nat) => (k : Int)))) = l.filter fun i => decide (i.ord = 0 ∧ a.getD 0 = 0) := by
      intro a b hab l
      apply List.filter_congr
      intro i _
      rw [decide_eq_decide, mem_slice_range, hab]
    constructor
    · intro k hk
      have := hf none (some k) (by
        intro v
        simp only [Option.getD_none, Option.mem_def, Option.some.injEq, forall_eq']
        simp
        omega) (imgs.map fun i => { i with gen := -1 })
      simp only [Option.map_none, Option.map_some, Option.getD_none, and_true] at this
      rw [getSlice_order rfl (n := 1) rfl]
      simp only [afterIsm]
      rw [this]
      exact sub_holds (s := ⟨position, _, _, .order, 0, true⟩) hv _
    · have := hf (some 1) none (by
        intro v
        simp) (imgs.map fun i => { i with gen := -1 })
      simp only [Option.map_none, Option.map_some, Option.getD_some, Nat.one_ne_zero, and_false, decide_false, List.filter_false, Nat.cast_one] at this
      rw [getSlice_order rfl (n := 1) rfl]
      simp only [afterIsm]
      rw [this]
      have h2 := sub_holds (s := ⟨position, imgs.map fun i => { i with gen := -1 }, List.range 1, .order, 0, true⟩) hv []
      unfold Holds at h2
      rw [if_pos rfl] at h2
      exact h2

/-- **C98, deviation.** A single integer index always raises `IndexError`. -/
theorem C98_integer_deviation (s : Src) (i : Int) : getInt s i = .error .indexError := by
  have hg : ∀ {α : Type} (l : List α) (i : Int), Py.get l i = .error .indexError ∨ ∃ v, Py.get l i = .ok v := by
    intro α l i
    unfold Py.get
    split
    · split
      · exact Or.inr ⟨_, rfl⟩
      · exact Or.inl rfl
    · exact Or.inl rfl
  unfold getInt
  split
  · rcases hg ((List.range (s.maxOrder + 1).toNat).map fun (k : Nat) => (k : Int)) i with h | ⟨v, h⟩
    · rw [h]
      rfl
    · rw [h]
      rfl
  · rcases hg s.I i with h | ⟨v, h⟩
    · rw [h]
      rfl
    · rw [h]
      simp only [Except.bind]
      unfold take pick
      cases hk : s.imgs[v]? with
      | none => simp [hk, bind, Except.bind]
      | some x => simp [hk, bind, Except.bind, pure, Except.pure]

/-! ## Orderings -/

/-- `argsort` returns the positions of a list in the order of its values. -/
def Sorts (argsort : List ℝ → List Nat) : Prop :=
  ∀ l, (argsort l).Perm (List.range l.length) ∧ (argsort l).Pairwise fun i j => l.getD i 0 ≤ l.getD j 0

theorem mapM_getElem? {α : Type} (l : List α) (d : α) (idx : List Nat) (h : ∀ k ∈ idx, k < l.length) :
    idx.mapM (pick l) = .ok (idx.map fun k => l.getD k d) := by
  induction idx with
  | nil => rfl
  | cons k idx ih =>
    have hk := h k (by simp)
    have hp : pick l k = .ok l[k] := by
      unfold pick
      rw [List.getElem?_eq_getElem hk]
    rw [List.mapM_cons, ih (fun j hj => h j (List.mem_cons_of_mem _ hj)), hp]
    simp [bind, Except.bind, pure, Except.pure, List.getElem?_eq_getElem hk]

/-- The list in the order of `argsort`. -/
theorem sorted_spec {α : Type} {argsort : List ℝ → List Nat} (ha : Sorts argsort) (l : List α) (d : α) (f : α → ℝ) :
    ((argsort (l.map f)).map fun k => l.getD k d).Perm l ∧ ((argsort (l.map f)).map fun k => l.getD k d).Pairwise fun x y => f x ≤ f y := by
  obtain ⟨hp, hs⟩ := ha (l.map f)
  rw [List.length_map] at hp
  have hr : (List.range l.length).map (fun k => l.getD k d) = l := by
    apply List.ext_getElem
    · simp
    · intro i h1 h2
      simp [h2]
  refine ⟨?_, ?_⟩
  · have := hp.map fun k => l.getD k d
    rwa [hr] at this
  · rw [List.pairwise_map]
    refine hs.imp_of_mem ?_
    intro i j hi hj hij
    have hi' : i < l.length := List.mem_range.mp (hp.mem_iff.mp hi)
    have hj' : j < l.length := List.mem_range.mp (hp.mem_iff.mp hj)
    rw [List.getD_eq_getElem _ _ (by simpa using hi'), List.getD_eq_getElem _ _ (by simpa using hj'), List.getElem_map, List.getElem_map] at hij
    rw [List.getD_eq_getElem _ _ hi', List.getD_eq_getElem _ _ hj']
    exact hij

theorem slice_prefix {α : Type} (l : List α) (k : Nat) : slice l none (some (k : Int)) = l.take k ∧ slice l (some 0) (some (k : Int)) = l.take k := by
  constructor
  · simp only [slice, sliceStart, sliceStop, clampIdx_nat, List.drop_zero, Nat.sub_zero]
    rw [List.take_eq_take_iff]
    omega
  · have : clampIdx l.length 0 = 0 := by
      have := clampIdx_nat l.length 0
      simpa using this
    simp only [slice, sliceStart, sliceStop, clampIdx_nat, this, List.drop_zero, Nat.sub_zero]
    rw [List.take_eq_take_iff]
    omega

/-- **C98, the nearest images.** After `set_ordering('nearest', ref_point)`, `source[:k]` has the first `k` images in the order of their distance from the point; all
images are there if `k` is large. Computed anew when the images have changed. -/
theorem C98_nearest {argsort : List ℝ → List Nat} (ha : Sorts argsort) {s : Src} (hs : Valid s) (ref : List ℝ) :
    (setOrdering argsort s .nearest (some ref)).2 = .ok () ∧
    ∃ l : List Img, l.Perm s.imgs ∧ (l.Pairwise fun x y => dist x.pos ref ≤ dist y.pos ref) ∧
      ∀ k : Nat, Holds (getSlice (setOrdering argsort s .nearest (some ref)).1 none (some k)) s (l.take k) := by
  refine ⟨rfl, ?_⟩
  obtain ⟨h1, h2⟩ := sorted_spec ha s.imgs ⟨[], [], 0, 0, 0⟩ fun i => dist i.pos ref
  refine ⟨_, h1, h2, fun k => ?_⟩
  have hd : distance { s with ordering := .nearest } ref = s.imgs.map fun i => dist i.pos ref := rfl
  unfold getSlice
  simp only [setOrdering, reduceCtorEq, if_false, hd, (slice_prefix _ k).1]
  have ht : take s.imgs ((argsort (s.imgs.map fun i => dist i.pos ref)).take k) =
      .ok (((argsort (s.imgs.map fun i => dist i.pos ref)).take k).map fun j => s.imgs.getD j ⟨[], [], 0, 0, 0⟩) := by
    apply mapM_getElem?
    intro j hj
    have := (ha (s.imgs.map fun i => dist i.pos ref)).1.mem_iff.mp (List.mem_of_mem_take hj)
    simpa using this
  rw [ht]
  simp only [Except.bind]
  rw [List.map_take]
  exact sub_holds (s := { s with ordering := .nearest, I := _ }) hs _

/-- **C98, deviation.** `set_ordering('strongest', ref_point)` always raises, as the zero norm of an array with two axes does not exist. It and any unknown name leave their name behind, after which slices
are taken from the last order of distances (or of the array) and not by reflection order. -/
theorem C98_strongest_deviation (argsort : List ℝ → List Nat) (s : Src) (ref : List ℝ) :
    (setOrdering argsort s .strongest (some ref)).2 = .error .valueError ∧ (∀ r, (setOrdering argsort s .other r).2 = .error .nameError) ∧
    (∀ a b, getSlice (setOrdering argsort s .strongest (some ref)).1 a b = getSlice { s with ordering := .nearest } a b) ∧
    (∀ r a b, getSlice (setOrdering argsort s .other r).1 a b = getSlice { s with ordering := .nearest } a b) ∧
    (∀ r, setOrdering argsort s .order r = ({ s with ordering := .order }, .ok ())) ∧
    (setOrdering argsort s .nearest none).2 = .error .nameError := by
  refine ⟨rfl, fun _ => rfl, fun a b => ?_, fun r a b => ?_, fun _ => rfl, rfl⟩
  · unfold getSlice setOrdering
    simp only [reduceCtorEq, if_false]
    rfl
  · unfold getSlice setOrdering
    simp only [reduceCtorEq, if_false]
    rfl

/-- **C98, lists and masks.** -/
theorem C98_list {s : Src} (hs : Valid s) :
    (∀ idx : List Nat, (∀ k ∈ idx, k < s.imgs.length) → Holds (getList s (idx.map fun (k : Nat) => (k : Int))) s (idx.map fun k => s.imgs.getD k ⟨[], [], 0, 0, 0⟩)) ∧
    (∀ keep : Nat → Bool, Holds (getMask s ((List.range s.imgs.length).map keep)) s
      (((List.range s.imgs.length).filter keep).map fun k => s.imgs.getD k ⟨[], [], 0, 0, 0⟩)) ∧
    ∀ mask : List Bool, mask.length ≠ s.imgs.length → getMask s mask = .error .indexError := by
  refine ⟨fun idx hidx => ?_, fun keep => ?_, fun mask hm => ?_⟩
  · unfold getList
    have : (idx.map fun (k : Nat) => (k : Int)).mapM (fun i => Py.get s.imgs i) = .ok (idx.map fun k => s.imgs.getD k ⟨[], [], 0, 0, 0⟩) := by
      induction idx with
      | nil => rfl
      | cons k idx ih =>
        have hk := hidx k (by simp)
        rw [List.map_cons, List.mapM_cons, ih (fun j hj => hidx j (List.mem_cons_of_mem _ hj)), get_nat _ hk]
        simp [bind, Except.bind, pure, Except.pure, List.getElem?_eq_getElem hk]
    rw [this]
    exact sub_holds hs _
  · unfold getMask
    rw [if_neg (by simp)]
    have e : ((s.imgs.zip ((List.range s.imgs.length).map keep)).filter Prod.snd).map Prod.fst =
        ((List.range s.imgs.length).filter keep).map fun k => s.imgs.getD k ⟨[], [], 0, 0, 0⟩ := by
      have hz : s.imgs.zip ((List.range s.imgs.length).map keep) = (List.range s.imgs.length).map fun k => (s.imgs.getD k ⟨[], [], 0, 0, 0⟩, keep k) := by
        apply List.ext_getElem
        · simp
        · intro i h1 h2
          have : i < s.imgs.length := by simpa using h2
          simp [this]
      rw [hz, List.filter_map, List.map_map]
      rfl
    rw [e]
    exact sub_holds hs _
  · unfold getMask
    rw [if_pos hm]

/-! ## Other methods -/

/-- **C98, `get_images`.** Images up to the order given (all of them without one), and of them the `n` nearest to a point given as a column. -/
theorem C98_get_images {argsort : List ℝ → List Nat} (ha : Sorts argsort) {s : Src} (hne : s.imgs ≠ []) (r : Ref) (v : List ℝ) (m : Int) :
    getImages argsort s (some m) none r = .ok ((s.imgs.filter fun i => decide (i.ord ≤ m)).map Img.pos) ∧
    getImages argsort s none none r = .ok (s.imgs.map Img.pos) ∧
    ∃ l : List (List ℝ), l.Perm ((s.imgs.filter fun i => decide (i.ord ≤ m)).map Img.pos) ∧ (l.Pairwise fun x y => dist x v ≤ dist y v) ∧
      ∀ n : Nat, getImages argsort s (some m) (some n) (.column v) = .ok (l.take n) := by
  refine ⟨rfl, ?_, ?_⟩
  · unfold getImages
    obtain ⟨m, hm, h1, h2⟩ := maxInt_spec (l := s.imgs.map Img.ord) (by simpa using hne)
    simp only [hm, Except.bind]
    rw [List.filter_eq_self.mpr]
    intro i hi
    exact decide_eq_true (h2 _ (List.mem_map.mpr ⟨i, hi, rfl⟩))
  · set pts := (s.imgs.filter fun (i : Img) => decide (i.ord ≤ m)).map Img.pos with hpts
    obtain ⟨h1, h2⟩ := sorted_spec ha pts [] fun p => (List.zipWith (fun a b => (a - b) ^ 2) p v).sum
    refine ⟨_, h1, h2.imp fun {x y} h => Real.sqrt_le_sqrt h, fun n => ?_⟩
    unfold getImages
    simp only [Except.bind, ← hpts, squares, (slice_prefix _ n).2]
    rw [mapM_getElem? pts [], List.map_take]
    intro j hj
    have := (ha (pts.map fun p => (List.zipWith (fun a b => (a - b) ^ 2) p v).sum)).1.mem_iff.mp (List.mem_of_mem_take hj)
    simpa using this

/-- **C98, deviation.** A point given as an array with one axis is matched with the images and not with the coordinates: the call raises unless the number of images is one or
that of the coordinates, and in the latter case returns others than the nearest images. -/
theorem C98_flat_point_deviation {argsort : List ℝ → List Nat} (ha : Sorts argsort) :
    (∀ (s : Src) (m n : Int) (v : List ℝ), (s.imgs.filter fun i => decide (i.ord ≤ m)).length ≠ v.length → (s.imgs.filter fun i => decide (i.ord ≤ m)).length ≠ 1 →
      getImages argsort s (some m) (some n) (.flat v) = .error .valueError) ∧
    ∃ s : Src, Valid s ∧ MaxOk s ∧ (∃ i ∈ s.imgs, dist i.pos [0, 10] = 0) ∧ ∃ p, dist p [0, 10] = 10 ∧ getImages argsort s none (some 1) (.flat [0, 10]) = .ok [p] := by
  constructor
  · intro s m n v h1 h2
    unfold getImages
    simp only [Except.bind, squares]
    rw [if_neg (by simpa using h1)]
    generalize hg : (s.imgs.filter fun (i : Img) => decide (i.ord ≤ m)).map Img.pos = l
    have hl : l.length ≠ 1 := by
      rw [← hg]
      simpa using h2
    match l, hl with
    | [], _ => rfl
    | [_], h => exact absurd rfl h
    | _ :: _ :: _, _ => rfl
  · refine ⟨⟨[0, 10], [⟨[0, 10], [1], -1, -1, 0⟩, ⟨[10, 10], [1], -1, -1, 1⟩], [0, 1], .order, 1, false⟩, Or.inl rfl, ?_, ⟨⟨[0, 10], [1], -1, -1, 0⟩, by simp, by simp [dist]⟩, [10, 10], ?_, ?_⟩
    · constructor
      · exact ⟨⟨[10, 10], [1], -1, -1, 1⟩, by simp, rfl⟩
      · intro i hi
        simp only [List.mem_cons, List.not_mem_nil, or_false] at hi
        rcases hi with rfl | rfl <;> simp
    · have : (List.zipWith (fun a b => (a - b) ^ 2) [10, 10] [0, 10] : List ℝ).sum = 10 ^ 2 := by
        norm_num
      unfold dist
      rw [this]
      exact Real.sqrt_sq (by norm_num)
    · have hd : squares [[0, 10], [10, 10]] (.flat [0, 10]) = .ok [100, 0] := by
        simp only [squares, List.length_cons, List.length_nil, if_true]
        norm_num
      obtain ⟨hp, hs⟩ := ha [100, 0]
      have hlen : (argsort [100, 0]).length = 2 := by simpa using hp.length_eq
      obtain ⟨a, b, hab⟩ : ∃ a b, argsort [100, 0] = [a, b] := List.length_eq_two.mp hlen
      rw [hab] at hp hs
      have ha2 : a < 2 := by
        have := hp.mem_iff (a := a)
        simpa using this
      have hb2 : b < 2 := by
        have := hp.mem_iff (a := b)
        simpa using this
      have hne : a ≠ b := by
        have := hp.nodup_iff.mpr List.nodup_range
        simpa using this
      have hle : ([100, 0] : List ℝ).getD a 0 ≤ ([100, 0] : List ℝ).getD b 0 := by
        simpa using hs
      have hab' : a = 1 := by
        by_contra hc
        have e1 : a = 0 := by omega
        have e2 : b = 1 := by omega
        subst e1 e2
        norm_num at hle
      unfold getImages
      simp only [maxInt, List.map_cons, List.map_nil, List.foldl_cons, List.foldl_nil, Except.bind]
      have hf : ([⟨[0, 10], [1], -1, -1, 0⟩, ⟨[10, 10], [1], -1, -1, 1⟩] : List Img).filter (fun (i : Img) => decide (i.ord ≤ max 0 1)) =
          [⟨[0, 10], [1], -1, -1, 0⟩, ⟨[10, 10], [1], -1, -1, 1⟩] := by
        simp
      rw [hf]
      simp only [List.map_cons, List.map_nil, hd]
      have h1 := (slice_prefix (argsort [100, 0]) 1).2
      rw [Nat.cast_one] at h1
      rw [h1, hab, hab']
      rfl

/-- **C98, `get_damping`.** The dampings of the images up to an order. Deviation: the default value raises `TypeError`. -/
theorem C98_get_damping (s : Src) : (∀ m, getDamping s (some m) = .ok ((s.imgs.filter fun i => decide (i.ord ≤ m)).map Img.damp)) ∧ getDamping s none = .error .typeError :=
  ⟨fun _ => rfl, rfl⟩

/-- **C98, deviation.** `wall_sequence` never returns: with integer generators in the range of the images (such as the value `-1` of the original source) the loop does not end, and after
`image_source_model` it raises `IndexError`. -/
theorem C98_wall_sequence_deviation {s : Src} (hg : ∀ i ∈ s.imgs, -(s.imgs.length : Int) ≤ i.gen ∧ i.gen < s.imgs.length) {i : Nat} (hi : i < s.imgs.length) :
    (s.floatGen = false → ∀ fuel, wallSequence s fuel i = none) ∧
    ∀ imgs : List Img, i < imgs.length → ∀ fuel, wallSequence (afterIsm s imgs) fuel i = some (.error .indexError) := by
  constructor
  · intro hf fuel
    have key : ∀ (fuel : Nat) (p : Int) (w : List Int), -(s.imgs.length : Int) ≤ p → p < s.imgs.length → wallLoop s.imgs fuel p w = none := by
      intro fuel
      induction fuel with
      | zero => intro p w _ _; rfl
      | succ fuel ih =>
        intro p w h1 h2
        have hk : ∃ k, normIdx s.imgs.length p = some k ∧ k < s.imgs.length := by
          unfold normIdx
          split
          · exact ⟨_, rfl, by omega⟩
          · exact ⟨_, rfl, by omega⟩
        obtain ⟨k, hk1, hk2⟩ := hk
        unfold wallLoop Py.get
        rw [hk1]
        simp only [List.getElem?_eq_getElem hk2]
        have := hg _ (List.getElem_mem hk2)
        exact ih _ _ this.1 this.2
    unfold wallSequence
    rw [get_nat _ hi]
    simp only [hf, Bool.false_eq_true, if_false]
    have := hg _ (List.getElem_mem hi)
    exact key fuel _ _ this.1 this.2
  · intro imgs hi2 fuel
    unfold wallSequence
    have : i < (afterIsm s imgs).imgs.length := by simpa [afterIsm] using hi2
    rw [get_nat _ this]
    simp [afterIsm]

/-! ## The channel matrix -/

theorem max0_spec (l : List ℝ) : 0 ≤ max0 l ∧ ∀ v ∈ l, v ≤ max0 l := by
  have key : ∀ (l : List ℝ) (a : ℝ), a ≤ l.foldl max a ∧ ∀ v ∈ l, v ≤ l.foldl max a := by
    intro l
    induction l with
    | nil => intro a; simp
    | cons b l ih =>
      intro a
      obtain ⟨h2, h3⟩ := ih (max a b)
      simp only [List.foldl_cons, List.mem_cons, forall_eq_or_imp]
      exact ⟨(le_max_left _ _).trans h2, (le_max_right _ _).trans h2, h3⟩
  exact key l 0

theorem fill_spec {Lg : Nat} (hL : 1 ≤ Lg) (Lh : Nat) (h : Nat → Nat → List ℝ) (hlen : ∀ s r, (h s r).length = Lh) (l : List (Nat × Nat)) (H : Nat → Nat → ℝ) :
    ∃ G, fill Lg (Lg + Lh - 1) h l H = .ok G ∧ ∀ s r a b, a < Lg → b < Lg + Lh - 1 →
      G (r * Lg + a) (s * (Lg + Lh - 1) + b) = if (s, r) ∈ l then (if a ≤ b then (h s r).getD (b - a) 0 else 0) else H (r * Lg + a) (s * (Lg + Lh - 1) + b) := by
  induction l generalizing H with
  | nil => exact ⟨H, rfl, fun s r a b _ _ => by simp⟩
  | cons p l ih =>
    obtain ⟨s0, r0⟩ := p
    have hM : ∃ M, LinPred.convmtx (h s0 r0) Lg = .ok M ∧ ∀ a b, a < Lg → b < Lg + Lh - 1 → M.val b a = if a ≤ b then (h s0 r0).getD (b - a) 0 else 0 := by
      unfold LinPred.convmtx
      rw [if_neg (by omega)]
      refine ⟨_, rfl, fun a b ha hb => ?_⟩
      simp only
      by_cases hab : a ≤ b
      · rw [if_pos hab, if_pos hab]
        rcases Nat.lt_or_ge (b - a) (h s0 r0).length with hlt | hge
        · rw [List.getD_append _ _ _ _ hlt]
        · rw [List.getD_append_right _ _ _ _ hge, List.getD_eq_default (h s0 r0) _ hge]
          have : b - a - (h s0 r0).length < Lg - 1 := by
            have := hlen s0 r0
            omega
          rw [List.getD_replicate _ this]
      · rw [if_neg hab, if_neg hab]
        by_cases hlt : a - b < Lg
        · rw [List.getD_replicate _ hlt]
        · rw [List.getD_eq_default _ _ (by simpa using Nat.le_of_not_lt hlt)]
    obtain ⟨M, hM, hMv⟩ := hM
    obtain ⟨G, hG, hv⟩ := ih (fun a b => if r0 * Lg ≤ a ∧ a < (r0 + 1) * Lg ∧ s0 * (Lg + Lh - 1) ≤ b ∧ b < (s0 + 1) * (Lg + Lh - 1) then M.val (b - s0 * (Lg + Lh - 1)) (a - r0 * Lg) else H a b)
    refine ⟨G, ?_, fun s r a b ha hb => ?_⟩
    · unfold fill
      rw [hM]
      exact hG
    · rw [hv s r a b ha hb]
      by_cases hin : (s, r) ∈ l
      · rw [if_pos hin, if_pos (List.mem_cons_of_mem _ hin)]
      · rw [if_neg hin]
        generalize Lg + Lh - 1 = W at *
        have hr : ∀ (r r0 a w : Nat), a < w → (r0 * w ≤ r * w + a ∧ r * w + a < (r0 + 1) * w ↔ r0 = r) := by
          intro r r0 a w haw
          constructor
          · rintro ⟨h1, h2⟩
            have h3 : (r * w + a) / w = r := by
              rw [Nat.mul_comm, Nat.mul_add_div (by omega), Nat.div_eq_of_lt haw, add_zero]
            have h4 : r0 ≤ (r * w + a) / w := (Nat.le_div_iff_mul_le (by omega)).mpr h1
            have h5 : (r * w + a) / w < r0 + 1 := (Nat.div_lt_iff_lt_mul (by omega)).mpr h2
            omega
          · rintro rfl
            constructor
            · omega
            · rw [Nat.add_mul]
              omega
        by_cases heq : s0 = s ∧ r0 = r
        · obtain ⟨rfl, rfl⟩ := heq
          have h1 := (hr r0 r0 a Lg ha).mpr rfl
          have h2 := (hr s0 s0 b W hb).mpr rfl
          rw [if_pos ⟨h1.1, h1.2, h2.1, h2.2⟩, if_pos (by simp), Nat.add_sub_cancel_left, Nat.add_sub_cancel_left, hMv a b ha hb]
        · have hne : (s, r) ∉ (s0, r0) :: l := by
            simp only [List.mem_cons, Prod.mk.injEq, not_or]
            exact ⟨fun hc => heq ⟨hc.1.symm, hc.2.symm⟩, hin⟩
          rw [if_neg hne, if_neg]
          rintro ⟨h1, h2, h3, h4⟩
          exact heq ⟨(hr s s0 b W hb).mp ⟨h3, h4⟩, (hr r r0 a Lg ha).mp ⟨h1, h2⟩⟩

/-- The common start and margin of the impulse responses and their length. -/
theorem sizes_spec {mics : List (List ℝ)} {sources : List (List Img)} {Fs eps c : ℝ} {unit : Bool} (hm : mics ≠ []) (hs : ∃ s ∈ sources, s ≠ [])
    (hd : ∀ s ∈ sources, ∀ i ∈ s, ∀ m ∈ mics, dist i.pos m ≠ 0) :
    ∃ tmin offset Lh dmax dmpMax dmin, sizes mics sources Fs eps c unit = .ok (some (tmin, offset, Lh)) ∧ tmin = dmin / c ∧ offset = dmpMax / (Real.pi * Fs * eps) ∧ 0 ≤ dmpMax ∧
      Lh = ⌊(dmax / c - tmin + 2 * offset) * Fs⌋.toNat ∧
      ∀ s ∈ sources, ∀ i ∈ s, ∀ m ∈ mics, dmin ≤ dist i.pos m ∧ dist i.pos m ≤ dmax ∧ strength unit i m ≤ dmpMax := by
  set pairs := sources.flatten.flatMap fun i => mics.map fun m => (i, m) with hpairs
  have hmem : ∀ p, p ∈ pairs ↔ (∃ s ∈ sources, p.1 ∈ s) ∧ p.2 ∈ mics := by
    intro p
    rw [hpairs, List.mem_flatMap]
    constructor
    · rintro ⟨i, hi, hp⟩
      obtain ⟨m, hm, rfl⟩ := List.mem_map.mp hp
      obtain ⟨s, hs, his⟩ := List.mem_flatten.mp hi
      exact ⟨⟨s, hs, his⟩, hm⟩
    · rintro ⟨⟨s, hs, his⟩, hm⟩
      exact ⟨p.1, List.mem_flatten.mpr ⟨s, hs, his⟩, List.mem_map.mpr ⟨p.2, hm, rfl⟩⟩
  have hne : pairs.map (fun p => dist p.1.pos p.2) ≠ [] := by
    obtain ⟨s, hs1, hs2⟩ := hs
    obtain ⟨i, l, rfl⟩ := List.exists_cons_of_ne_nil hs2
    obtain ⟨m, l', rfl⟩ := List.exists_cons_of_ne_nil hm
    have : (i, m) ∈ pairs := (hmem _).mpr ⟨⟨_, hs1, by simp⟩, by simp⟩
    intro hc
    rw [List.map_eq_nil_iff] at hc
    rw [hc] at this
    simp at this
  obtain ⟨a, l, hal⟩ := List.exists_cons_of_ne_nil hne
  have h0 : (0 : ℝ) ∉ a :: l := by
    rw [← hal]
    intro hc
    obtain ⟨p, hp, hp0⟩ := List.mem_map.mp hc
    obtain ⟨⟨s, hs, his⟩, hmm⟩ := (hmem p).mp hp
    exact hd s hs _ his _ hmm hp0
  obtain ⟨mn, hmn, -, hmnle⟩ := Delays.minOf_spec (l := a :: l) (by simp)
  have hmn' : l.foldl min a = mn := by
    simpa [Delays.minOf] using hmn
  refine ⟨mn / c, max0 (pairs.map fun p => strength unit p.1 p.2) / (Real.pi * Fs * eps), _, max0 (a :: l), max0 (pairs.map fun p => strength unit p.1 p.2), mn, ?_, rfl, rfl, (max0_spec _).1, rfl, ?_⟩
  · unfold sizes
    simp only [← hpairs, hal]
    rw [if_neg h0, hmn']
  · intro s hs i hi m hm
    have hp : (i, m) ∈ pairs := (hmem _).mpr ⟨⟨s, hs, hi⟩, hm⟩
    have hdm : dist i.pos m ∈ a :: l := by
      rw [← hal]
      exact List.mem_map.mpr ⟨(i, m), hp, rfl⟩
    exact ⟨hmnle _ hdm, (max0_spec _).2 _ hdm, (max0_spec _).2 _ (List.mem_map.mpr ⟨(i, m), hp, rfl⟩)⟩

theorem abs_sinc_le {x : ℝ} (hx : x ≠ 0) : |Delays.sinc x| ≤ 1 / (Real.pi * |x|) := by
  unfold Delays.sinc
  rw [if_neg hx, abs_div, abs_mul, abs_of_pos Real.pi_pos]
  exact div_le_div_of_nonneg_right (Real.abs_sin_le_one _) (by positivity)

/-- **C98, the channel matrix.** For one microphone or more, sources with one band and images, and no microphone at an image: with the common delay `offset - t_min`, the block of microphone `r` and source `s` is the
convolution matrix of `h[n] = Σᵢ gᵢ sinc(n - Fs (dᵢ / c - t_min + offset))` over the images, `gᵢ` being `damping / (4 π dᵢ)`. Each term is at most
`epsilon` at the times before the first and after the sample that follows the last one. -/
theorem C98_matrix {mics : List (List ℝ)} {sources : List (List Img)} {Lg : Nat} {Fs eps c : ℝ} (unit : Bool) (hLg : 1 ≤ Lg) (hm : mics ≠ []) (hs : ∃ s ∈ sources, s ≠ [])
    (hd : ∀ s ∈ sources, ∀ i ∈ s, ∀ m ∈ mics, dist i.pos m ≠ 0) (hb : ∀ s ∈ sources, ∀ i ∈ s, i.damp.length ≤ 1) (hF : 0 < Fs) (he : 0 < eps) (hc : 0 < c) :
    ∃ (tmin offset : ℝ) (Lh : Nat) (H : Nat → Nat → ℝ), buildRirMatrix mics sources Lg Fs eps c unit = .ok (some (Lg + Lh - 1, H)) ∧
      (∀ s r a b, s < sources.length → r < mics.length → a < Lg → b < Lg + Lh - 1 → H (r * Lg + a) (s * (Lg + Lh - 1) + b) =
        if a ≤ b ∧ b - a < Lh then ((sources.getD s []).map fun i => (if unit then 1 else i.damp.headD 0) / (4 * Real.pi * dist i.pos (mics.getD r [])) *
          Delays.sinc (((b - a : Nat) : ℝ) - Fs * (dist i.pos (mics.getD r []) / c - tmin + offset))).sum else 0) ∧
      ∀ s ∈ sources, ∀ i ∈ s, (∀ v ∈ i.damp, 0 ≤ v) → ∀ m ∈ mics, ∀ n : Int, n ≤ 0 ∨ (Lh : Int) + 1 ≤ n →
        |(if unit then 1 else i.damp.headD 0) / (4 * Real.pi * dist i.pos m) * Delays.sinc ((n : ℝ) - Fs * (dist i.pos m / c - tmin + offset))| ≤ eps := by
  obtain ⟨tmin, offset, Lh, dmax, dmpMax, dmin, hsz, htm, hof, hdmp, hLh, hall⟩ := sizes_spec (Fs := Fs) (eps := eps) (c := c) (unit := unit) hm hs hd
  set h : Nat → Nat → List ℝ := fun s r => response unit Fs c tmin offset Lh (mics.getD r []) (sources.getD s []) with hh
  obtain ⟨H, hH, hv⟩ := fill_spec hLg Lh h (by intro s r; simp [hh, response]) ((List.range sources.length).flatMap fun s => (List.range mics.length).map fun r => (s, r)) fun _ _ => 0
  refine ⟨tmin, offset, Lh, H, ?_, ?_, ?_⟩
  · unfold buildRirMatrix
    rw [if_neg]
    · rw [hsz]
      simp only [Except.bind]
      simp only [hh] at hH
      rw [hH]
      rfl
    · intro hc
      obtain ⟨s, hs, h2⟩ := List.any_eq_true.mp hc
      obtain ⟨i, hi, h3⟩ := List.any_eq_true.mp h2
      have := hb s hs i hi
      have := of_decide_eq_true h3
      omega
  · intro s r a b hs hr ha hb
    rw [hv s r a b ha hb, if_pos]
    · by_cases hab : a ≤ b
      · rw [if_pos hab]
        by_cases hlt : b - a < Lh
        · rw [if_pos ⟨hab, hlt⟩]
          simp only [hh, response]
          rw [List.getD_eq_getElem _ _ (by simpa using hlt), List.getElem_map, List.getElem_range]
          congr 1
          apply List.map_congr_left
          intro i _
          unfold Delays.lowPassDirac
          rw [List.getD_eq_getElem _ _ (by simpa using hlt), List.getElem_map, List.getElem_range]
          rfl
        · rw [if_neg (fun hc => hlt hc.2), List.getD_eq_default _ _ (by simpa [hh, response] using Nat.le_of_not_lt hlt)]
      · rw [if_neg hab, if_neg (fun hc => hab hc.1)]
    · rw [List.mem_flatMap]
      exact ⟨s, List.mem_range.mpr hs, List.mem_map.mpr ⟨r, List.mem_range.mpr hr, rfl⟩⟩
  · intro s hs i hi hpos m hm n hn
    obtain ⟨h1, h2, h3⟩ := hall s hs i hi m hm
    have hdpos : 0 < dist i.pos m := lt_of_le_of_ne (Real.sqrt_nonneg _) (Ne.symm (hd s hs i hi m hm))
    have hoff : 0 ≤ offset := by
      rw [hof]
      positivity
    have hFo : Fs * offset = dmpMax / (Real.pi * eps) := by
      rw [hof]
      field_simp
    set x : ℝ := (n : ℝ) - Fs * (dist i.pos m / c - tmin + offset) with hx
    have hst : 0 ≤ strength unit i m := by
      unfold strength
      apply div_nonneg
      · split
        · norm_num
        · cases hdm : i.damp with
          | nil => simp
          | cons a l =>
            simp only [List.headD_cons]
            exact hpos a (by simp [hdm])
      · positivity
    have hxo : Fs * offset ≤ |x| := by
      rcases hn with hn | hn
      · have : (n : ℝ) ≤ 0 := by exact_mod_cast hn
        have h4 : 0 ≤ Fs * (dist i.pos m / c - tmin) := by
          apply mul_nonneg hF.le
          rw [htm, ← sub_div]
          exact div_nonneg (by linarith) hc.le
        rw [abs_of_nonpos (by rw [hx]; nlinarith)]
        rw [hx]
        nlinarith
      · have h4 : (dmax / c - tmin + 2 * offset) * Fs < n := by
          have h5 := Int.lt_floor_add_one ((dmax / c - tmin + 2 * offset) * Fs)
          have h6 : ⌊(dmax / c - tmin + 2 * offset) * Fs⌋ + 1 ≤ n := by omega
          have h7 : ((⌊(dmax / c - tmin + 2 * offset) * Fs⌋ : ℝ)) + 1 ≤ n := by exact_mod_cast h6
          linarith
        have h5 : dist i.pos m / c ≤ dmax / c := div_le_div_of_nonneg_right h2 hc.le
        have h6 : Fs * offset ≤ x := by
          rw [hx]
          nlinarith
        exact h6.trans (le_abs_self x)
    by_cases hx0 : x = 0
    · have hz : Fs * offset ≤ 0 := by
        rw [hx0, abs_zero] at hxo
        exact hxo
      have hz' : dmpMax = 0 := by
        have : dmpMax / (Real.pi * eps) ≤ 0 := by rw [← hFo]; exact hz
        have h8 := div_nonneg hdmp (mul_nonneg Real.pi_pos.le he.le)
        have h9 : dmpMax / (Real.pi * eps) = 0 := le_antisymm this h8
        rcases div_eq_zero_iff.mp h9 with h | h
        · exact h
        · exact absurd h (by positivity)
      have : strength unit i m = 0 := le_antisymm (by rw [hz'] at h3; exact h3) hst
      unfold strength at this
      rw [this, zero_mul, abs_zero]
      exact he.le
    · change |strength unit i m * Delays.sinc x| ≤ eps
      rw [abs_mul, abs_of_nonneg hst]
      have hxp : 0 < |x| := abs_pos.mpr hx0
      calc strength unit i m * |Delays.sinc x| ≤ strength unit i m * (1 / (Real.pi * |x|)) := mul_le_mul_of_nonneg_left (abs_sinc_le hx0) hst
        _ ≤ dmpMax * (1 / (Real.pi * |x|)) := mul_le_mul_of_nonneg_right h3 (by positivity)
        _ ≤ eps := by
          rw [mul_one_div, div_le_iff₀ (by positivity)]
          rw [hFo, div_le_iff₀ (by positivity)] at hxo
          nlinarith

/-- Sorting functions exist. -/
example : ∃ argsort, Sorts argsort := by
  classical
  refine ⟨fun l => (List.range l.length).mergeSort fun i j => decide (l.getD i 0 ≤ l.getD j 0), fun l => ⟨List.mergeSort_perm _ _, ?_⟩⟩
  refine (List.pairwise_mergeSort (le := fun i j => decide (l.getD i 0 ≤ l.getD j 0)) ?_ ?_ _).imp ?_
  · intro a b c h1 h2
    simp only [decide_eq_true_eq] at *
    exact h1.trans h2
  · intro a b
    simp only [Bool.or_eq_true, decide_eq_true_eq]
    exact le_total _ _
  · intro a b h
    simpa using h

/-- A source with an image of order one. -/
example : ∃ s : Src, Valid s ∧ MaxOk s ∧ s.ordering = .order ∧ (∀ i ∈ s.imgs, 0 ≤ i.ord) ∧ (∀ i ∈ s.imgs, -(s.imgs.length : Int) ≤ i.gen ∧ i.gen < s.imgs.length) ∧ s.imgs.length = 2 := by
  refine ⟨⟨[1, 2], [⟨[1, 2], [1], -1, -1, 0⟩, ⟨[-1, 2], [0.5], 0, 3, 1⟩], [0, 1], .order, 1, false⟩, Or.inl rfl, ⟨⟨_, List.mem_cons_of_mem _ (List.mem_singleton.mpr rfl), rfl⟩, ?_⟩, rfl, ?_, ?_, rfl⟩ <;>
  · intro i hi
    simp only [List.mem_cons, List.not_mem_nil, or_false] at hi
    rcases hi with rfl | rfl <;> simp

/-- A microphone at distance one from a source. -/
example : ∀ s ∈ [[(⟨[0, 0, 0], [1], -1, -1, 0⟩ : Img)]], ∀ i ∈ s, ∀ m ∈ [[(1 : ℝ), 0, 0]], dist i.pos m ≠ 0 ∧ i.damp.length ≤ 1 := by
  intro s hs i hi m hm
  simp only [List.mem_singleton] at hs
  subst hs
  simp only [List.mem_singleton] at hi hm
  subst hi hm
  norm_num [dist]

end Verif.SoundSrc
