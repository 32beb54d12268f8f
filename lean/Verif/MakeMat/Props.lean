import Verif.MakeMat.Model

/-!
# C134: several materials at once
-/

namespace Verif.MakeMat

open Verif.Py Verif.Materials Verif.Params

variable {A S : Dict Nat}

/-- Numbers for absorption and, if given, scattering. -/
inductive Numbers : Arg → ℝ → ℝ → Prop
  | single (a : ℝ) : Numbers (.single (.num a)) a 0
  | one (a : ℝ) : Numbers (.seq [.num a]) a 0
  | two (a b : ℝ) : Numbers (.seq [.num a, .num b]) a b

/-- The material has the flat coefficients `a` and `b`. -/
def Flat (h : Heap) (m : Material) (a b : ℝ) : Prop := (h.at m.absorption).coeffs = some [a] ∧ (h.at m.scattering).coeffs = some [b]

theorem at_append_left {h t : Heap} {i : Nat} (hi : i < h.length) : (h ++ t).at i = h.at i := by
  simp [Heap.at, List.getD_eq_getElem?_getD, List.getElem?_append_left hi]

theorem at_append_length {h t : Heap} {d : DictObj} : (h ++ d :: t).at h.length = d := by
  simp [Heap.at, List.getD_eq_getElem?_getD]

theorem at_append_length_succ {h t : Heap} {d e : DictObj} : (h ++ d :: e :: t).at (h.length + 1) = e := by
  simp [Heap.at, List.getD_eq_getElem?_getD]

theorem at_set_self {h : Heap} {a : Nat} {d : DictObj} (ha : a < h.length) : Heap.at (List.set h a d) a = d := by
  simp [Heap.at, List.getD_eq_getElem?_getD, ha]

theorem at_set_ne {h : Heap} {a b : Nat} {d : DictObj} (hab : a ≠ b) : Heap.at (List.set h a d) b = h.at b := by
  simp [Heap.at, List.getD_eq_getElem?_getD, List.getElem?_set_ne hab]

theorem construct_numbers {x : Arg} {a b : ℝ} (hx : Numbers x a b) (h : Heap) :
    construct A S h x = .ok (h ++ [⟨some [a], false, none⟩, ⟨some [b], false, none⟩], ⟨h.length, h.length + 1⟩) := by
  cases hx <;>
  simp [construct, materialInit, initAbsorption, initScattering, initScattering.initNum, broadcastAbsorption, checkDict, DictObj.getCoeffs, at_append_length, at_append_length_succ, bind, Except.bind,
    pure, Except.pure]

/-- All arguments are numbers: the loop makes new flat materials and leaves all that existed. -/
theorem build_numbers (l : List (Arg × ℝ × ℝ)) (hl : ∀ x ∈ l, Numbers x.1 x.2.1 x.2.2) (h : Heap) :
    ∃ t ms, build A S h (l.map (·.1)) = .ok (h ++ t, ms) ∧ List.Forall₂ (fun m x => Flat (h ++ t) m x.2.1 x.2.2 ∧ h.length ≤ m.absorption ∧ m.absorption < m.scattering ∧ m.scattering < (h ++ t).length) ms l := by
  induction l generalizing h with
  | nil => exact ⟨[], [], by simp [build], .nil⟩
  | cons x l ih =>
    obtain ⟨t, ms, h1, h2⟩ := ih (fun y hy => hl y (List.mem_cons_of_mem _ hy)) (h ++ [⟨some [x.2.1], false, none⟩, ⟨some [x.2.2], false, none⟩])
    refine ⟨[⟨some [x.2.1], false, none⟩, ⟨some [x.2.2], false, none⟩] ++ t, ⟨h.length, h.length + 1⟩ :: ms, ?_, ?_⟩
    · simp only [List.map_cons, build, construct_numbers (hl x (by simp)), h1, List.append_assoc]
    · refine .cons ⟨⟨?_, ?_⟩, le_rfl, Nat.lt_succ_self _, ?_⟩ ?_
      · simp only [List.cons_append, List.nil_append, at_append_length]
      · simp only [List.cons_append, List.nil_append, at_append_length_succ]
      · simp
      · refine h2.imp fun m y hy => ?_
        simp only [List.append_assoc, List.length_append, List.length_cons, List.length_nil] at hy ⊢
        exact ⟨hy.1, by omega, hy.2.2.1, hy.2.2.2⟩

theorem build_length (h h' : Heap) (l : List Arg) (ms : List Material) (hb : build A S h l = .ok (h', ms)) : ms.length = l.length := by
  induction l generalizing h ms with
  | nil => simp only [build, Except.ok.injEq, Prod.mk.injEq] at hb; simp [← hb.2]
  | cons a l ih =>
    simp only [build] at hb
    split at hb
    · exact absurd hb (by simp)
    · split at hb
      · exact absurd hb (by simp)
      · rename_i heq
        simp only [Except.ok.injEq, Prod.mk.injEq] at hb
        obtain ⟨rfl, rfl⟩ := hb
        simp [ih _ _ heq]

/-- C134: only positional arguments give a list, only keywords a dictionary, both give both, and none an empty list; there is one material for each argument and keyword. -/
theorem C134_shape {h h' : Heap} {args : List Arg} {kwargs : List (String × Arg)} {r : Result} (hr : makeMaterials A S h args kwargs = .ok (h', r)) :
    (kwargs = [] → ∃ l, r = .list l ∧ l.length = args.length) ∧
      (kwargs ≠ [] → args = [] → ∃ d, r = .dict d ∧ d.map (·.1) = kwargs.map (·.1)) ∧
      (kwargs ≠ [] → args ≠ [] → ∃ l d, r = .both l d ∧ l.length = args.length ∧ d.map (·.1) = kwargs.map (·.1)) := by
  simp only [makeMaterials] at hr
  split at hr
  · exact absurd hr (by simp)
  · rename_i h1 ms hms
    split at hr
    · exact absurd hr (by simp)
    · rename_i h2 ks hks
      have l1 := build_length _ _ _ _ hms
      have l2 := build_length _ _ _ _ hks
      rw [List.length_map] at l2
      have lk : ((kwargs.map (·.1)).zip ks).map (·.1) = kwargs.map (·.1) := List.map_fst_zip (by simp [l2])
      have lz : ((kwargs.map (·.1)).zip ks).length = kwargs.length := by simp [l2]
      rw [lz, l1] at hr
      refine ⟨?_, ?_, ?_⟩
      · rintro rfl
        simp only [List.length_nil, if_true, Except.ok.injEq, Prod.mk.injEq] at hr
        exact ⟨ms, hr.2.symm, l1⟩
      · rintro hk rfl
        rw [if_neg (by simpa using hk), if_pos (by simp)] at hr
        simp only [Except.ok.injEq, Prod.mk.injEq] at hr
        exact ⟨_, hr.2.symm, lk⟩
      · intro hk ha
        rw [if_neg (by simpa using hk), if_neg (by simpa using ha)] at hr
        simp only [Except.ok.injEq, Prod.mk.injEq] at hr
        exact ⟨_, _, hr.2.symm, l1, lk⟩

/-- C134: numbers, alone or in tuples, never fail; the material at each place has the numbers of its argument, and dictionaries that existed are not changed. -/
theorem C134_numbers (l : List (Arg × ℝ × ℝ)) (hl : ∀ x ∈ l, Numbers x.1 x.2.1 x.2.2) (h : Heap) :
    ∃ h' ms, makeMaterials A S h (l.map (·.1)) [] = .ok (h', .list ms) ∧ List.Forall₂ (fun m x => Flat h' m x.2.1 x.2.2) ms l ∧ ∀ i < h.length, h'.at i = h.at i := by
  obtain ⟨t, ms, h1, h2⟩ := build_numbers (A := A) (S := S) l hl h
  refine ⟨h ++ t, ms, by simp [makeMaterials, h1, build], h2.imp fun _ _ hy => hy.1, fun i hi => at_append_left hi⟩

/-- C134: positional arguments and keywords together: the same for both, and the keywords stay with their materials. -/
theorem C134_keywords (l : List (Arg × ℝ × ℝ)) (k : List (String × Arg × ℝ × ℝ)) (hl : ∀ x ∈ l, Numbers x.1 x.2.1 x.2.2) (hk : ∀ x ∈ k, Numbers x.2.1 x.2.2.1 x.2.2.2) (h0 : l ≠ []) (h1 : k ≠ [])
    (h : Heap) :
    ∃ h' ms ks, makeMaterials A S h (l.map (·.1)) (k.map fun x => (x.1, x.2.1)) = .ok (h', .both ms ((k.map (·.1)).zip ks)) ∧
      List.Forall₂ (fun m x => Flat h' m x.2.1 x.2.2) ms l ∧ List.Forall₂ (fun m x => Flat h' m x.2.2.1 x.2.2.2) ks k := by
  obtain ⟨t, ms, a1, a2⟩ := build_numbers (A := A) (S := S) l hl h
  obtain ⟨t', ks, b1, b2⟩ := build_numbers (A := A) (S := S) (k.map (·.2)) (by simpa using fun b c d a hx => hk (a, b, c, d) hx) (h ++ t)
  have lm : ms.length = l.length := a2.length_eq
  have lk : ks.length = k.length := by simpa using b2.length_eq
  refine ⟨h ++ t ++ t', ms, ks, ?_, ?_, ?_⟩
  · have e : (k.map fun x => (x.1, x.2.1)).map (·.2) = (k.map (·.2)).map (·.1) := by simp
    have e' : (k.map fun x => (x.1, x.2.1)).map (·.1) = k.map (·.1) := by simp
    have hz : ((k.map (·.1)).zip ks).length ≠ 0 := by simp [lk, h1]
    have hm : ms.length ≠ 0 := by simpa [lm] using h0
    simp only [makeMaterials, a1, e, b1, e', if_neg hz, if_neg hm]
  · refine a2.imp fun m x hx => ?_
    obtain ⟨⟨f1, f2⟩, _, f4, f5⟩ := hx
    exact ⟨by rw [at_append_left (by omega)]; exact f1, by rw [at_append_left f5]; exact f2⟩
  · exact (List.forall₂_map_right_iff.mp b2).imp fun m x hx => hx.1

/-- C134: a tuple with no or with more than two parameters raises, as soon as it is reached. -/
theorem C134_refused (l : List (Arg × ℝ × ℝ)) (hl : ∀ x ∈ l, Numbers x.1 x.2.1 x.2.2) (q : List Spec) (hq : q.length = 0 ∨ 2 < q.length) (rest : List Arg) (kwargs : List (String × Arg)) (h : Heap) :
    makeMaterials A S h (l.map (·.1) ++ .seq q :: rest) kwargs = .error .typeError := by
  have hc : ∀ g, construct A S g (.seq q) = .error .typeError := by
    intro g
    match q, hq with
    | [], _ => rfl
    | [_], hq => simp at hq
    | [_, _], hq => simp at hq
    | _ :: _ :: _ :: _, _ => rfl
  have hb : ∀ g, build A S g (l.map (·.1) ++ .seq q :: rest) = .error .typeError := by
    induction l with
    | nil => intro g; simp [build, hc]
    | cons x l ih =>
      intro g
      simp only [List.map_cons, List.cons_append, build, construct_numbers (hl x (by simp)), ih (fun y hy => hl y (List.mem_cons_of_mem _ hy))]
  simp [makeMaterials, hb]

/-- C134, deviation: a dictionary given twice is shared, and scattering by bands in the second material changes the absorption of the first one, whose scattering stays flat. -/
theorem C134_shared_deviation (h : Heap) {a b : Nat} (ha : a < h.length) (hb : b < h.length) (hab : a ≠ b) {x : ℝ} {s f : List ℝ} (h1 : h.at a = ⟨some [x], false, none⟩)
    (h2 : h.at b = ⟨some s, false, some f⟩) (hs : 1 < s.length) (hf : f.length = s.length) :
    ∃ h' m₁ m₂, makeMaterials A S h [.single (.ref a), .seq [.ref a, .ref b]] [] = .ok (h', .list [m₁, m₂]) ∧ m₁.absorption = m₂.absorption ∧
      (h'.at m₁.absorption).coeffs = some (List.replicate s.length x) ∧ (h'.at m₁.scattering).coeffs = some [0] := by
  have hp : (Bands.pyMul false [x] s.length).length = s.length := by simp [Bands.pyMul]
  have c1 : construct A S h (.single (.ref a)) = .ok (h ++ [⟨some [0], false, none⟩], ⟨a, h.length⟩) := by
    simp [construct, materialInit, initAbsorption, initScattering, initScattering.initNum, broadcastAbsorption, checkDict, DictObj.getCoeffs, at_append_length, at_append_left ha, h1, bind, Except.bind,
      pure, Except.pure]
  have g1 : (h ++ [⟨some [0], false, none⟩] : Heap).at a = ⟨some [x], false, none⟩ := by rw [at_append_left ha, h1]
  have g2 : (h ++ [⟨some [0], false, none⟩] : Heap).at b = ⟨some s, false, some f⟩ := by rw [at_append_left hb, h2]
  have g3 : (h ++ [⟨some [0], false, none⟩] : Heap).at h.length = ⟨some [0], false, none⟩ := at_append_length
  have gl : a < (h ++ [⟨some [0], false, none⟩] : Heap).length := by simp; omega
  generalize (h ++ [⟨some [0], false, none⟩] : Heap) = g at *
  have c2 : construct A S g (.seq [.ref a, .ref b]) = .ok (g.set a ⟨some (Bands.pyMul false [x] s.length), false, some f⟩, ⟨a, b⟩) := by
    simp [construct, materialInit, initAbsorption, initScattering, broadcastAbsorption, checkDict, DictObj.getCoeffs, DictObj.getCenters, g1, g2, at_set_self gl, at_set_ne hab, hs, hf, hp, bind,
      Except.bind, pure, Except.pure]
  refine ⟨g.set a ⟨some (Bands.pyMul false [x] s.length), false, some f⟩, ⟨a, h.length⟩, ⟨a, b⟩, by simp [makeMaterials, build, c1, c2], rfl, ?_, ?_⟩
  · simp [at_set_self gl, Bands.pyMul]
  · simp only [at_set_ne (Nat.ne_of_lt ha), g3]

example := C134_numbers (A := []) (S := []) [(.single (.num 0.1), 0.1, 0), (.seq [.num 0.2, .num 0.5], 0.2, 0.5)] (by
  intro x hx
  simp only [List.mem_cons, List.not_mem_nil, or_false] at hx
  rcases hx with rfl | rfl
  · exact .single _
  · exact .two _ _) []

example := C134_keywords (A := []) (S := []) [(.single (.num 0.1), 0.1, 0)] [("floor", .seq [.num 0.2], 0.2, 0)] (by
  intro x hx
  simp only [List.mem_cons, List.not_mem_nil, or_false] at hx
  subst hx
  exact .single _) (by
  intro x hx
  simp only [List.mem_cons, List.not_mem_nil, or_false] at hx
  subst hx
  exact .one _) (by simp) (by simp) []

example : ∃ h' l, makeMaterials [] [] [] [.single (.num 0.1)] [] = .ok (h', .list l) ∧ l.length = 1 := by
  obtain ⟨h', l, h1, h2, _⟩ := C134_numbers (A := []) (S := []) [(.single (.num 0.1), 0.1, 0)] (by
    intro x hx
    simp only [List.mem_cons, List.not_mem_nil, or_false] at hx
    subst hx
    exact .single _) []
  obtain ⟨l', e, hl⟩ := (C134_shape h1).1 rfl
  exact ⟨h', l, h1, by cases e; exact hl⟩

example := C134_refused (A := []) (S := []) [(.single (.num 0.1), 0.1, 0)] (by
  intro x hx
  simp only [List.mem_cons, List.not_mem_nil, or_false] at hx
  subst hx
  exact .single _) [.num 1, .num 2, .num 3] (by simp) [] [] []

example := C134_shared_deviation (A := []) (S := []) [⟨some [0.1], false, none⟩, ⟨some [0.1, 0.2], false, some [125, 250]⟩] (a := 0) (b := 1) (by simp) (by simp) (by simp) rfl rfl (by simp) (by simp)

end Verif.MakeMat
