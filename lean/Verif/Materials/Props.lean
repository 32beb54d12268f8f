import Verif.Materials.Model
import Verif.Bands.Interp

/-!
# Materials: C67
-/

namespace Verif.Materials

open Py (Err)
open Verif.Bands Verif.Params

/-! ## The heap -/

theorem Heap.at_append_left (h e : Heap) {a : Nat} (ha : a < h.length) : Heap.at (h ++ e) a = h.at a := by
  unfold Heap.at
  rw [List.getD_append _ _ _ _ ha]

theorem Heap.at_append_self (h : Heap) (d : DictObj) : Heap.at (h ++ [d]) h.length = d := by
  unfold Heap.at
  rw [List.getD_append_right _ _ _ _ (le_refl _)]
  simp

theorem Heap.at_set_ne (h : Heap) (d : DictObj) {a b : Nat} (hab : b ≠ a) : Heap.at (h.set a d) b = h.at b := by
  unfold Heap.at
  rw [List.getD_eq_getElem?_getD, List.getD_eq_getElem?_getD, List.getElem?_set_ne (Ne.symm hab)]

theorem Heap.at_set_self (h : Heap) (d : DictObj) {a : Nat} (ha : a < h.length) : Heap.at (h.set a d) a = d := by
  unfold Heap.at
  rw [List.getD_eq_getElem?_getD, List.getElem?_set_self ha]
  rfl

/-- The dictionary an argument stands for. -/
def content (table : Dict Nat) (h : Heap) : Spec → Option DictObj
  | .num x => some ⟨some [x], false, none⟩
  | .name s => (table.get s).map fun a => h.at a
  | .ref a => some (h.at a)
  | .other => none

/-- Addresses in arguments and tables are those of existing dictionaries. -/
def Valid (table : Dict Nat) (h : Heap) : Spec → Prop
  | .name s => ∀ a, table.get s = some a → a < h.length
  | .ref a => a < h.length
  | _ => True

theorem initAbsorption_ok {table : Dict Nat} {h h1 : Heap} {sp : Spec} {ea : Nat} (e : initAbsorption table h sp = .ok (h1, ea)) (hv : Valid table h sp) :
    (∃ ext, h1 = h ++ ext) ∧ ea < h1.length ∧ content table h sp = some (h1.at ea) ∧
      ((∃ a, sp = .ref a ∧ ea = a) ∨ (ea = h.length ∧ ∀ a, sp ≠ .ref a)) := by
  cases sp with
  | num x =>
    simp only [initAbsorption, Except.ok.injEq, Prod.mk.injEq] at e
    obtain ⟨rfl, rfl⟩ := e
    exact ⟨⟨_, rfl⟩, by simp, by rw [Heap.at_append_self]; rfl, Or.inr ⟨rfl, by simp⟩⟩
  | name s =>
    simp only [initAbsorption] at e
    cases ht : table.get s with
    | none => rw [ht] at e; cases e
    | some a =>
      rw [ht] at e
      simp only [Except.ok.injEq, Prod.mk.injEq] at e
      obtain ⟨rfl, rfl⟩ := e
      exact ⟨⟨_, rfl⟩, by simp, by rw [Heap.at_append_self]; simp [content, ht], Or.inr ⟨rfl, by simp⟩⟩
  | ref a =>
    simp only [initAbsorption, Except.ok.injEq, Prod.mk.injEq] at e
    obtain ⟨rfl, rfl⟩ := e
    exact ⟨⟨[], by simp⟩, hv, rfl, Or.inl ⟨_, rfl, rfl⟩⟩
  | other => cases e

/-- The coefficients of the scattering before the broadcast. -/
def scatterCoeffs (table : Dict Nat) (h : Heap) (nAbs : Nat) : Option Spec → Option (List ℝ)
  | none => some (List.replicate (max 1 nAbs) 0)
  | some (.num x) => some (List.replicate (max 1 nAbs) x)
  | some sp => (content table h sp).bind DictObj.coeffs

/-- Valid second argument. -/
def ValidO (table : Dict Nat) (h : Heap) : Option Spec → Prop
  | none => True
  | some sp => Valid table h sp

theorem initNum_ok {h h2 : Heap} {ea sc : Nat} {x : ℝ} (e : initScattering.initNum h ea x = .ok (h2, sc)) :
    ∃ c f, (h.at ea).coeffs = some c ∧ h2 = h ++ [⟨some (List.replicate (max 1 c.length) x), false, f⟩] ∧ sc = h.length := by
  unfold initScattering.initNum at e
  unfold DictObj.getCoeffs DictObj.getCenters at e
  cases hc : (h.at ea).coeffs with
  | none => rw [hc] at e; cases e
  | some c =>
    rw [hc] at e
    simp only [bind, Except.bind] at e
    split_ifs at e with hl
    · cases hf : (h.at ea).centers with
      | none => rw [hf] at e; cases e
      | some f =>
        rw [hf] at e
        simp only [pure, Except.pure, Except.ok.injEq, Prod.mk.injEq] at e
        refine ⟨c, some f, rfl, ?_, e.2.symm⟩
        rw [← e.1, max_eq_right (by omega)]
    · simp only [pure, Except.pure, Except.ok.injEq, Prod.mk.injEq] at e
      refine ⟨c, none, rfl, ?_, e.2.symm⟩
      rw [← e.1, max_eq_left (by omega)]
      rfl

theorem initScattering_ok {table : Dict Nat} {h0 h h2 : Heap} {osp : Option Spec} {ea sc : Nat} (hext : ∃ ext, h = h0 ++ ext)
    (e : initScattering table h ea osp = .ok (h2, sc)) (hv : ValidO table h0 osp) :
    (∃ ext, h2 = h ++ ext) ∧ sc < h2.length ∧
      (∀ ca, (h.at ea).coeffs = some ca → (h2.at sc).coeffs = scatterCoeffs table h0 ca.length osp) := by
  obtain ⟨ext, rfl⟩ := hext
  have hnum : ∀ x, initScattering.initNum (h0 ++ ext) ea x = .ok (h2, sc) →
      (∃ ext', h2 = (h0 ++ ext) ++ ext') ∧ sc < h2.length ∧
        (∀ ca, (Heap.at (h0 ++ ext) ea).coeffs = some ca → (h2.at sc).coeffs = some (List.replicate (max 1 ca.length) x)) := by
    intro x e
    obtain ⟨c, f, hc, rfl, rfl⟩ := initNum_ok e
    refine ⟨⟨_, rfl⟩, by simp, ?_⟩
    intro ca hca
    rw [hc] at hca
    injection hca with hca
    subst hca
    rw [Heap.at_append_self]
  cases osp with
  | none => exact hnum 0 e
  | some sp =>
    cases sp with
    | num x => exact hnum x e
    | name s =>
      simp only [initScattering] at e
      cases ht : table.get s with
      | none => rw [ht] at e; cases e
      | some a =>
        rw [ht] at e
        simp only [Except.ok.injEq, Prod.mk.injEq] at e
        obtain ⟨rfl, rfl⟩ := e
        refine ⟨⟨_, rfl⟩, by simp, ?_⟩
        intro ca _
        rw [Heap.at_append_self, Heap.at_append_left _ _ (hv a ht)]
        simp [scatterCoeffs, content, ht]
    | ref a =>
      simp only [initScattering, Except.ok.injEq, Prod.mk.injEq] at e
      obtain ⟨rfl, rfl⟩ := e
      have hv : a < h0.length := hv
      refine ⟨⟨[], by simp⟩, by rw [List.length_append]; omega, ?_⟩
      intro ca _
      rw [Heap.at_append_left _ _ hv]
      simp [scatterCoeffs, content]
    | other => cases e

theorem broadcast_ok {h h3 : Heap} {ea sc : Nat} (e : broadcastAbsorption h ea sc = .ok h3) :
    ∃ cs, (h.at sc).coeffs = some cs ∧
      ((h3 = h ∧ (1 < cs.length → ∃ ca, (h.at ea).coeffs = some ca ∧ ca.length ≠ 1)) ∨
        ∃ ca f, 1 < cs.length ∧ (h.at ea).coeffs = some ca ∧ ca.length = 1 ∧ (h.at sc).centers = some f ∧
          h3 = h.set ea ⟨some (pyMul (h.at ea).isArray ca cs.length), (h.at ea).isArray, some f⟩) := by
  unfold broadcastAbsorption at e
  unfold DictObj.getCoeffs DictObj.getCenters at e
  cases hs : (h.at sc).coeffs with
  | none => rw [hs] at e; cases e
  | some cs =>
    rw [hs] at e
    simp only [bind, Except.bind] at e
    refine ⟨cs, rfl, ?_⟩
    split_ifs at e with h1
    · cases hc : (h.at ea).coeffs with
      | none => rw [hc] at e; cases e
      | some ca =>
        rw [hc] at e
        simp only at e
        split_ifs at e with h2
        · cases hf : (h.at sc).centers with
          | none => rw [hf] at e; cases e
          | some f =>
            rw [hf] at e
            simp only [pure, Except.pure, Except.ok.injEq] at e
            exact Or.inr ⟨ca, f, h1, rfl, h2, rfl, e.symm⟩
        · simp only [pure, Except.pure, Except.ok.injEq] at e
          exact Or.inl ⟨e.symm, fun _ => ⟨ca, rfl, h2⟩⟩
    · simp only [pure, Except.pure, Except.ok.injEq] at e
      exact Or.inl ⟨e.symm, fun h => absurd h h1⟩

theorem check_ok {d : DictObj} {u : Unit} (e : checkDict d = .ok u) :
    ∃ c, d.coeffs = some c ∧ (1 < c.length → ∃ f, d.centers = some f ∧ f.length = c.length) := by
  unfold checkDict DictObj.getCenters at e
  cases hc : d.coeffs with
  | none => rw [hc] at e; cases e
  | some c =>
    rw [hc] at e
    refine ⟨c, rfl, ?_⟩
    intro hl
    simp only [gt_iff_lt, if_pos hl] at e
    cases hf : d.centers with
    | none => rw [hf] at e; cases e
    | some f =>
      rw [hf] at e
      refine ⟨f, rfl, ?_⟩
      simp only [bind, Except.bind] at e
      split_ifs at e with h
      exact h.symm

/-- The steps of a successful construction. -/
theorem init_steps {absTable scTable : Dict Nat} {h h' : Heap} {sp : Spec} {osp : Option Spec} {m : Material}
    (hok : materialInit absTable scTable h sp osp = .ok (h', m)) :
    ∃ h1 h2, initAbsorption absTable h sp = .ok (h1, m.absorption) ∧ initScattering scTable h1 m.absorption osp = .ok (h2, m.scattering) ∧
      broadcastAbsorption h2 m.absorption m.scattering = .ok h' ∧ (∃ u, checkDict (h'.at m.absorption) = .ok u) ∧
      (∃ u, checkDict (h'.at m.scattering) = .ok u) := by
  unfold materialInit at hok
  simp only [bind, Except.bind] at hok
  cases e1 : initAbsorption absTable h sp with
  | error x => rw [e1] at hok; cases hok
  | ok r1 =>
    obtain ⟨h1, ea⟩ := r1
    rw [e1] at hok
    simp only at hok
    cases e2 : initScattering scTable h1 ea osp with
    | error x => rw [e2] at hok; cases hok
    | ok r2 =>
      obtain ⟨h2, sc⟩ := r2
      rw [e2] at hok
      simp only at hok
      cases e3 : broadcastAbsorption h2 ea sc with
      | error x => rw [e3] at hok; cases hok
      | ok h3 =>
        rw [e3] at hok
        simp only at hok
        cases e4 : checkDict (h3.at ea) with
        | error x => rw [e4] at hok; cases hok
        | ok u =>
          rw [e4] at hok
          simp only at hok
          cases e5 : checkDict (h3.at sc) with
          | error x => rw [e5] at hok; cases hok
          | ok u' =>
            rw [e5] at hok
            simp only [pure, Except.pure, Except.ok.injEq, Prod.mk.injEq] at hok
            obtain ⟨rfl, rfl⟩ := hok
            exact ⟨h1, h2, rfl, e2, e3, ⟨u, e4⟩, ⟨u', e5⟩⟩

/-! ## C67 -/

/-- **C67** A material has coefficients of absorption and scattering; if there are several, there is a frequency for each. -/
theorem C67_wellformed {absTable scTable : Dict Nat} {h h' : Heap} {sp : Spec} {osp : Option Spec} {m : Material}
    (hok : materialInit absTable scTable h sp osp = .ok (h', m)) :
    (∃ c, (h'.at m.absorption).coeffs = some c ∧ (1 < c.length → ∃ f, (h'.at m.absorption).centers = some f ∧ f.length = c.length)) ∧
    (∃ c, (h'.at m.scattering).coeffs = some c ∧ (1 < c.length → ∃ f, (h'.at m.scattering).centers = some f ∧ f.length = c.length)) := by
  obtain ⟨_, _, _, _, _, ⟨u, hu⟩, ⟨u', hu'⟩⟩ := init_steps hok
  exact ⟨check_ok hu, check_ok hu'⟩

/-- **C67** Construction of a material changes no dictionary that existed before, with the exception of the one given as the absorption. In particular a
material made from names does not change the database. -/
theorem C67_frame {absTable scTable : Dict Nat} {h h' : Heap} {sp : Spec} {osp : Option Spec} {m : Material} (hv : Valid absTable h sp)
    (hok : materialInit absTable scTable h sp osp = .ok (h', m)) (hv2 : ValidO scTable h osp) (b : Nat) (hb : b < h.length) (hne : sp ≠ .ref b) :
    h'.at b = h.at b := by
  obtain ⟨h1, h2, e1, e2, e3, _, _⟩ := init_steps hok
  obtain ⟨⟨x1, rfl⟩, hea, _, hcase⟩ := initAbsorption_ok e1 hv
  obtain ⟨⟨x2, rfl⟩, _, _⟩ := initScattering_ok ⟨x1, rfl⟩ e2 hv2
  have hbe : b ≠ m.absorption := by
    rcases hcase with ⟨a, rfl, ha⟩ | ⟨ha, _⟩
    · rw [ha]; rintro rfl; exact hne rfl
    · rw [ha]; omega
  have hold : Heap.at ((h ++ x1) ++ x2) b = h.at b := by
    rw [Heap.at_append_left _ _ (by rw [List.length_append]; omega), Heap.at_append_left _ _ hb]
  obtain ⟨cs, _, hh | ⟨ca, f, _, _, _, _, hh⟩⟩ := broadcast_ok e3
  · rw [hh.1, hold]
  · rw [hh, Heap.at_set_ne _ _ hbe, hold]

theorem pyMul_list (a : ℝ) (n : Nat) : pyMul false [a] n = List.replicate n a := by
  unfold pyMul; simp

/-- **C67** The coefficients of the material. Scattering given as a number is repeated for each coefficient of the absorption; otherwise it is what was
given. A single coefficient of absorption is repeated for each coefficient of the scattering; otherwise it is what was given. (For coefficients
in lists; see the deviation for arrays.) -/
theorem C67_values {absTable scTable : Dict Nat} {h h' : Heap} {sp : Spec} {osp : Option Spec} {m : Material} (hv : Valid absTable h sp)
    (hv2 : ValidO scTable h osp) (hok : materialInit absTable scTable h sp osp = .ok (h', m)) (d : DictObj) (ca : List ℝ)
    (hd : content absTable h sp = some d) (hca : d.coeffs = some ca) (hl : d.isArray = false) :
    ∃ cs, scatterCoeffs scTable h ca.length osp = some cs ∧ (h'.at m.scattering).coeffs = some cs ∧
      (h'.at m.absorption).coeffs = some (if ca.length = 1 then List.replicate (max 1 cs.length) (ca.getD 0 0) else ca) := by
  obtain ⟨h1, h2, e1, e2, e3, _, _⟩ := init_steps hok
  obtain ⟨⟨x1, rfl⟩, hea, hcont, hcase⟩ := initAbsorption_ok e1 hv
  obtain ⟨⟨x2, rfl⟩, hsc, hscc⟩ := initScattering_ok ⟨x1, rfl⟩ e2 hv2
  rw [hd] at hcont
  injection hcont with hcont
  have hd2 : Heap.at ((h ++ x1) ++ x2) m.absorption = d := by rw [Heap.at_append_left _ _ hea, ← hcont]
  have hcs := hscc ca (by rw [← hcont, hca])
  have hone : ∀ l : List ℝ, l.length = 1 → l = [l.getD 0 0] := by
    intro l hl
    obtain ⟨x, rfl⟩ := List.length_eq_one_iff.mp hl
    rfl
  obtain ⟨cs, hcs', hh | ⟨ca', f, hlen, hca', hone', hf, hh⟩⟩ := broadcast_ok e3
  · rw [hcs] at hcs'
    refine ⟨cs, hcs', by rw [hh.1, hcs, hcs'], ?_⟩
    rw [hh.1, hd2, hca]
    congr 1
    split_ifs with h1
    · have : ¬1 < cs.length := by
        intro hlt
        obtain ⟨ca', hc', hne⟩ := hh.2 hlt
        rw [hd2, hca] at hc'
        injection hc' with hc'
        rw [← hc'] at hne
        exact hne h1
      rw [max_eq_left (by omega), List.replicate_one]
      exact hone ca h1
    · rfl
  · rw [hcs] at hcs'
    rw [hd2, hca] at hca'
    injection hca' with hca'
    subst hca'
    have hsa : m.scattering ≠ m.absorption := by
      intro hsa
      have : (Heap.at ((h ++ x1) ++ x2) m.scattering).coeffs = some ca := by rw [hsa, hd2, hca]
      rw [hcs, hcs'] at this
      injection this with this
      rw [this] at hlen
      omega
    refine ⟨cs, hcs', ?_, ?_⟩
    · rw [hh, Heap.at_set_ne _ _ hsa, hcs, hcs']
    · have hl2 : m.absorption < ((h ++ x1) ++ x2).length := by rw [List.length_append]; omega
      rw [hh, Heap.at_set_self _ _ hl2, hd2, hl, if_pos hone', max_eq_right (by omega)]
      congr 1
      rw [← pyMul_list, ← hone ca hone']

/-- Evaluate a construction from two dictionaries. -/
theorem init_refs (absTable scTable : Dict Nat) (h : Heap) (a b : Nat) (ca cs f : List ℝ) (ha : a < h.length) (hab : a ≠ b)
    (hca : (h.at a).coeffs = some ca) (h1 : ca.length = 1) (hcs : (h.at b).coeffs = some cs) (h2 : 1 < cs.length) (hf : (h.at b).centers = some f)
    (hfl : f.length = cs.length) :
    materialInit absTable scTable h (.ref a) (some (.ref b)) =
      .ok (h.set a ⟨some (pyMul (h.at a).isArray ca cs.length), (h.at a).isArray, some f⟩, ⟨a, b⟩) := by
  have e3 : broadcastAbsorption h a b = .ok (h.set a ⟨some (pyMul (h.at a).isArray ca cs.length), (h.at a).isArray, some f⟩) := by
    unfold broadcastAbsorption DictObj.getCoeffs DictObj.getCenters
    rw [hcs, hca, hf]
    simp only [bind, Except.bind, gt_iff_lt, if_pos h2, if_pos h1]
    rfl
  have e4 : checkDict ⟨some (pyMul (h.at a).isArray ca cs.length), (h.at a).isArray, some f⟩ = .ok () := by
    unfold checkDict DictObj.getCenters
    simp only [bind, Except.bind]
    by_cases harr : (h.at a).isArray = true
    · rw [if_neg]
      · rfl
      · rw [harr]; simp [pyMul, h1]
    · have hp : (pyMul (h.at a).isArray ca cs.length).length = cs.length := by
        unfold pyMul
        rw [if_neg harr]
        simp [h1]
      rw [hp, if_pos h2, if_pos hfl.symm]
      rfl
  have e5 : checkDict (h.at b) = .ok () := by
    unfold checkDict DictObj.getCenters
    rw [hcs, hf]
    simp only [bind, Except.bind, gt_iff_lt, if_pos h2, if_pos hfl.symm]
    rfl
  unfold materialInit
  simp only [initAbsorption, initScattering, bind, Except.bind, e3, Heap.at_set_self _ _ ha, e4, Heap.at_set_ne _ _ (Ne.symm hab), e5]
  rfl

/-- **C67** Deviation: the constructor changes the dictionary of the caller. A material made before from the same dictionary, with one coefficient for
absorption and scattering, has afterwards as many coefficients of absorption as the scattering of the new material. -/
theorem C67_mutation_deviation (absTable scTable : Dict Nat) (h : Heap) (a b : Nat) (x : ℝ) (cs f : List ℝ) (ha : a < h.length) (hb : b < h.length)
    (hda : h.at a = ⟨some [x], false, none⟩) (hdb : h.at b = ⟨some cs, false, some f⟩) (h2 : 1 < cs.length) (hf : f.length = cs.length) :
    ∃ h1 m1 h2 m2, materialInit absTable scTable h (.ref a) none = .ok (h1, m1) ∧ isFlat h1 m1 = true ∧
      materialInit absTable scTable h1 (.ref a) (some (.ref b)) = .ok (h2, m2) ∧ isFlat h2 m1 = false ∧
      (h2.at m1.absorption).coeffs = some (List.replicate cs.length x) ∧ (h2.at m1.scattering).coeffs = some [0] := by
  have hab : a ≠ b := by
    rintro rfl
    rw [hda] at hdb
    injection hdb with hc _ _
    injection hc with hc
    rw [← hc] at h2
    simp at h2
  set g : Heap := h ++ [⟨some [0], false, none⟩] with hg
  have ga : g.at a = ⟨some [x], false, none⟩ := by rw [hg, Heap.at_append_left _ _ ha, hda]
  have gb : g.at b = ⟨some cs, false, some f⟩ := by rw [hg, Heap.at_append_left _ _ hb, hdb]
  have gs : g.at h.length = ⟨some [0], false, none⟩ := by rw [hg, Heap.at_append_self]
  have gl : a < g.length := by rw [hg, List.length_append]; omega
  have e1 : materialInit absTable scTable h (.ref a) none = .ok (g, ⟨a, h.length⟩) := by
    have hn : initScattering.initNum h a 0 = .ok (g, h.length) := by
      unfold initScattering.initNum DictObj.getCoeffs
      rw [hda]
      rfl
    have hbr : broadcastAbsorption g a h.length = .ok g := by
      unfold broadcastAbsorption DictObj.getCoeffs
      rw [gs]
      rfl
    unfold materialInit
    simp only [initAbsorption, initScattering, bind, Except.bind, hn, hbr, ga, gs]
    rfl
  have e2 := init_refs absTable scTable g a b [x] cs f gl hab (by rw [ga]) rfl (by rw [gb]) h2 (by rw [gb]) hf
  have ha' : a ≠ h.length := by omega
  refine ⟨g, ⟨a, h.length⟩, _, _, e1, ?_, e2, ?_, ?_, ?_⟩
  · unfold isFlat
    simp only [ga, gs]
    rfl
  · unfold isFlat
    simp only
    rw [Heap.at_set_self _ _ gl, Heap.at_set_ne _ _ (Ne.symm ha'), gs, ga]
    simp only [Option.getD_some, pyMul_list, List.length_replicate, Bool.and_eq_false_imp, beq_iff_eq]
    intro hh
    omega
  · rw [Heap.at_set_self _ _ gl, ga, pyMul_list]
  · rw [Heap.at_set_ne _ _ (Ne.symm ha'), gs]

/-- **C67** Deviation: a single coefficient of absorption given in an array is not repeated but multiplied by the number of coefficients of the scattering. -/
theorem C67_array_deviation (absTable scTable : Dict Nat) (h : Heap) (a b : Nat) (x : ℝ) (cs f : List ℝ) (ha : a < h.length) (hab : a ≠ b)
    (hda : h.at a = ⟨some [x], true, none⟩) (hdb : h.at b = ⟨some cs, false, some f⟩) (h2 : 1 < cs.length) (hf : f.length = cs.length) :
    ∃ h' m, materialInit absTable scTable h (.ref a) (some (.ref b)) = .ok (h', m) ∧ (h'.at m.absorption).coeffs = some [x * cs.length] := by
  refine ⟨_, _, init_refs absTable scTable h a b [x] cs f ha hab (by rw [hda]) rfl (by rw [hdb]) h2 (by rw [hdb]) hf, ?_⟩
  rw [Heap.at_set_self _ _ ha, hda]
  simp [pyMul]

/-! ## Resampling -/

/-- A dictionary with coefficients in [0, 1]: one in a list, or several with frequencies. -/
structure Fine (d : DictObj) : Prop where
  ex : ∃ c, d.coeffs = some c ∧ (∀ a ∈ c, 0 ≤ a ∧ a ≤ 1) ∧
    ((c.length = 1 ∧ d.isArray = false) ∨ ∃ f, d.centers = some f ∧ Good f c)

/-- The centres of the filter bank. -/
structure GoodCenters (centers : List ℝ) : Prop where
  two : 2 ≤ centers.length
  pos : ∀ f ∈ centers, 0 < f
  nodup : centers.Nodup

theorem fine_call {centers : List ℝ} {d : DictObj} (hd : Fine d) :
    ∃ r, callDict centers d = .ok r ∧ r.length = centers.length ∧ ∀ a ∈ r, 0 ≤ a ∧ a ≤ 1 := by
  obtain ⟨c, hc, h01, h | ⟨f, hf, hg⟩⟩ := hd.ex
  · obtain ⟨a, rfl⟩ := List.length_eq_one_iff.mp h.1
    refine ⟨List.replicate centers.length a, ?_, by simp, ?_⟩
    · unfold callDict DictObj.getCoeffs
      rw [hc, h.2]
      exact C33_single centers a d.centers
    · intro b hb
      rw [(List.mem_replicate.mp hb).2]
      exact h01 a (by simp)
  · obtain ⟨r, h1, h2, h3⟩ := C33_wellformed centers f c d.isArray hg
    refine ⟨r, ?_, h2, h3⟩
    unfold callDict DictObj.getCoeffs
    rw [hc, hf]
    exact h1

theorem call_again {centers r : List ℝ} (hc : GoodCenters centers) (hl : r.length = centers.length) (h01 : ∀ a ∈ r, 0 ≤ a ∧ a ≤ 1) (arr : Bool) :
    callDict centers ⟨some r, arr, some centers⟩ = .ok r := by
  unfold callDict DictObj.getCoeffs
  exact C33_idempotent centers r arr ⟨hl.symm, by rw [hl]; exact hc.two, hc.pos, hc.nodup⟩ h01

/-- A dictionary is the first one, or it has been resampled. -/
def Traced (centers : List ℝ) (d0 d : DictObj) : Prop :=
  d = d0 ∨ ∃ r arr, callDict centers d0 = .ok r ∧ d = ⟨some r, arr, some centers⟩

theorem traced_call {centers : List ℝ} (hc : GoodCenters centers) {d0 d : DictObj} (hf : Fine d0) (ht : Traced centers d0 d) :
    callDict centers d = callDict centers d0 := by
  rcases ht with rfl | ⟨r, arr, e, rfl⟩
  · rfl
  · obtain ⟨r', e', hl, h01⟩ := fine_call (centers := centers) hf
    rw [e] at e'
    injection e' with e'
    subst e'
    rw [call_again hc hl h01, e]

/-- Resampling one material. -/
theorem resample_ok {centers : List ℝ} (hc : GoodCenters centers) {h : Heap} {m : Material} {a0 s0 : DictObj} (ha : m.absorption < h.length)
    (hs : m.scattering < h.length) (fa : Fine a0) (fs : Fine s0) (ta : Traced centers a0 (h.at m.absorption)) (ts : Traced centers s0 (h.at m.scattering)) :
    ∃ ra rs arr arr' h' m', resample centers h m = .ok (h', m') ∧ callDict centers a0 = .ok ra ∧ callDict centers s0 = .ok rs ∧
      h' = h ++ [⟨some ra, arr, some centers⟩, ⟨some rs, arr', some centers⟩] ∧ m' = ⟨h.length, h.length + 1⟩ := by
  obtain ⟨ra, ea, _⟩ := fine_call (centers := centers) fa
  obtain ⟨rs, es, _⟩ := fine_call (centers := centers) fs
  have ea' := (traced_call hc fa ta).trans ea
  have es' := (traced_call hc fs ts).trans es
  refine ⟨ra, rs, (h.at m.absorption).isArray || ((h.at m.absorption).coeffs.getD []).length != 1,
    (h.at m.scattering).isArray || ((h.at m.scattering).coeffs.getD []).length != 1, _, _, ?_, ea, es, rfl, rfl⟩
  unfold resample
  simp only [ea', bind, Except.bind]
  rw [Heap.at_append_left _ _ hs, es']
  simp [pure, Except.pure]

/-- State of the objects during the loop: the first contents are traced. -/
structure LoopInv (centers : List ℝ) (st0 st : Store) : Prop where
  len : st.mats.length = st0.mats.length
  le : st0.heap.length ≤ st.heap.length
  old : ∀ a, a < st0.heap.length → st.heap.at a = st0.heap.at a
  mats : ∀ i, i < st0.mats.length → (st.mats.getD i ⟨0, 0⟩).absorption < st.heap.length ∧ (st.mats.getD i ⟨0, 0⟩).scattering < st.heap.length ∧
    Traced centers (st0.heap.at (st0.mats.getD i ⟨0, 0⟩).absorption) (st.heap.at (st.mats.getD i ⟨0, 0⟩).absorption) ∧
    Traced centers (st0.heap.at (st0.mats.getD i ⟨0, 0⟩).scattering) (st.heap.at (st.mats.getD i ⟨0, 0⟩).scattering)

/-- The material has the resampled coefficients. -/
def Resampled (centers : List ℝ) (st0 st : Store) (i : Nat) : Prop :=
  (∃ r, callDict centers (st0.heap.at (st0.mats.getD i ⟨0, 0⟩).absorption) = .ok r ∧ (st.heap.at (st.mats.getD i ⟨0, 0⟩).absorption).coeffs = some r) ∧
  (∃ r, callDict centers (st0.heap.at (st0.mats.getD i ⟨0, 0⟩).scattering) = .ok r ∧ (st.heap.at (st.mats.getD i ⟨0, 0⟩).scattering).coeffs = some r)

theorem loop_ok {centers : List ℝ} (hc : GoodCenters centers) (st0 : Store)
    (hfine : ∀ i, i < st0.mats.length → Fine (st0.heap.at (st0.mats.getD i ⟨0, 0⟩).absorption) ∧ Fine (st0.heap.at (st0.mats.getD i ⟨0, 0⟩).scattering))
    (ids : List Nat) (hids : ∀ i ∈ ids, i < st0.mats.length) (st : Store) (hinv : LoopInv centers st0 st) :
    ∃ st', ids.foldlM (fun st i => st.resample centers i) st = Except.ok st' ∧ LoopInv centers st0 st' ∧
      (∀ i, i < st0.mats.length → (i ∈ ids ∨ Resampled centers st0 st i) → Resampled centers st0 st' i) ∧
      (∀ i, i ∉ ids → st'.mats.getD i ⟨0, 0⟩ = st.mats.getD i ⟨0, 0⟩) := by
  induction ids generalizing st with
  | nil => exact ⟨st, rfl, hinv, fun i _ h => h.resolve_left (by simp), fun _ _ => rfl⟩
  | cons k ids ih =>
    have hk := hids k (by simp)
    obtain ⟨k1, k2, k3, k4⟩ := hinv.mats k hk
    obtain ⟨ra, rs, arr, arr', h', m', e, ea, es, rfl, rfl⟩ := resample_ok hc k1 k2 (hfine k hk).1 (hfine k hk).2 k3 k4
    set da : DictObj := ⟨some ra, arr, some centers⟩ with hda
    set ds : DictObj := ⟨some rs, arr', some centers⟩ with hds
    set st1 : Store := ⟨st.heap ++ [da, ds], st.mats.set k ⟨st.heap.length, st.heap.length + 1⟩⟩ with hst1
    have e1 : st.resample centers k = .ok st1 := by
      unfold Store.resample
      rw [e]
      rfl
    have hkl : k < st.mats.length := by rw [hinv.len]; exact hk
    have hnew : st1.mats.getD k ⟨0, 0⟩ = ⟨st.heap.length, st.heap.length + 1⟩ := by
      rw [hst1]
      simp only
      rw [List.getD_eq_getElem?_getD, List.getElem?_set_self hkl]
      rfl
    have hother : ∀ i, i ≠ k → st1.mats.getD i ⟨0, 0⟩ = st.mats.getD i ⟨0, 0⟩ := by
      intro i hi
      rw [hst1]
      simp only
      rw [List.getD_eq_getElem?_getD, List.getD_eq_getElem?_getD, List.getElem?_set_ne (Ne.symm hi)]
    have hata : Heap.at st1.heap st.heap.length = da := by
      show Heap.at (st.heap ++ [da, ds]) st.heap.length = da
      rw [show st.heap ++ [da, ds] = (st.heap ++ [da]) ++ [ds] by simp, Heap.at_append_left _ _ (by simp), Heap.at_append_self]
    have hats : Heap.at st1.heap (st.heap.length + 1) = ds := by
      show Heap.at (st.heap ++ [da, ds]) (st.heap.length + 1) = ds
      rw [show st.heap ++ [da, ds] = (st.heap ++ [da]) ++ [ds] by simp, show st.heap.length + 1 = (st.heap ++ [da]).length by simp,
        Heap.at_append_self]
    have hold : ∀ a, a < st.heap.length → Heap.at st1.heap a = st.heap.at a := by
      intro a ha
      show Heap.at (st.heap ++ [da, ds]) a = _
      rw [Heap.at_append_left _ _ ha]
    have hlen1 : st1.heap.length = st.heap.length + 2 := by rw [hst1]; simp
    have hres : Resampled centers st0 st1 k := by
      unfold Resampled
      rw [hnew]
      exact ⟨⟨ra, ea, by rw [hata]⟩, ⟨rs, es, by rw [hats]⟩⟩
    have hinv1 : LoopInv centers st0 st1 := by
      refine ⟨?_, ?_, ?_, ?_⟩
      · rw [hst1]; simp [hinv.len]
      · rw [hlen1]; exact le_trans hinv.le (by omega)
      · intro a ha
        rw [hold a (lt_of_lt_of_le ha hinv.le), hinv.old a ha]
      · intro i hi
        by_cases hik : i = k
        · subst hik
          rw [hnew]
          refine ⟨by rw [hlen1]; simp, by rw [hlen1]; simp, Or.inr ⟨ra, arr, ea, hata⟩, Or.inr ⟨rs, arr', es, hats⟩⟩
        · rw [hother i hik]
          obtain ⟨i1, i2, i3, i4⟩ := hinv.mats i hi
          refine ⟨by rw [hlen1]; omega, by rw [hlen1]; omega, ?_, ?_⟩
          · rw [hold _ i1]; exact i3
          · rw [hold _ i2]; exact i4
    obtain ⟨st', e2, hinv', hres', hsame⟩ := ih (fun i hi => hids i (by simp [hi])) st1 hinv1
    refine ⟨st', ?_, hinv', ?_, ?_⟩
    · rw [List.foldlM_cons, e1]
      exact e2
    · intro i hi h
      apply hres' i hi
      by_cases hik : i = k
      · subst hik; exact Or.inr hres
      · rcases h with h | h
        · exact Or.inl ((List.mem_cons.mp h).resolve_left hik)
        · right
          unfold Resampled at h ⊢
          obtain ⟨i1, i2, _, _⟩ := hinv.mats i hi
          rw [hother i hik, hold _ i1, hold _ i2]
          exact h
    · intro i hi
      rw [hsame i (fun h => hi (by simp [h])), hother i (fun h => hi (by simp [h]))]

/-- **C67** After `from_corners` or `extrude` has looked at the materials, either all of them have one coefficient of absorption and one of
scattering, or all of them have one coefficient per octave band, namely the interpolated data of the material as it was given; an object used for
several walls is resampled several times without a change. Materials that are not used, and the dictionaries of the user, are not changed. -/
theorem C67_resample {centers : List ℝ} (hc : GoodCenters centers) (st : Store) (ids : List Nat) (hids : ∀ i ∈ ids, i < st.mats.length)
    (hvalid : ∀ i, i < st.mats.length → (st.mats.getD i ⟨0, 0⟩).absorption < st.heap.length ∧ (st.mats.getD i ⟨0, 0⟩).scattering < st.heap.length)
    (hfine : ∀ i, i < st.mats.length → Fine (st.heap.at (st.mats.getD i ⟨0, 0⟩).absorption) ∧ Fine (st.heap.at (st.mats.getD i ⟨0, 0⟩).scattering)) :
    ∃ st', resampleAll centers st ids = .ok st' ∧
      ((st' = st ∧ ∀ i ∈ ids, isFlat st.heap (st.mats.getD i ⟨0, 0⟩) = true) ∨
        ∀ i ∈ ids, Resampled centers st st' i ∧
          (∃ r, (st'.heap.at (st'.mats.getD i ⟨0, 0⟩).absorption).coeffs = some r ∧ r.length = centers.length) ∧
          (∃ r, (st'.heap.at (st'.mats.getD i ⟨0, 0⟩).scattering).coeffs = some r ∧ r.length = centers.length)) ∧
      (∀ i, i ∉ ids → st'.mats.getD i ⟨0, 0⟩ = st.mats.getD i ⟨0, 0⟩) ∧
      (∀ a, a < st.heap.length → st'.heap.at a = st.heap.at a) := by
  unfold resampleAll
  split_ifs with hall
  · refine ⟨st, rfl, Or.inl ⟨rfl, ?_⟩, fun _ _ => rfl, fun _ _ => rfl⟩
    exact List.all_eq_true.mp hall
  · obtain ⟨st', e, hinv, hres, hsame⟩ := loop_ok hc st hfine ids hids st
      ⟨rfl, le_refl _, fun _ _ => rfl, fun i hi => ⟨(hvalid i hi).1, (hvalid i hi).2, Or.inl rfl, Or.inl rfl⟩⟩
    refine ⟨st', e, Or.inr ?_, hsame, hinv.old⟩
    intro i hi
    have hi' := hids i hi
    have hr := hres i hi' (Or.inl hi)
    refine ⟨hr, ?_, ?_⟩
    · obtain ⟨⟨r, e1, e2⟩, _⟩ := hr
      obtain ⟨r', e1', hl, _⟩ := fine_call (centers := centers) (hfine i hi').1
      rw [e1] at e1'
      injection e1' with e1'
      exact ⟨r, e2, by rw [e1', hl]⟩
    · obtain ⟨_, ⟨r, e1, e2⟩⟩ := hr
      obtain ⟨r', e1', hl, _⟩ := fine_call (centers := centers) (hfine i hi').2
      rw [e1] at e1'
      injection e1' with e1'
      exact ⟨r, e2, by rw [e1', hl]⟩

/-- Non-vacuity of C67: a flat wall material and one with two bands; both get three coefficients. -/
example : GoodCenters [125, 250, 500] ∧
    Fine ⟨some [0.5], false, none⟩ ∧ Fine ⟨some [0.1, 0.2], false, some [125, 250]⟩ ∧
    isFlat [⟨some [0.5], false, none⟩, ⟨some [0.1, 0.2], false, some [125, 250]⟩] ⟨1, 0⟩ = false := by
  refine ⟨⟨by simp, by simp, by norm_num⟩, ⟨[0.5], rfl, by norm_num, Or.inl ⟨rfl, rfl⟩⟩,
    ⟨[0.1, 0.2], rfl, by norm_num, Or.inr ⟨[125, 250], rfl, ⟨rfl, by simp, by simp, by norm_num⟩⟩⟩, ?_⟩
  simp [isFlat, Heap.at]

/-- Non-vacuity of C67_values: absorption by bands and a number for the scattering. -/
example : ∃ h' m, materialInit [] [] [⟨some [0.1, 0.2], false, some [125, 250]⟩] (.ref 0) (some (.num 0.3)) = .ok (h', m) ∧
    (h'.at m.scattering).coeffs = some [0.3, 0.3] ∧ (h'.at m.absorption).coeffs = some [0.1, 0.2] :=
  ⟨[⟨some [0.1, 0.2], false, some [125, 250]⟩, ⟨some [0.3, 0.3], false, some [125, 250]⟩], ⟨0, 1⟩, by
    simp [materialInit, initAbsorption, initScattering, initScattering.initNum, DictObj.getCoeffs, DictObj.getCenters, Heap.at, bind, Except.bind, pure,
      Except.pure, broadcastAbsorption, checkDict], rfl, rfl⟩

end Verif.Materials
