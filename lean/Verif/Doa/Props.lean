import Verif.Doa.Model
import Mathlib.Tactic.Ring
import Mathlib.Tactic.FieldSimp
import Mathlib.Tactic.Linarith
import Mathlib.Tactic.NormNum

/-!
# Properties of the steering vectors (C46)
-/

namespace Verif.Doa

open Verif.Py (Err)

/-! ## Specification -/

/-- Valid index of an entry. -/
def Valid (shape i : List Nat) : Prop := List.Forall₂ (fun n k => k < n) shape i

/-- Both raise the same error, or both return arrays of the same shape with the same entries. -/
def Same {α : Type} : Except Err (Arr α) → Except Err (Arr α) → Prop
  | .ok x, .ok y => x.shape = y.shape ∧ ∀ i, Valid x.shape i → x.at_ i = y.at_ i
  | .error e, .error e' => e = e'
  | _, _ => False

/-- Is it a list of integers? -/
def isList : Sel → Bool
  | .list _ => true
  | _ => false

/-- Integer, slice or list. -/
def isAxis : Sel → Bool
  | .newaxis => false
  | _ => true

/-! ## Lemmas -/

/-- One axis. -/
def res (n : Nat) : Sel → Except Err Dim
  | .int i => (position n i).map .fixed
  | .slice f => .ok (.run (f n))
  | .list l => (l.mapM (position n)).map .adv
  | .newaxis => .ok .new

theorem position_error {n : Nat} {i : Int} {e : Err} (h : position n i = .error e) : e = .indexError := by
  unfold position at h
  split at h
  · simp at h
  · simpa using h.symm

theorem mapM_position_error {n : Nat} {l : List Int} {e : Err} (h : l.mapM (position n) = .error e) : e = .indexError := by
  induction l with
  | nil => simp [pure, Except.pure] at h
  | cons a t ih =>
    rw [List.mapM_cons] at h
    simp only [bind, Except.bind, pure, Except.pure] at h
    split at h
    · rename_i e' he
      have := position_error he
      simp only [Except.error.injEq] at h
      rw [← h, this]
    · split at h
      · rename_i e' he
        simp only [Except.error.injEq] at h
        rw [h] at he; exact ih he
      · simp at h

theorem res_error {n : Nat} {s : Sel} {e : Err} (h : res n s = .error e) : e = .indexError := by
  cases s with
  | int i =>
    simp only [res, Except.map] at h
    split at h
    · rename_i e' he
      simp only [Except.error.injEq] at h
      rw [← h]; exact position_error he
    · simp at h
  | slice f => simp [res] at h
  | list l =>
    simp only [res, Except.map] at h
    split at h
    · rename_i e' he
      simp only [Except.error.injEq] at h
      rw [← h]; exact mapM_position_error he
    · simp at h
  | newaxis => simp [res] at h

theorem resolve_cons {n : Nat} {ns : List Nat} {s : Sel} {t : List Sel} (h : isAxis s = true) :
    resolve (n :: ns) (s :: t) = match res n s with
      | .error e => .error e
      | .ok d => (resolve ns t).map (d :: ·) := by
  cases s with
  | int i =>
    simp only [resolve, res]
    cases position n i <;> rfl
  | slice f => simp only [resolve, res]
  | list l =>
    simp only [resolve, res]
    cases l.mapM (position n) <;> rfl
  | newaxis => simp [isAxis] at h

/-- Resolved entries keep their kind. -/
theorem res_kind {n : Nat} {s : Sel} {d : Dim} (hs : isAxis s = true) (h : res n s = .ok d) :
    (s.isInt = true ∧ isList s = false ∧ ∃ k, d = .fixed k) ∨ (s.isInt = false ∧ isList s = false ∧ ∃ l, d = .run l) ∨
      (s.isInt = false ∧ isList s = true ∧ ∃ l, d = .adv l) := by
  cases s with
  | int i =>
    simp only [res, Except.map] at h
    split at h
    · simp at h
    · rename_i k _
      simp only [Except.ok.injEq] at h
      exact Or.inl ⟨rfl, rfl, k, h.symm⟩
  | slice f =>
    simp only [res, Except.ok.injEq] at h
    exact Or.inr (Or.inl ⟨rfl, rfl, _, h.symm⟩)
  | list l =>
    simp only [res, Except.map] at h
    split at h
    · simp at h
    · rename_i k _
      simp only [Except.ok.injEq] at h
      exact Or.inr (Or.inr ⟨rfl, rfl, k, h.symm⟩)
  | newaxis => simp [isAxis] at hs

theorem resolve_one {n : Nat} {s : Sel} (h : isAxis s = true) : resolve [n] [s] = (res n s).map ([·]) := by
  rw [resolve_cons h]
  cases res n s <;> simp [resolve, Except.map]

theorem resolve_one_new {n : Nat} {s : Sel} (h : isAxis s = true) : resolve [n] [s, .newaxis] = (res n s).map ([·, .new]) := by
  rw [resolve_cons h]
  cases res n s <;> simp [resolve, Except.map]

theorem resolve_one_new2 {n : Nat} {s : Sel} (h : isAxis s = true) : resolve [n] [s, .newaxis, .newaxis] = (res n s).map ([·, .new, .new]) := by
  rw [resolve_cons h]
  cases res n s <;> simp [resolve, Except.map]

theorem resolve_three {n0 n1 n2 : Nat} {r0 r1 r2 : Sel} (h0 : isAxis r0 = true) (h1 : isAxis r1 = true) (h2 : isAxis r2 = true) :
    resolve [n0, n1, n2] [r0, r1, r2] = match res n0 r0 with
      | .error e => .error e
      | .ok d0 => match res n1 r1 with
        | .error e => .error e
        | .ok d1 => match res n2 r2 with
          | .error e => .error e
          | .ok d2 => .ok [d0, d1, d2] := by
  rw [resolve_cons h0]
  cases res n0 r0 with
  | error e => rfl
  | ok d0 =>
    simp only
    rw [resolve_cons h1]
    cases res n1 r1 with
    | error e => rfl
    | ok d1 =>
      simp only
      rw [resolve_one h2]
      cases res n2 r2 <;> rfl

/-- The positions of a resolved entry are on the axis. -/
def Within (n : Nat) : Dim → Prop
  | .fixed k => k < n
  | .run l => ∀ k ∈ l, k < n
  | .adv l => ∀ k ∈ l, k < n
  | .new => True

/-- Slices select positions of their axis. -/
def Proper : Sel → Prop
  | .slice f => ∀ n, ∀ k ∈ f n, k < n
  | _ => True

theorem position_lt {n k : Nat} {i : Int} (h : position n i = .ok k) : k < n := by
  unfold position at h
  split at h
  · simp only [Except.ok.injEq] at h
    rw [← h]; split <;> omega
  · simp at h

theorem mapM_position_lt {n : Nat} {l : List Int} {r : List Nat} (h : l.mapM (position n) = .ok r) : ∀ k ∈ r, k < n := by
  induction l generalizing r with
  | nil =>
    simp only [List.mapM_nil, pure, Except.pure, Except.ok.injEq] at h
    rw [← h]; intro k hk; simp at hk
  | cons a t ih =>
    rw [List.mapM_cons] at h
    simp only [bind, Except.bind, pure, Except.pure] at h
    split at h
    · simp at h
    · rename_i k0 h0
      split at h
      · simp at h
      · rename_i r' h'
        simp only [Except.ok.injEq] at h
        rw [← h]
        intro k hk
        rcases List.mem_cons.mp hk with rfl | hk
        · exact position_lt h0
        · exact ih h' k hk

theorem res_within {n : Nat} {s : Sel} {d : Dim} (hp : Proper s) (h : res n s = .ok d) : Within n d := by
  cases s with
  | int i =>
    simp only [res, Except.map] at h
    split at h
    · simp at h
    · rename_i k hk
      simp only [Except.ok.injEq] at h
      rw [← h]; exact position_lt hk
  | slice f =>
    simp only [res, Except.ok.injEq] at h
    rw [← h]; exact hp n
  | list l =>
    simp only [res, Except.map] at h
    split at h
    · simp at h
    · rename_i k hk
      simp only [Except.ok.injEq] at h
      rw [← h]; exact mapM_position_lt hk
  | newaxis =>
    simp only [res, Except.ok.injEq] at h
    rw [← h]; trivial

theorem getD_within {n : Nat} {l : List Nat} (h : ∀ k ∈ l, k < n) {i : Nat} (hi : i < l.length) : l[i] < n := h _ (List.getElem_mem hi)

/-- Position on an axis, as a function of all numbers. -/
def clip (n k : Nat) : Nat := (List.range n).getD (if n = 1 then 0 else k) 0

theorem clip_eq {n k : Nat} (h : k < n) : clip n k = k := by
  unfold clip
  have : (if n = 1 then 0 else k) = k := by split <;> omega
  rw [this, List.getD_eq_getElem _ _ (by simpa using h), List.getElem_range]

/-- The table. -/
noncomputable def tableOf (w t : List Nat → ℝ) (F M G : Nat) : Arr ℂ :=
  ⟨[F, M, G], fun i => phase (w [clip F (i.getD 0 0)]) (t [0, if M = 1 then 0 else i.getD 1 0, if G = 1 then 0 else i.getD 2 0])⟩

theorem if_one {n k : Nat} (h : k < n) : (if n = 1 then 0 else k) = k := by split <;> omega

/-- Is it a position? -/
def Dim.isFixed : Dim → Bool
  | .fixed _ => true
  | _ => false

theorem bcast {n : Nat} {r : List Nat} : (if 1 = n ∨ n = 1 then Except.ok (1 :: r) else Except.ok (n :: r) : Except Err (List Nat)) = Except.ok (n :: r) := by
  split
  · rename_i h; rw [show n = 1 by omega]
  · rfl

theorem valid_one {a : Nat} {i : List Nat} : Valid [a] i ↔ ∃ x, i = [x] ∧ x < a := by
  unfold Valid; simp [List.forall₂_cons_left_iff]
  tauto

theorem valid_two {a b : Nat} {i : List Nat} : Valid [a, b] i ↔ ∃ x y, i = [x, y] ∧ x < a ∧ y < b := by
  unfold Valid
  constructor
  · rintro (_ | ⟨h1, _ | ⟨h2, _ | _⟩⟩)
    exact ⟨_, _, rfl, h1, h2⟩
  · rintro ⟨x, y, rfl, hx, hy⟩; exact .cons hx (.cons hy .nil)

theorem valid_three {a b c : Nat} {i : List Nat} : Valid [a, b, c] i ↔ ∃ x y z, i = [x, y, z] ∧ x < a ∧ y < b ∧ z < c := by
  unfold Valid
  constructor
  · rintro (_ | ⟨h1, _ | ⟨h2, _ | ⟨h3, _ | _⟩⟩⟩)
    exact ⟨_, _, _, rfl, h1, h2, h3⟩
  · rintro ⟨x, y, z, rfl, hx, hy, hz⟩; exact .cons hx (.cons hy (.cons hz .nil))

theorem entry_lt {n : Nat} {l : List Nat} (h : ∀ k ∈ l, k < n) {i : Nat} (hi : i < l.length) : l[i]?.getD 0 < n := by
  rw [List.getElem?_eq_getElem hi]; exact h _ (List.getElem_mem hi)

theorem phase_congr {a a' b b' c c' : Nat} (w t : List Nat → ℝ) (h1 : a = a') (h2 : b = b') (h3 : c = c') : phase (w [a]) (t [0, b, c]) = phase (w [a']) (t [0, b', c']) := by
  rw [h1, h2, h3]

theorem pick_same (w t : List Nat → ℝ) {F M G : Nat} {d0 d1 d2 : Dim} (n0 : ¬ d0 = .new) (n1 : ¬ d1 = .new) (n2 : ¬ d2 = .new)
    (w0 : Within F d0) (w1 : Within M d1) (w2 : Within G d2) (hl : ([d0, d1, d2].filter Dim.isList).length ≤ 1) :
    Same (match pick ⟨[F], w⟩ (d0 :: List.replicate ([d1, d2].filter fun d => !d.isFixed).length .new) with
      | .error e => .error e
      | .ok x => match pick ⟨[1, M, G], t⟩ [if d0.isFixed then .fixed 0 else .run [0], d1, d2] with
        | .error e => .error e
        | .ok y => binop phase x y) (pick (tableOf w t F M G) [d0, d1, d2]) := by
  cases d0 <;> cases d1 <;> cases d2 <;> simp [Dim.isList, List.filter] at hl n0 n1 n2 <;>
    simp [pick, Dim.isFixed, Dim.isList, common, runs, source, Dim.joint, List.takeWhile, List.dropWhile, tableOf, binop, broadcastRev, Same, List.filter, bcast]
  all_goals simp only [Within] at w0 w1 w2
  all_goals intro i hi
  all_goals first
    | (obtain ⟨x, rfl, hx⟩ := valid_one.mp hi; simp [operand, if_one hx])
    | (obtain ⟨x, y, rfl, hx, hy⟩ := valid_two.mp hi; simp [operand, if_one hx, if_one hy])
    | (obtain ⟨x, y, z, rfl, hx, hy, hz⟩ := valid_three.mp hi; simp [operand, if_one hx, if_one hy, if_one hz])
    | skip
  all_goals apply phase_congr
  all_goals first
    | rfl
    | exact (clip_eq w0).symm
    | exact (if_one w1).symm
    | exact (if_one w2).symm
    | exact (clip_eq (entry_lt w0 ‹_›)).symm
    | exact (if_one (entry_lt w1 ‹_›)).symm
    | exact (if_one (entry_lt w2 ‹_›)).symm

theorem isFixed_of {n : Nat} {s : Sel} {d : Dim} (hs : isAxis s = true) (h : res n s = .ok d) : d.isFixed = s.isInt ∧ d.isList = isList s ∧ ¬ d = .new := by
  rcases res_kind hs h with ⟨a, b, k, rfl⟩ | ⟨a, b, k, rfl⟩ | ⟨a, b, k, rfl⟩ <;> simp [a, b, Dim.isFixed, Dim.isList]

theorem lookup (w t : List Nat → ℝ) {F M G : Nat} {r0 r1 r2 : Sel} (h0 : isAxis r0 = true) (h1 : isAxis r1 = true) (h2 : isAxis r2 = true)
    (p0 : Proper r0) (p1 : Proper r1) (p2 : Proper r2) (hl : ([r0, r1, r2].filter isList).length ≤ 1) :
    Same (getitem ⟨⟨[F], w⟩, ⟨[1, M, G], t⟩, none⟩ [r0, r1, r2]) (index (tableOf w t F M G) [r0, r1, r2]) := by
  unfold getitem
  simp only
  have hR := resolve_three (n0 := F) (n1 := M) (n2 := G) h0 h1 h2
  have hT := resolve_three (n0 := 1) (n1 := M) (n2 := G) (r0 := if r0.isInt then .int 0 else .slice List.range) (by split <;> rfl) h1 h2
  have hT0 : res 1 (if r0.isInt then .int 0 else .slice List.range) = .ok (if r0.isInt then .fixed 0 else .run [0]) := by
    cases r0.isInt
    · rfl
    · rfl
  rw [hT0] at hT
  simp only at hT
  have hw : lazyOmega ⟨⟨[F], w⟩, ⟨[1, M, G], t⟩, none⟩ [r0, r1, r2] = match res F r0 with
      | .error e => .error e
      | .ok d => pick ⟨[F], w⟩ (d :: List.replicate ([r1, r2].filter fun r => !r.isInt).length .new) := by
    simp only [lazyOmega, index, resolve_one h0, resolve_one_new h0, resolve_one_new2 h0]
    cases res F r0 <;> cases i1 : r1.isInt <;> cases i2 : r2.isInt <;> simp [Except.map, List.filter, List.replicate, i1, i2]
  rw [hw]
  cases e0 : res F r0 with
  | error e =>
    rw [e0] at hR
    simp only at hR
    simp only [index, tableOf, hR]
    rfl
  | ok d0 =>
    rw [e0] at hR
    simp only at hR ⊢
    obtain ⟨f0, g0, n0⟩ := isFixed_of h0 e0
    have hpw : ∃ x, pick ⟨[F], w⟩ (d0 :: List.replicate ([r1, r2].filter fun r => !r.isInt).length .new) = .ok x := by
      cases d0 <;> cases i1 : r1.isInt <;> cases i2 : r2.isInt <;> simp [pick, common, Dim.isList, List.filter, List.replicate, i1, i2]
    obtain ⟨x, hx⟩ := hpw
    rw [hx]
    cases e1 : res M r1 with
    | error e =>
      rw [e1] at hR hT
      simp only at hR hT
      simp only [index, tableOf, lazyTau, hR, hT]
      rfl
    | ok d1 =>
      rw [e1] at hR hT
      simp only at hR hT
      obtain ⟨f1, g1, n1⟩ := isFixed_of h1 e1
      cases e2 : res G r2 with
      | error e =>
        rw [e2] at hR hT
        simp only at hR hT
        simp only [index, tableOf, lazyTau, hR, hT]
        rfl
      | ok d2 =>
        rw [e2] at hR hT
        simp only at hR hT
        obtain ⟨f2, g2, n2⟩ := isFixed_of h2 e2
        have := pick_same w t n0 n1 n2 (res_within p0 e0) (res_within p1 e1) (res_within p2 e2) (by
          have : ([d0, d1, d2].filter Dim.isList).length = ([r0, r1, r2].filter isList).length := by
            simp only [List.filter, g0, g1, g2]
            cases isList r0 <;> cases isList r1 <;> cases isList r2 <;> rfl
          rw [this]; exact hl)
        rw [show ([d1, d2].filter fun d => !d.isFixed).length = ([r1, r2].filter fun r => !r.isInt).length by
          simp only [List.filter, f1, f2]
          cases r1.isInt <;> cases r2.isInt <;> rfl, hx, f0] at this
        simp only [index, lazyTau, hT]
        simp only [tableOf] at hR ⊢
        rw [hR]
        exact this

/-! ## Theorems -/

/-- Same entries on the three axes. -/
theorem pick_congr {α : Type} {x y : Arr α} (h : ∀ a b c, x.at_ [a, b, c] = y.at_ [a, b, c]) {d0 d1 d2 : Dim} (n0 : ¬ d0 = .new) (n1 : ¬ d1 = .new) (n2 : ¬ d2 = .new) :
    pick x [d0, d1, d2] = pick y [d0, d1, d2] := by
  cases d0 <;> cases d1 <;> cases d2 <;> simp at n0 n1 n2 <;> simp only [pick, source, h]

theorem index_congr {α : Type} {x y : Arr α} {F M G : Nat} (hx : x.shape = [F, M, G]) (hy : y.shape = [F, M, G]) (h : ∀ a b c, x.at_ [a, b, c] = y.at_ [a, b, c])
    {r0 r1 r2 : Sel} (h0 : isAxis r0 = true) (h1 : isAxis r1 = true) (h2 : isAxis r2 = true) : index x [r0, r1, r2] = index y [r0, r1, r2] := by
  unfold index
  rw [hx, hy, resolve_three h0 h1 h2]
  cases e0 : res F r0 with
  | error e => rfl
  | ok d0 =>
    cases e1 : res M r1 with
    | error e => rfl
    | ok d1 =>
      cases e2 : res G r2 with
      | error e => rfl
      | ok d2 => exact pick_congr h (isFixed_of h0 e0).2.2 (isFixed_of h1 e1).2.2 (isFixed_of h2 e2).2.2

/-- What `init` returns. -/
theorem init_eq (mics : List (ℝ × ℝ × Option ℝ)) (fs : ℝ) {nfft : Nat} (hn : nfft % 2 = 0) (c : ℝ) (grid : List (ℝ × ℝ × ℝ)) {mode : Mode} (hm : mode ≠ .other) :
    ∃ w t : List Nat → ℝ, ∃ T : Arr ℂ,
      (∀ f : Nat, w [f] = 2 * Real.pi * fs * f / nfft) ∧ (∀ m g, ∃ d, dist mode mics grid m g = .ok d ∧ t [0, m, g] = d / c) ∧
      T.shape = [nfft / 2 + 1, mics.length, grid.length] ∧ (∀ i j k, T.at_ [i, j, k] = (tableOf w t (nfft / 2 + 1) mics.length grid.length).at_ [i, j, k]) ∧
      init mics fs nfft c grid mode false = .ok ⟨⟨[nfft / 2 + 1], w⟩, ⟨[1, mics.length, grid.length], t⟩, none⟩ ∧
      init mics fs nfft c grid mode true = .ok ⟨⟨[nfft / 2 + 1], w⟩, ⟨[1, mics.length, grid.length], t⟩, some T⟩ := by
  have hd : ∀ m g, ∃ d, dist mode mics grid m g = .ok d := by
    intro m g
    cases mode with
    | near => exact ⟨_, rfl⟩
    | far => exact ⟨_, rfl⟩
    | other => exact absurd rfl hm
  obtain ⟨d0, hd0⟩ := hd 0 0
  have hw : index (⟨[nfft / 2 + 1], fun i => 2 * Real.pi * fs * (i.getD 0 0 : Nat) / nfft⟩ : Arr ℝ) [.slice List.range, .newaxis, .newaxis] =
      .ok ⟨[nfft / 2 + 1, 1, 1], fun i => 2 * Real.pi * fs * ((source [.run (List.range (nfft / 2 + 1)), .new, .new] i 0).getD 0 0 : Nat) / nfft⟩ := by
    simp [index, resolve, Except.map, pick, Dim.isList, runs]
  refine ⟨fun i => 2 * Real.pi * fs * (i.getD 0 0 : Nat) / nfft, fun i => delay mode mics grid c (i.getD 1 0) (i.getD 2 0),
    ⟨[nfft / 2 + 1, mics.length, grid.length], fun i => phase
      (2 * Real.pi * fs * ((source [.run (List.range (nfft / 2 + 1)), .new, .new] (operand [nfft / 2 + 1, 1, 1] i) 0).getD 0 0 : Nat) / nfft)
      (delay mode mics grid c ((operand [1, mics.length, grid.length] i).getD 1 0) ((operand [1, mics.length, grid.length] i).getD 2 0))⟩,
    fun f => rfl, ?_, rfl, ?_, ?_, ?_⟩
  · intro m g
    obtain ⟨d, h⟩ := hd m g
    refine ⟨d, h, ?_⟩
    simp only [List.getD_cons_succ, List.getD_cons_zero, delay, h]
  · intro i j k
    simp [tableOf, operand, source, clip]
  · unfold init
    rw [if_neg (by omega), hd0]
    simp
  · unfold init
    rw [if_neg (by omega), hd0]
    simp only [if_true]
    rw [hw]
    simp [binop, broadcastRev, bcast]

/-- **C46, precomputed or not.** For every geometry, grid, sampling rate and index of three integers, slices or lists, at most one of them a
list, the object with the table and the object without return the same array, or raise the same error. -/
theorem C46_lazy (mics : List (ℝ × ℝ × Option ℝ)) (fs : ℝ) (nfft : Nat) (c : ℝ) (grid : List (ℝ × ℝ × ℝ)) (mode : Mode) {p q : ModeVector}
    (hp : init mics fs nfft c grid mode true = .ok p) (hq : init mics fs nfft c grid mode false = .ok q)
    {r0 r1 r2 : Sel} (h0 : isAxis r0 = true) (h1 : isAxis r1 = true) (h2 : isAxis r2 = true)
    (p0 : Proper r0) (p1 : Proper r1) (p2 : Proper r2) (hl : ([r0, r1, r2].filter isList).length ≤ 1) :
    Same (getitem q [r0, r1, r2]) (getitem p [r0, r1, r2]) := by
  have hn : nfft % 2 = 0 := by
    by_contra h
    unfold init at hp
    rw [if_pos (by omega)] at hp
    simp at hp
  have hm : mode ≠ .other := by
    rintro rfl
    unfold init at hp
    rw [if_neg (by omega)] at hp
    simp [dist] at hp
  obtain ⟨w, t, T, _, _, hs, hT, ef, et⟩ := init_eq mics fs hn c grid hm
  rw [ef] at hq
  rw [et] at hp
  simp only [Except.ok.injEq] at hp hq
  subst hp hq
  have := lookup w t (F := nfft / 2 + 1) (M := mics.length) (G := grid.length) h0 h1 h2 p0 p1 p2 hl
  have e : getitem ⟨⟨[nfft / 2 + 1], w⟩, ⟨[1, mics.length, grid.length], t⟩, some T⟩ [r0, r1, r2] =
      index (tableOf w t (nfft / 2 + 1) mics.length grid.length) [r0, r1, r2] := index_congr hs rfl hT h0 h1 h2
  rw [e]
  exact this

/-- Both objects exist exactly for an even transform length and a known mode. -/
theorem C46_init (mics : List (ℝ × ℝ × Option ℝ)) (fs : ℝ) (nfft : Nat) (c : ℝ) (grid : List (ℝ × ℝ × ℝ)) (mode : Mode) (precompute : Bool) :
    (∃ v, init mics fs nfft c grid mode precompute = .ok v) ↔ nfft % 2 = 0 ∧ mode ≠ .other := by
  constructor
  · rintro ⟨v, h⟩
    have hn : nfft % 2 = 0 := by
      by_contra h'
      unfold init at h
      rw [if_pos (by omega)] at h
      simp at h
    refine ⟨hn, ?_⟩
    rintro rfl
    unfold init at h
    rw [if_neg (by omega)] at h
    simp [dist] at h
  · rintro ⟨hn, hm⟩
    obtain ⟨w, t, T, _, _, _, _, ef, et⟩ := init_eq mics fs hn c grid hm
    cases precompute
    · exact ⟨_, ef⟩
    · exact ⟨_, et⟩

/-- The position `(x, y, z)` of a microphone, `z = 0` for arrays in the plane. -/
def place (r : ℝ × ℝ × Option ℝ) : ℝ × ℝ × ℝ := (r.1, r.2.1, r.2.2.getD 0)

/-- Complex tone of angular frequency `w` arriving as a plane wave from the unit vector `p`, at position `r` and time `s`: it passes the
microphones in the direction of `p` first. -/
noncomputable def planeWave (w c : ℝ) (p r : ℝ × ℝ × ℝ) (s : ℝ) : ℂ :=
  Complex.exp (Complex.I * ((w * (s + (p.1 * r.1 + p.2.1 * r.2.1 + p.2.2 * r.2.2) / c) : ℝ) : ℂ))

/-- Complex tone emitted by a source at `p`, at position `r` and time `s`, without the attenuation. -/
noncomputable def sphericalWave (w c : ℝ) (p r : ℝ × ℝ × ℝ) (s : ℝ) : ℂ :=
  Complex.exp (Complex.I * ((w * (s - Real.sqrt ((p.1 - r.1) ^ 2 + (p.2.1 - r.2.1) ^ 2 + (p.2.2 - r.2.2) ^ 2) / c) : ℝ) : ℂ))

theorem position_nat {n k : Nat} (h : k < n) : position n (k : Int) = .ok k := by
  unfold position
  rw [if_pos ⟨by omega, by omega⟩, if_neg (by omega)]; simp

theorem getitem_scalar {mics : List (ℝ × ℝ × Option ℝ)} {fs : ℝ} {nfft : Nat} {c : ℝ} {grid : List (ℝ × ℝ × ℝ)} {mode : Mode} {precompute : Bool} {v : ModeVector}
    (hv : init mics fs nfft c grid mode precompute = .ok v) {k m g : Nat} (hk : k < nfft / 2 + 1) (hm : m < mics.length) (hg : g < grid.length) :
    ∃ d, dist mode mics grid m g = .ok d ∧
      Same (getitem v [.int k, .int m, .int g]) (.ok ⟨[], fun _ => phase (2 * Real.pi * (k * fs / nfft)) (d / c)⟩) := by
  obtain ⟨hn, hmode⟩ := (C46_init mics fs nfft c grid mode precompute).mp ⟨v, hv⟩
  obtain ⟨w, t, T, hw, ht, hs, hT, ef, et⟩ := init_eq mics fs hn c grid hmode
  obtain ⟨d, hd, htd⟩ := ht m g
  refine ⟨d, hd, ?_⟩
  have hw' : w [k] = 2 * Real.pi * (k * fs / nfft) := by rw [hw]; ring
  cases precompute with
  | false =>
    rw [ef] at hv
    simp only [Except.ok.injEq] at hv
    subst hv
    simp only [getitem, lazyOmega, lazyTau, index, Sel.isInt, resolve, position_nat hk, position_nat hm, position_nat hg, Bool.and_self, if_true, Except.map]
    rw [show position 1 0 = .ok 0 from rfl]
    simp [pick, Dim.isList, runs, source, binop, broadcastRev, Same, hw', htd]
  | true =>
    rw [et] at hv
    simp only [Except.ok.injEq] at hv
    subst hv
    simp only [getitem, index, hs, resolve, position_nat hk, position_nat hm, position_nat hg, Except.map]
    simp [pick, Dim.isList, runs, source, Same, hT, tableOf, clip_eq hk, if_one hm, if_one hg, hw', htd]

theorem norm_phase (w t : ℝ) : ‖phase w t‖ = 1 := by
  unfold phase
  rw [show Complex.I * (w : ℂ) * (t : ℂ) = ((w * t : ℝ) : ℂ) * Complex.I by push_cast; ring]
  exact Complex.norm_exp_ofReal_mul_I _

/-- **C46, far field.** The entry of bin `k`, microphone `m` and grid point `g` is a number of modulus one: the ratio of the plane wave from the
grid point at the microphone and at the origin, at the frequency `k fs / nfft`. -/
theorem C46_far (mics : List (ℝ × ℝ × Option ℝ)) (fs : ℝ) (nfft : Nat) (c : ℝ) (grid : List (ℝ × ℝ × ℝ)) (precompute : Bool) {v : ModeVector}
    (hv : init mics fs nfft c grid .far precompute = .ok v) {k m g : Nat} (hk : k < nfft / 2 + 1) (hm : m < mics.length) (hg : g < grid.length) :
    ∃ x : ℂ, Same (getitem v [.int k, .int m, .int g]) (.ok ⟨[], fun _ => x⟩) ∧ ‖x‖ = 1 ∧
      ∀ s, x * planeWave (2 * Real.pi * (k * fs / nfft)) c (grid.getD g (0, 0, 0)) (0, 0, 0) s =
        planeWave (2 * Real.pi * (k * fs / nfft)) c (grid.getD g (0, 0, 0)) (place (mics.getD m (0, 0, none))) s := by
  obtain ⟨d, hd, h⟩ := getitem_scalar hv hk hm hg
  refine ⟨_, h, norm_phase _ _, fun s => ?_⟩
  simp only [dist, Except.ok.injEq] at hd
  rw [← hd]
  unfold planeWave phase place
  rw [← Complex.exp_add]
  congr 1
  push_cast
  ring

/-- **C46, near field.** The entry has modulus one, and its conjugate is the phase that the wave from the grid point has at the microphone. -/
theorem C46_near (mics : List (ℝ × ℝ × Option ℝ)) (fs : ℝ) (nfft : Nat) (c : ℝ) (grid : List (ℝ × ℝ × ℝ)) (precompute : Bool) {v : ModeVector}
    (hv : init mics fs nfft c grid .near precompute = .ok v) {k m g : Nat} (hk : k < nfft / 2 + 1) (hm : m < mics.length) (hg : g < grid.length) :
    ∃ x : ℂ, Same (getitem v [.int k, .int m, .int g]) (.ok ⟨[], fun _ => x⟩) ∧ ‖x‖ = 1 ∧
      ∀ s, (starRingEnd ℂ) x * sphericalWave (2 * Real.pi * (k * fs / nfft)) c (grid.getD g (0, 0, 0)) (grid.getD g (0, 0, 0)) s =
        sphericalWave (2 * Real.pi * (k * fs / nfft)) c (grid.getD g (0, 0, 0)) (place (mics.getD m (0, 0, none))) s := by
  obtain ⟨d, hd, h⟩ := getitem_scalar hv hk hm hg
  refine ⟨_, h, norm_phase _ _, fun s => ?_⟩
  simp only [dist, Except.ok.injEq] at hd
  rw [← hd]
  unfold sphericalWave phase place
  rw [← Complex.exp_conj, ← Complex.exp_add]
  congr 1
  simp only [map_mul, Complex.conj_I, Complex.conj_ofReal, sub_self]
  push_cast
  simp
  ring

/-- **C46, deviation.** In the near field the sign of the phase is wrong: the entry is the propagation phase only if this is real. -/
theorem C46_near_deviation (mics : List (ℝ × ℝ × Option ℝ)) (fs : ℝ) (nfft : Nat) (c : ℝ) (grid : List (ℝ × ℝ × ℝ)) (precompute : Bool) {v : ModeVector}
    (hv : init mics fs nfft c grid .near precompute = .ok v) {k m g : Nat} (hk : k < nfft / 2 + 1) (hm : m < mics.length) (hg : g < grid.length) {d : ℝ}
    (hd : dist .near mics grid m g = .ok d) (hsin : Real.sin (2 * Real.pi * (k * fs / nfft) * (d / c)) ≠ 0) :
    ∃ x : ℂ, Same (getitem v [.int k, .int m, .int g]) (.ok ⟨[], fun _ => x⟩) ∧
      ∀ s, x * sphericalWave (2 * Real.pi * (k * fs / nfft)) c (grid.getD g (0, 0, 0)) (grid.getD g (0, 0, 0)) s ≠
        sphericalWave (2 * Real.pi * (k * fs / nfft)) c (grid.getD g (0, 0, 0)) (place (mics.getD m (0, 0, none))) s := by
  obtain ⟨d', hd', h⟩ := getitem_scalar hv hk hm hg
  rw [hd] at hd'
  simp only [Except.ok.injEq] at hd'
  subst hd'
  refine ⟨_, h, fun s he => hsin ?_⟩
  obtain ⟨x, hx, _, hconj⟩ := C46_near mics fs nfft c grid precompute hv hk hm hg
  have hxe : x = phase (2 * Real.pi * (k * fs / nfft)) (d / c) := by
    generalize getitem v [.int k, .int m, .int g] = r at h hx
    cases r with
    | error e => simp [Same] at h
    | ok r =>
      simp only [Same] at h hx
      have hv' : Valid r.shape [] := by rw [h.1]; exact .nil
      rw [← hx.2 [] hv', ← h.2 [] hv']
  have hc := hconj s
  rw [hxe] at hc
  have hne : sphericalWave (2 * Real.pi * (k * fs / nfft)) c (grid.getD g (0, 0, 0)) (grid.getD g (0, 0, 0)) s ≠ 0 := Complex.exp_ne_zero _
  have heq : phase (2 * Real.pi * (k * fs / nfft)) (d / c) = (starRingEnd ℂ) (phase (2 * Real.pi * (k * fs / nfft)) (d / c)) :=
    mul_right_cancel₀ hne (he.trans hc.symm)
  have him := congrArg Complex.im heq
  rw [Complex.conj_im] at him
  have him0 : (phase (2 * Real.pi * (k * fs / nfft)) (d / c)).im = 0 := by linarith
  have : (phase (2 * Real.pi * (k * fs / nfft)) (d / c)).im = Real.sin (2 * Real.pi * (k * fs / nfft) * (d / c)) := by
    unfold phase
    rw [show Complex.I * ((2 * Real.pi * (k * fs / nfft) : ℝ) : ℂ) * ((d / c : ℝ) : ℂ) = ((2 * Real.pi * (k * fs / nfft) * (d / c) : ℝ) : ℂ) * Complex.I by
      push_cast; ring]
    rw [Complex.exp_ofReal_mul_I_im]
  rw [← this]; exact him0

/-- **C46, deviation.** Without the table an index with one or two entries always raises, though the code has branches for them; the table
returns the remaining axes. -/
theorem C46_short_deviation (mics : List (ℝ × ℝ × Option ℝ)) (fs : ℝ) (nfft : Nat) (c : ℝ) (grid : List (ℝ × ℝ × ℝ)) (mode : Mode) {p q : ModeVector}
    (hp : init mics fs nfft c grid mode true = .ok p) (hq : init mics fs nfft c grid mode false = .ok q) (r0 r1 : Sel) {k : Nat} (hk : k < nfft / 2 + 1) :
    getitem q [r0] = .error .indexError ∧ getitem q [r0, r1] = .error .indexError ∧ getitemInt q k = .error .typeError ∧
      (∃ x, getitem p [.int k] = .ok x ∧ x.shape = [mics.length, grid.length]) ∧ ∃ x, getitemInt p k = .ok x ∧ x.shape = [mics.length, grid.length] := by
  obtain ⟨hn, hmode⟩ := (C46_init mics fs nfft c grid mode true).mp ⟨p, hp⟩
  obtain ⟨w, t, T, hw, ht, hs, hT, ef, et⟩ := init_eq mics fs hn c grid hmode
  rw [ef] at hq
  rw [et] at hp
  simp only [Except.ok.injEq] at hp hq
  subst hp hq
  refine ⟨rfl, rfl, rfl, ?_, ?_⟩ <;>
    simp [getitem, getitemInt, index, hs, resolve, position_nat hk, Except.map, pick, Dim.isList, runs]

/-- **C46, deviation.** With lists for bins and grid points the table pairs them, as numpy does, and without the table all combinations are
returned. -/
theorem C46_lists_deviation (mics : List (ℝ × ℝ × Option ℝ)) (fs : ℝ) (nfft : Nat) (c : ℝ) (grid : List (ℝ × ℝ × ℝ)) (mode : Mode) {p q : ModeVector}
    (hp : init mics fs nfft c grid mode true = .ok p) (hq : init mics fs nfft c grid mode false = .ok q) {k k' g g' : Nat} (hk : k < nfft / 2 + 1)
    (hk' : k' < nfft / 2 + 1) (hg : g < grid.length) (hg' : g' < grid.length) :
    (∃ x, getitem p [.list [k, k'], .slice List.range, .list [g, g']] = .ok x ∧ x.shape = [2, mics.length]) ∧
      ∃ x, getitem q [.list [k, k'], .slice List.range, .list [g, g']] = .ok x ∧ x.shape = [2, mics.length, 2] := by
  obtain ⟨hn, hmode⟩ := (C46_init mics fs nfft c grid mode true).mp ⟨p, hp⟩
  obtain ⟨w, t, T, hw, ht, hs, hT, ef, et⟩ := init_eq mics fs hn c grid hmode
  rw [ef] at hq
  rw [et] at hp
  simp only [Except.ok.injEq] at hp hq
  subst hp hq
  have hl : [(k : Int), k'].mapM (position (nfft / 2 + 1)) = .ok [k, k'] := by
    simp [List.mapM_cons, position_nat hk, position_nat hk', bind, Except.bind, pure, Except.pure]
  have hl' : [(g : Int), g'].mapM (position grid.length) = .ok [g, g'] := by
    simp [List.mapM_cons, position_nat hg, position_nat hg', bind, Except.bind, pure, Except.pure]
  refine ⟨?_, ?_⟩
  · simp [getitem, index, hs, resolve, hl, hl', Except.map, pick, Dim.isList, Dim.joint, runs, common]
  · simp [getitem, lazyOmega, lazyTau, Sel.isInt, index, resolve, hl, hl', Except.map, pick, Dim.isList, Dim.joint, List.takeWhile, List.dropWhile, runs, common, binop, broadcastRev, bcast]

/-! ## The hypotheses can be met -/

/-- Two microphones, one of them off the plane, two directions. -/
example : ∃ p q, init [(0, 0, some 0), (1, 2, some 3)] 16000 512 343 [(1, 0, 0), (0, 1, 0)] .far true = .ok p ∧
    init [(0, 0, some 0), (1, 2, some 3)] 16000 512 343 [(1, 0, 0), (0, 1, 0)] .far false = .ok q := by
  obtain ⟨p, hp⟩ := (C46_init [(0, 0, some 0), (1, 2, some 3)] 16000 512 343 [(1, 0, 0), (0, 1, 0)] .far true).mpr ⟨by norm_num, by simp⟩
  obtain ⟨q, hq⟩ := (C46_init [(0, 0, some 0), (1, 2, some 3)] 16000 512 343 [(1, 0, 0), (0, 1, 0)] .far false).mpr ⟨by norm_num, by simp⟩
  exact ⟨p, q, hp, hq⟩

/-- An index as used by the algorithms: a list of bins, all microphones, one grid point. -/
example : ([Sel.list [3, 4], .slice List.range, .int 1].filter isList).length ≤ 1 ∧ Proper (.slice List.range) := by
  refine ⟨by simp [isList, List.filter], fun n k hk => List.mem_range.mp hk⟩

/-- A delay of a quarter of a period. -/
example : dist .near [(0, 0, none)] [(3, 4, 0)] 0 0 = .ok 5 ∧ Real.sin (2 * Real.pi * ((1 : ℕ) * 4 / (4 : ℕ)) * (5 / 20)) ≠ 0 := by
  refine ⟨?_, ?_⟩
  · simp [dist]
    rw [show (3 : ℝ) ^ 2 + 4 ^ 2 = 5 ^ 2 by norm_num]
    exact Real.sqrt_sq (by norm_num)
  · rw [show 2 * Real.pi * (((1 : ℕ) : ℝ) * 4 / ((4 : ℕ) : ℝ)) * (5 / 20) = Real.pi / 2 by push_cast; ring, Real.sin_pi_div_two]
    norm_num

end Verif.Doa
