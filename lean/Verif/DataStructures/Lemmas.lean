import Verif.DataStructures.Model
import Mathlib.Data.List.Basic
import Mathlib.Data.List.Nodup
import Mathlib.Tactic.Ring

namespace Verif.DataStructures

open Verif.Py

/-! ### Buffer -/

/-- Abstraction relation between the array representation and a queue. -/
structure Rep {α} (b : Buffer α) (q : List α) : Prop where
  blen : b.buf.length = b.len
  hle : b.head ≤ b.len
  pos : 0 < b.len
  data : b.buf.drop b.head = q

theorem Rep.size {α} {b : Buffer α} {q : List α} (h : Rep b q) : b.size = q.length := by
  have := congrArg List.length h.data
  simp [h.blen] at this
  simpa [Buffer.size] using this

theorem rep_new {α} [Zero α] {n : Nat} (hn : 0 < n) : Rep (Buffer.new (α := α) n) [] := by
  refine ⟨?_, ?_, ?_, ?_⟩ <;> simp [Buffer.new, hn]

theorem rep_grow {α} [Zero α] {b : Buffer α} {q : List α} (h : Rep b q) :
    Rep b.grow q ∧ 0 < b.grow.head := by
  unfold Buffer.grow
  by_cases h0 : b.head = 0
  · have hd := h.data
    rw [h0] at hd
    have := h.pos
    refine ⟨⟨?_, ?_, ?_, ?_⟩, ?_⟩
    · simp [h0, h.blen]; omega
    · simp [h0]; omega
    · simp [h0]; omega
    · simp only [h0, if_true, Nat.zero_add]
      rw [List.drop_append]
      simpa using hd
    · simpa [h0] using this
  · simp only [h0, if_false]
    exact ⟨h, Nat.pos_of_ne_zero h0⟩

theorem rep_push {α} [Zero α] {b : Buffer α} {q : List α} (h : Rep b q) (v : α) :
    ∃ b', b.push v = .ok b' ∧ Rep b' (v :: q) := by
  obtain ⟨hg, hp⟩ := rep_grow h
  unfold Buffer.push
  have hlt : b.grow.head - 1 < b.grow.buf.length := by
    rw [hg.blen]; have := hg.hle; omega
  have hidx : normIdx b.grow.buf.length ((b.grow.head : Int) - 1) = some (b.grow.head - 1) := by
    unfold normIdx
    rw [if_pos (by omega), if_pos (by omega)]
    congr 1; omega
  simp only [Py.set, hidx]
  refine ⟨_, rfl, ?_, ?_, ?_, ?_⟩
  · simp [hg.blen]
  · have := hg.hle; simp; omega
  · exact hg.pos
  · simp only
    rw [List.drop_eq_getElem_cons (by simpa using hlt)]
    simp only [List.getElem_set_self]
    congr 1
    rw [show b.grow.head - 1 + 1 = b.grow.head by omega]
    rw [List.drop_set_of_lt (by omega)]
    exact hg.data

theorem slice_head {α} {b : Buffer α} {q : List α} (h : Rep b q) :
    slice b.buf (some b.head) none = q := by
  have h1 := h.hle
  have h2 := h.blen
  simp only [slice, sliceStart, sliceStop, clampIdx]
  rw [if_neg (by omega)]
  have : min (b.head : Int).toNat b.buf.length = b.head := by
    simp; omega
  rw [this, h.data, ← h.data]
  apply List.take_of_length_le
  simp

theorem top_eq {α} {b : Buffer α} {q : List α} (h : Rep b q) (n : Nat) :
    b.top n = q.take n := by
  have h1 := h.hle
  have h2 := h.blen
  simp only [Buffer.top, slice, sliceStart, sliceStop, clampIdx]
  rw [if_neg (by omega), if_neg (by omega)]
  have e1 : min (b.head : Int).toNat b.buf.length = b.head := by simp; omega
  rw [e1, h.data]
  have hq : q.length = b.len - b.head := by rw [← h.data]; simp [h2]
  simp only [Int.toNat_natCast]
  by_cases hn : b.head + n ≤ b.buf.length
  · rw [Nat.min_eq_left hn]; congr 1; omega
  · rw [Nat.min_eq_right (by omega)]
    rw [List.take_of_length_le (by omega), List.take_of_length_le (by omega)]

theorem rep_flush_pos {α} {b : Buffer α} {q : List α} (h : Rep b q) {n : Nat}
    (hn : 0 < n ∨ q = []) :
    ∃ b', b.flush n = .ok b' ∧ Rep b' (q.take (q.length - n)) := by
  have h1 := h.hle
  have h2 := h.blen
  have hq : q.length = b.len - b.head := by rw [← h.data]; simp [h2]
  unfold Buffer.flush
  set m := if n > b.len - b.head then b.len - b.head else n with hm
  have hmle : m ≤ b.len - b.head := by rw [hm]; split <;> omega
  have hsl : slice b.buf (some (b.head : Int)) (some (-(m : Int)))
      = q.take (q.length - n) := by
    simp only [slice, sliceStart, sliceStop, clampIdx_nat]
    have e1 : min b.head b.buf.length = b.head := by omega
    rw [e1, h.data]
    by_cases h0 : m = 0
    · have hq0 : q = [] := by
        rcases hn with hn | hn
        · have : q.length = 0 := by
            rw [hm] at h0; split at h0 <;> omega
          exact List.length_eq_zero_iff.mp this
        · exact hn
      simp [hq0]
    · rw [clampIdx_neg _ (by omega)]
      congr 1
      rw [hm]
      split <;> omega
  have hlen : (q.take (q.length - n)).length = b.len - (b.head + m) := by
    simp only [List.length_take]; rw [hm]; split <;> omega
  have hstart : sliceStart b.buf.length (some ((b.head + m : Nat) : Int)) = b.head + m := by
    simp only [sliceStart, clampIdx]
    rw [if_neg (by omega)]
    simp; omega
  have hset : setSlice b.buf (some ((b.head + m : Nat) : Int)) none (q.take (q.length - n))
      = .ok (b.buf.take (b.head + m) ++ q.take (q.length - n)) := by
    have hlen' : (q.take (q.length - n)).length = b.buf.length - (b.head + m) := by omega
    revert hlen'
    generalize hv : q.take (q.length - n) = v
    intro hlen'
    simp only [setSlice, hstart, sliceStop]
    rw [Nat.max_eq_right (by omega)]
    match v, hlen' with
    | [x], hlen' =>
      simp only [List.length_singleton] at hlen'
      simp [← hlen']
    | [], hlen' => simp only; rw [if_pos (by omega)]; simp
    | x :: y :: t, hlen' => simp only; rw [if_pos (by omega)]; simp
  simp only [hsl, hset]
  refine ⟨_, rfl, ?_, ?_, h.pos, ?_⟩
  · simp only [List.length_append, hlen, List.length_take]; omega
  · simp only; omega
  · simp only
    rw [List.drop_append]
    simp only [List.length_take]
    rw [List.drop_eq_nil_of_le (by simp)]
    rw [show b.head + m - min (b.head + m) b.buf.length = 0 by omega]
    simp

theorem flush_zero {α} {b : Buffer α} {q : List α} (h : Rep b q) (hq : q ≠ []) :
    b.flush 0 = .error .valueError := by
  have h1 := h.hle
  have h2 := h.blen
  have hql : q.length = b.len - b.head := by rw [← h.data]; simp [h2]
  have hpos : 0 < q.length := List.length_pos_iff.mpr hq
  unfold Buffer.flush
  rw [if_neg (by omega)]
  have hsl : slice b.buf (some (b.head : Int)) (some (-((0 : Nat) : Int))) = [] := by
    simp [slice, sliceStop, clampIdx]
  simp only [hsl, Nat.add_zero]
  have hstart : sliceStart b.buf.length (some (b.head : Int)) = b.head := by
    simp only [sliceStart, clampIdx]
    rw [if_neg (by omega)]
    simp; omega
  simp only [setSlice, hstart, sliceStop]
  rw [if_neg (by simp; omega)]

/-! ### Powers -/

theorem getElem_powRange {K} [Monoid K] (a : K) (lo hi k : Nat) :
    (powRange a lo hi)[k]? = if k < hi - lo then some (a ^ (lo + k)) else none := by
  unfold powRange
  rw [List.getElem?_map]
  split
  · rename_i h
    rw [List.getElem?_range' h]; simp
  · rename_i h
    rw [List.getElem?_eq_none (by simpa using h)]; rfl

theorem powRange_append {K} [Monoid K] (a : K) {n m : Nat} (h : n ≤ m) :
    powRange a 0 n ++ powRange a n m = powRange a 0 m := by
  unfold powRange
  rw [← List.map_append]
  congr 1
  have : List.range' 0 (n - 0) 1 ++ List.range' (0 + 1 * (n - 0)) (m - n) 1 =
      List.range' 0 ((n - 0) + (m - n)) 1 := List.range'_append
  rw [show m - 0 = (n - 0) + (m - n) by omega, ← this]
  congr 2; omega

theorem powRange_length {K} [Monoid K] (a : K) (lo hi : Nat) :
    (powRange a lo hi).length = hi - lo := by simp [powRange]

/-- Cache invariant of `Powers`. -/
def Powers.Ok {K} [Monoid K] (p : Powers K) (a : K) : Prop :=
  p.a = a ∧ ∃ n, p.pwr = powRange a 0 n

theorem Powers.ok_new {K} [Monoid K] (a : K) (n : Nat) : (Powers.new a n).Ok a :=
  ⟨rfl, n, rfl⟩

theorem Powers.ok_extend {K} [Monoid K] {p : Powers K} {a : K} (h : p.Ok a) (hi : Int) :
    (p.extend hi).Ok a ∧ hi.toNat ≤ (p.extend hi).pwr.length := by
  obtain ⟨ha, n, hn⟩ := h
  have hl : p.pwr.length = n := by rw [hn, powRange_length]; omega
  unfold Powers.extend
  split
  · rename_i hgt
    refine ⟨⟨ha, hi.toNat, ?_⟩, ?_⟩
    · simp only [ha, hl]
      rw [hn, powRange_append a (by omega)]
    · simp [powRange_length]; omega
  · rename_i hle
    exact ⟨⟨ha, n, hn⟩, by omega⟩

theorem Powers.ok_getItem {K} [Monoid K] {p : Powers K} {a : K} (h : p.Ok a) (r : PowIdx) :
    (p.getItem r).1.Ok a := by
  unfold Powers.getItem
  split
  · exact h
  · rename_i hi _
    cases r <;> exact (Powers.ok_extend h hi).1

theorem Powers.ok_run {K} [Monoid K] {p : Powers K} {a : K} (h : p.Ok a) (rs : List PowIdx) :
    (p.run rs).Ok a := by
  induction rs generalizing p with
  | nil => exact h
  | cons r rs ih => exact ih (Powers.ok_getItem h r)

theorem py_get_powRange {K} [Monoid K] (a : K) {n k : Nat} (h : k < n) :
    Py.get (powRange a 0 n) (k : Int) = .ok (a ^ k) := by
  unfold Py.get normIdx
  rw [if_pos (by omega), powRange_length, if_pos (by omega)]
  simp only [Int.toNat_natCast, getElem_powRange]
  rw [if_pos (by omega)]
  simp

theorem foldl_max_ge (l : List Int) (a : Int) :
    a ≤ l.foldl max a ∧ ∀ x ∈ l, x ≤ l.foldl max a := by
  induction l generalizing a with
  | nil => simp
  | cons y t ih =>
    obtain ⟨h1, h2⟩ := ih (max a y)
    simp only [List.foldl_cons]
    refine ⟨le_trans (le_max_left _ _) h1, ?_⟩
    intro x hx
    rcases List.mem_cons.mp hx with rfl | hx
    · exact le_trans (le_max_right _ _) h1
    · exact h2 x hx

theorem mapM_ok {α β : Type _} (f : α → Except Err β) (g : α → β) (l : List α)
    (h : ∀ x ∈ l, f x = .ok (g x)) : l.mapM f = .ok (l.map g) := by
  induction l with
  | nil => rfl
  | cons x t ih =>
    rw [List.mapM_cons, h x (by simp), ih (fun y hy => h y (by simp [hy]))]
    rfl

/-! ### CoinFlipper -/

/-- Invariant: the coins still available in the buffer, together with all coins
handed out so far (`out`), are pairwise different draws. -/
structure Coins.Ok (c : Coins) (out : List Nat) : Prop where
  blen : c.buffer.length = c.length
  dle : c.dirty ≤ c.length
  nodup : (out ++ c.buffer.drop c.dirty).Nodup
  lt : ∀ x ∈ out ++ c.buffer.drop c.dirty, x < c.drawn

theorem Coins.ok_new (n : Nat) : (Coins.new n).Ok [] := by
  refine ⟨by simp [Coins.new, freshFlips], by simp [Coins.new], ?_, ?_⟩
  · simp [Coins.new, freshFlips, List.nodup_range']
  · intro x hx; simp [Coins.new, freshFlips] at hx ⊢; exact hx

theorem Coins.nodup_append_fresh {l : List Nat} {d : Nat} (hn : l.Nodup)
    (hl : ∀ x ∈ l, x < d) (k : Nat) : (l ++ freshFlips d k).Nodup := by
  rw [List.nodup_append]
  refine ⟨hn, List.nodup_range', ?_⟩
  intro a ha b hb
  have := hl a ha
  simp [freshFlips] at hb
  omega

theorem Coins.ok_grow {c : Coins} {out : List Nat} (h : c.Ok out) (n : Nat) :
    (c.grow n).Ok out ∧ n ≤ (c.grow n).length := by
  unfold Coins.grow
  split
  · rename_i hn
    have hb := h.blen
    have hd := h.dle
    have e : (c.buffer ++ freshFlips c.drawn (2 * n - c.length)).drop c.dirty
        = c.buffer.drop c.dirty ++ freshFlips c.drawn (2 * n - c.length) := by
      rw [List.drop_append, show c.dirty - c.buffer.length = 0 by omega, List.drop_zero]
    refine ⟨⟨?_, ?_, ?_, ?_⟩, ?_⟩
    · simp [freshFlips, hb]; omega
    · simp only; omega
    · simp only [e]
      rw [← List.append_assoc]
      exact Coins.nodup_append_fresh h.nodup h.lt _
    · simp only [e]
      rw [← List.append_assoc]
      intro x hx
      rcases List.mem_append.mp hx with hx | hx
      · have := h.lt x hx; omega
      · simp [freshFlips] at hx; omega
    · simp only; omega
  · rename_i hn
    exact ⟨h, by omega⟩

theorem Coins.ok_flipAll {c : Coins} {out : List Nat} (h : c.Ok out) : c.flipAll.Ok out := by
  have hb := h.blen
  have hd := h.dle
  refine ⟨?_, ?_, ?_, ?_⟩
  · simp [Coins.flipAll, freshFlips, hb]; omega
  · simp [Coins.flipAll]
  · simp only [Coins.flipAll, List.drop_zero]
    have := Coins.nodup_append_fresh h.nodup h.lt c.dirty
    apply (List.Perm.nodup_iff ?_).mp this
    rw [List.append_assoc]
    exact List.Perm.append_left _ List.perm_append_comm
  · intro x hx
    simp only [Coins.flipAll, List.drop_zero, List.mem_append] at hx ⊢
    rcases hx with hx | hx | hx
    · have := h.lt x (by simp [hx]); omega
    · simp [freshFlips] at hx; omega
    · have := h.lt x (List.mem_append.mpr (Or.inr hx)); omega

theorem Coins.ok_flip {c : Coins} {out : List Nat} (h : c.Ok out) (n : Nat) :
    (c.flip n).1.Ok (out ++ (c.flip n).2) ∧ (c.flip n).2.length = n := by
  obtain ⟨hg, hl⟩ := Coins.ok_grow h n
  have key : ∀ d : Coins, d.Ok out → n ≤ d.length - d.dirty →
      ({ d with dirty := d.dirty + n } : Coins).Ok (out ++ (d.buffer.drop d.dirty).take n) ∧
      ((d.buffer.drop d.dirty).take n).length = n := by
    intro d hd hn
    have hb := hd.blen
    have hdl := hd.dle
    have e : out ++ (d.buffer.drop d.dirty).take n ++ d.buffer.drop (d.dirty + n)
        = out ++ d.buffer.drop d.dirty := by
      rw [List.append_assoc, ← List.drop_drop, List.take_append_drop]
    refine ⟨⟨hb, ?_, ?_, ?_⟩, ?_⟩
    · simp only; omega
    · simp only [e]; exact hd.nodup
    · simp only [e]; exact hd.lt
    · simp; omega
  unfold Coins.flip
  by_cases hr : (c.grow n).length - (c.grow n).dirty < n
  · simp only [hr, if_true]
    exact key _ (Coins.ok_flipAll hg) (by simpa [Coins.flipAll] using hl)
  · simp only [hr, if_false]
    exact key _ hg (by omega)

theorem Coins.ok_run (ns : List Nat) {c : Coins} {out : List Nat} (h : c.Ok out) :
    (c.run ns).1.Ok (out ++ (c.run ns).2.flatten) ∧ (c.run ns).2.map List.length = ns := by
  induction ns generalizing c out with
  | nil => simpa [Coins.run] using h
  | cons n ns ih =>
    obtain ⟨h1, h2⟩ := Coins.ok_flip h n
    obtain ⟨h3, h4⟩ := ih h1
    simp only [Coins.run]
    refine ⟨?_, ?_⟩
    · simpa [List.append_assoc] using h3
    · simp [h2, h4]

end Verif.DataStructures
