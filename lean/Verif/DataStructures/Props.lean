import Verif.DataStructures.Lemmas

/-!
# Properties of the adaptive-filter data structures (C01, C02, C03)
-/

namespace Verif.DataStructures

open Verif.Py

/-! ## C01: the delay-line buffer is a newest-first queue -/

/-- Specification: the same calls on a plain list holding the samples newest
first. `push` puts a sample in front, `flush n` removes the `n` oldest samples
(the end of the list), reads are ordinary Python reads of that list. The only
irregularity is `flush 0` on a non-empty buffer, which raises `ValueError`. -/
def queueStep {α} (q : List α) : BufOp α → List α × BufOut α
  | .push v => (v :: q, .done)
  | .flush n =>
    if n = 0 ∧ q ≠ [] then (q, .raised .valueError)
    else (q.take (q.length - n), .done)
  | .top n => (q, .values (q.take n))
  | .size => (q, .count q.length)
  | .getInt i => match Py.get q i with
    | .ok v => (q, .value v)
    | .error e => (q, .raised e)
  | .getSlice s e => (q, .values (Py.slice q s e))

/-- A history of calls on the specification queue. -/
def queueRun {α} (q : List α) : List (BufOp α) → List α × List (BufOut α)
  | [] => (q, [])
  | op :: ops =>
    let r := queueStep q op
    let rest := queueRun r.1 ops
    (rest.1, r.2 :: rest.2)

theorem step_refines {α} [Zero α] {b : Buffer α} {q : List α} (h : Rep b q) (op : BufOp α) :
    Rep (b.step op).1 (queueStep q op).1 ∧ (b.step op).2 = (queueStep q op).2 := by
  cases op with
  | push v =>
    obtain ⟨b', hb, hr⟩ := rep_push h v
    simp only [Buffer.step, queueStep, hb]
    exact ⟨hr, trivial⟩
  | flush n =>
    by_cases hn : n = 0 ∧ q ≠ []
    · obtain ⟨rfl, hq⟩ := hn
      simp only [Buffer.step, queueStep, flush_zero h hq]
      rw [if_pos ⟨trivial, hq⟩]
      exact ⟨h, rfl⟩
    · obtain ⟨b', hb, hr⟩ := rep_flush_pos h (n := n) (by
        by_cases h0 : n = 0
        · right; by_contra hq; exact hn ⟨h0, hq⟩
        · left; omega)
      simp only [Buffer.step, queueStep, hb]
      rw [if_neg hn]
      exact ⟨hr, rfl⟩
  | top n => simp only [Buffer.step, queueStep, top_eq h]; exact ⟨h, trivial⟩
  | size => simp only [Buffer.step, queueStep, h.size]; exact ⟨h, trivial⟩
  | getInt i =>
    simp only [Buffer.step, queueStep, Buffer.getInt, slice_head h]
    cases Py.get q i <;> exact ⟨h, rfl⟩
  | getSlice s e =>
    simp only [Buffer.step, queueStep, Buffer.getSlice, slice_head h]
    exact ⟨h, trivial⟩

theorem run_refines {α} [Zero α] (ops : List (BufOp α)) {b : Buffer α} {q : List α}
    (h : Rep b q) : (b.run ops).2 = (queueRun q ops).2 := by
  induction ops generalizing b q with
  | nil => rfl
  | cons op ops ih =>
    obtain ⟨h1, h2⟩ := step_refines h op
    simp only [Buffer.run, queueRun, h2, ih h1]

/-- **C01.** For every initial capacity `≥ 1`, every history of calls on the
buffer returns (or raises) exactly what the same history returns on a newest-first
list that starts empty. -/
theorem C01_buffer_is_newest_first_queue {α} [Zero α] (length : Nat) (hl : 0 < length)
    (ops : List (BufOp α)) :
    ((Buffer.new length).run ops).2 = (queueRun [] ops).2 :=
  run_refines ops (rep_new hl)

/-- **C01, degenerate capacity.** A buffer created with capacity 0 can never store
anything: every push raises `IndexError`. -/
theorem C01_zero_capacity_push_raises {α} [Zero α] (v : α) :
    ((Buffer.new 0).step (.push v)).2 = .raised .indexError := by
  simp [Buffer.step, Buffer.push, Buffer.grow, Buffer.new, Py.set, normIdx]

/-- Readable corollary of C01: after pushing any list of samples, `top n` returns
the `n` most recent ones, newest first, whatever the initial capacity. -/
theorem C01_top_after_pushes {α} [Zero α] (length : Nat) (hl : 0 < length)
    (xs : List α) (n : Nat) :
    ((Buffer.new length).run (xs.map .push ++ [.top n])).2.getLast? =
      some (.values (xs.reverse.take n)) := by
  rw [C01_buffer_is_newest_first_queue length hl]
  have : ∀ (xs : List α) (q : List α), (queueRun q (xs.map .push ++ [.top n])).2.getLast? =
      some (.values ((xs.reverse ++ q).take n)) := by
    intro xs
    induction xs with
    | nil => intro q; simp [queueRun, queueStep]
    | cons x t ih =>
      intro q
      simp only [List.map_cons, List.cons_append, queueRun, queueStep]
      rw [List.getLast?_cons_of_ne_nil, ih]
      · simp
      · cases t <;> simp [queueRun]
  simpa using this xs []

/-- Non-vacuity: a history with two reallocations and a flush. -/
example : ((Buffer.new (α := Int) 1).run
    [.push 1, .push 2, .push 3, .flush 1, .top 5, .flush 0, .getInt (-1), .size]).2 =
    [.done, .done, .done, .done, .values [3, 2], .raised .valueError, .value 2, .count 2] := by
  decide

/-! ## C02: cached powers -/

/-- **C02 (single index).** Whatever accesses were made before (successful or not),
`Powers(a)[k] = a^k` for every `k ≥ 0`. -/
theorem C02_powers_int {K} [Monoid K] (a : K) (length : Nat) (hist : List PowIdx) (k : Nat) :
    (((Powers.new a length).run hist).getItem (.int k)).2 = .ok [a ^ k] := by
  obtain ⟨hok, hlen⟩ := Powers.ok_extend (Powers.ok_run (Powers.ok_new a length) hist) ((k : Int) + 1)
  obtain ⟨_, n, hn⟩ := hok
  simp only [Powers.getItem, PowIdx.high]
  have hk : k < n := by
    rw [hn, powRange_length] at hlen; omega
  rw [hn, py_get_powRange a hk]
  rfl

/-- **C02 (slice).** Whatever accesses were made before, `Powers(a)[i:j]` is
`[a^i, …, a^(j-1)]` for all `i ≤ j`. -/
theorem C02_powers_slice {K} [Monoid K] (a : K) (length : Nat) (hist : List PowIdx) (i j : Nat)
    (hij : i ≤ j) :
    (((Powers.new a length).run hist).getItem (.slice (some i) (some j))).2 =
      .ok ((List.range' i (j - i)).map (fun k => a ^ k)) := by
  obtain ⟨hok, hlen⟩ := Powers.ok_extend (Powers.ok_run (Powers.ok_new a length) hist) (j : Int)
  obtain ⟨_, n, hn⟩ := hok
  simp only [Powers.getItem, PowIdx.high]
  rw [hn]
  rw [hn, powRange_length] at hlen
  simp only [Py.slice, sliceStart, sliceStop, clampIdx_nat, powRange_length]
  rw [Nat.min_eq_left (by omega), Nat.min_eq_left (by omega)]
  congr 1
  apply List.ext_getElem?
  intro k
  simp only [List.getElem?_take, List.getElem?_drop, getElem_powRange, List.getElem?_map]
  by_cases hk : k < j - i
  · rw [if_pos hk, if_pos (by omega), List.getElem?_range' hk]; simp
  · rw [if_neg hk, List.getElem?_eq_none (by simpa using hk)]; rfl

/-- **C02 (list).** Whatever accesses were made before, `Powers(a)[[k₁, k₂, …]]` is
`[a^k₁, a^k₂, …]` for every non-empty list of non-negative exponents. -/
theorem C02_powers_list {K} [Monoid K] (a : K) (length : Nat) (hist : List PowIdx)
    (ks : List Nat) (hne : ks ≠ []) :
    (((Powers.new a length).run hist).getItem (.list (ks.map (fun k : Nat => (k : Int))))).2 =
      .ok (ks.map (fun k => a ^ k)) := by
  obtain ⟨k0, kt, rfl⟩ := List.exists_cons_of_ne_nil hne
  set m := (kt.map (fun k : Nat => (k : Int))).foldl max (k0 : Int) with hm
  obtain ⟨hok, hlen⟩ := Powers.ok_extend (Powers.ok_run (Powers.ok_new a length) hist) (m + 1)
  obtain ⟨_, n, hn⟩ := hok
  simp only [Powers.getItem, PowIdx.high, List.map_cons]
  rw [← hm, hn]
  rw [hn, powRange_length] at hlen
  obtain ⟨h1, h2⟩ := foldl_max_ge (kt.map (fun k : Nat => (k : Int))) k0
  rw [← hm] at h1 h2
  have hall : ∀ k ∈ k0 :: kt, k < n := by
    intro k hk
    rcases List.mem_cons.mp hk with rfl | hk
    · omega
    · have := h2 k (List.mem_map.mpr ⟨k, hk, rfl⟩); omega
  unfold getMany
  rw [← List.map_cons (f := fun k : Nat => (k : Int)), List.mapM_map]
  have := mapM_ok ((Py.get (powRange a 0 n)) ∘ (fun k : Nat => (k : Int))) (fun k => a ^ k)
    (k0 :: kt) (fun k hk => py_get_powRange a (hall k hk))
  simpa using this

/-- **C02, limits.** An open-ended slice and an empty list are refused. -/
theorem C02_powers_refused {K} [Monoid K] (p : Powers K) (s : Option Int) :
    (p.getItem (.slice s none)).2 = .error .typeError ∧
    (p.getItem (.list [])).2 = .error .valueError := ⟨rfl, rfl⟩

/-- **C02, limits.** A negative index is not `a^(-1)`: it reads the last cached
power, so its value depends on the access history (here: after asking for `a^n`
the index `-1` yields `a^n`). -/
theorem C02_negative_index_depends_on_history {K} [Monoid K] (a : K) (length n : Nat)
    (hn : length ≤ n) :
    (((Powers.new a length).run [.int n]).getItem (.int (-1))).2 = .ok [a ^ n] := by
  have hrun : ((Powers.new a length).run [.int n]).pwr = powRange a 0 (n + 1) := by
    have : ((Powers.new a length).run [.int n]).pwr = ((Powers.new a length).extend (n + 1)).pwr := rfl
    rw [this]
    unfold Powers.extend
    have hl : (Powers.new a length).pwr.length = length := by
      simp [Powers.new, powRange_length]
    rw [if_pos (by rw [hl]; omega)]
    simp only [hl]
    rw [show ((n : Int) + 1).toNat = n + 1 by omega]
    exact powRange_append a (by omega)
  simp only [Powers.getItem, PowIdx.high, Powers.extend]
  rw [if_neg (by omega), hrun]
  unfold Py.get normIdx
  rw [if_neg (by omega), powRange_length, if_pos (by omega)]
  rw [show ((-1 : Int) + ((n + 1 - 0 : Nat) : Int)).toNat = n by omega]
  simp only [getElem_powRange]
  rw [if_pos (by omega)]
  simp [Except.map]

example : (((Powers.new (2 : Int) 3).run [.int 7, .list [], .slice none (some 20)]).getItem
    (.list [0, 4, 2])).2 = .ok [1, 16, 4] := by rfl

/-! ## C03: coin flipper -/

/-- **C03.** For every buffer length and every sequence of request sizes: each call
returns exactly as many coins as requested, all coins handed out over the whole
history are different draws of the generator, and all of them were drawn. -/
theorem C03_coins_handed_out_once (length : Nat) (requests : List Nat) :
    let r := (Coins.new length).run requests
    r.2.map List.length = requests ∧ r.2.flatten.Nodup ∧ ∀ c ∈ r.2.flatten, c < r.1.drawn := by
  obtain ⟨h, hl⟩ := Coins.ok_run requests (Coins.ok_new length)
  simp only [List.nil_append] at h
  refine ⟨hl, (List.nodup_append.mp h.nodup).1, ?_⟩
  intro c hc
  exact h.lt c (List.mem_append.mpr (Or.inl hc))

/-- The array returned by `flip` shows the handed-out coins when it is returned. -/
theorem C03_window_at_return (c : Coins) (n : Nat) :
    (c.flip n).1.readWindow (c.flipWindow n) = (c.flip n).2 := rfl

/-- **C03, deviation.** The arrays returned by `flip` are views of the internal
array. For every buffer length `L ≥ 1`: after `a = flip(L); b = flip(L)` the array
`a` shows the coins of `b`, none of the coins it was returned with is left. -/
theorem C03_returned_array_is_overwritten (L : Nat) (_hL : 0 < L) :
    let c0 := Coins.new L
    let w := c0.flipWindow L
    let c1 := (c0.flip L).1
    let c2 := (c1.flip L).1
    c1.readWindow w = (c0.flip L).2 ∧
    c2.readWindow w = (c1.flip L).2 ∧
    (∀ x ∈ c2.readWindow w, x ∉ (c0.flip L).2) := by
  simp [Coins.new, Coins.flipWindow, Coins.readWindow, Coins.flip, Coins.grow, freshFlips,
    Coins.flipAll, List.take_of_length_le, _hL]
  omega

example : ((Coins.new 5).run [3, 1, 4, 20, 2]).2.map List.length = [3, 1, 4, 20, 2] ∧
    ((Coins.new 5).run [3, 1, 4, 20, 2]).1.drawn = 44 := by decide

end Verif.DataStructures
