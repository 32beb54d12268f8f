import Verif.Histogram.Lemmas
import Mathlib.Algebra.BigOperators.Intervals
import Mathlib.Data.Rat.Floor

/-!
# Properties of the energy histograms (C04, C05)
-/

namespace Verif.Histogram

variable {α : Type*} {P : Type*}

/-! ## C04 -/

/-- Specification of a histogram: its shape and the bag of elementary events
`(row, column, value)` recorded so far. -/
structure Tally (α : Type*) where
  nr : Nat
  nc : Nat
  ev : List (Nat × Nat × α)

/-- Smallest number `n·2^k` (`k ≥ 0`) greater than `i`. -/
def need (n i : Nat) : Nat := if i < n then n else n * 2 ^ (Nat.log 2 (i / n) + 1)

/-- Specification of one call: enlarge the shape so that the addressed position
exists and record one event per addressed cell. Vectors must fit the shape. -/
def Tally.step [Zero α] (t : Tally α) : HOp α → Option (Tally α)
  | .log r c v => some ⟨need t.nr r, need t.nc c, (r, c, v) :: t.ev⟩
  | .logCol c v =>
    if v.length = t.nr then
      some ⟨t.nr, need t.nc c, (List.range t.nr).map (fun r => (r, c, v.getD r 0)) ++ t.ev⟩
    else none
  | .logRow r v =>
    if v.length = t.nc then
      some ⟨need t.nr r, t.nc, (List.range t.nc).map (fun c => (r, c, v.getD c 0)) ++ t.ev⟩
    else none

/-- Specification of a history. -/
def Tally.run [Zero α] (t : Tally α) : List (HOp α) → Option (Tally α)
  | [] => some t
  | op :: ops => (t.step op).bind (fun t' => t'.run ops)

/-- Values recorded at a cell. -/
def valuesAt (ev : List (Nat × Nat × α)) (r c : Nat) : List α :=
  (ev.filter (fun e => e.1 = r ∧ e.2.1 = c)).map (fun e => e.2.2)

/-- `h` shows the tally `t`: same shape, every event lies inside, and every cell holds
the sum of the recorded values and their number. -/
structure Shows [AddCommMonoid α] (h : Hist α) (t : Tally α) : Prop where
  rows : h.rows = t.nr
  cols : h.cols = t.nc
  inside : ∀ e ∈ t.ev, e.1 < t.nr ∧ e.2.1 < t.nc
  sums : ∀ r c, r < t.nr → c < t.nc → h.array r c = (valuesAt t.ev r c).sum
  counts : ∀ r c, r < t.nr → c < t.nc → h.counts r c = ((valuesAt t.ev r c).length : Int)

theorem need_eq_grown (n i : Nat) : need n i = grown n i := rfl

/-- `need` is what its comment says. -/
theorem need_spec (n i : Nat) (hn : 0 < n) :
    (∃ k, need n i = n * 2 ^ k) ∧ i < need n i ∧ ∀ k, i < n * 2 ^ k → need n i ≤ n * 2 ^ k := by
  refine ⟨?_, lt_grown hn i, ?_⟩
  · unfold need; split
    · exact ⟨0, by simp⟩
    · exact ⟨_, rfl⟩
  · intro k hk
    unfold need; split
    · exact Nat.le_mul_of_pos_right n (by positivity)
    · apply Nat.mul_le_mul_left
      apply Nat.pow_le_pow_right (by omega)
      apply Nat.log_lt_of_lt_pow
      · have : 1 ≤ i / n := (Nat.le_div_iff_mul_le hn).mpr (by omega)
        omega
      · exact (Nat.div_lt_iff_lt_mul hn).mpr (by rw [Nat.mul_comm]; exact hk)

theorem valuesAt_outside (ev : List (Nat × Nat × α)) (nr nc r c : Nat)
    (h : ∀ e ∈ ev, e.1 < nr ∧ e.2.1 < nc) (ho : ¬ (r < nr ∧ c < nc)) : valuesAt ev r c = [] := by
  unfold valuesAt
  rw [List.map_eq_nil_iff, List.filter_eq_nil_iff]
  intro e he
  have := h e he
  simp only [decide_eq_true_eq]
  rintro ⟨rfl, rfl⟩
  exact ho this

theorem valuesAt_append (a b : List (Nat × Nat × α)) (r c : Nat) :
    valuesAt (a ++ b) r c = valuesAt a r c ++ valuesAt b r c := by
  simp [valuesAt]

theorem valuesAt_cons (e : Nat × Nat × α) (b : List (Nat × Nat × α)) (r c : Nat) :
    valuesAt (e :: b) r c = (if e.1 = r ∧ e.2.1 = c then [e.2.2] else []) ++ valuesAt b r c := by
  unfold valuesAt
  by_cases h : e.1 = r ∧ e.2.1 = c <;> simp [h]

theorem valuesAt_col (n col : Nat) (f : Nat → α) (r c : Nat) :
    valuesAt ((List.range n).map (fun r => (r, col, f r))) r c =
      if r < n ∧ c = col then [f r] else [] := by
  induction n with
  | zero => simp [valuesAt]
  | succ n ih =>
    rw [List.range_succ, List.map_append, valuesAt_append, ih]
    simp only [List.map_cons, List.map_nil, valuesAt_cons]
    by_cases h1 : c = col
    · subst h1
      rcases Nat.lt_trichotomy r n with h | h | h
      · simp [h, valuesAt, show ¬ n = r by omega, show r < n + 1 by omega]
      · subst h; simp [valuesAt]
      · simp [valuesAt, show ¬ r < n by omega, show ¬ n = r by omega, show ¬ r < n + 1 by omega]
    · simp [valuesAt, h1, Ne.symm h1, show ¬ col = c from fun h => h1 h.symm]

theorem valuesAt_row (n row : Nat) (f : Nat → α) (r c : Nat) :
    valuesAt ((List.range n).map (fun c => (row, c, f c))) r c =
      if c < n ∧ r = row then [f c] else [] := by
  induction n with
  | zero => simp [valuesAt]
  | succ n ih =>
    rw [List.range_succ, List.map_append, valuesAt_append, ih]
    simp only [List.map_cons, List.map_nil, valuesAt_cons]
    by_cases h1 : r = row
    · subst h1
      rcases Nat.lt_trichotomy c n with h | h | h
      · simp [h, valuesAt, show ¬ n = c by omega, show c < n + 1 by omega]
      · subst h; simp [valuesAt]
      · simp [valuesAt, show ¬ c < n by omega, show ¬ n = c by omega, show ¬ c < n + 1 by omega]
    · simp [valuesAt, h1, show ¬ row = r from fun h => h1 h.symm]

/-- After growing, the cells still show the same events. -/
theorem Shows.grow [AddCommMonoid α] {h h' : Hist α} {t : Tally α} (hs : Shows h t) {nr nc : Nat}
    (hg : GrowsTo h h' nr nc) (hr : t.nr ≤ nr) (hc : t.nc ≤ nc) :
    Shows h' ⟨nr, nc, t.ev⟩ := by
  refine ⟨hg.rows, hg.cols, fun e he => ?_, fun r c h1 h2 => ?_, fun r c h1 h2 => ?_⟩
  · have := hs.inside e he; simp only; omega
  · rw [(hg.inside r c h1 h2).1, hs.rows, hs.cols]
    by_cases hin : r < t.nr ∧ c < t.nc
    · rw [if_pos hin, hs.sums r c hin.1 hin.2]
    · rw [if_neg hin, valuesAt_outside _ _ _ _ _ hs.inside hin]; rfl
  · rw [(hg.inside r c h1 h2).2, hs.rows, hs.cols]
    by_cases hin : r < t.nr ∧ c < t.nc
    · rw [if_pos hin, hs.counts r c hin.1 hin.2]
    · rw [if_neg hin, valuesAt_outside _ _ _ _ _ hs.inside hin]; rfl

/-- One call behaves as specified. -/
theorem step_shows [AddCommMonoid α] (junk : Junk α) {h : Hist α} {t : Tally α} (hs : Shows h t)
    (h1 : 0 < t.nr) (h2 : 0 < t.nc) (op : HOp α) :
    match t.step op with
    | none => h.step junk op = none
    | some t' => ∃ h', h.step junk op = some h' ∧ Shows h' t' ∧ 0 < t'.nr ∧ 0 < t'.nc := by
  cases op with
  | log row col v =>
    obtain ⟨ha, ea, ga⟩ := growRows_spec junk h (by rw [hs.rows]; exact h1) row
    have sa := hs.grow ga (by rw [hs.rows]; exact le_grown h1 row) (by rw [hs.cols])
    obtain ⟨hb, eb, gb⟩ := growCols_spec junk ha (by rw [ga.cols, hs.cols]; exact h2) col
    have sb := sa.grow gb (by rw [sa.rows]) (by rw [ga.cols, hs.cols]; exact le_grown h2 col)
    rw [ga.rows, ga.cols, hs.rows, hs.cols] at sb
    simp only [Tally.step, Hist.step, Hist.log, ea, eb, Option.bind_eq_bind, Option.bind_some]
    refine ⟨_, rfl, ⟨sb.rows, sb.cols, ?_, ?_, ?_⟩, ?_, ?_⟩
    · intro e he
      rcases List.mem_cons.mp he with rfl | he
      · exact ⟨lt_grown h1 row, lt_grown h2 col⟩
      · exact sb.inside e he
    · intro r c hr hc
      have := sb.sums r c hr hc
      simp only at this ⊢
      rw [valuesAt_cons, List.sum_append, ← this]
      by_cases hh : r = row ∧ c = col
      · obtain ⟨rfl, rfl⟩ := hh; simp [add_comm]
      · rw [if_neg hh, if_neg (by rintro ⟨rfl, rfl⟩; exact hh ⟨rfl, rfl⟩)]; simp
    · intro r c hr hc
      have := sb.counts r c hr hc
      simp only at this ⊢
      rw [valuesAt_cons, List.length_append, Nat.cast_add, ← this]
      by_cases hh : r = row ∧ c = col
      · obtain ⟨rfl, rfl⟩ := hh; simp [add_comm]
      · rw [if_neg hh, if_neg (by rintro ⟨rfl, rfl⟩; exact hh ⟨rfl, rfl⟩)]; simp
    · exact lt_of_lt_of_le h1 (le_grown h1 row)
    · exact lt_of_lt_of_le h2 (le_grown h2 col)
  | logCol col v =>
    obtain ⟨hb, eb, gb⟩ := growCols_spec junk h (by rw [hs.cols]; exact h2) col
    have sb := hs.grow gb (by rw [hs.rows]) (by rw [hs.cols]; exact le_grown h2 col)
    rw [hs.rows, hs.cols] at sb
    have hrow : hb.rows = t.nr := sb.rows
    simp only [Tally.step, Hist.step, Hist.logCol, eb, Option.bind_eq_bind, Option.bind_some, hrow]
    by_cases hv : v.length = t.nr
    · rw [if_pos hv, if_neg (by simp [hv])]
      refine ⟨_, rfl, ⟨rfl, sb.cols, ?_, ?_, ?_⟩, h1, ?_⟩
      · intro e he
        rcases List.mem_append.mp he with he | he
        · obtain ⟨r, hr, rfl⟩ := List.mem_map.mp he
          exact ⟨List.mem_range.mp hr, lt_grown h2 col⟩
        · exact sb.inside e he
      · intro r c hr hc
        have := sb.sums r c hr hc
        simp only at this hr ⊢
        rw [valuesAt_append, List.sum_append, ← this, valuesAt_col]
        by_cases hh : c = col <;> simp [hh, hr, add_comm]
      · intro r c hr hc
        have := sb.counts r c hr hc
        simp only at this hr ⊢
        rw [valuesAt_append, List.length_append, Nat.cast_add, ← this, valuesAt_col]
        by_cases hh : c = col <;> simp [hh, hr, add_comm]
      · exact lt_of_lt_of_le h2 (le_grown h2 col)
    · rw [if_neg hv, if_pos hv]
  | logRow row v =>
    obtain ⟨hb, eb, gb⟩ := growRows_spec junk h (by rw [hs.rows]; exact h1) row
    have sb := hs.grow gb (by rw [hs.rows]; exact le_grown h1 row) (by rw [hs.cols])
    rw [hs.rows, hs.cols] at sb
    have hcol : hb.cols = t.nc := sb.cols
    simp only [Tally.step, Hist.step, Hist.logRow, eb, Option.bind_eq_bind, Option.bind_some, hcol]
    by_cases hv : v.length = t.nc
    · rw [if_pos hv, if_neg (by simp [hv])]
      refine ⟨_, rfl, ⟨sb.rows, rfl, ?_, ?_, ?_⟩, ?_, h2⟩
      · intro e he
        rcases List.mem_append.mp he with he | he
        · obtain ⟨r, hr, rfl⟩ := List.mem_map.mp he
          exact ⟨lt_grown h1 row, List.mem_range.mp hr⟩
        · exact sb.inside e he
      · intro r c hr hc
        have := sb.sums r c hr hc
        simp only at this hc ⊢
        rw [valuesAt_append, List.sum_append, ← this, valuesAt_row]
        by_cases hh : r = row <;> simp [hh, hc, add_comm]
      · intro r c hr hc
        have := sb.counts r c hr hc
        simp only at this hc ⊢
        rw [valuesAt_append, List.length_append, Nat.cast_add, ← this, valuesAt_row]
        by_cases hh : r = row <;> simp [hh, hc, add_comm]
      · exact lt_of_lt_of_le h1 (le_grown h1 row)
    · rw [if_neg hv, if_pos hv]

theorem run_shows [AddCommMonoid α] (junk : Junk α) (ops : List (HOp α)) {h : Hist α}
    {t : Tally α} (hs : Shows h t) (h1 : 0 < t.nr) (h2 : 0 < t.nc) :
    match t.run ops with
    | none => h.run junk ops = none
    | some t' => ∃ h', h.run junk ops = some h' ∧ Shows h' t' := by
  induction ops generalizing h t with
  | nil => exact ⟨h, rfl, hs⟩
  | cons op ops ih =>
    have := step_shows junk hs h1 h2 op
    simp only [Tally.run, Hist.run]
    cases ht : t.step op with
    | none => rw [ht] at this; simp only at this; rw [this]; rfl
    | some t' =>
      rw [ht] at this
      obtain ⟨h', e, hs', h1', h2'⟩ := this
      simp only [e, Option.bind_some]
      exact ih hs' h1' h2'

theorem shows_init [AddCommMonoid α] (r c : Nat) : Shows (Hist.init r c : Hist α) ⟨r, c, []⟩ :=
  ⟨rfl, rfl, by simp, by simp [Hist.init, valuesAt], by simp [Hist.init, valuesAt]⟩

/-- **C04.** For every initial shape with at least one row and column and every history
of calls (with any uninitialised-memory content), the histogram fails exactly when a
vector of the wrong length is logged, and otherwise every cell holds exactly the sum
and the number of the values logged to it, in a shape enlarged just enough by doublings
to contain all events. -/
theorem C04_histogram_keeps_every_contribution [AddCommMonoid α] (junk : Junk α)
    (rows cols : Nat) (hr : 0 < rows) (hc : 0 < cols) (ops : List (HOp α)) :
    match (Tally.mk rows cols []).run ops with
    | none => (Hist.init rows cols).run junk ops = none
    | some t => ∃ h, (Hist.init rows cols).run junk ops = some h ∧ Shows h t :=
  run_shows junk ops (shows_init rows cols) hr hc

/-- **C04, averages.** The value reported for a bin is the mean of the logged values, 0 if
there are none. -/
theorem C04_bin_is_mean [DivisionRing α] {h : Hist α} {t : Tally α} (hs : Shows h t) {r c : Nat}
    (hr : r < t.nr) (hc : c < t.nc) :
    h.bin r c = if valuesAt t.ev r c = [] then 0 else
      (valuesAt t.ev r c).sum / ((valuesAt t.ev r c).length : α) := by
  unfold Hist.bin
  rw [hs.sums r c hr hc, hs.counts r c hr hc]
  by_cases h0 : valuesAt t.ev r c = []
  · simp [h0]
  · rw [if_neg h0, if_pos (by simpa using h0)]; simp

/-- **C04, degenerate shape.** With no column to start from, logging into a column never
returns (the doubling loop stays at size 0). -/
theorem C04_empty_histogram_hangs [AddCommMonoid α] (junk : Junk α) (rows col : Nat) (v : List α) :
    (Hist.init rows 0).run junk [.logCol col v] = none := by
  simp [Hist.run, Hist.step, Hist.logCol, Hist.growCols, Hist.init, getNewSize]

/-- Non-vacuity: a history that grows in both directions twice. -/
example : ∃ t, (Tally.mk 2 1 []).run
    [HOp.log 1 0 (5 : Int), .logCol 6 [1, 2], .log 9 6 3, .log 1 0 4] = some t ∧
    t.nr = 16 ∧ t.nc = 8 ∧ valuesAt t.ev 1 0 = [4, 5] ∧ valuesAt t.ev 1 6 = [2] := by
  refine ⟨⟨16, 8, [(1, 0, 4), (9, 6, 3), (0, 6, 1), (1, 6, 2), (1, 0, 5)]⟩, ?_, rfl, rfl, ?_, ?_⟩
  · have h1 : Nat.log 2 4 = 2 := by decide
    have h2 : Nat.log 2 6 = 2 := by decide
    simp [Tally.run, Tally.step, need, List.range_succ, h1, h2]
  · decide
  · decide

/-! ## C05 -/

/-- Energies in band `b` of the hits selected by `p`. -/
def received [Zero α] (hits : List (RayHit P α)) (p : RayHit P α → Prop) [DecidablePred p]
    (b : Nat) : List α :=
  (hits.filter (fun x => p x)).map (fun x => x.energy.getD b 0)

set_option linter.unusedSectionVars false

section mic
variable [Field α] [LinearOrder α] [IsStrictOrderedRing α] [FloorRing α]

/-- Well-formed configuration of a microphone: positive bin size, at least one
direction, and the nearest-direction search returns one of the stored directions. -/
structure Mic.WF (m : Mic P α) : Prop where
  res : 0 < m.res
  dirs : 0 < m.nDirs
  near : ∀ o, m.nearest o < m.nDirs

theorem Mic.dirBin_lt {m : Mic P α} (h : m.WF) (o : P) : m.dirBin o < m.nDirs := by
  unfold Mic.dirBin; split
  · exact h.dirs
  · exact h.near o

/-- State of the microphone after the hits `hits`. -/
structure MicShows (m0 m : Mic P α) (hits : List (RayHit P α)) : Prop where
  nDirs : m.nDirs = m0.nDirs
  nBands : m.nBands = m0.nBands
  res : m.res = m0.res
  near : m.nearest = m0.nearest
  len : m.hists.length = m0.nDirs
  hist : ∀ d h, m.hists[d]? = some h → h.rows = m0.nBands ∧ 0 < h.cols ∧
    (∀ x ∈ hits, m0.dirBin x.origin = d → ⌊x.distance / m0.res⌋.toNat < h.cols) ∧
    ∀ b k, b < m0.nBands → k < h.cols → h.array b k =
      (received hits (fun x => m0.dirBin x.origin = d ∧ ⌊x.distance / m0.res⌋.toNat = k) b).sum

theorem received_append (a b : List (RayHit P α)) (p : RayHit P α → Prop) [DecidablePred p]
    (i : Nat) : received (a ++ b) p i = received a p i ++ received b p i := by
  simp [received]

theorem received_congr {hits : List (RayHit P α)} {p q : RayHit P α → Prop} [DecidablePred p]
    [DecidablePred q] (b : Nat) (h : ∀ x ∈ hits, p x ↔ q x) :
    received hits p b = received hits q b := by
  unfold received
  congr 1
  apply List.filter_congr
  intro x hx
  simp [h x hx]

theorem logHist_shows (junk : Junk α) {m0 m : Mic P α} {hits : List (RayHit P α)}
    (hwf : m0.WF) (hs : MicShows m0 m hits) (x : RayHit P α) (hx : x.energy.length = m0.nBands) :
    ∃ m', m.logHist junk x.distance x.energy x.origin = some m' ∧ MicShows m0 m' (hits ++ [x]) := by
  have hdir : m.dirBin x.origin = m0.dirBin x.origin := by
    unfold Mic.dirBin; rw [hs.nDirs, hs.near]
  have hlt : m0.dirBin x.origin < m.hists.length := by rw [hs.len]; exact Mic.dirBin_lt hwf _
  obtain ⟨hr, hc, hin, hv⟩ := hs.hist _ _ (List.getElem?_eq_getElem hlt)
  unfold Mic.logHist
  rw [hdir, hs.res]
  simp only [List.getElem?_eq_getElem hlt]
  obtain ⟨hb, eb, gb⟩ := growCols_spec junk (m.hists[m0.dirBin x.origin]) hc
    ⌊x.distance / m0.res⌋.toNat
  have hrow : ¬ (x.energy.length ≠ hb.rows) := by rw [gb.rows, hr]; simp [hx]
  simp only [Hist.logCol, eb, Option.bind_eq_bind, Option.bind_some, hrow, if_false]
  refine ⟨_, rfl, ⟨hs.nDirs, hs.nBands, rfl, hs.near, by simpa using hs.len, ?_⟩⟩
  intro d h hh
  simp only [List.getElem?_set] at hh
  by_cases hd : m0.dirBin x.origin = d
  · subst hd
    rw [if_pos rfl, if_pos hlt] at hh
    obtain rfl := Option.some.inj hh
    have hle := le_grown hc ⌊x.distance / m0.res⌋.toNat
    have hlt' := lt_grown hc ⌊x.distance / m0.res⌋.toNat
    refine ⟨by rw [gb.rows, hr], by simp only [gb.cols]; omega, ?_, ?_⟩
    · intro y hy hyd
      simp only [gb.cols]
      rcases List.mem_append.mp hy with hy | hy
      · exact lt_of_lt_of_le (hin y hy hyd) hle
      · rw [List.mem_singleton] at hy; subst hy; exact hlt'
    · intro b k hb' hk
      simp only at hk ⊢
      rw [gb.cols] at hk
      rw [received_append, List.sum_append]
      have h1 := (gb.inside b k (by rw [hr]; exact hb') hk).1
      have h2 : hb.array b k = (received hits (fun y => m0.dirBin y.origin =
          m0.dirBin x.origin ∧ ⌊y.distance / m0.res⌋.toNat = k) b).sum := by
        rw [h1, hr]
        by_cases hkc : k < (m.hists[m0.dirBin x.origin]).cols
        · rw [if_pos ⟨hb', hkc⟩, hv b k hb' hkc]
        · rw [if_neg (by simp [hkc])]
          symm
          have : received hits (fun y => m0.dirBin y.origin =
              m0.dirBin x.origin ∧ ⌊y.distance / m0.res⌋.toNat = k) b = [] := by
            unfold received
            rw [List.map_eq_nil_iff, List.filter_eq_nil_iff]
            intro y hy
            simp only [decide_eq_true_eq]
            rintro ⟨e1, e2⟩
            have := hin y hy e1
            omega
          rw [this]; rfl
      rw [h2]
      by_cases hk' : k = ⌊x.distance / m0.res⌋.toNat
      · subst hk'
        simp [received]
      · rw [if_neg hk']
        simp [received, Ne.symm hk']
  · rw [if_neg hd] at hh
    obtain ⟨g1, g2, g3, g4⟩ := hs.hist d h hh
    refine ⟨g1, g2, ?_, ?_⟩
    · intro y hy hyd
      rcases List.mem_append.mp hy with hy | hy
      · exact g3 y hy hyd
      · rw [List.mem_singleton] at hy; subst hy; exact absurd hyd hd
    · intro b k hb' hk
      rw [received_append, List.sum_append, g4 b k hb' hk]
      simp [received, hd]

theorem mic_run_shows (junk : Junk α) {m0 : Mic P α} (hwf : m0.WF) (hits : List (RayHit P α))
    (hlen : ∀ x ∈ hits, x.energy.length = m0.nBands) (pre : List (RayHit P α)) {m : Mic P α}
    (hs : MicShows m0 m pre) :
    ∃ m', m.run junk hits = some m' ∧ MicShows m0 m' (pre ++ hits) := by
  induction hits generalizing pre m with
  | nil => exact ⟨m, rfl, by simpa using hs⟩
  | cons x xs ih =>
    obtain ⟨m1, e1, s1⟩ := logHist_shows junk hwf hs x (hlen x (by simp))
    obtain ⟨m2, e2, s2⟩ := ih (fun y hy => hlen y (by simp [hy])) _ s1
    refine ⟨m2, by simp [Mic.run, e1, e2], by simpa using s2⟩

theorem mic_new_shows (nDirs nBands : Nat) (res maxDist : α) (nearest : P → Nat) :
    MicShows (Mic.new nDirs nBands res maxDist nearest) (Mic.new nDirs nBands res maxDist nearest)
      ([] : List (RayHit P α)) := by
  refine ⟨rfl, rfl, rfl, rfl, by simp [Mic.new, Mic.reset], ?_⟩
  intro d h hh
  simp only [Mic.new, Mic.reset, List.getElem?_replicate] at hh
  split at hh
  · obtain rfl := Option.some.inj hh
    exact ⟨rfl, by simp [Hist.init], by simp, by simp [Hist.init, received]⟩
  · exact absurd hh (by simp)

theorem floor_toNat_eq_iff {x res : α} (hx : 0 ≤ x) (hres : 0 < res) (k : Nat) :
    ⌊x / res⌋.toNat = k ↔ (k : α) * res ≤ x ∧ x < (k + 1) * res := by
  have h0 : 0 ≤ ⌊x / res⌋ := Int.floor_nonneg.mpr (div_nonneg hx hres.le)
  have h1 : ⌊x / res⌋.toNat = k ↔ ⌊x / res⌋ = (k : Int) := by omega
  rw [h1, Int.floor_eq_iff, le_div_iff₀ hres, div_lt_iff₀ hres]
  simp

/-- Direction bin of the property: an omnidirectional microphone (one direction) has a
single bin, otherwise the bin of the nearest stored direction. -/
def dirOf (nDirs : Nat) (nearest : P → Nat) (o : P) : Nat := if nDirs = 1 then 0 else nearest o

/-- **C05 (binning).** For every history of hits with non-negative travelled distance and
one energy per band, logging succeeds, and the bin `(d, k)` of band `b` holds exactly
the energy of the hits coming from direction bin `d` whose distance lies in
`[k·res, (k+1)·res)`. No hit falls outside the stored bins. -/
theorem C05_bins_by_distance (junk : Junk α) (nDirs nBands : Nat) (res maxDist : α)
    (nearest : P → Nat) (hres : 0 < res) (hd : 0 < nDirs) (hn : ∀ o, nearest o < nDirs)
    (hits : List (RayHit P α)) (hlen : ∀ x ∈ hits, x.energy.length = nBands)
    (hdist : ∀ x ∈ hits, 0 ≤ x.distance) :
    ∃ m, (Mic.new nDirs nBands res maxDist nearest).run junk hits = some m ∧
      m.hists.length = nDirs ∧
      ∀ d h, m.hists[d]? = some h → h.rows = nBands ∧
        (∀ x ∈ hits, dirOf nDirs nearest x.origin = d → x.distance < h.cols * res) ∧
        ∀ b (k : Nat), b < nBands → k < h.cols → h.array b k =
          (received hits (fun x => dirOf nDirs nearest x.origin = d ∧
            (k : α) * res ≤ x.distance ∧ x.distance < (k + 1) * res) b).sum := by
  have hwf : (Mic.new nDirs nBands res maxDist nearest : Mic P α).WF := ⟨hres, hd, hn⟩
  obtain ⟨m, e, s⟩ := mic_run_shows junk hwf hits hlen [] (mic_new_shows nDirs nBands res maxDist nearest)
  refine ⟨m, e, s.len, fun d h hh => ?_⟩
  obtain ⟨g1, g2, g3, g4⟩ := s.hist d h hh
  refine ⟨g1, ?_, ?_⟩
  · intro x hx hxd
    have := g3 x (by simpa using hx) hxd
    obtain ⟨_, h2⟩ := (floor_toNat_eq_iff (hdist x hx) hres _).mp rfl
    refine lt_of_lt_of_le h2 (mul_le_mul_of_nonneg_right ?_ hres.le)
    have h3 : (⌊x.distance / res⌋.toNat) + 1 ≤ h.cols := this
    exact_mod_cast h3
  · intro b k hb hk
    rw [g4 b k hb hk, List.nil_append]
    congr 1
    apply received_congr
    intro x hx
    have := floor_toNat_eq_iff (hdist x hx) hres k
    exact and_congr Iff.rfl this

/-- Sum over a partition of the hits into finitely many classes. -/
theorem sum_partition (hits : List (RayHit P α)) (f : RayHit P α → Nat) (b : Nat) (n : Nat)
    (p : RayHit P α → Prop) [DecidablePred p] (hf : ∀ x ∈ hits, p x → f x < n) :
    (∑ k ∈ Finset.range n, (received hits (fun x => p x ∧ f x = k) b).sum) =
      (received hits p b).sum := by
  induction hits with
  | nil => simp [received]
  | cons x xs ih =>
    have h1 : ∀ (q : RayHit P α → Prop) [DecidablePred q], received (x :: xs) q b =
        received [x] q b ++ received xs q b := fun q _ => received_append [x] xs q b
    simp only [h1, List.sum_append, Finset.sum_add_distrib]
    rw [ih (fun y hy => hf y (by simp [hy]))]
    congr 1
    by_cases hp : p x
    · have hlt := hf x (by simp) hp
      rw [Finset.sum_eq_single (f x)]
      · simp [received, hp]
      · intro k _ hk; simp [received, hp, Ne.symm hk]
      · intro hk; exact absurd (Finset.mem_range.mpr hlt) hk
    · simp [received, hp]

/-- **C05 (conservation).** After every history of hits, the energy summed over all
direction and distance bins equals, in every band, the energy received. -/
theorem C05_energy_conserved (junk : Junk α) (nDirs nBands : Nat) (res maxDist : α)
    (nearest : P → Nat) (hres : 0 < res) (hd : 0 < nDirs) (hn : ∀ o, nearest o < nDirs)
    (hits : List (RayHit P α)) (hlen : ∀ x ∈ hits, x.energy.length = nBands) :
    ∃ m, (Mic.new nDirs nBands res maxDist nearest).run junk hits = some m ∧
      ∀ b, b < nBands →
        (m.hists.map (fun h => ∑ k ∈ Finset.range h.cols, h.array b k)).sum =
          (hits.map (fun x => x.energy.getD b 0)).sum := by
  have hwf : (Mic.new nDirs nBands res maxDist nearest : Mic P α).WF := ⟨hres, hd, hn⟩
  set m0 : Mic P α := Mic.new nDirs nBands res maxDist nearest with hm0
  obtain ⟨m, e, s⟩ := mic_run_shows junk hwf hits hlen [] (mic_new_shows nDirs nBands res maxDist nearest)
  refine ⟨m, e, fun b hb => ?_⟩
  have hdl : ∀ x : RayHit P α, m0.dirBin x.origin < nDirs := fun x => Mic.dirBin_lt hwf _
  have key : m.hists.map (fun h => ∑ k ∈ Finset.range h.cols, h.array b k) =
      (List.range nDirs).map (fun d =>
        (received hits (fun x => m0.dirBin x.origin = d) b).sum) := by
    apply List.ext_getElem?
    intro d
    rw [List.getElem?_map, List.getElem?_map]
    by_cases hdn : d < nDirs
    · have hlt : d < m.hists.length := by rw [s.len]; exact hdn
      obtain ⟨g1, g2, g3, g4⟩ := s.hist d _ (List.getElem?_eq_getElem hlt)
      rw [List.getElem?_eq_getElem hlt, List.getElem?_range hdn]
      simp only [Option.map_some, Option.some.injEq]
      rw [List.nil_append] at g3 g4
      rw [← sum_partition hits (fun x => ⌊x.distance / m0.res⌋.toNat) b (m.hists[d]).cols
        (fun x => m0.dirBin x.origin = d) g3]
      exact Finset.sum_congr rfl (fun k hk => g4 b k hb (Finset.mem_range.mp hk))
    · rw [List.getElem?_eq_none (by rw [s.len]; exact Nat.le_of_not_lt hdn),
        List.getElem?_eq_none (by simpa using Nat.le_of_not_lt hdn)]
      rfl
  have hl : ∀ (n : Nat) (f : Nat → α), ((List.range n).map f).sum = ∑ i ∈ Finset.range n, f i := by
    intro n f
    induction n with
    | zero => rfl
    | succ n ih => rw [List.range_succ, List.map_append, List.sum_append, ih, Finset.sum_range_succ]; simp
  rw [key, hl]
  have := sum_partition hits (fun x => m0.dirBin x.origin) b nDirs (fun _ => True) (fun x _ _ => hdl x)
  simp only [true_and] at this
  rw [this]
  simp [received]

end mic

/-- Non-vacuity: an omni microphone with two bands, bins of one half, and three hits. -/
example : ∃ hits : List (RayHit Unit Rat), hits.length = 3 ∧
    (∀ x ∈ hits, x.energy.length = 2) ∧ (∀ x ∈ hits, 0 ≤ x.distance) ∧
    (received hits (fun x => dirOf 1 (fun _ => 0) x.origin = 0 ∧
      ((3 : Nat) : Rat) * (1/2) ≤ x.distance ∧ x.distance < ((3 : Nat) + 1) * (1/2)) 1) = [4, 8] :=
  ⟨[⟨3/2, [3, 4], ()⟩, ⟨0, [5, 6], ()⟩, ⟨19/10, [7, 8], ()⟩], rfl, by simp, by norm_num, by
    norm_num [received, dirOf]⟩

end Verif.Histogram
