import Verif.Engine.Model
import Mathlib.Tactic.FieldSimp
import Mathlib.Tactic.Positivity
import Mathlib.Tactic.Linarith

/-!
# C89: parameters and receivers of the engine
-/

namespace Verif.Engine

open Verif.Py (Err)

variable {Pos : Type}

/-! ## Options -/

/-- The parameters of the engine are those of the room. -/
def Agree (r : Room Pos) : Prop := ∃ e, r.engine = some e ∧ e.params = ⟨r.c, r.maxOrder, r.args.energyThres, r.args.timeThres, r.args.radius, r.args.radius ^ 2, r.args.binSize,
  decide (r.ismNeeded = true ∧ r.rtNeeded = true)⟩

theorem params_eq (r : Room Pos) : r.params = ⟨r.c, r.maxOrder, r.args.energyThres, r.args.timeThres, r.args.radius, r.args.radius ^ 2, r.args.binSize,
    decide (r.ismNeeded = true ∧ r.rtNeeded = true)⟩ := by
  unfold Room.params
  rw [sq]
  congr 1
  cases r.ismNeeded <;> cases r.rtNeeded <;> rfl

/-- A history of calls, none of which raised. -/
inductive Calls (grow : Nat → Nat) : Room Pos → List (Call Pos) → Room Pos → Prop where
  | nil (r : Room Pos) : Calls grow r [] r
  | cons {r r' r'' : Room Pos} {c : Call Pos} {t : List (Call Pos)} (h : r.call grow c = some (r', none)) (ht : Calls grow r' t r'') : Calls grow r (c :: t) r''

theorem agree_update {r : Room Pos} {e : Core Pos} (h : r.engine = some e) : Agree r.update := by
  unfold Agree Room.update
  rw [h]
  exact ⟨_, rfl, params_eq _⟩

theorem deleteAll_params {e e' : Core Pos} {l : List (Mic Pos)} (h : e.deleteAll l = some e') :
    e'.params = e.params ∧ e'.mics = e.mics ∧ e'.capacity = e.capacity ∧ e'.next = e.next ∧ e'.nBands = e.nBands ∧ e'.walls = e.walls := by
  induction l generalizing e with
  | nil =>
    injection h with h
    subst h
    exact ⟨rfl, rfl, rfl, rfl, rfl, rfl⟩
  | cons m t ih =>
    unfold Core.deleteAll at h
    rw [Option.bind_eq_some_iff] at h
    obtain ⟨e1, h1, h2⟩ := h
    have := ih h2
    unfold Core.delete at h1
    cases hm : m.tree with
    | none =>
      rw [hm] at h1
      injection h1 with h1
      subst h1
      exact this
    | some p =>
      rw [hm] at h1
      simp only at h1
      split_ifs at h1
      injection h1 with h1
      subst h1
      exact this

theorem addMic_eq {grow : Nat → Nat} {e e' : Core Pos} {loc : Pos} (h : e.addMic grow loc = some e') :
    e.params.histRes * e.params.c ≠ 0 ∧ e'.params = e.params ∧ e'.nBands = e.nBands ∧ e'.mics = e.mics ++
      [⟨loc, e.nBands, e.params.histRes * e.params.c, ⌊e.params.timeThres * e.params.c / (e.params.histRes * e.params.c)⌋₊ + 1, 1, none⟩] := by
  unfold Core.addMic at h
  simp only at h
  by_cases h0 : e.params.histRes * e.params.c = 0
  · rw [if_pos h0] at h
    cases h
  · rw [if_neg h0] at h
    refine ⟨h0, ?_⟩
    by_cases hc : e.mics.length < e.capacity
    · rw [if_pos hc] at h
      injection h with h
      subst h
      exact ⟨rfl, rfl, rfl⟩
    · rw [if_neg hc] at h
      obtain ⟨h1, h2, _, _, h3, _⟩ := deleteAll_params h
      exact ⟨h1, h3, h2⟩

theorem call_agree {grow : Nat → Nat} {r r' : Room Pos} (ha : Agree r) {c : Call Pos} (h : r.call grow c = some (r', none)) : Agree r' := by
  obtain ⟨e, he, hp⟩ := ha
  cases c with
  | setRayTracing o =>
    unfold Room.call at h
    simp only [Option.some.injEq] at h
    unfold Room.setOptions at h
    simp only at h
    cases hn : o.nRays with
    | some n =>
      rw [hn] at h
      simp only [Prod.mk.injEq, and_true] at h
      rw [← h]
      exact agree_update he
    | none =>
      rw [hn] at h
      simp only at h
      split_ifs at h
      · cases h
      · simp only [Prod.mk.injEq, and_true] at h
        rw [← h]
        exact agree_update he
  | unsetRayTracing =>
    unfold Room.call at h
    simp only [Option.some.injEq, Prod.mk.injEq, and_true] at h
    rw [← h]
    exact agree_update (e := e) he
  | setSoundSpeed c =>
    unfold Room.call at h
    simp only [Option.some.injEq, Prod.mk.injEq, and_true] at h
    rw [← h]
    exact agree_update (e := e) he
  | add loc =>
    unfold Room.call at h
    simp only [he, Option.map_eq_some_iff] at h
    obtain ⟨e', h1, h2⟩ := h
    simp only [Prod.mk.injEq, and_true] at h2
    rw [← h2]
    refine ⟨e', rfl, ?_⟩
    rw [(addMic_eq h1).2.1, hp]

/-- **C89** (options). After any history of calls that did not raise, the engine simulates with the options of the room. -/
theorem C89_options {grow : Nat → Nat} {dim : Nat} {walls : List Wall} {fs c : ℝ} {maxOrder : Int} {volume : ℝ} {rt : Bool} {r r' : Room Pos}
    (h : Room.new dim walls fs c maxOrder volume rt = .ok r) {calls : List (Call Pos)} (hc : Calls grow r calls r') : Agree r' := by
  have ha : Agree r := by
    unfold Room.new at h
    simp only at h
    split at h
    · cases h
    · split at h
      · cases h
      · rename_i e he
        injection h with h
        subst h
        refine ⟨e, rfl, ?_⟩
        cases walls with
        | nil => cases he
        | cons w t =>
          unfold Core.new at he
          simp only at he
          split_ifs at he
          injection he with he
          subst he
          exact params_eq _
  clear h
  induction hc with
  | nil r => exact ha
  | cons h1 _ ih => exact ih (call_agree ha h1)

/-- **C89** (bins and rays). A successful call sets the size of the bins to the largest whole number of samples that is not longer than asked for, and the number of rays to
the one given or to the whole part of the one for which a receiver is hit twenty times per bin on average. -/
theorem C89_ray_tracing {grow : Nat → Nat} {r r' : Room Pos} {o : Opts} (hfs : 0 < r.fs) (h : r.call grow (.setRayTracing o) = some (r', none)) :
    r'.rtNeeded = true ∧ r'.args.binSize * r.fs = r'.args.binSamples ∧ r'.args.binSize ≤ o.binSize ∧ o.binSize < r'.args.binSize + 1 / r.fs ∧
      r'.args.radius = o.radius ∧ r'.args.energyThres = o.energyThres ∧ r'.args.timeThres = o.timeThres ∧ r'.args.nDirs = o.nDirs ∧
      (∀ n, o.nRays = some n → r'.args.nRays = some n) ∧
      (o.nRays = none → ∃ n : Int, r'.args.nRays = some n ∧
        let hits := r.volume / (Real.pi * o.radius ^ 2 * r.c * r'.args.binSize)
        (0 ≤ hits → (n : ℝ) ≤ 20 * hits ∧ 20 * hits < n + 1)) := by
  have hb : ∀ x : ℝ, (⌊r.fs * x⌋ : ℝ) / r.fs * r.fs = ⌊r.fs * x⌋ ∧ (⌊r.fs * x⌋ : ℝ) / r.fs ≤ x ∧ x < (⌊r.fs * x⌋ : ℝ) / r.fs + 1 / r.fs := by
    intro x
    refine ⟨by field_simp, ?_, ?_⟩
    · rw [div_le_iff₀ hfs, mul_comm x]
      exact Int.floor_le _
    · rw [← add_div, lt_div_iff₀ hfs, mul_comm x]
      exact Int.lt_floor_add_one _
  unfold Room.call at h
  simp only [Option.some.injEq] at h
  unfold Room.setOptions at h
  simp only at h
  cases hn : o.nRays with
  | some n =>
    rw [hn] at h
    simp only [Prod.mk.injEq, and_true] at h
    rw [← h]
    refine ⟨rfl, (hb _).1, (hb _).2.1, (hb _).2.2, rfl, rfl, rfl, rfl, fun n hn' => ?_, fun hn' => by cases hn'⟩
    injection hn' with hn'
    subst hn'
    rfl
  | none =>
    rw [hn] at h
    simp only at h
    split_ifs at h
    · cases h
    · simp only [Prod.mk.injEq, and_true] at h
      rw [← h]
      refine ⟨rfl, (hb _).1, (hb _).2.1, (hb _).2.2, rfl, rfl, rfl, rfl, (fun n hn' => by cases hn'), fun _ => ⟨_, rfl, ?_⟩⟩
      intro hits hh
      have h20 : 0 ≤ 20 * hits := by positivity
      have : trunc (20 * hits) = ⌊20 * hits⌋ := by
        unfold trunc
        rw [if_pos h20]
      have e : trunc (20 * (r.volume / (Real.pi * o.radius ^ 2 * r.c * ((⌊r.fs * o.binSize⌋ : ℝ) / r.fs)))) = ⌊20 * hits⌋ := this
      rw [e]
      exact ⟨Int.floor_le _, Int.lt_floor_add_one _⟩

/-- **C89** (deviation). With a bin shorter than one sample and no number of rays the call raises, but only after the arguments were replaced: the room has no number of rays
any more, the ray tracer is on, and the engine still has the old size of the bins. -/
theorem C89_short_bin_deviation (grow : Nat → Nat) (r : Room Pos) {o : Opts} (hr : 0 < r.fs) (h0 : 0 ≤ o.binSize) (h1 : r.fs * o.binSize < 1) (hn : o.nRays = none) :
    ∃ r', r.call grow (.setRayTracing o) = some (r', some .zeroDivision) ∧ r'.args.nRays = none ∧ r'.rtNeeded = true ∧ r'.args.binSize = 0 ∧ r'.engine = r.engine := by
  have hf : ⌊r.fs * o.binSize⌋ = 0 := by
    rw [Int.floor_eq_zero_iff]
    exact ⟨by positivity, h1⟩
  refine ⟨(r.setOptions true o).1, ?_, ?_⟩
  · unfold Room.call
    simp only [Option.some.injEq]
    unfold Room.setOptions
    simp only [hn, hf]
    rw [if_pos (by simp)]
  · unfold Room.setOptions
    simp only [hn, hf]
    rw [if_pos (by simp)]
    simp

/-- **C89** (deviation). No room can be made with a sampling frequency below 250 Hz, with or without ray tracing. -/
theorem C89_slow_deviation {dim : Nat} {walls : List Wall} {fs c : ℝ} {maxOrder : Int} {volume : ℝ} {rt : Bool} (h0 : 0 < fs) (h1 : fs < 250) :
    (Room.new dim walls fs c maxOrder volume rt : Except Err (Room Pos)) = .error .zeroDivision := by
  have hf : ⌊fs * (4 / 1000)⌋ = 0 := by
    rw [Int.floor_eq_zero_iff]
    exact ⟨by positivity, by linarith⟩
  unfold Room.new
  simp only
  unfold Room.setOptions
  simp only [hf]
  rw [if_pos (by simp)]

/-! ## Bins of the receivers -/

/-- **C89** (bins). A microphone that is added gets bins of the length set at that time: what arrives after `t` seconds, at distance `c t`, is in the bin of the time, and the bins
are there from the beginning for all times before the threshold. -/
theorem C89_bins {grow : Nat → Nat} {r r' : Room Pos} (ha : Agree r) {loc : Pos} (h : r.call grow (.add loc) = some (r', none)) (hc : 0 < r.c) (hb : 0 < r.args.binSize) :
    ∃ (e e' : Core Pos) (m : Mic Pos), r.engine = some e ∧ r'.engine = some e' ∧ e'.mics = e.mics ++ [m] ∧ m.loc = loc ∧ m.nBands = e.nBands ∧
      (∀ t : ℝ, ⌊r.c * t / m.resolution⌋₊ = ⌊t / r.args.binSize⌋₊) ∧ ∀ t : ℝ, 0 ≤ t → t < r.args.timeThres → ⌊r.c * t / m.resolution⌋₊ < m.binsInit := by
  obtain ⟨e, he, hp⟩ := ha
  unfold Room.call at h
  simp only [he, Option.map_eq_some_iff] at h
  obtain ⟨e', h1, h2⟩ := h
  simp only [Prod.mk.injEq, and_true] at h2
  obtain ⟨_, _, _, hm⟩ := addMic_eq h1
  have hres : ∀ t : ℝ, r.c * t / (e.params.histRes * e.params.c) = t / r.args.binSize := by
    intro t
    rw [hp]
    change r.c * t / (r.args.binSize * r.c) = _
    field_simp
  refine ⟨e, e', _, he, by rw [← h2], hm, rfl, rfl, fun t => ?_, fun t h0 ht => ?_⟩
  · simp only
    rw [hres]
  · simp only
    have : e.params.timeThres * e.params.c / (e.params.histRes * e.params.c) = r.args.timeThres / r.args.binSize := by
      rw [mul_comm, ← hres, hp]
    rw [hres, this, Nat.lt_succ_iff]
    exact Nat.floor_le_floor (by gcongr)

/-- **C89** (deviation). Later calls leave the receivers as they are: after a change of the length of the bins or of the speed of sound, the bins of the microphones added before
are not those with which the histograms are read. -/
theorem C89_bins_deviation {grow : Nat → Nat} {r r' : Room Pos} {call : Call Pos} (hcall : ∀ loc, call ≠ .add loc) (h : r.call grow call = some (r', none)) {e : Core Pos} (he : r.engine = some e)
    {m : Mic Pos} (hm : m ∈ e.mics) (hres : m.resolution = r.args.binSize * r.c) (hne : r'.args.binSize * r'.c ≠ r.args.binSize * r.c) :
    ∃ e', r'.engine = some e' ∧ m ∈ e'.mics ∧ m.resolution ≠ r'.args.binSize * r'.c := by
  refine ⟨(r'.engine.getD e), ?_, ?_, by rw [hres]; exact hne.symm⟩ <;>
  · cases call with
    | setRayTracing o =>
      unfold Room.call at h
      simp only [Option.some.injEq] at h
      unfold Room.setOptions at h
      simp only at h
      cases hn : o.nRays with
      | some n =>
        rw [hn] at h
        simp only [Prod.mk.injEq, and_true] at h
        rw [← h]
        simp [Room.update, he, hm]
      | none =>
        rw [hn] at h
        simp only at h
        split_ifs at h
        · cases h
        · simp only [Prod.mk.injEq, and_true] at h
          rw [← h]
          simp [Room.update, he, hm]
    | unsetRayTracing =>
      unfold Room.call at h
      simp only [Option.some.injEq, Prod.mk.injEq, and_true] at h
      rw [← h]
      simp [Room.update, he, hm]
    | setSoundSpeed c =>
      unfold Room.call at h
      simp only [Option.some.injEq, Prod.mk.injEq, and_true] at h
      rw [← h]
      simp [Room.update, he, hm]
    | add loc => exact absurd rfl (hcall loc)

/-! ## Bands -/

/-- The walls, the engine and the receivers have the same number of bands. -/
def Uniform (e : Core Pos) : Prop := (∀ w ∈ e.walls, w.nBands = e.nBands) ∧ ∀ m ∈ e.mics, m.nBands = e.nBands

/-- A wall whose coefficients belong together. -/
structure Coherent (w : Wall) : Prop where
  pos : w.absorption ≠ []
  scatter : w.scatter.length = w.absorption.length
  transmission : w.transmission = w.absorption.map fun a => Real.sqrt (1 - a)
  reflection : w.reflection = w.absorption.map fun a => 1 - a
  average : w.averageScatter * w.scatter.length = w.scatter.sum
  does : w.doesScatter ↔ ∃ s ∈ w.scatter, 0 < s

theorem coherent_new {a s : List ℝ} (ha : a ≠ []) {w : Wall} (h : Wall.new a s = .ok w) : Coherent w := by
  unfold Wall.new at h
  split_ifs at h with hl
  injection h with h
  subst h
  have hl' : a.length = s.length := by simpa using hl
  have : (s.length : ℝ) ≠ 0 := by
    rw [← hl']
    exact_mod_cast (List.length_pos_iff.2 ha).ne'
  refine ⟨ha, hl'.symm, rfl, rfl, ?_, Iff.rfl⟩
  simp only
  field_simp

theorem broadcastWalls_one {l : List Wall} (h : ∀ w ∈ l, w.nBands = 1) (hc : ∀ w ∈ l, Coherent w) {n : Nat} (hn : 0 < n) :
    (broadcastWalls n l).2 = none ∧ ∀ w ∈ (broadcastWalls n l).1, w.nBands = n ∧ Coherent w := by
  induction l with
  | nil => exact ⟨rfl, fun w hw => by cases hw⟩
  | cons w t ih =>
    obtain ⟨h1, h2⟩ := ih (fun v hv => h v (List.mem_cons_of_mem _ hv)) fun v hv => hc v (List.mem_cons_of_mem _ hv)
    have hw := h w List.mem_cons_self
    have hcw := hc w List.mem_cons_self
    unfold broadcastWalls Wall.broadcast
    simp only [hw, true_or, if_true]
    refine ⟨h1, fun v hv => ?_⟩
    rw [List.mem_cons] at hv
    rcases hv with rfl | hv
    · have hlen : w.absorption.length = 1 := by
        have := hcw.transmission
        unfold Wall.nBands at hw
        rw [this, List.length_map] at hw
        exact hw
      obtain ⟨a, ha⟩ := List.length_eq_one_iff.1 hlen
      obtain ⟨s, hs⟩ := List.length_eq_one_iff.1 (hcw.scatter.trans hlen)
      have htr := hcw.transmission
      have hre := hcw.reflection
      have hav := hcw.average
      have hdo := hcw.does
      rw [hs] at hav hdo
      rw [ha] at htr hre
      refine ⟨by simp [Wall.nBands], ?_⟩
      refine ⟨?_, by simp, ?_, ?_, ?_, ?_⟩
      · simp [ha, hn.ne']
      · simp [ha, htr]
      · simp [ha, hre]
      · simp only [hs, List.headD_cons, List.length_replicate, List.sum_replicate, nsmul_eq_mul]
        simp at hav
        rw [hav, mul_comm]
      · simp only [hs, List.headD_cons, List.mem_replicate]
        rw [hdo]
        constructor
        · rintro ⟨x, hx, h0⟩
          exact ⟨x, ⟨hn.ne', by simpa using hx⟩, h0⟩
        · rintro ⟨x, ⟨_, hx⟩, h0⟩
          exact ⟨x, by simpa using hx, h0⟩
    · exact h2 v hv

/-- **C89** (bands). An engine with walls of one band is brought to any number of bands: all walls are coherent, and engine, walls and receivers have that number. -/
theorem C89_broadcast {e : Core Pos} (h1 : ∀ w ∈ e.walls, w.nBands = 1) (hc : ∀ w ∈ e.walls, Coherent w) {n : Nat} (hn : 0 < n) :
    (e.broadcast n).2 = none ∧ Uniform (e.broadcast n).1 ∧ (e.broadcast n).1.nBands = n ∧ ∀ w ∈ (e.broadcast n).1.walls, Coherent w := by
  obtain ⟨h2, h3⟩ := broadcastWalls_one h1 hc hn
  unfold Core.broadcast
  have : broadcastWalls n e.walls = ((broadcastWalls n e.walls).1, none) := by rw [← h2]
  rw [this]
  refine ⟨rfl, ⟨fun w hw => (h3 w hw).1, fun m hm => ?_⟩, rfl, fun w hw => (h3 w hw).2⟩
  simp only [List.mem_map] at hm
  obtain ⟨m', _, rfl⟩ := hm
  rfl

/-- **C89** (deviation). Walls of two or more bands cannot be brought to two or more, not even to the number that they have, and the exception leaves the engine with a number of
bands that its walls do not have. -/
theorem C89_broadcast_deviation {e : Core Pos} (hu : Uniform e) (he : e.walls ≠ []) (hb : 2 ≤ e.nBands) {n : Nat} (hn : 2 ≤ n) :
    (e.broadcast n).2 = some .runtimeError ∧ (e.broadcast n).1.nBands = n ∧ (n ≠ e.nBands → ¬ Uniform (e.broadcast n).1) := by
  obtain ⟨w, t, hw⟩ := List.exists_cons_of_ne_nil he
  have hwb : w.nBands = e.nBands := hu.1 w (by rw [hw]; exact List.mem_cons_self)
  have hb' : w.broadcast n = .error .runtimeError := by
    unfold Wall.broadcast
    rw [if_neg (by omega)]
  have : broadcastWalls n e.walls = (w :: t, some .runtimeError) := by
    rw [hw]
    unfold broadcastWalls
    rw [hb']
  unfold Core.broadcast
  rw [this]
  refine ⟨rfl, rfl, fun hne hun => ?_⟩
  have := hun.1 w List.mem_cons_self
  simp only at this
  omega

/-- **C89** (deviation). From several bands to one, the first is kept, and the average and the flag of the scattering are still those of all bands. -/
theorem C89_first_band_deviation {w : Wall} (hw : Coherent w) {s : ℝ} (hs : w.scatter.head? = some s) (hne : s * w.scatter.length ≠ w.scatter.sum) :
    ∃ w', w.broadcast 1 = .ok w' ∧ w'.scatter = [s] ∧ ¬ Coherent w' := by
  refine ⟨_, by unfold Wall.broadcast; rw [if_pos (Or.inr rfl)], ?_, fun h => ?_⟩
  · cases hl : w.scatter with
    | nil => rw [hl] at hs; cases hs
    | cons x l =>
      rw [hl] at hs
      injection hs with hs
      simp [hs]
  · have h1 := h.average
    have h2 := hw.average
    cases hl : w.scatter with
    | nil => rw [hl] at hs; cases hs
    | cons x l =>
      rw [hl] at hs
      injection hs with hs
      simp only [hl, List.headD_cons, List.replicate_one, List.length_singleton, Nat.cast_one, mul_one, List.sum_singleton] at h1
      apply hne
      rw [← hs, ← h1]
      exact h2

/-! ## Memory -/

/-- The trees of the receivers. -/
def trees (e : Core Pos) : List Nat := e.mics.filterMap Mic.tree

/-- Every receiver owns its tree: the trees alive are those of the receivers, each once. -/
structure Owned (e : Core Pos) : Prop where
  perm : e.live.Perm (trees e)
  nodup : e.live.Nodup
  old : ∀ p ∈ e.live, p < e.next
  tree : ∀ m ∈ e.mics, m.nDirs ≠ 1 → m.tree.isSome

/-- In this history a microphone is added only if the bins have a length, and if the storage is full only while no receiver has a tree. -/
def Careful (grow : Nat → Nat) : Core Pos → List (Op Pos) → Prop
  | _, [] => True
  | e, o :: t => (∀ loc, o = .addMic loc → e.params.histRes * e.params.c ≠ 0 ∧ (e.capacity ≤ e.mics.length → trees e = [])) ∧ ∀ e', step grow e o = some e' → Careful grow e' t

theorem deleteAll_none {e : Core Pos} {l : List (Mic Pos)} (h : l.filterMap Mic.tree = []) : e.deleteAll l = some e := by
  induction l generalizing e with
  | nil => rfl
  | cons m t ih =>
    unfold Core.deleteAll
    cases hm : m.tree with
    | none =>
      rw [List.filterMap_cons_none hm] at h
      exact ih h
    | some p =>
      rw [List.filterMap_cons_some hm] at h
      cases h

theorem trees_set {l : List (Mic Pos)} {r : Nat} {m m' : Mic Pos} (h : l[r]? = some m) : ∃ a b, l.filterMap Mic.tree = a ++ m.tree.toList ++ b ∧ (l.set r m').filterMap Mic.tree = a ++ m'.tree.toList ++ b := by
  obtain ⟨hr, he⟩ := List.getElem?_eq_some_iff.1 h
  refine ⟨(l.take r).filterMap Mic.tree, (l.drop (r + 1)).filterMap Mic.tree, ?_, ?_⟩
  · conv_lhs => rw [← List.take_append_drop r l, List.drop_eq_getElem_cons hr, he]
    rw [List.filterMap_append, List.append_assoc]
    congr 1
    cases hm : m.tree with
    | none => rw [List.filterMap_cons_none hm]; rfl
    | some p => rw [List.filterMap_cons_some hm]; rfl
  · rw [List.set_eq_take_append_cons_drop, if_pos hr, List.filterMap_append, List.append_assoc]
    congr 1
    cases hm : m'.tree with
    | none => rw [List.filterMap_cons_none hm]; rfl
    | some p => rw [List.filterMap_cons_some hm]; rfl

/-- The memory after the tree of a receiver was deleted. -/
theorem delete_owned {e : Core Pos} (h : Owned e) {r : Nat} {m : Mic Pos} (hm : e.mics[r]? = some m) :
    ∃ live, e.delete m.tree = some { e with live := live } ∧ live.Nodup ∧ (∀ p ∈ live, p < e.next) ∧ ∀ m', (live ++ m'.tree.toList).Perm ((e.mics.set r m').filterMap Mic.tree) := by
  obtain ⟨hp, hn, ho, _⟩ := h
  unfold trees at hp
  cases ht : m.tree with
  | none =>
    refine ⟨e.live, rfl, hn, ho, fun m' => ?_⟩
    obtain ⟨a, b, h1, h2⟩ := trees_set (m' := m') hm
    rw [h2]
    rw [h1, ht] at hp
    simp only [Option.toList_none, List.append_nil] at hp
    refine (hp.append_right _).trans ?_
    rw [List.append_assoc, List.append_assoc]
    exact List.Perm.append_left _ List.perm_append_comm
  | some p =>
    have hmem : p ∈ e.live := by
      rw [hp.mem_iff, List.mem_filterMap]
      exact ⟨m, List.mem_of_getElem? hm, ht⟩
    refine ⟨e.live.erase p, ?_, hn.erase p, fun q hq => ho q (List.mem_of_mem_erase hq), fun m' => ?_⟩
    · unfold Core.delete
      simp only
      rw [if_pos hmem]
    · obtain ⟨a, b, h1, h2⟩ := trees_set (m' := m') hm
      rw [h2]
      rw [h1, ht] at hp
      have hp' : (p :: e.live.erase p).Perm (p :: (a ++ b)) := by
        refine (List.perm_cons_erase hmem).symm.trans (hp.trans ?_)
        simp only [Option.toList_some, List.append_assoc, List.singleton_append]
        exact List.perm_middle
      refine (hp'.cons_inv.append_right _).trans ?_
      rw [List.append_assoc, List.append_assoc]
      exact List.Perm.append_left _ List.perm_append_comm

theorem step_owned {grow : Nat → Nat} {e : Core Pos} (h : Owned e) {o : Op Pos}
    (hc : ∀ loc, o = .addMic loc → e.params.histRes * e.params.c ≠ 0 ∧ (e.capacity ≤ e.mics.length → trees e = [])) : ∃ e', step grow e o = some e' ∧ Owned e' := by
  cases o with
  | addMic loc =>
    obtain ⟨h1, h2⟩ := hc loc rfl
    simp only [step]
    unfold Core.addMic
    simp only
    rw [if_neg h1]
    have key : ∀ cap, Owned ({ e with capacity := cap, mics := e.mics ++
        [⟨loc, e.nBands, e.params.histRes * e.params.c, ⌊e.params.timeThres * e.params.c / (e.params.histRes * e.params.c)⌋₊ + 1, 1, none⟩] } : Core Pos) := by
      intro cap
      refine ⟨?_, h.nodup, h.old, fun m hm hd => ?_⟩
      · unfold trees
        rw [List.filterMap_append]
        simpa [trees] using h.perm
      · rcases List.mem_append.1 hm with hm | hm
        · exact h.tree m hm hd
        · rw [List.mem_singleton] at hm
          subst hm
          exact absurd rfl hd
    by_cases hcap : e.mics.length < e.capacity
    · rw [if_pos hcap]
      exact ⟨_, rfl, key _⟩
    · rw [if_neg hcap, deleteAll_none (h2 (by omega))]
      exact ⟨_, rfl, key _⟩
  | setDirections r k =>
    simp only [step]
    unfold Core.setDirections
    cases hm : e.mics[r]? with
    | none => exact ⟨e, rfl, h⟩
    | some m =>
      obtain ⟨live, h1, h2, h3, h4⟩ := delete_owned h hm
      simp only [h1, Option.map_some]
      refine ⟨_, rfl, ?_, ?_, ?_, ?_⟩
      · refine List.Perm.trans ?_ (h4 { m with nDirs := k, tree := some e.next })
        exact (List.perm_append_singleton _ _).symm
      · refine List.nodup_cons.2 ⟨fun hmem => ?_, h2⟩
        exact absurd (h3 _ hmem) (Nat.lt_irrefl _)
      · intro p hp
        simp only [List.mem_cons] at hp
        rcases hp with rfl | hp
        · exact Nat.lt_succ_self _
        · exact Nat.lt_succ_of_lt (h3 p hp)
      · intro m' hm' hd
        rcases List.mem_or_eq_of_mem_set hm' with hm' | hm'
        · exact h.tree m' hm' hd
        · subst hm'
          rfl
  | makeOmni r =>
    simp only [step]
    unfold Core.makeOmni
    cases hm : e.mics[r]? with
    | none => exact ⟨e, rfl, h⟩
    | some m =>
      obtain ⟨live, h1, h2, h3, h4⟩ := delete_owned h hm
      simp only [h1, Option.map_some]
      refine ⟨_, rfl, ?_, h2, h3, ?_⟩
      · have := h4 { m with nDirs := 1, tree := none }
        simpa [trees] using this
      · intro m' hm' hd
        rcases List.mem_or_eq_of_mem_set hm' with hm' | hm'
        · exact h.tree m' hm' hd
        · subst hm'
          exact absurd rfl hd
  | query r =>
    simp only [step]
    unfold Core.query
    cases hm : e.mics[r]? with
    | none => exact ⟨e, rfl, h⟩
    | some m =>
      simp only
      by_cases hd : m.nDirs = 1
      · rw [if_pos hd]
        exact ⟨e, rfl, h⟩
      · rw [if_neg hd]
        obtain ⟨p, hp⟩ := Option.isSome_iff_exists.1 (h.tree m (List.mem_of_getElem? hm) hd)
        have hmem : p ∈ e.live := by
          rw [h.perm.mem_iff]
          exact List.mem_filterMap.2 ⟨m, List.mem_of_getElem? hm, hp⟩
        rw [hp]
        simp only
        rw [if_pos hmem]
        exact ⟨e, rfl, h⟩
  | setParams p => exact ⟨_, rfl, h.perm, h.nodup, h.old, h.tree⟩

theorem deleteAll_owned {e : Core Pos} {l : List (Mic Pos)} (hp : e.live.Perm (l.filterMap Mic.tree)) (hn : e.live.Nodup) : ∃ e', e.deleteAll l = some e' ∧ e'.live = [] := by
  induction l generalizing e with
  | nil =>
    refine ⟨e, rfl, ?_⟩
    exact List.perm_nil.1 hp
  | cons m t ih =>
    unfold Core.deleteAll
    cases hm : m.tree with
    | none =>
      rw [List.filterMap_cons_none hm] at hp
      exact ih hp hn
    | some p =>
      rw [List.filterMap_cons_some hm] at hp
      have hmem : p ∈ e.live := hp.mem_iff.2 List.mem_cons_self
      unfold Core.delete
      simp only
      rw [if_pos hmem, Option.bind_some]
      refine ih ?_ (hn.erase p)
      exact ((List.perm_cons_erase hmem).symm.trans hp).cons_inv

/-- **C89** (memory). From a new engine, every history in which the storage of the receivers is not enlarged while one of them has directions is defined: no tree is deleted twice or read
after it was deleted, every receiver owns its tree, and nothing is left when the engine is destroyed. -/
theorem C89_memory {grow : Nat → Nat} {dim : Nat} {walls : List Wall} {p : Params} {e : Core Pos} (h : Core.new dim walls p = .ok e) {ops : List (Op Pos)} (hc : Careful grow e ops) :
    ∃ e', run grow e ops = some e' ∧ Owned e' ∧ ∃ e'', e'.destroy = some e'' ∧ e''.live = [] := by
  have ho : Owned e := by
    cases walls with
    | nil => cases h
    | cons w t =>
      unfold Core.new at h
      simp only at h
      split_ifs at h
      injection h with h
      subst h
      exact ⟨List.Perm.refl _, List.nodup_nil, fun p hp => (List.not_mem_nil hp).elim, fun m hm => (List.not_mem_nil hm).elim⟩
  clear h
  induction ops generalizing e with
  | nil =>
    refine ⟨e, rfl, ho, ?_⟩
    obtain ⟨e', h1, h2⟩ := deleteAll_owned ho.perm ho.nodup
    unfold Core.destroy
    rw [h1]
    exact ⟨_, rfl, h2⟩
  | cons o t ih =>
    obtain ⟨h1, h2⟩ := hc
    obtain ⟨e', he, ho'⟩ := step_owned (grow := grow) ho h1
    obtain ⟨e'', h3, h4⟩ := ih (h2 e' he) ho'
    refine ⟨e'', ?_, h4⟩
    unfold run
    rw [he]
    exact h3

/-- A receiver has a tree that is not alive any more. -/
def Dangling (e : Core Pos) : Prop := ∃ (r : Nat) (m : Mic Pos) (p : Nat), e.mics[r]? = some m ∧ m.tree = some p ∧ p ∉ e.live ∧ p < e.next

theorem deleteAll_live {e e' : Core Pos} {l : List (Mic Pos)} (h : e.deleteAll l = some e') : e'.live ⊆ e.live := by
  induction l generalizing e with
  | nil =>
    injection h with h
    subst h
    exact List.Subset.refl _
  | cons m t ih =>
    unfold Core.deleteAll at h
    rw [Option.bind_eq_some_iff] at h
    obtain ⟨e1, h1, h2⟩ := h
    refine List.Subset.trans (ih h2) ?_
    unfold Core.delete at h1
    cases hm : m.tree with
    | none =>
      rw [hm] at h1
      injection h1 with h1
      subst h1
      exact List.Subset.refl _
    | some p =>
      rw [hm] at h1
      simp only at h1
      split_ifs at h1
      injection h1 with h1
      subst h1
      exact List.erase_subset

theorem deleteAll_dangling {e : Core Pos} {l : List (Mic Pos)} {r p : Nat} {m : Mic Pos} (hm : l[r]? = some m) (ht : m.tree = some p) (hl : p ∉ e.live) : e.deleteAll l = none := by
  induction l generalizing e r with
  | nil => cases hm
  | cons x t ih =>
    unfold Core.deleteAll
    cases hd : e.delete x.tree with
    | none => rfl
    | some e1 =>
      rw [Option.bind_some]
      cases r with
      | zero =>
        simp only [List.getElem?_cons_zero, Option.some.injEq] at hm
        subst hm
        rw [ht] at hd
        unfold Core.delete at hd
        simp only at hd
        rw [if_neg hl] at hd
        cases hd
      | succ r =>
        rw [List.getElem?_cons_succ] at hm
        refine ih hm fun hp => hl ?_
        have : e.deleteAll [x] = some e1 := by
          unfold Core.deleteAll Core.deleteAll
          rw [hd]
          rfl
        exact deleteAll_live this hp

theorem delete_eq {e e' : Core Pos} {t : Option Nat} (h : e.delete t = some e') : e'.live ⊆ e.live ∧ e'.mics = e.mics ∧ e'.next = e.next ∧ e'.capacity = e.capacity ∧ e'.params = e.params ∧ (∀ p, t = some p → p ∈ e.live) := by
  cases t with
  | none =>
    injection h with h
    subst h
    exact ⟨List.Subset.refl _, rfl, rfl, rfl, rfl, fun p hp => by cases hp⟩
  | some p =>
    unfold Core.delete at h
    simp only at h
    split_ifs at h with hp
    injection h with h
    subst h
    refine ⟨List.erase_subset, rfl, rfl, rfl, rfl, fun q hq => ?_⟩
    injection hq with hq
    subst hq
    exact hp

theorem step_dangling {grow : Nat → Nat} {e e' : Core Pos} (hd : Dangling e) {o : Op Pos} (h : step grow e o = some e') : Dangling e' := by
  obtain ⟨r, m, p, hm, ht, hl, hn⟩ := hd
  cases o with
  | addMic loc =>
    simp only [step] at h
    unfold Core.addMic at h
    simp only at h
    split_ifs at h with h0 hc
    · injection h with h
      subst h
      refine ⟨r, m, p, ?_, ht, hl, hn⟩
      simp only
      rw [List.getElem?_append_left (List.getElem?_eq_some_iff.1 hm).1]
      exact hm
    · have hnone := fun x (hx : p ∉ (x : Core Pos).live) => deleteAll_dangling (e := x) hm ht hx
      rw [hnone _ (by exact hl)] at h
      cases h
  | setDirections q k =>
    simp only [step] at h
    unfold Core.setDirections at h
    cases hq : e.mics[q]? with
    | none =>
      rw [hq] at h
      injection h with h
      subst h
      exact ⟨r, m, p, hm, ht, hl, hn⟩
    | some x =>
      rw [hq] at h
      simp only [Option.map_eq_some_iff] at h
      obtain ⟨e1, h1, h2⟩ := h
      obtain ⟨hs, hmic, hnx, _, _, hin⟩ := delete_eq h1
      have hne : q ≠ r := by
        rintro rfl
        rw [hm] at hq
        injection hq with hq
        subst hq
        exact hl (hin p ht)
      subst h2
      refine ⟨r, m, p, ?_, ht, ?_, ?_⟩
      · simp only
        rw [List.getElem?_set_ne hne, hmic]
        exact hm
      · simp only [List.mem_cons, not_or]
        exact ⟨by rw [hnx]; exact hn.ne, fun hp => hl (hs hp)⟩
      · simp only
        rw [hnx]
        omega
  | makeOmni q =>
    simp only [step] at h
    unfold Core.makeOmni at h
    cases hq : e.mics[q]? with
    | none =>
      rw [hq] at h
      injection h with h
      subst h
      exact ⟨r, m, p, hm, ht, hl, hn⟩
    | some x =>
      rw [hq] at h
      simp only [Option.map_eq_some_iff] at h
      obtain ⟨e1, h1, h2⟩ := h
      obtain ⟨hs, hmic, hnx, _, _, hin⟩ := delete_eq h1
      have hne : q ≠ r := by
        rintro rfl
        rw [hm] at hq
        injection hq with hq
        subst hq
        exact hl (hin p ht)
      subst h2
      refine ⟨r, m, p, ?_, ht, fun hp => hl (hs hp), ?_⟩
      · simp only
        rw [List.getElem?_set_ne hne, hmic]
        exact hm
      · simp only
        rw [hnx]
        exact hn
  | query q =>
    simp only [step] at h
    unfold Core.query at h
    have : e' = e := by
      cases hq : e.mics[q]? with
      | none =>
        rw [hq] at h
        injection h with h
        exact h.symm
      | some x =>
        rw [hq] at h
        simp only at h
        split_ifs at h
        · injection h with h
          exact h.symm
        · cases hx : x.tree with
          | none => rw [hx] at h; cases h
          | some y =>
            rw [hx] at h
            simp only at h
            split_ifs at h
            injection h with h
            exact h.symm
    subst this
    exact ⟨r, m, p, hm, ht, hl, hn⟩
  | setParams q =>
    injection h with h
    subst h
    exact ⟨r, m, p, hm, ht, hl, hn⟩

theorem run_dangling {grow : Nat → Nat} {e : Core Pos} (hd : Dangling e) (ops : List (Op Pos)) : (run grow e ops).bind Core.destroy = none := by
  induction ops generalizing e with
  | nil =>
    obtain ⟨r, m, p, hm, ht, hl, _⟩ := hd
    change e.destroy = none
    unfold Core.destroy
    rw [deleteAll_dangling hm ht hl]
    rfl
  | cons o t ih =>
    unfold run
    cases h : step grow e o with
    | none => rfl
    | some e' => exact ih (step_dangling hd h)

theorem addMic_dangling {grow : Nat → Nat} {e : Core Pos} (ho : Owned e) (hfull : e.mics.length = e.capacity) {r : Nat} {m : Mic Pos} (hm : e.mics[r]? = some m) (ht : m.tree.isSome) {loc : Pos} {e' : Core Pos}
    (h : e.addMic grow loc = some e') : Dangling e' := by
  obtain ⟨p, hp⟩ := Option.isSome_iff_exists.1 ht
  unfold Core.addMic at h
  simp only at h
  split_ifs at h with h0 hc
  · omega
  · obtain ⟨e2, h1, h2⟩ := deleteAll_owned (e := ({ e with mics := e.mics ++
        [⟨loc, e.nBands, e.params.histRes * e.params.c, ⌊e.params.timeThres * e.params.c / (e.params.histRes * e.params.c)⌋₊ + 1, 1, none⟩], capacity := grow e.capacity } : Core Pos))
        (l := e.mics) ho.perm ho.nodup
    rw [h1] at h
    injection h with h
    subst h
    obtain ⟨_, hmics, _, hnext, _⟩ := deleteAll_params h1
    refine ⟨r, m, p, ?_, hp, by rw [h2]; exact List.not_mem_nil, ?_⟩
    · rw [hmics]
      simp only
      rw [List.getElem?_append_left (List.getElem?_eq_some_iff.1 hm).1]
      exact hm
    · rw [hnext]
      refine ho.old p ?_
      rw [ho.perm.mem_iff]
      exact List.mem_filterMap.2 ⟨m, List.mem_of_getElem? hm, hp⟩

/-- The receiver `r` has a tree after a history without more microphones in which it gets directions and is not made omnidirectional. -/
theorem run_tree {grow : Nat → Nat} {r : Nat} {ops : List (Op Pos)} {e e' : Core Pos} (h : run grow e ops = some e') (hadd : ∀ loc, .addMic loc ∉ ops) (homni : .makeOmni r ∉ ops) (hr : r < e.mics.length)
    (hset : (∃ k, .setDirections r k ∈ ops) ∨ ∃ m, e.mics[r]? = some m ∧ m.tree.isSome) :
    (∃ m, e'.mics[r]? = some m ∧ m.tree.isSome) ∧ e'.mics.length = e.mics.length ∧ e'.capacity = e.capacity := by
  induction ops generalizing e with
  | nil =>
    injection h with h
    subst h
    rcases hset with ⟨k, hk⟩ | hset
    · cases hk
    · exact ⟨hset, rfl, rfl⟩
  | cons o t ih =>
    unfold run at h
    rw [Option.bind_eq_some_iff] at h
    obtain ⟨e1, h1, h2⟩ := h
    have hlen : e1.mics.length = e.mics.length ∧ e1.capacity = e.capacity ∧
        (((∃ k, o = .setDirections r k) ∨ ∃ m, e.mics[r]? = some m ∧ m.tree.isSome) → ∃ m, e1.mics[r]? = some m ∧ m.tree.isSome) := by
      cases o with
      | addMic loc => exact absurd List.mem_cons_self (hadd loc)
      | setDirections q k =>
        simp only [step] at h1
        unfold Core.setDirections at h1
        cases hq : e.mics[q]? with
        | none =>
          rw [hq] at h1
          injection h1 with h1
          subst h1
          refine ⟨rfl, rfl, ?_⟩
          rintro (⟨k', hk⟩ | hm)
          · injection hk with hk _
            subst hk
            rw [List.getElem?_eq_none_iff] at hq
            omega
          · exact hm
        | some x =>
          rw [hq] at h1
          simp only [Option.map_eq_some_iff] at h1
          obtain ⟨e2, h3, h4⟩ := h1
          obtain ⟨_, hmic, _, hcap, _⟩ := delete_eq h3
          subst h4
          refine ⟨by simp [hmic], hcap, fun hm => ?_⟩
          by_cases hqr : q = r
          · subst hqr
            refine ⟨_, by simp only; rw [List.getElem?_set_self (by rw [hmic]; exact hr)], rfl⟩
          · rcases hm with ⟨k', hk⟩ | ⟨m, hm, ht⟩
            · injection hk with hk _
              exact absurd hk hqr
            · refine ⟨m, ?_, ht⟩
              simp only
              rw [List.getElem?_set_ne hqr, hmic]
              exact hm
      | makeOmni q =>
        have hqr : q ≠ r := by
          rintro rfl
          exact homni List.mem_cons_self
        simp only [step] at h1
        unfold Core.makeOmni at h1
        cases hq : e.mics[q]? with
        | none =>
          rw [hq] at h1
          injection h1 with h1
          subst h1
          refine ⟨rfl, rfl, ?_⟩
          rintro (⟨k', hk⟩ | hm)
          · cases hk
          · exact hm
        | some x =>
          rw [hq] at h1
          simp only [Option.map_eq_some_iff] at h1
          obtain ⟨e2, h3, h4⟩ := h1
          obtain ⟨_, hmic, _, hcap, _⟩ := delete_eq h3
          subst h4
          refine ⟨by simp [hmic], hcap, ?_⟩
          rintro (⟨k', hk⟩ | ⟨m, hm, ht⟩)
          · cases hk
          · refine ⟨m, ?_, ht⟩
            simp only
            rw [List.getElem?_set_ne hqr, hmic]
            exact hm
      | query q =>
        simp only [step] at h1
        unfold Core.query at h1
        have : e1 = e := by
          cases hq : e.mics[q]? with
          | none =>
            rw [hq] at h1
            injection h1 with h1
            exact h1.symm
          | some x =>
            rw [hq] at h1
            simp only at h1
            split_ifs at h1
            · injection h1 with h1
              exact h1.symm
            · cases hx : x.tree with
              | none => rw [hx] at h1; cases h1
              | some y =>
                rw [hx] at h1
                simp only at h1
                split_ifs at h1
                injection h1 with h1
                exact h1.symm
        subst this
        refine ⟨rfl, rfl, ?_⟩
        rintro (⟨k', hk⟩ | hm)
        · cases hk
        · exact hm
      | setParams q =>
        injection h1 with h1
        subst h1
        refine ⟨rfl, rfl, ?_⟩
        rintro (⟨k', hk⟩ | hm)
        · cases hk
        · exact hm
    obtain ⟨hl1, hl2, hl3⟩ := hlen
    have := ih h2 (fun loc hloc => hadd loc (List.mem_cons_of_mem _ hloc)) (fun ho => homni (List.mem_cons_of_mem _ ho)) (by omega) ?_
    · rw [hl1, hl2] at this
      exact this
    · rcases hset with ⟨k, hk⟩ | hm
      · rcases List.mem_cons.1 hk with hk | hk
        · exact Or.inr (hl3 (Or.inl ⟨k, hk.symm⟩))
        · exact Or.inl ⟨k, hk⟩
      · exact Or.inr (hl3 (Or.inr hm))

/-- **C89** (deviation). The room traces rays with a directive microphone; then a microphone is added for which the storage has to be enlarged. Whatever happens afterwards, at the latest when the
engine is destroyed a tree is deleted a second time. -/
theorem C89_copy_deviation {grow : Nat → Nat} {dim : Nat} {walls : List Wall} {p : Params} {e0 e : Core Pos} (h : Core.new dim walls p = .ok e0) {before : List (Op Pos)} (hc : Careful grow e0 before)
    (hrun : run grow e0 before = some e) (hfull : e.mics.length = e.capacity) {dirs : List (Option Nat)} (hdirs : dirs.length = e.mics.length) {r k : Nat} (hr : dirs[r]? = some (some k)) (loc : Pos) (after : List (Op Pos)) :
    (run grow e (traceOps dirs ++ .addMic loc :: after)).bind Core.destroy = none := by
  obtain ⟨e', h1, ho, _⟩ := C89_memory h hc
  rw [hrun] at h1
  injection h1 with h1
  subst h1
  have happ : ∀ (a b : List (Op Pos)) (x : Core Pos), run grow x (a ++ b) = (run grow x a).bind fun y => run grow y b := by
    intro a b
    induction a with
    | nil => intro x; rfl
    | cons o t ih =>
      intro x
      change (step grow x o).bind _ = ((step grow x o).bind _).bind _
      cases step grow x o with
      | none => rfl
      | some y => exact ih y
  have howned : ∀ (a : List (Op Pos)) (x y : Core Pos), (∀ loc, Op.addMic loc ∉ a) → Owned x → run grow x a = some y → Owned y := by
    intro a
    induction a with
    | nil =>
      intro x y _ hx hy
      injection hy with hy
      subst hy
      exact hx
    | cons o t ih =>
      intro x y hna hx hy
      obtain ⟨z, hz, hoz⟩ := step_owned (grow := grow) (o := o) hx (by
        intro loc hl
        subst hl
        exact absurd List.mem_cons_self (hna loc))
      unfold run at hy
      rw [hz] at hy
      exact ih z y (fun l hl => hna l (List.mem_cons_of_mem _ hl)) hoz hy
  have hrl : r < dirs.length := (List.getElem?_eq_some_iff.1 hr).1
  have hna : ∀ l, Op.addMic l ∉ (traceOps dirs : List (Op Pos)) := by
    intro l hl
    unfold traceOps at hl
    rw [List.mem_append, List.mem_map, List.mem_map] at hl
    rcases hl with ⟨q, _, hq⟩ | ⟨q, _, hq⟩
    · split at hq <;> cases hq
    · cases hq
  have hno : Op.makeOmni r ∉ (traceOps dirs : List (Op Pos)) := by
    intro hl
    unfold traceOps at hl
    rw [List.mem_append, List.mem_map, List.mem_map] at hl
    rcases hl with ⟨q, _, hq⟩ | ⟨q, _, hq⟩
    · split at hq
      · rename_i hd
        injection hq with hq
        subst hq
        rw [hr] at hd
        cases hd
      · cases hq
    · cases hq
  have hset : Op.setDirections r k ∈ (traceOps dirs : List (Op Pos)) := by
    unfold traceOps
    rw [List.mem_append, List.mem_map]
    refine Or.inl ⟨r, List.mem_range.2 hrl, ?_⟩
    rw [hr]
    rfl
  rw [happ]
  cases ht : run grow e (traceOps dirs) with
  | none => rfl
  | some e1 =>
    obtain ⟨⟨m, hm, hmt⟩, hlen, hcap⟩ := run_tree ht hna hno (by omega) (Or.inl ⟨k, hset⟩)
    rw [Option.bind_some]
    unfold run
    cases ha : step grow e1 (.addMic loc) with
    | none => rfl
    | some e2 => exact run_dangling (addMic_dangling (howned _ _ _ hna ho ht) (by omega) hm hmt ha) after

/-! ## Concrete cases -/

/-- Four walls of one band. -/
noncomputable def wall : Wall := ⟨[1 / 2], [1 / 10], 1 / 10, ∃ s ∈ [(1 / 10 : ℝ)], 0 < s, [Real.sqrt (1 - 1 / 2)], [1 - 1 / 2]⟩

example : Wall.new [1 / 2] [1 / 10] = .ok wall := by
  unfold Wall.new wall
  simp

theorem exists_room : ∃ (r : Room Nat) (e : Core Nat), Room.new 3 [wall, wall, wall, wall] 8000 343 1 100 true = .ok r ∧ r.engine = some e ∧ e.mics = [] ∧ e.capacity = 0 ∧ r.fs = 8000 ∧ r.c = 343 ∧
    r.args.binSize = 4 / 1000 ∧ e.params = r.params := by
  have hf : ⌊(8000 : ℝ) * (4 / 1000)⌋ = 32 := by
    rw [show (8000 : ℝ) * (4 / 1000) = ((32 : ℤ) : ℝ) by norm_num, Int.floor_intCast]
  unfold Room.new
  simp only
  unfold Room.setOptions
  simp only [hf]
  have hpi := Real.pi_pos
  rw [if_neg (by positivity)]
  simp only [Core.new]
  simp
  refine ⟨rfl, rfl, ?_, rfl⟩
  simp only [Room.update]
  norm_num

/-- The hypotheses of `C89_options`, `C89_ray_tracing`, `C89_bins` and `C89_bins_deviation` can be met: a microphone is added, and then the length of the bins is changed. -/
example : ∃ (r r' r'' : Room Nat), Room.new 3 [wall, wall, wall, wall] 8000 343 1 100 true = .ok r ∧ Agree r ∧ r.call (fun n => 2 * n + 1) (.add 0) = some (r', none) ∧
    r'.call (fun n => 2 * n + 1) (.setRayTracing { nRays := some 10, binSize := 2 / 1000 }) = some (r'', none) ∧ 0 < r.c ∧ 0 < r.args.binSize ∧ r''.args.binSize * r''.c ≠ r'.args.binSize * r'.c := by
  obtain ⟨r, e, h, he, hm, hcap, hfs, hc, hb, hp⟩ := exists_room
  have hf : ⌊(8000 : ℝ) * (2 / 1000)⌋ = 16 := by
    rw [show (8000 : ℝ) * (2 / 1000) = ((16 : ℤ) : ℝ) by norm_num, Int.floor_intCast]
  have h0 : ¬ e.params.histRes * e.params.c = 0 := by
    rw [hp]
    change ¬ r.args.binSize * r.c = 0
    rw [hb, hc]
    norm_num
  have hadd : ∃ r', r.call (fun n => 2 * n + 1) (.add 0) = some (r', none) ∧ r'.fs = r.fs ∧ r'.c = r.c ∧ r'.args = r.args := by
    unfold Room.call
    rw [he]
    simp only
    unfold Core.addMic
    simp only
    rw [if_neg h0, hm, if_neg (by rw [hcap]; simp)]
    exact ⟨_, rfl, rfl, rfl, rfl⟩
  obtain ⟨r', h1, h2, h3, h4⟩ := hadd
  refine ⟨r, r', _, h, ⟨e, he, hp.trans (params_eq r)⟩, h1, rfl, by rw [hc]; norm_num, by rw [hb]; norm_num, ?_⟩
  simp only [Room.update, h2, h3, h4, hfs, hf, hc, hb]
  norm_num

/-- The hypotheses of `C89_memory` and `C89_copy_deviation` can be met: one microphone, which is directive. -/
example : ∃ (e0 e : Core Nat), Core.new 3 [wall, wall, wall, wall] ⟨343, 1, 1, 1, 1, 1, 4 / 1000, true⟩ = .ok e0 ∧ Careful (fun n => 2 * n + 1) e0 [.addMic 0] ∧ run (fun n => 2 * n + 1) e0 [.addMic 0] = some e ∧
    e.mics.length = e.capacity ∧ [some 720].length = e.mics.length := by
  have h0 : ¬ ((4 : ℝ) / 1000 * 343 = 0) := by norm_num
  have hnew : ∃ e0 : Core Nat, Core.new 3 [wall, wall, wall, wall] ⟨343, 1, 1, 1, 1, 1, 4 / 1000, true⟩ = .ok e0 ∧ e0.params = ⟨343, 1, 1, 1, 1, 1, 4 / 1000, true⟩ ∧ e0.mics = [] ∧ e0.capacity = 0 :=
    ⟨_, by simp [Core.new]; rfl, rfl, rfl, rfl⟩
  obtain ⟨e0, hnew, hp, hm, hcap⟩ := hnew
  have hadd : ∃ e, e0.addMic (fun n => 2 * n + 1) 0 = some e ∧ e.mics.length = 1 ∧ e.capacity = 1 := by
    unfold Core.addMic
    simp only [hp, hm, hcap]
    rw [if_neg h0, if_neg (by simp)]
    exact ⟨_, rfl, rfl, rfl⟩
  obtain ⟨e, he, h1, h2⟩ := hadd
  refine ⟨e0, e, hnew, ⟨fun loc _ => ⟨by rw [hp]; exact h0, fun _ => by rw [trees, hm]; rfl⟩, fun _ _ => trivial⟩, ?_, by rw [h1, h2], by rw [h1]; rfl⟩
  change (e0.addMic (fun n => 2 * n + 1) 0).bind some = some e
  rw [he]
  rfl

/-- The hypotheses of `C89_broadcast`, `C89_broadcast_deviation` and `C89_first_band_deviation` can be met. -/
example : Coherent wall ∧ wall.nBands = 1 ∧ ∃ w : Wall, Wall.new [1 / 2, 1 / 4] [0, 1 / 2] = .ok w ∧ Coherent w ∧ w.nBands = 2 ∧ w.scatter.head? = some 0 ∧ (0 : ℝ) * w.scatter.length ≠ w.scatter.sum := by
  have h1 : Wall.new [1 / 2] [1 / 10] = .ok wall := by
    unfold Wall.new wall
    simp
  have h2 : ∃ w, Wall.new [1 / 2, 1 / 4] [0, 1 / 2] = .ok w ∧ w.nBands = 2 ∧ w.scatter = [0, 1 / 2] := ⟨_, by unfold Wall.new; rw [if_neg (by simp)], rfl, rfl⟩
  obtain ⟨w, hw, hb, hs⟩ := h2
  refine ⟨coherent_new (by simp) h1, rfl, w, hw, coherent_new (by simp) hw, hb, by rw [hs]; rfl, by rw [hs]; norm_num⟩

end Verif.Engine
