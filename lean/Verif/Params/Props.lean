import Verif.Params.Model
import Mathlib.Data.List.Induction
import Mathlib.Tactic.NormNum
import Mathlib.Tactic.Ring
import Mathlib.Tactic.Linarith
import Mathlib.Tactic.FieldSimp

/-!
# Properties of the global parameters: C31, C32
-/

namespace Verif.Params

open Py (Err)

variable {V : Type}

theorem Dict.get_set (d : Dict V) (k k' : String) (v : V) : (d.set k v).get k' = if k' = k then some v else d.get k' := by
  induction d with
  | nil =>
    by_cases h : k' = k
    · subst h; simp [Dict.set, Dict.get]
    · simp [Dict.set, Dict.get, h, Ne.symm h]
  | cons e rest ih =>
    unfold Dict.set
    by_cases he : e.1 = k
    · rw [if_pos (by simpa using he)]
      by_cases h : k' = k
      · subst h; simp [Dict.get]
      · simp [Dict.get, List.find?_cons, h, Ne.symm h, he]
    · rw [if_neg (by simpa using he)]
      by_cases h' : e.1 = k'
      · have hk : ¬k' = k := fun h => he (h'.trans h)
        simp [Dict.get, List.find?_cons, h', hk]
      · have hb : (e.1 == k') = false := by simpa using h'
        have h1 : ∀ l : Dict V, Dict.get (e :: l) k' = Dict.get l k' := by
          intro l; unfold Dict.get; rw [List.find?_cons, hb]
        rw [h1, h1]
        exact ih

/-! ## C31 -/

/-- One use of the object `constants`. -/
inductive Op (V : Type)
  | set (name : String) (v : V)
  | get (name : String)

/-- The state after a history of calls. -/
def run (g : Globals V) : List (Op V) → Globals V
  | [] => g
  | .set n v :: ops => run (g.set n v) ops
  | .get _ :: ops => run g ops

/-- Specification: the last value given to the name in the history. -/
def lastSet (ops : List (Op V)) (name : String) : Option V :=
  (ops.reverse.findSome? fun o => match o with
    | .set n v => if n = name then some v else none
    | .get _ => none)

theorem run_default (ops : List (Op V)) (g : Globals V) : (run g ops).default = g.default := by
  induction ops generalizing g with
  | nil => rfl
  | cons o ops ih => cases o <;> simp [run, ih, Globals.set]

theorem run_append (ops ops' : List (Op V)) (g : Globals V) : run g (ops ++ ops') = run (run g ops) ops' := by
  induction ops generalizing g with
  | nil => rfl
  | cons o ops ih => cases o <;> simp [run, ih]

/-- **C31** After any history of calls `get` returns the last value set, the default if there was none, and raises
`NameError` if there is no default either. -/
theorem C31_history (ops : List (Op V)) (g : Globals V) (name : String) (h0 : g.constants = []) :
    (run g ops).get name =
      match lastSet ops name, g.default.get name with
      | some v, _ => .ok v
      | none, some v => .ok v
      | none, none => .error .nameError := by
  have key : (run g ops).constants.get name = lastSet ops name := by
    induction ops using List.reverseRecOn with
    | nil => simp [run, h0, Dict.get, lastSet]
    | append_singleton ops o ih =>
      rw [run_append]
      unfold lastSet
      rw [List.reverse_append]
      cases o with
      | get n => simpa [run, lastSet] using ih
      | set n v =>
        have : (run (run g ops) [.set n v]).constants = (run g ops).constants.set n v := rfl
        rw [this, Dict.get_set]
        by_cases h : n = name
        · subst h; simp
        · rw [if_neg (Ne.symm h), ih]
          simp [h, lastSet]
  unfold Globals.get
  rw [key, run_default]
  cases lastSet ops name <;> cases g.default.get name <;> rfl

/-- **C31** Setting a constant changes no other one, and no default: names never set keep their default. -/
theorem C31_frame (g : Globals V) (name other : String) (v : V) (h : other ≠ name) : (g.set name v).get other = g.get other := by
  unfold Globals.get Globals.set
  simp only [Dict.get_set, if_neg h]

/-- **C31** Deviation: the number of threads does not depend on the variables `OMP_NUM_THREADS` and `MKL_NUM_THREADS`, although the
documentation says so: the code asks for an attribute of the object `os.environ`. -/
theorem C31_threads_deviation (env env' attrs : Dict Int) (numCores : Int) (hp : env.get "PRA_NUM_THREADS" = env'.get "PRA_NUM_THREADS") :
    getNumThreads env attrs numCores = getNumThreads env' attrs numCores := by
  unfold getNumThreads
  rw [hp]

/-- **C31** The specific variable has precedence. -/
theorem C31_threads (env attrs : Dict Int) (numCores v : Int) (h : env.get "PRA_NUM_THREADS" = some v) :
    getNumThreads env attrs numCores = v := by
  unfold getNumThreads
  rw [h]

/-- Non-vacuity of C31: a history that sets a constant twice. -/
example : (run (⟨[], [("c", 343), ("fc_hp", 300)]⟩ : Globals Nat) [.set "c" 340, .get "c", .set "x" 1, .set "c" 350]).get "c" = .ok 350 ∧
    (run (⟨[], [("c", 343), ("fc_hp", 300)]⟩ : Globals Nat) [.set "c" 340]).get "fc_hp" = .ok 300 ∧
    (run (⟨[], [("c", 343), ("fc_hp", 300)]⟩ : Globals Nat) [.set "c" 340]).get "y" = .error .nameError := by
  refine ⟨?_, ?_, ?_⟩ <;> rfl

/-- Non-vacuity of the deviation: eight threads on a machine with eight cores, with the limit 1 set. -/
example : getNumThreads [("OMP_NUM_THREADS", 1)] [] 8 = 8 := by decide

/-! ## C32 -/

/-- **C32** `from_speed` gives an object which reports this speed. -/
theorem C32_from_speed (constC c : ℝ) : ∃ ph, Physics.fromSpeed constC c = .ok ph ∧ ph.soundSpeed = c := by
  unfold Physics.fromSpeed Physics.mk'
  refine ⟨⟨calculateTemperature c 0.3, 0.3, 100⟩, ?_, ?_⟩
  · simp only [Option.getD_some]
    rw [if_neg (by norm_num)]
  · simp only [Physics.soundSpeed, calculateSpeedOfSound, calculateTemperature]
    ring

/-- **C32** The two formulas are inverse to each other. -/
theorem C32_inverse (t h p c : ℝ) :
    calculateTemperature (calculateSpeedOfSound t h p) h = t ∧ calculateSpeedOfSound (calculateTemperature c h) h p = c := by
  unfold calculateTemperature calculateSpeedOfSound
  constructor <;> ring

/-- **C32** The physics of a room: refused exactly for a humidity outside [0, 100]; without a temperature the speed of sound is the global constant; with a
temperature it is given by the formula and does not depend on the constant. -/
theorem C32_room (c : ℝ) (temperature humidity : Option ℝ) :
    ((∃ h, humidity = some h ∧ (h < 0 ∨ 100 < h)) → roomPhysics c temperature humidity = .error .valueError) ∧
    ((∀ h, humidity = some h → 0 ≤ h ∧ h ≤ 100) → ∃ ph, roomPhysics c temperature humidity = .ok ph ∧
      0 ≤ ph.H ∧ ph.H ≤ 100 ∧
      (temperature = none → ph.soundSpeed = c) ∧
      (∀ t, temperature = some t → ph.T = t ∧ ph.H = humidity.getD 0 ∧ ph.soundSpeed = 331.4 + 0.6 * t + 0.0124 * humidity.getD 0)) := by
  have hmk : ∀ (t h : Option ℝ), (0 ≤ h.getD 0 ∧ h.getD 0 ≤ 100) →
      Physics.mk' c t h = .ok ⟨t.getD (calculateTemperature c (h.getD 0)), h.getD 0, 100⟩ := by
    intro t h hh
    unfold Physics.mk'
    simp only
    rw [if_neg (by rw [not_or]; exact ⟨not_lt.mpr hh.1, not_lt.mpr hh.2⟩)]
  have hspeed : ∀ h p : ℝ, Physics.soundSpeed ⟨calculateTemperature c h, h, p⟩ = c := by
    intro h p; exact (C32_inverse 0 h p c).2
  constructor
  · rintro ⟨h, rfl, hh⟩
    unfold roomPhysics
    simp only [Option.isNone_some, Bool.and_false, Bool.false_eq_true, if_false]
    unfold Physics.mk'
    simp only [Option.getD_some]
    rw [if_pos hh]
  · intro hh
    have hd : 0 ≤ humidity.getD 0 ∧ humidity.getD 0 ≤ 100 := by
      cases humidity with
      | none => simp
      | some h => exact hh h rfl
    by_cases hn : temperature = none ∧ humidity = none
    · obtain ⟨rfl, rfl⟩ := hn
      obtain ⟨ph, h1, h2⟩ := C32_from_speed c c
      refine ⟨ph, ?_, ?_⟩
      · unfold roomPhysics
        simp only [Option.isNone_none, Bool.and_self, if_true]
        rw [hmk none none (by simp)]
        exact h1
      · have hH : ph.H = 0.3 := by
          unfold Physics.fromSpeed at h1
          rw [hmk _ _ (by norm_num)] at h1
          injection h1 with h1
          rw [← h1]; rfl
        refine ⟨by rw [hH]; norm_num, by rw [hH]; norm_num, fun _ => h2, ?_⟩
        intro t ht; cases ht
    · refine ⟨⟨temperature.getD (calculateTemperature c (humidity.getD 0)), humidity.getD 0, 100⟩, ?_, hd.1, hd.2, ?_, ?_⟩
      · unfold roomPhysics
        rw [if_neg ?_]
        · exact hmk temperature humidity hd
        · simpa using hn
      · rintro rfl
        exact hspeed _ _
      · rintro t rfl
        exact ⟨rfl, rfl, rfl⟩

/-- What the air absorption of an object is (specification): the row by temperature (below 15 degrees or not) and humidity (below 50, below 70, or
not). -/
noncomputable def airRow (cold : Bool) (band : Nat) : List ℝ :=
  match cold, band with
  | true, 0 => [1/10000, 2/10000, 5/10000, 11/10000, 27/10000, 94/10000, 290/10000]
  | true, 1 => [1/10000, 2/10000, 5/10000, 8/10000, 18/10000, 59/10000, 211/10000]
  | true, _ => [1/10000, 2/10000, 5/10000, 7/10000, 14/10000, 44/10000, 158/10000]
  | false, 0 => [1/10000, 3/10000, 6/10000, 10/10000, 19/10000, 58/10000, 203/10000]
  | false, 1 => [1/10000, 3/10000, 6/10000, 10/10000, 17/10000, 41/10000, 135/10000]
  | false, _ => [1/10000, 3/10000, 6/10000, 11/10000, 17/10000, 35/10000, 106/10000]

open Classical in
/-- **C32** The table has an entry for every temperature and humidity, and it is the one of the ranges in which they lie. -/
theorem C32_air (ph : Physics) :
    ph.airAbsorption = .ok (airRow (decide (ph.T < 15)) (if ph.H < 50 then 0 else if ph.H < 70 then 1 else 2),
      [125, 250, 500, 1000, 2000, 4000, 8000]) := by
  have hk : ∀ (k : String) (r : List ℝ), airAbsorptionTable.get k = some r → ph.airKey = k →
      ph.airAbsorption = .ok (r, [125, 250, 500, 1000, 2000, 4000, 8000]) := by
    intro k r h1 h2
    unfold Physics.airAbsorption
    rw [h2, h1]
    rfl
  unfold airAbsorptionTable at hk
  by_cases hT : ph.T < 15 <;> by_cases h1 : ph.H < 50
  · rw [decide_eq_true hT, if_pos h1]
    refine hk "10C_30-50%" _ ?_ ?_
    · simp [Dict.get, airRow]; norm_num
    · simp [Physics.airKey, hT, h1]
  · rw [decide_eq_true hT, if_neg h1]
    by_cases h2 : ph.H < 70
    · rw [if_pos h2]
      refine hk "10C_50-70%" _ ?_ ?_
      · simp [Dict.get, airRow]; norm_num
      · simp [Physics.airKey, hT, h1, h2, not_lt.mp h1]
    · rw [if_neg h2]
      refine hk "10C_70-90%" _ ?_ ?_
      · simp [Dict.get, airRow]; norm_num
      · simp [Physics.airKey, hT, h1, h2]
  · rw [decide_eq_false hT, if_pos h1]
    refine hk "20C_30-50%" _ ?_ ?_
    · simp [Dict.get, airRow]; norm_num
    · simp [Physics.airKey, hT, h1]
  · rw [decide_eq_false hT, if_neg h1]
    by_cases h2 : ph.H < 70
    · rw [if_pos h2]
      refine hk "20C_50-70%" _ ?_ ?_
      · simp [Dict.get, airRow]; norm_num
      · simp [Physics.airKey, hT, h1, h2, not_lt.mp h1]
    · rw [if_neg h2]
      refine hk "20C_70-90%" _ ?_ ?_
      · simp [Dict.get, airRow]; norm_num
      · simp [Physics.airKey, hT, h1, h2]

/-- **C32** Every row has one positive coefficient per frequency, and the absorption does not decrease with the frequency. -/
theorem C32_air_rows (cold : Bool) (band : Nat) :
    (airRow cold band).length = 7 ∧ (∀ a ∈ airRow cold band, 0 < a ∧ a < 1) ∧ (airRow cold band).Pairwise (· ≤ ·) := by
  rcases cold <;> rcases band with _ | _ | band <;> (simp only [airRow]; refine ⟨rfl, ?_, ?_⟩ <;> simp <;> norm_num)

/-- Non-vacuity of C32_room: 20 degrees and 40 percent; no temperature. -/
example : (∃ ph, roomPhysics 343 (some 20) (some 40) = .ok ph ∧ ph.soundSpeed = 343.896) ∧
    (∃ ph, roomPhysics 340 none (some 40) = .ok ph ∧ ph.soundSpeed = 340) ∧
    roomPhysics 343 (some 20) (some 101) = .error .valueError := by
  refine ⟨?_, ?_, ?_⟩
  · obtain ⟨ph, h1, _, _, _, h2⟩ := (C32_room 343 (some 20) (some 40)).2 (by rintro h ⟨⟩; norm_num)
    refine ⟨ph, h1, ?_⟩
    rw [(h2 20 rfl).2.2]; norm_num
  · obtain ⟨ph, h1, _, _, h2, _⟩ := (C32_room 340 none (some 40)).2 (by rintro h ⟨⟩; norm_num)
    exact ⟨ph, h1, h2 rfl⟩
  · exact (C32_room 343 (some 20) (some 101)).1 ⟨101, rfl, by norm_num⟩

end Verif.Params
