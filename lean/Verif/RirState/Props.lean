import Verif.RirState.Model
import Mathlib.Data.List.Basic

/-!
# C39: the impulse responses and the state of the room
-/

namespace Verif.RirState

open Py (Err)

variable {S Mic Cfg Post I V H R : Type}

/-! ## Specification -/

/-- The response for source `s` and microphone `m` in the present state. -/
def ideal1 (E : Eng S Mic Cfg Post I V H R) (src : Nat → S) (room : Room Mic Cfg Post V H R) (m : Nat) (mic : Mic) (id : Nat) : R :=
  let i := E.ism room.cfg (room.ismNeeded && room.rtNeeded) room.mics (src id)
  let a := E.asmIsm room.post (src id) mic m i.1 i.2
  let b := E.asmRt room.post (src id) mic (E.rt room.cfg (room.ismNeeded && room.rtNeeded) room.mics (src id) m)
  if room.ismNeeded then (if room.rtNeeded then E.add a b else a) else b

/-- All responses: for every microphone those of all sources. -/
def ideal (E : Eng S Mic Cfg Post I V H R) (src : Nat → S) (room : Room Mic Cfg Post V H R) : List (List R) :=
  room.mics.zipIdx.map fun mm => room.sources.map fun id => ideal1 E src room mm.2 mm.1 id

/-! ## Lemmas -/

theorem mapM_ok {α β : Type} {f : α → Except Err β} {g : α → β} : ∀ {l : List α}, (∀ x ∈ l, f x = .ok (g x)) → l.mapM f = .ok (l.map g)
  | [], _ => rfl
  | x :: l, h => by
    rw [List.mapM_cons, h x (by simp), mapM_ok (fun y hy => h y (by simp [hy]))]
    rfl

theorem mapM_err {α β : Type} {f : α → Except Err β} : ∀ {l : List α}, (∃ x ∈ l, ∃ e, f x = .error e) → ∃ e, l.mapM f = .error e
  | [], ⟨x, hx, _⟩ => absurd hx (by simp)
  | x :: l, ⟨y, hy, e, he⟩ => by
    rw [List.mapM_cons]
    cases hx : f x with
    | error e' => exact ⟨e', rfl⟩
    | ok v =>
      have hyl : y ∈ l := by
        rcases List.mem_cons.mp hy with rfl | h
        · rw [he] at hx; cases hx
        · exact h
      obtain ⟨e', he'⟩ := mapM_err (f := f) ⟨y, hyl, e, he⟩
      rw [he']
      exact ⟨e', rfl⟩

theorem foldl_update {α : Type} (g : Nat → α) : ∀ (l : List Nat) (c : Nat → α) (k : Nat),
    l.foldl (fun c id => Function.update c id (g id)) c k = if k ∈ l then g k else c k
  | [], c, k => by simp
  | x :: l, c, k => by
    rw [List.foldl_cons, foldl_update g l]
    by_cases h : k ∈ l
    · simp [h]
    · by_cases hk : k = x
      · subst hk; simp [h]
      · simp [h, hk]

/-- Results are those of the present state. -/
structure IsmCurrent (E : Eng S Mic Cfg Post I V H R) (y : Sys S Mic Cfg Post I V H R) (r : Nat) : Prop where
  cache : ∀ id ∈ (y.rooms r).sources,
    y.cache id = some ((E.ism (y.rooms r).cfg (y.rooms r).hybrid (y.rooms r).mics (y.src id)).1, (y.rooms r).mics.length)
  vis : (y.rooms r).visibility = (y.rooms r).sources.map fun id =>
    ((E.ism (y.rooms r).cfg (y.rooms r).hybrid (y.rooms r).mics (y.src id)).2, (y.rooms r).mics.length)

/-- Histograms are those of the present state. -/
def RtCurrent (E : Eng S Mic Cfg Post I V H R) (y : Sys S Mic Cfg Post I V H R) (r : Nat) : Prop :=
  (y.rooms r).hist = (List.range (y.rooms r).mics.length).map fun m =>
    (y.rooms r).sources.map fun id => E.rt (y.rooms r).cfg (y.rooms r).hybrid (y.rooms r).mics (y.src id) m

theorem ism_current (E : Eng S Mic Cfg Post I V H R) {y : Sys S Mic Cfg Post I V H R} {r : Nat} (h : (y.rooms r).ismNeeded = true) :
    IsmCurrent E (imageSourceModel E y r) r := by
  unfold imageSourceModel
  rw [if_pos h]
  constructor
  · intro id hid
    simp only [Function.update_self] at hid ⊢
    rw [foldl_update (fun id => some ((E.ism (y.rooms r).cfg (y.rooms r).hybrid (y.rooms r).mics (y.src id)).1, (y.rooms r).mics.length))]
    rw [if_pos hid]
    rfl
  · simp only [Function.update_self]
    rfl

theorem rt_current (E : Eng S Mic Cfg Post I V H R) {y : Sys S Mic Cfg Post I V H R} {r : Nat} (h : (y.rooms r).rtNeeded = true) :
    RtCurrent E (rayTracing E y r) r := by
  unfold rayTracing RtCurrent
  rw [if_pos h]
  simp only [Function.update_self]
  rfl

theorem rt_keeps_ism (E : Eng S Mic Cfg Post I V H R) {y : Sys S Mic Cfg Post I V H R} {r : Nat} (h : IsmCurrent E y r) : IsmCurrent E (rayTracing E y r) r := by
  unfold rayTracing
  simp only
  split
  · constructor
    · intro id hid
      simp only [Function.update_self] at hid ⊢
      exact h.cache id hid
    · simp only [Function.update_self]
      exact h.vis
  · exact h

/-- What the simulations leave alone. -/
theorem room_ism (E : Eng S Mic Cfg Post I V H R) (y : Sys S Mic Cfg Post I V H R) (r : Nat) :
    (imageSourceModel E y r).src = y.src ∧ ((imageSourceModel E y r).rooms r).sources = (y.rooms r).sources ∧
    ((imageSourceModel E y r).rooms r).mics = (y.rooms r).mics ∧ ((imageSourceModel E y r).rooms r).cfg = (y.rooms r).cfg ∧
    ((imageSourceModel E y r).rooms r).post = (y.rooms r).post ∧ ((imageSourceModel E y r).rooms r).ismNeeded = (y.rooms r).ismNeeded ∧
    ((imageSourceModel E y r).rooms r).rtNeeded = (y.rooms r).rtNeeded ∧ ((imageSourceModel E y r).rooms r).rtDone = (y.rooms r).rtDone := by
  unfold imageSourceModel
  simp only
  split <;> simp

theorem room_rt (E : Eng S Mic Cfg Post I V H R) (y : Sys S Mic Cfg Post I V H R) (r : Nat) :
    (rayTracing E y r).src = y.src ∧ ((rayTracing E y r).rooms r).sources = (y.rooms r).sources ∧
    ((rayTracing E y r).rooms r).mics = (y.rooms r).mics ∧ ((rayTracing E y r).rooms r).cfg = (y.rooms r).cfg ∧
    ((rayTracing E y r).rooms r).post = (y.rooms r).post ∧ ((rayTracing E y r).rooms r).ismNeeded = (y.rooms r).ismNeeded ∧
    ((rayTracing E y r).rooms r).rtNeeded = (y.rooms r).rtNeeded ∧ ((rayTracing E y r).rooms r).ismDone = (y.rooms r).ismDone := by
  unfold rayTracing
  simp only
  split <;> simp

theorem ideal_congr (E : Eng S Mic Cfg Post I V H R) {src : Nat → S} {a b : Room Mic Cfg Post V H R} (h1 : a.sources = b.sources) (h2 : a.mics = b.mics)
    (h3 : a.cfg = b.cfg) (h4 : a.post = b.post) (h5 : a.ismNeeded = b.ismNeeded) (h6 : a.rtNeeded = b.rtNeeded) : ideal E src a = ideal E src b := by
  unfold ideal ideal1
  rw [h1, h2, h3, h4, h5, h6]

theorem ismPart_current {E : Eng S Mic Cfg Post I V H R} {y : Sys S Mic Cfg Post I V H R} {r : Nat} (h : IsmCurrent E y r) {m s id : Nat} {mic : Mic}
    (hm : m < (y.rooms r).mics.length) (hs : (y.rooms r).sources[s]? = some id) :
    ismPart E y (y.rooms r) m mic s id = .ok (E.asmIsm (y.rooms r).post (y.src id) mic m
      (E.ism (y.rooms r).cfg (y.rooms r).hybrid (y.rooms r).mics (y.src id)).1 (E.ism (y.rooms r).cfg (y.rooms r).hybrid (y.rooms r).mics (y.src id)).2) := by
  unfold ismPart
  have hid : id ∈ (y.rooms r).sources := List.mem_of_getElem? hs
  rw [h.cache id hid]
  simp only
  rw [if_neg (by omega), h.vis, List.getElem?_map, hs]
  simp only [Option.map_some]
  rw [if_neg (by omega)]

theorem rtPart_current {E : Eng S Mic Cfg Post I V H R} {y : Sys S Mic Cfg Post I V H R} {r : Nat} (h : RtCurrent E y r) {m s id : Nat} {mic : Mic}
    (hm : m < (y.rooms r).mics.length) (hs : (y.rooms r).sources[s]? = some id) :
    rtPart E y (y.rooms r) m mic s id = .ok (E.asmRt (y.rooms r).post (y.src id) mic (E.rt (y.rooms r).cfg (y.rooms r).hybrid (y.rooms r).mics (y.src id) m)) := by
  unfold rtPart
  rw [h, List.getElem?_map, List.getElem?_range hm]
  simp only [Option.map_some]
  rw [List.getElem?_map, hs]
  simp only [Option.map_some]

theorem allRir_current {E : Eng S Mic Cfg Post I V H R} {y : Sys S Mic Cfg Post I V H R} {r : Nat}
    (hn : (y.rooms r).ismNeeded = true ∨ (y.rooms r).rtNeeded = true)
    (hi : (y.rooms r).ismNeeded = true → IsmCurrent E y r) (ht : (y.rooms r).rtNeeded = true → RtCurrent E y r) :
    allRir E y (y.rooms r) = .ok (ideal E y.src (y.rooms r)) := by
  unfold allRir ideal
  apply mapM_ok
  rintro ⟨mic, m⟩ hmm
  rw [List.mk_mem_zipIdx_iff_getElem?] at hmm
  have hm : m < (y.rooms r).mics.length := by
    by_contra h
    rw [List.getElem?_eq_none (by omega)] at hmm
    cases hmm
  rw [mapM_ok (g := fun si : Nat × Nat => ideal1 E y.src (y.rooms r) m mic si.1)]
  · rw [show ((y.rooms r).sources.zipIdx.map fun si : Nat × Nat => ideal1 E y.src (y.rooms r) m mic si.1) =
      (y.rooms r).sources.zipIdx.map ((fun id => ideal1 E y.src (y.rooms r) m mic id) ∘ Prod.fst) from rfl, ← List.map_map, List.zipIdx_map_fst]
  · rintro ⟨id, s⟩ hsi
    rw [List.mk_mem_zipIdx_iff_getElem?] at hsi
    simp only
    unfold oneRir ideal1
    cases h1 : (y.rooms r).ismNeeded <;> cases h2 : (y.rooms r).rtNeeded
    · rcases hn with h | h
      · rw [h1] at h; cases h
      · rw [h2] at h; cases h
    · simp only
      rw [rtPart_current (ht h2) hm hsi]
      simp [Room.hybrid, h1, h2]
    · simp only
      rw [ismPart_current (hi h1) hm hsi]
      simp [Room.hybrid, h1, h2]
    · simp only
      rw [ismPart_current (hi h1) hm hsi, rtPart_current (ht h2) hm hsi]
      simp [Room.hybrid, h1, h2]

/-! ## C39 -/

/-- **C39** If nothing has been simulated that is needed, `compute_rir` gives the responses of the present sources, microphones and options, whatever
happened before in this and in other rooms. -/
theorem C39_first (E : Eng S Mic Cfg Post I V H R) {y : Sys S Mic Cfg Post I V H R} {r : Nat}
    (hn : (y.rooms r).ismNeeded = true ∨ (y.rooms r).rtNeeded = true)
    (hi : (y.rooms r).ismNeeded = true → (y.rooms r).ismDone = false) (ht : (y.rooms r).rtNeeded = true → (y.rooms r).rtDone = false) :
    ∃ y', computeRir E y r = .ok y' ∧ (y'.rooms r).rir = some (ideal E y.src (y.rooms r)) := by
  unfold computeRir
  simp only
  have key : ∃ y1, prepare E y r = y1 ∧ y1.src = y.src ∧ (y1.rooms r).sources = (y.rooms r).sources ∧ (y1.rooms r).mics = (y.rooms r).mics ∧
      (y1.rooms r).cfg = (y.rooms r).cfg ∧ (y1.rooms r).post = (y.rooms r).post ∧ (y1.rooms r).ismNeeded = (y.rooms r).ismNeeded ∧
      (y1.rooms r).rtNeeded = (y.rooms r).rtNeeded ∧ ((y.rooms r).ismNeeded = true → IsmCurrent E y1 r) ∧ ((y.rooms r).rtNeeded = true → RtCurrent E y1 r) := by
    refine ⟨_, rfl, ?_⟩
    unfold prepare
    simp only
    by_cases h1 : (y.rooms r).ismNeeded = true
    · rw [if_pos (show ((y.rooms r).ismNeeded && !(y.rooms r).ismDone) = true by rw [h1, hi h1]; rfl)]
      obtain ⟨a1, a2, a3, a4, a5, a6, a7, a8⟩ := room_ism E y r
      have hc := ism_current E (y := y) (r := r) h1
      by_cases h2 : (y.rooms r).rtNeeded = true
      · rw [if_pos (by rw [a7, a8, h2, ht h2]; rfl)]
        obtain ⟨b1, b2, b3, b4, b5, b6, b7, b8⟩ := room_rt E (imageSourceModel E y r) r
        refine ⟨by rw [b1, a1], by rw [b2, a2], by rw [b3, a3], by rw [b4, a4], by rw [b5, a5], by rw [b6, a6], by rw [b7, a7], ?_, ?_⟩
        · intro _; exact rt_keeps_ism E hc
        · intro _; exact rt_current E (by rw [a7, h2])
      · rw [if_neg (by rw [a7]; simp [h2])]
        exact ⟨a1, a2, a3, a4, a5, a6, a7, fun _ => hc, fun h => absurd h h2⟩
    · rw [if_neg (show ¬(((y.rooms r).ismNeeded && !(y.rooms r).ismDone) = true) by simp [h1])]
      by_cases h2 : (y.rooms r).rtNeeded = true
      · rw [if_pos (by rw [h2, ht h2]; rfl)]
        obtain ⟨b1, b2, b3, b4, b5, b6, b7, b8⟩ := room_rt E y r
        exact ⟨b1, b2, b3, b4, b5, b6, b7, fun h => absurd h h1, fun _ => rt_current E h2⟩
      · rw [if_neg (by simp [h2])]
        exact ⟨rfl, rfl, rfl, rfl, rfl, rfl, rfl, fun h => absurd h h1, fun h => absurd h h2⟩
  obtain ⟨y1, e1, a1, a2, a3, a4, a5, a6, a7, a8, a9⟩ := key
  rw [e1, allRir_current (by rw [a6, a7]; exact hn) (by rw [a6]; exact a8) (by rw [a7]; exact a9)]
  refine ⟨_, rfl, ?_⟩
  simp only [Function.update_self]
  rw [a1, ideal_congr E a2 a3 a4 a5 a6 a7]

/-- **C39** The same if the two simulations are called explicitly, in any state. -/
theorem C39_refresh (E : Eng S Mic Cfg Post I V H R) (y : Sys S Mic Cfg Post I V H R) (r : Nat)
    (hn : (y.rooms r).ismNeeded = true ∨ (y.rooms r).rtNeeded = true) :
    ∃ y', computeRir E (rayTracing E (imageSourceModel E y r) r) r = .ok y' ∧ (y'.rooms r).rir = some (ideal E y.src (y.rooms r)) := by
  obtain ⟨a1, a2, a3, a4, a5, a6, a7, a8⟩ := room_ism E y r
  obtain ⟨b1, b2, b3, b4, b5, b6, b7, b8⟩ := room_rt E (imageSourceModel E y r) r
  have c1 : (y.rooms r).ismNeeded = true → ((imageSourceModel E y r).rooms r).ismDone = true := by
    intro h; unfold imageSourceModel; rw [if_pos h]; simp
  have c2 : ((imageSourceModel E y r).rooms r).rtNeeded = true → ((rayTracing E (imageSourceModel E y r) r).rooms r).rtDone = true := by
    intro h; unfold rayTracing; rw [if_pos h]; simp
  have hp : prepare E (rayTracing E (imageSourceModel E y r) r) r = rayTracing E (imageSourceModel E y r) r := by
    unfold prepare
    simp only
    have e1 : ¬((((rayTracing E (imageSourceModel E y r) r).rooms r).ismNeeded && !((rayTracing E (imageSourceModel E y r) r).rooms r).ismDone) = true) := by
      rw [b6, a6, b8]
      cases h : (y.rooms r).ismNeeded
      · simp
      · rw [c1 h]; simp
    rw [if_neg e1]
    rw [if_neg]
    rw [b7]
    cases h : ((imageSourceModel E y r).rooms r).rtNeeded
    · simp
    · rw [c2 h]; simp
  unfold computeRir
  simp only
  rw [hp, allRir_current]
  · refine ⟨_, rfl, ?_⟩
    simp only [Function.update_self]
    rw [b1, a1]
    rw [ideal_congr E (b2.trans a2) (b3.trans a3) (b4.trans a4) (b5.trans a5) (b6.trans a6) (b7.trans a7)]
  · rw [b6, b7, a6, a7]; exact hn
  · rw [b6, a6]
    intro h
    exact rt_keeps_ism E (ism_current E h)
  · rw [b7]
    exact rt_current E

/-- Everything that is needed is marked as done. -/
def Done (room : Room Mic Cfg Post V H R) : Prop := room.ismNeeded = true ∧ room.ismDone = true ∧ (room.rtNeeded = true → room.rtDone = true)

theorem prepare_done {E : Eng S Mic Cfg Post I V H R} {y : Sys S Mic Cfg Post I V H R} {r : Nat} (h : Done (y.rooms r)) : prepare E y r = y := by
  obtain ⟨h1, h2, h3⟩ := h
  unfold prepare
  simp only
  rw [if_neg (show ¬(((y.rooms r).ismNeeded && !(y.rooms r).ismDone) = true) by rw [h1, h2]; simp)]
  rw [if_neg]
  cases h : (y.rooms r).rtNeeded
  · simp
  · rw [h3 h]; simp

theorem oneRir_err {E : Eng S Mic Cfg Post I V H R} {y : Sys S Mic Cfg Post I V H R} {room : Room Mic Cfg Post V H R} {m s id : Nat} {mic : Mic}
    (h : room.ismNeeded = true) (he : ∃ e, ismPart E y room m mic s id = .error e) : ∃ e, oneRir E y room m mic s id = .error e := by
  obtain ⟨e, he⟩ := he
  unfold oneRir
  rw [h]
  cases room.rtNeeded with
  | false => exact ⟨e, he⟩
  | true => simp only [he]; exact ⟨e, rfl⟩

/-- **C39** Deviation: after a simulation, adding a source makes `compute_rir` fail. -/
theorem C39_add_source_deviation (E : Eng S Mic Cfg Post I V H R) {y : Sys S Mic Cfg Post I V H R} {r : Nat} (id : Nat) (hd : Done (y.rooms r))
    (hv : (y.rooms r).visibility.length = (y.rooms r).sources.length) (hm : (y.rooms r).mics ≠ []) :
    ∃ e, computeRir E (change y r (.addSource id)) r = .error e := by
  have hd' : Done ((change y r (.addSource id)).rooms r) := by
    unfold change Done at *
    simpa using hd
  unfold computeRir
  rw [prepare_done hd']
  simp only
  obtain ⟨mic, ms, hms⟩ := List.exists_cons_of_ne_nil hm
  have : ∃ e, allRir E (change y r (.addSource id)) ((change y r (.addSource id)).rooms r) = .error e := by
    unfold allRir
    apply mapM_err
    refine ⟨(mic, 0), ?_, ?_⟩
    · rw [List.mk_mem_zipIdx_iff_getElem?]
      simp [change, hms]
    · apply mapM_err
      refine ⟨(id, (y.rooms r).sources.length), ?_, ?_⟩
      · rw [List.mk_mem_zipIdx_iff_getElem?]
        simp [change]
      · apply oneRir_err hd'.1
        unfold ismPart
        cases (change y r (.addSource id)).cache id with
        | none => exact ⟨_, rfl⟩
        | some p =>
          obtain ⟨img, n⟩ := p
          simp only
          split
          · exact ⟨_, rfl⟩
          · have e1 : ((change y r (.addSource id)).rooms r).visibility[(y.rooms r).sources.length]? = none := by
              simp [change, hv]
            rw [e1]
            exact ⟨_, rfl⟩
  obtain ⟨e, he⟩ := this
  rw [he]
  exact ⟨e, rfl⟩

/-- **C39** Deviation: after a simulation, adding microphones makes `compute_rir` fail. -/
theorem C39_add_mic_deviation (E : Eng S Mic Cfg Post I V H R) {y : Sys S Mic Cfg Post I V H R} {r : Nat} {l : List Mic} (hl : l ≠ []) (hd : Done (y.rooms r))
    (hs : (y.rooms r).sources ≠ []) (hv : ∀ v ∈ (y.rooms r).visibility, v.2 = (y.rooms r).mics.length) :
    ∃ e, computeRir E (change y r (.addMics l)) r = .error e := by
  have hd' : Done ((change y r (.addMics l)).rooms r) := by
    unfold change Done at *
    simpa using hd
  unfold computeRir
  rw [prepare_done hd']
  simp only
  obtain ⟨mic, ms, rfl⟩ := List.exists_cons_of_ne_nil hl
  obtain ⟨id, ids, hids⟩ := List.exists_cons_of_ne_nil hs
  have : ∃ e, allRir E (change y r (.addMics (mic :: ms))) ((change y r (.addMics (mic :: ms))).rooms r) = .error e := by
    unfold allRir
    apply mapM_err
    refine ⟨(mic, (y.rooms r).mics.length), ?_, ?_⟩
    · rw [List.mk_mem_zipIdx_iff_getElem?]
      simp [change]
    · apply mapM_err
      refine ⟨(id, 0), ?_, ?_⟩
      · rw [List.mk_mem_zipIdx_iff_getElem?]
        simp [change, hids]
      · apply oneRir_err hd'.1
        unfold ismPart
        cases (change y r (.addMics (mic :: ms))).cache id with
        | none => exact ⟨_, rfl⟩
        | some p =>
          obtain ⟨img, n⟩ := p
          simp only
          split
          · exact ⟨_, rfl⟩
          · have e1 : ((change y r (.addMics (mic :: ms))).rooms r).visibility = (y.rooms r).visibility := by simp [change]
            rw [e1]
            cases h0 : (y.rooms r).visibility[0]? with
            | none => exact ⟨_, rfl⟩
            | some v =>
              obtain ⟨v1, k⟩ := v
              have := hv (v1, k) (List.mem_of_getElem? h0)
              simp only at this ⊢
              rw [if_pos (by omega)]
              exact ⟨_, rfl⟩
  obtain ⟨e, he⟩ := this
  rw [he]
  exact ⟨e, rfl⟩

/-- **C39** Deviation: after a simulation, changes of the options of engine and ray tracer have no effect: the responses are computed from the old
results. -/
theorem C39_options_deviation (E : Eng S Mic Cfg Post I V H R) {y : Sys S Mic Cfg Post I V H R} {r : Nat} (c : Cfg) (hd : Done (y.rooms r)) :
    (computeRir E (change y r (.setCfg c)) r).map (fun y' => (y'.rooms r).rir) = (computeRir E y r).map fun y' => (y'.rooms r).rir := by
  have hd' : Done ((change y r (.setCfg c)).rooms r) := by
    unfold change Done at *
    simpa using hd
  unfold computeRir
  rw [prepare_done hd, prepare_done hd']
  simp only
  have e : allRir E (change y r (.setCfg c)) ((change y r (.setCfg c)).rooms r) = allRir E y (y.rooms r) := by
    unfold allRir oneRir ismPart rtPart change
    simp
  rw [e]
  cases allRir E y (y.rooms r) with
  | error e => rfl
  | ok rir => simp [Except.map]

/-- **C39** Deviation: ray tracing switched on after a simulation with images only: the images are those of a simulation without ray tracing. -/
theorem C39_late_ray_tracing_deviation (E : Eng S Mic Cfg Post I V H R) {y : Sys S Mic Cfg Post I V H R} {r : Nat} (hi : (y.rooms r).ismNeeded = true)
    (hd : (y.rooms r).ismDone = true) (hrt : (y.rooms r).rtNeeded = false) (hrd : (y.rooms r).rtDone = false) (hc : IsmCurrent E y r) :
    ∃ y', computeRir E (change y r (.setRt true)) r = .ok y' ∧ (y'.rooms r).rir = some ((y.rooms r).mics.zipIdx.map fun mm => (y.rooms r).sources.map fun id =>
      E.add (E.asmIsm (y.rooms r).post (y.src id) mm.1 mm.2 (E.ism (y.rooms r).cfg false (y.rooms r).mics (y.src id)).1
          (E.ism (y.rooms r).cfg false (y.rooms r).mics (y.src id)).2)
        (E.asmRt (y.rooms r).post (y.src id) mm.1 (E.rt (y.rooms r).cfg true (y.rooms r).mics (y.src id) mm.2))) := by
  have hh : (y.rooms r).hybrid = false := by unfold Room.hybrid; rw [hrt]; simp
  have e0 : ∀ z : Sys S Mic Cfg Post I V H R, z = change y r (.setRt true) → z.src = y.src ∧ z.cache = y.cache ∧ (z.rooms r).sources = (y.rooms r).sources ∧
      (z.rooms r).mics = (y.rooms r).mics ∧ (z.rooms r).cfg = (y.rooms r).cfg ∧ (z.rooms r).post = (y.rooms r).post ∧ (z.rooms r).ismNeeded = true ∧
      (z.rooms r).rtNeeded = true ∧ (z.rooms r).ismDone = true ∧ (z.rooms r).rtDone = false ∧ (z.rooms r).visibility = (y.rooms r).visibility := by
    rintro z rfl
    simp [change, hi, hd, hrd]
  generalize change y r (.setRt true) = z at *
  obtain ⟨a1, a2, a3, a4, a5, a6, a7, a8, a9, a10, a11⟩ := e0 z rfl
  have hp : prepare E z r = rayTracing E z r := by
    unfold prepare
    simp only
    rw [if_neg (show ¬(((z.rooms r).ismNeeded && !(z.rooms r).ismDone) = true) by rw [a7, a9]; simp)]
    rw [if_pos (by rw [a8, a10]; rfl)]
  unfold computeRir
  rw [hp]
  simp only
  have hr := room_rt E z r
  have hcur := rt_current E (y := z) (r := r) a8
  have hvis : ((rayTracing E z r).rooms r).visibility = (y.rooms r).visibility ∧ (rayTracing E z r).cache = y.cache := by
    unfold rayTracing
    rw [if_pos a8]
    simp [a11, a2]
  generalize rayTracing E z r = w at *
  obtain ⟨b1, b2, b3, b4, b5, b6, b7, b8⟩ := hr
  have hall : allRir E w (w.rooms r) = .ok ((y.rooms r).mics.zipIdx.map fun mm => (y.rooms r).sources.map fun id =>
      E.add (E.asmIsm (y.rooms r).post (y.src id) mm.1 mm.2 (E.ism (y.rooms r).cfg false (y.rooms r).mics (y.src id)).1
          (E.ism (y.rooms r).cfg false (y.rooms r).mics (y.src id)).2)
        (E.asmRt (y.rooms r).post (y.src id) mm.1 (E.rt (y.rooms r).cfg true (y.rooms r).mics (y.src id) mm.2))) := by
    unfold allRir
    rw [b3, a4]
    apply mapM_ok
    rintro ⟨mic, m⟩ hmm
    rw [List.mk_mem_zipIdx_iff_getElem?] at hmm
    have hm : m < (y.rooms r).mics.length := by
      by_contra h
      rw [List.getElem?_eq_none (by omega)] at hmm
      cases hmm
    rw [b2, a3]
    rw [mapM_ok (g := fun si : Nat × Nat =>
      E.add (E.asmIsm (y.rooms r).post (y.src si.1) mic m (E.ism (y.rooms r).cfg false (y.rooms r).mics (y.src si.1)).1
          (E.ism (y.rooms r).cfg false (y.rooms r).mics (y.src si.1)).2)
        (E.asmRt (y.rooms r).post (y.src si.1) mic (E.rt (y.rooms r).cfg true (y.rooms r).mics (y.src si.1) m)))]
    · congr 1
      rw [show ((y.rooms r).sources.zipIdx.map fun si : Nat × Nat =>
          E.add (E.asmIsm (y.rooms r).post (y.src si.1) mic m (E.ism (y.rooms r).cfg false (y.rooms r).mics (y.src si.1)).1
            (E.ism (y.rooms r).cfg false (y.rooms r).mics (y.src si.1)).2)
          (E.asmRt (y.rooms r).post (y.src si.1) mic (E.rt (y.rooms r).cfg true (y.rooms r).mics (y.src si.1) m))) =
        (y.rooms r).sources.zipIdx.map ((fun id =>
          E.add (E.asmIsm (y.rooms r).post (y.src id) mic m (E.ism (y.rooms r).cfg false (y.rooms r).mics (y.src id)).1
            (E.ism (y.rooms r).cfg false (y.rooms r).mics (y.src id)).2)
          (E.asmRt (y.rooms r).post (y.src id) mic (E.rt (y.rooms r).cfg true (y.rooms r).mics (y.src id) m))) ∘ Prod.fst) from rfl, ← List.map_map,
        List.zipIdx_map_fst]
    · rintro ⟨id, s⟩ hsi
      rw [List.mk_mem_zipIdx_iff_getElem?] at hsi
      have hid : id ∈ (y.rooms r).sources := List.mem_of_getElem? hsi
      simp only
      unfold oneRir
      rw [b6, a7, b7, a8]
      simp only
      rw [rtPart_current hcur (by rw [b3, a4]; exact hm) (by rw [b2, a3]; exact hsi)]
      have : ismPart E w (w.rooms r) m mic s id = .ok (E.asmIsm (y.rooms r).post (y.src id) mic m (E.ism (y.rooms r).cfg false (y.rooms r).mics (y.src id)).1
          (E.ism (y.rooms r).cfg false (y.rooms r).mics (y.src id)).2) := by
        unfold ismPart
        rw [hvis.2, hc.cache id hid]
        simp only
        rw [if_neg (by omega), hvis.1, hc.vis, List.getElem?_map, hsi]
        simp only [Option.map_some]
        rw [if_neg (by omega), hh, b5, a6, b1, a1]
      rw [this]
      simp only
      rw [b1, a1, b5, a6, b4, a5, b3, a4]
      have : (w.rooms r).hybrid = true := by unfold Room.hybrid; rw [b6, a7, b7, a8]; rfl
      rw [this]
  rw [hall]
  refine ⟨_, rfl, ?_⟩
  simp

/-- **C39** Deviation: `simulate` without `recompute_rir` uses the responses that are there, whatever has been changed in the room since. -/
theorem C39_simulate_deviation (E : Eng S Mic Cfg Post I V H R) {y : Sys S Mic Cfg Post I V H R} {r : Nat} {row : List R} {rows : List (List R)}
    (h : (y.rooms r).rir = some (row :: rows)) (cs : List (Change Mic Cfg Post)) :
    ∃ y', simulateRir E (cs.foldl (fun y c => change y r c) y) r false = .ok y' ∧ (y'.rooms r).rir = some (row :: rows) := by
  have : ∀ (cs : List (Change Mic Cfg Post)) (y : Sys S Mic Cfg Post I V H R), (y.rooms r).rir = some (row :: rows) →
      ((cs.foldl (fun y c => change y r c) y).rooms r).rir = some (row :: rows) := by
    intro cs
    induction cs with
    | nil => intro y h; exact h
    | cons c cs ih =>
      intro y h
      rw [List.foldl_cons]
      apply ih
      unfold change
      simp only [Function.update_self]
      cases c <;> exact h
  have h' := this cs y h
  refine ⟨_, ?_, h'⟩
  unfold simulateRir
  rw [h']
  rfl

/-- **C39** Deviation: the images are kept in the source. If another room simulates the same source, the responses of the first room are made of its own
visibility and the images of the other room. -/
theorem C39_shared_source_deviation (E : Eng S Mic Cfg Post I V H R) {y : Sys S Mic Cfg Post I V H R} {a b id : Nat} (hab : a ≠ b)
    (hda : Done (y.rooms a)) (hra : (y.rooms a).rtNeeded = false) (hca : IsmCurrent E y a) (hsa : (y.rooms a).sources = [id])
    (hib : (y.rooms b).ismNeeded = true) (hsb : (y.rooms b).sources = [id]) (hm : (y.rooms b).mics.length = (y.rooms a).mics.length) :
    ∃ y', computeRir E (imageSourceModel E y b) a = .ok y' ∧ (y'.rooms a).rir = some ((y.rooms a).mics.zipIdx.map fun mm =>
      [E.asmIsm (y.rooms a).post (y.src id) mm.1 mm.2 (E.ism (y.rooms b).cfg (y.rooms b).hybrid (y.rooms b).mics (y.src id)).1
        (E.ism (y.rooms a).cfg (y.rooms a).hybrid (y.rooms a).mics (y.src id)).2]) := by
  have hroom : (imageSourceModel E y b).rooms a = y.rooms a := by
    unfold imageSourceModel
    rw [if_pos hib]
    simp [Function.update_of_ne hab]
  have hcache : (imageSourceModel E y b).cache id = some ((E.ism (y.rooms b).cfg (y.rooms b).hybrid (y.rooms b).mics (y.src id)).1, (y.rooms b).mics.length) := by
    unfold imageSourceModel
    rw [if_pos hib, hsb]
    simp
  have hsrc : (imageSourceModel E y b).src = y.src := (room_ism E y b).1
  unfold computeRir
  rw [prepare_done (by rw [hroom]; exact hda)]
  simp only
  rw [hroom]
  have : allRir E (imageSourceModel E y b) (y.rooms a) = .ok ((y.rooms a).mics.zipIdx.map fun mm =>
      [E.asmIsm (y.rooms a).post (y.src id) mm.1 mm.2 (E.ism (y.rooms b).cfg (y.rooms b).hybrid (y.rooms b).mics (y.src id)).1
        (E.ism (y.rooms a).cfg (y.rooms a).hybrid (y.rooms a).mics (y.src id)).2]) := by
    unfold allRir
    apply mapM_ok
    rintro ⟨mic, m⟩ hmm
    rw [List.mk_mem_zipIdx_iff_getElem?] at hmm
    have hml : m < (y.rooms a).mics.length := by
      by_contra h
      rw [List.getElem?_eq_none (by omega)] at hmm
      cases hmm
    rw [hsa]
    have h1 : oneRir E (imageSourceModel E y b) (y.rooms a) m mic 0 id = .ok (E.asmIsm (y.rooms a).post (y.src id) mic m
        (E.ism (y.rooms b).cfg (y.rooms b).hybrid (y.rooms b).mics (y.src id)).1 (E.ism (y.rooms a).cfg (y.rooms a).hybrid (y.rooms a).mics (y.src id)).2) := by
      unfold oneRir
      rw [hda.1, hra]
      simp only
      unfold ismPart
      rw [hcache]
      simp only
      rw [if_neg (by omega), hca.vis, hsa]
      simp only [List.map_cons, List.map_nil, List.getElem?_cons_zero]
      rw [if_neg (by omega), hsrc]
    simp only [List.zipIdx_cons, List.zipIdx_nil, List.mapM_cons, List.mapM_nil]
    rw [h1]
    rfl
  rw [this]
  refine ⟨_, rfl, ?_⟩
  simp

/-! ## Non-vacuity -/

/-- A room with one source and one microphone, before and after `compute_rir`. -/
def exEng : Eng Nat Nat Nat Nat Nat Nat Nat Nat where
  ism := fun c _ _ s => (c + s, 1)
  rt := fun c _ _ s m => c + s + m
  asmIsm := fun p s m k i v => p + s + m + k + i + v
  asmRt := fun p s m h => p + s + m + h
  add := fun a b => a + b

def exSys : Sys Nat Nat Nat Nat Nat Nat Nat Nat where
  src := fun id => 10 * id
  cache := fun _ => none
  rooms := fun _ => ⟨[4], [7], 1, 0, true, false, false, false, [], [], none⟩

example : ∃ y', computeRir exEng exSys 0 = .ok y' ∧ (y'.rooms 0).rir = some [[89]] ∧ Done (y'.rooms 0) ∧ IsmCurrent exEng y' 0 ∧
    (y'.rooms 0).visibility.length = (y'.rooms 0).sources.length := by
  refine ⟨_, rfl, rfl, ⟨rfl, rfl, by intro h; cases h⟩, ⟨?_, rfl⟩, rfl⟩
  intro id hid
  have : id = 4 := by simpa [exSys, prepare, imageSourceModel] using hid
  subst this
  rfl

end Verif.RirState
