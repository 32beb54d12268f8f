import Verif.Timit.Model
import Mathlib.Data.List.TakeWhile
import Mathlib.Data.List.Forall2
import Mathlib.Tactic.Ring
import Mathlib.Tactic.Linarith
import Mathlib.Tactic.LinearCombination

namespace Verif.Timit

open Py

/-! ## Specification -/

/-- A line that is read as the mark `m`. -/
def Reads (int : String → Except Err Int) (l : Line) (m : Mark) : Prop := ∃ s0 s1, l = [s0, s1, m.name] ∧ int s0 = .ok m.b ∧ int s1 = .ok m.e

/-- A phonem relative to the beginning of a word. -/
def shift (t : Int) (m : Mark) : Mark := ⟨m.b - t, m.e - t, m.name⟩

/-- The little endian bytes of a number in two's complement. -/
def encode : Nat → Int → List (Fin 256)
  | 0, _ => []
  | n + 1, x => ⟨(x % 256).toNat, by omega⟩ :: encode n (x / 256)

/-! ## Lemmas on the transcriptions -/

theorem ok_bind {α β : Type} (a : α) (f : α → Except Err β) : (Except.ok a >>= f) = f a := rfl

theorem bind_ok {α β : Type} {x : Except Err α} {f : α → Except Err β} {b : β} (h : (x >>= f) = .ok b) : ∃ a, x = .ok a ∧ f a = .ok b := by
  cases x with
  | error e => cases h
  | ok a => exact ⟨a, rfl, h⟩

theorem takePhonems_ok {int : String → Except Err Int} (wb we : Int) {ls : List Line} {ms : List Mark} (h : List.Forall₂ (Reads int) ls ms) :
    ∃ r, takePhonems int wb we ls = .ok (ms.takeWhile (fun m => m.e ≤ we), ((ms.takeWhile fun m => m.e ≤ we).filter fun m => wb ≤ m.b).map (shift wb), r) ∧
      List.Forall₂ (Reads int) r (ms.dropWhile fun m => m.e ≤ we) := by
  induction h with
  | nil => exact ⟨[], rfl, .nil⟩
  | @cons u m ls ms hu hls ih =>
    obtain ⟨r, hr, hf⟩ := ih
    have hu' := hu
    obtain ⟨s0, s1, rfl, h0, h1⟩ := hu
    unfold takePhonems
    have f0 : field [s0, s1, m.name] 0 = .ok s0 := rfl
    have f1 : field [s0, s1, m.name] 1 = .ok s1 := rfl
    have f2 : field [s0, s1, m.name] 2 = .ok m.name := rfl
    rw [f0, ok_bind, h0, ok_bind, f1, ok_bind, h1, ok_bind]
    by_cases he : we < m.e
    · rw [if_pos he, List.takeWhile_cons_of_neg (by simp; omega), List.dropWhile_cons_of_neg (by simp; omega)]
      exact ⟨_, rfl, .cons hu' hls⟩
    · rw [if_neg he, f2, ok_bind, hr, ok_bind, List.takeWhile_cons_of_pos (by simp; omega), List.dropWhile_cons_of_pos (by simp; omega)]
      refine ⟨r, ?_, hf⟩
      by_cases hb : m.b < wb
      · rw [if_pos hb, List.filter_cons_of_neg (by simp; omega)]
        rfl
      · rw [if_neg hb, List.filter_cons_of_pos (by simp; omega)]
        rfl

theorem rest_ok {int : String → Except Err Int} {ls : List Line} {ms : List Mark} (h : List.Forall₂ (Reads int) ls ms) : rest int ls = .ok ms := by
  induction h with
  | nil => rfl
  | @cons u m ls ms hu _ ih =>
    obtain ⟨s0, s1, rfl, h0, h1⟩ := hu
    unfold rest
    rw [if_pos (show [s0, s1, m.name].length = 3 from rfl)]
    have f0 : field [s0, s1, m.name] 0 = .ok s0 := rfl
    have f1 : field [s0, s1, m.name] 1 = .ok s1 := rfl
    have f2 : field [s0, s1, m.name] 2 = .ok m.name := rfl
    rw [f0, ok_bind, h0, ok_bind, f1, ok_bind, h1, ok_bind, f2, ok_bind, ih]
    rfl

theorem takeWords_phonems {int : String → Except Err Int} (wrd : List Line) : ∀ {ls : List Line} {ms : List Mark}, List.Forall₂ (Reads int) ls ms → ∀ {r}, takeWords int wrd ls = .ok r →
    ∃ ms', ms = r.2.1 ++ ms' ∧ List.Forall₂ (Reads int) r.2.2 ms' := by
  induction wrd with
  | nil =>
    intro ls ms h r hr
    cases hr
    exact ⟨ms, rfl, h⟩
  | cons t ts ih =>
    intro ls ms h r hr
    unfold takeWords at hr
    split at hr
    · obtain ⟨s0, _, hr⟩ := bind_ok hr
      obtain ⟨b, _, hr⟩ := bind_ok hr
      obtain ⟨s1, _, hr⟩ := bind_ok hr
      obtain ⟨e, _, hr⟩ := bind_ok hr
      obtain ⟨q, hq, hf⟩ := takePhonems_ok b e h
      rw [hq, ok_bind] at hr
      obtain ⟨name, _, hr⟩ := bind_ok hr
      obtain ⟨r', hr', hr⟩ := bind_ok hr
      cases hr
      obtain ⟨ms', h1, h2⟩ := ih hf hr'
      refine ⟨ms', ?_, h2⟩
      simp only
      rw [List.append_assoc, ← h1, List.takeWhile_append_dropWhile]
    · exact ih h hr

/-- What is left has later ends. -/
theorem late_of_dropWhile (we : Int) {ms : List Mark} (h : ms.Pairwise fun a b => a.e ≤ b.e) : ∀ m ∈ ms.dropWhile (fun m => m.e ≤ we), we < m.e := by
  induction ms with
  | nil => simp
  | cons a ms ih =>
    rw [List.pairwise_cons] at h
    by_cases ha : a.e ≤ we
    · rw [List.dropWhile_cons_of_pos (by simpa using ha)]
      exact ih h.2
    · rw [List.dropWhile_cons_of_neg (by simpa using ha)]
      intro m hm
      rcases List.mem_cons.mp hm with rfl | hm
      · omega
      · have := h.1 m hm
        omega

theorem early_of_takeWhile (we : Int) {ms : List Mark} : ∀ m ∈ ms.takeWhile (fun m => m.e ≤ we), m.e ≤ we := by
  intro m hm
  simpa using List.mem_takeWhile_imp hm

theorem takeWords_ok {int : String → Except Err Int} {wrd : List Line} {ws : List Mark} (hw : List.Forall₂ (Reads int) wrd ws) (hsep : ws.Pairwise fun a b => a.e ≤ b.b) :
    ∀ {ls : List Line} {ms : List Mark}, List.Forall₂ (Reads int) ls ms → (ms.Pairwise fun a b => a.e ≤ b.e) → (∀ m ∈ ms, m.b < m.e) →
      ∃ a r, takeWords int wrd ls = .ok (ws.map fun w => ⟨w.name, w.b, w.e, (ms.filter fun m => w.b ≤ m.b ∧ m.e ≤ w.e).map (shift w.b)⟩, a, r) := by
  induction hw with
  | nil =>
    intro ls ms _ _ _
    exact ⟨[], ls, rfl⟩
  | @cons t w wrd ws ht _ ih =>
    intro ls ms h hord hpos
    rw [List.pairwise_cons] at hsep
    obtain ⟨s0, s1, rfl, h0, h1⟩ := ht
    have f0 : field [s0, s1, w.name] 0 = .ok s0 := rfl
    have f1 : field [s0, s1, w.name] 1 = .ok s1 := rfl
    have f2 : field [s0, s1, w.name] 2 = .ok w.name := rfl
    obtain ⟨q, hq, hf⟩ := takePhonems_ok w.b w.e h
    set late := ms.dropWhile fun m => m.e ≤ w.e with hlate
    set early := ms.takeWhile fun m => m.e ≤ w.e with hearly
    have happ : early ++ late = ms := List.takeWhile_append_dropWhile
    obtain ⟨a, r, hr⟩ := ih hsep.2 hf (hord.sublist (List.dropWhile_sublist _)) fun m hm => hpos m ((List.dropWhile_sublist _).subset hm)
    refine ⟨early ++ a, r, ?_⟩
    unfold takeWords
    rw [if_pos (show [s0, s1, w.name].length = 3 from rfl), f0, ok_bind, h0, ok_bind, f1, ok_bind, h1, ok_bind, hq, ok_bind, f2, ok_bind]
    simp only
    rw [hr, ok_bind]
    change Except.ok _ = Except.ok _
    congr 2
    rw [List.map_cons]
    have e1 : ms.filter (fun m => w.b ≤ m.b ∧ m.e ≤ w.e) = early.filter fun m => w.b ≤ m.b := by
      rw [← happ, List.filter_append, (List.filter_eq_nil_iff (l := late)).mpr, List.append_nil]
      · refine List.filter_congr fun m hm => ?_
        have := early_of_takeWhile w.e m hm
        simp [this]
      · intro m hm
        have := late_of_dropWhile w.e hord m hm
        simp
        omega
    rw [e1]
    congr 1
    refine List.map_congr_left fun w' hw' => ?_
    congr 2
    rw [← happ, List.filter_append, (List.filter_eq_nil_iff (l := early)).mpr, List.nil_append]
    intro m hm
    have h2 := early_of_takeWhile w.e m hm
    have h3 := hsep.1 w' hw'
    have h4 := hpos m (by rw [← happ]; exact List.mem_append_left _ hm)
    simp
    omega

/-! ## Theorems on the transcriptions -/

/-- The phonems of the sentence are those of the file, each once and in order, whatever the words are. -/
theorem C123_phonems {int : String → Except Err Int} {wrd phn : List Line} {ms : List Mark} (h : List.Forall₂ (Reads int) phn ms) {r : List Word × List Mark} (hr : sentence int wrd phn = .ok r) :
    r.2 = ms := by
  unfold sentence at hr
  obtain ⟨a, ha, hr⟩ := bind_ok hr
  obtain ⟨ms', h1, h2⟩ := takeWords_phonems wrd h ha
  rw [rest_ok h2] at hr
  cases hr
  exact h1.symm

/-- If the words follow each other without overlap and the phonems are in order and not empty, then every word has exactly the phonems between its boundaries, relative to its beginning. -/
theorem C123_words {int : String → Except Err Int} {wrd phn : List Line} {ws ms : List Mark} (hw : List.Forall₂ (Reads int) wrd ws) (hp : List.Forall₂ (Reads int) phn ms)
    (hsep : ws.Pairwise fun a b => a.e ≤ b.b) (hord : ms.Pairwise fun a b => a.e ≤ b.e) (hpos : ∀ m ∈ ms, m.b < m.e) :
    sentence int wrd phn = .ok (ws.map fun w => ⟨w.name, w.b, w.e, (ms.filter fun m => w.b ≤ m.b ∧ m.e ≤ w.e).map (shift w.b)⟩, ms) := by
  obtain ⟨a, r, h⟩ := takeWords_ok hw hsep hp hord hpos
  obtain ⟨ms', h1, h2⟩ := takeWords_phonems wrd hp h
  unfold sentence
  rw [h, ok_bind, rest_ok h2]
  change Except.ok _ = Except.ok _
  rw [h1]

theorem slice_nat {α : Type} (l : List α) (a b : Nat) : slice l (some (a : Int)) (some (b : Int)) = (l.take b).drop a := by
  unfold slice sliceStart sliceStop clampIdx
  simp only [if_neg (show ¬ ((a : Int) < 0) by omega), if_neg (show ¬ ((b : Int) < 0) by omega), Int.toNat_natCast]
  rw [List.drop_take]
  by_cases ha : a ≤ l.length
  · rw [Nat.min_eq_left ha]
    by_cases hb : b ≤ l.length
    · rw [Nat.min_eq_left hb]
    · rw [Nat.min_eq_right (by omega), List.take_of_length_le (by rw [List.length_drop]), List.take_of_length_le (by rw [List.length_drop]; omega)]
  · rw [List.drop_of_length_le (by omega), List.drop_of_length_le (by omega)]
    simp

/-- The samples of a phonem in the samples of its word are those in the sentence. -/
theorem C123_samples {α : Type} (w : Word) (m : Mark) (data : List α) (hw : 0 ≤ w.b) (h0 : w.b ≤ m.b) (h1 : m.b ≤ m.e) (h2 : m.e ≤ w.e) :
    slice (w.samples data) (some (shift w.b m).b) (some (shift w.b m).e) = slice data (some m.b) (some m.e) := by
  obtain ⟨wb, hwb⟩ := Int.eq_ofNat_of_zero_le hw
  obtain ⟨we, hwe⟩ := Int.eq_ofNat_of_zero_le (show 0 ≤ w.e by omega)
  obtain ⟨b, hb⟩ := Int.eq_ofNat_of_zero_le (show 0 ≤ m.b by omega)
  obtain ⟨e, he⟩ := Int.eq_ofNat_of_zero_le (show 0 ≤ m.e by omega)
  unfold Word.samples shift
  simp only
  rw [hwb, hwe, hb, he, slice_nat, slice_nat, show ((b : Int) - (wb : Int)) = ((b - wb : Nat) : Int) by omega,
    show ((e : Int) - (wb : Int)) = ((e - wb : Nat) : Int) by omega, slice_nat, List.take_drop, List.take_take, List.drop_drop]
  rw [show wb + (e - wb) = e by omega, show wb + (b - wb) = b by omega, Nat.min_eq_left (by omega)]

/-- A phonem is given to the first word that ends after it: where words overlap, as they do in the corpus, the second word lacks the phonems that end within the first. -/
theorem C123_overlap_deviation {int : String → Except Err Int} {l1 l2 : Line} {w1 w2 : Mark} (h1 : Reads int l1 w1) (h2 : Reads int l2 w2) {phn : List Line} {ms : List Mark}
    (hp : List.Forall₂ (Reads int) phn ms) (hord : ms.Pairwise fun a b => a.e ≤ b.e) :
    ∃ p1 p2, sentence int [l1, l2] phn = .ok ([⟨w1.name, w1.b, w1.e, p1⟩, ⟨w2.name, w2.b, w2.e, p2⟩], ms) ∧ ∀ m ∈ p2, w1.e < m.e + w2.b := by
  obtain ⟨s0, s1, rfl, a0, a1⟩ := h1
  obtain ⟨t0, t1, rfl, b0, b1⟩ := h2
  obtain ⟨q1, hq1, hf1⟩ := takePhonems_ok w1.b w1.e hp
  obtain ⟨q2, hq2, hf2⟩ := takePhonems_ok w2.b w2.e hf1
  have f : ∀ x y z : String, field [x, y, z] 0 = .ok x ∧ field [x, y, z] 1 = .ok y ∧ field [x, y, z] 2 = .ok z := fun x y z => ⟨rfl, rfl, rfl⟩
  refine ⟨((ms.takeWhile fun m => m.e ≤ w1.e).filter fun m => w1.b ≤ m.b).map (shift w1.b),
    (((ms.dropWhile fun m => m.e ≤ w1.e).takeWhile fun m => m.e ≤ w2.e).filter fun m => w2.b ≤ m.b).map (shift w2.b), ?_, ?_⟩
  · unfold sentence takeWords
    rw [if_pos (show List.length [s0, s1, _] = 3 from rfl), (f _ _ _).1, ok_bind, a0, ok_bind, (f _ _ _).2.1, ok_bind, a1, ok_bind, hq1, ok_bind, (f _ _ _).2.2, ok_bind]
    unfold takeWords
    rw [if_pos (show List.length [t0, t1, _] = 3 from rfl), (f _ _ _).1, ok_bind, b0, ok_bind, (f _ _ _).2.1, ok_bind, b1, ok_bind, hq2, ok_bind, (f _ _ _).2.2, ok_bind]
    unfold takeWords
    simp only [ok_bind, pure, Except.pure]
    rw [rest_ok hf2, ok_bind]
    simp only [List.append_nil, List.append_assoc, List.takeWhile_append_dropWhile]
  · intro m hm
    obtain ⟨m', hm', rfl⟩ := List.mem_map.mp hm
    have h3 := List.takeWhile_prefix (fun m : Mark => decide (m.e ≤ w2.e)) |>.subset (List.mem_filter.mp hm').1
    have := late_of_dropWhile w1.e hord m' h3
    unfold shift
    simp only
    omega

/-- A line without fields among the phonems of the words is an exception, after the last word it is ignored. -/
theorem C123_blank_deviation {int : String → Except Err Int} {l : Line} {w : Mark} (h : Reads int l w) (wrd phn : List Line) :
    sentence int (l :: wrd) ([] :: phn) = .error .indexError ∧ sentence int [] ([] :: phn) = sentence int [] phn := by
  obtain ⟨s0, s1, rfl, a0, a1⟩ := h
  constructor
  · unfold sentence takeWords
    have f : ∀ x y z : String, field [x, y, z] 0 = .ok x ∧ field [x, y, z] 1 = .ok y ∧ field [x, y, z] 2 = .ok z := fun x y z => ⟨rfl, rfl, rfl⟩
    rw [if_pos (show List.length [s0, s1, _] = 3 from rfl), (f _ _ _).1, ok_bind, a0, ok_bind, (f _ _ _).2.1, ok_bind, a1, ok_bind]
    rfl
  · rfl

/-! ## NIST files -/

theorem unsigned_encode (n : Nat) : ∀ x : Int, unsigned (encode n x) = x % 256 ^ n := by
  induction n with
  | zero =>
    intro x
    simp [encode, unsigned]
  | succ n ih =>
    intro x
    unfold encode unsigned
    rw [ih]
    simp only
    have hp : (0 : Int) < 256 ^ n := by positivity
    have e1 : x = 256 * (x / 256) + x % 256 := by omega
    have e2 := Int.mul_ediv_add_emod (x / 256) (256 ^ n)
    have h1 := Int.emod_nonneg (x / 256) hp.ne'
    have h2 := Int.emod_lt_of_pos (x / 256) hp
    set y := x / 256 % 256 ^ n
    set d := x / 256 / 256 ^ n
    have e3 : x = (((x % 256).toNat : Int) + 256 * y) + 256 ^ (n + 1) * d := by
      rw [pow_succ, Int.toNat_of_nonneg (by omega)]
      linear_combination e1 - 256 * e2
    have e4 := congrArg (· % (256 : Int) ^ (n + 1)) e3
    beta_reduce at e4
    rw [Int.add_mul_emod_self_left, Int.emod_eq_of_lt (a := ((x % 256).toNat : Int) + 256 * y) (by omega) (by rw [pow_succ]; omega)] at e4
    exact e4.symm

theorem encode_length (n : Nat) (x : Int) : (encode n x).length = n := by
  induction n generalizing x with
  | zero => rfl
  | succ n ih => simp [encode, ih]

theorem signed_encode (n : Nat) {x : Int} (h1 : -256 ^ n ≤ 2 * x) (h2 : 2 * x < 256 ^ n) : signed (encode n x) = x := by
  unfold signed
  rw [unsigned_encode, encode_length]
  have hp : (0 : Int) < 256 ^ n := by positivity
  by_cases hx : 0 ≤ x
  · rw [Int.emod_eq_of_lt hx (by omega), if_pos h2]
  · have e : x % 256 ^ n = x + 256 ^ n := by
      rw [← Int.add_emod_right, Int.emod_eq_of_lt (by omega) (by omega)]
    rw [e, if_neg (by omega)]
    omega

theorem pieces_flatten {α : Type} {n : Nat} (hn : 0 < n) (ls : List (List α)) (hl : ∀ l ∈ ls, l.length = n) : ∀ fuel, ls.length ≤ fuel → pieces n fuel ls.flatten = ls := by
  induction ls with
  | nil =>
    intro fuel _
    cases fuel <;> rfl
  | cons a ls ih =>
    intro fuel hf
    cases fuel with
    | zero => simp at hf
    | succ fuel =>
      have ha := hl a (by simp)
      rw [List.flatten_cons]
      have hne : a ++ ls.flatten ≠ [] := by
        intro e
        have := congrArg List.length e
        simp at this
        rw [this.1] at ha
        simp at ha
        omega
      obtain ⟨c, cs, hc⟩ := List.exists_cons_of_ne_nil hne
      rw [hc]
      unfold pieces
      rw [← hc, ← ha, List.take_left, List.drop_left, ha, ih (fun l hl' => hl l (List.mem_cons_of_mem _ hl')) fuel (by simpa using hf)]

theorem flatten_length {α : Type} {n : Nat} (ls : List (List α)) (hl : ∀ l ∈ ls, l.length = n) : ls.flatten.length = n * ls.length := by
  induction ls with
  | nil => rfl
  | cons a ls ih =>
    rw [List.flatten_cons, List.length_append, hl a (by simp), ih fun l h => hl l (List.mem_cons_of_mem _ h), List.length_cons]
    ring

/-- Files with little endian samples are read back: one channel. -/
theorem C123_mono {int : String → Except Err Int} {lines : List Line} {d : List (String × Val)} {nch fs : Int} {n : Nat} (hd : header int lines [] = .ok d) (hc : number d "channel_count" = .ok nch)
    (hf : number d "sample_rate" = .ok fs) (hb : number d "sample_n_bytes" = .ok (n : Int)) (hn : n = 2 ∨ n = 4) (h1 : nch ≤ 1) {s : List Int} (hs : ∀ x ∈ s, -256 ^ n ≤ 2 * x ∧ 2 * x < 256 ^ n) :
    ∃ r, readNist int lines (s.map (encode n)).flatten = .ok (fs, r) ∧ r = .mono s := by
  have hl : ∀ l ∈ s.map (encode n), l.length = n := by
    intro l hl
    obtain ⟨x, _, rfl⟩ := List.mem_map.mp hl
    exact encode_length n x
  have hlen := flatten_length _ hl
  have hpc := pieces_flatten (n := n) (by omega) _ hl ((s.map (encode n)).flatten.length) (by rw [hlen]; exact Nat.le_mul_of_pos_left _ (by omega))
  have hval : (s.map (encode n)).map signed = s := by
    rw [List.map_map]
    conv_rhs => rw [← List.map_id s]
    exact List.map_congr_left fun x hx => signed_encode n (hs x hx).1 (hs x hx).2
  unfold readNist
  rw [hd, ok_bind, hc, ok_bind, hf, ok_bind, hb, ok_bind, if_pos (by omega), Int.toNat_natCast, if_neg (by rw [hlen]; simp)]
  simp only
  rw [hpc, hval, if_neg (by omega)]
  exact ⟨_, rfl, rfl⟩

/-- Several channels: one row for every instant. -/
theorem C123_multi {int : String → Except Err Int} {lines : List Line} {d : List (String × Val)} {nch : Nat} {fs : Int} {n : Nat} (hd : header int lines [] = .ok d)
    (hc : number d "channel_count" = .ok (nch : Int)) (hf : number d "sample_rate" = .ok fs) (hb : number d "sample_n_bytes" = .ok (n : Int)) (hn : n = 2 ∨ n = 4) (h1 : 1 < nch) {s : List (List Int)}
    (hrow : ∀ l ∈ s, l.length = nch) (hs : ∀ l ∈ s, ∀ x ∈ l, -256 ^ n ≤ 2 * x ∧ 2 * x < 256 ^ n) : readNist int lines (s.flatten.map (encode n)).flatten = .ok (fs, .multi s) := by
  have hl : ∀ l ∈ s.flatten.map (encode n), l.length = n := by
    intro l hl
    obtain ⟨x, _, rfl⟩ := List.mem_map.mp hl
    exact encode_length n x
  have hlen := flatten_length _ hl
  have hpc := pieces_flatten (n := n) (by omega) _ hl ((s.flatten.map (encode n)).flatten.length) (by rw [hlen]; exact Nat.le_mul_of_pos_left _ (by omega))
  have hval : (s.flatten.map (encode n)).map signed = s.flatten := by
    rw [List.map_map]
    conv_rhs => rw [← List.map_id s.flatten]
    refine List.map_congr_left fun x hx => ?_
    obtain ⟨l, hl, hx⟩ := List.mem_flatten.mp hx
    exact signed_encode n (hs l hl x hx).1 (hs l hl x hx).2
  have hlen2 := flatten_length s hrow
  unfold readNist
  rw [hd, ok_bind, hc, ok_bind, hf, ok_bind, hb, ok_bind, if_pos (by omega), Int.toNat_natCast, if_neg (by rw [hlen]; simp)]
  simp only
  rw [hpc, hval, if_pos (by omega), Int.toNat_natCast, if_neg (by rw [hlen2]; simp), pieces_flatten (by omega) s hrow _ (by rw [hlen2]; exact Nat.le_mul_of_pos_left _ (by omega))]
  rfl

theorem header_append (int : String → Except Err Int) (ls : List Line) : ∀ d d0, header int ls (d ++ d0) = (header int ls d).map (· ++ d0) := by
  induction ls with
  | nil => intro d d0; rfl
  | cons l ls ih =>
    intro d d0
    match l with
    | [key, ty, v] =>
      unfold header
      rcases ty.toList[1]? with _ | c
      · rfl
      · split
        · rfl
        · cases int v with
          | error e => rfl
          | ok i => exact ih ((key, .int i) :: d) d0
        · exact ih ((key, .str v) :: d) d0
        · exact ih ((key, .real v) :: d) d0
        · rfl
    | [] => exact ih d d0
    | [_] => exact ih d d0
    | [_, _] => exact ih d d0
    | _ :: _ :: _ :: _ :: _ => exact ih d d0

/-- The order of the bytes that the header announces is ignored: files with the most significant byte first are read with exchanged bytes. -/
theorem C123_byteorder_deviation (int : String → Except Err Int) (lines : List Line) (v : String) (data : List (Fin 256)) :
    readNist int (["sample_byte_format", "-s2", v] :: lines) data = readNist int lines data := by
  have h : header int (["sample_byte_format", "-s2", v] :: lines) [] = (header int lines []).map (· ++ [("sample_byte_format", .str v)]) := by
    rw [← header_append]
    rfl
  unfold readNist
  rw [h]
  cases header int lines [] with
  | error e => rfl
  | ok d =>
    have hk : ∀ key, key ≠ "sample_byte_format" → number (d ++ [("sample_byte_format", .str v)]) key = number d key := by
      intro key hkey
      unfold number
      rw [List.lookup_append]
      have : List.lookup key [("sample_byte_format", Val.str v)] = none := by
        unfold List.lookup
        rw [beq_eq_false_iff_ne.mpr hkey]
        rfl
      rw [this, Option.or_none]
    change (do let nch ← number (d ++ [("sample_byte_format", Val.str v)]) "channel_count"; _) = _
    simp only [hk "channel_count" (by decide), hk "sample_rate" (by decide), hk "sample_n_bytes" (by decide), ok_bind]

/-! ## The corpus -/

/-- The sentences that are read are those that meet all restrictions. -/
theorem C123_selection (sel : Select) (tree : List (List Char × List Speaker)) (d s f : List Char) : (d, s, f) ∈ paths sel tree ↔
    (∃ sp ss, (d, ss) ∈ tree ∧ sp ∈ ss ∧ sp.name = s ∧ (f, ".WAV".toList) ∈ sp.files) ∧ (∀ l, sel.dialects = some l → d ∈ l) ∧ (∀ c, sel.sex = some c → s.head? = some c) ∧
      (∀ l, sel.speakers = some l → s ∈ l) ∧ (∀ l, sel.sentences = some l → f ∈ l) := by
  have hal : ∀ (x : Option (List (List Char))) v, allowed x v = true ↔ ∀ l, x = some l → v ∈ l := by
    intro x v
    cases x <;> simp [allowed]
  have hsex : ∀ (x : Option Char) (v : List Char), sexOk x v = true ↔ ∀ c, x = some c → v.head? = some c := by
    intro x v
    cases x <;> simp [sexOk]
  rw [← hal, ← hal, ← hal, ← hsex]
  unfold paths
  rw [List.mem_flatMap]
  constructor
  · rintro ⟨⟨d', ss⟩, hd, h⟩
    simp only at h
    split at h
    · rename_i h1
      obtain ⟨sp, hsp, h⟩ := List.mem_flatMap.mp h
      split at h
      · simp at h
      · rename_i h2
        split at h
        · simp at h
        · rename_i h3
          obtain ⟨⟨f', ext⟩, hf, h⟩ := List.mem_filterMap.mp h
          simp only at h
          split at h
          · rename_i h4
            cases h
            refine ⟨⟨sp, ss, hd, hsp, rfl, ?_⟩, h1, by simpa using h2, by simpa using h3, h4.2⟩
            rw [← h4.1]
            exact hf
          · cases h
    · simp at h
  · rintro ⟨⟨sp, ss, hd, hsp, rfl, hf⟩, h1, h2, h3, h4⟩
    refine ⟨(d, ss), hd, ?_⟩
    simp only [h1, if_true]
    refine List.mem_flatMap.mpr ⟨sp, hsp, ?_⟩
    rw [if_neg (by simpa using h2), if_neg (by simpa using h3)]
    exact List.mem_filterMap.mpr ⟨_, hf, by rw [if_pos ⟨rfl, h4⟩]⟩

/-- The words are collected by spelling: the state after the words `done`. -/
def Collected {W : Type} (spelling : W → String) (c : List (String × List W)) (done : List W) : Prop :=
  (c.map (·.1)).Nodup ∧ (∀ p ∈ c, p.2 ≠ [] ∧ p.2 = done.filter fun w => spelling w = p.1) ∧ ∀ w ∈ done, spelling w ∈ c.map (·.1)

theorem addWord_collected {W : Type} {spelling : W → String} {c : List (String × List W)} {done : List W} (h : Collected spelling c done) (w : W) :
    Collected spelling (addWord spelling c w) (done ++ [w]) := by
  obtain ⟨h1, h2, h3⟩ := h
  unfold addWord
  by_cases hk : c.any (·.1 = spelling w) = true
  · rw [if_pos hk]
    have hkeys : (c.map fun p => if p.1 = spelling w then (p.1, p.2 ++ [w]) else p).map (·.1) = c.map (·.1) := by
      rw [List.map_map]
      refine List.map_congr_left fun p _ => ?_
      simp only [Function.comp]
      split <;> rfl
    refine ⟨by rw [hkeys]; exact h1, ?_, ?_⟩
    · intro p hp
      obtain ⟨q, hq, rfl⟩ := List.mem_map.mp hp
      obtain ⟨g1, g2⟩ := h2 q hq
      by_cases e : q.1 = spelling w
      · rw [if_pos e]
        simp only
        refine ⟨by simp, ?_⟩
        rw [List.filter_append, ← g2]
        simp [e]
      · rw [if_neg e]
        refine ⟨g1, ?_⟩
        rw [List.filter_append, ← g2]
        simp [Ne.symm e]
    · intro x hx
      rw [hkeys]
      rcases List.mem_append.mp hx with hx | hx
      · exact h3 x hx
      · rw [List.mem_singleton.mp hx]
        obtain ⟨q, hq, e⟩ := List.any_eq_true.mp hk
        exact List.mem_map.mpr ⟨q, hq, by simpa using e⟩
  · rw [if_neg hk]
    have hnew : spelling w ∉ c.map (·.1) := by
      intro hm
      obtain ⟨q, hq, e⟩ := List.mem_map.mp hm
      exact hk (List.any_eq_true.mpr ⟨q, hq, by simpa using e⟩)
    refine ⟨?_, ?_, ?_⟩
    · rw [List.map_append]
      simp only [List.map_cons, List.map_nil]
      rw [List.nodup_append]
      exact ⟨h1, by simp, fun a ha b hb e => hnew (by rw [← List.mem_singleton.mp hb, ← e]; exact ha)⟩
    · intro p hp
      rcases List.mem_append.mp hp with hp | hp
      · obtain ⟨g1, g2⟩ := h2 p hp
        refine ⟨g1, ?_⟩
        rw [List.filter_append, ← g2]
        have : spelling w ≠ p.1 := fun e => hnew (by rw [e]; exact List.mem_map_of_mem hp)
        simp [this]
      · rw [List.mem_singleton.mp hp]
        refine ⟨by simp, ?_⟩
        rw [List.filter_append, List.filter_eq_nil_iff.mpr]
        · simp
        · intro x hx e
          have e' : spelling x = spelling w := of_decide_eq_true e
          exact hnew (by rw [← e']; exact h3 x hx)
    · intro x hx
      rw [List.map_append]
      rcases List.mem_append.mp hx with hx | hx
      · exact List.mem_append_left _ (h3 x hx)
      · rw [List.mem_singleton.mp hx]
        simp

theorem fold_collected {W : Type} {spelling : W → String} (ws : List W) : ∀ {c : List (String × List W)} {done : List W}, Collected spelling c done →
    Collected spelling (ws.foldl (addWord spelling) c) (done ++ ws) := by
  induction ws with
  | nil =>
    intro c done h
    simpa using h
  | cons w ws ih =>
    intro c done h
    have := ih (addWord_collected h w)
    rw [List.append_assoc] at this
    exact this

/-- The sentences are those of the paths, in order, and the dictionary has for every spelling the list of all words with it, in order. -/
theorem C123_corpus {S W : Type} {read : List Char × List Char × List Char → Except Err S} {words : S → List W} {spelling : W → String} {ps : List (List Char × List Char × List Char)} {ss : List S}
    {c : List (String × List W)} (h : build read words spelling ps [] [] = .ok (ss, c)) : List.Forall₂ (fun p s => read p = .ok s) ps ss ∧ Collected spelling c (ss.flatMap words) := by
  have key : ∀ (ps : List (List Char × List Char × List Char)) (s0 : List S) (c0 : List (String × List W)) ss c, Collected spelling c0 (s0.flatMap words) →
      build read words spelling ps s0 c0 = .ok (ss, c) → ∃ s1, ss = s0 ++ s1 ∧ List.Forall₂ (fun p s => read p = .ok s) ps s1 ∧ Collected spelling c (ss.flatMap words) := by
    intro ps
    induction ps with
    | nil =>
      intro s0 c0 ss c h0 h
      cases h
      exact ⟨[], by simp, .nil, h0⟩
    | cons p ps ih =>
      intro s0 c0 ss c h0 h
      unfold build at h
      obtain ⟨s, hs, h⟩ := bind_ok h
      have h1 : Collected spelling ((words s).foldl (addWord spelling) c0) ((s0 ++ [s]).flatMap words) := by
        rw [List.flatMap_append]
        simp only [List.flatMap_cons, List.flatMap_nil, List.append_nil]
        exact fold_collected (words s) h0
      obtain ⟨s1, e, hf, hc⟩ := ih _ _ _ _ h1 h
      exact ⟨s :: s1, by rw [e]; simp, .cons hs hf, hc⟩
  obtain ⟨s1, e, hf, hc⟩ := key ps [] [] ss c ⟨by simp, by simp, by simp⟩ h
  rw [List.nil_append] at e
  rw [← e] at hf
  exact ⟨hf, hc⟩

/-- The restriction to speakers is compared with the name of the directory, which begins with the sex: the acronyms of the documentation (those of `Sentence.speaker`) select nothing. -/
theorem C123_speakers_deviation (sel : Select) (tree : List (List Char × List Speaker)) (hlen : ∀ d ∈ tree, ∀ s ∈ d.2, s.name.length = 5) {names : List (List Char)}
    (hsel : sel.speakers = some (names.map speakerOf)) : paths sel tree = [] := by
  rw [List.eq_nil_iff_forall_not_mem]
  rintro ⟨d, s, f⟩ h
  obtain ⟨⟨sp, ss, hd, hsp, rfl, _⟩, _, _, h3, _⟩ := (C123_selection sel tree d s f).mp h
  obtain ⟨n, _, e⟩ := List.mem_map.mp (h3 _ hsel)
  have h5 := hlen _ hd _ hsp
  have h6 := congrArg List.length e
  unfold speakerOf at h6
  rw [List.length_take, h5] at h6
  omega

/-! ## The hypotheses can be met -/

/-- A reader of some numbers. -/
def digits : String → Except Err Int
  | "0" => .ok 0
  | "1" => .ok 1
  | "2" => .ok 2
  | "5" => .ok 5
  | "6" => .ok 6
  | "9" => .ok 9
  | "16000" => .ok 16000
  | _ => .error .valueError

/-- Two words, a silence at both ends. -/
example : sentence digits [["1", "5", "she"], ["5", "6", "had"]] [["0", "1", "h#"], ["1", "2", "sh"], ["2", "5", "ix"], ["5", "6", "hv"], ["6", "9", "h#"]] =
    .ok ([⟨"she", 1, 5, [⟨0, 1, "sh"⟩, ⟨1, 4, "ix"⟩]⟩, ⟨"had", 5, 6, [⟨0, 1, "hv"⟩]⟩], [⟨0, 1, "h#"⟩, ⟨1, 2, "sh"⟩, ⟨2, 5, "ix"⟩, ⟨5, 6, "hv"⟩, ⟨6, 9, "h#"⟩]) :=
  C123_words (ws := [⟨1, 5, "she"⟩, ⟨5, 6, "had"⟩]) (ms := [⟨0, 1, "h#"⟩, ⟨1, 2, "sh"⟩, ⟨2, 5, "ix"⟩, ⟨5, 6, "hv"⟩, ⟨6, 9, "h#"⟩])
    (.cons ⟨_, _, rfl, rfl, rfl⟩ (.cons ⟨_, _, rfl, rfl, rfl⟩ .nil))
    (.cons ⟨_, _, rfl, rfl, rfl⟩ (.cons ⟨_, _, rfl, rfl, rfl⟩ (.cons ⟨_, _, rfl, rfl, rfl⟩ (.cons ⟨_, _, rfl, rfl, rfl⟩ (.cons ⟨_, _, rfl, rfl, rfl⟩ .nil)))))
    (by simp) (by simp) (by simp)

/-- The words overlap: the phonem from 5 to 6 lies in both and is missing in the second. -/
example : sentence digits [["1", "6", "your"], ["5", "9", "dark"]] [["1", "5", "y"], ["5", "6", "er"], ["6", "9", "d"]] =
    .ok ([⟨"your", 1, 6, [⟨0, 4, "y"⟩, ⟨4, 5, "er"⟩]⟩, ⟨"dark", 5, 9, [⟨1, 4, "d"⟩]⟩], [⟨1, 5, "y"⟩, ⟨5, 6, "er"⟩, ⟨6, 9, "d"⟩]) := rfl

/-- One channel of 16 bits. -/
example : readNist digits [["channel_count", "-i", "1"], ["sample_rate", "-i", "16000"], ["sample_n_bytes", "-i", "2"], ["sample_byte_format", "-s2", "01"], ["end_head"]] [254, 255, 0, 1] =
    .ok (16000, .mono [-2, 256]) := by
  obtain ⟨r, h, rfl⟩ := C123_mono (int := digits) (lines := [["channel_count", "-i", "1"], ["sample_rate", "-i", "16000"], ["sample_n_bytes", "-i", "2"], ["sample_byte_format", "-s2", "01"], ["end_head"]])
    (n := 2) rfl rfl rfl rfl (Or.inl rfl) (by norm_num) (s := [-2, 256]) (by simp)
  exact h

/-- The speakers of the documentation. -/
example : paths ⟨none, none, some ["AKS0".toList], none⟩ [("DR1".toList, [⟨"FAKS0".toList, [("SA1".toList, ".WAV".toList)]⟩])] = [] ∧
    paths ⟨none, none, some ["FAKS0".toList], none⟩ [("DR1".toList, [⟨"FAKS0".toList, [("SA1".toList, ".WAV".toList)]⟩])] = [("DR1".toList, "FAKS0".toList, "SA1".toList)] :=
  ⟨C123_speakers_deviation _ _ (by simp) (names := ["FAKS0".toList]) (by decide), by decide⟩

/-- Two sentences with a word in common. -/
example : build (S := List String) (fun p => .ok [String.ofList p.2.2, "dark"]) id id [([], [], ['a']), ([], [], ['b'])] [] [] =
    .ok ([["a", "dark"], ["b", "dark"]], [("a", ["a"]), ("dark", ["dark", "dark"]), ("b", ["b"])]) := by decide

end Verif.Timit
