import Verif.Peaks.Model
import Mathlib.Data.List.GetD
import Mathlib.Data.List.Sort
import Mathlib.Tactic.Linarith

/-!
# Properties of the peak detection (C42)
-/

namespace Verif.Peaks

/-! ## Specification -/

/-- `i` is a peak of the sequence, on the given edge of a flat top. -/
def IsPeak (x : List (Option ℝ)) (edge : Edge) (i : Nat) : Prop :=
  ∃ a b c : ℝ, 1 ≤ i ∧ x[i - 1]? = some (some a) ∧ x[i]? = some (some b) ∧ x[i + 1]? = some (some c) ∧
    match edge with
    | .no => a < b ∧ c < b
    | .rising => a < b ∧ c ≤ b
    | .falling => a ≤ b ∧ c < b
    | .both => (a < b ∧ c ≤ b) ∨ (a ≤ b ∧ c < b)
    | .other => False

/-- Height and prominence over the neighbours. -/
def High (x : List (Option ℝ)) (mph : Option ℝ) (threshold : ℝ) (i : Nat) : Prop :=
  ∀ a b c : ℝ, x[i - 1]? = some (some a) → x[i]? = some (some b) → x[i + 1]? = some (some c) →
    (∀ h, mph = some h → h ≤ b) ∧ (0 < threshold → threshold ≤ b - a ∧ threshold ≤ b - c)

/-- The sequence whose peaks are looked for: for valleys the negated one. -/
def data (x : List (Option ℝ)) (valley : Bool) : List (Option ℝ) := if valley then x.map (Option.map (- ·)) else x

/-- Height of the sample `i`. -/
noncomputable def height (x : List (Option ℝ)) (i : Nat) : ℝ :=
  match x[i]? with
  | some (some v) => v
  | _ => 0

/-- A correct sort of indices by height. -/
def Sorts (x : List (Option ℝ)) (f : List Nat → List Nat) : Prop :=
  ∀ l, (f l).Perm l ∧ (f l).Pairwise fun i j => height x i ≤ height x j

/-! ## Lemmas -/

theorem mem_whereIdx {n : Nat} {p : Nat → Prop} {i : Nat} : i ∈ whereIdx n p ↔ i < n ∧ p i := by
  unfold whereIdx
  rw [List.mem_filter]; simp

theorem mem_unique {l : List Nat} {i : Nat} : i ∈ unique l ↔ i ∈ l := by
  unfold unique; simp

theorem unique_sorted (l : List Nat) : (unique l).Pairwise (· < ·) := by
  unfold unique
  exact Finset.sortedLT_sort l.toFinset |>.pairwise

theorem mem_extrema {x : List (Option ℝ)} {edge : Edge} {i : Nat} : i ∈ extrema x edge ↔ i < x.length ∧
    ((edge = .no ∧ ltZero (next x i) ∧ gtZero (prev x i)) ∨ ((edge = .rising ∨ edge = .both) ∧ leZero (next x i) ∧ gtZero (prev x i)) ∨
      ((edge = .falling ∨ edge = .both) ∧ ltZero (next x i) ∧ geZero (prev x i))) := by
  unfold extrema
  simp only [mem_unique, List.mem_append]
  cases edge <;> simp [mem_whereIdx] <;> tauto

theorem dropNan_sub (x : List (Option ℝ)) (ind : List Nat) : (dropNan x ind).Sublist ind := by
  unfold dropNan
  simp only
  split
  · exact List.Sublist.refl _
  · exact List.filter_sublist

theorem mem_dropNan {x : List (Option ℝ)} {ind : List Nat} {i : Nat} : i ∈ dropNan x ind ↔ i ∈ ind ∧
    ∀ k, k < x.length → x.getD k none = none → k ≠ i ∧ k ≠ i + 1 ∧ k + 1 ≠ i := by
  unfold dropNan
  simp only
  split
  · rename_i h
    constructor
    · intro hi
      refine ⟨hi, fun k hk hn => ?_⟩
      rcases h with h | h
      · rw [h] at hi; simp at hi
      · have : k ∈ whereIdx x.length fun i => x.getD i none = none := mem_whereIdx.mpr ⟨hk, hn⟩
        rw [h] at this; simp at this
    · exact fun h => h.1
  · rw [List.mem_filter]
    simp only [decide_eq_true_eq]
    constructor
    · rintro ⟨h1, h2⟩
      refine ⟨h1, fun k hk hn => ?_⟩
      have : ¬ ((i : Int) = k ∨ (i : Int) = (k : Int) - 1 ∨ (i : Int) = (k : Int) + 1) := fun hc => h2 ⟨k, mem_whereIdx.mpr ⟨hk, hn⟩, hc⟩
      omega
    · rintro ⟨h1, h2⟩
      refine ⟨h1, ?_⟩
      rintro ⟨k, hk, hc⟩
      obtain ⟨hk, hn⟩ := mem_whereIdx.mp hk
      have := h2 k hk hn
      omega

theorem dropFirst_sub (ind : List Nat) : (dropFirst ind).Sublist ind := by
  cases ind with
  | nil => exact List.Sublist.refl _
  | cons a t =>
    simp only [dropFirst]
    split
    · exact List.sublist_cons_self _ _
    · exact List.Sublist.refl _

theorem mem_dropFirst {ind : List Nat} (hs : ind.Pairwise (· < ·)) {i : Nat} : i ∈ dropFirst ind ↔ i ∈ ind ∧ i ≠ 0 := by
  cases ind with
  | nil => simp [dropFirst]
  | cons a t =>
    have ha : ∀ b ∈ t, a < b := fun b hb => List.rel_of_pairwise_cons hs hb
    simp only [dropFirst]
    split
    · rename_i h0
      constructor
      · intro hi
        have := ha i hi
        exact ⟨by simp [hi], by omega⟩
      · rintro ⟨hi, h1⟩
        rcases List.mem_cons.mp hi with rfl | hi
        · exact absurd h0 h1
        · exact hi
    · rename_i h0
      constructor
      · intro hi
        refine ⟨hi, ?_⟩
        rcases List.mem_cons.mp hi with rfl | hi
        · exact h0
        · have := ha i hi; omega
      · exact fun h => h.1

theorem dropFinal_sub (n : Nat) (ind : List Nat) : (dropFinal n ind).Sublist ind := by
  unfold dropFinal
  split
  · exact List.dropLast_sublist _
  · exact List.Sublist.refl _

theorem mem_dropFinal {n : Nat} {ind : List Nat} (hs : ind.Pairwise (· < ·)) (hn : ∀ i ∈ ind, i < n) {i : Nat} :
    i ∈ dropFinal n ind ↔ i ∈ ind ∧ i ≠ n - 1 := by
  unfold dropFinal
  rcases List.eq_nil_or_concat ind with rfl | ⟨t, a, rfl⟩
  · simp
  · rw [List.concat_eq_append] at *
    have ht : ∀ b ∈ t, b < a := fun b hb => (List.pairwise_append.mp hs).2.2 b hb a (by simp)
    have han := hn a (by simp)
    rw [List.getLast?_concat, List.dropLast_concat]
    split
    · rename_i e
      have e := Option.some.inj e
      constructor
      · intro hi
        have := ht i hi
        exact ⟨by simp [hi], by omega⟩
      · rintro ⟨hi, h1⟩
        rcases List.mem_append.mp hi with hi | hi
        · exact hi
        · simp at hi; omega
    · rename_i e
      have e : a ≠ n - 1 := fun h => e (by rw [h])
      constructor
      · intro hi
        refine ⟨hi, ?_⟩
        rcases List.mem_append.mp hi with hi | hi
        · have := ht i hi; omega
        · simp at hi; omega
      · exact fun h => h.1

theorem limits_sub (x : List (Option ℝ)) (mph : Option ℝ) (threshold : ℝ) (ind : List Nat) : (limits x mph threshold ind).Sublist ind := by
  unfold limits
  simp only
  cases mph <;> simp only <;> split
  · exact List.filter_sublist
  · exact List.Sublist.refl _
  · exact List.filter_sublist.trans List.filter_sublist
  · exact List.filter_sublist

theorem mem_limits {x : List (Option ℝ)} {mph : Option ℝ} {threshold : ℝ} {ind : List Nat} {i : Nat} :
    i ∈ limits x mph threshold ind ↔ i ∈ ind ∧ (∀ h, mph = some h → h ≤ val x i) ∧
      (0 < threshold → threshold ≤ val x i - val x (i - 1) ∧ threshold ≤ val x i - val x (i + 1)) := by
  unfold limits
  have e : ∀ i, ¬ min (val x i - val x (i - 1)) (val x i - val x (i + 1)) < threshold ↔
      (threshold ≤ val x i - val x (i - 1) ∧ threshold ≤ val x i - val x (i + 1)) := fun i => by rw [not_lt, le_min_iff]
  cases mph <;> simp only <;> split <;> rename_i h
  · rw [List.mem_filter]; simp only [decide_eq_true_eq, e]; simp [h]
  · simp [h]
  · rw [List.mem_filter, List.mem_filter]; simp only [decide_eq_true_eq, e]; simp [h, and_assoc]
  · rw [List.mem_filter]; simp [h]

/-- Before the minimum distance is applied, exactly the peaks that are high enough remain, in increasing order. -/
theorem candidates (x : List (Option ℝ)) (mph : Option ℝ) (threshold : ℝ) (edge : Edge) :
    (limits x mph threshold (dropFinal x.length (dropFirst (dropNan x (extrema x edge))))).Pairwise (· < ·) ∧
      ∀ i, i ∈ limits x mph threshold (dropFinal x.length (dropFirst (dropNan x (extrema x edge)))) ↔ IsPeak x edge i ∧ High x mph threshold i := by
  have hs1 : (dropNan x (extrema x edge)).Pairwise (· < ·) := (unique_sorted _).sublist (dropNan_sub _ _)
  have hs2 := hs1.sublist (dropFirst_sub _)
  refine ⟨(hs2.sublist (dropFinal_sub _ _)).sublist (limits_sub _ _ _ _), fun i => ?_⟩
  rw [mem_limits, mem_dropFinal hs2 (fun j hj => (mem_extrema.mp ((dropNan_sub _ _).subset ((dropFirst_sub _).subset hj))).1), mem_dropFirst hs1,
    mem_dropNan, mem_extrema]
  have hv : ∀ j (a : ℝ), x[j]? = some (some a) → val x j = a ∧ x.getD j none = some a ∧ j < x.length := by
    intro j a h
    have hj : j < x.length := by
      by_contra hc
      rw [List.getElem?_eq_none (by omega)] at h
      simp at h
    refine ⟨?_, ?_, hj⟩
    · unfold val; rw [List.getD_eq_getElem?_getD, h]; rfl
    · rw [List.getD_eq_getElem?_getD, h]; rfl
  constructor
  · rintro ⟨⟨⟨⟨⟨h1, h2⟩, h3⟩, h4⟩, h5⟩, h6, h7⟩
    have hsome : ∀ j, j < x.length → (j = i ∨ j = i + 1 ∨ j + 1 = i) → ∃ a : ℝ, x[j]? = some (some a) := by
      intro j hj hc
      rw [List.getElem?_eq_getElem hj]
      cases e : x[j] with
      | some a => exact ⟨a, rfl⟩
      | none =>
        have := h3 j hj (by rw [List.getD_eq_getElem _ _ hj, e])
        omega
    obtain ⟨a, ha⟩ := hsome (i - 1) (by omega) (by omega)
    obtain ⟨b, hb⟩ := hsome i (by omega) (by omega)
    obtain ⟨c, hc⟩ := hsome (i + 1) (by omega) (by omega)
    obtain ⟨va, ga, _⟩ := hv _ _ ha
    obtain ⟨vb, gb, _⟩ := hv _ _ hb
    obtain ⟨vc, gc, hlc⟩ := hv _ _ hc
    have en : next x i = some (c - b) := by
      unfold next dxAt
      rw [if_pos hlc, gc, gb]
    have ep : prev x i = some (b - a) := by
      unfold prev dxAt
      rw [if_neg h4, show i - 1 + 1 = i by omega, gb, ga]
    rw [en, ep] at h2
    simp only [ltZero, leZero, gtZero, geZero] at h2
    refine ⟨⟨a, b, c, by omega, ha, hb, hc, ?_⟩, ?_⟩
    · cases edge <;> simp at h2 ⊢
      · exact ⟨h2.2, h2.1⟩
      · exact ⟨h2.2, h2.1⟩
      · exact ⟨h2.2, h2.1⟩
      · rcases h2 with h | h
        · exact Or.inl ⟨h.2, h.1⟩
        · exact Or.inr ⟨h.2, h.1⟩
    · intro a' b' c' ha' hb' hc'
      rw [(hv _ _ hb').1] at h6
      rw [(hv _ _ ha').1, (hv _ _ hb').1, (hv _ _ hc').1] at h7
      exact ⟨h6, h7⟩
  · rintro ⟨⟨a, b, c, h1, ha, hb, hc, he⟩, hh⟩
    obtain ⟨va, ga, _⟩ := hv _ _ ha
    obtain ⟨vb, gb, hlb⟩ := hv _ _ hb
    obtain ⟨vc, gc, hlc⟩ := hv _ _ hc
    have en : next x i = some (c - b) := by
      unfold next dxAt
      rw [if_pos hlc, gc, gb]
    have ep : prev x i = some (b - a) := by
      unfold prev dxAt
      rw [if_neg (by omega), show i - 1 + 1 = i by omega, gb, ga]
    obtain ⟨g1, g2⟩ := hh a b c ha hb hc
    rw [en, ep, va, vb, vc]
    simp only [ltZero, leZero, gtZero, geZero]
    refine ⟨⟨⟨⟨⟨hlb, ?_⟩, ?_⟩, by omega⟩, by omega⟩, g1, g2⟩
    · cases edge <;> simp at he ⊢
      · exact ⟨he.2, he.1⟩
      · exact ⟨he.2, he.1⟩
      · exact ⟨he.2, he.1⟩
      · rcases he with h | h
        · exact Or.inl ⟨h.2, h.1⟩
        · exact Or.inr ⟨h.2, h.1⟩
    · intro k hk hn
      refine ⟨?_, ?_, ?_⟩
      · rintro rfl; rw [gb] at hn; simp at hn
      · rintro rfl; rw [gc] at hn; simp at hn
      · intro e
        rw [show k = i - 1 by omega, ga] at hn; simp at hn

/-- The marks after the first `n` turns: an entry whose turn was before and is not marked marks everything close to it, other marks do not
come up. The first part: an entry that was not marked at its turn stays unmarked. -/
theorem mark_loop (x : List (Option ℝ)) (mpd : Int) (kpsh : Bool) (ind : List Nat)
    (hsort : ∀ i j, i < j → j < ind.length → val x (ind.getD j 0) ≤ val x (ind.getD i 0)) (n : Nat) (hn : n ≤ ind.length) :
    (∀ i, i < ind.length → (List.range n).foldl (mark x mpd kpsh ind) (fun _ => false) i = true →
      ∃ k, k < n ∧ k < i ∧ (List.range n).foldl (mark x mpd kpsh ind) (fun _ => false) k = false ∧
        |((ind.getD i 0 : Nat) : Int) - (ind.getD k 0 : Nat)| ≤ mpd ∧ (kpsh = true → val x (ind.getD k 0) > val x (ind.getD i 0))) ∧
    (∀ i k, i < ind.length → k < n → k ≠ i → (List.range n).foldl (mark x mpd kpsh ind) (fun _ => false) k = false →
      (List.range n).foldl (mark x mpd kpsh ind) (fun _ => false) i = false →
      |((ind.getD i 0 : Nat) : Int) - (ind.getD k 0 : Nat)| ≤ mpd → kpsh = true ∧ val x (ind.getD k 0) ≤ val x (ind.getD i 0)) := by
  induction n with
  | zero => exact ⟨fun i _ h => by simp at h, fun i k _ hk => absurd hk (by omega)⟩
  | succ n ih =>
    obtain ⟨ih1, ih2⟩ := ih (by omega)
    rw [List.range_succ, List.foldl_append]
    simp only [List.foldl_cons, List.foldl_nil]
    generalize (List.range n).foldl (mark x mpd kpsh ind) (fun _ => false) = D at ih1 ih2
    by_cases hD : D n = true
    · have e : mark x mpd kpsh ind D n = D := by unfold mark; rw [if_pos hD]
      rw [e]
      refine ⟨fun i hi h => ?_, fun i k hi hk hne hk0 hi0 hd => ?_⟩
      · obtain ⟨k, h1, h2⟩ := ih1 i hi h
        exact ⟨k, by omega, h2⟩
      · refine ih2 i k hi ?_ hne hk0 hi0 hd
        rcases Nat.lt_succ_iff_lt_or_eq.mp hk with h | h
        · exact h
        · rw [h, hD] at hk0; cases hk0
    · have hD : D n = false := by simpa using hD
      have eD : ∀ j, mark x mpd kpsh ind D n j = if j = n then false else D j || decide (((ind.getD j 0 : Nat) : Int) ≥ (ind.getD n 0 : Nat) - mpd ∧
          ((ind.getD j 0 : Nat) : Int) ≤ (ind.getD n 0 : Nat) + mpd ∧ (kpsh = true → val x (ind.getD n 0) > val x (ind.getD j 0))) := by
        intro j; unfold mark; rw [if_neg (by simp [hD])]
      -- unmarked entries before stay unmarked
      have stay : ∀ k, k < n → D k = false → mark x mpd kpsh ind D n k = false := by
        intro k hk h0
        rw [eD, if_neg (by omega), h0, Bool.false_or, decide_eq_false_iff_not]
        rintro ⟨a, b, c⟩
        have hclose : |((ind.getD n 0 : Nat) : Int) - (ind.getD k 0 : Nat)| ≤ mpd := by rw [abs_le]; constructor <;> omega
        obtain ⟨hk1, hk2⟩ := ih2 n k (by omega) hk (by omega) h0 hD hclose
        have := c hk1
        exact absurd (hsort k n hk (by omega)) (not_le.mpr this)
      refine ⟨fun i hi h => ?_, fun i k hi hk hne hk0 hi0 hd => ?_⟩
      · rw [eD] at h
        split at h
        · cases h
        · rename_i hin
          rcases Bool.or_eq_true_iff.mp h with h | h
          · obtain ⟨k, h1, h2, h3, h4⟩ := ih1 i hi h
            exact ⟨k, by omega, h2, stay k h1 h3, h4⟩
          · obtain ⟨a, b, c⟩ := of_decide_eq_true h
            by_cases hlt : n < i
            · refine ⟨n, by omega, hlt, by rw [eD, if_pos rfl], by rw [abs_le]; constructor <;> omega, c⟩
            · -- an entry before `n` that was not marked cannot be marked now
              have hi' : i < n := by omega
              by_cases hDi : D i = true
              · obtain ⟨k, h1, h2, h3, h4⟩ := ih1 i hi hDi
                exact ⟨k, by omega, h2, stay k h1 h3, h4⟩
              · have := stay i hi' (by simpa using hDi)
                rw [eD, if_neg hin, h] at this
                simp at this
      · have hi0' : i = n ∨ D i = false := by
          by_cases e : i = n
          · exact Or.inl e
          · rw [eD, if_neg e] at hi0
            exact Or.inr (Bool.or_eq_false_iff.mp hi0).1
        have hDi : D i = false := by rcases hi0' with rfl | h; exact hD; exact h
        have hDk : D k = false := by
          by_cases e : k = n
          · rw [e]; exact hD
          · rw [eD, if_neg e] at hk0
            exact (Bool.or_eq_false_iff.mp hk0).1
        rcases Nat.lt_succ_iff_lt_or_eq.mp hk with hk' | rfl
        · exact ih2 i k hi hk' hne hDk hDi hd
        · rw [eD, if_neg (Ne.symm hne), hDi, Bool.false_or, decide_eq_false_iff_not] at hi0
          rw [abs_le] at hd
          by_contra hcon
          apply hi0
          refine ⟨by omega, by omega, fun hkp => ?_⟩
          by_contra hle
          exact hcon ⟨hkp, not_lt.mp hle⟩

theorem val_eq (x : List (Option ℝ)) (i : Nat) : val x i = height x i := by
  unfold val height
  rw [List.getD_eq_getElem?_getD]
  rcases x[i]? with _ | _ | v <;> rfl

theorem short {x : List (Option ℝ)} (h : x.length < 3) (edge : Edge) (i : Nat) : ¬ IsPeak x edge i := by
  rintro ⟨a, b, c, h1, _, _, hc, _⟩
  rw [List.getElem?_eq_none (by omega)] at hc
  simp at hc

theorem data_length (x : List (Option ℝ)) (valley : Bool) : (data x valley).length = x.length := by
  unfold data; split <;> simp

/-- **C42, all peaks.** Without a minimum distance `detect_peaks` returns exactly the interior local maxima on the requested edge that are
high enough, in increasing order. NaN and the neighbours of NaN are no peaks. -/
theorem C42_peaks (x : List (Option ℝ)) (mph : Option ℝ) {mpd : Int} (threshold : ℝ) (edge : Edge) (kpsh valley : Bool)
    (argsort : List (Option ℝ) → List Nat → List Nat) (hm : mpd ≤ 1) :
    (detectPeaks x mph mpd threshold edge kpsh valley argsort).Pairwise (· < ·) ∧
      ∀ i, i ∈ detectPeaks x mph mpd threshold edge kpsh valley argsort ↔
        IsPeak (data x valley) edge i ∧ High (data x valley) mph threshold i := by
  unfold detectPeaks
  split
  · rename_i h
    refine ⟨List.Pairwise.nil, fun i => ⟨fun hi => by simp at hi, fun hi => ?_⟩⟩
    exact absurd hi.1 (short (by rw [data_length]; exact h) edge i)
  · simp only
    unfold separate
    rw [if_neg (by omega)]
    exact candidates (data x valley) mph threshold edge

/-- **C42, minimum distance.** With a minimum distance the result is increasing and consists of high enough peaks; unless peaks of the
same height are to be kept, two returned peaks are further apart than the minimum distance, otherwise closer ones have the same height;
every high enough peak that is not returned is within the minimum distance of a returned one that is at least as high (strictly higher, if
peaks of the same height are to be kept). This holds for every order in which the sort leaves peaks of equal height. -/
theorem C42_distance (x : List (Option ℝ)) (mph : Option ℝ) {mpd : Int} (threshold : ℝ) (edge : Edge) (kpsh valley : Bool)
    {argsort : List (Option ℝ) → List Nat → List Nat} (hm : 1 < mpd) (hsort : Sorts (data x valley) (argsort (data x valley))) :
    (detectPeaks x mph mpd threshold edge kpsh valley argsort).Pairwise (· < ·) ∧
      (∀ i ∈ detectPeaks x mph mpd threshold edge kpsh valley argsort, IsPeak (data x valley) edge i ∧ High (data x valley) mph threshold i) ∧
      (∀ i ∈ detectPeaks x mph mpd threshold edge kpsh valley argsort, ∀ j ∈ detectPeaks x mph mpd threshold edge kpsh valley argsort,
        i ≠ j → |(i : Int) - j| ≤ mpd → kpsh = true ∧ height (data x valley) i = height (data x valley) j) ∧
      (∀ i, IsPeak (data x valley) edge i → High (data x valley) mph threshold i → i ∉ detectPeaks x mph mpd threshold edge kpsh valley argsort →
        ∃ j ∈ detectPeaks x mph mpd threshold edge kpsh valley argsort, |(i : Int) - j| ≤ mpd ∧
          height (data x valley) i ≤ height (data x valley) j ∧ (kpsh = true → height (data x valley) i < height (data x valley) j)) := by
  unfold detectPeaks
  split
  · rename_i h
    have hno := short (x := data x valley) (by rw [data_length]; exact h) edge
    exact ⟨List.Pairwise.nil, fun i hi => by simp at hi, fun i hi => by simp at hi, fun i hi => absurd hi (hno i)⟩
  · simp only
    rw [show (if valley = true then x.map (Option.map (- ·)) else x) = data x valley from rfl]
    obtain ⟨hc1, hc2⟩ := candidates (data x valley) mph threshold edge
    generalize limits (data x valley) mph threshold (dropFinal (data x valley).length (dropFirst (dropNan (data x valley) (extrema (data x valley) edge)))) = cand at hc1 hc2
    generalize data x valley = y at *
    unfold separate
    rw [if_pos hm]
    simp only
    obtain ⟨hperm, hpw⟩ := hsort cand
    have hperm' : ((argsort y cand).reverse).Perm cand := (List.reverse_perm _).trans hperm
    have hnd : ((argsort y cand).reverse).Nodup := hperm'.nodup_iff.mpr (hc1.imp (fun h => Nat.ne_of_lt h))
    have hdec : ∀ i j, i < j → j < ((argsort y cand).reverse).length → val y (((argsort y cand).reverse).getD j 0) ≤ val y (((argsort y cand).reverse).getD i 0) := by
      intro i j hij hj
      have hpr : ((argsort y cand).reverse).Pairwise fun i j => height y j ≤ height y i := List.pairwise_reverse.mpr hpw
      rw [List.getD_eq_getElem _ _ hj, List.getD_eq_getElem _ _ (by omega), val_eq, val_eq]
      exact List.pairwise_iff_getElem.mp hpr i j (by omega) hj hij
    generalize (argsort y cand).reverse = ind at hperm' hnd hdec
    obtain ⟨m1, m2⟩ := mark_loop y mpd kpsh ind hdec ind.length le_rfl
    generalize (List.range ind.length).foldl (mark y mpd kpsh ind) (fun _ => false) = D at m1 m2
    have hmem : ∀ i, i ∈ (((List.range ind.length).filter fun i => !D i).map fun i => ind.getD i 0).mergeSort ↔
        ∃ k, k < ind.length ∧ D k = false ∧ ind.getD k 0 = i := by
      intro i
      rw [(List.mergeSort_perm _ _).mem_iff, List.mem_map]
      constructor
      · rintro ⟨k, hk, e⟩
        rw [List.mem_filter, List.mem_range] at hk
        exact ⟨k, hk.1, by simpa using hk.2, e⟩
      · rintro ⟨k, h1, h2, e⟩
        exact ⟨k, by rw [List.mem_filter, List.mem_range]; exact ⟨h1, by simp [h2]⟩, e⟩
    have hin : ∀ k, k < ind.length → ind.getD k 0 ∈ cand := by
      intro k hk
      rw [List.getD_eq_getElem _ _ hk]
      exact hperm'.subset (List.getElem_mem hk)
    have hinj : ∀ k l, k < ind.length → l < ind.length → ind.getD k 0 = ind.getD l 0 → k = l := by
      intro k l hk hl e
      rw [List.getD_eq_getElem _ _ hk, List.getD_eq_getElem _ _ hl] at e
      exact (List.Nodup.getElem_inj_iff hnd).mp e
    refine ⟨?_, ?_, ?_, ?_⟩
    · have hle : ((((List.range ind.length).filter fun i => !D i).map fun i => ind.getD i 0).mergeSort).Pairwise (· ≤ ·) := by
        have := List.pairwise_mergeSort (le := fun a b : Nat => decide (a ≤ b)) (by intro a b c h1 h2; simp at *; omega) (by intro a b; simp; omega)
          (((List.range ind.length).filter fun i => !D i).map fun i => ind.getD i 0)
        exact this.imp (fun h => by simpa using h)
      have hnd2 : ((((List.range ind.length).filter fun i => !D i).map fun i => ind.getD i 0).mergeSort).Nodup := by
        rw [(List.mergeSort_perm _ _).nodup_iff]
        apply List.Nodup.map_on
        · intro k hk l hl e
          rw [List.mem_filter, List.mem_range] at hk hl
          exact hinj k l hk.1 hl.1 e
        · exact List.nodup_range.filter _
      exact (hle.and hnd2).imp (fun h => by omega)
    · intro i hi
      obtain ⟨k, hk, _, rfl⟩ := (hmem i).mp hi
      exact (hc2 _).mp (hin k hk)
    · intro i hi j hj hne hd
      obtain ⟨k, hk, dk, rfl⟩ := (hmem i).mp hi
      obtain ⟨l, hl, dl, rfl⟩ := (hmem j).mp hj
      have hkl : k ≠ l := fun h => hne (by rw [h])
      obtain ⟨a1, a2⟩ := m2 k l hk hl (Ne.symm hkl) dl dk hd
      obtain ⟨b1, b2⟩ := m2 l k hl hk hkl dk dl (by rw [abs_sub_comm]; exact hd)
      rw [val_eq, val_eq] at a2 b2
      exact ⟨a1, le_antisymm b2 a2⟩
    · intro i hp hh hni
      have hic := (hc2 i).mpr ⟨hp, hh⟩
      obtain ⟨k, hk, e⟩ := List.getElem_of_mem (hperm'.symm.subset hic)
      have e' : ind.getD k 0 = i := by rw [List.getD_eq_getElem _ _ hk]; exact e
      have hDk : D k = true := by
        by_contra hc
        exact hni ((hmem i).mpr ⟨k, hk, by simpa using hc, e'⟩)
      obtain ⟨l, hl, hlk, hDl, hd, hgt⟩ := m1 k hk hDk
      refine ⟨ind.getD l 0, (hmem _).mpr ⟨l, hl, hDl, rfl⟩, by rw [← e']; exact hd, ?_, ?_⟩
      · have := hdec l k hlk hk
        rw [val_eq, val_eq, e'] at this
        exact this
      · intro hkp
        have := hgt hkp
        rw [val_eq, val_eq, e'] at this
        exact this

/-- **C42, deviation.** The documentation promises peaks "at least separated" by the minimum distance. Of two peaks exactly that far
apart only one is returned. -/
theorem C42_distance_deviation (x : List (Option ℝ)) (mph : Option ℝ) {mpd : Int} (threshold : ℝ) (edge : Edge) (valley : Bool)
    {argsort : List (Option ℝ) → List Nat → List Nat} (hm : 1 < mpd) (hsort : Sorts (data x valley) (argsort (data x valley)))
    {i j : Nat} (hd : (j : Int) = i + mpd) :
    ¬ (i ∈ detectPeaks x mph mpd threshold edge false valley argsort ∧ j ∈ detectPeaks x mph mpd threshold edge false valley argsort) := by
  rintro ⟨hi, hj⟩
  have := ((C42_distance x mph threshold edge false valley hm hsort).2.2.1 i hi j hj (by omega) (by rw [abs_le]; omega)).1
  cases this

/-! ## The hypotheses can be met -/

open Classical in
/-- A sort by height exists. -/
example (x : List (Option ℝ)) : ∃ f, Sorts x f := by
  refine ⟨fun l => l.insertionSort (fun i j => height x i ≤ height x j), fun l => ⟨List.perm_insertionSort _ _, ?_⟩⟩
  have : Std.Total (fun i j : Nat => height x i ≤ height x j) := ⟨fun a b => le_total _ _⟩
  have : IsTrans Nat (fun i j => height x i ≤ height x j) := ⟨fun a b c => le_trans⟩
  exact List.pairwise_insertionSort _ _

/-- Peaks, with a NaN and a flat top. -/
example : IsPeak [some 0, some 2, some 2, some 1, some 3, some 0, none] .rising 1 ∧ IsPeak [some 0, some 2, some 2, some 1, some 3, some 0, none] .falling 2 ∧
    IsPeak [some 0, some 2, some 2, some 1, some 3, some 0, none] .no 4 ∧ High [some 0, some 2, some 2, some 1, some 3, some 0, none] (some 2) 2 4 := by
  refine ⟨⟨0, 2, 2, by norm_num, rfl, rfl, rfl, by norm_num⟩, ⟨2, 2, 1, by norm_num, rfl, rfl, rfl, by norm_num⟩, ⟨1, 3, 0, by norm_num, rfl, rfl, rfl, by norm_num⟩, ?_⟩
  intro a b c ha hb hc
  simp only [List.getElem?_cons_succ, List.getElem?_cons_zero, Nat.reduceSub, Option.some.injEq] at ha hb hc
  subst ha hb hc
  exact ⟨fun h e => by cases e; norm_num, fun _ => by norm_num⟩

end Verif.Peaks
