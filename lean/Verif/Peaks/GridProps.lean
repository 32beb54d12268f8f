import Verif.Peaks.GridModel
import Verif.Peaks.Props

/-!
# Properties of the search of peaks on grids (C43, C44)
-/

namespace Verif.Peaks

/-! ## Specification -/

/-- `l` are the (up to) `k` highest of the candidates: distinct, by increasing height, none of the others higher. -/
def Highest (cand : Nat → Prop) (v : Nat → ℝ) (k : Nat) (l : List Nat) : Prop :=
  l.Nodup ∧ (∀ i ∈ l, cand i) ∧ l.Pairwise (fun i j => v i ≤ v j) ∧ l.length ≤ k ∧
    (∀ i, cand i → i ∉ l → l.length = k ∧ ∀ j ∈ l, v i ≤ v j)

/-- Higher than its left neighbour and not lower than its right neighbour on a circle of `n` points. -/
def CirclePeak (n : Nat) (v : Nat → ℝ) (i : Nat) : Prop := i < n ∧ v ((i + n - 1) % n) < v i ∧ v ((i + 1) % n) ≤ v i

/-- A correct `np.argsort`. -/
def ArgSorts (f : List ℝ → List Nat) : Prop :=
  ∀ l, (f l).Perm (List.range l.length) ∧ (f l).Pairwise fun i j => l.getD i 0 ≤ l.getD j 0

/-! ## Lemmas -/

theorem slice_last {α : Type} (l : List α) {k : Nat} (hk : 0 < k) : Py.slice l (some (-(k : Int))) none = l.drop (l.length - k) := by
  unfold Py.slice
  simp only [Py.sliceStart, Py.sliceStop]
  rw [Py.clampIdx_neg _ hk, List.take_of_length_le (by simp)]

theorem slice_all {α : Type} (l : List α) : Py.slice l (some (-((0 : Nat) : Int))) none = l := by
  unfold Py.slice
  simp [Py.sliceStart, Py.sliceStop, Py.clampIdx]

theorem largest_spec {argsort : List ℝ → List Nat} (ha : ArgSorts argsort) {v : Nat → ℝ} {cands : List Nat} (hnd : cands.Nodup) {k : Nat} (hk : 0 < k) :
    Highest (· ∈ cands) v k (largest argsort v cands k) := by
  obtain ⟨hp, hs⟩ := ha (cands.map v)
  rw [List.length_map] at hp
  unfold largest
  rw [slice_last _ hk]
  generalize argsort (cands.map v) = I at hp hs
  have hlen : I.length = cands.length := by rw [hp.length_eq, List.length_range]
  have hlt : ∀ i ∈ I, i < cands.length := fun i hi => List.mem_range.mp (hp.subset hi)
  have hval : ∀ i, i < cands.length → (cands.map v).getD i 0 = v (cands.getD i 0) := by
    intro i hi
    rw [List.getD_eq_getElem _ _ (by simpa using hi), List.getElem_map, List.getD_eq_getElem _ _ hi]
  have hInd : I.Nodup := hp.nodup_iff.mpr List.nodup_range
  have hinj : ∀ i j, i < cands.length → j < cands.length → cands.getD i 0 = cands.getD j 0 → i = j := by
    intro i j hi hj e
    rw [List.getD_eq_getElem _ _ hi, List.getD_eq_getElem _ _ hj] at e
    exact (List.Nodup.getElem_inj_iff hnd).mp e
  have hdm : ∀ i ∈ I.drop (I.length - k), i < cands.length := fun i hi => hlt i (List.mem_of_mem_drop hi)
  refine ⟨?_, ?_, ?_, ?_, ?_⟩
  · apply List.Nodup.map_on
    · intro i hi j hj e
      exact hinj i j (hdm i hi) (hdm j hj) e
    · exact hInd.sublist (List.drop_sublist _ _)
  · intro i hi
    obtain ⟨j, hj, rfl⟩ := List.mem_map.mp hi
    rw [List.getD_eq_getElem _ _ (hdm j hj)]
    exact List.getElem_mem _
  · rw [List.pairwise_map]
    refine (hs.sublist (List.drop_sublist _ _)).imp_of_mem fun {i j} hi hj h => ?_
    rw [hval i (hdm i hi), hval j (hdm j hj)] at h
    exact h
  · rw [List.length_map, List.length_drop]; omega
  · intro c hc hn
    obtain ⟨i, hi, e⟩ := List.getElem_of_mem hc
    have hiI : i ∈ I := hp.symm.subset (List.mem_range.mpr hi)
    have e' : cands.getD i 0 = c := by rw [List.getD_eq_getElem _ _ hi]; exact e
    have hit : i ∈ I.take (I.length - k) := by
      rw [← List.take_append_drop (I.length - k) I] at hiI
      rcases List.mem_append.mp hiI with h | h
      · exact h
      · exact absurd (List.mem_map.mpr ⟨i, h, e'⟩) hn
    have hpos : 0 < I.length - k := by
      by_contra h0
      rw [show I.length - k = 0 by omega] at hit
      simp at hit
    refine ⟨by rw [List.length_map, List.length_drop]; omega, fun j hj => ?_⟩
    obtain ⟨j', hj', rfl⟩ := List.mem_map.mp hj
    rw [← List.take_append_drop (I.length - k) I] at hs
    have := (List.pairwise_append.mp hs).2.2 i hit j' hj'
    rw [hval i hi, hval j' (hdm j' hj'), e'] at this
    exact this

/-- `np.argsort(...)[-0:]` is everything. -/
theorem largest_zero {argsort : List ℝ → List Nat} (ha : ArgSorts argsort) {v : Nat → ℝ} {cands : List Nat} :
    (largest argsort v cands 0).Perm cands := by
  obtain ⟨hp, _⟩ := ha (cands.map v)
  rw [List.length_map] at hp
  unfold largest
  rw [show (-0 : Int) = -((0 : Nat) : Int) by simp, slice_all]
  refine (hp.map _).trans ?_
  have : (List.range cands.length).map (fun i => cands.getD i 0) = cands := by
    apply List.ext_getElem
    · simp
    · intro i h1 h2
      rw [List.getElem_map, List.getElem_range, List.getD_eq_getElem _ _ h2]
  rw [this]

/-! ## Circular grid -/

theorem ext_get (values : List ℝ) {i : Nat} (hi : i < values.length + min 10 values.length) :
    ((values ++ Py.slice values none (some 10)).map some)[i]? = some (some (values.getD (i % values.length) 0)) := by
  have hs : Py.slice values none (some 10) = values.take 10 := by
    unfold Py.slice
    simp only [Py.sliceStart, Py.sliceStop, List.drop_zero, Nat.sub_zero]
    rw [show (10 : Int) = ((10 : Nat) : Int) from rfl, Py.clampIdx_nat]
    rw [List.take_eq_take_iff]; omega
  rw [hs, List.getElem?_map]
  by_cases h : i < values.length
  · rw [List.getElem?_append_left h, Nat.mod_eq_of_lt h, List.getElem?_eq_getElem h, List.getD_eq_getElem _ _ h]; rfl
  · have hm : i % values.length = i - values.length := by
      rw [Nat.mod_eq_sub_mod (by omega), Nat.mod_eq_of_lt (by omega)]
    rw [List.getElem?_append_right (by omega), hm, List.getElem?_take_of_lt (by omega), List.getElem?_eq_getElem (by omega),
      List.getD_eq_getElem _ _ (by omega)]; rfl

theorem ext_length (values : List ℝ) : ((values ++ Py.slice values none (some 10)).map some).length = values.length + min 10 values.length := by
  have hs : Py.slice values none (some 10) = values.take 10 := by
    unfold Py.slice
    simp only [Py.sliceStart, Py.sliceStop, List.drop_zero, Nat.sub_zero]
    rw [show (10 : Int) = ((10 : Nat) : Int) from rfl, Py.clampIdx_nat]
    rw [List.take_eq_take_iff]; omega
  rw [hs]; simp

theorem mem_circleCandidates (values : List ℝ) (sort : List (Option ℝ) → List Nat → List Nat) (i : Nat) :
    i ∈ circleCandidates values sort ↔ CirclePeak values.length (fun i => values.getD i 0) i := by
  unfold circleCandidates
  rw [mem_unique, List.mem_map]
  simp only [(C42_peaks _ none 0 .rising false false sort le_rfl).2]
  have hd : data ((values ++ Py.slice values none (some 10)).map some) false = (values ++ Py.slice values none (some 10)).map some := rfl
  rw [hd]
  have hHigh : ∀ j, High ((values ++ Py.slice values none (some 10)).map some) none 0 j := by
    intro j a b c _ _ _
    exact ⟨fun h e => (nomatch e), fun h => absurd h (lt_irrefl 0)⟩
  have hpk : ∀ j, IsPeak ((values ++ Py.slice values none (some 10)).map some) .rising j ↔
      1 ≤ j ∧ j + 1 < values.length + min 10 values.length ∧ values.getD ((j - 1) % values.length) 0 < values.getD (j % values.length) 0 ∧
        values.getD ((j + 1) % values.length) 0 ≤ values.getD (j % values.length) 0 := by
    intro j
    constructor
    · rintro ⟨a, b, c, h1, ha, hb, hc, hab, hcb⟩
      have hl : j + 1 < values.length + min 10 values.length := by
        by_contra hcon
        rw [List.getElem?_eq_none (by rw [ext_length]; omega)] at hc
        simp at hc
      rw [ext_get _ (by omega)] at ha hb hc
      simp only [Option.some.injEq] at ha hb hc
      rw [ha, hb, hc]
      exact ⟨h1, hl, hab, hcb⟩
    · rintro ⟨h1, hl, hab, hcb⟩
      exact ⟨_, _, _, h1, ext_get _ (by omega), ext_get _ (by omega), ext_get _ hl, hab, hcb⟩
  have hprev : ∀ j, 1 ≤ j → j + 1 < values.length + min 10 values.length → (j - 1) % values.length = (j % values.length + values.length - 1) % values.length := by
    intro j h1 hj
    have hn : 0 < values.length := by omega
    by_cases h : j < values.length
    · rw [Nat.mod_eq_of_lt h, Nat.mod_eq_of_lt (by omega), show j + values.length - 1 = (j - 1) + values.length by omega, Nat.add_mod_right, Nat.mod_eq_of_lt (by omega)]
    · have hm : j % values.length = j - values.length := by
        rw [Nat.mod_eq_sub_mod (by omega), Nat.mod_eq_of_lt (by omega)]
      rw [hm, show j - values.length + values.length - 1 = j - 1 by omega]
  constructor
  · rintro ⟨j, ⟨hj, _⟩, rfl⟩
    obtain ⟨h1, hl, hab, hcb⟩ := (hpk j).mp hj
    have hn : 0 < values.length := by omega
    refine ⟨Nat.mod_lt _ hn, ?_, ?_⟩
    · simp only; rw [← hprev j h1 hl]; exact hab
    · simp only; rw [show (j % values.length + 1) % values.length = (j + 1) % values.length by simp [Nat.add_mod]]; exact hcb
  · rintro ⟨hi, hab, hcb⟩
    simp only at hab hcb
    have h2 : 2 ≤ values.length := by
      by_contra hc
      have e1 : values.length = 1 := by omega
      have e0 : i = 0 := by omega
      rw [e1, e0] at hab
      simp at hab
    by_cases h0 : i = 0
    · refine ⟨values.length, ⟨(hpk _).mpr ⟨by omega, by omega, ?_, ?_⟩, hHigh _⟩, by rw [h0]; exact Nat.mod_self _⟩
      · rw [Nat.mod_self, Nat.mod_eq_of_lt (by omega : values.length - 1 < values.length)]
        rw [h0, show 0 + values.length - 1 = values.length - 1 by omega, Nat.mod_eq_of_lt (by omega)] at hab
        exact hab
      · rw [Nat.mod_self, Nat.add_mod_left]
        rw [h0] at hcb
        simpa using hcb
    · refine ⟨i, ⟨(hpk _).mpr ⟨by omega, by omega, ?_, ?_⟩, hHigh _⟩, Nat.mod_eq_of_lt hi⟩
      · rw [Nat.mod_eq_of_lt hi, Nat.mod_eq_of_lt (by omega : i - 1 < values.length)]
        rw [show i + values.length - 1 = (i - 1) + values.length by omega, Nat.add_mod_right, Nat.mod_eq_of_lt (by omega)] at hab
        exact hab
      · rw [Nat.mod_eq_of_lt hi]; exact hcb

/-- On a circle with two different values the maximum is a peak. -/
theorem max_is_peak {n : Nat} {v : Nat → ℝ} (hne : ∃ i j, i < n ∧ j < n ∧ v i ≠ v j) :
    ∃ i, CirclePeak n v i ∧ ∀ j, j < n → v j ≤ v i := by
  obtain ⟨i0, j0, hi0, hj0, hv⟩ := hne
  obtain ⟨p, hp, hmax⟩ := Finset.exists_max_image (Finset.range n) v ⟨i0, Finset.mem_range.mpr hi0⟩
  have hp : p < n := Finset.mem_range.mp hp
  have hmax : ∀ j, j < n → v j ≤ v p := fun j hj => hmax j (Finset.mem_range.mpr hj)
  by_contra hcon
  have hstep : ∀ i, i < n → v i = v p → v ((i + n - 1) % n) = v p := by
    intro i hi e
    by_contra hc
    apply hcon
    have hlt : v ((i + n - 1) % n) < v p := lt_of_le_of_ne (hmax _ (Nat.mod_lt _ (by omega))) hc
    exact ⟨i, ⟨hi, by rw [e]; exact hlt, by rw [e]; exact hmax _ (Nat.mod_lt _ (by omega))⟩, fun j hj => by rw [e]; exact hmax j hj⟩
  have hall : ∀ t, t ≤ n → v ((p + (n - t)) % n) = v p := by
    intro t
    induction t with
    | zero => intro _; rw [Nat.sub_zero, Nat.add_mod_right, Nat.mod_eq_of_lt hp]
    | succ t ih =>
      intro ht
      have h1 := hstep _ (Nat.mod_lt (p + (n - t)) (by omega)) (ih (by omega))
      have e : ((p + (n - t)) % n + n - 1) % n = (p + (n - (t + 1))) % n := by
        rw [Nat.add_sub_assoc (by omega), Nat.mod_add_mod, show p + (n - t) + (n - 1) = p + (n - (t + 1)) + n by omega, Nat.add_mod_right]
      rwa [e] at h1
  have hconst : ∀ j, j < n → v j = v p := by
    intro j hj
    by_cases hjp : j ≤ p
    · have := hall (p - j) (by omega)
      rwa [show p + (n - (p - j)) = j + n by omega, Nat.add_mod_right, Nat.mod_eq_of_lt hj] at this
    · have := hall (n - (j - p)) (by omega)
      rwa [show p + (n - (n - (j - p))) = j by omega, Nat.mod_eq_of_lt hj] at this
  exact hv ((hconst i0 hi0).trans (hconst j0 hj0).symm)

/-- **C43.** On a circular grid of any size `find_peaks(k)`, `k ≥ 1`, returns the (up to) `k` highest of the points that are higher than
their left and not lower than their right neighbour; first and last point are neighbours. -/
theorem C43_circle (values : List ℝ) {k : Nat} (hk : 0 < k) (sort : List (Option ℝ) → List Nat → List Nat) {argsort : List ℝ → List Nat} (ha : ArgSorts argsort) :
    Highest (CirclePeak values.length fun i => values.getD i 0) (fun i => values.getD i 0) k (circlePeaks values k sort argsort) := by
  have := largest_spec ha (v := fun i => values.getD i 0) (cands := circleCandidates values sort) ((unique_sorted _).imp fun h => Nat.ne_of_lt h) hk
  have e : (· ∈ circleCandidates values sort) = CirclePeak values.length fun i => values.getD i 0 :=
    funext fun i => propext (mem_circleCandidates values sort i)
  rw [e] at this
  exact this

theorem highest_max {cand : Nat → Prop} {v : Nat → ℝ} {k : Nat} (hk : 0 < k) {l : List Nat} (h : Highest cand v k l) {i : Nat} (hi : cand i)
    (hmax : ∀ j, cand j → v j ≤ v i) : ∃ j ∈ l, v j = v i := by
  by_cases hm : i ∈ l
  · exact ⟨i, hm, rfl⟩
  · obtain ⟨_, h2, _, _, h5⟩ := h
    obtain ⟨e, hle⟩ := h5 i hi hm
    have : l ≠ [] := fun h0 => by rw [h0] at e; simp at e; omega
    obtain ⟨j, hj⟩ := List.exists_mem_of_ne_nil l this
    exact ⟨j, hj, le_antisymm (hmax j (h2 j hj)) (hle j hj)⟩

/-- **C43, maximum.** If the values are not all the same, the highest value of the grid is among the peaks. -/
theorem C43_maximum (values : List ℝ) {k : Nat} (hk : 0 < k) (sort : List (Option ℝ) → List Nat → List Nat) {argsort : List ℝ → List Nat} (ha : ArgSorts argsort)
    (hne : ∃ a ∈ values, ∃ b ∈ values, a ≠ b) : ∃ i ∈ circlePeaks values k sort argsort, ∀ x ∈ values, x ≤ values.getD i 0 := by
  have hne' : ∃ i j, i < values.length ∧ j < values.length ∧ values.getD i 0 ≠ values.getD j 0 := by
    obtain ⟨a, ha, b, hb, h⟩ := hne
    obtain ⟨i, hi, rfl⟩ := List.getElem_of_mem ha
    obtain ⟨j, hj, rfl⟩ := List.getElem_of_mem hb
    exact ⟨i, j, hi, hj, by rw [List.getD_eq_getElem _ _ hi, List.getD_eq_getElem _ _ hj]; exact h⟩
  obtain ⟨i, hp, hmax⟩ := max_is_peak hne'
  obtain ⟨j, hj, e⟩ := highest_max hk (C43_circle values hk sort ha) hp (fun j hj => hmax j hj.1)
  refine ⟨j, hj, fun x hx => ?_⟩
  obtain ⟨t, ht, rfl⟩ := List.getElem_of_mem hx
  have := hmax t ht
  rw [e, ← List.getD_eq_getElem values 0 ht]
  exact this

/-- **C43, constant values.** If all values are the same, nothing is returned. -/
theorem C43_constant (values : List ℝ) (c : ℝ) (hc : ∀ x ∈ values, x = c) {k : Nat} (hk : 0 < k) (sort : List (Option ℝ) → List Nat → List Nat)
    {argsort : List ℝ → List Nat} (ha : ArgSorts argsort) : circlePeaks values k sort argsort = [] := by
  have h := (C43_circle values hk sort ha).2.1
  rw [List.eq_nil_iff_forall_not_mem]
  intro i hi
  obtain ⟨h1, h2, _⟩ := h i hi
  have e : ∀ j, j < values.length → values.getD j 0 = c := fun j hj => by rw [List.getD_eq_getElem _ _ hj]; exact hc _ (List.getElem_mem hj)
  simp only at h2
  rw [e _ (Nat.mod_lt _ (by omega)), e i h1] at h2
  exact lt_irrefl _ h2

/-- **C43, deviation.** `find_peaks(0)` returns all peaks (`[-0:]`). -/
theorem C43_zero_deviation (values : List ℝ) (sort : List (Option ℝ) → List Nat → List Nat) {argsort : List ℝ → List Nat} (ha : ArgSorts argsort) (i : Nat) :
    i ∈ circlePeaks values 0 sort argsort ↔ CirclePeak values.length (fun i => values.getD i 0) i := by
  unfold circlePeaks
  rw [(largest_zero ha).mem_iff, mem_circleCandidates]

/-! ## Spherical grid -/

/-- Not lower than any of its neighbours. -/
def LocalMax (values : List ℝ) (neighbors : Nat → List Nat) (v : Nat) : Prop :=
  v < values.length ∧ ∀ u ∈ neighbors v, values.getD u 0 ≤ values.getD v 0

theorem mem_sphereCandidates (values : List ℝ) (neighbors : Nat → List Nat) (v : Nat) : v ∈ sphereCandidates values neighbors ↔ LocalMax values neighbors v := by
  unfold sphereCandidates LocalMax
  rw [List.mem_filter, List.mem_range]
  simp

/-- **C44.** `GridSphere.find_peaks(k)`, `k ≥ 1`, returns the (up to) `k` highest of the points that are not lower than any neighbour. -/
theorem C44_sphere (values : List ℝ) (neighbors : Nat → List Nat) {k : Nat} (hk : 0 < k) {argsort : List ℝ → List Nat} (ha : ArgSorts argsort) :
    Highest (LocalMax values neighbors) (fun i => values.getD i 0) k (spherePeaks values neighbors k argsort) := by
  have := largest_spec ha (v := fun i => values.getD i 0) (cands := sphereCandidates values neighbors) (List.nodup_range.filter _) hk
  have e : (· ∈ sphereCandidates values neighbors) = LocalMax values neighbors := funext fun i => propext (mem_sphereCandidates values neighbors i)
  rw [e] at this
  exact this

/-- **C44, maximum.** The highest value of a grid with at least one point is among the peaks. -/
theorem C44_maximum (values : List ℝ) (neighbors : Nat → List Nat) (hn : values ≠ []) (hin : ∀ v, ∀ u ∈ neighbors v, u < values.length) {k : Nat} (hk : 0 < k)
    {argsort : List ℝ → List Nat} (ha : ArgSorts argsort) : ∃ i ∈ spherePeaks values neighbors k argsort, ∀ x ∈ values, x ≤ values.getD i 0 := by
  have hpos : 0 < values.length := List.length_pos_iff.mpr hn
  obtain ⟨p, hp, hmax⟩ := Finset.exists_max_image (Finset.range values.length) (fun i => values.getD i 0) ⟨0, Finset.mem_range.mpr hpos⟩
  have hp : p < values.length := Finset.mem_range.mp hp
  have hmax : ∀ j, j < values.length → values.getD j 0 ≤ values.getD p 0 := fun j hj => hmax j (Finset.mem_range.mpr hj)
  obtain ⟨j, hj, e⟩ := highest_max hk (C44_sphere values neighbors hk ha) (i := p) ⟨hp, fun u hu => hmax u (hin p u hu)⟩ (fun j hj => hmax j hj.1)
  refine ⟨j, hj, fun x hx => ?_⟩
  obtain ⟨t, ht, rfl⟩ := List.getElem_of_mem hx
  rw [e, ← List.getD_eq_getElem values 0 ht]
  exact hmax t ht

/-- **C44, deviation.** `find_peaks(0)` returns all local maxima (`[-0:]`). -/
theorem C44_zero_deviation (values : List ℝ) (neighbors : Nat → List Nat) {argsort : List ℝ → List Nat} (ha : ArgSorts argsort) (i : Nat) :
    i ∈ spherePeaks values neighbors 0 argsort ↔ LocalMax values neighbors i := by
  unfold spherePeaks
  rw [(largest_zero ha).mem_iff, mem_sphereCandidates]

/-- Two different corners of one triangle. -/
def Edges (t : Nat × Nat × Nat) (u v : Nat) : Prop :=
  (u = t.1 ∧ (v = t.2.1 ∨ v = t.2.2)) ∨ (u = t.2.1 ∧ (v = t.1 ∨ v = t.2.2)) ∨ (u = t.2.2 ∧ (v = t.1 ∨ v = t.2.1))

theorem mem_addEdge (adj : Nat → Finset Nat) (a b u v : Nat) : v ∈ addEdge adj a b u ↔ v ∈ adj u ∨ (u = a ∧ v = b) := by
  unfold addEdge
  split
  · rename_i h; subst h; rw [Finset.mem_insert]; tauto
  · rename_i h; constructor
    · exact Or.inl
    · rintro (h1 | ⟨h1, _⟩)
      · exact h1
      · exact absurd h1 h

/-- **C44, neighbours.** Two points are neighbours exactly if they are different corners of a triangle of the hull; this is symmetric. -/
theorem C44_neighbors (simplices : List (Nat × Nat × Nat)) (u v : Nat) :
    (v ∈ adjacency simplices u ↔ ∃ t ∈ simplices, Edges t u v) ∧ (v ∈ adjacency simplices u ↔ u ∈ adjacency simplices v) := by
  have step : ∀ (adj : Nat → Finset Nat) (t : Nat × Nat × Nat) (u v : Nat),
      v ∈ addEdge (addEdge (addEdge (addEdge (addEdge (addEdge adj t.1 t.2.1) t.1 t.2.2) t.2.1 t.1) t.2.1 t.2.2) t.2.2 t.1) t.2.2 t.2.1 u ↔
      v ∈ adj u ∨ Edges t u v := by
    intro adj t u v
    simp only [mem_addEdge, Edges, and_or_left, or_assoc]
  have key : ∀ (l : List (Nat × Nat × Nat)) (adj : Nat → Finset Nat) (u v : Nat), v ∈ l.foldl (fun adj t =>
      addEdge (addEdge (addEdge (addEdge (addEdge (addEdge adj t.1 t.2.1) t.1 t.2.2) t.2.1 t.1) t.2.1 t.2.2) t.2.2 t.1) t.2.2 t.2.1) adj u ↔
      v ∈ adj u ∨ ∃ t ∈ l, Edges t u v := by
    intro l
    induction l with
    | nil => intro adj u v; simp
    | cons t r ih =>
      intro adj u v
      rw [List.foldl_cons, ih]
      rw [step]
      simp only [List.mem_cons, exists_eq_or_imp, or_assoc]
  have h : ∀ u v, v ∈ adjacency simplices u ↔ ∃ t ∈ simplices, Edges t u v := by
    intro u v
    have := key simplices (fun _ => ∅) u v
    simp only [Finset.notMem_empty, false_or] at this
    exact this
  refine ⟨h u v, ?_⟩
  rw [h u v, h v u]
  have sym : ∀ t u v, Edges t u v → Edges t v u := by
    rintro t u v (⟨rfl, rfl | rfl⟩ | ⟨rfl, rfl | rfl⟩ | ⟨rfl, rfl | rfl⟩) <;> simp [Edges]
  exact ⟨fun ⟨t, ht, e⟩ => ⟨t, ht, sym t u v e⟩, fun ⟨t, ht, e⟩ => ⟨t, ht, sym t v u e⟩⟩

/-! ## The hypotheses can be met -/

open Classical in
/-- A correct sort exists. -/
example : ∃ f, ArgSorts f := by
  refine ⟨fun l => (List.range l.length).insertionSort (fun i j => l.getD i 0 ≤ l.getD j 0), fun l => ⟨List.perm_insertionSort _ _, ?_⟩⟩
  have : Std.Total (fun i j : Nat => l.getD i 0 ≤ l.getD j 0) := ⟨fun a b => le_total _ _⟩
  have : IsTrans Nat (fun i j => l.getD i 0 ≤ l.getD j 0) := ⟨fun a b c => le_trans⟩
  exact List.pairwise_insertionSort _ _

/-- A peak at the first point of a circle. -/
example : CirclePeak 4 (fun i => [3, 1, 2, (2 : ℝ)].getD i 0) 0 ∧ CirclePeak 4 (fun i => [3, 1, 2, (2 : ℝ)].getD i 0) 2 ∧ ∃ a ∈ [3, 1, 2, (2 : ℝ)], ∃ b ∈ [3, 1, 2, (2 : ℝ)], a ≠ b := by
  refine ⟨⟨by norm_num, by norm_num, by norm_num⟩, ⟨by norm_num, by norm_num, by norm_num⟩, 3, by simp, 1, by simp, by norm_num⟩

/-- Two local maxima on a path with three points. -/
example : LocalMax [2, 1, (3 : ℝ)] (fun v => if v = 1 then [0, 2] else [1]) 0 ∧ LocalMax [2, 1, (3 : ℝ)] (fun v => if v = 1 then [0, 2] else [1]) 2 ∧
    ∀ v, ∀ u ∈ (if v = 1 then [0, 2] else [1] : List Nat), u < 3 := by
  refine ⟨⟨by simp, by simp⟩, ⟨by simp, by simp⟩, fun v u hu => ?_⟩
  split at hu <;> simp at hu <;> omega

end Verif.Peaks
