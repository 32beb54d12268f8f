import Verif.Measured.Model
import Verif.Angles.Props
import Verif.Random.Props
import Mathlib.MeasureTheory.Integral.Bochner.SumMeasure
import Mathlib.MeasureTheory.Constructions.BorelSpace.Real
import Mathlib.Algebra.BigOperators.Field
import Mathlib.MeasureTheory.Measure.Count

/-!
# C88: measured directivities
-/

namespace Verif.Measured

open Verif.Py Verif.Angles Verif.Random Matrix MeasureTheory

variable {n B : Nat}

/-! ## Specification -/

/-- The point `i` is nearest to `x`. -/
def Nearest (g : Fin n → V) (x : V) (i : Fin n) : Prop := ∀ k, (g i - x) ⬝ᵥ (g i - x) ≤ (g k - x) ⬝ᵥ (g k - x)

/-- The query of the k-d tree finds a nearest point. -/
def Finds (query : (Fin n → V) → V → Fin n) : Prop := ∀ g x, Nearest g x (query g x)

/-- A rotation keeps inner products. -/
def Orthogonal (R : Matrix (Fin 3) (Fin 3) ℝ) : Prop := Rᵀ * R = 1

/-! ## Responses -/

theorem dot_mulVec {R : Matrix (Fin 3) (Fin 3) ℝ} (hR : Orthogonal R) (x y : V) : R *ᵥ x ⬝ᵥ R *ᵥ y = x ⬝ᵥ y := by
  rw [dotProduct_mulVec, vecMul_mulVec, hR, vecMul_one]

theorem rotated_grid {R : Matrix (Fin 3) (Fin 3) ℝ} (hR : Orthogonal R) {g : Fin n → V} (hg : ∀ i, g i ⬝ᵥ g i = 1) : (Verif.Sphere.normalise fun i => R *ᵥ g i) = fun i => R *ᵥ g i := by
  funext i c
  unfold Verif.Sphere.normalise
  have : ∑ e, (R *ᵥ g i) e ^ 2 = 1 := by
    rw [← hg i, ← dot_mulVec hR]
    unfold dotProduct
    exact Finset.sum_congr rfl fun e _ => by ring
  rw [this, Real.sqrt_one, div_one]

theorem new_eq [NeZero n] {areasOf : (Fin n → V) → Except Err (Fin n → ℝ)} {bw : Fin B → ℝ} {energy : List ℝ → Fin B → ℝ} {R : Matrix (Fin 3) (Fin 3) ℝ} {g : Fin n → V} {irs : Fin n → List ℝ}
    {m : Meas n B} (h : Meas.new areasOf bw energy (some R) (some g) irs = .ok m) :
    ∃ areas, areasOf g = .ok areas ∧ m.original = g ∧ m.irs = irs ∧ m.areas = areas ∧ m.energies = bandEnergies bw energy irs ∧ (m.grid = Verif.Sphere.normalise fun i => R *ᵥ g i) ∧
      (m.pattern = fun i => perDirection m.energies i / maxOf (perDirection m.energies)) ∧ m.normalizing = ∑ i, m.areas i * m.pattern i := by
  unfold Meas.new at h
  simp only at h
  cases ha : areasOf g with
  | error e => rw [ha] at h; cases h
  | ok areas =>
    rw [ha] at h
    injection h with h
    subst h
    exact ⟨areas, rfl, rfl, rfl, rfl, rfl, rfl, rfl, rfl⟩

/-- **C88** (response). The response in a direction is the impulse response of a measurement that is nearest to the direction turned back. -/
theorem C88_response [NeZero n] {query : (Fin n → V) → V → Fin n} (hq : Finds query) {areasOf : (Fin n → V) → Except Err (Fin n → ℝ)} {bw : Fin B → ℝ} {energy : List ℝ → Fin B → ℝ}
    {R : Matrix (Fin 3) (Fin 3) ℝ} (hR : Orthogonal R) {g : Fin n → V} (hg : ∀ i, g i ⬝ᵥ g i = 1) {irs : Fin n → List ℝ} {m : Meas n B}
    (h : Meas.new areasOf bw energy (some R) (some g) irs = .ok m) :
    ∃ pick : V → Fin n, (∀ x, Nearest g (Rᵀ *ᵥ x) (pick x)) ∧ ∀ directions, m.cartesian query directions = directions.map fun x => irs (pick x) := by
  obtain ⟨_, _, _, h2, _, _, h3, _, _⟩ := new_eq h
  refine ⟨fun x => query m.grid x, fun x k => ?_, fun directions => ?_⟩
  · have := hq m.grid x k
    rw [h3, rotated_grid hR hg] at this
    have e : ∀ i, (g i - Rᵀ *ᵥ x) ⬝ᵥ (g i - Rᵀ *ᵥ x) = (R *ᵥ g i - x) ⬝ᵥ (R *ᵥ g i - x) := by
      intro i
      have hR' : R * Rᵀ = 1 := mul_eq_one_comm.1 hR
      have : R *ᵥ (g i - Rᵀ *ᵥ x) = R *ᵥ g i - x := by
        rw [mulVec_sub, mulVec_mulVec, hR', one_mulVec]
      rw [← dot_mulVec hR, this]
    rw [e, e, h3, rotated_grid hR hg]
    exact this
  · unfold Meas.cartesian
    rw [h2]

/-- **C88** (turning the object and the direction together). Where the nearest measurement is unique the response does not change. -/
theorem C88_rotation [NeZero n] {query : (Fin n → V) → V → Fin n} (hq : Finds query) {areasOf : (Fin n → V) → Except Err (Fin n → ℝ)} {bw : Fin B → ℝ} {energy : List ℝ → Fin B → ℝ}
    {R R' : Matrix (Fin 3) (Fin 3) ℝ} (hR : Orthogonal R) (hR' : Orthogonal R') {g : Fin n → V} (hg : ∀ i, g i ⬝ᵥ g i = 1) {irs : Fin n → List ℝ} {m m' : Meas n B}
    (h : Meas.new areasOf bw energy (some R) (some g) irs = .ok m) (h' : Meas.new areasOf bw energy (some (R' * R)) (some g) irs = .ok m') (x : V)
    (hx : ∀ i k, Nearest g (Rᵀ *ᵥ x) i → Nearest g (Rᵀ *ᵥ x) k → i = k) : m'.cartesian query [R' *ᵥ x] = m.cartesian query [x] := by
  have hRR : Orthogonal (R' * R) := by
    unfold Orthogonal
    rw [transpose_mul, Matrix.mul_assoc, ← Matrix.mul_assoc R'ᵀ, hR', Matrix.one_mul, hR]
  obtain ⟨p, hp, e⟩ := C88_response hq hR hg h
  obtain ⟨p', hp', e'⟩ := C88_response hq hRR hg h'
  rw [e, e']
  have h1 := hp' (R' *ᵥ x)
  have : (R' * R)ᵀ *ᵥ (R' *ᵥ x) = Rᵀ *ᵥ x := by
    rw [mulVec_mulVec, transpose_mul, Matrix.mul_assoc, hR', Matrix.mul_one]
  rw [this] at h1
  rw [List.map_singleton, List.map_singleton, hx _ _ h1 (hp x)]

/-- **C88** (orientation). A new orientation replaces the one before: the object is the same as one made with the new orientation. -/
theorem C88_orientation [NeZero n] {areasOf : (Fin n → V) → Except Err (Fin n → ℝ)} {bw : Fin B → ℝ} {energy : List ℝ → Fin B → ℝ} {R R' : Matrix (Fin 3) (Fin 3) ℝ} {g : Fin n → V}
    {irs : Fin n → List ℝ} {m : Meas n B} (h : Meas.new areasOf bw energy (some R) (some g) irs = .ok m) :
    m.setOrientation (some R') = Meas.new areasOf bw energy (some R') (some g) irs ∧ m.setOrientation none = .error .valueError ∧
      Meas.new areasOf bw energy none (some g) irs = .error .valueError ∧ Meas.new areasOf bw energy (some R) none irs = .error .valueError := by
  refine ⟨?_, rfl, rfl, rfl⟩
  unfold Meas.new at h ⊢
  simp only at h ⊢
  cases ha : areasOf g with
  | error e => rw [ha] at h; cases h
  | ok areas =>
    rw [ha] at h
    injection h with h
    subst h
    rfl

/-- **C88** (angles). With both angles the response is that for the direction of the angles. -/
theorem C88_angles (query : (Fin n → V) → V → Fin n) (m : Meas n B) {azimuth colatitude : List ℝ} (h : azimuth.length = colatitude.length) (degrees : Bool) :
    m.response query azimuth (some colatitude) degrees = .ok (m.cartesian query (List.zipWith (fun a c =>
      let s : ℝ := if degrees then Real.pi / 180 else 1
      ![Real.cos (a * s) * Real.sin (c * s), Real.sin (a * s) * Real.sin (c * s), Real.cos (c * s)]) azimuth colatitude)) ∧
    m.response query azimuth none false = .ok (m.cartesian query (azimuth.map fun a => ![Real.cos a, Real.sin a, 0])) := by
  constructor
  · unfold Meas.response
    simp only
    rw [if_neg (by simpa using h)]
    congr 3
    funext a c
    cases degrees <;> simp [vec, spher2cart]
  · unfold Meas.response
    simp [vec, spher2cart]

/-- **C88** (deviation). Without a colatitude, which is allowed, and with angles in degrees, which is the default, the method raises. -/
theorem C88_colatitude_deviation (query : (Fin n → V) → V → Fin n) (m : Meas n B) (azimuth : List ℝ) : m.response query azimuth none true = .error .typeError := rfl

/-! ## Energies -/

/-- What is needed of the measurements: energies are not negative and not all zero, areas are positive. -/
structure Positive (m : Meas n B) : Prop where
  energy : ∀ i b, 0 ≤ m.energies i b
  some : ∃ i b, 0 < m.energies i b
  area : ∀ i, 0 < m.areas i

theorem perDirection_nonneg {m : Meas n B} (h : Positive m) (i : Fin n) : 0 ≤ perDirection m.energies i := Finset.sum_nonneg fun b _ => h.energy i b

theorem exists_perDirection_pos {m : Meas n B} (h : Positive m) : ∃ i, 0 < perDirection m.energies i := by
  obtain ⟨i, b, hb⟩ := h.some
  exact ⟨i, Finset.sum_pos' (fun c _ => h.energy i c) ⟨b, Finset.mem_univ _, hb⟩⟩

theorem maxOf_pos [NeZero n] {m : Meas n B} (h : Positive m) : 0 < maxOf (perDirection m.energies) := by
  obtain ⟨i, hi⟩ := exists_perDirection_pos h
  exact lt_of_lt_of_le hi (Finset.le_sup' _ (Finset.mem_univ i))

theorem total_eq (m : Meas n B) : totalEnergy m.energies m.areas = ∑ i, m.areas i * perDirection m.energies i := by
  unfold totalEnergy perDirection
  refine Finset.sum_congr rfl fun i _ => ?_
  rw [Finset.mul_sum]
  exact Finset.sum_congr rfl fun b _ => mul_comm _ _

theorem total_pos {m : Meas n B} (h : Positive m) : 0 < totalEnergy m.energies m.areas := by
  rw [total_eq]
  obtain ⟨i, hi⟩ := exists_perDirection_pos h
  exact Finset.sum_pos' (fun k _ => mul_nonneg (h.area k).le (perDirection_nonneg h k)) ⟨i, Finset.mem_univ _, mul_pos (h.area i) hi⟩

/-- Integral of a function that is constant on the cells. -/
theorem integral_cells {σ : Measure V} [IsFiniteMeasure σ] {q : V → Fin n} (hm : ∀ i, MeasurableSet {x | q x = i}) {areas : Fin n → ℝ} (ha : ∀ i, σ.real {x | q x = i} = areas i) (F : Fin n → ℝ) :
    ∫ x, F (q x) ∂σ = ∑ i, areas i * F i := by
  have hq : Measurable q := measurable_to_countable' fun i => hm i
  have h1 : ∫ x, F (q x) ∂σ = ∫ i, F i ∂(σ.map q) := (integral_map hq.aemeasurable (Measurable.of_discrete (f := F)).aestronglyMeasurable).symm
  rw [h1, integral_fintype (Integrable.of_finite)]
  refine Finset.sum_congr rfl fun i _ => ?_
  rw [← ha i, smul_eq_mul]
  congr 1
  rw [measureReal_def, Measure.map_apply hq (measurableSet_singleton i)]
  rfl

/-- **C88** (energy). Let the cells of the measurements on the sphere have the areas used by the object. Then the density of the random directions has integral one,
and the energy of the random rays has the same mean, in every band, as that of directions spread evenly over the sphere. -/
theorem C88_energy [NeZero n] {query : (Fin n → V) → V → Fin n} {areasOf : (Fin n → V) → Except Err (Fin n → ℝ)} {bw : Fin B → ℝ} {energy : List ℝ → Fin B → ℝ} {R : Matrix (Fin 3) (Fin 3) ℝ}
    {g : Fin n → V} {irs : Fin n → List ℝ} {m : Meas n B} (h : Meas.new areasOf bw energy (some R) (some g) irs = .ok m) (hp : Positive m) {σ : Measure V} [IsFiniteMeasure σ]
    (hm : ∀ i, MeasurableSet {x | query m.grid x = i}) (ha : ∀ i, σ.real {x | query m.grid x = i} = m.areas i) :
    ∫ x, m.pdf query x ∂σ = 1 ∧
    ∀ b, ∫ x, coeffRandom m (query m.grid x) b / (4 * Real.pi) * m.pdf query x ∂σ = (∫ x, m.energies (query m.grid x) b ∂σ) / (4 * Real.pi) := by
  obtain ⟨_, _, _, _, _, _, _, h1, h2⟩ := new_eq h
  have hmax := maxOf_pos hp
  have htot := total_pos hp
  have hnorm : m.normalizing = totalEnergy m.energies m.areas / maxOf (perDirection m.energies) := by
    rw [h2, h1, total_eq, Finset.sum_div]
    exact Finset.sum_congr rfl fun i _ => by ring
  have hpdf : ∀ i, m.pattern i / m.normalizing = perDirection m.energies i / totalEnergy m.energies m.areas := by
    intro i
    rw [hnorm, h1]
    field_simp
  constructor
  · have : (fun x => m.pdf query x) = fun x => (fun i => perDirection m.energies i / totalEnergy m.energies m.areas) (query m.grid x) := by
      funext x
      exact hpdf _
    rw [this, integral_cells hm ha fun i => perDirection m.energies i / totalEnergy m.energies m.areas]
    rw [← div_self htot.ne', total_eq, Finset.sum_div]
    exact Finset.sum_congr rfl fun i _ => by ring
  · intro b
    have : (fun x => coeffRandom m (query m.grid x) b / (4 * Real.pi) * m.pdf query x) = fun x => (fun i => m.energies i b / (4 * Real.pi)) (query m.grid x) := by
      funext x
      have e : m.pdf query x = perDirection m.energies (query m.grid x) / totalEnergy m.energies m.areas := hpdf _
      rw [e]
      unfold coeffRandom
      simp only
      by_cases h0 : perDirection m.energies (query m.grid x) = 0
      · have : m.energies (query m.grid x) b = 0 := by
          have := (Finset.sum_eq_zero_iff_of_nonneg fun c _ => hp.energy (query m.grid x) c).1 h0
          exact this b (Finset.mem_univ b)
        rw [h0, this]
        simp
      · field_simp
    rw [this, integral_cells hm ha fun i => m.energies i b / (4 * Real.pi), integral_cells hm ha fun i => m.energies i b, Finset.sum_div]
    exact Finset.sum_congr rfl fun i _ => by ring

/-- **C88** (rays without a generator). The directions are those of the spiral, of length one, and each has the band energies of the measurement found for it. -/
theorem C88_rays (query : (Fin n → V) → V → Fin n) (m : Meas n B) (count : Nat) :
    (m.sampleRays query count).length = count ∧ ∀ r ∈ m.sampleRays query count, r.1 ⬝ᵥ r.1 = 1 ∧ r.2 = m.energies (query m.grid r.1) := by
  constructor
  · simp [Meas.sampleRays]
  · intro r hr
    simp only [Meas.sampleRays, List.mem_map, List.mem_range] at hr
    obtain ⟨k, hk, rfl⟩ := hr
    refine ⟨?_, rfl⟩
    have := (C71_fibonacci hk).1
    simp only [vec, dotProduct, Fin.sum_univ_three, Matrix.cons_val_zero, Matrix.cons_val_one, Matrix.cons_val]
    simpa [dot, add_assoc] using this

/-- **C88** (rays from a generator). Whatever is drawn, as many rays as asked for are returned; the measurement of each has energy, and each ray has the same energy
summed over the bands: the total divided by the area of the sphere, in the proportions of its measurement. -/
theorem C88_random_rays [NeZero n] {R : Type} {query : (Fin n → V) → V → Fin n} {areasOf : (Fin n → V) → Except Err (Fin n → ℝ)} {bw : Fin B → ℝ} {energy : List ℝ → Fin B → ℝ}
    {Q : Matrix (Fin 3) (Fin 3) ℝ} {g : Fin n → V} {irs : Fin n → List ℝ} {m : Meas n B} (h : Meas.new areasOf bw energy (some Q) (some g) irs = .ok m) (hp : Positive m)
    {draw : Nat → R → List (V × ℝ) × R} (hd : Draws draw) (hu : ∀ k rng, ∀ p ∈ (draw k rng).1, 0 ≤ p.2) {fuel count : Nat} (hc : 0 < count) {rng : R} {l : List (V × (Fin B → ℝ))}
    (hl : m.sampleRaysRng query draw fuel count rng = some l) :
    l.length = count ∧ ∀ r ∈ l, 0 < perDirection m.energies (query m.grid r.1) ∧ ∑ b, r.2 b = totalEnergy m.energies m.areas / (4 * Real.pi) ∧
      ∀ b, r.2 b * perDirection m.energies (query m.grid r.1) = m.energies (query m.grid r.1) b * (totalEnergy m.energies m.areas / (4 * Real.pi)) := by
  classical
  obtain ⟨_, _, _, _, _, _, _, h1, _⟩ := new_eq h
  have hmax := maxOf_pos hp
  have htot := total_pos hp
  simp only [Meas.sampleRaysRng, Option.bind_eq_some_iff] at hl
  obtain ⟨⟨s', out⟩, hcall, hl⟩ := hl
  obtain ⟨batches, hrounds, hlen, _, _, hout, _⟩ := C54_samples hd hcall
  obtain ⟨sh, hout, _, _⟩ := hout (by simp)
  rw [hout] at hl
  simp only [Option.some.injEq] at hl
  have hflat : (Size.int count).orOne.flat = count := by
    cases count with
    | zero => omega
    | succ c => rfl
  rw [hflat] at hlen
  refine ⟨by rw [← hl, List.length_map, hlen], fun r hr => ?_⟩
  rw [← hl, List.mem_map] at hr
  obtain ⟨x, hx, rfl⟩ := hr
  simp only
  have hpos : 0 < perDirection m.energies (query m.grid x) := by
    unfold accepted at hx
    rw [List.mem_map] at hx
    obtain ⟨⟨y, u⟩, hy, rfl⟩ := hx
    rw [List.mem_filter] at hy
    obtain ⟨hy1, hy2⟩ := hy
    have hacc : Accept (m.sampler query) (y, u) := of_decide_eq_true hy2
    have hu0 : 0 ≤ u := by
      have key : ∀ (flat : Nat) (rng : R) (bs : List (List (V × ℝ))), Rounds (Accept (m.sampler query)) draw flat rng bs → ∀ p ∈ bs.flatten, 0 ≤ p.2 := by
        intro flat rng bs hb
        induction bs generalizing flat rng with
        | nil => intro p hp; simp at hp
        | cons b bs ih =>
          intro p hp
          obtain ⟨_, hb1, hb2⟩ := hb
          rw [List.flatten_cons, List.mem_append] at hp
          rcases hp with hp | hp
          · rw [hb1] at hp
            exact hu _ _ p hp
          · exact ih _ _ hb2 p hp
      exact key _ _ _ hrounds _ hy1
    unfold Accept Meas.sampler Sampler.init Meas.patternAt at hacc
    rw [h1] at hacc
    simp at hacc
    by_contra hneg
    have h0 : perDirection m.energies (query m.grid y) = 0 := le_antisymm (not_lt.1 hneg) (perDirection_nonneg hp _)
    rw [h0, zero_div] at hacc
    linarith
  have hpi := Real.pi_pos
  have hb : ∀ b, coeffRandom m (query m.grid x) b / (4 * Real.pi) * perDirection m.energies (query m.grid x) = m.energies (query m.grid x) b * (totalEnergy m.energies m.areas / (4 * Real.pi)) := by
    intro b
    unfold coeffRandom
    simp only
    field_simp
  refine ⟨hpos, ?_, hb⟩
  refine mul_right_cancel₀ hpos.ne' ?_
  rw [Finset.sum_mul, Finset.sum_congr rfl fun b _ => hb b, ← Finset.sum_mul, mul_comm]
  rfl

/-- **C88** (bands). The energies are those of the responses in the bands per bandwidth, scaled so that a response with the energy of each band proportional to its width keeps
the total in every band. -/
theorem C88_bands [NeZero n] {areasOf : (Fin n → V) → Except Err (Fin n → ℝ)} {bw : Fin B → ℝ} (hbw : ∀ b, 0 < bw b) {energy : List ℝ → Fin B → ℝ} {R : Matrix (Fin 3) (Fin 3) ℝ}
    {g : Fin n → V} {irs : Fin n → List ℝ} {m : Meas n B} (h : Meas.new areasOf bw energy (some R) (some g) irs = .ok m) (i : Fin n) (b : Fin B) :
    m.energies i b * bw b = energy (irs i) b * ∑ c, bw c ∧ areasOf g = .ok m.areas := by
  obtain ⟨areas, h1, _, _, h2, h3, _⟩ := new_eq h
  refine ⟨?_, by rw [h1, h2]⟩
  have := hbw b
  have hs : 0 < ∑ c, bw c := Finset.sum_pos (fun c _ => hbw c) ⟨b, Finset.mem_univ b⟩
  rw [h3]
  unfold bandEnergies
  field_simp

/-! ## Files -/

/-- A call of one of the two methods that give a directivity. -/
inductive Call where
  | mic (id : Id)
  | source (id : Id)

/-- What a call returns, and the file after it. -/
noncomputable def perform (f : File) : Call → Except Err ((List V × List (List ℝ)) × File)
  | .mic id => f.mic id
  | .source id => f.source id

/-- The file after a history of calls; a call that raises changes nothing. -/
noncomputable def history (f : File) : List Call → File
  | [] => f
  | c :: t =>
    match perform f c with
    | .ok r => history r.2 t
    | .error _ => history f t

/-- The position of a measurement in the file: a number within the range, or the first position of a label. -/
inductive Selects (labels : Option (List String)) (count : Nat) : Id → Nat → Prop where
  | int (i : Nat) (h : i < count) : Selects labels count (.int i) i
  | label (l : List String) (s : String) (i : Nat) (h : labels = some l) (hi : l[i]? = some s) (first : ∀ k < i, l[k]? ≠ some s) (hc : i < count) : Selects labels count (.label s) i

open Classical in
/-- Unit vector with the direction of a point, and the pole for the origin, which has no direction. -/
noncomputable def direction (p : ℝ × ℝ × ℝ) : V :=
  let r := Real.sqrt (p.1 ^ 2 + p.2.1 ^ 2 + p.2.2 ^ 2)
  if r = 0 then ![0, 0, 1] else ![p.1 / r, p.2.1 / r, p.2.2 / r]

/-- Grid and responses that belong to a microphone: one response per source, at the angles of the source. -/
noncomputable def micTable (f : File) (mid : Nat) : List V × List (List ℝ) :=
  ((List.range f.nSrc).map fun s =>
    ![Real.cos (f.srcLoc s).1 * Real.sin (f.srcLoc s).2, Real.sin (f.srcLoc s).1 * Real.sin (f.srcLoc s).2, Real.cos (f.srcLoc s).2],
   (List.range f.nSrc).map fun s => f.ir s mid)

/-- Grid and responses that belong to a source: one response per microphone, in the direction of the microphone. -/
noncomputable def sourceTable (f : File) (mid : Nat) : List V × List (List ℝ) :=
  ((List.range f.nMic).map fun m => direction (f.micLoc m), (List.range f.nMic).map fun m => f.ir mid m)

/-- What is passed on, with and without interpolation. -/
def delivered (f : File) (t : List V × List (List ℝ)) : List V × List (List ℝ) :=
  match f.interp with
  | none => t
  | some g => (f.interpGrid, g t.1 t.2)

theorem checkedIndex_iff {id : Id} {labels : Option (List String)} {count mid : Nat} : checkedIndex id labels count = .ok mid ↔ Selects labels count id mid := by
  unfold checkedIndex measurementIndex
  cases id with
  | int i =>
    change (if 0 ≤ i ∧ i < count then Except.ok i.toNat else Except.error Err.valueError) = _ ↔ _
    by_cases h : 0 ≤ i ∧ i < count
    · rw [if_pos h]
      constructor
      · intro e
        injection e with e
        have : i = (mid : Int) := by omega
        subst this
        exact .int _ (by omega)
      · intro e
        cases e with
        | int _ _ => rfl
    · rw [if_neg h]
      constructor
      · intro e; cases e
      · intro e
        cases e with
        | int _ hi => omega
  | label s =>
    cases labels with
    | none =>
      constructor
      · intro e; cases e
      · intro e
        cases e with
        | label l _ _ h _ _ _ => cases h
    | some l =>
      simp only
      by_cases hs : s ∈ l
      · rw [if_pos hs]
        change (if (0 : Int) ≤ (l.idxOf s : Int) ∧ (l.idxOf s : Int) < count then Except.ok ((l.idxOf s : Int)).toNat else Except.error Err.valueError) = _ ↔ _
        have hlt := List.idxOf_lt_length_of_mem hs
        have hget : l[l.idxOf s]? = some s := by
          rw [List.getElem?_eq_getElem hlt, List.getElem_idxOf]
        have hfirst : ∀ k < l.idxOf s, l[k]? ≠ some s := by
          intro k hk e
          have := List.not_of_lt_findIdx (p := (· == s)) (xs := l) (i := k) hk
          rw [List.getElem?_eq_some_iff] at e
          obtain ⟨h1, h2⟩ := e
          rw [h2] at this
          simp at this
        by_cases hc : l.idxOf s < count
        · rw [if_pos ⟨by omega, by omega⟩]
          constructor
          · intro e
            injection e with e
            subst e
            exact .label l s _ rfl hget hfirst (by omega)
          · intro e
            cases e with
            | label l' _ _ h hi first hc' =>
              injection h with h
              subst h
              congr 1
              rcases Nat.lt_trichotomy (l.idxOf s) mid with h | h | h
              · exact absurd hget (first _ h)
              · omega
              · exact absurd hi (hfirst _ h)
        · rw [if_neg (by omega)]
          constructor
          · intro e; cases e
          · intro e
            cases e with
            | label l' _ _ h hi first hc' =>
              injection h with h
              subst h
              exfalso
              rcases Nat.lt_trichotomy (l.idxOf s) mid with h | h | h
              · omega
              · omega
              · exact hfirst _ h hi
      · rw [if_neg hs]
        constructor
        · intro e; cases e
        · intro e
          cases e with
          | label l' _ _ h hi _ _ =>
            injection h with h
            subst h
            exact absurd (List.mem_of_getElem? hi) hs

/-- Everything but the cache. -/
def SameData (f f' : File) : Prop := { f' with cache := f.cache } = f

/-- The cache has what an interpolation would give. -/
def Sound (f : File) : Prop :=
  ∀ g, f.interp = some g → ∀ k r, f.cache.lookup k = some r → r = if k.1 then g (micTable f k.2).1 (micTable f k.2).2 else g (sourceTable f k.2).1 (sourceTable f k.2).2

theorem direction_eq (v : ℝ × ℝ × ℝ) : vec (spher2cart (cart2spher v).1 (some (cart2spher v).2.1) 1 false) = direction v := by
  have h := (C45_round_trip v).1
  unfold direction
  simp only
  by_cases hr : Real.sqrt (v.1 ^ 2 + v.2.1 ^ 2 + v.2.2 ^ 2) = 0
  · rw [if_pos hr]
    obtain ⟨x, y, z⟩ := v
    simp only at hr
    rw [Real.sqrt_eq_zero (by positivity)] at hr
    have hx : x = 0 := by nlinarith [sq_nonneg x, sq_nonneg y, sq_nonneg z]
    have hy : y = 0 := by nlinarith [sq_nonneg x, sq_nonneg y, sq_nonneg z]
    have hz : z = 0 := by nlinarith [sq_nonneg x, sq_nonneg y, sq_nonneg z]
    subst hx hy hz
    have h0 : arctan2 0 0 = 0 := by
      unfold arctan2
      have : (⟨0, 0⟩ : ℂ) = 0 := rfl
      rw [this, Complex.arg_zero]
    simp [vec, spher2cart, cart2spher, h0]
  · rw [if_neg hr]
    have hr' : (cart2spher v).2.2 ≠ 0 := hr
    have e : ∀ a c r : ℝ, spher2cart a (some c) r false = (r * (Real.cos a * Real.sin c), r * (Real.sin a * Real.sin c), r * Real.cos c) := by
      intro a c r
      simp [spher2cart, mul_assoc]
    rw [e] at h ⊢
    have h1 := congrArg Prod.fst h
    have h2 := congrArg (fun t => t.2.1) h
    have h3 := congrArg (fun t => t.2.2) h
    simp only at h1 h2 h3
    have hrr : Real.sqrt (v.1 ^ 2 + v.2.1 ^ 2 + v.2.2 ^ 2) = (cart2spher v).2.2 := rfl
    rw [hrr]
    generalize (cart2spher v).2.2 = r at *
    rw [← h1, ← h2, ← h3]
    funext c
    fin_cases c <;> simp [vec] <;> field_simp

theorem mic_eq (f : File) (id : Id) : f.mic id = (checkedIndex id f.micLabels f.nMic).map fun mid => f.interpolate true mid (micTable f mid).1 (micTable f mid).2 := by
  unfold File.mic
  cases checkedIndex id f.micLabels f.nMic with
  | error e => rfl
  | ok mid =>
    change Except.ok _ = Except.ok _
    congr 1
    unfold micTable
    simp [vec, spher2cart]

theorem source_eq (f : File) (id : Id) : f.source id = (checkedIndex id f.srcLabels f.nSrc).map fun mid => f.interpolate false mid (sourceTable f mid).1 (sourceTable f mid).2 := by
  unfold File.source
  cases checkedIndex id f.srcLabels f.nSrc with
  | error e => rfl
  | ok mid =>
    change Except.ok _ = Except.ok _
    congr 1
    unfold sourceTable
    simp only [direction_eq]

theorem interpolate_spec {f : File} (hs : Sound f) (mic : Bool) (mid : Nat) :
    let t := if mic then micTable f mid else sourceTable f mid
    (f.interpolate mic mid t.1 t.2).1 = delivered f t ∧ Sound (f.interpolate mic mid t.1 t.2).2 ∧ SameData f (f.interpolate mic mid t.1 t.2).2 := by
  intro t
  unfold File.interpolate delivered
  cases hi : f.interp with
  | none => exact ⟨rfl, hs, rfl⟩
  | some g =>
    simp only
    cases hl : f.cache.lookup (mic, mid) with
    | some r =>
      refine ⟨?_, hs, rfl⟩
      have := hs g hi _ _ hl
      simp only at this ⊢
      rw [this]
      cases mic <;> rfl
    | none =>
      refine ⟨rfl, ?_, ?_⟩
      swap
      · change ({ f with interp := some g } : File) = f
        rw [← hi]
      intro g' hg k r hk
      have hg : some g = some g' := hg
      injection hg with hg
      subst hg
      simp only [List.lookup] at hk
      by_cases hkk : k = (mic, mid)
      · subst hkk
        simp only [BEq.rfl] at hk
        injection hk with hk
        rw [← hk]
        cases mic <;> rfl
      · have : (k == (mic, mid)) = false := by simpa using hkk
        rw [this] at hk
        exact hs g hi k r hk

theorem SameData.trans {f f' f'' : File} (h : SameData f f') (h' : SameData f' f'') : SameData f f'' := by
  unfold SameData at *
  rw [← h, ← h']

theorem perform_spec {f : File} (hs : Sound f) (c : Call) {r : (List V × List (List ℝ)) × File} (h : perform f c = .ok r) : Sound r.2 ∧ SameData f r.2 := by
  cases c with
  | mic id =>
    unfold perform at h
    simp only at h
    rw [mic_eq] at h
    cases hc : checkedIndex id f.micLabels f.nMic with
    | error e => rw [hc] at h; cases h
    | ok mid =>
      rw [hc] at h
      injection h with h
      rw [← h]
      exact (interpolate_spec hs true mid).2
  | source id =>
    unfold perform at h
    simp only at h
    rw [source_eq] at h
    cases hc : checkedIndex id f.srcLabels f.nSrc with
    | error e => rw [hc] at h; cases h
    | ok mid =>
      rw [hc] at h
      injection h with h
      rw [← h]
      exact (interpolate_spec hs false mid).2

theorem history_spec {f : File} (hs : Sound f) (calls : List Call) : Sound (history f calls) ∧ SameData f (history f calls) := by
  induction calls generalizing f with
  | nil => exact ⟨hs, rfl⟩
  | cons c t ih =>
    unfold history
    cases h : perform f c with
    | error e => exact ih hs
    | ok r =>
      obtain ⟨h1, h2⟩ := perform_spec hs c h
      obtain ⟨h3, h4⟩ := ih h1
      exact ⟨h3, h2.trans h4⟩

/-- **C88** (files). After any history of calls on a file that was just read, whatever raised, the data for a microphone are the responses from all sources to it, on the
directions of the sources, and the data for a source are the responses to all microphones, on the directions of the microphones; interpolated when an order was given. -/
theorem C88_file {f : File} (hf : f.cache = []) (calls : List Call) {id : Id} {mid : Nat} :
    (Selects f.micLabels f.nMic id mid → ((history f calls).mic id).map Prod.fst = .ok (delivered f (micTable f mid))) ∧
    (Selects f.srcLabels f.nSrc id mid → ((history f calls).source id).map Prod.fst = .ok (delivered f (sourceTable f mid))) := by
  have hs : Sound f := by
    intro g _ k r hk
    rw [hf] at hk
    cases hk
  obtain ⟨h1, h2⟩ := history_spec hs calls
  generalize history f calls = f' at *
  constructor
  · intro h
    have hsel : Selects f'.micLabels f'.nMic id mid := by
      unfold SameData at h2
      rw [← h2] at h
      exact h
    rw [mic_eq, checkedIndex_iff.2 hsel]
    change Except.ok _ = Except.ok _
    congr 1
    have := (interpolate_spec h1 true mid).1
    simp only [if_true] at this
    rw [this, ← h2]
    rfl
  · intro h
    have hsel : Selects f'.srcLabels f'.nSrc id mid := by
      unfold SameData at h2
      rw [← h2] at h
      exact h
    rw [source_eq, checkedIndex_iff.2 hsel]
    change Except.ok _ = Except.ok _
    congr 1
    have := (interpolate_spec h1 false mid).1
    simp only [Bool.false_eq_true, if_false] at this
    rw [this, ← h2]
    rfl

/-- The positions of the microphones do not change and go with the same identifiers. -/
theorem C88_position {f : File} (hf : f.cache = []) (calls : List Call) {id : Id} {mid : Nat} (h : Selects f.micLabels f.nMic id mid) : (history f calls).micPosition id = .ok (f.micLoc mid) := by
  have hs : Sound f := by
    intro g _ k r hk
    rw [hf] at hk
    cases hk
  obtain ⟨_, h2⟩ := history_spec hs calls
  generalize history f calls = f' at *
  unfold SameData at h2
  have hsel : Selects f'.micLabels f'.nMic id mid := by
    rw [← h2] at h
    exact h
  unfold File.micPosition
  rw [checkedIndex_iff.2 hsel, ← h2]
  rfl

/-- **C88** (identifiers). Everything that is not a number within the range or a known label raises `ValueError`, in the three methods; `KeyError` is never raised. -/
theorem C88_unknown (f : File) (id : Id) :
    ((∀ mid, ¬ Selects f.micLabels f.nMic id mid) → f.mic id = .error .valueError ∧ f.micPosition id = .error .valueError) ∧
    ((∀ mid, ¬ Selects f.srcLabels f.nSrc id mid) → f.source id = .error .valueError) := by
  have key : ∀ (labels : Option (List String)) (count : Nat), (∀ mid, ¬ Selects labels count id mid) → checkedIndex id labels count = .error .valueError := by
    intro labels count h
    cases hc : checkedIndex id labels count with
    | ok mid => exact absurd (checkedIndex_iff.1 hc) (h mid)
    | error e =>
      congr 1
      unfold checkedIndex measurementIndex at hc
      cases id with
      | int i =>
        change (if 0 ≤ i ∧ i < count then Except.ok i.toNat else Except.error Err.valueError) = _ at hc
        split_ifs at hc
        injection hc with hc
        exact hc.symm
      | label s =>
        cases labels with
        | none => injection hc with hc; exact hc.symm
        | some l =>
          simp only at hc
          by_cases hs : s ∈ l
          · rw [if_pos hs] at hc
            change (if (0 : Int) ≤ (l.idxOf s : Int) ∧ (l.idxOf s : Int) < count then Except.ok ((l.idxOf s : Int)).toNat else Except.error Err.valueError) = _ at hc
            split_ifs at hc
            injection hc with hc
            exact hc.symm
          · rw [if_neg hs] at hc
            injection hc with hc
            exact hc.symm
  refine ⟨fun h => ⟨?_, ?_⟩, fun h => ?_⟩
  · unfold File.mic
    rw [key _ _ h]
    rfl
  · unfold File.micPosition
    rw [key _ _ h]
    rfl
  · unfold File.source
    rw [key _ _ h]
    rfl

/-- **C88** (labels). Labels given by the caller replace those of the file when there is one for each measurement and are refused otherwise. -/
theorem C88_labels (given : List String) (fromFile : Option (List String)) (count : Nat) :
    chooseLabels none fromFile count = .ok fromFile ∧ (given.length = count → chooseLabels (some given) fromFile count = .ok (some given)) ∧
      (given.length ≠ count → chooseLabels (some given) fromFile count = .error .valueError) := by
  refine ⟨rfl, fun h => ?_, fun h => ?_⟩
  · unfold chooseLabels
    simp [h]
  · unfold chooseLabels
    simp [h]

/-! ## The abstract class -/

/-- **C88** (deviation). A subclass that has neither of the two methods is accepted although `TypeError` is documented: every subclass is. -/
theorem C88_subclass_deviation (cartesian angles : Method) : initSubclass cartesian angles = none := by
  unfold initSubclass
  cases cartesian <;> simp

/-- **C88** (deviation). The default `get_response` hands `get_response_cartesian` three rows whatever the number of directions, so a pattern that has one value per row returns three. -/
theorem C88_base_deviation {α : Type} (pattern : List ℝ → α) (azimuth colatitude : List ℝ) (degrees : Bool) : (baseResponse (List.map pattern) azimuth colatitude degrees).length = 3 := by
  simp [baseResponse]

/-! ## Concrete cases -/

/-- Two measurements, above and below. -/
def poles : Fin 2 → V := ![![0, 0, 1], ![0, 0, -1]]

/-- The measurements of the poles in one band: twice as much energy above, equal areas. -/
noncomputable def polesMeas : Except Err (Meas 2 1) := Meas.new (fun _ => .ok fun _ => 1) (fun _ => 1) (fun ir _ => ir.sum) (some 1) (some poles) ![[2], [1]]

theorem polesMeas_ok : ∃ m, polesMeas = .ok m ∧ Positive m ∧ m.areas = (fun _ => 1) ∧ perDirection m.energies 0 = 2 := by
  have : ∃ m, polesMeas = .ok m := ⟨_, rfl⟩
  obtain ⟨m, hm⟩ := this
  obtain ⟨areas, h1, _, _, h2, h3, _⟩ := new_eq hm
  injection h1 with h1
  have h30 : m.energies 0 0 = 2 := by
    rw [h3]
    simp [bandEnergies]
  have h31 : m.energies 1 0 = 1 := by
    rw [h3]
    simp [bandEnergies]
  refine ⟨m, hm, ⟨fun i b => ?_, ⟨0, 0, by rw [h30]; norm_num⟩, fun i => ?_⟩, ?_, ?_⟩
  · have hb : b = 0 := Subsingleton.elim _ _
    subst hb
    fin_cases i
    · change 0 ≤ m.energies 0 0
      rw [h30]; norm_num
    · change 0 ≤ m.energies 1 0
      rw [h31]; norm_num
  · rw [h2, ← h1]; norm_num
  · rw [h2, ← h1]
  · unfold perDirection
    rw [Fin.sum_univ_one, h30]

/-- A search that finds a nearest point exists. -/
theorem exists_finds (n : Nat) [NeZero n] : ∃ query : (Fin n → V) → V → Fin n, Finds query := by
  have : ∀ (g : Fin n → V) (x : V), ∃ i, Nearest g x i := by
    intro g x
    obtain ⟨i, hi⟩ := Finite.exists_min fun i => (g i - x) ⬝ᵥ (g i - x)
    exact ⟨i, hi⟩
  choose q hq using this
  exact ⟨q, hq⟩

/-- The hypotheses of `C88_response`, `C88_rotation` and `C88_orientation` can be met. -/
example : ∃ (query : (Fin 2 → V) → V → Fin 2) (m : Meas 2 1), Finds query ∧ Orthogonal 1 ∧ (∀ i, poles i ⬝ᵥ poles i = 1) ∧ polesMeas = .ok m ∧
    ∀ i k, Nearest poles ((1 : Matrix (Fin 3) (Fin 3) ℝ)ᵀ *ᵥ ![0, 0, 1]) i → Nearest poles ((1 : Matrix (Fin 3) (Fin 3) ℝ)ᵀ *ᵥ ![0, 0, 1]) k → i = k := by
  obtain ⟨q, hq⟩ := exists_finds 2
  obtain ⟨m, hm, _⟩ := polesMeas_ok
  refine ⟨q, m, hq, by simp [Orthogonal], ?_, hm, ?_⟩
  · intro i
    fin_cases i <;> simp [poles, dotProduct, Fin.sum_univ_three]
  · have h0 : ∀ i, Nearest poles ((1 : Matrix (Fin 3) (Fin 3) ℝ)ᵀ *ᵥ ![0, 0, 1]) i → i = 0 := by
      intro i hi
      fin_cases i
      · rfl
      · have := hi 0
        simp only [poles, dotProduct, Fin.sum_univ_three] at this
        simp at this
        norm_num at this
    intro i k hi hk
    rw [h0 i hi, h0 k hk]

/-- The hypotheses of `C88_energy` can be met: two points of mass one, in the upper and the lower half of space. -/
example : ∃ (query : (Fin 2 → V) → V → Fin 2) (m : Meas 2 1) (σ : Measure V), polesMeas = .ok m ∧ Positive m ∧ IsFiniteMeasure σ ∧ (∀ i, MeasurableSet {x | query m.grid x = i}) ∧
    ∀ i, σ.real {x | query m.grid x = i} = m.areas i := by
  classical
  obtain ⟨m, hm, hp, ha, _⟩ := polesMeas_ok
  refine ⟨fun _ x => if 0 ≤ x 2 then 0 else 1, m, Measure.dirac ![0, 0, 1] + Measure.dirac ![0, 0, -1], hm, hp, inferInstance, ?_, ?_⟩
  · have h1 : MeasurableSet {x : V | 0 ≤ x 2} := measurableSet_le measurable_const (measurable_pi_apply 2)
    intro i
    fin_cases i
    · convert h1 using 1
      ext x
      by_cases h : 0 ≤ x 2 <;> simp [h]
    · convert h1.compl using 1
      ext x
      by_cases h : 0 ≤ x 2
      · simp [h]
      · simp [h, not_le.1 h]
  · intro i
    rw [ha, measureReal_def, Measure.add_apply, Measure.dirac_apply, Measure.dirac_apply]
    have n1 : ¬ (1 : ℝ) ≤ 0 := by norm_num
    have n2 : ¬ (1 : ℝ) < 0 := by norm_num
    fin_cases i <;> simp [Set.indicator, n1, n2]

/-- The hypotheses of `C88_random_rays` can be met. -/
example : ∃ (query : (Fin 2 → V) → V → Fin 2) (m : Meas 2 1) (draw : Nat → Unit → List (V × ℝ) × Unit) (l : _), polesMeas = .ok m ∧ Positive m ∧ Draws draw ∧ (∀ k rng, ∀ p ∈ (draw k rng).1, 0 ≤ p.2) ∧
    m.sampleRaysRng query draw 6 5 () = some l := by
  classical
  obtain ⟨m, hm, hp, _, h0⟩ := polesMeas_ok
  obtain ⟨_, _, _, _, _, _, _, h1, _⟩ := new_eq hm
  let draw : Nat → Unit → List (V × ℝ) × Unit := fun k u => (List.replicate k (![0, 0, 1], 0), u)
  have hacc : ∀ n rng, 0 < n → ∃ p ∈ (draw n rng).1, Accept (m.sampler fun _ _ => 0) p := by
    intro n rng hn
    refine ⟨(![0, 0, 1], 0), by simp [draw, hn.ne'], ?_⟩
    have := maxOf_pos hp
    change (0 : ℝ) * _ * _ < m.pattern 0
    rw [h1, zero_mul, zero_mul]
    beta_reduce
    rw [h0]
    positivity
  obtain ⟨r, hr⟩ := Option.isSome_iff_exists.1 (C54_ends (m.sampler fun _ _ => 0) hacc (.int 5) () (fuel := 6) (by simp [Size.orOne, Size.flat]))
  obtain ⟨s', out⟩ := r
  have hd : Draws draw := fun n rng => by simp [draw]
  obtain ⟨batches, _, _, _, _, hout, _⟩ := C54_samples hd hr
  obtain ⟨sh, hout, _, _⟩ := hout (by simp)
  refine ⟨fun _ _ => 0, m, draw, (accepted (Accept (m.sampler fun _ _ => 0)) batches).map fun x => (x, fun b => coeffRandom m 0 b / (4 * Real.pi)), hm, hp, hd, ?_, ?_⟩
  · intro k rng p hp
    rw [(List.mem_replicate.1 hp).2]
  · unfold Meas.sampleRaysRng
    rw [hr, Option.bind_some]
    simp only [hout]

/-- The hypotheses of `C88_file`, `C88_position` and `C88_labels` can be met: two microphones, the second of them chosen by its label. -/
example : Selects (some ["left", "right"]) 2 (.label "right") 1 ∧ ∀ mid, ¬ Selects (some ["left", "right"]) 2 (.label "top") mid := by
  refine ⟨.label _ _ _ rfl rfl (by decide) (by decide), ?_⟩
  intro mid h
  cases h with
  | label l _ _ h hi _ _ =>
    injection h with h
    subst h
    have := List.mem_of_getElem? hi
    simp at this

end Verif.Measured
