import Verif.Bands.Model
import Verif.DFT
import Mathlib.Algebra.Order.Round

/-!
# Model of the octave filter banks

`pyroomacoustics/acoustics.py`: `cosine_magnitude_octave_filter_response` (182-233), `OctaveBandsFactory` (362-528),
`antoni_magnitude_octave_filter_response` (236-289), `AntoniOctaveFilterBank.wavelet_analysis`, `wavelet_synthesis`, `energy`,
`analysis`, `synthesis` (634-863), without the minimum phase option. Bins are counted from zero; an array over bins is a function. `scipy.signal.fftconvolve`
is the linear convolution, with `mode="same"` the centred part of the length of the first argument.
-/

namespace Verif.Bands

open Py (Err)
open Finset Verif.DFT

/-! ## Cosine filter bank -/

/-- `new_bands[b]` (192-196) for at least two centres. -/
noncomputable def newBand (centers : List ℝ) (fs : ℝ) (b : Nat) : ℝ × ℝ :=
  let n := centers.length
  if b = 0 then (centers.getD 0 0 / 2, centers.getD 1 0)
  else if b < n - 1 then (centers.getD (b - 1) 0, centers.getD (b + 1) 0)
  else (centers.getD (n - 2) 0, fs / 2)

/-- The magnitude of band `b` at the frequency `f` (203-219). -/
noncomputable def cosMag (centers : List ℝ) (fs : ℝ) (keepDc : Bool) (b : Nat) (f : ℝ) : ℝ :=
  let band := newBand centers fs b
  let center := centers.getD b 0
  let m : ℝ := 0
  let m :=
    if b = 0 ∧ keepDc = true then
      if f < center then 1 else m
    else
      if band.1 ≤ f ∧ f < center then 0.5 * (1 + Real.cos (2 * Real.pi * f / center)) else m
  if b ≠ centers.length - 1 then
    if center ≤ f ∧ f < band.2 then 0.5 * (1 - Real.cos (2 * Real.pi * f / band.2)) else m
  else
    if center ≤ f then 1 else m

open Classical in
/-- `cosine_magnitude_octave_filter_response` (182-233): the magnitude by band and bin. It fails for less than two bands (`centers[1]`) and if a band has no
bin with a positive magnitude (`f_nz[0]`). -/
noncomputable def cosineResponse (nfft : Nat) (centers : List ℝ) (fs : ℝ) (keepDc : Bool) : Except Err (Nat → Nat → ℝ) :=
  let mag := fun b k : Nat => cosMag centers fs keepDc b ((k : ℝ) / nfft * fs)
  if centers.length < 2 then .error .indexError
  else if ∃ b < centers.length, ∀ k ≤ nfft / 2, ¬mag b k > 0 then .error .indexError
  else .ok mag

/-- The phase that delays the filters (508-511). -/
noncomputable def cosDelay (nfft k : Nat) : ℂ := Complex.exp (2 * Complex.I * Real.pi * k * ((nfft / 2 + 1 : Nat) : ℂ) / nfft)

/-- `OctaveBandsFactory._make_filters` (498-528) without minimum phase: the sample `t` of the filter of band `b`. -/
noncomputable def cosFilter (nfft : Nat) (mag : Nat → Nat → ℝ) (b t : Nat) : ℝ :=
  irfft nfft (fun k => (mag b k : ℂ) * cosDelay nfft k) t

/-- `fftconvolve(x, h, mode="same")` for `h` with `n` samples. -/
noncomputable def convSame (x : List ℝ) (n : Nat) (h : Nat → ℝ) (t : Nat) : ℝ :=
  let start := (x.length + n - 1 - x.length) / 2
  ∑ j ∈ range x.length, x.getD j 0 * (if j ≤ start + t ∧ start + t - j < n then h (start + t - j) else 0)

/-- `OctaveBandsFactory.analysis` (426-461) with `mode="same"`: sample `t` of band `b`. -/
noncomputable def cosAnalysis (nfft : Nat) (mag : Nat → Nat → ℝ) (x : List ℝ) (b t : Nat) : ℝ :=
  convSame x nfft (cosFilter nfft mag b) t

/-- `OctaveBandsFactory.synthesis` (463-482) without minimum phase. -/
noncomputable def cosSynthesis (nfft : Nat) (mag : Nat → Nat → ℝ) (coeffs : List ℝ) (t : Nat) : ℝ :=
  ∑ b ∈ range coeffs.length, coeffs.getD b 0 * cosFilter nfft mag b t

/-! ## Antoni's filter bank -/

open Classical in
/-- `np.round`: to the nearest integer, halves to the even one. -/
noncomputable def npRound (x : ℝ) : Int :=
  if Int.fract x < 1 / 2 then ⌊x⌋
  else if Int.fract x = 1 / 2 then (if ⌊x⌋ % 2 = 0 then ⌊x⌋ else ⌊x⌋ + 1)
  else ⌊x⌋ + 1

/-- The positions of the bands: lower edge, half width of the transition, centre. -/
structure AntoniBins where
  n : Nat
  nfreq : Nat
  k1 : Nat → Int
  P : Nat → Int
  km : Nat → Int

/-- Lines 245-259 for octave bands (`div = 1`) or third octave bands (`div = 3`). -/
noncomputable def antoniBins (fc fs : ℝ) (div nOct nfft : Nat) (overlap : ℝ) : AntoniBins :=
  let centers := octaveCenters fc div nOct
  let bands := octaveEdges fc div nOct
  let k1 := fun b : Nat => npRound ((bands.getD b (0, 0)).1 / fs * nfft)
  let km := fun b : Nat => npRound (centers.getD b 0 / fs * nfft)
  let k2 := fun b : Nat => npRound ((bands.getD b (0, 0)).2 / fs * nfft)
  let P := fun b : Nat => npRound (overlap * ((k2 b : ℝ) - km b))
  ⟨centers.length, nfft / 2 + 1, fun b => if b = 0 then 0 else k1 b, P, km⟩

/-- `phi` (267-271). -/
noncomputable def antoniPhi (slope : Nat) (p P : Int) : ℝ :=
  0.5 * ((fun x => Real.sin (Real.pi / 2 * x))^[slope] ((p : ℝ) / P) + 1)

/-- One pass of the loop (262-286) on the array `G`. The slices are in the array, see `AntoniBins.InRange`. -/
noncomputable def antoniStep (a : AntoniBins) (slope : Nat) (G : Nat → Int → ℝ) (band : Nat) : Nat → Int → ℝ :=
  let lo := a.k1 band - a.P band
  let hi := a.k1 band + a.P band
  let G := if a.P band > 0 then
      let G := fun b k => if b = band - 1 ∧ lo ≤ k ∧ k < hi + 1 then Real.cos (Real.pi / 2 * antoniPhi slope (k - a.k1 band) (a.P band)) else G b k
      fun b k => if b = band ∧ lo ≤ k ∧ k < hi + 1 then Real.sin (Real.pi / 2 * antoniPhi slope (k - a.k1 band) (a.P band)) else G b k
    else G
  let G := fun b k => if b = band - 1 ∧ hi ≤ k then 0 else G b k
  fun b k => if b = band ∧ k < lo then 0 else G b k

/-- The array `G` (257-286); outside of the bins it is zero (the padding of `wavelet_analysis`, 681-686). -/
noncomputable def antoniG (a : AntoniBins) (slope : Nat) (b : Nat) (k : Int) : ℝ :=
  if 0 ≤ k ∧ k < a.nfreq then (List.range (a.n - 1)).foldl (fun G i => antoniStep a slope G (i + 1)) (fun _ _ => 1) b k else 0

/-- `k_low` and `k_high` (261, 284-287). -/
def AntoniBins.low (a : AntoniBins) (b : Nat) : Int := if b = 0 then 0 else a.k1 b - a.P b
@[inherit_doc AntoniBins.low]
def AntoniBins.high (a : AntoniBins) (b : Nat) : Int := if b + 1 < a.n then a.k1 (b + 1) + a.P (b + 1) else a.nfreq

/-- `Nm` (676). -/
noncomputable def AntoniBins.half (a : AntoniBins) (b : Nat) : Nat := (⌈((a.high b - a.low b : Int) : ℝ) / 2⌉).toNat

/-- `W_np` (700-704) for the half length `N`, the window `g` and the spectrum `X` at the `2 N` bins of the band. -/
noncomputable def antoniW (N : Nat) (g : Nat → ℝ) (X : Nat → ℂ) (m : Nat) : ℂ :=
  let Wpos := dft (2 * N) fun i => (g i : ℂ) * X i
  let Wneg := fun n => (starRingEnd ℂ) (dft (2 * N) (fun i => (g i : ℂ) * (starRingEnd ℂ) (X i)) n)
  if m < N - 1 then Wneg (N - 1 - m) else Wpos (m - (N - 1))

/-- The coefficients of one band (688-705); `d` is `km[band] - k1[band]`. -/
noncomputable def antoniCoeff (band N : Nat) (d : Int) (g : Nat → ℝ) (X : Nat → ℂ) (m : Nat) : ℂ :=
  let delta := Real.sqrt (1 / (2 * N))
  Complex.I ^ band * delta * Complex.exp (Complex.I * Real.pi * d * ((m : ℂ) - N + 1) / N) * antoniW N g X m

/-- The spectrum of one band from its coefficients (749-762), at the `2 N` bins of the band. -/
noncomputable def antoniFilt (band N : Nat) (d : Int) (g : Nat → ℝ) (coeffs : Nat → ℂ) (i : Nat) : ℂ :=
  let delta := Real.sqrt (1 / (2 * N))
  let factor := (-Complex.I) ^ band * g i * delta
  let cexp1 := Complex.exp (-Complex.I * Real.pi * ((i : ℂ) - d) * (N - 1) / N)
  let cexp2 := fun m : Nat => Complex.exp (-Complex.I * Real.pi * d * m / N)
  factor * cexp1 * (starRingEnd ℂ) (dft (2 * N) (fun m => (starRingEnd ℂ) (cexp2 m * coeffs m)) i)

/-- The spectrum of the signal (670): `n` is the length of the transform. -/
noncomputable def antoniSpectrum (nfft : Nat) (x : Nat → ℝ) (k : Nat) : ℂ := rfft nfft x k / (Real.sqrt nfft : ℂ)

/-- The coefficients of band `b` of a signal (664-705). The bins behind the end are zero (678-686). -/
noncomputable def antoniAnalysisCoeff (a : AntoniBins) (slope nfft : Nat) (x : Nat → ℝ) (b m : Nat) : ℂ :=
  antoniCoeff b (a.half b) (a.km b - a.low b) (fun i => antoniG a slope b (a.low b + i))
    (fun i => if (a.low b + i).toNat < a.nfreq then antoniSpectrum nfft x (a.low b + i).toNat else 0) m

/-- The spectrum `X_filt` of band `b` (742-762) from the coefficients. -/
noncomputable def antoniXfilt (a : AntoniBins) (slope : Nat) (coeffs : Nat → Nat → ℂ) (b k : Nat) : ℂ :=
  if a.low b ≤ k ∧ (k : Int) < a.low b + 2 * a.half b then
    antoniFilt b (a.half b) (a.km b - a.low b) (fun i => antoniG a slope b (a.low b + i)) (coeffs b) (k - a.low b).toNat
  else 0

/-- `wavelet_synthesis` (713-766): sample `t` of band `b`. -/
noncomputable def antoniSynthesis (a : AntoniBins) (slope nfft : Nat) (coeffs : Nat → Nat → ℂ) (b t : Nat) : ℝ :=
  irfft nfft (antoniXfilt a slope coeffs b) t * Real.sqrt nfft

/-- `analysis` (787-813). -/
noncomputable def antoniAnalysis (a : AntoniBins) (slope nfft : Nat) (x : Nat → ℝ) (b t : Nat) : ℝ :=
  antoniSynthesis a slope nfft (antoniAnalysisCoeff a slope nfft x) b t

/-- `energy` (768-785) of one signal. -/
noncomputable def antoniEnergy (a : AntoniBins) (slope nfft : Nat) (x : Nat → ℝ) (b : Nat) : ℝ :=
  2 * ∑ m ∈ range (2 * a.half b), Complex.normSq (antoniAnalysisCoeff a slope nfft x b m)

/-- `synthesis` (815-863) without minimum phase: the bands of a unit impulse in the middle, each multiplied by its coefficient, summed up. -/
noncomputable def antoniDesign (a : AntoniBins) (slope nfft : Nat) (length : Nat) (coeffs : List ℝ) (t : Nat) : ℝ :=
  ∑ b ∈ range a.n, antoniSynthesis a slope nfft
    (fun b m => antoniAnalysisCoeff a slope nfft (fun s => if s = length / 2 then 1 else 0) b m * (coeffs.getD b 0 : ℂ)) b t

end Verif.Bands
