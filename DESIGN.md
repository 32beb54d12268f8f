# Formal model of pyroomacoustics: design

## Layout

* `properties.jsonl` - the English properties (C01, C02, ...).
* `lean/Verif/<Area>/Model.lean` - executable/shallow model of the code. Each
  definition cites the file and lines of `/repo` it models and says where it is
  simplified.
* `lean/Verif/<Area>/Lemmas.lean` - helper lemmas (nothing here is a claim).
* `lean/Verif/<Area>/Props.lean` - the specification (small, independent of the
  helpers of the model) and the property theorems `Cnn_...`, each followed by an
  `example` showing that a concrete non-trivial case meets the hypotheses.
* `MANIFEST.json` - property -> theorems.
* `seeded/LOG.jsonl` - mutation experiments.

Python exceptions / C++ throws are modelled as `Except`/`Option` values. Arrays
are lists or functions on `Fin n`/`Nat` with explicit lengths.

## Trusted base

* Lean 4 kernel. Theorems depend at most on `propext`, `Classical.choice`,
  `Quot.sound`. No axioms of our own, no `sorry`, no `native_decide`/`bv_decide`.
* The hand translation of the code into the model (the comments give the lines).
* Floating point: samples and coordinates are elements of an exact field
  (`ℝ`, `ℂ`, or an arbitrary (ordered) field). Rounding, overflow, NaN are not
  modelled unless stated.
* numpy/scipy/Eigen primitives (FFT, dot, sort, ...) are modelled by their
  mathematical specification. Python object identity is modelled only where the
  property is about it (aliasing).
* Not modelled: plotting, file and network I/O, wav handling, dataset
  downloads, third-party solvers (eig, lstsq), probability distributions of
  random numbers (random streams are universally quantified inputs).

## Plan per property

| id | model | proof |
|----|-------|-------|
| C01 | `Buffer` as list + head index; push/flush/top/getitem, errors explicit | simulation relation to a list queue, induction over operation history |
| C02 | `Powers` cache as list, accesses int/slice/list | invariant cache = a^0..a^(len-1) over histories |
| C03 | `CoinFlipper` over an abstract stream of labelled coins | invariant over histories: outputs are pairwise distinct draws |
| C04 | `Histogram2D` as (rows, cols, cell function), growth via `get_new_size` | invariant: cell = sum over matching events; growth preserves |
| C05 | `Microphone.log_histogram` on top of C04 | sum of bins = sum of hits by induction |
| C06,C07 | loops of `image_source_shoebox` as list comprehension in loop order | Nodup + membership iff L1 ball; length = closed formula by induction |
| C08,C09 | location/attenuation formulas with C++ truncating division | against alternating-reflection walk, induction on integers |
| C10,C11,C13 | block partition, per-thread accumulators, LUT interpolation, bounds checks | partition lemma, sum reordering, index inequalities |
| C12 | transition system of pool (queue, workers, stop, destructor) | invariants over all interleavings |
| C14-C16 | STFT state machine (state buffer, overlap buffer, windows, padding, DFT) | invariants over call histories; finite sum manipulations; DFT convolution theorem |
| C17-C19 | adaptive filter state machines | induction over samples; Sherman-Morrison/Woodbury |
| C20,C21 | circulant embedding and DFT | circular convolution theorem; orthogonal projection |
| C22-C24 | correlate, levinson, autocorr, convmtx, goertzel | index arithmetic over finite sums; recursion invariants |
| C25-C29, C64, C65 | geometry over ℝ; the SVD in the constructor of `Wall<3>` is replaced by the hypothesis that it returns an orthonormal basis of the plane | algebra, telescoping sums over closed polygons, winding number of triangulations |
| C66 | depth first search on image source objects with parents | induction on the search depth / on the wall sequence |
| C30 | `from_corners` corner flip logic | counterexample + partial for positively oriented polygons |
| C31,C32 | map model; affine formulas; decision tree | induction on histories; linear arithmetic |
| C33,C34 | interpolation/clip; cosine windows | case analysis, trigonometry |
| C35,C36 | closed formulas over ℝ | field algebra; counterexamples where the code deviates |
| C37,C38 | mixing loop of `simulate` | finite sums; lengths |
| C39-C41 | room/mic array state machines with object identity | invariants, counterexamples for stale caches |
| C42-C44 | peak finding on lists | list reasoning |
| C45,C46 | real trigonometry, `Complex.arg` | algebra |
| C47-C51 | state machines / finite sums | induction over histories, completing the square |
| C52-C55 | matrices, formulas, streams | algebra, induction |
| C56, C72, C73 | `simul_ray` with `next_wall_hit` and `scat_ray`, any dimension; intersection with a wall arbitrary | bound on the steps, induction over the loop |
| C85 | `findNonConvex`; the convex hull routine is a parameter with the specification `IsHull` (supporting planes, completeness) | heights above planes are affine; convex combinations |
| C86 | `Bf` state, `process`, conversions between weights and filters; `lstsq` is a parameter that minimises | C16 for each channel and linearity; finite Fourier sums; orthogonal columns |
| C87 | `robustAreas`, `Hist`; `SphericalVoronoi`, `svd` (specification `IsSvd`), `argsort` (`Sorts`) and the k-d tree are parameters | area of a cell as the Lebesgue measure in (longitude, height); angles in increasing order continued around the circle; gaps; invariant of the histogram over all histories |
| C88 | `Verif/Measured/Model.lean` | Rotations keep distances, so nearest to the turned grid is nearest to the direction turned back; integral over a measure that is constant on cells as a finite sum; rays from the sampler by C54; invariant that the cache has what an interpolation would give, by induction over the history |
| C89 | `Verif/Engine/Model.lean` | Invariant that the options agree, over calls; ownership invariant (trees alive are a permutation of those of the receivers) over operations; a receiver with a deleted tree stays so until a step is undefined |
| C90 | `Verif/Spherical/{Model,Lemmas,Props}.lean`: random/{spherical,distributions,generator}.py on the numbers drawn; generators and the C++ engine as abstract states | polar coordinates of Mathlib (`toSphere`), invariance by isometries, slices of the sphere at fixed first coordinate, change of variables to the beta distribution; the Householder step is Mathlib's reflection; simulation argument between states for the seeds |
| C91 | `Verif/IsmIr`: `multi_convolve`, the branch of `compute_ism_rir` with measured directivities, the trim in `Room.compute_rir` | convolution as product of power series; circular convolution of length at least the linear length has no wrap-around; the sum over paths is the one of C69 with longer pulses; sum of Antoni's filters is a delayed unit sample (C68) |
| C92 | `Verif/DftObj`: class `DFT` with a heap of arrays, broadcasting, in-place multiplication | symbolic execution on the heap; `irfft_rfft` of `Verif/DFT` |
| C93 | `Verif/Windows`: all functions of `windows.py` | trigonometric identities; sum of roots of unity for the overlap; monotonicity by the sign of the derivative (Bohman) and termwise comparison of power series (Kaiser) |
| C94 | `Verif/Metrics` | counting in sorted lists; the number of samples below the median is binomial (union of boxes of the product measure over subsets); Chebyshev bounds the normal quantile, so positions stay inside; log x ≤ x - 1 for the flatness |
| C95 | `Verif/Levels` | powers as sums over positions; largest size of a list by induction; the factor of the noise makes the ratio of powers `10 ^ (snr / 10)` |
| C96 | `Verif/Prony` | orthogonality of least squares residuals; strong induction over samples for the responses; the response of zeros and poles is a convolution |
| C97 | `Verif/Delays`: `low_pass_dirac`, `fractional_delay`, `fractional_delay_filter_bank` with its flat index assignments, `resample` with shapes, blocks and choice of library | sinc at integers is zero except at zero; flat index is (row, column) by division with remainder; blocks of 128 concatenate to all channels by induction |
| C98 | `Verif/SoundSrc`: the class `SoundSource` (constructor, slices, orderings, getters, `wall_sequence`), `build_rir_matrix`, the assignments of `image_source_model` | membership in slices of ranges; permutations that sort; block filling by induction over the assignments; sinc decays like 1/(pi x) |
| C99 | `Wiener/Model.lean`: `IterativeWiener.__init__`, `compute_filtered_output`, `compute_speech_psd`, `compute_squared_gain`, `compute_wiener_filter`; NaN/inf as `none` | invariant over the frames; minimum phase of linear prediction (C63) keeps poles off the unit circle; `irfft (H · rfft v) ≠ 0` by Parseval |
| C100 | `Subband/Model.lean`: `SubbandLMS.reset`, `update`, sequences of updates | energy identity of the misalignment, telescoping sum; relational induction for the bands |
| C101 | `Cloud/Model.lean`: `PointCloud`: labels, `key2ind`, `EDM`, `fromEDM`, `classical_mds`, `trilateration`, `normalize`, `center`, `align`, `flatten`, `doa`; `eig`, `svd`, `argsort` as parameters; flag for the existence of `unicode` | double centring gives the Gram matrix; rank counts the positive eigenvalues; expansion in eigenvectors without orthonormality; rotations; Eckart-Young for the last direction |
| C102 | `Locate/Model.lean`: `tdoa_loc`, `tdoa`, `edm_line_search`; `lstsq` (minimum norm), `eigh` as parameters (`exists_lstsq`, `exists_eigh` show they exist) | the rows are equivalent to the squared range equations; circular against linear correlation on the padded length, phase transform of a delay is a pulse; rank of a distance matrix <= dim + 2, trace zero |
| C103 | `Deconv/Model.lean`: `deconvolve`, `wiener_deconvolve`; `lstsq` a parameter with spec `IsLstsq` (existence proved) | convolution theorem at padded length, rfft after irfft of real end coefficients, triangle inequality; weights of the complex least squares are real by minimal norm |
| C104 | `Sweep/Model.lean`: `window`, `exponential_sweep`, `linear_sweep`, `measure_ir`; `playrec` a parameter, plots and device numbers not modelled | derivative of the phase; symmetry of the Hann window; delays move through convolutions (power series); C103 |
| C105 | `Calib/Model.lean`: `DelayCalibration.run`, `calculate_speed_of_sound`; the sequence and `playrec` parameters, output numbers not negative | partial overlap of sequences of signs is strictly below full overlap; induction over the outputs with the invariant that the output signal is silent |
| C106 | `Cssm/Model.lean`: `CSSM._process`, `_coherent_sum` (doa/cssm.py:80-158), `WAVES._process`, `_construct_waves_matrix` (doa/waves.py:80-154). Eigenvectors, singular vectors and the peak finder are parameters with specifications (existence proved); the single precision of the WAVES matrix is not modelled | focusing matrices carry the wave model of each band to the reference; the sum of the source correlations is definite; the subspace theorem of MUSIC; for WAVES the eigenvalues beyond the rank equal the noise power, the weighted signal vectors span what the sources span |
| C107 | `Tops/Model.lean`: `TOPS._process` (doa/tops.py:78-143). Eigenvectors and the least singular value are parameters with specifications (existence proved); single precision not modelled | signal and noise spaces by the subspace theorem of MUSIC; a zero singular value is a vector that all blocks annihilate |
| C108 | `FastMnmf/Model.lean`: `fastmnmf` with all its arrays as state; the callback and warnings are not modelled, `pinv` is a parameter | one majorization lemma for all multiplicative updates; the row update through Cauchy-Schwarz as in C82; invariant of positivity through all epochs |
| C109 | `FastMnmf2/Model.lean`: `fastmnmf2` with all its arrays as state; shared einsum expressions come from `FastMnmf/Model.lean` | as C108; `eps` in the model of the powers is one more constant source |
| C110 | `MinPhase/Model.lean`: `magnitude_response_to_minimum_phase`; `scipy.signal.hilbert` written out from its definition | cepstrum of an even sequence is real and even; the factors of `hilbert` fold it to the causal side; uniqueness from the even part; Nyquist deviation from a geometric sum |
| C111 | `Mel/Model.lean`: `melscale`, `invmelscale`, `melfilterbank` | triangles from the two assignments by cases; partition of unity by induction over the filters; interval integrals |
| C112 | `Bark/Model.lean`: `critical_bands`, `bands_hz2s` with its loop that removes duplicates in place | the loop keeps the last of equal starts (induction over prefix and rest); adjacency is kept by every step |
| C113 | `RealHarm/Model.lean`: `real_sph_harm`, `get_response` of the directivity; scipy's complex harmonics are a parameter | a real harmonic is a combination of the complex ones of orders m and -m with a unitary matrix |
| C114 | `RegGrid/Model.lean`: `detect_regular_grid` with `np.unique`, `np.lexsort`, `np.allclose` | in lexicographic order the azimuth falls back at the end of each block, so that the colatitude has to grow there; as many strictly growing values as there are colatitudes are all of them |
| C115 | `SphInterp/Model.lean`: `cal_sph_basis`, `calculation_pinv_voronoi_cells`, `spherical_interpolation`; the harmonics, `np.linalg.pinv` and the Voronoi areas of irregular grids are parameters | the truncated pseudo-inverse does not depend on the decomposition, so that conjugation, which permutes the columns of the basis up to signs, leaves the matrix of the interpolation as it is; areas telescope |
| C116 | `Sparir/Model.lean`: `sparir` with the default `weights` and `gini` | the residual is linear in the vector; a real inverse transform counts the inner bins twice |
| C117 | `SparseIva/Model.lean`: `sparseauxiva` with `demixsparse` (loop over the first `k_freq` entries), the weights, covariances, the two column updates of an iteration, the reconstruction with `Sparir.sparir`, the assembly of the filters and `projection_back`; two channels, no callback | induction over the iterations with a relation between two runs: equal filters at the selected bins and equal outputs that vanish elsewhere; orthogonality for the projection |
| C118 | `Frida/Model.lean`: `FRIDA._visibilities` (frame selection, `cov_mtx_est`, cleaning with `eigh` as a parameter, `extract_off_diag` through `np.extract`), `build_mtx_amp`, `_gen_dirty_img` with its loop counter, the conversion to the azimuth of arrival | `extract` is a map over the list of pairs; the loop with the counter is a sum (induction); rank of the diagonal matrix for the cleaning |
| C119 | `FriAlg/Model.lean`: `cpx_mtx2real`, `hermitian_expan`, `coef_expan_mtx`, `output_shrink`, `linalg.toeplitz`, `Tmtx_ri`, `Rmtx_ri` and their reduced forms, the polynomial of `np.roots` and the conversion of its roots to azimuths; stacked real and imaginary parts are blocks | entries of the mirror matrices; both Toeplitz products are one convolution; Vandermonde and the number of roots for the recovery |
| C120 | `FriOpt/Model.lean`: `make_GtG_and_inv`, `lu_compute_mtx_obj_initial`, `compute_obj_val`, `compute_b` (with `use_lu`) and the two loops of `dirac_recon_ri_half_multiband_lu`; random filters are a given list, `linalg.solve` fails exactly for singular matrices | orthogonal decomposition of the energy, full row rank of the filter matrix (`Surjective.lean`), dimension count for symmetric filters (`Sources.lean`), invariants of the loops |
| C121 | `FriRecon/Model.lean`: `build_mtx_amp_ri`, `mtx_updated_G_multiband_new`, the loop of `pt_src_recon_multiband` (visibilities); the reconstruction of the directions, `nnls` and the pseudoinverse are parameters | Penrose equations give `Fᵀ(FFᵀ)⁻¹ = A` for an injective matrix (Vandermonde); the fixed point from C120; induction over the turns |
| C122 | `Trinicon/Model.lean`: all of `trinicon` except the branch `m * hop > S`, which is proved to be unreachable; `fftconvolve` is the convolution | refinement of the slices and convolutions to sums over time, induction over turns and blocks; equivariance and fixed point on the specification |
| C123 | `Timit/Model.lean`: the transcription loops of `Sentence.__init__`, the decoding of `_read_nist_wav`, the crawling of `build_corpus`; files are lists of split lines, `int` of a string is a parameter; text, plots, features and `get_word` are not modelled | induction over the lines with takeWhile/dropWhile; two's complement by induction over the bytes; invariant of the dictionary |
| C124 | `Arrays/Model.lean`: `distance`, the constructors of arrays (93-245), the places and azimuths of `circular_microphone_array_xyplane`, `steering_vector_2D`, `response`; random draws are parameters, `weights_from_filters` is a parameter (C86) | sums of centred numbers and roots of unity, invariant of the loop over rows, squeeze for the far field, irrationality of pi |
| C125 | `OctBands/Model.lean`: `octaveBands`, `nOctaves`, `cosBw`, `antoniBw`, `cosEnergy`, `binning`, `interpolateBands` | closed form of the edges as powers of two, telescoping sums, monotone rounding, inversion of the DFT |
| C126 | `Grids/Model.lean`: `setValues`, `gridCircle`, `gridSphere`, `minMaxDistance`, `regrid` | round trip of the angles (C45), Fibonacci sampling (C71), fold invariants, sorted lists, nearest point as a parameter with its specification |
| C127 | `Corpora/Model.lean`: `buildGoogle`, `filterGoogle`, `openArctic`, `buildArctic` | induction over directories and lines, sublists of a permutation, dictionaries with unique keys as an invariant |
| C128 | `RoomInfo/Model.lean`: `_wall_mapping`, `get_wall_by_name`, both `get_bbox`, `direct_snr` (indices not negative, variance not negative), `add`/`add_source` for sources, `set_air_absorption`/`unset_air_absorption` and the coefficients read by `compute_rir` | invariant of the mapping loop; least/greatest elements of folds; convexity of the slab; case analysis; induction on the calls |
| C129 | `Extent/Model.lean`: `get_max_distance` (exact arithmetic), `angle_function` (one point and one reference, the columns being independent), `all_combinations` | greatest/least elements through the loop over the walls; convexity of slabs; round trip of C45 |
| C130 | `SofaRead/Model.lean`: `_parse_locations` (two-dimensional values, units already split), `_read_dirpat` locations, labels, rate and choice of reader of `open_sofa_file`; the SOFA container and `resample` are not modelled | trigonometric complements; round trip of C45; div/mod indices |
| C131 | `MaxUdr/Model.lean`: `udr`, `rake_max_udr_weights` (one frequency, given the steering matrices of `Beam`), `rake_max_udr_filters` (given the channel matrix); `cholesky`, `eig`, `eigh` are parameters with `IsChol`, `IsEig`, `IsEigh` | whitening; Rayleigh bound through the spectral theorem; congruence to a diagonal form; splitting of column sums |
| C132 | `SaveWav/Model.lean`: `MicrophoneArray.to_wav` with `normalize`, `clip` and the conversion to integers | the peak as a `sup'`, the clip is never active after scaling, truncation characterised by a unique integer |
| C133 | `Download/Model.lean`: `download_multiple`, `download_sofa_files`, `resolve_sofa_path` over a file system and a server | induction over the list of files, with distinct paths an earlier download does not change what a later entry needs |
| C134 | `MakeMat/Model.lean`: `make_materials` on top of the constructor of `Materials/Model.lean` | induction over the arguments, the heap only grows for numbers |

Deviations found while reading the code (kept as negative theorems next to the
positive ones) are listed in the next section as they are proved.

## Deviations found

* `Buffer` of capacity 0: `push` raises (`C01_zero_capacity_push_raises`).
* `Powers`: a negative index refers to the cache, so its meaning depends on earlier
  accesses (`C02_negative_index_depends_on_history`).
* `CoinFlipper.flip_all`: a returned array may be a view of the internal buffer that later
  calls overwrite (`C03_returned_array_is_overwritten`).
* `Histogram2D` created with a zero dimension: growing never terminates
  (`C04_empty_histogram_hangs`).
* RIR builder: granularity 0 reads outside the table, a negative sampling rate can write
  outside the result, zero threads compute nothing (`C11_zero_granularity_reads_outside`,
  `C11_negative_rate_writes_outside`, `C10_zero_threads_writes_nothing`; a filter length of one
  passes the checks and gives NaN, `C11_one_tap_deviation`); an empty delay list
  dereferences the end iterator (modelled as `Check.ub`).
* `fractional_delay`: delays above one sample read before the table
  (`C58_delay_above_one_reads_outside`).
* `ThreadPool(0)` accepts tasks but never runs them (`C12_no_workers_no_execution`).
* STFT: `set_filter` stores a filter before refusing it (`C16_refused_filter_kept`); its check
  counts the total padding, so front padding is accepted although the convolution then wraps
  (`C16_front_padding_deviation`); calling `zero_pad_back` again on an object with a window
  makes every analysis fail (`C14_repad_deviation`); a one-point transform never works
  (`C14_one_point_deviation`). Calls whose length is not a multiple of the hop are zero-padded
  one by one, so C14 compares cuts at multiples of the hop.
* `NLMS`: a first sample equal to zero makes the weights NaN for ever
  (`C17_nlms_silence_deviation`; `C17_nlms` shows this happens exactly when the window is all
  zero). `BlockLMS` with filter length 1 raises at the end of the first block
  (`C17_block_length_one_deviation`). `BlockRLS` never flushes its reference buffer, which
  grows by one sample per update (`C19_reference_buffer_grows`).
* `hankel_multiplication` without `mkl_fft` ignores surplus rows of its argument and raises for
  a vector (`C20_hankel_shape_deviation`). `toeplitz_strang_circ_approx` raises for a single
  entry (`C61_single_deviation`).
* `correlate` with a one-sample second signal returns the correlation twice
  (`C22_single_sample_deviation`); with interpolation and an even number of lags the Nyquist
  coefficient counts twice (`C22_interp_even_deviation`). `time_align` raises for signals
  shorter than a block (`C62_short_deviation`).
* `levinson` is documented to take the first column of the matrix but uses the conjugate: for
  complex `r` it solves the system with first row `r` (`C23_complex_deviation`). `autocorr`
  for lags of at least the signal length: `numpy` returns fewer values, `time` raises, `fft`
  returns mirrored lags (`C24_large_lag_deviation`); consequently `lpc` returns `L - 1`
  coefficients (`C63_large_order_deviation`), and NaN for silence (`C63_zero_deviation`).
  `goertzel` raises for one sample (`C24_goertzel_single_deviation`).
* Geometry: the tolerance of the 2-D segment test is on an area, so segments that are far apart
  relative to their length are reported as intersecting (`C27_tolerance_deviation`).
  `get_volume` of a 2-D room is two thirds of the area (`C29_two_dim_deviation`). The
  constructor of `Wall<2>` never writes `basis`, which `sample_lambertian_reflection` reads in
  2-D ray tracing with scattering (`C64_two_dim_deviation`).
* `Room.from_corners` with clockwise corners reverses the corners but not the materials, so materials land on other walls
  (`C30_clockwise_deviation`, the exact permutation); `extrude` of a room made of clockwise walls does the same
  (`C30_extrude_deviation`).
* The number of threads never depends on `OMP_NUM_THREADS`/`MKL_NUM_THREADS`, although documented (`C31_threads_deviation`).
* A filter bank called with a one-element array multiplies it by the number of bands, and raises for a plain number
  (`C33_deviation`); likewise in `Material` (`C67_array_deviation`). `Material.__init__` writes into the dictionary of the
  caller, so a material made before from the same dictionary changes (`C67_mutation_deviation`).
* `AntoniOctaveFilterBank` with its default arguments: after rounding to 512 bins the transitions of two bands overlap, and the
  later one overwrites the earlier one, so the filters are not power complementary (`C68_default_deviation`). `energy` counts the
  DC and Nyquist coefficients twice (exact formula in `C68_energy`). `OctaveBandsFactory` refuses a single band
  (`C34_one_band_deviation`); its `energy` sums over the bands instead of the samples (not modelled).
* `rt60_sabine` has the constant 24 of three dimensions, `inverse_sabine` 12 for two: the time of a rectangle comes back doubled
  (`C35_two_dim_deviation`). `rt60_eyring` adds the term of the air with the wrong sign (`C35_eyring_air_deviation`).
  `inverse_sabine` uses a radius for two dimensions also in three, the order is too small there (`C35_order_deviation`).
* `Room.rt60_theory` counts the absorption of the air once per wall (`C36_air_deviation`).
* `Room.simulate`: `len(None)` for a source without signal raises before the loop that would skip it (`C37_no_signal_deviation`); an empty
  signal raises (`C37_empty_signal_deviation`); a negative delay reaches numpy as a negative index, the signal is added at the end
  (`C37_negative_delay_deviation`). A source silent at the reference microphone gives NaN everywhere (`C38_silent_deviation`); `sigma2_awgn`
  is overwritten by a call with `snr` and stays (`C38_sticky_deviation`).
* The marks `ism_done`, `rt_done` are never reset (`C39_add_source_deviation`, `C39_add_mic_deviation`, `C39_options_deviation`,
  `C39_late_ray_tracing_deviation`, `C39_simulate_deviation`), and the images are stored in the source object (`C39_shared_source_deviation`).
* `Room.add` keeps the array object, and the engine sees only what is added through the room (`C40_same_object_deviation`, `C40_append_deviation`,
  `C40_shared_deviation`, `C40_extrude_deviation`). `MicrophoneArray.append`: `C41_self_append_deviation`, `C41_center_deviation`.
* `compute_ism_rir`: a microphone outside of the room, or one that is reached by no path, raises from `time.max()` of an empty array
  (`C69_silent_deviation`). If no path from a source reaches any microphone, the visibility is stored as an integer zero, which numpy takes as an index: the first
  stored image (at first the source itself, with damping one) is heard by all microphones (`C69_obstructed_deviation`, `C69_obstructed_stale_deviation`).
* `detect_peaks`: of two peaks exactly `mpd` apart only one is kept, though the documentation promises peaks "at least separated" by `mpd` (`C42_distance_deviation`).
  `find_peaks(0)` of both grids returns all peaks because of `[-0:]` (`C43_zero_deviation`, `C44_zero_deviation`).
* `circ_dist` ignores its radius (`C71_radius_deviation`). `polar_distance` is greedy and not the closest pairing (`C71_greedy_deviation`); for a single angle the returned
  index of that angle is 1 instead of 0 (`C71_single_deviation`).
* `ModeVector`: in the near field the phase has the wrong sign (`C46_near_deviation`); without a table one or two indices always raise (`C46_short_deviation`) and
  two lists of indices give all combinations instead of pairs (`C46_lists_deviation`).
* `DOA`: the mode is never handed to the steering vectors (`C47_near_deviation`), several distances are refused (`C47_distances_deviation`), `freq_hz` always raises
  (`C47_freq_hz_deviation`), and the number of sources shrinks for good after a call that found fewer (`C47_shrink_deviation`, `C47_all_peaks_deviation`).
* `Dataset.add_sample` counts the values of a sample before one that is not hashable raises (`C48_unhashable_deviation`).
* `SpectralSub`: a bin without power gives NaN (`C49_silence_deviation`). `Subspace`: if `skip` does not divide the hop, more frames are added than the divisor
  counts (`C50_count_deviation`). Not modelled: its `apply` returns the internal buffer, the windows do not add up to one, `lookback=0` raises.
* `projection_back` does not lift a scale of zero to `clip_down` (`C51_zero_deviation`). `Rotation3D.rotate` of points of shape `(3, 3, n)` works on the second axis
  (`C52_shape_deviation`).
* `CardioidFamily` ignores `magnitude` (`C53_magnitude_deviation`), and `set_orientation` does not reach the distribution that draws the rays
  (`C53_orientation_deviation`). Its `get_azimuth` and `get_colatitude` always raise.
* `RejectionSampler`: size 0 gives one sample, a target that is nowhere positive never returns, a target above the proposal is clipped
  (`C54_zero_deviation`, `C54_endless_deviation`, `C54_saturation_deviation`); a numpy integer as size raises after the work is done (`C54_samples`).
* Ray tracing: a microphone closer than its radius to where a ray meets a wall gets twice the scattering coefficient times the reflected energy, while the ray keeps all of it
  (`C56_creation_deviation`); the threshold for scattered energy is absolute, so with enough rays nothing scattered is stored (`C56_threshold_deviation`). Rays that arrive in an edge of a
  shoebox are lost (`C72_edge_deviation`); rays at the back of a wall can pass through it (`C73_back_deviation`). Every step adds at least `libroom_eps` to the distance, which is why
  every ray ends (`C56_ends`); in single precision the addition can be absorbed, which the exact model does not show.
* `Room::contains` never returns for a point on a wall (`C74_contains_wall_deviation`, `C74_contains_wall3_deviation`). `Room.is_inside` reports a point outside if all
  lines of sight were ambiguous (`C74_exhausted_deviation`); the `ValueError` announced for this case is not raised. A reference point within the tolerance of the line of a wall can be
  taken for a point on the border, which is why the theorems ask for reference points clear of these lines (always true for rectangles, `rect_reference`).
- C76: `HMM.fit(max_iter=0)` does not stop before the first iteration: the counter is compared with `max_iter` after it has been increased, so that only the
  tolerance ends the training. A training on examples of one observation sets the transition matrix to zero, and the next call of `fit` divides zero by zero.
  `HMM.viterbi` does nothing.
- C77: `interp_hist` copies `out[-pad]`, which has not been written, so that the last half bin of the tail is zero; with bins of one sample it raises. The
  direction of a pulse at time `t` is drawn from the bin of `t - t0`, while its energy is that of the bin of `t`. `poisson_sequence` adds `t0` to a time that
  already contains it, so that the first rate is four times the reference, and a draw of exactly zero raises `ZeroDivisionError`.
- `experimental/rt60.py:measure_rt60`: `energy[:i_nz]` with `i_nz` the index of the last sample with energy cuts off that sample. A response with all its energy in the
  first sample raises `IndexError` (C78_first_deviation). If only one point is left after the fall of 5 dB, the least squares fit has slope zero and the result is -60/0
  (C78_steep_deviation).
- `doa/srp.py:SRP._process`: one microphone gives `num_pairs = 0` and a division by zero at every point (C79_single_deviation); no bin in the range raises `IndexError`
  (`CC.shape[-2]` of an empty array, C79_empty_deviation).
- `doa/music.py:MUSIC`: `num_src >= M` is accepted; then all eigenvectors are in the signal space and the whole spectrum is a division by zero (C80_many_deviation). Trusted: what
  `np.linalg.eigh` promises (`Verif.Music.IsEigh`: orthonormal eigenvectors, increasing eigenvalues).
- `beamforming.py` design of beamformers: without interferer and noise (the defaults) `rake_max_sinr_weights` divides by zero (C81_default_deviation); without an interferer `rcond` is added to all
  entries of the matrix, not to the diagonal (C81_rcond_deviation); `steering_vector_2D_from_point` with `ff=True, attn=True` divides by zero for the nearest microphone (C81_attenuation_deviation)
  and normalises by the norm over all points (C81_several_deviation); `rake_perceptual_filters` raises with its defaults (C81_perceptual_default_deviation) and changes the caller's `R_n`
  (C81_covariance_deviation). `rake_max_udr_weights` and the filters are in C131. Not modelled: `rake_distortionless_filters` and `rake_max_sinr_filters` (float
  slice indices raise). Trusted: `Verif.Beam.IsPinv` (the Moore-Penrose equations for `np.linalg.pinv`, shown to be satisfiable by `exists_pinv`) and `Verif.Beam.Solves` (`la.cho_solve`).
- `bss/auxiva.py`: `init_eig=True` assigns `np.conj(w[f][:, ind])`, of shape (n_chan, n_src), to `W[f]`, of shape (n_src, n_chan): it raises `ValueError` with fewer sources than channels, and with as
  many the eigenvectors end up in the columns and not in the rows. With `return_filters` the matrices are returned without the scaling of the projection back. Neither is in the model (C82 covers
  the iterations).
- `bss/ilrma.py`: at the end of an iteration the factor of source `s` is applied to the column `W[:, :, s]` and not to the row `W[:, s, :]`; the powers kept are then not those of the signals and the
  objective can increase (C83_column_deviation). `R` is scaled but `iR`, which is what the next iteration reads, is not (C83_stale_deviation). The signals returned are those before the last scaling, the
  filters returned those after it.
- `phase/gl.py`: the object that computes the transforms is not reset between the iterations, so that from the second iteration on the signal is seen continued on the left by its own end, and from the first
  analysis by zeros. The last `fft_size - hop` samples of the result are never updated and are a copy of the samples before them in the first estimate (C84_end, C84_end_deviation). Without overlap
  (`hop == fft_size`) the function raises because `y[:-0]` is empty (C84_no_overlap_deviation); a single frame is refused (C84_one_frame_deviation); with a callback and `n_iter=0` it raises `NameError`
  (C84_callback_deviation). An array given as `ini` is changed in place; a spectrum with a zero gives NaN (in the model an error).
- `beamforming.py`: filters shorter than the transform have no delay, the others one of half a transform, whatever `non_causal` is (C86_delay_deviation); `process` uses filters or weights of an earlier call even if
  the others were computed anew (C86_stale_deviation); `__add__` exchanges `N` and `Lg` (C86_join_deviation); `process(FD=True)` raises for one microphone and for a single frame (C86_one_channel_deviation,
  C86_one_frame_deviation); without `zpb`, which is the default, the filters wrap around (C86_wrap_deviation), and the last samples are not returned.
- `directivities/integration.py`: the fallback for points in a plane measures the largest gap by `arccos`, so points on an open half of a great circle get a total below 4 pi (C87_half_deviation); points on a small circle are in a
  plane too, their coordinates are not divided by their norm again, and the total is wrong (C87_small_circle_deviation); the formula for three points is right on great circles only (C87_three_deviation). `SphericalHistogram(dim=2)` ignores `dim`;
  `histogram` returns the array of the cache, which a later read changes.
- C88: `MeasuredDirectivity.get_response(azimuth)` with its defaults (no colatitude, degrees) raises `TypeError` because `np.radians(None)` is called (`directivities/measured.py:277-279`).
- C88: `Directivity.__init_subclass__` compares `get_response_cartesian` twice, so it never refuses a subclass (`directivities/base.py:69-84`); the default `get_response` does not transpose the 3 x n matrix before passing it on (`directivities/base.py:125-150`).
- C88: `_get_measurement_index` cannot reach its `KeyError`: `list.index` raises `ValueError` for unknown labels; a wrong number of microphone labels runs into a left-over `breakpoint()` before the `ValueError` (`directivities/measured.py:440-446, 486-496`).
- C89: `Microphone` (`libroom_src/microphone.hpp:40-131`) owns `kdtree` through a raw pointer but has only the implicit copy constructor; `std::vector<Microphone>` copies and destroys the receivers when it grows, so `room.ray_tracing()` with a directive microphone followed by `room.add_microphone(...)` deletes a tree twice (at the latest in the destructor of the engine).
- C89: `set_ray_tracing(hist_bin_size=...)` and `set_sound_speed` after microphones were added do not change the resolution of their histograms (`libroom_src/room.hpp:171-199`), which are then read with the new length (`room.py:2320-2335`).
- C89: `_set_ray_tracing_options` raises for `fs * hist_bin_size < 1` after replacing `rt_args` (`room.py:1104-1130`); as the default is 4 ms, no room can be constructed with `fs < 250`.
- C89: `Wall::broadcast_bands_to` refuses the number of bands that a wall has (2 or more), after `Room::broadcast_bands_to` changed `n_bands`; to one band it keeps the first and leaves `average_scatter` (`libroom_src/wall.hpp:100-111`, `room.hpp:207-219`).
- C90: the constant `_eps` in `power_spherical` makes the Householder reflection inexact: a sample is not of norm one and can even be zero for a location at distance about 2.4e-7 from the first axis.
- C90: `power_spherical(rng=...)` and `PowerSpherical.sample(rng=...)` draw the coordinates around the location from the generator of the package, not from `rng`.
- C90: `seed(numpy=s)` draws one integer from the numpy generator to seed libroom, so the numpy numbers differ from those after `seed(numpy=s, libroom=l)`.
- C90: without seeds libroom's engine starts from its fixed default state in each process and is reseeded by the first call of `get_rng`.
- C91: `compute_ism_rir` drops `n_fft // 2` samples of the multi-band response. That is the delay of the filters of `AntoniOctaveFilterBank`. The filters of `OctaveBandsFactory` have delay `(n_fft - 1) // 2`, so with them and even `n_fft` the response comes one sample early and its first sample is lost (`C91_flat_cosine_deviation`).
- C91: the branch with measured directivities accepts an even length of the fractional delay filter, which the other branch refuses (C69).
- C92: `DFT.analysis` writes the windowed signal into the array of the caller (dft.py 226); integer arrays raise `TypeError` when there is a window.
- C92: `DFT.analysis` and `DFT.synthesis` return the buffers of the object, which later calls overwrite.
- C92: `DFT(nfft, D=1, axis=1)` makes one-dimensional buffers and then transforms along the second axis: every analysis raises.
- C92: the message for wrong dimensions reads `shape[1]`, so one-dimensional arrays raise `IndexError`, not `ValueError`.
- C92: `nfft=1` with several channels: `squeeze` merges the axes and every channel becomes the first one.
- C93: `flag="mdct"` slices with `N / 2`, a float: `TypeError` in all nine functions that document it.
- C93: `bart` puts the normalised index into the formula for the plain index: the window is `2 n / ((N-1) M)`, a ramp.
- C93: `bart_hann` and `blackman` divide the index a second time, so only the beginning of the window is seen.
- C93: `blackman_harris` and `flattop` add the third harmonic instead of subtracting it.
- C93: `cosine` squares the cosine and is the Hann window. `bohman`, `gaussian`, `kaiser` ignore `flag` and `length`.
- C93: for odd `N`, `length="left"` and `length="right"` have together `N + 1` samples, and the right part is evaluated between the samples of the window.
- C94: `metrics.median` documents the interval as `[m - le, m + ue]`, but returns `ci[0] = x[j] - m ≤ 0`: the interval is `[m + ci[0], m + ci[1]]`.
- C94: `sweeping_echo_measure` drops half of the bins as "negative frequencies" although the transform of a real signal has none; its labels are about twice the frequencies.
- C95: `to_float32` divides unsigned samples by zero (8-bit files); `to_16b(to_float32(x))` of 16-bit samples is `x - sign(x)`; `create_noisy_signal` raises for every positive offset, and its first answer can exceed one although documented to be in [-1, 1].
- C96: `prony` includes the equations after the end of the signal, where it predicts zeros: a truncated one-pole response `1, r, r², …` never gives `a = [1, -r]`. The documentation of `prony` and `shanks` exchanges numerator and denominator.
- `resample(..., backend="scipy")` cuts both rates to whole numbers: rates such as 22050.5 are resampled with another ratio, and an old rate below 1 Hz raises `ZeroDivisionError` (`C97_fractional_rate_deviation`).
- `Room.image_source_model` assigns new images but not `max_order`, which stays zero: `room.sources[0][:k]` has only the direct source for every `k`, so rake beamformers built as in the examples and tests (`room.sources[0][:4]`) use no images, and `source[1:]` raises `ValueError` (`C98_image_source_model_deviation`).
- `source[i]` with an integer always raises `IndexError` (`C98_integer_deviation`); `set_ordering("strongest", p)` always raises `ValueError` but stays in effect, as do unknown names (`C98_strongest_deviation`).
- `SoundSource(position, images=...)` without `generators`, `walls`, `orders` raises `TypeError` although they are optional (`C98_optional_arguments_deviation`).
- `get_images(n_nearest=..., ref_point=p)` with `p` of one axis raises, or for as many images as coordinates returns others than the nearest ones (`C98_flat_point_deviation`); `get_damping()` raises `TypeError` (`C98_get_damping`).
- `wall_sequence` does not end, or raises `IndexError` after `image_source_model` (`C98_wall_sequence_deviation`).
- C99: `compute_filtered_output` divides `frame_dft` in place by `sqrt(frame_len)` and never multiplies back: without noise the output is the frame over `sqrt(frame_len)`.
- C99: `compute_squared_gain` integrates over 999 of 1000 intervals: for a white frame the gain is 1000/999 too large.
- C99: with two iterations or more a loud frame with a zero transform gives NaN.
- C101: `np.linalg.eig` instead of `eigh` in `classical_mds`: eigenvectors of a repeated eigenvalue need not be orthogonal, the distances are then lost (`C101_mds_repeated_deviation`).
- C101: `trilateration` uses the undefined name `m`; `key2ind` uses `unicode`, so that in Python 3 `normalize`, `center`, `align`, `doa` raise `NameError`.
- C101: `normalize` in 3D does not bring the second reference to the x-axis; `align` about x or y overwrites a coordinate (exchange of views); `flatten` with fewer points than dimensions raises or loses the coordinates.
- C102: `tdoa_loc` raises `IndexError` for equal times and drops microphones as far from the source as the first one, so that a determined source can be lost (`C102_dropped_deviation`).
- C102: `tdoa` returns a delay of at least n/2-1 samples as delay-n; silence gives the lowest time searched; with `interp` > 1 only n/2+1 interpolated lags are searched; sign opposite to its docstring.
- C102: `edm_line_search` has cost zero for every offset with four microphones and never zero with three (`w[:n-5]`).
- C103: `wiener_deconvolve` divides by all coefficients of the excitation: one that is zero makes the whole response NaN; a silent excitation raises `LinAlgError` (`C103_wiener_zero_deviation`).
- C103: `deconvolve` documents `thresh` as a power, the code compares the magnitude (`C103_bins`).
- C104: `exponential_sweep` with equal frequencies passes the check (the message says `f_lo < f_hi`) and returns only NaN (`C104_equal_deviation`).
- C104: `window` raises `ValueError` for fades below one sample (`sig[-0:]` is the whole signal) and fades longer than the signal (`C104_window_deviation`); `linear_sweep(T=0)` divides by zero, `exponential_sweep(T=0)` is empty (`C104_empty_deviation`).
- C104: `measure_ir` deconvolves with the sweep without the silence before it, so the response is late by `pre_delay` (`C104_measure_exact`); without matplotlib it returns `None` after recording (`C104_measure_deviation`).
- C105: `run` raises `NameError` when the file is imported, returns `None` without matplotlib, and raises `IndexError` for `ch_out=[1]` because the columns are indexed by output number (`C105_deviation`).
- C106: CSSM and WAVES remove bands without enough peaks from `freq_bins` but not from `C_hat` (cssm.py:109-111, 157; waves.py:102-103, 147): the matrices of later bands are mixed up (`C106_left_out_deviation`).
- C107: `Phi[k]` is indexed by the number of the band, not by `freq_bins[k]` (tops.py:136; `C107_index_deviation`), and `range(num_freq - 1)` leaves out the last band instead of the reference (tops.py:135, `freq` is unused; `C107_last_deviation`).
- C108: `fastmnmf` overwrites the array given as `W0` (its rows are scaled even if there is no iteration), the `eps` in the normalization of the rows of the diagonalizer lets the objective grow at the optimum, and a wrong `mic_index` is reported only after all iterations.
- C109: in `fastmnmf2` the branch for `accelerate=False` recomputes `tmp1_NFT` and `tmp2_NFT` before `lambda_NFT` and `Y_FTM`, so that it changes nothing: the results with and without `accelerate` are equal. `W0` is overwritten as in `fastmnmf`.
- C110: for an even `n_fft` the extended response in `magnitude_response_to_minimum_phase` has `n_fft + 1` values (the Nyquist value is repeated), so that the phase belongs to another grid and the real part taken by `irfft` changes the magnitude at Nyquist, in the worst case to zero.
- C111: `melfilterbank` with many filters has rows that are zero, since no bin lies between the corners. `mfcc` is not modelled: it calls `stft.analysis(..., transform=...)`, an argument that function does not have, so that it raises `TypeError` on every input.
- C112: `bands_hz2s` sets the end of the last band to `N/2` also for the discrete cosine transform, where the Nyquist frequency is bin `N`; for odd lengths `N/2` is truncated, a start at the Nyquist frequency may be rounded up.
- C113: with `condon_shortley_phase=True` the harmonics of nonzero order are not normalised (energy one half), and the sign for negative even orders is not `(-1)^m` times the value without phase.
- C114: `detect_regular_grid` raises IndexError for empty arrays instead of returning None.
- C116: `sparir`: `soft` takes a maximum along the axis instead of the positive part, so that nothing is ever set to zero; bins of `S` above half of the length are ignored by the gradient; `gini` given as an array raises ValueError on line 151.
- C117: `sparseauxiva` calls `demixsparse(Y, X, np.array(range(n_freq)), W)` at the end to demix "in the whole frequency range", but the function loops over `range(k_freq)`, so that only the first `k_freq` bins are demixed with the final filters. Other bins are zero (not selected) or hold the output of the last iteration's initial filters (selected): `C117_silent_deviation`.
- C118: `FRIDA._visibilities` calls the variance over the microphones "energy" and drops frames where it is not above `stft_noise_margin * stft_noise_floor` (0 by default). If all microphones record the same signal (bin 0, or a wave from broadside on a line) no frame remains and the covariance is 0/0: `C118_equal_deviation`.
- C120: with noise-free measurements of fewer than `K` sources the bordered system is singular for every initial filter, so that `dirac_recon_ri_half_multiband_lu` ends with an `UnboundLocalError` (`Rmtx_opt`) in exact arithmetic.
- C121: `nnls` is called with the normal equations `PᵀP x = Pᵀa` as its system, hence it minimises `‖PᵀPx − Pᵀa‖` and not `‖Px − a‖`; with an active constraint the amplitudes (and the errors that select the turn) are others than documented (`C121_nnls_deviation`: 1/5 in place of 1/2).
- C121: the update starts from the matrices of the turn before and not from the original ones (the parameter is called `G_mtx0`); `G_iter=0` returns the azimuth π for all sources and no amplitudes.
- C122: the zero padding uses `signals.shape[0]` (the number of microphones) for the number of samples; if `0 < S mod hop < P mod hop` the last samples never reach the output (`C122_padding_deviation`), otherwise the output is longer than needed.
- C122: `block_length = filter_length - 1` is accepted: a slice of length one is broadcast to all lags of the correlation (`C122_block_deviation`).
- C123: a phonem is assigned to the first word that ends after it; where words overlap (as in the corpus) the second word lacks phonems that lie within it (`C123_overlap_deviation`).
- C123: an empty line of the .PHN file raises IndexError if it is met before the end of the last word, though the loop after the words skips such lines (`C123_blank_deviation`).
- C123: `_read_nist_wav` ignores `sample_byte_format`; files with the most significant byte first are read with exchanged bytes (`C123_byteorder_deviation`).
- C123: `build_corpus(speakers=["AKS0"])`, the example of the documentation, selects nothing, as the name of the directory begins with the sex (`C123_speakers_deviation`).
- C124: `circular_microphone_array_xyplane` takes `phi0` in degrees for the orientations and in radians for the places (`C124_rotation_deviation`, `C124_degrees_deviation`).
- C124: `spiral_2D_array`: `divi` is documented as the number of rotations; it is the number of arms, each of which stays within 1/divi of a circle (`C124_spiral`).
- C124: the mean of a circular array of one microphone is not the centre (`C124_single_deviation`).
- C125: `octave_bands` documents `start` in Hz; it is added to the exponent, so it counts octaves (`C125_start_deviation`).
- C125: `OctaveBandsFactory.get_bw` ends the last band at its nominal edge although its filter reaches Nyquist; with `keep_dc` the widths add up to `fs/2` only if that edge is at least `fs/2` (`C125_bandwidth_deviation`).
- C125: `OctaveBandsFactory.energy` sums over the bands (last axis of `analysis`) instead of the samples, so it returns `n_samples` values, not `n_bands` (`C125_energy_deviation`).
- C125: `binning` documents a sum and returns the mean; an empty band gives nan (`C125_binning`).
- C126: `GridSphere.regrid` searches the nearest point in the plane of the angles, where azimuths `-π` and `π` are far apart: two pixels of one direction can get different values (`C126_regrid_deviation`). `GridSphere` divides a zero vector by its norm and stores nan (`C126_sphere_points`).
- C127: a selection of `GoogleSpeechCommands` by `noise_type` raises AttributeError at the first file of speech (`C127_noise_type_deviation`); `size_by_samples` ignores the criteria and is empty after `filter` (`C127_google`, `C127_google_filter`); a negative `subset` keeps all but that many files (`C127_subset`).
- C127: `cmu_arctic_sentences` is shared by all instances: sentences found by an earlier corpus in another directory stay (`C127_stale_deviation`); a callable `speaker` opens no directory (`C127_function_deviation`).
- C128: `direct_snr` takes the power of source 0's signal whatever source is asked for (and fails with a TypeError when source 0 has none).
- C128: `add_source` with a directivity that is neither of the cardioid family nor measured returns None and adds nothing.
- C128: `add_source(SoundSource, directivity=...)` wraps the object in another SoundSource and fails with an IndexError.
- C128: `unset_air_absorption` clears a flag that nothing reads; the absorption stays in all later simulations.
- C128: the box of an anechoic room with an empty microphone array and no source is (inf, -inf) instead of the error.
- C130: `_parse_locations` recognises elevations only by a negative value: a file whose elevations are all on or above the horizon is read as colatitudes (horizon becomes zenith).
- C130: `_parse_locations` converts the second angle by the unit of the first.
- C131: `rake_max_udr_weights` takes the first eigenvector of `np.linalg.eig`, which is not sorted: the weights need not be the best (example with ratio 1 where 4 is possible).
- C131: `rake_max_udr_weights` with a single image passes arrays where sources are expected and always fails with an AttributeError.
- C131: `rake_max_udr_filters` without an interferer does not count the late part of the response as detrimental.
- C132: `to_wav` without `norm` writes floating-point signals inside (-1, 1) to integer files as zeros (C132_silence_deviation); with `norm=True` a silent recording is divided by zero (C132_zero_deviation). The model is exact: in double precision `2**63 - 1` rounds to `2**63`, so that the peak of an `np.int64` file overflows, which is outside the model. The writer of scipy is not modelled; whether it takes `np.int8` is not claimed.
- C133: `download_multiple` compares its default `backoff_time=None` with `0.0` before the test for `None`, so that it always raises `TypeError` with the defaults (C133_default_deviation); `path != paths_and_urls[-1][0]` compares a `Path` with the key, so that string keys give a pause after the last file (C133_pause_deviation); `download_sofa_files(no_fail=True)` also returns the paths of failed downloads (C133_sofa_deviation). Trusted: `urlretrieve` fails with `URLError` before it opens the local file; a transfer that breaks off is not modelled.
- C134: `make_materials(d, (d, s))` with one dictionary `d` with a single coefficient and scattering `s` by bands changes the absorption of the first material, since the constructor keeps and changes the dictionary of the caller (C134_shared_deviation).
