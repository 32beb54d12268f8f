{"id": "C01", "title": "Delay-line buffer is a newest-first queue", "statement": "After any sequence of pushes and flushes, the delay-line Buffer used by the adaptive filters returns through top(n) and indexing exactly the n most recently pushed samples that have not been flushed, newest first, whatever reallocations happened in between; flush(n) drops exactly the n oldest entries (all of them if fewer are stored; flush(0) on a non-empty buffer is refused with ValueError and changes nothing), and size is the number of stored samples.", "quantifier": "every initial length, every finite sequence of push/flush/top operations and every stored value", "why_tests_cant": "reallocation and flush interact through history; a unit test sees one history and one size", "anchors": ["pyroomacoustics/adaptive/data_structures.py:Buffer"]}
{"id": "C02", "title": "Cached powers are correct for every access history", "statement": "Powers(a)[k] equals a**k for every integer, slice or list access, no matter which accesses enlarged the cache before.", "quantifier": "every base, every sequence of accesses of any kind and size", "why_tests_cant": "the cache state depends on all earlier accesses", "anchors": ["pyroomacoustics/adaptive/data_structures.py:Powers"]}
{"id": "C03", "title": "Coin flipper hands out each random coin once", "statement": "CoinFlipper.flip(n) returns exactly n coins, and no coin drawn from the generator is ever handed out twice, for any sequence of request sizes.", "quantifier": "every generator stream, buffer length and sequence of request sizes", "why_tests_cant": "re-use only shows for particular sequences of request sizes around the buffer boundary", "anchors": ["pyroomacoustics/adaptive/data_structures.py:CoinFlipper"]}
{"id": "C04", "title": "Ray-tracing histogram keeps every logged contribution", "statement": "After any sequence of energy contributions logged in a 2-D histogram that grows on demand, each bin holds exactly the sum of the values logged there and the number of such events, contributions never move or vanish when the histogram grows, and unlogged bins are zero.", "quantifier": "every initial shape with at least one row and column, every sequence of (row, column, value) events including ones beyond the current size", "why_tests_cant": "growth order and interleavings of events are unbounded", "anchors": ["pyroomacoustics/libroom_src/common.hpp:Histogram2D", "pyroomacoustics/libroom_src/common.hpp:get_new_size"]}
{"id": "C05", "title": "Microphone histogram conserves energy and bins by distance", "statement": "Every ray contribution received by a microphone is added to exactly one (direction, distance) bin, the distance bin being the one containing the travelled distance, and the total energy over all bins equals the total energy received per band.", "quantifier": "every sequence of hits, distances, energies, directions and histogram resolution > 0", "why_tests_cant": "conservation must hold for all hit sequences", "anchors": ["pyroomacoustics/libroom_src/microphone.hpp:Microphone::log_histogram", "pyroomacoustics/libroom_src/common.hpp:Histogram2D::log_col"]}
{"id": "C06", "title": "Shoebox image enumeration is complete and duplicate free", "statement": "For a shoebox room in 2-D or 3-D and any maximum order, the image source model produces exactly one image source for each integer reflection vector whose L1 norm is at most the order, and no other.", "quantifier": "every max_order and both dimensions", "why_tests_cant": "orders are unbounded; a test only compares a few counts", "anchors": ["pyroomacoustics/libroom_src/room.cpp:Room::image_source_shoebox"]}
{"id": "C07", "title": "Image source count formula", "statement": "The closed-form number of image sources used to size result arrays equals the number of images the enumeration produces, for every order, in 2-D and 3-D.", "quantifier": "every max_order, D in {2,3}", "why_tests_cant": "an algebraic identity over all orders", "anchors": ["pyroomacoustics/libroom_src/room.cpp:number_image_sources_2", "pyroomacoustics/libroom_src/room.cpp:number_image_sources_3"]}
{"id": "C08", "title": "Shoebox image positions are mirror images", "statement": "The position of every shoebox image source equals the original position reflected successively across the walls of the room (at coordinate 0 and at the room length on each axis) as many times, and in alternating order, as its reflection vector says; its reported order is the total number of reflections.", "quantifier": "every room size, source position, reflection vector", "why_tests_cant": "must hold for every order and geometry", "anchors": ["pyroomacoustics/libroom_src/room.cpp:Room::image_source_shoebox"]}
{"id": "C09", "title": "Shoebox attenuation counts wall hits", "statement": "The damping of a shoebox image is the product over the walls of the wall's per-band transmission raised to the number of times the image's reflection path hits that wall.", "quantifier": "every reflection vector, all wall coefficients and bands", "why_tests_cant": "exponent parity/sign cases range over all integers", "anchors": ["pyroomacoustics/libroom_src/room.cpp:Room::image_source_shoebox"]}
{"id": "C10", "title": "Room impulse response accumulation is independent of the thread count", "statement": "The impulse response built from delays and amplitudes is the same sum of shifted interpolation kernels whatever the number of worker threads, and every contribution is added exactly once.", "quantifier": "every number of threads, filter length other than 1, image count, delay, amplitude and visibility list, every completion order of the workers", "why_tests_cant": "schedules and work partitions are unbounded", "anchors": ["pyroomacoustics/libroom_src/rir_builder.cpp:threaded_rir_builder_impl"]}
{"id": "C11", "title": "RIR builder never writes out of bounds", "statement": "For every input accepted by the checks of the RIR builder, every sample it writes lies inside the output buffer and every table read lies inside the interpolation table; inputs for which this could fail are rejected with an error before any write. (Deviation: filters with a single tap pass the checks although their window is 0/0, NaN.)", "quantifier": "every non-empty delay array, filter length, granularity >= 1, sampling rate >= 0, output length and thread count", "why_tests_cant": "memory safety must hold for all inputs", "anchors": ["pyroomacoustics/libroom_src/rir_builder.cpp:threaded_rir_builder_impl", "pyroomacoustics/build_rir.pyx:fast_rir_builder"]}
{"id": "C12", "title": "Thread pool executes every task exactly once", "statement": "Each task accepted by the pool is executed exactly once, in queue order of start, by some worker; shutting the pool down waits until all accepted tasks have been executed and tasks submitted after shutdown are refused.", "quantifier": "every interleaving of producers, workers and the destructor, any number of workers >= 1", "why_tests_cant": "concurrent schedules cannot be enumerated by tests", "anchors": ["pyroomacoustics/libroom_src/threadpool.hpp:ThreadPool"]}
{"id": "C13", "title": "Delay-and-sum sums shifted inputs", "statement": "delay_sum adds each input row, shifted by its integer delay, into the output: out[k] is the sum over rows i of irs[i][k - delay_i], independent of the number of threads, and rejects delays that would write out of range.", "quantifier": "every set of rows, delays, output length and thread count", "why_tests_cant": "must hold for all sizes and partitions", "anchors": ["pyroomacoustics/libroom_src/rir_builder.cpp:threaded_delay_sum_impl"]}
{"id": "C14", "title": "Streaming STFT does not depend on how the signal is cut into calls", "statement": "In streaming mode, feeding a signal to the STFT in any number of calls yields the same sequence of analysis frames, each being the windowed and zero-padded block of the last N samples, as feeding it one frame at a time.", "quantifier": "every signal, frame length, hop, window, zero padding and every division of the signal into calls", "why_tests_cant": "state carried between calls depends on all earlier calls", "anchors": ["pyroomacoustics/transform/stft.py:STFT.analysis", "pyroomacoustics/transform/stft.py:STFT._analysis_streaming"]}
{"id": "C15", "title": "STFT perfect reconstruction", "statement": "Analysis followed by synthesis with the window returned by compute_synthesis_window reproduces the input delayed by N-hop samples, for every signal.", "quantifier": "every signal length, hop dividing/at most the window length, every analysis window with non-vanishing overlap sum", "why_tests_cant": "must hold for all signals and windows", "anchors": ["pyroomacoustics/transform/stft.py:compute_synthesis_window", "pyroomacoustics/transform/stft.py:STFT._overlap_and_add"]}
{"id": "C16", "title": "Frequency-domain filtering is linear convolution", "statement": "With a filter h set and enough zero padding, streaming the signal through analysis, process and synthesis outputs the linear convolution of the (overlap-added) input with h; too long filters are refused.", "quantifier": "every signal, filter and zero padding satisfying the documented condition", "why_tests_cant": "circular aliasing errors depend on lengths", "anchors": ["pyroomacoustics/transform/stft.py:STFT.set_filter", "pyroomacoustics/transform/stft.py:STFT.process", "pyroomacoustics/transform/stft.py:STFT.synthesis"]}
{"id": "C17", "title": "NLMS and block LMS follow their update equations", "statement": "After any sequence of samples the NLMS weights are those given by the normalised LMS recursion on the last L inputs (newest first, zeros before start); with step 1 the a-posteriori error vanishes; and block LMS with block length one behaves like plain LMS.", "quantifier": "every input/desired sequence, filter length and step size", "why_tests_cant": "state after n samples depends on the whole history", "anchors": ["pyroomacoustics/adaptive/lms.py:NLMS.update", "pyroomacoustics/adaptive/lms.py:BlockLMS.update", "pyroomacoustics/adaptive/adaptive_filter.py:AdaptiveFilter.update"]}
{"id": "C18", "title": "RLS solves the exponentially weighted least-squares problem", "statement": "After any sequence of samples the RLS weights are the minimiser of the exponentially weighted, delta-regularised squared error over all samples seen so far.", "quantifier": "every real input/desired sequence, filter length, forgetting factor in (0,1], delta > 0", "why_tests_cant": "an invariant over the full history", "anchors": ["pyroomacoustics/adaptive/rls.py:RLS.update"]}
{"id": "C19", "title": "Block RLS agrees with sample RLS at block boundaries", "statement": "After a whole number of blocks, BlockRLS has the same weights as RLS fed with the same samples.", "quantifier": "every input sequence, block length and forgetting factor", "why_tests_cant": "equality of two recursions for all histories", "anchors": ["pyroomacoustics/adaptive/rls.py:BlockRLS.update"]}
{"id": "C20", "title": "Fast Toeplitz and Hankel products equal the dense products", "statement": "toeplitz_multiplication and hankel_multiplication return the product of the dense Toeplitz/Hankel matrix with the argument, for every shape, and reject mismatching shapes.", "quantifier": "every column, row, right-hand side and size", "why_tests_cant": "embedding size and wrap-around depend on the shapes", "anchors": ["pyroomacoustics/adaptive/util.py:toeplitz_multiplication", "pyroomacoustics/adaptive/util.py:hankel_multiplication"]}
{"id": "C21", "title": "Optimal circulant approximation is optimal", "statement": "toeplitz_opt_circ_approx returns the circulant matrix closest in Frobenius norm to the symmetric Toeplitz matrix.", "quantifier": "every symmetric Toeplitz column of any size, against every circulant competitor", "why_tests_cant": "optimality quantifies over all competitors", "anchors": ["pyroomacoustics/adaptive/util.py:toeplitz_opt_circ_approx"]}
{"id": "C22", "title": "Cross-correlation lags", "statement": "correlate(x1,x2) returns for each lag from -(N2-1) to N1-1 the sum of x1[k+lag]*x2[k], with and without phase transform/interpolation of length 1.", "quantifier": "every pair of signals of every length", "why_tests_cant": "length-dependent wrap-around indexing", "anchors": ["pyroomacoustics/sync.py:correlate", "pyroomacoustics/sync.py:tdoa"]}
{"id": "C23", "title": "Levinson recursion solves the Toeplitz system", "statement": "levinson(r,b) returns x with toeplitz(r) x = b for every real r whose leading principal submatrices are regular, for vector and matrix b; for complex Hermitian r it solves the system whose first row (not column, as documented) is r.", "quantifier": "every size, r and b", "why_tests_cant": "recursion depth is unbounded", "anchors": ["pyroomacoustics/utilities.py:levinson"]}
{"id": "C24", "title": "Autocorrelation methods agree; convolution matrix and Goertzel are exact", "statement": "For lags below the signal length all four autocorr back ends return the same lags, normalised by the length or by the number of summands; convmtx(x,n) times h is the convolution of x and h; goertzel(x,k) is the k-th DFT coefficient.", "quantifier": "every signal, order and bin", "why_tests_cant": "must hold for all lengths", "anchors": ["pyroomacoustics/utilities.py:autocorr", "pyroomacoustics/utilities.py:convmtx", "pyroomacoustics/utilities.py:goertzel"]}
{"id": "C25", "title": "Wall reflection is the mirror isometry", "statement": "Reflecting a point on a wall is an involution, preserves distances, fixes exactly the points of the wall plane and exchanges the two sides; the result code tells the side.", "quantifier": "every wall plane (unit normal) and point, dimensions 2 and 3", "why_tests_cant": "geometric identity over all reals", "anchors": ["pyroomacoustics/libroom_src/wall.cpp:Wall::reflect", "pyroomacoustics/libroom_src/wall.cpp:Wall::side"]}
{"id": "C26", "title": "Specular bounce keeps speed and mirrors incidence", "statement": "normal_reflect of a ray returns an end point at the requested distance from the hit point whose direction is the incident direction with its normal component flipped.", "quantifier": "every wall normal, start, hit point and length", "why_tests_cant": "geometric identity over all reals", "anchors": ["pyroomacoustics/libroom_src/wall.cpp:Wall::normal_reflect"]}
{"id": "C27", "title": "Segment and plane intersections are really on both objects", "statement": "When the segment intersection routines report an intersection, the returned point lies on the segment and on the other object; when they report none (outside the tolerance band) there is no common point. The point-in-polygon test answers inside exactly for the points in one of the triangles of any triangulation of the polygon (outside the tolerance band).", "quantifier": "every pair of segments / segment and plane", "why_tests_cant": "degenerate configurations are a continuum", "anchors": ["pyroomacoustics/libroom_src/geometry.cpp:intersection_2d_segments", "pyroomacoustics/libroom_src/geometry.cpp:intersection_3d_segment_plane"]}
{"id": "C28", "title": "Polygon signed area", "statement": "The polygon area routine returns the signed area: additive under splitting by a diagonal, invariant under translation and cyclic relabelling, negated by reversing the corners, and equal to the elementary area for triangles.", "quantifier": "every polygon with any number of corners", "why_tests_cant": "number of corners is unbounded", "anchors": ["pyroomacoustics/libroom_src/geometry.cpp:area_2d_polygon"]}
{"id": "C29", "title": "Room volume", "statement": "get_volume returns the floor area times the height for extruded rooms (whatever the order of the user's corners), the product of the sides for shoeboxes, in agreement with the walls of the engine; for 2-D rooms it returns two thirds of the area (a deviation: the area is intended). wall_area agrees with the area of the wall object.", "quantifier": "every polygon floor, height", "why_tests_cant": "must hold for every polygon", "anchors": ["pyroomacoustics/room.py:Room.get_volume", "pyroomacoustics/room.py:ShoeBox.get_volume"]}
{"id": "C30", "title": "Material assignment follows the corners given by the user", "statement": "In from_corners each wall between consecutive user corners gets the material supplied at the same position when the corners are counterclockwise, and extrude keeps it on the wall above; one material for all walls works for any orientation; wrong numbers are refused. For clockwise corners the materials land on other walls (a deviation, described exactly).", "quantifier": "every polygon and list of materials", "why_tests_cant": "orientation is a property of all polygons", "anchors": ["pyroomacoustics/room.py:Room.from_corners"]}
{"id": "C31", "title": "Global constants behave as an overridable map", "statement": "constants.get returns the last value set, the default if never set, and an error for unknown names, for any history of set/get. The number of threads follows PRA_NUM_THREADS; the documented OMP and MKL variables have no effect (a deviation).", "quantifier": "every history of set/get operations", "why_tests_cant": "history dependent", "anchors": ["pyroomacoustics/parameters.py:Constants"]}
{"id": "C32", "title": "Physics round trips and table selection", "statement": "A Physics object made from a speed of sound reports that speed back; air absorption table selection always hits the entry whose range contains temperature and humidity; every row has one positive, non-decreasing coefficient per frequency; out-of-range humidity is rejected.", "quantifier": "every real temperature, humidity and speed", "why_tests_cant": "continuum of inputs", "anchors": ["pyroomacoustics/parameters.py:Physics", "pyroomacoustics/parameters.py:calculate_speed_of_sound", "pyroomacoustics/parameters.py:_calculate_temperature"]}
{"id": "C33", "title": "Octave band coefficients are well formed", "statement": "Evaluating a material/bands specification on the filter bank gives one coefficient per band, each in [0,1], equal to the data at the given frequencies and interpolated linearly in log-frequency in between, independent of the order of the data, idempotent, and constant data give constant coefficients. A one-element list is repeated; a one-element array is multiplied by the number of bands and a plain number raises (deviations).", "quantifier": "every list of centre frequencies and coefficients", "why_tests_cant": "must hold for all data", "anchors": ["pyroomacoustics/acoustics.py:BaseOctaveFilterBank.__call__"]}
{"id": "C34", "title": "Cosine octave filter bank is complementary", "statement": "The band magnitudes of the cosine octave filter bank are in [0,1] and sum to one at every frequency from the first centre on (with keep_dc at every frequency), so that with keep_dc the outputs of analysis sum to exactly the input, for every signal and transform length, and synthesis with equal coefficients is a scaled centred impulse.", "quantifier": "every frequency, base frequency, number of bands", "why_tests_cant": "continuum of frequencies", "anchors": ["pyroomacoustics/acoustics.py:cosine_magnitude_octave_filter_response"]}
{"id": "C35", "title": "Sabine's formula round trip and monotonicity", "statement": "For a shoebox, inverse_sabine returns an absorption in (0, 1] for which rt60_sabine gives back the target, and refuses exactly the targets shorter than the time of the room with absorption one; rt60_sabine decreases with absorption (wall or air); Eyring's time without air is positive and shorter than Sabine's; for a rectangle every image beyond the returned order is at least c*rt60 - 2R away. Deviations proved: in 2-D rt60_sabine gives twice the target; in 3-D the returned order misses images within c*rt60; rt60_eyring grows with air absorption and becomes negative.", "quantifier": "every room size, target time and absorption", "why_tests_cant": "continuum of inputs", "anchors": ["pyroomacoustics/acoustics.py:inverse_sabine", "pyroomacoustics/acoustics.py:rt60_sabine", "pyroomacoustics/acoustics.py:rt60_eyring"]}
{"id": "C36", "title": "Theoretical RT60 of a room", "statement": "Without air absorption, Room.rt60_theory with Sabine's formula returns 24 ln10/c * V/(sum of wall areas times absorptions), with bandwidth-weighted absorption for several bands, and the target time for a shoebox made by inverse_sabine. Deviation proved: with air absorption m the term 4 m V is counted once per wall, so the time is too short.", "quantifier": "every set of walls, areas and absorptions, and air absorption coefficient", "why_tests_cant": "number of walls unbounded", "anchors": ["pyroomacoustics/room.py:Room.rt60_theory"]}
{"id": "C37", "title": "Simulated microphone signal is the sum of convolutions", "statement": "simulate() produces for every microphone the sum over sources of the source signal delayed by its start time and convolved with the impulse response, plus noise of the set variance, long enough to hold every tail without truncation. Deviations proved: a source without signal makes the call fail although the loop would skip it, so does an empty signal; a source that ends before time zero is mixed in at the end of the recording.", "quantifier": "every number of sources/microphones, signals, delays and impulse responses", "why_tests_cant": "must hold for all sizes", "anchors": ["pyroomacoustics/room.py:Room.simulate"]}
{"id": "C38", "title": "Simulation SNR", "statement": "With a reference mic and target SNR, simulate() scales each source (the same for all microphones) to standard deviation one at the reference microphone before mixing, and the noise variance v satisfies 10 log10(n_sources / v) = SNR. Deviations proved: a source silent at the reference makes all samples of all microphones non-finite; the noise variance stays in the room and is used by later calls without SNR.", "quantifier": "all signals with non-zero power at the reference mic, all SNR", "why_tests_cant": "continuum of inputs", "anchors": ["pyroomacoustics/room.py:Room.simulate"]}
{"id": "C39", "title": "Results reflect the current room state", "statement": "compute_rir gives impulse responses for the current sources, microphones and options, whatever happened before, if the simulations needed are not marked as done or are called explicitly. Deviations proved: after a simulation, adding sources or microphones makes compute_rir fail, changed options of engine and ray tracer are ignored, ray tracing switched on later is combined with images of a simulation without it; simulate() keeps using old responses; a source shared by two rooms mixes their results.", "quantifier": "every history of API calls", "why_tests_cant": "stale caches show only for particular histories", "anchors": ["pyroomacoustics/room.py:Room.compute_rir", "pyroomacoustics/room.py:Room.image_source_model", "pyroomacoustics/room.py:Room.add"]}
{"id": "C40", "title": "Engine microphones match the Python microphone array", "statement": "After any history of making arrays and adding them to rooms, in which no array is added that already is the mic_array of a room, the simulation engine has exactly the same microphones in the same order as room.mic_array. Deviations proved: adding the same array twice gives the engine 3n microphones against 2n, appending to the array of a room, sharing an array between rooms and extruding a room with microphones leave the engine behind.", "quantifier": "every history of add calls", "why_tests_cant": "history dependent", "anchors": ["pyroomacoustics/room.py:Room.add", "pyroomacoustics/room.py:Room.add_microphone_array", "pyroomacoustics/beamforming.py:MicrophoneArray.append"]}
{"id": "C41", "title": "Microphone array stays consistent", "statement": "After any history of append/record/set_directivity without appending an array to itself, positions, directivities and signals have one entry per microphone, appended microphones come behind the others in order with silence as signals; the centre of a new array is the mean position. Deviations proved: append does not update the centre; an array appended to itself gets 3n rows of signals for 2n microphones.", "quantifier": "every history of operations", "why_tests_cant": "history dependent", "anchors": ["pyroomacoustics/beamforming.py:MicrophoneArray"]}
{"id": "C42", "title": "Peak detection", "statement": "Without a minimum distance detect_peaks returns, increasing, exactly the interior indices that are local maxima on the requested edge next to no NaN and satisfy the height/threshold limits; with a minimum distance it returns, increasing, some of them, of which two are further apart than the distance (or of the same height, if those are to be kept), and every one not returned has a returned one at least as high within the distance. (The documentation promises to keep peaks exactly that far apart: deviation.)", "quantifier": "every finite sequence of reals and every parameter setting", "why_tests_cant": "all sequences", "anchors": ["pyroomacoustics/doa/detect_peaks.py:detect_peaks"]}
{"id": "C43", "title": "Circular grid peak search", "statement": "GridCircle.find_peaks(k) for k >= 1 returns the up to k highest circular local maxima, by increasing height, including the global maximum for non-constant data and none for constant data, treating the wrap-around like any other place. (k = 0 returns all: deviation.)", "quantifier": "every number of grid points and values", "why_tests_cant": "wrap-around positions and sizes", "anchors": ["pyroomacoustics/doa/grid.py:GridCircle.find_peaks"]}
{"id": "C44", "title": "Spherical grid peak search", "statement": "GridSphere.find_peaks(k) for k >= 1 returns at most k grid points, each at least as high as all its neighbours, containing the global maximum, and no omitted local maximum is higher than a returned one; two points are neighbours exactly if they share a triangle of the hull. (k = 0 returns all: deviation.)", "quantifier": "every grid graph and values, every k", "why_tests_cant": "all graphs", "anchors": ["pyroomacoustics/doa/grid.py:GridSphere.find_peaks"]}
{"id": "C45", "title": "Cartesian/spherical conversion round trip", "statement": "cart2spher followed by spher2cart returns the original point; the angles lie in their documented ranges and the radius is the norm. Angles inside of the ranges with a positive radius are recovered from the point, degrees mean the same angles, and without a colatitude the point is in the horizontal plane.", "quantifier": "every point of 3-space, every angle and radius", "why_tests_cant": "continuum of inputs", "anchors": ["pyroomacoustics/doa/utils.py:cart2spher", "pyroomacoustics/doa/utils.py:spher2cart"]}
{"id": "C46", "title": "Steering vectors are the same with or without precomputation", "statement": "ModeVector gives for every index of three integers, slices or lists (at most one list) the same array, or the same error, whether precomputed or lazily evaluated; its entries have modulus one and are in the far field the ratio of the plane wave at the microphone and at the origin. (In the near field they are the conjugate of the propagation phase, and lazily evaluated shorter indices raise and two lists give another shape: deviations.)", "quantifier": "every array geometry, grid, bin and sampling rate", "why_tests_cant": "all indices", "anchors": ["pyroomacoustics/doa/doa.py:ModeVector"]}
{"id": "C47", "title": "DOA frequency selection and source count", "statement": "locate_sources uses exactly the bins requested (by bin list or range, the upper end excluded) that are valid, the result of a call with a number of sources does not depend on earlier calls, and the number given to the constructor is kept as long as every call finds that many peaks. (A call that finds fewer changes the number for later calls, one that finds none lets the next return all peaks; a frequency list always raises; the near field mode has no effect and several distances are refused: deviations.)", "quantifier": "every history of calls and arguments", "why_tests_cant": "history dependent", "anchors": ["pyroomacoustics/doa/doa.py:DOA.locate_sources"]}
{"id": "C48", "title": "Dataset bookkeeping and filtering", "statement": "Dataset.info counts exactly how many samples of the corpus carry each metadata value, and filter returns exactly the matching samples in order. Deviation: a sample refused because of an unhashable value is counted in part.", "quantifier": "every history of added samples and every filter", "why_tests_cant": "history dependent", "anchors": ["pyroomacoustics/datasets/base.py:Dataset", "pyroomacoustics/datasets/base.py:Meta.match"]}
{"id": "C49", "title": "Spectral subtraction gain", "statement": "The gain filter lies in [g_min, 1] for non-zero bins and follows the documented formula with as noise estimate the minimum bin power over the last lookback+1 frames (silence before the start, so that nothing is subtracted at first). Deviation: a bin without power gets NaN.", "quantifier": "every sequence of spectra and parameters", "why_tests_cant": "history dependent", "anchors": ["pyroomacoustics/denoise/spectral_subtraction.py:SpectralSub.compute_gain_filter"]}
{"id": "C50", "title": "Running covariance of the subspace denoiser", "statement": "The covariance estimates used are the averages over the frames (or the noise frames) currently in the look-back window, however many blocks have been processed, if skip divides the hop. Deviation: otherwise the signal covariance sums one frame per block more than the divisor counts.", "quantifier": "every input history", "why_tests_cant": "incremental add/remove over unbounded history", "anchors": ["pyroomacoustics/denoise/subspace.py:Subspace.update_cov_matrices"]}
{"id": "C51", "title": "Projection back is the least-squares scaling", "statement": "projection_back returns per frequency/channel the complex scale minimising the squared error to the reference, then limited in modulus to the clip bounds, which is the best scale within them. Deviation: a scale of zero is not lifted to the lower bound.", "quantifier": "every set of frames and reference, against every other scale", "why_tests_cant": "optimality quantifies over all competitors", "anchors": ["pyroomacoustics/bss/common.py:projection_back"]}
{"id": "C52", "title": "Rotations are rigid and compose in the documented order", "statement": "Rotation3D.rotate preserves inner products and orientation, rotate_transpose undoes it, and the rotations are applied in the order of rot_order, for points of shape (3, n). Deviation: for the documented shape (3, ...) with more axes the wrong axis is rotated.", "quantifier": "every angle list, axis order and point", "why_tests_cant": "continuum of inputs", "anchors": ["pyroomacoustics/directivities/direction.py:Rotation3D"]}
{"id": "C53", "title": "Cardioid responses and energy", "statement": "The cardioid response is G(p+(1-p)cos angle) through both the cartesian and angular interface, is bounded by |G|; cardioid_energy is the integral of its square over the sphere, and sampled rays follow its square. Deviations: the magnitude flag is ignored, and ray sampling ignores changes of the orientation.", "quantifier": "every direction, orientation, p and gain", "why_tests_cant": "continuum of inputs", "anchors": ["pyroomacoustics/directivities/analytic.py:CardioidFamily"]}
{"id": "C54", "title": "Rejection sampler returns exactly the accepted proposals", "statement": "The rejection sampler returns exactly the requested number of samples, exactly the accepted proposals in draw order, its efficiency statistic is accepted/proposed, and it returns whenever enough proposals are accepted. Deviations: size 0 gives one sample, a target that is nowhere positive never returns.", "quantifier": "every stream of proposals and acceptance decisions, any requested size", "why_tests_cant": "all random streams", "anchors": ["pyroomacoustics/random/sampler.py:RejectionSampler"]}
{"id": "C55", "title": "Ambisonic channel order", "statement": "get_mn_in_acn_order(N) lists every pair (m,n) with |m|<=n<=N exactly once, at position n*n+n+m.", "quantifier": "every degree", "why_tests_cant": "all degrees", "anchors": ["pyroomacoustics/directivities/harmonics.py:get_mn_in_acn_order"]}
{"id": "C56", "title": "Ray energy only decays and tracing terminates", "statement": "A ray goes from wall to wall; its energy per band is the initial one times the reflection coefficients met and never increases; the microphones store exactly what they hear of each piece (in hybrid mode after ism_order walls) and what the walls scatter to them; tracing always ends, once the energy or time threshold is crossed or no wall is found. Deviations: scattering creates energy close to a microphone, and its threshold is not relative to the energy of the ray.", "quantifier": "every wall sequence, coefficients in [0,1] and thresholds", "why_tests_cant": "unbounded number of bounces", "anchors": ["pyroomacoustics/libroom_src/room.cpp:Room::simul_ray"]}
{"id": "C57", "title": "Shoebox departure directions", "statement": "For every shoebox image and microphone, the direction in which the path leaves the real source points from the source to the microphone mirrored back through the walls of the path, and its un-normalised length is the distance from the image to the microphone.", "quantifier": "every room, order, source and microphone", "why_tests_cant": "parity cases over all reflection vectors", "anchors": ["pyroomacoustics/libroom_src/room.cpp:Room::image_source_shoebox"]}
{"id": "C58", "title": "Fractional delay filters", "statement": "fractional_delay fills row i with a windowed interpolated sinc delayed by time[i]: for delays in [0,1] every table access is in bounds and tap k equals hann(k) * sinc(k - half - delay) interpolated linearly on the table grid; even widths use one tap less. Delays above one sample are not rejected and read outside the table.", "quantifier": "every width >= 3, granularity >= 1 and delay", "why_tests_cant": "real-valued delays and all sizes", "anchors": ["pyroomacoustics/libroom_src/rir_builder.cpp:threaded_fractional_delay_impl"]}
{"id": "C59", "title": "Sequential and threaded builders compute the same response", "statement": "The Cython builder fast_rir_builder, when its assertions hold, accesses no memory out of bounds and adds exactly the contributions of the images flagged visible, each being the same windowed interpolated sinc as in the threaded C++ builder.", "quantifier": "every list of delays, amplitudes and visibilities, filters with more than one tap, granularity >= 1, sampling rate >= 0", "why_tests_cant": "real-valued delays, arbitrary lists", "anchors": ["pyroomacoustics/build_rir.pyx:fast_rir_builder", "pyroomacoustics/libroom_src/rir_builder.cpp:threaded_rir_builder_impl"]}
{"id": "C60", "title": "Offline STFT analysis", "statement": "In non-streaming mode analysis of a signal of any length gives 1 frame if it has at most N samples and 1+ceil((len-N)/hop) otherwise; frame k is the transform of the windowed samples k*hop..k*hop+N-1 (zeros after the end) between the zero paddings; every sample is in some frame; earlier calls have no influence. With a fixed number of frames other lengths raise.", "quantifier": "every signal, window, frame length, hop <= frame length and padding", "why_tests_cant": "all lengths and parameters", "anchors": ["pyroomacoustics/transform/stft.py:STFT.analysis", "pyroomacoustics/transform/stft.py:STFT._analysis_non_streaming"]}
{"id": "C61", "title": "Strang circulant approximation", "statement": "toeplitz_strang_circ_approx returns, for two or more entries, the symmetric circulant column whose entry at distance k is r[min(k,n-k)]; a single entry raises.", "quantifier": "every first row of any length", "why_tests_cant": "parity-dependent slicing bounds", "anchors": ["pyroomacoustics/adaptive/util.py:toeplitz_strang_circ_approx"]}
{"id": "C62", "title": "Time alignment moves the signal by one bounded delay", "statement": "time_align(ref,deg,L) returns an array of the length of ref equal to deg moved by the integer delay that delay_estimation returns, smaller than a block in magnitude, with zeros where deg has no samples; it never fails for signals of at least one block.", "quantifier": "every pair of signals and block size", "why_tests_cant": "clamped slices depend on sign and size of a data-dependent delay", "anchors": ["pyroomacoustics/sync.py:time_align", "pyroomacoustics/sync.py:delay_estimation"]}
{"id": "C63", "title": "Linear prediction minimises the prediction error", "statement": "lpc(x,p) returns p coefficients, and any other choice of p coefficients gives a strictly larger energy of the error of predicting each sample of the zero-extended signal from its p predecessors. The prediction error filter 1 - sum a_k z^-k has all its zeros inside the unit circle, so that the all-pole filter with these coefficients is stable.", "quantifier": "every signal with a nonzero sample, every order 1 <= p < len(x)", "why_tests_cant": "global optimality over all real coefficient vectors, all lengths and orders", "anchors": ["pyroomacoustics/utilities.py:lpc", "pyroomacoustics/utilities.py:autocorr", "pyroomacoustics/utilities.py:levinson"]}
{"id": "C64", "title": "Rays leave a wall towards the inside", "statement": "After a hit the direction of a ray is a unit vector that points strictly back from the wall, whatever the scattering coefficient below one and the random numbers; in 2-D rooms with scattering it depends on uninitialised memory (a deviation).", "quantifier": "every wall, incoming direction, scattering coefficient in [0,1), random numbers", "why_tests_cant": "continuum of directions and random numbers; uninitialised memory differs from run to run", "anchors": ["pyroomacoustics/libroom_src/wall.cpp:Wall::sample_lambertian_reflection", "pyroomacoustics/libroom_src/room.cpp:Room::simul_ray"]}
{"id": "C65", "title": "Distance to a line and angles", "statement": "dist_line_point is the minimum over the line of the distance to the point; cos_angle_between is the normalised inner product, and its clamp never changes the value.", "quantifier": "every pair of distinct points, every point, every pair of nonzero vectors, any dimension", "why_tests_cant": "minimum over a continuum", "anchors": ["pyroomacoustics/libroom_src/geometry.cpp:dist_line_point", "pyroomacoustics/libroom_src/geometry.cpp:cos_angle_between"]}
{"id": "C66", "title": "Image sources of polygonal rooms", "statement": "For non-shoebox rooms image_source_model returns exactly one image for every sequence of at most max_order walls in which each image is inside of the next wall and whose last image is seen by some microphone, in depth-first order, with the iterated mirror image as location, the product of the wall factors as attenuation and the number of walls as order. A seen image belongs to a path touching the planes of the walls whose length is the distance between image and microphone, the minimum over all such paths, and the direction of departure points to the first wall. In convex 2-D rooms every reflection path is found; the direct sound is seen exactly if no inner wall crosses the line of sight.", "quantifier": "every room, source, microphones and order", "why_tests_cant": "tree of wall sequences grows exponentially; geometry is a continuum", "anchors": ["pyroomacoustics/libroom_src/room.cpp:Room::image_sources_dfs", "pyroomacoustics/libroom_src/room.cpp:Room::is_visible_dfs", "pyroomacoustics/libroom_src/room.cpp:Room::is_obstructed_dfs"]}
{"id": "C67", "title": "Materials are well formed and resampled consistently", "statement": "A constructed Material has coefficients of absorption and scattering with one frequency for each; construction changes no other dictionary than the absorption given; one coefficient is repeated to match the other quantity. After the room has looked at its materials all have either one coefficient or one per band. The constructor changes the caller's dictionary, and one coefficient given in an array is multiplied instead of repeated (deviations).", "quantifier": "every material specification, table, heap of dictionaries, list of materials", "why_tests_cant": "aliasing between objects, histories of constructions", "anchors": ["pyroomacoustics/parameters.py:Material.__init__", "pyroomacoustics/parameters.py:Material.resample", "pyroomacoustics/room.py:Room.from_corners"]}
{"id": "C68", "title": "Antoni's octave filter bank reconstructs signals", "statement": "If the transitions of the bands do not overlap, the squared magnitudes of the bands sum to one at every bin, each band has real output with spectrum G^2 X, the outputs of analysis sum to exactly the signal, and energy sums to the energy of the signal plus that of its DC and Nyquist coefficients. The transitions do not overlap if the lowest centre is at least 17.5 bins; with the defaults (512 bins, 16 kHz) they do overlap and the magnitudes are not power complementary (a deviation).", "quantifier": "every signal, transform length, base frequency, overlap ratio in [0,0.5], slope", "why_tests_cant": "rounding of band edges to bins for all sampling rates and lengths; continuum of signals", "anchors": ["pyroomacoustics/acoustics.py:antoni_magnitude_octave_filter_response", "pyroomacoustics/acoustics.py:AntoniOctaveFilterBank.wavelet_analysis", "pyroomacoustics/acoustics.py:AntoniOctaveFilterBank.wavelet_synthesis", "pyroomacoustics/acoustics.py:AntoniOctaveFilterBank.energy"]}
{"id": "C69", "title": "Impulse response of the image source method", "statement": "For a microphone in the room that is reached by at least one path (and is at none of the images), the image source part of the impulse response has at every sample the sum over the paths visible from this microphone of a fractional delay filter at the time of flight (plus the half filter length) with amplitude damping/distance times air absorption and directivity gains; with several bands each band is filtered and the bands are added, and for flat materials and a perfectly reconstructing filter bank this equals the single-band response; nothing is cut off at the end; the thread schedule has no influence; an even filter length is refused. In a shoebox room the sum runs over all reflection numbers of total at most the order. (Deviations: a microphone that no path reaches makes the computation raise, and a source from which no path reaches any microphone is heard everywhere through its first stored image, as if unobstructed.)", "quantifier": "every list of image sources, visibility, position, sampling rate, filter length, number of bands, number of threads, every schedule, filters with more than one tap", "why_tests_cant": "selection of images per microphone, array length and visibility encodings interact only in particular room geometries", "anchors": ["pyroomacoustics/simulation/ism.py:compute_ism_rir", "pyroomacoustics/simulation/ism.py:apply_air_aborption", "pyroomacoustics/room.py:Room.image_source_model", "pyroomacoustics/libroom_src/rir_builder.cpp:threaded_rir_builder"]}
{"id": "C70", "title": "Acoustic reciprocity of shoebox rooms", "statement": "Exchanging an omnidirectional source and an omnidirectional microphone at two different places inside a shoebox room leaves the image source impulse response unchanged, sample for sample, for any walls, bands, order and air absorption.", "quantifier": "every shoebox room in 2-D and 3-D, every order, all pairs of positions inside", "why_tests_cant": "relation between two complete simulations over an infinite family of rooms and orders; numerical tests compare a few rooms approximately", "anchors": ["pyroomacoustics/simulation/ism.py:compute_ism_rir", "pyroomacoustics/libroom_src/room.cpp:Room::image_source_shoebox", "pyroomacoustics/room.py:Room.image_source_model"]}
{"id": "C71", "title": "Distances and pairing of angles", "statement": "circ_dist is the shortest arc between two azimuths (whatever the radius: deviation), great_circ_dist the radius times the angle between the directions; polar_distance pairs the angles of two lists one to one, the closest first, and returns the mean distance of the pairs (which is not always the least possible; the index for a single angle is off by one: deviations). The Fibonacci sampling lies on the unit sphere at pairwise different heights.", "quantifier": "all angles, radii, lists and numbers of points", "why_tests_cant": "continuum of inputs", "anchors": ["pyroomacoustics/doa/utils.py:circ_dist", "pyroomacoustics/doa/utils.py:great_circ_dist", "pyroomacoustics/doa/utils.py:polar_distance", "pyroomacoustics/doa/utils.py:fibonacci_spherical_sampling"]}
{"id": "C72", "title": "The next wall on the way of a ray", "statement": "next_wall_hit returns in a shoebox a wall towards which the ray moves, with the point on it and on the ray and the way to it inside of the box up to the tolerance, and in other rooms the nearest wall that the segment meets; scattered energy is blocked exactly by the obstructing walls. Deviation: a ray that arrives where two walls meet is lost.", "quantifier": "every room, start and direction", "why_tests_cant": "continuum of inputs, degenerate cases at edges", "anchors": ["pyroomacoustics/libroom_src/room.cpp:Room::next_wall_hit"]}
{"id": "C73", "title": "Directions after a wall", "statement": "In a 3-D room a ray that meets the front of a wall leaves on the front side with unit length, for every mixture of mirror reflection and scattering and all random numbers. Deviation: at the back of a wall the scattered ray can pass through.", "quantifier": "every wall, direction, scattering coefficient and stream of random numbers", "why_tests_cant": "random directions on a continuum", "anchors": ["pyroomacoustics/libroom_src/wall.cpp:Wall::sample_lambertian_reflection", "pyroomacoustics/libroom_src/room.cpp:Room::simul_ray"]}
{"id": "C74", "title": "Points inside and outside of a room", "statement": "Room.is_inside of a 2-D room with a simple polygon as outline answers exactly whether the point is in the polygon, whatever the random reference points are, as long as the point and the reference points are not within the tolerance of the lines of the walls and one of the lines of sight passes no corner within the tolerance; a point outside is never reported inside. On a wall (2-D and 3-D) the answer is include_borders. For rectangles the answer is the one of ShoeBox.is_inside, the closed box. Room::contains gives the same answer if it returns, and it returns as soon as a line of sight is free of corners. Deviations: contains never returns for a point on a wall (2-D and 3-D); is_inside reports a point outside when all allowed lines of sight pass a corner.", "quantifier": "every simple polygon, point, tolerance, number of iterations and stream of random numbers", "why_tests_cant": "random reference points; all polygons", "anchors": ["pyroomacoustics/room.py:Room.is_inside", "pyroomacoustics/room.py:ShoeBox.is_inside", "pyroomacoustics/libroom_src/room.cpp:Room::contains"]}
{"id": "C75", "title": "Hidden Markov models: forward and backward recursions give the probabilities of the model", "statement": "For a chain with entries that are not negative and observations of positive probability, HMM.loglikelihood is the logarithm of the sum, over all sequences of states, of the joint probability of states and observations; the scaled forward variables are the probabilities of the states given the observations so far; gamma and xhi, computed in fit from the scaled recursions, are the probabilities of one state and of two consecutive states given all observations, they sum up to one and xhi has gamma as its marginals.", "quantifier": "every number of states, length, chain and observation probabilities", "why_tests_cant": "sum over exponentially many sequences; real numbers", "anchors": ["pyroomacoustics/recognition.py:HMM.forward", "pyroomacoustics/recognition.py:HMM.backward", "pyroomacoustics/recognition.py:HMM.loglikelihood", "pyroomacoustics/recognition.py:HMM.fit"]}
{"id": "C76", "title": "Hidden Markov models: the training never decreases the likelihood and keeps the structure of the chain", "statement": "One iteration of HMM.fit with CircularGaussianEmission gives an initial distribution that sums up to one and rows of the transition matrix that sum up to one (or are set to zero if their expected number of transitions is less than 1e-15), and does not decrease the likelihood of the examples, provided that each state is visited with positive probability, no new variance is zero and no row has an expected number of transitions between 0 and 1e-15. Impossible transitions and initial states stay impossible, so that a left-right model stays one. With max_iter >= 1 the training ends after at most max_iter iterations, and before only if the progress is less than tol. Deviations: max_iter <= 0 is no limit, at least two iterations are made; after a training on examples of a single observation the transition matrix is zero and the next fit divides zero by zero.", "quantifier": "every number of states and dimensions, all examples, start parameters, tolerance and number of iterations", "why_tests_cant": "convergence statement over all data; monotonicity of expectation maximisation", "anchors": ["pyroomacoustics/recognition.py:HMM.fit", "pyroomacoustics/recognition.py:HMM.update_parameters", "pyroomacoustics/recognition.py:CircularGaussianEmission.update_parameters", "pyroomacoustics/recognition.py:HMM.__init__"]}
{"id": "C77", "title": "The tail of the impulse response built from the histograms of the ray tracing", "statement": "poisson_sequence gives times that begin at t0, increase strictly and of which only the last is not before t0 + duration; the loop ends as soon as the draws are small enough in total, and without t0 the first time has the cube 2 log 2 V / (4 pi c^3). The direction of a pulse is in range and is drawn with the probability of its share of the energy of the bin (uniform if there is none). The weight of a pulse squared is two over the number of samples with a pulse in the two bins around it. interp_hist interpolates linearly between anchors and repeats the first value. compute_rt_rir never fails for at least two bins of at least two samples, and gives half a filter of zeros followed by the samples of the bins up to the last with energy: the sum over bands of the filtered pulses times the root of the envelope and, with air absorption, times exp(-alpha c t/2); without energy it gives half a filter of zeros. Deviations: a draw of exactly zero raises ZeroDivisionError; the rate of the pulses at the first time is four times the reference rate (t0 is added twice); the direction is drawn from the bin of the time minus t0 instead of the bin of the time; interp_hist sets the last half bin to zero instead of repeating the last value, and fails for bins of one sample.", "quantifier": "all draws, histograms, numbers of bands, directions, bins and filter lengths", "why_tests_cant": "random sequences; real numbers; all lengths", "anchors": ["pyroomacoustics/simulation/rt.py:poisson_sequence", "pyroomacoustics/simulation/rt.py:directional_sequence", "pyroomacoustics/simulation/rt.py:interp_hist", "pyroomacoustics/simulation/rt.py:seq_rolling_power", "pyroomacoustics/simulation/rt.py:compute_rt_rir"]}
{"id": "C78", "title": "measure_rt60 gives the slope of the decay curve", "statement": "measure_rt60 (fit in the logarithmic domain): the result is -60 over the slope of the straight line with the least squares through the window of the decay curve; it is never negative; it does not change when the response is scaled by any non-zero factor; with sampling frequency fs it is the result in samples divided by fs; for a response whose backward integrated energy is E q^n (0<q<1), long enough, it is exactly the time in which the energy falls to a millionth, for every decay_db that is at least the decay of one sample; a response of zeros gives 0. Deviations: the last sample with energy is always cut off, so that a response with all its energy in the first sample raises IndexError; when only one point is left after the fall of 5 dB the result is a division by zero.", "quantifier": "all impulse responses of any length, sampling frequencies, decays and thresholds", "why_tests_cant": "real numbers; all lengths and all decays", "anchors": ["pyroomacoustics/experimental/rt60.py:measure_rt60", "pyroomacoustics/experimental/rt60.py:_fit_exp_and_extrapolate"]}
{"id": "C79", "title": "SRP-PHAT is the steered power and peaks at the true direction", "statement": "SRP-PHAT: with at least two microphones, one bin and one snapshot, and values not below the tolerance, the spectrum at a grid point is the power of the array steered to that point with all amplitudes taken out, over the numbers of snapshots, bins and pairs; it is never negative (also for tiny values) and at most 2M/(M-1); for one plane wave from a grid point, with any source spectrum and any positive gains, the value at that point is that maximum, and another point has the same value exactly if its steering vectors agree up to a common factor in every used bin; common complex factors and positive gains never change the spectrum; silence gives 2/(M-1) everywhere. Deviations: one microphone gives a division by zero; no bin in the range raises IndexError.", "quantifier": "all arrays, grids, bins, snapshots and signals", "why_tests_cant": "complex numbers; all arrays and signals", "anchors": ["pyroomacoustics/doa/srp.py:SRP", "pyroomacoustics/doa/doa.py:ModeVector"]}
{"id": "C80", "title": "MUSIC spectrum: one over the power in the noise space", "statement": "MUSIC: the value of a bin at a point is one over the power of the steering vector in the space of the eigenvectors left out, so it is at least 1/M and infinite exactly if that power is zero; for K linearly independent waves from sources of which none is a combination of the others, with uncorrelated noise of any power in the correlation matrix, it is infinite exactly for combinations of the steering vectors of the waves; for K plane waves from grid points without noise the spectrum is infinite at exactly those points whose steering vector is in some bin a combination of those of the waves, in particular at all of them; both ways of computing the correlation matrix agree; with normalised bins every bin is divided by its greatest value on the grid and the spectrum is at most one. Deviation: with as many sources as microphones, or more, the whole spectrum is infinite.", "quantifier": "all arrays, grids, bins, numbers of sources, signals and results of eigh", "why_tests_cant": "complex numbers; all eigendecompositions", "anchors": ["pyroomacoustics/doa/music.py:MUSIC", "pyroomacoustics/doa/normmusic.py:NormMUSIC"]}
{"id": "C81", "title": "Designed beamformers meet their constraints and are optimal among all that do", "statement": "For every array, frequency, set of images and noise covariance whose total (noise, interference and regularisation) is positive definite, rake_max_sinr_weights yields weights with a response of exactly one to the sum of the images of the source and with the least power of noise and interference among all such weights, and snr computed for them is not below snr for any other weights; rake_one_forcing_weights (independent steering vectors) has a response of one to each image and the least power among all such weights; far_field_weights has the greatest absolute response there is (the number of microphones) to a plane wave from its angle, and delay and sum responds with the normalised energy of the steering vectors. rake_mvdr_filters, whenever it returns, has the value one at the wanted delay and the least total power; rake_perceptual_filters, whenever it returns, gives zero before the delay, one at it and zero after the relaxation, and the least power of noise and interference among all such filters. Deviations proved: with default arguments (no interferer, no noise) the weights divide by zero and the perceptual filters raise; without an interferer the regularisation is added to all entries; far-field steering vectors with attenuation always divide by zero and with several images are scaled by the norm of all of them; the caller's R_n is modified.", "quantifier": "all arrays, positions, frequencies, sources, interferers, covariance matrices, delays, channel matrices, and all competing weights or filters", "why_tests_cant": "optimality is a statement about all other weight vectors; tests compare a few numbers", "anchors": ["pyroomacoustics/beamforming.py:690-729", "pyroomacoustics/beamforming.py:890-915", "pyroomacoustics/beamforming.py:1050-1143", "pyroomacoustics/beamforming.py:1257-1319", "pyroomacoustics/beamforming.py:1401-1436"]}
{"id": "C82", "title": "AuxIVA and OverIVA never increase their objective", "statement": "For every STFT X with at least one frequency, number of sources not above the number of channels, either source model, and initial demixing matrix: if auxiva with n and with n+k iterations both return, the objective of the second result (mean contrast of the separated sources, i.e. the absolute value for 'laplace' or n_freq times the logarithm of the variance for 'gauss', each with a parabola below the floor of 1e-15, minus the logarithm of the determinant of the covariance of the sources summed over frequencies) is not above that of the first. Each row update yields a row of unit weighted power, orthogonal to all other rows under the weighted covariance, and globally best among all rows that could replace it; the background of the overdetermined case is never correlated with a source. With as many sources as channels, linearly independent channels at every frequency and invertible initial matrices, no iteration can fail. Not covered: init_eig, which assigns an (n_chan, n_src) array to an (n_src, n_chan) slot.", "quantifier": "all signals, numbers of frames, frequencies, channels, sources and iterations, both models, all initial matrices, and all competing rows", "why_tests_cant": "monotonicity is a statement about every step from every state; tests look at the separation of one mixture", "anchors": ["pyroomacoustics/bss/auxiva.py:77-255"]}
{"id": "C83", "title": "Independent low-rank matrix analysis does not increase its objective between scalings", "statement": "In `ilrma`, starting from a state where the powers and the inverse variances agree with the demixing matrices, the bases and the activations (as the initial one does when the random arrays are at least 0.1), the multiplicative update of a basis, that of the activations and the update of a row of the demixing matrices do not increase the negative log-likelihood sum_{s,f} mean_t (|y|^2/r + log r) - 2 sum_f log|det W_f|, as long as the products of bases and activations stay above the floor, and neither does a whole loop over the sources, which leaves the state consistent again. Bases and activations stay at least eps, and no update divides by zero or fails when the covariances of the mixtures are definite and the demixing matrices invertible. The scaling that follows gives the kept powers a mean of one; but it scales columns instead of rows of the demixing matrices, so that from a consistent state it can give powers that are not those of the signals and a greater objective, and it leaves the inverse variances unscaled, wrong by the square of the factor (deviations).", "quantifier": "for all mixtures, numbers of sources, frequencies, frames and components, all states and all numbers of sources in the loop", "why_tests_cant": "tests look at the separation of one mixture; monotonicity over real-valued states cannot be enumerated", "anchors": ["pyroomacoustics/bss/ilrma.py:32-191"]}
{"id": "C84", "title": "Griffin-Lim iterations do not move away from the magnitudes", "statement": "From the first iteration of `griffin_lim` on, every further iteration gives a signal whose short-time spectra (of the signal continued on the left by its own end, which is what the streaming transform object sees) have magnitudes at most as far, in the sum of squares over all frames and all frequencies of the two-sided spectrum, from those given as before, for windows that leave no sample uncovered and non-negative magnitudes. The result has one hop per frame. With the magnitudes and the phases of the spectra of a signal and no iteration all samples but the last `fft_size - hop` are those of the signal. Deviations: those last samples are not changed by any iteration and are a copy of the samples before them in the first estimate; without overlap the function always raises, a single frame is refused, and with a callback and no iteration it raises NameError.", "quantifier": "for all magnitudes, windows, hops, frame lengths, initial phases and numbers of iterations", "why_tests_cant": "tests run one signal and look at the final distance; monotonicity over all signals is a statement about real numbers", "anchors": ["pyroomacoustics/phase/gl.py:108-192", "pyroomacoustics/transform/stft.py:323-434", "pyroomacoustics/transform/stft.py:823-859"]}
{"id": "C85", "title": "Only walls inside the convex hull of a room can obstruct", "statement": "`find_non_convex_walls`, given a room in which every corner of the first wall is a corner of another wall too: a wall whose index is not returned lies in a face of the convex hull (all corners of the room on one side of the plane of the face, the corners of the wall closer to it, in units of the length of the normal, than the tolerance times their number), so that no point of a straight way between two points deeper in the room than that is on such a wall: only the walls returned, which are the ones tested by the engine, can obstruct. Of a wall whose index is returned the centre is strictly inside: in every direction there is a corner of the room beyond it, hence nothing is returned for a convex room. A single wall raises.", "quantifier": "for all lists of walls in 2-D and 3-D, all points, all tolerances, any hull routine that meets the specification of a convex hull", "why_tests_cant": "tests use a few rooms and compare with hand made lists", "anchors": ["pyroomacoustics/room.py:744-793", "pyroomacoustics/room.py:995-1010", "pyroomacoustics/libroom_src/geometry.cpp:53-79"]}
{"id": "C86", "title": "Beamformer processing: time and frequency domain agree, weights are applied", "statement": "`Beamformer.process()` in the time domain returns, to the last sample, the sum of the recorded signals convolved with the filters. In the frequency domain (two or more microphones, more than one frame) it returns the overlap-added Hann-windowed frames with the spectra multiplied by the conjugate weights and summed; for filters no longer than the padding at the end of the frames plus one and a hop of half a frame this is the time-domain result delayed by one hop. Filters computed from weights by `filters_from_weights` (at least as long as the transform) have these weights delayed by half the transform: steady oscillations at a frequency of the transform come out as the sum of the amplitudes times the conjugate weights, and `weights_from_filters` gives the weights back times (-1)^k; shorter filters are the inverse transform at the delays asked for by non_causal. Deviations: short filters have no such delay; filters (or weights) computed earlier are kept and used although the weights (or filters) changed; joining two beamformers exchanges N and Lg; in the frequency domain a single microphone or a recording no longer than a hop is refused; without padding (the default) filters wrap around.", "quantifier": "for all numbers of microphones, lengths, paddings, weights, filters, signals", "why_tests_cant": "tests listen to or plot a few outputs; agreement needs all signals and lengths", "anchors": ["pyroomacoustics/beamforming.py:584-671", "pyroomacoustics/beamforming.py:950-1007", "pyroomacoustics/transform/stft.py:734-820"]}
{"id": "C87", "title": "Areas of cells on the sphere and spherical histograms", "statement": "`robust_spherical_voronoi_areas`: for one or two points, for three different points on a great circle, and (when `SphericalVoronoi` raises) for four or more points on a great circle, provided that from three points on not all of them are on an open half of the circle, the areas returned are the areas of the sets of directions that are closest to each point, and they add up to 4 pi; a ValueError for points on a great circle means two points closer than 1e-6 or a second singular value below 1e-6; points without three coordinates raise ValueError. Not so when all points are on an open half of the circle (the sum is below 4 pi), for three points that are not on a great circle (the axes: pi each), and for points on a small circle (a hexagon at height 1/2: the sum is above 4 pi). `spherical_integral` is linear, and gives 4 pi c for constants when the weights add up to 4 pi. `SphericalHistogram`: after every sequence of pushes and reads the counts are the numbers of points nearest to each bin, `total_count` is the number of points, and `histogram` is a density with integral one, the counts divided by the sum of areas times counts.", "quantifier": "all numbers of points and positions on great circles, all sorting and singular value routines that meet their specification, and all histories of the histogram", "why_tests_cant": "tests compare the sum of the areas for a few grids; the wrong sums need particular positions, and the counts are a statement about all histories", "anchors": ["pyroomacoustics/directivities/integration.py:38-144", "pyroomacoustics/directivities/histogram.py:36-119"]}
{"id": "C88", "title": "Measured directivities: nearest measurement, energies of rays, files", "statement": "Given unit directions of the measurements, a rotation as orientation and a search that finds a nearest point, the response of a MeasuredDirectivity in a direction is the impulse response of a measurement that is nearest to the direction turned back by the rotation, for every direction; turning the object and the direction together does not change it where the nearest is unique. Setting an orientation replaces the one before: the object is the same as one constructed with it. By angles the response is that for the corresponding direction (but, a deviation, leaving out the colatitude with angles in degrees, both of which are the defaults, raises TypeError). The band energies are those of the responses divided by the share of the bandwidth. If the cells have the areas used by the object, the density of the random directions has integral one over the sphere and the mean energy of a random ray equals, in every band, the mean of the energy over directions spread evenly. sample_rays returns as many rays as asked; without a generator they are the unit vectors of the spiral with the energies of their measurement; with one every ray falls on a measurement that has energy and carries, summed over bands, the total energy divided by 4 pi. For a MeasuredDirectivityFile, after any history of calls, the data for a microphone (a source) are the responses from all sources (to all microphones) on the grid of their directions, interpolated when an order was given, so the cache never shows; identifiers select by number or by the first position of the label, and everything else raises ValueError. Deviations: __init_subclass__ accepts every subclass; the default get_response passes three rows to get_response_cartesian whatever the number of directions.", "quantifier": "for every number of measurements, grid of unit vectors, rotation, impulse responses, band energies and areas, random draws, and history of calls on a file", "why_tests_cant": "the mean over random rays needs an integral over the sphere, and the independence of the cache concerns all histories of calls", "anchors": ["pyroomacoustics/directivities/measured.py:93-133", "pyroomacoustics/directivities/measured.py:136-295", "pyroomacoustics/directivities/measured.py:377-587", "pyroomacoustics/directivities/base.py:69-150"]}
{"id": "C89", "title": "Options of the simulation reach the engine; receivers own their memory", "statement": "After any history of set_ray_tracing, unset_ray_tracing, set_sound_speed and added microphones that did not raise, the engine has exactly the options of the room (speed, order, thresholds, radius and its square, length of the bins, hybrid mode). set_ray_tracing rounds the bins down to whole samples and takes the number of rays given or the whole part of the one with twenty hits per bin on average. A microphone that is added gets bins in which what arrives after t seconds is in the bin of t, for all times before the threshold without growth. broadcast_bands_to brings walls of one band to any number, consistently for walls, engine and receivers. In every history in which the storage of the receivers is not enlarged while one of them has directions, no search tree is deleted twice or read after deletion, each receiver owns its tree and nothing is left at the end. Deviations proved: bins shorter than one sample raise after the arguments were replaced; rooms below 250 Hz cannot be made; changing the length of the bins or the speed leaves the receivers added before with the old bins; broadcast of several bands raises with a changed number of bands, and to one band leaves the old average scattering; ray tracing with a directive microphone followed by adding a microphone that enlarges the storage always ends in a double deletion.", "quantifier": "for every history of calls, option values, number of microphones, directivities, growth policy of the vector, and continuation of the history", "why_tests_cant": "tests do not look at the engine's copies of options, and undefined behaviour of memory shows only by chance", "anchors": ["pyroomacoustics/room.py:995-1040", "pyroomacoustics/room.py:1049-1157", "pyroomacoustics/room.py:1197-1200", "pyroomacoustics/room.py:2195-2264", "pyroomacoustics/libroom_src/room.hpp:171-219", "pyroomacoustics/libroom_src/microphone.hpp:40-131", "pyroomacoustics/libroom_src/wall.hpp:100-111", "pyroomacoustics/libroom_src/wall.cpp:58-75"]}
{"id": "C90", "title": "Random directions have the laws and densities announced, and seeds make the package deterministic", "statement": "pra.random.uniform_spherical(dim) turns independent standard normal numbers into vectors of norm one (except on a set of draws of probability zero, where the code gives NaN) whose law on the unit sphere has, with respect to the area, the constant density given by UniformSpherical(dim).pdf, and this density has integral one, in every dimension. PowerSpherical(loc, scale) accepts exactly the locations with one axis and norm one up to 1e-5 and the positive scales, anything else being a ValueError; its pdf has integral one over the sphere in every dimension >= 2 for every location of norm one and every scale, is largest at loc, and fails with AssertionError for points of another dimension. The samples of power_spherical computed from the numbers it draws (a beta number with the parameters the code uses, and normal numbers) have exactly that density when the reflection is made without the constant _eps; as computed, a sample is within 4 eps/(|e1 - loc| + eps) of a vector of norm one whose cosine with loc is 2z - 1, and equal to it when loc is the first axis. The array returned has the requested shape followed by the dimension. After seed(numpy=s, libroom=l) the numbers a program gets from both generators do not depend on anything before nor on the entropy of the system, and with both seeds the two streams are those of their seeds however the draws interleave. Deviations: for some loc of norm one a sample can be the zero vector, because of _eps; power_spherical ignores the given generator for all coordinates around loc and draws them from the generator of the package; seed(numpy=s) and seed(numpy=s, libroom=l) give different numpy numbers for the same s; without any seed the C++ engine gives the same numbers in every process until the generator of the package is first used, which then reseeds it.", "quantifier": "for all dimensions, locations of norm one, positive scales, measurable functions on the sphere (laws), numbers drawn, seeds, programs of draws and states of the generators", "why_tests_cant": "Tests compare histograms of finitely many samples with the density in dimension 3 up to a tolerance, which cannot see a wrong constant in other dimensions, an event of small probability such as a vanishing sample, or that a seed is ignored for part of the draws.", "anchors": ["pyroomacoustics/random/spherical.py", "pyroomacoustics/random/distributions.py", "pyroomacoustics/random/generator.py", "pyroomacoustics/libroom_src/random.hpp"]}
{"id": "C91", "title": "Image source responses with measured directivities are the filtered pulses of the visible paths", "statement": "multi_convolve returns, row by row, the full linear convolution of all its arguments (length = sum of the lengths minus their number plus one) when they have the same number of rows, and raises ValueError otherwise. When the microphone or the source has a directivity that is an impulse response, compute_ism_rir returns, with one band, the sum over the visible image sources of the fractionally delayed pulse at distance/c*fs convolved with the response of the microphone and of the source in the direction of the path and multiplied by the attenuation of the path; with several bands, each path is moreover convolved with the sum over bands of the attenuation times the band filter, and the first n_fft//2 samples are dropped unless minimum phase filters are used. Directivities that are gains enter as factors. If the measured responses have a single sample, the response equals the one computed by the path without measured directivities. With frequency-independent materials and AntoniOctaveFilterBank at sufficient resolution, the multi-band response equals the single-band response. Deviation proved: with the cosine filters of OctaveBandsFactory and an even n_fft the same response comes one sample early and loses its first sample.", "quantifier": "all positions, images, visibilities, attenuations, impulse responses, gains, numbers of bands, filter banks, sampling frequencies, filter lengths", "why_tests_cant": "the tests compare a few simulated rooms with stored references; convolution, alignment and trimming hold for every room or not at all", "anchors": ["pyroomacoustics/simulation/ism.py:multi_convolve", "pyroomacoustics/simulation/ism.py:compute_ism_rir", "pyroomacoustics/room.py:Room.compute_rir", "pyroomacoustics/directivities/measured.py:MeasuredDirectivity.get_response"]}
{"id": "C92", "title": "The DFT class transforms windowed signals and back, and what it overwrites", "statement": "For a transform length of at least two, DFT.analysis returns in every channel the discrete Fourier transform of the signal times the analysis window, for one or several channels, along either axis, with any of the packages; DFT.synthesis returns the inverse transform times the synthesis window of the given spectrum or of the last one analysed. synthesis() after analysis(x) returns x times both windows, and analysis after synthesis(X) returns X when X belongs to a real signal. Arrays of other dimensions are refused without any change. The only arrays written are the argument of analysis, self.X and self.x. Deviations proved: analysis multiplies the window into the caller's array, so a second analysis of the same array applies the window twice, and integer arrays raise TypeError; both methods return the object's own buffers, so a later call overwrites earlier answers; one channel with axis=1 can never be analysed (numpy, mkl); wrong dimensions of a single channel raise IndexError instead of ValueError; with nfft=1 all channels get the first channel; bits has no effect unless precision=None.", "quantifier": "all transform lengths, numbers of channels, windows, signals, spectra, packages and states of the memory", "why_tests_cant": "the effects on the caller's arrays appear only when an array is used again; lengths, axes and packages multiply the cases", "anchors": ["pyroomacoustics/transform/dft.py:DFT.__init__", "pyroomacoustics/transform/dft.py:DFT.analysis", "pyroomacoustics/transform/dft.py:DFT.synthesis"]}
{"id": "C93", "title": "Window functions have the documented samples, symmetry and overlap", "statement": "hann, hamming, cosine, triang, blackman_harris and flattop return the documented formula at n/M with M=N (asymmetric) or N-1 (symmetric); bohman, gaussian, kaiser and rect return theirs. With the symmetric flag windows read the same in both directions; with the asymmetric flag sample n equals sample N-n. For even N the left part followed by the right part is the full window. The halves of the asymmetric hann, cosine and triang windows add up to one, and K Hann windows shifted by N/K add up to K/2 whenever K>=2 divides N. hann, cosine, triang, hamming, bohman, gaussian, kaiser have samples between 0 and 1. Deviations proved: flag 'mdct' always raises TypeError; bart is a rising ramp instead of a triangle; bart_hann and blackman divide the index twice and are not symmetric; blackman_harris and flattop have the third harmonic with the wrong sign (the middle sample is not one); cosine is identical to hann; bohman, gaussian, kaiser ignore flag and length; for odd N left and right parts do not make up the window; the halves of hamming add up to 1.08; one-sample windows are not numbers or raise, bohman(1) has two samples.", "quantifier": "all lengths N, flags, parts, standard deviations and shape parameters", "why_tests_cant": "each function has six combinations of options for every length; tests look at a single length or none at all", "anchors": ["pyroomacoustics/windows.py:hann", "pyroomacoustics/windows.py:hamming", "pyroomacoustics/windows.py:cosine", "pyroomacoustics/windows.py:triang", "pyroomacoustics/windows.py:bart", "pyroomacoustics/windows.py:bart_hann", "pyroomacoustics/windows.py:blackman", "pyroomacoustics/windows.py:blackman_harris", "pyroomacoustics/windows.py:flattop", "pyroomacoustics/windows.py:bohman", "pyroomacoustics/windows.py:gaussian", "pyroomacoustics/windows.py:kaiser", "pyroomacoustics/windows.py:rect"]}
{"id": "C94", "title": "The median comes with a valid confidence interval; error measures", "statement": "median(x) returns a number with at least half of the samples on each side, whatever the order of the samples. For fewer than max(10/alpha, 10/(2-alpha)) independent samples of any distribution (0 < alpha <= 1, samples below its median with probability one half), the interval from m+ci[0] to m+ci[1] contains the median of the distribution with probability at least 1-alpha; the assertion in the code never fails, and ValueError is raised exactly if 2^-n >= alpha/2. For larger samples the positions used are always inside the sample and enclose eta standard deviations of the binomial distribution on both sides of its mean. alpha <= 0 or >= 2 raises; no samples raise IndexError. mse is the mean squared difference, symmetric and zero only for equal signals; snr is the energy ratio and does not depend on a common scale; the flatness of sweeping_echo_measure is between zero and one, and one for constant spectra. Deviations proved: the documented interval [m-le, m+ue] is wrong, as ci[0] is not positive; sweeping_echo_measure takes the non-negative bins of a real transform for bins of both signs, so its frequency labels are at least twice the frequencies.", "quantifier": "all samples, sample sizes, levels alpha and distributions with P(X <= t) = 1/2", "why_tests_cant": "coverage is a probability over all samples of all distributions; an off-by-one in a position changes it by a little that no test would notice", "anchors": ["pyroomacoustics/metrics.py:median", "pyroomacoustics/metrics.py:mse", "pyroomacoustics/metrics.py:snr", "pyroomacoustics/metrics.py:sweeping_echo_measure"]}
{"id": "C95", "title": "Signal formats, clipping, normalisation and noise at a given level", "statement": "to_float32 maps samples of signed integer types to [-1,1) by division by 2^(bits-1); to_16b maps [-1,1] to multiples of 1/32767 rounded towards zero; clip replaces every sample by the nearest number of the interval; normalize multiplies by one positive factor so that the largest size is 1 or 2^(bits-1)-1, refuses integers (TypeError) and empty arrays (ValueError); normalize_pwr gives the first signal the power of the second. create_noisy_signal without offset: clean and noise returned are positive multiples of the two signals (noise from the start of the file, or normalised random numbers) whose levels differ by exactly snr dB, the largest size of their sum is one, and noisy is that sum without its mean; other sampling rates or short noise raise ValueError. Deviations proved: unsigned samples (8-bit files) are divided by zero; reading 16-bit samples with to_float32 and writing them with to_16b moves every non-zero sample one step towards zero; any positive offset raises ValueError; noisy can exceed one.", "quantifier": "all signals, types, bit widths, levels, rates, offsets and random numbers", "why_tests_cant": "the loss of one step and the level are statements about all samples and all signals; tests compare a few numbers with tolerances", "anchors": ["pyroomacoustics/utilities.py:create_noisy_signal", "pyroomacoustics/utilities.py:rms", "pyroomacoustics/utilities.py:to_float32", "pyroomacoustics/utilities.py:to_16b", "pyroomacoustics/utilities.py:clip", "pyroomacoustics/utilities.py:normalize", "pyroomacoustics/utilities.py:normalize_pwr"]}
{"id": "C96", "title": "Prony's and Shanks' methods minimise their errors", "statement": "prony(x,p,q) and shanks(x,p,q) raise NameError iff p+q >= len(x). Otherwise prony returns a with p+1 coefficients, the first of them one, that predict the samples after number q of the signal (zero outside) with the smallest squared error, err is this error, and the impulse response of the filter b/a equals the signal on the first q+1 samples. shanks returns the same a and the b with q+1 coefficients for which the impulse response of b/a has the smallest squared error on the samples of the signal, and err is this error; it is never larger than the error of the model of prony. Deviations: the first array is the denominator although documented as the numerator; the equations include zeros after the end of the signal, so that the beginning of a one-pole impulse response is never recognised exactly (proved).", "quantifier": "all real signals, orders p and q, and every least squares routine that minimises", "why_tests_cant": "minimality is a statement about all other models; the wrong range of rows gives a plausible but different model", "anchors": ["pyroomacoustics/utilities.py:prony", "pyroomacoustics/utilities.py:shanks", "pyroomacoustics/utilities.py:convmtx"]}
{"id": "C97", "title": "Fractional delay filters and the bookkeeping of resample()", "statement": "fractional_delay(t0) returns the sinc function around (N-1)/2+t0 under the (squared-sine) Hann window; the filter for -t0 is the one for t0 reversed, and for a whole number k of samples and odd N it is a single impulse at (N-1)/2+k (of the height of the window there, so one only for k = 0). low_pass_dirac with Fs*t0 a whole number is an impulse of height alpha. fractional_delay_filter_bank(delays), with d the delays minus their minimum, returns L+ceil(max d) columns (L = frac_delay_length); row i holds from column floor(d_i) on exactly the L coefficients of the windowed sinc around (L-1)/2+d_i, i.e. fractional_delay of the fractional part moved by the whole part, and zero elsewhere; no index leaves the array or its row; rows of whole delays with odd L are unit impulses; an empty list raises ValueError. resample(data, old_fs, new_fs, backend) keeps all dimensions but the last, and each channel is the channel resampled by the library chosen, for any number of dimensions, the blocks of 128 channels making no difference; soxr falls back to samplerate and that to scipy; scipy gets new_fs/old_fs in lowest terms for whole rates (rates are cut to whole numbers: an old rate below 1 Hz raises ZeroDivisionError); unknown backends raise ValueError.", "quantifier": "all delays, amplitudes, filter lengths, lists of delays, arrays of any number of dimensions with at least one sample and channel, rates, and libraries that treat channels separately", "why_tests_cant": "tests compare a few delays and one or two array shapes with the installed backend", "anchors": ["pyroomacoustics/utilities.py:580-663", "pyroomacoustics/utilities.py:866-970"]}
{"id": "C98", "title": "Source objects, subsets of their images, and the channel matrix", "statement": "SoundSource(position) holds the position as its only image, for two or three coordinates (else ValueError); with arrays of images every image keeps its own damping, generator, wall and order, and arrays of different lengths raise NameError. For such an object source[a:b] is a source with exactly the images of order a <= order < b, in order, with all their attributes and the right max_order, or raises ValueError if there is none; after set_ordering('nearest', p) source[:k] holds the first k images in order of distance from p; lists and masks select the images they name; get_images returns the images up to an order, and of them the n nearest to a column point. build_rir_matrix, for one band and microphones away from images, has as block of microphone r and source s the convolution matrix of the sum over images of damping/(4 pi d) sinc(n - Fs(d/c - t_min + offset)), and each term is at most epsilon before the first and after the sample following the last one. Deviations, also proved: Room.image_source_model leaves max_order at zero, so afterwards source[:k] has only the images of order zero for every k, and source[1:] raises; source[i] always raises IndexError; 'strongest' always raises; images without generators, walls or orders raise TypeError; get_images with a one-dimensional point raises or picks other images; get_damping() raises; wall_sequence never returns.", "quantifier": "all positions, images, orders, slices with natural or absent ends, lists, masks, points, sorting functions, microphones, rates and tolerances", "why_tests_cant": "tests slice a source only to pass it on, and never compare the images selected", "anchors": ["pyroomacoustics/soundsource.py:18-335", "pyroomacoustics/room.py:2123-2147"]}
{"id": "C99", "title": "Iterative Wiener filter stays finite, passive and calibrated", "statement": "IterativeWiener refuses odd frame lengths and alpha outside [0, 1] with ValueError, and compute_filtered_output refuses frames of another length. For every even frame length, order 1 <= p < frame_len, alpha in [0, 1], threshold > 0 and EVERY sequence of frames (transforms of real signals, non-zero for a loud frame when iterations >= 2): no error, no division by zero, no infinite value; the noise estimate is exactly the alpha-smoothed variance of the frames with variance below the threshold and so stays in [0, threshold); the speech spectrum stays positive and is g2 / |1 - sum a_k e^{-jwk}|^2 with the LPC coefficients of the successively denoised frame, and g2 > 0 from the documented energy equation; the filter is P / (P + sigma^2), in (0, 1], the minimiser of the mean squared error; each output coefficient is that factor times the input coefficient over sqrt(frame_len). Deviations: the output is divided by sqrt(frame_len) even without noise (and the caller's frame_dft array is divided in place); the integral omits the last of the 1000 intervals (1000/999 too large a gain for white frames); a loud frame whose transform is zero gives NaN for iterations >= 2.", "quantifier": "all even frame lengths, orders, iterations, alpha, thresholds, all sequences of frames", "why_tests_cant": "Finite tests use few frames with one noise level; that no sequence of frames can lead to a pole on the unit circle or to a negative gain is a statement about all signals.", "anchors": ["pyroomacoustics/denoise/iterative_wiener.py"]}
{"id": "C100", "title": "Subband LMS identifies the system and keeps bands apart", "statement": "SubbandLMS: after every sequence of blocks the buffer X holds the last num_taps blocks (newest first, zero before the first), E is the a priori error D - W^H X of each band with the filter before the block, and W moves by mu conj(E) X (divided by |X|^2 + 1e-6 for NLMS). The a posteriori error is (1 - step |X|^2) E, so not larger than E for NLMS with 0 <= mu <= 2. If D comes from a filter h with num_taps taps per band, the squared misalignment of each band falls by exactly step (2 - step |X|^2) |E|^2 at each block, never grows (NLMS with mu in [0, 2]; LMS while mu |X|^2 <= 2), and mu (2 - mu) sum |E|^2 / (|X|^2 + 1e-6) <= |h|^2 for any number of blocks. Bands do not influence each other. num_taps = 0 raises IndexError.", "quantifier": "all numbers of taps and bands, step sizes, all sequences of blocks, all systems", "why_tests_cant": "Convergence is about sequences of any length and any input; independence of the bands is a relation of two executions.", "anchors": ["pyroomacoustics/adaptive/subband_lms.py"]}
{"id": "C101", "title": "Point clouds: distances survive scaling, motions and flattening", "statement": "PointCloud.EDM is the matrix of squared distances. classical_mds applied to the EDM of any points of dimension d <= dim gives points with the same EDM, for any eigenvectors numpy.linalg.eig may return (unit norm, independent), provided repeated positive eigenvalues come with orthogonal eigenvectors. With resolved references, normalize, center, align about the third axis (and in 2D) and flatten (group of >= dim points) keep all distances; normalize puts the first reference at the origin, in 2D the second on the positive x half-axis and the third above, in 3D the third in the plane z = 0 with y >= 0 and the fourth at z >= 0; align puts the marker above the positive x half-axis; flatten minimises the spread of the group along the last axis over all directions; doa gives the direction angles. Label lists of the wrong length, non-square matrices and too few references raise ValueError. Deviations: eig may return non-orthogonal eigenvectors for a repeated eigenvalue (equilateral triangle: distances lost); trilateration always raises (undefined name); in Python 3 every access through a reference raises NameError (unicode); normalize in 3D does not put the second reference on the x axis in general; align about x or y overwrites that coordinate with z (swap of views), so that distinct points can fall together; the type of axis is decided by the type of marker; flatten with fewer points than dimensions raises, or for one point replaces all coordinates.", "quantifier": "all dimensions, numbers of points, positions, all admissible eigenvectors and singular vectors, all references", "why_tests_cant": "Exact recovery for every cloud and every admissible eigenbasis; the failing inputs (degenerate spectra, axis x or y, unequal heights) are exactly what hand-picked clouds avoid.", "anchors": ["pyroomacoustics/experimental/point_cloud.py"]}
{"id": "C102", "title": "Localisation from time differences: exact sources, exact delays, zero cost at the true offset", "statement": "experimental.localization. (a) If the times passed to tdoa_loc are distances to a source divided by c != 0, from any common start, and some microphone is not as far as the first, tdoa_loc returns, of all points which explain the non-zero differences of range (squared range equations with one common unknown distance), the one with the smallest norm; it is the source if the source is the only such point. (b) tdoa(x1, x2) returns a multiple of 1/(fs*interp) between -(n/2+1) and n/2, n the even padded length, and raises exactly for at most one sample in total or interp = 0. Without PHAT and interpolation it is, modulo n, a lag at which the absolute cross-correlation is largest over all lags. With PHAT, for x1 a delayed scaled copy of x2 without zero coefficients and delay <= n/2-2, it is exactly delay/fs; with the roles exchanged exactly -delay/fs. (c) edm_line_search on at least four microphones in dimension <= 3 and ranges known up to a constant: every cost is >= 0, and 0 at the distance of the nearest microphone. Deviations: equal times raise IndexError; microphones as far as the first are dropped (five microphones that determine a source at (0,0,1) give the origin); a delay >= n/2-1 is returned minus n; a zero coefficient gives the lowest time searched without error; with interpolation longer delays are never found; the sign is opposite to the documented model; with four microphones all costs are 0, with three the cost is never 0.", "quantifier": "all positions, sources, speeds of sound, start times, signals, delays, scales, sampling frequencies, offsets and grids; all admissible least squares and eigenvalue routines", "why_tests_cant": "Exactness for every geometry and every delay, and the aliased border lag, dropped microphones and degenerate counts, are measure-zero or border cases of examples.", "anchors": ["pyroomacoustics/experimental/localization.py"]}
{"id": "C103", "title": "Deconvolution returns the response, and with noise the response within a bound", "statement": "deconvolve(y, s): if y = h * s and every coefficient of s (of the transform of even length n >= len(y)+len(s)-1, divided by sqrt n) has magnitude above thresh >= 0, the result is h followed by zeros, and h[:length] with length=len(h) is h. In general every coefficient of the result times that of s is that of y where the magnitude is above thresh, and zero elsewhere. With y = h * s + e and thresh > 0 every sample is within sum|e| / (thresh sqrt n) of h. Inputs with at most one sample raise; the result is not a number exactly if thresh < 0 and a coefficient is zero. wiener_deconvolve: coefficients of the result times those of x are the real combination of the recording filtered by the gains P/(P+n/rho_j) that is nearest to the recording; for an excitation with constant magnitude it returns h exactly. Deviation: a single zero coefficient of the excitation makes all samples of wiener_deconvolve not a number, and thresh is compared with the magnitude and not the power the documentation names.", "quantifier": "all signals, responses, noises, thresholds, lengths, noise variances, grids, bases; all least squares routines", "why_tests_cant": "Recovery for all signals needs the algebra of the transform; tests sample a few signals and tolerances", "anchors": ["pyroomacoustics/experimental/deconvolution.py"]}
{"id": "C104", "title": "Test sweeps have the frequencies asked for, and the measured response is that of the room after the pre-delay", "statement": "exponential_sweep and linear_sweep return floor(T fs) samples sin(phi(i/fs)) (in reverse order unless ascending) with phi(0)=0 and phi' = 2 pi f, f going exponentially from max(1,f_lo) to f_hi over the samples, or linearly from max(0,f_lo) to f_hi over T; f_hi is at most fs/2 and counts from fs/2 if negative; f_lo above it raises. A fade multiplies sample i by sin^2 gains at both ends (zero at the ends, one beyond the fade). measure_ir with a linear time invariant device: if no coefficient of the sweep is zero and the responses fit into the silence after it, every returned response is that of the channel delayed by int(pre_delay*fs) samples and filtered with real gains, the combination of the Wiener gains nearest to one; for a white sweep it is the delayed response exactly. Deviations: f_lo equal to f_hi gives only NaN in the exponential sweep; a fade shorter than one sample or longer than the sweep raises; T=0 raises only for the linear sweep; the pre-delay is not removed; without matplotlib the recording is lost (None).", "quantifier": "all durations, sampling and sweep frequencies, fades, signals; all rooms, numbers of channels, delays, volumes", "why_tests_cant": "The frequency is a derivative over all times, and the recovery a statement about all responses; the devices are not available to tests", "anchors": ["pyroomacoustics/experimental/signals.py", "pyroomacoustics/experimental/measure_ir.py"]}
{"id": "C105", "title": "Calibration finds every delay exactly", "statement": "DelayCalibration(...).run(distance, ch_out=...), for a device whose inputs get every output delayed by D(i,o) <= int(pad_time*fs) samples and multiplied by a positive gain: delays[i,o] = D(i,o) - int(distance/c*fs) for every output in ch_out and every input, with c = 331.4 + 0.6 t + 0.0124 h, whatever the signs of the sequence and with the other outputs silent; the other columns are -int(distance/c*fs). Deviations: imported as a module run raises NameError (sd is only imported when the file is a script); without matplotlib it returns None; an output number not below len(ch_out) raises IndexError; repeat, ch_in and oversampling have no effect.", "quantifier": "all sequences of signs, delays, gains, numbers of inputs and outputs, orders of outputs, distances, temperatures", "why_tests_cant": "The maximum of the correlation must be unique for all sequences and delays, and the loop must leave the output silent; the device is not available to tests", "anchors": ["pyroomacoustics/experimental/delay_calibration.py", "pyroomacoustics/experimental/physics.py"]}
{"id": "C106", "title": "The coherent wideband methods see all sources, also coherent ones", "statement": "CSSM and WAVES of pyroomacoustics.doa. The focusing matrix of a band exists exactly if there are not more points than microphones and the first microphones (as many as points) tell the points apart, and then it takes the steering vector of each point at the band to that at the reference band; else there is an exception. The reference is the first of the remaining bands with the greatest sum of magnitudes. If the correlation matrix of each band is that of K waves from points of the grid (for WAVES with noise of any power, uncorrelated between microphones), if the sources are independent when all bands are taken together (they may be coherent within each band), and if the search for peaks returns the sources (at the start from the power of a beamformer in each band, later from values that are infinite exactly at the points that cannot be told from the sources), then after any number of iterations from one on the spectrum is infinite exactly at the points whose steering vector at the reference is a combination of those of the sources. No band with enough peaks is an exception; WAVES with as many sources as microphones is an exception; no iterations leave the power of the last band. Deviation: when a band is left out for lack of peaks, the correlation matrices are not renumbered, so that with two bands of which the first is left out the result is computed from the matrix of the band that was left out.", "quantifier": "for all arrays, grids, bands, signals, numbers of sources and iterations, and all routines for eigenvectors, singular vectors and peaks that meet their specification", "why_tests_cant": "tests check a handful of simulated angles with tolerances of degrees", "anchors": ["pyroomacoustics/doa/cssm.py", "pyroomacoustics/doa/waves.py"]}
{"id": "C107", "title": "What TOPS tests, and that it enters its table at the wrong place", "statement": "TOPS of pyroomacoustics.doa: an exception exactly with fewer than two bands or without a microphone more than sources. If the correlation matrix of each band is that of K waves from points of the grid with definite source correlations and noise of any power, and the test matrix has not fewer columns than rows, the value at a point is infinite exactly if there is a nonzero vector in the span of the sources at the reference band that the transforms of the point take into the span of the sources at every band but the last, where the transform of band number j leads from the reference to bin j of the transform. Hence if the bands are bins 0, 1, 2, ... without gap, the value is infinite at every source. Deviations: with other bands the table is entered at the number of the band instead of its bin: with one source and two bands, the first the louder, the value is infinite exactly at the points from which a wave arrives in phase at all microphones, wherever the source is; and the band left out of the test is the last one instead of the reference, so that the content of the last band does not matter.", "quantifier": "for all arrays, grids, bands, numbers of sources, signals, and all routines for eigenvectors and singular values that meet their specification", "why_tests_cant": "tests use one simulated source with a tolerance and a coarse grid", "anchors": ["pyroomacoustics/doa/tops.py"]}
{"id": "C108", "title": "FastMNMF estimates images that add up to the mixture and lowers its objective", "statement": "Let the frames of every frequency span the space, the given diagonalizer (if any) be invertible and the random draws be positive. Then fastmnmf ends for every number of iterations, with and without accelerate, without a division by zero or a singular matrix. The result for mic_index='all' is for every source the Wiener estimate (image covariance times inverse mixture covariance times mixture) under the final parameters, and the images of all sources add up to the mixture at every microphone, time and frequency. For an integer mic_index (also negative) the result is the slice of the result for 'all'; an index out of range raises IndexError and anything that is not an int or 'all' raises ValueError, in both cases only after all iterations. Without accelerate, the updates of the basis W, of the activations H and of the diagonals G each do not raise the negative log-likelihood of the mixture plus eps times the sum of the parameters. The update of a row of the diagonalizer raises it by at most 3 * eps**2 * frames / (a^H V^-1 a) per frequency, a being the column of the inverse diagonalizer, and can raise it when nothing is left to improve. The normalization leaves every image covariance as it is but for the share of eps, and brings Q, G and W to their nominal sums. Deviation: the array given as W0 is overwritten, even with n_iter=0.", "quantifier": "all mixtures, numbers of sources, microphones, components, frequencies, frames and iterations, all draws", "why_tests_cant": "Tests run a few iterations on one signal and look at the result by ear or by a metric; they cannot show that no update ever divides by zero or raises the objective", "anchors": ["pyroomacoustics/bss/fastmnmf.py"]}
{"id": "C109", "title": "FastMNMF2 estimates images that add up to the mixture, and accelerate has no effect", "statement": "Let the frames of every frequency span the space, the given diagonalizer (if any) be invertible and the random draws be positive. Then fastmnmf2 ends for every number of iterations without a division by zero or a singular matrix; the result for mic_index='all' is the Wiener estimate of every source image under the final parameters, the images add up to the mixture at every microphone, time and frequency, an integer mic_index selects the slice, an index out of range raises IndexError and anything else ValueError, both only at the end. The updates of the basis W, of the shared diagonals g and of every row of the diagonalizer Q each do not raise the negative log-likelihood of the mixture (with eps added to every channel). The normalization leaves every image covariance as it is but for the share of eps. Deviations: accelerate=False gives exactly the same result as accelerate=True, because the two products are recomputed before the arrays they depend on; the array given as W0 is overwritten even with n_iter=0.", "quantifier": "all mixtures, numbers of sources, microphones, components, frequencies, frames and iterations, all draws", "why_tests_cant": "Tests compare a metric on one signal; they cannot show that an option has no effect for any input nor that no update ever fails or raises the objective", "anchors": ["pyroomacoustics/bss/fastmnmf2.py"]}
{"id": "C110", "title": "Minimum phase filters have the magnitude asked for", "statement": "For an odd transform length magnitude_response_to_minimum_phase returns the one real sequence whose spectrum has the magnitude asked for (extended evenly, zero above the given frequencies, at least eps) at every bin and whose logarithm of the spectrum is the transform of a real sequence without negative times. It raises exactly if the response has more than n_fft//2+1 values. For an even length (the only one used by the filter banks with their defaults) the extended response has n_fft+1 values: the phase is that of a grid of n_fft+1 bins, the magnitude is right below the Nyquist bin, but at the Nyquist bin only the real part is kept; for every even length there is a response of at least one everywhere for which the component at Nyquist is zero (a deviation).", "quantifier": "every response, transform length and eps > 0", "why_tests_cant": "continuum of responses, all lengths and parities", "anchors": ["pyroomacoustics/acoustics.py:magnitude_response_to_minimum_phase"]}
{"id": "C111", "title": "Mel filter bank", "statement": "melscale and invmelscale are increasing and inverse to each other. For 0 <= fl < fh, fs > 0 and N > 0 melfilterbank returns M rows of N//2+1 bins that are triangles of unit area (as functions of the frequency in bins) with corners equally spaced on the mel scale from N fl to N fh; every filter is nonnegative, at most 2/width and nonzero exactly at the bins strictly between its outer corners; weighted with half their widths the filters add up to one at every bin between the first and the last centre. If fh <= fl all filters are zero. For every N, fs and fh and fl = 0 the first filter is zero if M is large enough (a deviation: the logarithm of its energy is infinite).", "quantifier": "every number of filters, transform length, sampling frequency and band", "why_tests_cant": "continuum of frequencies, all M and N", "anchors": ["pyroomacoustics/acoustics.py:melscale", "pyroomacoustics/acoustics.py:invmelscale", "pyroomacoustics/acoustics.py:melfilterbank"]}
{"id": "C112", "title": "Critical bands and bands in bins", "statement": "critical_bands returns 24 adjacent bands from 0 to 15500 Hz with a centre strictly inside each. For adjacent bands, an even transform length and bands from at most the Nyquist frequency on, bands_hz2s ends and returns bands of bins that are adjacent, none empty but possibly the last, from the bin nearest to the lowest frequency to the Nyquist bin, so that every bin in between is in exactly one band; all edges but the last are those given rounded to the nearest bin, and the last band is the last one that starts at or below the Nyquist frequency. It raises IndexError if there are no such bands. For transform='dct' the last band ends at N/2, the middle of the spectrum, so that it ends before it starts if a band starts in the upper half; for odd N = 4n+3 this happens for a band that starts at the Nyquist frequency (deviations).", "quantifier": "every list of adjacent bands, sampling frequency and transform length", "why_tests_cant": "rounding for all frequencies and lengths", "anchors": ["pyroomacoustics/acoustics.py:critical_bands", "pyroomacoustics/acoustics.py:bands_hz2s"]}
{"id": "C113", "title": "Real spherical harmonics", "statement": "real_sph_harm(n, m, theta, phi) raises AssertionError exactly if n < |m|. Otherwise, without the Condon-Shortley phase, it is P_n^0 for m = 0, sqrt(2) times (-1)^m P_n^|m| times cos(m phi) for m > 0 and sin(|m| phi) for m < 0, and whenever the complex harmonics are orthonormal with respect to a measure (the sphere, or the points and weights of an exact quadrature), so are the real ones, for all degrees and orders. The response of the directivity is this number for every direction, with a sign, whatever the frequency and magnitude. With condon_shortley_phase=True (the default of the directivity class is False) the values of nonzero order lack the factor sqrt(2), so that their energy is one half, and for negative even orders they have the opposite sign of the documented phase (deviations).", "quantifier": "every degree and order, every pair of angles, every measure", "why_tests_cant": "an integral identity for all degrees", "anchors": ["pyroomacoustics/directivities/harmonics.py:real_sph_harm", "pyroomacoustics/directivities/harmonics.py:RealSphericalHarmonicsDirectivity.get_response"]}
{"id": "C114", "title": "Detection of regular grids", "statement": "If detect_regular_grid(azimuth, colatitude) returns a grid (azimuths within one turn, at most 50000 of them), the points are exactly the product of the returned azimuths and colatitudes, each point once, although the comparison has a tolerance; both lists increase strictly and the azimuths are spread uniformly over the circle within the tolerance. Conversely every such grid is found, with exactly these two lists, in whatever order its points come. Lists of different lengths give None; the only exception is the IndexError for no points.", "quantifier": "every list of points", "why_tests_cant": "all sets of points, in every order, and distances near the tolerance", "anchors": ["pyroomacoustics/doa/utils.py:detect_regular_grid"]}
{"id": "C115", "title": "Interpolation with spherical harmonics", "statement": "spherical_interpolation raises ValueError if the number of responses is not that of the grid points. The basis has (degree+1)^2 columns, that of degree n and order m at n^2+n+m. On a regular grid every point has a weight, the weights are positive and sum to one, each the share of the ring between the middles of neighbouring colatitudes. For every set of impulse responses, the result on the target grid and on the original grid is, at all times, one and the same real linear combination of the measured responses (zero padded or cut to nfft), that depends on the grids and the order only, although the computation is with complex harmonics and a truncated pseudo-inverse. If the weighted basis has a condition number less than 100, every sound field of limited degree is interpolated exactly: the results are its values on the new grid, and the measured responses on the old one.", "quantifier": "every grid, order, length and all impulse responses, every pseudo-inverse by singular values", "why_tests_cant": "symmetry of the truncated pseudo-inverse for all grids; exactness for a whole space of fields", "anchors": ["pyroomacoustics/directivities/interp.py:spherical_interpolation", "pyroomacoustics/directivities/interp.py:cal_sph_basis", "pyroomacoustics/directivities/interp.py:calculation_pinv_voronoi_cells"]}
{"id": "C116", "title": "Sparse relative impulse responses", "statement": "In sparir the residual that is updated from step to step is, after any number of iterations, the transform of the current vector at the selected bins minus the measurements. For different bins strictly between 0 and half of the length, gradq is exactly the first order change of the squared error along every coordinate. If the first criterion is within tol or maxiter is 1, the result is the unit impulse. Deviations: bins above half of the length do not enter the gradient at all (irfft ignores them); the soft thresholding does not threshold, since np.max(., 0) is a maximum along the axis, not a positive part: every entry is scaled by u/(u+T) with the largest excess u, so that none becomes zero (for one entry above its threshold it is right).", "quantifier": "every set of bins, measurements and number of iterations", "why_tests_cant": "an invariant of all iterations, an exact expansion for all vectors", "anchors": ["pyroomacoustics/bss/common.py:sparir"]}
{"id": "C117", "title": "Sparse AuxIVA returns filters of relative transfer functions that depend on the selected bins only", "statement": "When sparseauxiva(X, S, ...) returns (two channels, k selected bins S, k = all bins without S): (a) the returned filters W are unchanged if the data X or the initial filters W0 are changed outside of the bins S (as long as the call still returns); (b) for each source i there is a real response whose transform is H_i, such that W[f, 0, i] = conj(H_i(f)) and W[f, 1, i] = -1 in every bin, and the output of the bins f < k is H_i(f) X[:, f, 0] - X[:, f, 1], times a factor that does not depend on time and is one without proj_back; (c) with proj_back the output is in every bin the multiple of the output without proj_back that is closest to the first channel; (d) the responses are what sparir finds from conj(-W[S, 0, i] / W[S, 1, i]) for the filters of the last iteration, and in an iteration, with the weights max(1e-10, 2 ||y||) or max(1e-10, ||y||^2 / n_freq) from the outputs y at the selected bins, the new outputs have weighted power one, that of source 0 is uncorrelated with the previous one of source 1, and that of source 1 with the new one of source 0. Deviation: the final demixing 'in the whole frequency range' only runs over the first k bins; a bin f >= k that is not in S is returned as zeros whatever the input.", "quantifier": "all two-channel spectrograms, selections of bins, numbers of iterations, initial filters and both source models", "why_tests_cant": "the existing test uses one selection and a loose threshold on one recording; it cannot show that other bins do not influence the filters, nor which bins are demixed", "anchors": ["pyroomacoustics/bss/sparseauxiva.py:sparseauxiva", "pyroomacoustics/bss/common.py:projection_back"]}
{"id": "C118", "title": "FRIDA measures the array response of the propagation directions and its dirty image peaks at the source", "statement": "In a band with wave number kappa: (a) for plane waves from azimuths phi_k whose signals are uncorrelated over the selected frames, the visibilities (without cleaning) are, for the pairs of different microphones (q, p) in row-major order, sum_k mean|s_k|^2 exp(-j kappa (p_q - p_p) . u(phi_k + pi)); build_mtx_amp has exactly these responses as columns, in the same order, with coordinates divided by c / omega; (b) with low_rank_cleaning, if the covariance is a positive semidefinite matrix of rank <= num_src plus sigma^2 I, the visibilities are the off-diagonal entries of the former, so white noise has no influence; (c) for one source with any powers per band the dirty image equals the sum of the powers at its azimuth and has no larger modulus at any azimuth; (d) the final conversion np.mod(phi - pi, 2 pi) returns the azimuth of arrival in [0, 2 pi). Deviation: frames are selected by the variance between microphones, not the energy; if all microphones record the same signal no frame is selected, and the visibilities are NaN.", "quantifier": "all planar arrays, numbers of sources, azimuths, frames, bands, thresholds", "why_tests_cant": "tests locate one source in one layout to within a tolerance; they cannot show that ordering and signs agree for all arrays", "anchors": ["pyroomacoustics/doa/frida.py:FRIDA._visibilities", "pyroomacoustics/doa/frida.py:FRIDA._gen_dirty_img", "pyroomacoustics/doa/tools_fri_doa_plane.py:extract_off_diag", "pyroomacoustics/doa/tools_fri_doa_plane.py:build_mtx_amp", "pyroomacoustics/doa/tools_fri_doa_plane.py:cov_mtx_est"]}
{"id": "C119", "title": "The annihilating filter algebra of FRIDA is exact and recovers the azimuths", "statement": "(a) cpx_mtx2real(A) applied to (real parts, imaginary parts) gives the parts of A x. (b) hermitian_expan and coef_expan_mtx (even and odd K): the expanded vectors are exactly the Hermitian symmetric ones, each from one real vector. (c) Tmtx_ri(b) c = Rmtx_ri(c) b, both are the fully overlapping part of the convolution of filter and sequence, and for the reduced Tmtx_ri_half_out_half / Rmtx_ri_half_out_half the product vanishes exactly if the whole convolution does. (d) A filter whose polynomial (np.roots order) vanishes at exp(-j psi_k) annihilates sum_k alpha_k exp(-j m psi_k), m = -M..M. (e) If M >= K, the azimuths phi_k in [0, 2 pi) are different, the amplitudes are not zero and psi_k = phi_k + pi, then every nonzero filter with K + 1 taps that annihilates the sequence leads (np.roots, normalisation, np.mod(-angle, 2 pi), np.mod(. - pi, 2 pi)) to exactly the azimuths phi_k.", "quantifier": "all K, M >= K, sequences, filters, azimuths and amplitudes", "why_tests_cant": "the tests of FRIDA run the complete estimator on one scene with a tolerance", "anchors": ["pyroomacoustics/doa/tools_fri_doa_plane.py:cpx_mtx2real", "pyroomacoustics/doa/tools_fri_doa_plane.py:hermitian_expan", "pyroomacoustics/doa/tools_fri_doa_plane.py:coef_expan_mtx", "pyroomacoustics/doa/tools_fri_doa_plane.py:output_shrink", "pyroomacoustics/doa/tools_fri_doa_plane.py:Tmtx_ri", "pyroomacoustics/doa/tools_fri_doa_plane.py:Rmtx_ri", "pyroomacoustics/doa/tools_fri_doa_plane.py:pt_src_recon_multiband"]}
{"id": "C120", "title": "The alternating optimisation of FRIDA is exact without noise and keeps its best iterate", "statement": "Let every G have independent columns and let no initial filter be zero. (a) beta is the unique sequence closest to the measurements. (b) For every filter other than zero compute_b gives the unique sequence annihilated by the filter that is closest to the measurements, and no linear system is singular. (c) The quadratic form of lu_compute_mtx_obj_initial is the least energy of sequences with the same filter output, the solution of the bordered system has inner product one with the initial filter and is the unique minimiser of the form under this constraint, and the error of compute_obj_val is the square root of the increase of the squared distance caused by the annihilation. (d) dirac_recon_ri_half_multiband_lu returns the filter with the least error of all iterates of all initialisations, and the sequences that belong to it. (e) Measurements of K <= M sources at different azimuths without noise: every result has error zero, the true sequences and exactly the azimuths; there is a result as soon as one initial filter is not orthogonal to the annihilating filter. (f) There is no result (UnboundLocalError) exactly if max_iter is 0 or for every initial filter an orthogonal filter annihilates all least squares sequences; deviation: this is always so for measurements without noise of fewer than K sources.", "quantifier": "all K, M, lists of subbands, numbers of iterations and lists of initial filters", "why_tests_cant": "the tests run the estimator on one scene with noise and cannot quantify over random initialisations", "anchors": ["pyroomacoustics/doa/tools_fri_doa_plane.py:dirac_recon_ri_half_multiband_lu", "pyroomacoustics/doa/tools_fri_doa_plane.py:lu_compute_mtx_obj_initial", "pyroomacoustics/doa/tools_fri_doa_plane.py:compute_obj_val", "pyroomacoustics/doa/tools_fri_doa_plane.py:compute_b", "pyroomacoustics/doa/tools_fri_doa_plane.py:make_GtG_and_inv"]}
{"id": "C121", "title": "FRIDA: amplitudes, update of the measurement matrices and choice of the result", "statement": "pt_src_recon_multiband returns, of all turns, the first whose directions have the least sum of residuals of the subbands, as azimuths (opposite to the propagation direction), with one column of amplitudes per subband; turn j reconstructs from matrices of which the first are the given ones and the next are updated with the best directions so far. The updated matrices map the sequence of sources at these directions exactly to their visibilities (no truncation) and act as the given ones on what is orthogonal to all such sequences. Directions that explain the measurements exactly are a fixed point of update and optimisation, with error zero. Amplitudes are exact for exact measurements; otherwise nnls gets the normal equations as its system, hence with active constraints they are not the nonnegative least squares solution (deviation).", "quantifier": "all numbers of microphones, subbands, sources, turns, all positions, measurements and given matrices, every reconstruction", "why_tests_cant": "Tests run FRIDA on a few simulated scenes with a tolerance; they cannot show that the update is exact for all directions, and they do not see that the amplitudes are those of another problem", "anchors": ["pyroomacoustics/doa/tools_fri_doa_plane.py:pt_src_recon_multiband", "pyroomacoustics/doa/tools_fri_doa_plane.py:mtx_updated_G_multiband_new", "pyroomacoustics/doa/tools_fri_doa_plane.py:build_mtx_amp_ri"]}
{"id": "C122", "title": "trinicon: online filtering, symmetric in the outputs, with separated outputs as a fixed point", "statement": "For blocks not shorter than the filters, a positive shift and a positive regularisation, trinicon returns without exception an output of the length of the padded signals; sample t of output q is sum_p sum_l w_m[p,q,l] x[p,t-l] with the filters w_m of the block m of t. The filters follow the update of the paper: each of j_max turns subtracts mu times the mean over the blocks of the correlation of the other output with this one at lag l - k, weighted with the filter of the other output and divided by the regularised energy; then the online recursion with lambd_a. Exchanging or negating the outputs of the initial filters does the same to the results; if the outputs are uncorrelated in every block for lags shorter than the filter, the filters do not change; a sample depends only on the signals up to the end of its block. All samples are processed iff the number of samples is a multiple of the shift or its remainder is not less than that of the number of microphones, because the padding is computed from the latter; otherwise the last samples of the output are zero (deviation). A block length of one less than the filter length is accepted with one product as correlation for all lags (deviation).", "quantifier": "all numbers of microphones and samples, all signals, initial filters and parameters", "why_tests_cant": "Tests run one mixture; they do not relate the FFT convolutions and reversed slices to the update rule for all sizes, and none has a length that triggers the wrong padding", "anchors": ["pyroomacoustics/bss/trinicon.py:trinicon"]}
{"id": "C123", "title": "TIMIT: phonems, words, NIST samples and the corpus", "statement": "The phonems of a Sentence are those of its .PHN file, each once and in order, whatever the words are. If the words of the .WRD file do not overlap and the phonems have increasing ends and positive lengths, every Word has exactly the phonems within its boundaries, shifted to its beginning, and the samples of a phonem within Word.samples are its samples in the sentence. Where words overlap the later word lacks the phonems that end within the earlier one (deviation); an empty .PHN line before the end of the last word raises IndexError (deviation). _read_nist_wav returns the samples of files with 16 or 32 bits in little endian order, one row per instant for several channels; the announced byte order is ignored (deviation). build_corpus reads exactly the sentences that meet all restrictions; the word corpus has for each spelling the list of all words with it, in order; restricting to the speaker acronyms of the documentation and of Sentence.speaker gives an empty corpus (deviation).", "quantifier": "for all transcriptions, headers, samples and directory trees", "why_tests_cant": "the repository has no test of this reader; the corpus is not free and its files are all of one format", "anchors": ["pyroomacoustics/datasets/timit.py:_read_nist_wav", "pyroomacoustics/datasets/timit.py:Word", "pyroomacoustics/datasets/timit.py:Sentence", "pyroomacoustics/datasets/timit.py:TimitCorpus.build_corpus"]}
{"id": "C124", "title": "Array geometries, far field steering vectors and beam responses", "statement": "linear_2D_array, square_2D_array, poisson_2D_array and circular_2D_array (M >= 2) return arrays whose mean is the given centre; the distances between the microphones are |d||i-j|, |d| times the distance on the grid, the draws, and the chords 2|r||sin(pi(i-j)/M)|; microphone iN+j of the square is in row i and column j of the grid rotated by phi. spiral_2D_array puts microphone m at the distance radius*m/M from the centre; the divi arms turn by less than 1/divi of a circle each. circular_microphone_array_xyplane directs the microphones outwards for phi0=0; as the places take phi0 in radians and the orientations in degrees, no microphone points outwards for any rational phi0 other than zero (deviation). steering_vector_2D has entries exp(-j 2 pi f D/c) of modulus one (divided by 4 pi D with attn) and converges to the plane wave from phi as dist grows. response returns the frequency of the beamformer nearest to the given one and w^H a there; for delay-and-sum weights it is 1 in the look direction and has modulus at most 1 elsewhere; it raises NameError exactly without weights and filters.", "quantifier": "for all centres, numbers of microphones, angles, distances, draws and weights", "why_tests_cant": "tests plot arrays or check single sizes; limits and irrationality of pi are out of reach of tests", "anchors": ["pyroomacoustics/beamforming.py:linear_2D_array", "pyroomacoustics/beamforming.py:circular_2D_array", "pyroomacoustics/beamforming.py:poisson_2D_array", "pyroomacoustics/beamforming.py:square_2D_array", "pyroomacoustics/beamforming.py:spiral_2D_array", "pyroomacoustics/beamforming.py:circular_microphone_array_xyplane", "pyroomacoustics/beamforming.py:Beamformer.steering_vector_2D", "pyroomacoustics/beamforming.py:Beamformer.response"]}
{"id": "C125", "title": "Octave band edges, bandwidths, energies and interpolation", "statement": "octave_bands(fc, third, start, n) for n >= 1 returns (n-1)*div+1 centres (div = 3 for third octaves, 1 otherwise) from fc*2^start to fc*2^start*2^(n-1), consecutive ones 2^(1/div) apart; each centre is the geometric mean of its band edges and lies strictly between them; the upper edge of a band is the lower edge of the next. `start`, documented in Hz, counts octaves: the result is that of fc*2^start with start 0 (deviation). The filter banks take floor(log2(fs/base)) octaves, so for 2*base <= fs there is at least one, all centres are between base and fs/2, and the last octave centre is above fs/4. OctaveBandsFactory.get_bw: one positive width for each band; their sum is min(upper edge of the last band, fs/2) minus 0 (keep_dc) or the first edge; with keep_dc this is fs/2 exactly if the last edge reaches fs/2, although the filters always reach Nyquist (deviation). AntoniOctaveFilterBank.get_bw: nonnegative widths that add up to fs/2. OctaveBandsFactory.energy returns one value for each sample rather than for each band; only the total is that of the band energies (deviation). binning returns the mean over the columns of a band, nan for an empty band. interpolate_octave_bands without minimum phase gives the attenuation weighted sum of the filters, as synthesis does.", "quantifier": "for all base frequencies, sampling frequencies, numbers of octaves, starts, transform lengths, filters, attenuations and signals", "why_tests_cant": "tests call the banks with the defaults (125 Hz, 16 kHz), where the edges fit", "anchors": ["pyroomacoustics/acoustics.py:octave_bands", "pyroomacoustics/acoustics.py:OctaveBandsFactory.get_bw", "pyroomacoustics/acoustics.py:OctaveBandsFactory.energy", "pyroomacoustics/acoustics.py:AntoniOctaveFilterBank.get_bw", "pyroomacoustics/acoustics.py:binning", "pyroomacoustics/simulation/ism.py:interpolate_octave_bands"]}
{"id": "C126", "title": "Grids of directions: construction, values, neighbour distances, regridding", "statement": "GridCircle and GridSphere hold one column for each point in both arrays; a point is nan in both or its Cartesian coordinates are the unit vector of its angles. GridCircle uses the given azimuths in increasing order (not in the order given), or n_points azimuths 2*pi*i/n. GridSphere with spherical_points has exactly these angles (cartesian_points are then neither used nor checked); with cartesian_points each point is the positive multiple of unit length of the given one, azimuth in (-pi, pi] and colatitude in [0, pi], the zero vector gives nan; without, n_points different unit vectors. Arrays with a wrong number of rows raise ValueError. set_values accepts a scalar or one value for each point, everything else raises ValueError. min_max_distance returns the least and the greatest angle between neighbours, their mean, and a median with half of the values on each side; inf, 0, nan, nan without neighbours. regrid returns None without values, otherwise an image of 2x by x pixels (x the greatest with 2x^2 <= n_points) over azimuths -pi..pi and colatitudes 0..pi, each the value of a point nearest in the plane of the angles; as this ignores the periodicity, two pixels of the same direction can get different values (deviation).", "quantifier": "for all numbers of points, given angles or points, values, neighbour lists and nearest neighbour searches", "why_tests_cant": "tests use the default grids and look only at the peaks", "anchors": ["pyroomacoustics/doa/grid.py:Grid.set_values", "pyroomacoustics/doa/grid.py:GridCircle.__init__", "pyroomacoustics/doa/grid.py:GridSphere.__init__", "pyroomacoustics/doa/grid.py:GridSphere.min_max_distance", "pyroomacoustics/doa/grid.py:GridSphere.regrid"]}
{"id": "C127", "title": "Google speech commands and CMU Arctic corpora", "statement": "GoogleSpeechCommands.build_corpus: of each directory of speech min(subset, n) different files are taken (all if subset is None or 0; all but k if subset is -k), of the noise all; the corpus gets exactly the chosen files that meet the criteria, after what it had (a second call adds them again); size_by_samples counts the chosen files whether they meet the criteria or not; filter keeps the samples that meet the criteria and has an empty size_by_samples (deviation). A criterion on noise_type raises AttributeError as soon as there is a file of speech (deviation). CMUArcticCorpus: unknown speakers are removed; a missing base directory or speaker directory raises ValueError; otherwise every sentence of the speakers gets the path of the last line with its tag (the last five characters of the name), and build_corpus adds exactly the sentences of the dictionary of the module that meet the criteria, with speaker, tag, text and the data of the speaker. As this dictionary outlives the instances, a corpus contains the sentences an earlier corpus found for the same speaker in another directory; the text of a sentence is that of the first speaker; a function as the speaker criterion opens no directory, so that a first corpus stays empty (deviations).", "quantifier": "for all directory contents, subsets, shuffles, criteria, speakers and earlier states of the module", "why_tests_cant": "tests would need the downloaded corpora; none exist for these classes", "anchors": ["pyroomacoustics/datasets/google_speech_commands.py:GoogleSpeechCommands.build_corpus", "pyroomacoustics/datasets/google_speech_commands.py:GoogleSpeechCommands.filter", "pyroomacoustics/datasets/cmu_arctic.py:CMUArcticCorpus.__init__", "pyroomacoustics/datasets/cmu_arctic.py:CMUArcticCorpus.build_corpus"]}
{"id": "C128", "title": "Queries on a room answer for the right wall, box and level; adding a source adds that source or raises", "statement": "get_wall_by_name returns the last wall of that name and raises a ValueError iff no wall has it. get_bbox gives the least and greatest value of each coordinate over all wall corners (so contains their convex hull) and raises iff there is no corner; in an anechoic room the same over microphones and sources (deviation: an array without microphones gives infinite bounds). direct_snr is the power of the direct sound of the source over the noise variance for source 0, infinite without noise, a ValueError iff the source does not exist or has no signal (deviations: for any other source the power of source 0 is used, a TypeError if that one has no signal). add_source keeps the earlier sources and appends exactly the source made, iff it can be made, has the room's dimension, lies inside, and a directivity is only used in 3D (deviations: a directivity of another class silently adds nothing; a SoundSource with a directivity is always an IndexError). The coefficients used in the simulation are those of the last set_air_absorption (deviation: unset_air_absorption has no effect).", "quantifier": "all wall lists and names, all corner lists and points of their hull, all sources, signals and positions, all sequences of calls to set and unset air absorption", "why_tests_cant": "tests use rooms with unique names and a single source with a signal; the wrong source's power or the flag that nobody reads only shows with several sources or by comparing simulations", "anchors": ["pyroomacoustics/room.py:_wall_mapping", "pyroomacoustics/room.py:get_wall_by_name", "pyroomacoustics/room.py:get_bbox", "pyroomacoustics/room.py:direct_snr", "pyroomacoustics/room.py:add_source", "pyroomacoustics/room.py:set_air_absorption", "pyroomacoustics/room.py:unset_air_absorption"]}
{"id": "C129", "title": "No straight path inside a room is as long as the distance searched for the next wall", "statement": "get_max_distance is one more than the diagonal of the box between the least and greatest coordinates of all wall corners (one for a room without walls); any two points of the convex hull of the corners are closer than that by at least one, so the end of the segment searched for the next wall, and everything beyond, is outside the room, in any direction. angle_function gives the azimuth in (-pi, pi] and colatitude in [0, pi] that lead from the reference to the point over their distance (colatitude pi/2 in 2D, also for equal points), and refuses different dimensions; all_combinations has the pair (i, j) at row i*n+j.", "quantifier": "all lists of walls with corners in 2D and 3D, all points of the hull, all unit directions, all pairs of points, all lists", "why_tests_cant": "a search distance too short in one direction or a sign slip in the extents shows only for rooms away from the origin or long diagonal rays", "anchors": ["pyroomacoustics/libroom_src/room.cpp:get_max_distance", "pyroomacoustics/utilities.py:angle_function", "pyroomacoustics/utilities.py:all_combinations"]}
{"id": "C130", "title": "Locations read from measurement files are the points the file describes", "statement": "_parse_locations gives cartesian locations in metres unchanged (any other unit a ValueError); spherical ones in degrees or radians become the points at the stored azimuth, elevation and distance when any second angle is negative, and at the stored azimuth, colatitude and distance otherwise; both target formats describe the same points and accept the same files. Deviations: elevations all on or above the horizon are taken for colatitudes (a source on the horizon goes to the zenith), and the unit of the second angle is ignored. The DIRPAT reader moves measurement j of group i to place i of group j, losing and repeating none, refuses other sizes, and puts microphones (or loudspeakers) at the origin. open_sofa_file returns labels only when their number fits, never for both ends, the requested rate (the file's if None), and refuses other conventions.", "quantifier": "all lists of locations, units and types, all group sizes, all database entries", "why_tests_cant": "tests load a few known files only; other units, elevation ranges or partial grids are never tried", "anchors": ["pyroomacoustics/directivities/sofa.py:_parse_locations", "pyroomacoustics/directivities/sofa.py:_read_dirpat", "pyroomacoustics/directivities/sofa.py:open_sofa_file", "pyroomacoustics/directivities/sofa.py:_read_general_fir", "pyroomacoustics/directivities/sofa.py:_read_simple_free_field_hrir"]}
{"id": "C131", "title": "The beamformers for the useful-to-detrimental ratio maximise that ratio", "statement": "udr is the sum over the source's images of the power of their responses over the power of noise and interference. rake_max_udr_weights returns non-zero weights whose udr is the first eigenvalue computed; if that is the largest one, no weights have a greater udr (deviations: the eigenvalues are not sorted, so the weights can be worse than the best; with a single image it always raises an AttributeError). rake_max_udr_filters returns the greatest ratio of the energy from the delay to 30 ms after it over the detrimental energy (with an interferer: the noise, the rest of the source's response and all of the interferer's), with filters that attain it, and raises iff some filters have no detrimental energy (deviation: without an interferer the late part of the response is not counted).", "quantifier": "all steering matrices, noise covariances, factorisations and eigendecompositions the libraries may return, all channel matrices, delays and competing weights or filters", "why_tests_cant": "optimality is over a continuum of weights; the eigenvalue order depends on the matrix, so a test may see the right one by chance", "anchors": ["pyroomacoustics/beamforming.py:udr", "pyroomacoustics/beamforming.py:rake_max_udr_weights", "pyroomacoustics/beamforming.py:rake_max_udr_filters"]}
{"id": "C132", "title": "Signals saved to files keep their channels, scale and range", "statement": "MicrophoneArray.to_wav gives the writer the sampling frequency and, for every instant, the samples of all channels in order, or with mono=True the samples of channel M // 2 only. Floating-point files hold the signals unchanged, with norm=True divided by the largest size. With norm=True and an integer type of k bits, one positive factor brings the largest size of what is written to exactly 2^(k-1)-1, every sample is cut towards zero, and none leaves the range. Other types raise NameError. Deviations: without norm, signals inside (-1,1) are written to integer files as silence; signals of zeros with norm=True give nan.", "quantifier": "all numbers of channels and samples, all real signals, all types and options", "why_tests_cant": "a file written for a few signals does not show that no sample overflows and that the peak is reached exactly for every signal and type", "anchors": ["pyroomacoustics/beamforming.py:MicrophoneArray.to_wav", "pyroomacoustics/utilities.py:normalize"]}
{"id": "C133", "title": "Downloads leave exactly the files asked for", "statement": "When download_multiple returns, every path asked for that existed before and is not overwritten is unchanged, every other one holds what its address gave, a failed download (no_fail=True) changes nothing, and no other file is touched. Without no_fail it stops with URLError at the first file needed that fails: those before are there, the rest is as it was. A positive time to wait gives one pause after each file fetched except the last entry (Path keys). download_sofa_files returns the paths of the supported files, all of which exist unless no_fail=True. resolve_sofa_path takes an existing path, else the database entry of the stem, else raises ValueError. Deviations: the default backoff_time=None always raises TypeError; with string keys there is a pause after the last file too; with no_fail=True the list returned by download_sofa_files names files that were not downloaded.", "quantifier": "all dictionaries with distinct paths, all file systems and servers, all options", "why_tests_cant": "tests do not run against servers that fail at every possible place, and cannot cover all states of the disk", "anchors": ["pyroomacoustics/datasets/utils.py:download_multiple", "pyroomacoustics/datasets/sofa.py:download_sofa_files", "pyroomacoustics/datasets/sofa.py:resolve_sofa_path"]}
{"id": "C134", "title": "Several materials at once match their arguments", "statement": "make_materials returns a list for positional arguments only (empty for no arguments), a dictionary for keywords only, and both otherwise, with one material for each argument, in order, and under each keyword. Numbers, alone or in tuples of one or two, never fail: each material has the absorption and scattering of its own argument (scattering 0 if not given) and no dictionary that existed is changed. A tuple of no or of more than two parameters raises TypeError. Deviation: a dictionary given for two materials is shared; scattering by bands given for the second replaces the absorption of the first by repeated coefficients.", "quantifier": "all lists of arguments and keywords, all numbers, all existing dictionaries", "why_tests_cant": "tests use a few fixed materials, and look at each one right after it is made", "anchors": ["pyroomacoustics/parameters.py:make_materials", "pyroomacoustics/parameters.py:Material.__init__"]}
