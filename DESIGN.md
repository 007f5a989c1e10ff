# Formal model of spafe — design

## What is modelled and how

* **Numbers.** Python/numpy `float64` is modelled by exact real arithmetic (`ℝ`, or a generic ordered
  field `α` in code that uses only `+ - * / <`). Rounding, overflow and signed zero are *not* modelled.
  IEEE exceptional values *are* modelled where the code can reach them: `XF α = nan | ninf | pinf | fin x`
  with IEEE-style `+ - * / <`, `log`, `pow` (`Verif/Basic/XF.lean`).
  The one place where rounding decides control flow — `int(win_len*fs)` in `framing` — is modelled with an
  arbitrary rounding function as a parameter, and theorems hold for every monotone rounding.
  For the spectrograms and log features the distance between the exact model and any rounded run is bounded (C120).
* **Arrays** are `List`s, matrices are lists of rows. Reads outside an array are never silently totalised:
  either the model returns a Python error value, or `getD _ 0` is used exactly where numpy zero-pads
  (FFT padding, zero history of a filter), or a bounds theorem accompanies the definition.
* **Exceptions** are values: `Py α = Except Err α`, with one constructor per Python exception class the code
  can raise, plus `outOfBounds` (an `as_strided` read outside the buffer: undefined behaviour in Python) and
  `outOfModel` (Python goes on with NaN arrays that the model does not follow; each use is commented).
* **String options** (`scale`, `win_type`, `normalize`, `conversion_approach`) stay strings, so that unknown
  options are covered by the theorems.
* **External calls**: `np.fft.fft/rfft` = the DFT sum (crop / zero-pad), `scipy.fftpack.dct(norm="ortho")` =
  the DCT sum (for rows with infinite entries the fast algorithm may give NaN where the sum is infinite; the theorems about
  such rows only say that the result is not finite), `scipy.signal.lfilter` = convolution (FIR) or direct form II transposed (IIR), `lfilter_zi` for FIR
  = tail sums, `fftconvolve`/`np.correlate` = the sum, `linalg.inv` = matrix inverse or `LinAlgError` when the
  determinant is 0, `scipy.signal.resample` = crop/pad of the half spectrum, `scipy.signal.butter(6, ., "band")` = scipy's design steps in exact
  complex arithmetic (`Model/Butter.lean`).

Not modelled: rendering by matplotlib (the drawing commands are modelled, C182), `"%.1f"` formatting, 2-D input signals beyond framing (C109), negative
`nfilts`/`nfft`, negative `order` of the linear-prediction functions (a negative `num_ceps` is modelled in `Model/NegCeps.lean`). By default values are exact reals, arrays are fresh values and samples are floats. Three things
are modelled apart from that default, each for the properties that name it: binary64 rounding (`Model/Float*.lean`, C120,
C130 ff., C144, C145), integer samples (`Model/IntDtype.lean`, C119, C129; they matter in `lpc`/`lpcc` only) and
arrays shared between caller and callee (`Model/Store.lean`).

More readings of library behaviour: `signal.lfilter([1, -c], [1], sig)` goes through `np.convolve` (one denominator coefficient), which raises
`ValueError` for an empty signal, so `pre_emphasis([])` raises (`preEmphasisPy`); `signal.lfilter(b, a, [], zi=z)` returns no output and `z` unchanged (used by
`rasta_filter` on at most four bands); `lifter_ceps` with an integer `lifter` may produce integer-typed weights, which
have the same values as the real ones here.

## Layout

* `lean/Verif/Basic/*` – Python and numpy primitives.
* `lean/Verif/Model/*` – one file per Python file; every definition cites file and lines.
* `lean/Verif/Spec/*` – small independent specifications used in theorem statements.
* `lean/Verif/Lemmas/*` – helper lemmas.
* `lean/Verif/Props/*` – the property theorems, with non-vacuity examples.

## Trusted base

Lean 4.33 kernel; axioms `propext`, `Classical.choice`, `Quot.sound` (Mathlib's reals are classical); the reading
of the Python source cited in the model; the simplifications above.

## Code covered, file by file

| Python file | Model | Not modelled |
|---|---|---|
| `utils/converters.py` | `Model/Converters.lean` – all functions, all approaches | string/None frequencies |
| `utils/filters.py` | `Model/Filters.lean` – `scale_fbank`, `rasta_filter` (with the filter state carried from row to row) | – |
| `utils/preprocessing.py` | `Model/Preprocessing.lean` – `zero_handling`, `pre_emphasis`, `framing` (strided reads with buffer bounds, rounding as a parameter), `windowing`; `Model/MultiChannel.lean` – `pre_emphasis` and `framing` on arrays with two axes | – |
| `utils/cepstral.py` | `Model/Cepstral.lean` – `normalize_ceps`, `lifter_ceps`, `deltas` | – |
| `utils/spectral.py` | `Model/Cqt.lean` – constant-Q grid, kernels, transform; `Model/Features.lean` – power spectra | `scipy.sparse` as the plain product |
| `utils/vis.py` | `Model/Vis.lean` – dB image of `show_spectrogram`, `tick_function`; `Model/Draw.lean` – the drawing functions as lists of drawing commands with their data | rendering (figures, colours, fonts), the check that matplotlib is installed; `"%.1f"` is the abstract function `fmt`, the ticks matplotlib chooses are a parameter |
| `fbanks/*.py` | `Model/MelFbanks.lean` (mel, inverse mel, linear), `Model/BarkFbanks.lean`, `Model/GammatoneFbanks.lean` | negative high_freq (gammatone) |
| `features/mfcc,lfcc,bfcc,gfcc,ngcc,msrcc,psrcc.py` | `Model/Features.lean` – features and their spectrograms; `Model/Column.lean` – the features (also of `pncc`, `lpc`, `rplp`) on arrays of shape (N, 1) | other 2-D signals (only `pre_emphasis` and `framing`, C109) |
| `features/pncc.py` | `Model/Pncc.lean` – all steps | – |
| `features/lpc.py` | `Model/Lpc.lean` – `lpc`, `lpcc`, `lpc2lpcc`, `__lpc_helper`; `Model/IntDtype.lean` – the same for integer samples | order 0 and 1 |
| `features/rplp.py` | `Model/Plp.lean` – `plp`, `rplp` | order 0 and 1 |
| `features/cqcc.py` | `Model/Cqt.lean`; `Model/ColumnCqt.lean` – on arrays of shape (N, 1) | grids with a frequency <= 0, nfft = 0 |
| `features/spfeats.py` | `Model/Spfeats.lean` – every descriptor and `extract_feats` | – |
| `frequencies/fundamental_frequencies.py` | `Model/Yin.lean` | – |
| `frequencies/dominant_frequencies.py` | `Model/Dominant.lean` (any filter), `Model/Butter.lean` | cut-off frequencies in the wrong order (scipy-version-dependent); rounding of the design |

Assumptions about libraries, beyond the list above: `lfilter_zi` of an FIR filter is the vector of tail sums (`firZi`);
`scipy.linalg.inv` raises ValueError on non-finite input (`check_finite`); `fftconvolve` is exact; `gmean` is the exponential
of the mean logarithm; `scipy.signal.resample` is DFT cropping/padding.

## Where the code and its documentation disagree

Each entry is a theorem about the model, not a remark: C04 (Terhardt, Traunmueller do not round-trip), C11 (negative hop reads
out of bounds), C16 (`mvn` is not unit variance), C21 (lift -2 loses a column), C29 (filter-bank columns are not FFT bins
unless low=0, high=fs/2, even nfft), C32 (imfcc raises TypeError with its defaults), C34 (Bark bank crashes or is empty), C42
(infinities/NaN on silence), C47 (`pre_emph_coeff` ignored), C54 (first frame), C56 (smoothing is not an average), C63 (LPC error
term), C64 (window ignored by lpc), C65 (LP cepstrum recursion), C69 (cqcc IndexError), C75, C76, C94, C96 (spectral descriptors),
C81 (pitch above high_freq), C86 (dominant frequency scale), C90 (RASTA runs across channels), C109 (stereo input is read out of bounds), C119 (integer samples overflow in lpc without pre-emphasis).
For these the MANIFEST status is `partial`; the negation is proved with a concrete witness, and a theorem with the suffix
`_partial` keeps what is true.

## Checking the theorems against wrong programs

`seeded/LOG.jsonl` has one line per attempt: the model was edited in a scratch copy and rebuilt with every broken proof replaced
by `sorry`, and the property theorems were then asked for their axioms; `theorems_failed` are those of the claim under attack that
depend on `sorryAx` afterwards, `first_failures` the declarations whose own proof broke. What to keep in mind when reading it:

* The early attempts rebuilt the whole project. The later ones rebuilt only the modules of the claim under attack, so a theorem of
  another module that is not listed was not tested.
* The attempts named `auto-...` are generated edits; the build was stopped at the first error, and `theorems_failed` is
  empty when that error was in a lemma.
* A failed theorem is one whose proof, or the proof of a lemma it uses, no longer goes through. That the statement itself became
  false was judged by reading it, not proved.
* `outcome` is given where an attempt has no plain verdict: the edit did not compile, the script stopped, or the mutant survived.

## Agreement with the test suite of the repository

The tests in `/repo/tests` were read as a check of the model: each assertion must hold for the model too. None contradicts it.

| test | what it asserts | theorem it is an instance of |
|---|---|---|
| `test_fbanks_*.py` | shape `(nfilts, nfft // 2 + 1)`; `ParameterError` for `low_freq < 0` and `high_freq > fs / 2` | C25_*_shape, C24_*_validation |
| `test_features_{mfcc,lfcc,bfcc,gfcc,ngcc,msrcc,psrcc}.py` | `ParameterError` for `nfilts < num_ceps`; `num_ceps` columns; `normalize` and `lifter` equal `normalize_ceps` and `lifter_ceps` of the plain features; precomputed banks change nothing | C37_nfilts_check, C38_num_ceps_columns, C102_post_processing, C39_precomputed_bank |
| `test_features_pncc.py` | `num_ceps` columns | C38_pncc_shape |
| `test_features_cqcc.py` | `ParameterError` for `high_freq = fs`; `int(num_frames * resampling_ratio)` rows; options as above | C71_validation, C71_shape, C102_cqcc |
| `test_features_lpcc.py` | `order` columns; options as above | C59_lpc, C107_lpcc_meaning, C102_lpcc |
| `test_features_rplp.py` | `order` columns; options; precomputed bank | C66_plp_shape, C102_post_processing, C39_plp_precomputed_bank |
| `test_frequencies.py` | calls succeed; twelve spectral features | C100_defined, C97_defined, C76_defined |
| `test_utils_cepstral.py` | formulas of `normalize_ceps`, `lifter_ceps`; literal deltas | C15–C18, C20_lifter_weights, `Props/Suite.lean` |
| `test_utils_converters.py` | ERB round trips (the Bark and mel tests compare a call with itself) | C03_erb2hz_hz2erb, C03_hz2erb_erb2hz |
| `test_utils_preprocessing.py` | literal pre-emphasis; `ParameterError` when the hop exceeds the window; frame length; no zeros | `Props/Suite.lean`, C12_framing_param_iff, C11_framing_content, C08_log_finite |
| `test_utils_vis.py` | the three drawing functions return | C182_fbanks, C182_spectrogram, C182_features |

The assertion `len(sig) <= len(frames) * frame_length` of `test_framing` holds for its parameters but not in general: C13_framing_coverage
gives the exact number of samples at the end that no frame covers.

## Plan per property

* **C01** Mel round trip: real-valued formulas with log10/10^x over XF; direct inverse computation.
* **C02** Mel scale is strictly increasing and anchored at zero: strict monotonicity of log; case analysis on the string.
* **C03** ERB round trip and monotonicity: as C01.
* **C04** Bark round trip: sinh/arsinh, tan/arctan; Terhardt and Traunmueller refuted for all f in a region, others proved.
* **C05** Bark scale monotone; unknown approach means Wang: monotonicity of arsinh, arctan, log.
* **C06** Scaling vector: list computation.
* **C07** RASTA filter: explicit state invariant of the transposed direct form; the state carried between rows is flushed by the four FIR steps, so it has no effect.
* **C08** zero_handling removes zeros and nothing else: pointwise.
* **C09** Pre-emphasis difference equation: convolution sum unfolded.
* **C10** Pre-emphasis is linear, causal and invertible: induction on the signal.
* **C11** Framing content and memory safety: strided read with explicit buffer bounds.
* **C12** Framing failure modes: case analysis.
* **C13** Framing coverage: Euclidean division.
* **C14** Windows are symmetric and never amplify: closed window formulas; Kaiser via the Bessel series.
* **C15** Mean subtraction: finite sums.
* **C16** Mean-variance normalisation: variance decomposition.
* **C17** Variance normalisation: finite sums.
* **C18** Mean normalisation: max/min of lists.
* **C19** Normalising constant features: XF division 0/0.
* **C20** Liftering weights: matrix product with a diagonal.
* **C21** When liftering is reversible: exact characterisation, non-vanishing weights by Niven's theorem.
* **C22** Deltas formula: convolution with replicated edges.
* **C23** Deltas of constants, ramps and reversed sequences: from C22.
* **C24** Filter-bank parameter validation: case analysis.
* **C25** Filter-bank shape: length lemmas.
* **C26** Mel filters are triangles in [0,1]: triangle specification.
* **C27** Mel centre frequencies: arithmetic progression.
* **C28** Partition of unity: adjacent triangles sum to 1.
* **C29** Filter-bank columns are FFT bins: equality of grids iff; counterexamples.
* **C30** Linear filter bank: instance of C26.
* **C31** Inverse mel bank mirrors the mel bank: list reversal.
* **C32** Inverse mel bank defaults and centres: negation proved by computation.
* **C33** Bark filter shape: case analysis on the curve.
* **C34** Bark filter bank never crashes on valid parameters: bound on floor((nfft+1) f/fs); witnesses for the violations.
* **C35** Gammatone filters are finite with peak 1: non-vanishing of gain, poles inside the unit circle.
* **C36** Gammatone centre frequencies: geometric interpolation.
* **C37** More cepstra than filters is rejected first: first branch of each function.
* **C38** Feature shape: length lemmas.
* **C39** Precomputed filter banks give the same features: unfolding.
* **C40** Spectrograms are non-negative: sums of non-negative terms.
* **C41** Log-based features are finite for every signal: XF log of non-zero.
* **C42** Root/phase features are finite for every signal: explicit silent signal.
* **C43** Gain law of log features: linearity of the front end + DCT of a constant row.
* **C44** Gain law of root features: homogeneity.
* **C45** psrcc ignores gain: argument of a positive multiple.
* **C46** Appending audio does not change earlier frames: framing of an extension; row-wise maps.
* **C47** pre_emph_coeff is honoured: independence theorem for the violating functions; formula for the others.
* **C48** FFT size versus frame length: DFT reads x.getD j 0 for j<n.
* **C49** use_energy: Parseval via orthogonality of characters.
* **C50** The DCT loses nothing: orthogonality of cosines.
* **C51** num_ceps only truncates: take of take.
* **C52** imfcc is mfcc on the inverse bank: unfolding.
* **C53** Medium-time power: finite sums.
* **C54** Asymmetric low-pass filter: induction over frames.
* **C55** Temporal masking: induction over frames.
* **C56** Weight smoothing is a local average: counterexample + exact value.
* **C57** Mean power normalisation never divides by zero: induction over frames.
* **C58** Noise suppression output is non-negative: composition of C54, C55.
* **C59** LPC coefficients solve the normal equations: matrix inverse times matrix.
* **C60** LPC minimises the prediction error: quadratic form expansion.
* **C61** LPC is defined for every non-silent frame: positive definiteness of the autocorrelation Toeplitz matrix.
* **C62** LPC ignores gain: scaling of the system.
* **C63** LPC error term is the prediction error: counterexample.
* **C64** lpc applies the window: independence theorem.
* **C65** lpc2lpcc computes the LP cepstrum: counterexample; what is computed.
* **C66** PLP shape and validation: length lemmas.
* **C67** Constant-Q frequency selection: monotone window length implies suffix.
* **C68** Constant-Q kernel stays in bounds; output shape: index arithmetic.
* **C69** Constant-Q with no admissible window: error theorem.
* **C70** Constant-Q is linear: linearity of finite sums.
* **C71** cqcc rows and validation: length lemmas.
* **C72** Spectral centroid: weighted mean bounds.
* **C73** Spectral flatness: AM-GM.
* **C74** Spectral flux: sums.
* **C75** Spectral entropy range: counterexamples.
* **C76** Spectral spread and roll-off are single numbers with their documented meaning: shape theorem.
* **C77** YIN difference function: sum manipulation.
* **C78** YIN normalised difference: pointwise.
* **C79** Pitch search: loop invariant.
* **C80** YIN output shape: length lemmas.
* **C81** YIN pitch range: floor bounds; counterexample.
* **C82** YIN ignores gain: from C78.
* **C83** YIN on silence: NaN semantics.
* **C84** YIN finds exact periods: from C77-C79.
* **C85** Dominant frequencies range and count: fftfreq bounds.
* **C86** Dominant frequency is the frequency of the strongest bin: exact formula; counterexample.
* **C87** Spectrogram dB range: max of list.
* **C88** Axis tick conversion: case analysis.
* **C89** rplp ignores gain: scaling of the autocorrelation model; LPC gain invariance.
* **C90** rplp rows are local to their frame: row-wise map; the first four RASTA outputs are 0.
* **C91** Meaning of the constant-Q transform: Parseval for the kernel; error bounded by the dropped entries.
* **C92** cqcc under gain; resampling with ratio 1: homogeneity; DFT resampling of a constant offset.
* **C93** cqcc is defined and finite: composition of success conditions.
* **C94** Centroid of extract_feats is the frequency of the tone: exact formula; parity argument.
* **C95** Spectral skewness and kurtosis: moment computation.
* **C96** Mean, RMS, standard deviation and variance entries: variance decomposition.
* **C97** When compute_yin succeeds: case analysis on the window length.
* **C98** YIN entries are local: list indexing.
* **C99** Dominant frequencies do not depend on level: argmax is invariant under positive scaling.
* **C100** Dominant frequencies are defined: composition of success conditions.
* **C101** End-to-end meaning of the cepstral features: unfolding against an independent formula (`Spec/Meaning.lean`).
* **C102** Liftering and normalisation are separate last steps: monad associativity, case analysis on the options.
* **C103** use_energy touches the first column only: the tail computation column by column.
* **C104** Gammatone bank is Slaney's filter, peak-normalised: closed response formula (`Spec/Gammatone.lean`); the gain cancels in the peak normalisation.
* **C105** dct_type selects an orthonormal invertible transform: orthogonality of the cosine bases of types 1-4.
* **C106** pncc end to end: the loops over frames and channels are matched with recursive definitions in `Spec/Pncc.lean`.
* **C107** lpc, lpcc, plp, rplp end to end: rows via the unique solution of the normal equations; `Spec/LpMeaning.lean`.
* **C108** the features with the bank they build themselves: closed formula from the signal; `Props/DefaultBank.lean`.
* **C109** two-axis arrays: index arithmetic of `a.size`, `a.strides[0]`; `Model/MultiChannel.lean`.
* **C110** polarity: homogeneity of the front end with factor -1, absolute values downstream.
* **C111** locality: explicit frames of the front end, row-wise form of the features.
* **C112** time reversal: reflection of the DFT sum and of the autocorrelation, symmetric windows.
* **C113** closed form of the spectrogram functions from the explicit frames and banks.
* **C114** zero band energies; the DCT-II of a constant row.
* **C115** Parseval, windows at most 1, triangles that telescope to at most 1.
* **C116** exception tables: `Spec/Errors.lean` (first condition that holds), `Props/Errors.lean`.
* **C117** exception tables of the spectrograms, pncc, lpc, lpcc and plp (`Props/Errors2.lean`). As in C116, a table is a list
  of (condition, exception); `firstError` returns the first line that holds. lpc/lpcc/plp with order at least 2.
* **C118** noise (`Props/Stability.lean`): the root of a band energy is a seminorm of the signal (Cauchy–Schwarz), the
  orthonormal DCT does not increase distances; hence bounds on the movement of the rows of the log features and of gfcc.
* **C119** integer samples in lpc/lpcc (`Props/IntDtype.lean`): wrap-around arithmetic of the autocorrelation.
* **C120** rounding (`Model/Rounding.lean`, `Props/Rounding.lean`): the rounded run is a relation (any summation tree, any
  order, optional fused multiply-add, any rounding with relative error u); standard forward error analysis by induction
  over the summation tree, then the seminorm argument of C118. Overflow/underflow excluded; library functions enter
  through accuracy hypotheses.
* **C121** (in-place writes). `Model/Store.lean` gives the functions with loops that write into arrays a second, imperative
  model: programs in a state-and-exception monad over a list of arrays, with Python's index rules. `Computes p h res` says that
  a program run in the store `h` raises the exception of `res` or leaves `h` as it is, appends new arrays and returns the
  address of one that holds the value of `res`. One theorem per function relates it to the recursive model used everywhere
  else, so that the properties of pncc, rplp and the mel banks hold of the imperative programs. `C121_unchanged` spells out
  what this means for the caller's arrays.
* **C122** (views). `stride_trick` as a program that copies and returns a view; reading and writing through views.
* **C123** (`Props/Errors3.lean`) exception tables, in the style of C116/C117, for the five filter banks, `framing`,
  `windowing`, `get_dominant_frequencies`, `extract_feats`, `compute_yin`, `cqt_spectrogram` and `cqcc`.
* **C124** (`Props/YinMeaning.lean`) `Spec.PitchLag` says with inequalities which lag is the pitch; existence, uniqueness, and
  the three lists of `compute_yin` in terms of it.
* **C125** rounded runs of YIN as a relation: `RoundedDiff` (differences within `κ` times the energy), `RoundedCmnd` (sums and
  quotients). `PitchLag ε` is the same choice with margins; margin above the error bound gives the same pitch. Constant
  non-silent windows: an admissible run that reports a pitch.
* **C126** (`Model/Butter.lean`, `Lemmas/Butter.lean`, `Props/Butter.lean`) Coefficient lists as power series: `np.poly` is a product
  of linear factors, `lfilter` is the convolution with `b/a`. Poles in the left half plane go into the unit disc, so `b/a` is
  absolutely summable and can be evaluated on the unit circle; the Butterworth identity over the six poles gives the gain.
* **C127** the exceptions, count and level-independence of `get_dominant_frequencies` with the filter.
* **C128** (`Props/LpcStable.lean`): stability of the LPC polynomial. A zero `z₀` of the polynomial gives a factorisation
  whose quotient `b` satisfies `E = (1 - |z₀|²) ⟨b, b⟩` for the (non-negative) Toeplitz form of the autocorrelation, where
  `E > 0` is the minimal prediction error; hence `|z₀| < 1`. Consequences: binomial bounds, bounded resynthesis, bounds on
  `lpcc`, `plp`, `rplp`.
* **C129, C130** (`Model/Float64.lean`, `Props/Float64.lean`): a concrete `binary64` rounding `fl64` (nearest, ties to even;
  no overflow, no subnormals). It instantiates the abstract `Rounding` of C120 and C125, and is used for the places where
  the code turns a float into an integer. C129 is a finding: `int(win_len * fs)` loses one sample for some windows.
* **C131** (`Lemmas/RastaInf.lean`, `Props/RplpErrors.lean`): the exception table of `rplp`. `log 0 = -inf` is followed
  through the FIR and IIR parts of the RASTA filter: a `-inf` gives NaN at its own position in the first four bands, and two
  positions later in the rest (`0 * inf`), so only an empty band at the very end of the row is harmless.
* **C132** (`Model/Float64Int.lean`, `Props/Float64Int.lean`): `compute_yin` and `cqcc` with the arguments of `int()` rounded
  to `binary64`. `float_gap` (two floats are a relative `2^-53` apart) gives the criterion `SafeRatio`; the hundred floats of
  whole milliseconds are tabulated and each entry is certified by integer arithmetic.
* **C133** (`Props/PnccGain.lean`): the level law of `pncc`, from the closed form of C106. Every stage up to the mean power
  normalisation is homogeneous, so row `i` is multiplied by `κ i` with `κ i ^ 15 = G (c + s) / (c + G s)`, where `c` is what is
  left of the constant start value and `s` the part of the running mean that comes from the signal.
* **C134** (`Props/Resample.lean`): the Fourier resampling of `cqcc` keeps time averages and, for an integer ratio,
  interpolates the rows computed without resampling.

* **C135** (`Props/Tone.lean`, `Lemmas/Leakage.lean`): the DFT of a windowed tone is a sum of two transforms of the window. All five
  windows rise to the middle and fall after it, so summation by parts bounds the transform at angle θ by `1/|sin(θ/2)|`, whatever
  the length; near angle 0 weights and cosines are both largest in the middle, so by Chebyshev's inequality it is at least `sin(x)/x`,
  `x = lθ/2`, times the sum of the weights. This locates the strongest bin.
* **C136** (`Props/Tone.lean`): the same for `get_dominant_frequencies`, where the located bin is read on a grid of half the size.
* **C137**, **C138** (`Props/TimeUnit.lean`): dimension analysis. The change of unit `fs ↦ c fs`, `win ↦ win / c` is pushed through every
  function that has no constant in Hz; multiplication with a positive number commutes with all operations of `XF`, so the laws hold
  for NaN and infinite results too. Skewness and kurtosis have the dimension of a power of a time (violation).
* **C139** YIN on a pure tone: the difference function in closed form (`Lemmas/YinTone`), its normalised version is above 1/2
  in the first half of the period, decreases after the crossing of the threshold, is below 0.1 at the lag nearest to the period
  and grows again after it; hence the lag of `PitchLag` (C124) is within one sample of the period.
* **C140** Causality of `pncc`: every stage is shown to depend on a prefix of its input rows (`Lemmas/PnccCausal`: the scans of the
  asymmetric filters, masking, weight smoothing across channels, the running mean), only the medium-time average looks two rows
  ahead. `psrcc`: the replacement of infinities by the global maximum is the identity for a non-negative bank (from C42), so the
  rows are local. `cqcc` with ratio 1: `resample_self`. Dominant frequencies: uniqueness of the first strongest bin.
* **C141** (`Props/NormLevel.lean`) – which normalisation removes the level of a recording: 'vn', 'mvn', 'mn' for the
  root features, 'ms' for the logarithmic ones; with 'mvn' the logarithmic features fade to 0 as the gain grows, because
  `normalize_ceps` divides by one standard deviation over the whole matrix. Helpers on positive scaling of extended
  numbers are in `Lemmas/NormLevel.lean`.
* **C142** (`Spec/Deltas.lean`, `Props/Deltas.lean`) – `deltas` as the slope of a least-squares line times `Σ k²`, bounds,
  monotone rows, degenerate and negative windows, rows treated separately. The model of `deltas` takes any integer
  window and raises what NumPy raises for negative windows and for matrices without rows.
* **C49** was extended by `Props/EnergyMeaning.lean`: the first column, and the complete rows, in terms of the samples.
* **C23** is stated for `deltas` itself; the statements about one row are helpers.
* **C143** (`Props/CqtTone.lean`): the constant-Q transform of a frame that holds a pure tone. The coefficient of a
  grid frequency is the transform of its window at the two distances `f - g` and `f + g`; the entries dropped by the
  spectral threshold are bounded through the sum of the leakage of a tone over all DFT bins
  (`≤ nfft (2 + 2/π (1 + log nfft))`, from `sin(πx) ≥ πx(1-x)` and the harmonic numbers). For the default grid the
  bounds are evaluated: the strongest row is within 1/15 of the tone, and is the own row for a tone on the grid.
* **C144** rounding in `normalize_ceps` and `deltas` (`Model/RoundingPost.lean`): relations like those of C120, with sums
  in any order. The bounds follow numpy's statements one by one; `np.sqrt` is taken as correctly rounded. For constant
  features the float result of 'mvn' is made of rounding errors (-1 for three times 0.1), where the exact model says NaN.
* **C145** rounding in `get_dominant_frequencies` (`Model/RoundingDominant.lean`): the argmax of the rounded powers is a nearly
  strongest bin of the exact spectrum; with a margin above the bound it is the strongest. The tone argument of C136 is stated
  for nearly strongest bins (`tone_nearly`), so it carries over to the float runs.
* **C146** spectral envelope (`Props/Envelope.lean`): the autocorrelations of `E/|A|²` satisfy the Yule-Walker equations (mean value
  property of `z^k/A`, which is analytic on the closed disc by C128); the equations have one solution (`yule_walker_unique`: the
  continued sequence is annihilated by `A` and by its reverse, which are coprime); the frame's autocorrelations solve them by C59 and C63.
* **C147** banks in floating point (`Model/RoundingBank.lean`, `Props/RoundingBank.lean`): forward error of `hz2mel`, the equidistant
  points, `mel2hz`, the column grid; a triangle is Lipschitz in edges and argument (`ratio_close`), so a wrong side chosen next to an
  edge costs no more than the edge error; edges plus `b` form a geometric sequence (`mel_geometric`), so spacing and error scale together.
* **C148** end-to-end rounding (`Props/RoundingAll.lean`): C120 for the computed bank of C147; energies are linear in the bank and the
  power of a frame is at most the energy of its samples (Parseval), so a bank error `τ` costs `τ·A²/√E` in the root.
* **C149** the loudness function of `bfcc`/`plp` applied to energies: monotone up to 20000, reversed from 32000 on, exponent
  4/3 for small energies, level dependence of `plp` and `bfcc` by a two-band witness (`Props/Loudness.lean`).
* **C150** `plp` is invariant under reversal and shift of the bank; closed form of the row of a one-band frame
  (`Props/PlpBlind.lean`).
* **C151** the model fitted by `plp` versus the published one, specified in `Spec/PlpModel.lean` (`Props/PlpModel.lean`).
* **C152** the noise suppression of `pncc` on a band of constant power: geometric decay of the output after any history, closed
  form of the first 1000 frames (`Props/PnccStationary.lean`).
* **C153** the cepstral functions with an integer `num_ceps` (`Model/NegCeps.lean`): slices with a negative bound, reduction to
  the models with a natural `num_ceps` (`Props/NegCeps.lean`).
* **C154** system identification by `lpc`: energy bound from the orthogonality of the residual (`predError_expand`), limit of long
  frames by summability of the response of a stable filter, one-pole closed form (`Spec/AllPole.lean`, `Props/LpcIdentify.lean`).
* **C155** compression of the auditory scales: strict concavity of log, arsinh and arctan gives the strict inequality of steps; the
  centres of the mel and gammatone banks are geometric up to a shift. Violated by `Traunmueller`, whose docstring and code are
  both a straight line (`Props/Compressive.lean`).
* **C156** converters against their references: `Spec/Traunmueller.lean` states the published scale with its corrections;
  `bark2hz` inverts it, `hz2bark` does not compute it; Beranek's mel formula by bounds on ln 10 (`Props/Published.lean`).
* **C157** the block diagram of the noise suppression in `pncc` has a maximum that the code lacks: exact condition for agreement and
  a family of inputs on which the output falls below the documented floor (`Props/PnccMax.lean`).
* **C158** RASTA along time (`Spec/RastaTime.lean`) against the code, which filters across the bands: exact effect on steady
  sounds and on fixed channels (`Props/RastaTime.lean`).
* **C159** Continuity of `psrcc` in the samples, away from bins on the non-negative real axis, and the jump there
  (`Props/PsrccJump.lean`).
* **C160** Filters without a positive weight: exact criterion for mel, inverse mel and linear banks, consequence for
  `mel_spectrogram` (`Props/DeafFilters.lean`).
* **C161** Frequency response and energy bound of `pre_emphasis` (`Props/HighPass.lean`).
* **C162** The level of silence in the logarithmic features against the levels of very quiet signals (`Props/SilenceFloor.lean`).
* **C163** Magnitude spectra of the four spectrogram functions with `nfft` and `q * nfft` points (`Props/ZeroPadding.lean`).
* **C164** `intensity_power_law` against the formula of its docstring (`Props/EqualLoudness.lean`).
* **C165** Coefficients of `lpc` against the error and the order of its docstring (`Props/LpcDocumented.lean`).
* **C166** The features on arrays of shape (N, 1), the documented input, against flat arrays (`Model/Column.lean`, `Model/ColumnCqt.lean`, `Props/ColumnInput.lean`, `Props/ColumnCqt.lean`).
* **C167** Number of terms of the YIN difference function against its docstring, and the pitch of a ramp (`Props/YinWindow.lean`).
* **C168** The samples that `extract_feats` depends on (`Props/SpfeatsReach.lean`); uses injectivity of the half spectrum of a real signal.
* **C169** `spectral_flux` against the flux over time of its docstring (`Props/SpfeatsReach.lean`).
* **C170** Processing a stream block by block against processing the whole recording (`Spec/Blocks.lean`, `Props/Blocks.lean`, `Props/BlocksRplp.lean`).
* **C171** Settling of `mean_power_normalization` on stationary power (`Props/MeanPower.lean`).
* **C172** Which features coincide, and which parameters are ignored, when the caller supplies the filter bank (`Props/SameBank.lean`).
* **C173** Skewness and kurtosis against the standardised moments (`Spec/Peeters.lean`, `Props/Peeters.lean`).
* **C174** `gfcc`, `msrcc` and `bfcc` under rounding (`Props/RoundingRoot.lean`), on top of C120.
* **C175** (`Props/RoundingLpc.lean`): linear prediction in floating point. The computed autocorrelations are any results
  of dot products (`FlAutoCorr`); the inverse and its product are known by their residual (`FlLpc`). With a lower bound of
  the autocorrelation matrix (a lower bound of the power spectrum is one) this bounds the error of the coefficients and
  the excess of the prediction error, and all runs converge to the exact coefficients.
* **C176** (`Props/YinParams.lean`): monotonicity of the pitches of `compute_yin` in the threshold and the frequency limits,
  from the description of the search in C124.
* **C177** (`Props/PredictionGain.lean`, `Lemmas/Szego.lean`): the error of linear prediction is at least the geometric mean
  of the power spectrum and tends to it as the order grows. Upper bound by explicit approximate inverses of the factors
  `z - r` on the unit circle, lower bound by `log t ≤ t - 1` and the mean of `log |A|`.
* **C178** (`Props/FixedChannel.lean`): gains on the filters add a constant vector to the log features, so mean subtraction
  removes them; with the built-in banks this makes the option `scale` ineffective under `normalize="ms"`.
* **C179** (`Props/Sources.lean`): averaged over the signs, the spectrogram of a mixture is the sum of the spectrograms of its
  sources, because the sum of `sgn p * sgn q` over all signs vanishes for `p ≠ q`; white noise is the mixture of clicks.
* **C180** (`Model/RoundingConv.lean`, `Props/RoundingConv.lean`): the mel and ERB round trips follow from the bounds of C147;
  for Bark a relative error of the argument of `arsinh` is not amplified, and one of the argument `x` of `sinh` costs a factor
  `1 + x`. Strict monotonicity is lost near 0 because the code uses `log10(1 + x)`.
* **C181** (`Model/RoundingSpfeats.lean`, `Props/RoundingSpfeats.lean`): sums of terms of one sign keep the relative error of
  their terms, so the centroid is a quotient of two accurate sums; the flatness needs a bound of the logarithms, and the flux
  cancels, so its error is measured against the norm of the magnitudes.
* **C182** (`Model/Draw.lean`, `Spec/Draw.lean`, `Props/Draw.lean`): a picture is the list of drawing commands; the spec says which
  entry of a matrix is shown at a point of the plane. The time axis is an inequality between `i T / N` and the span of frame `i`.
  The linear frequency axis of the documented mel picture is refuted with the middle band: its centre is at most
  `b (√(1 + H/b) − 1)`, below the strip of the band once `H ≥ 8 b`.
* **C183** The recursions of `pncc` in floating point (`Model/RoundingPncc.lean`, one channel at a time). The asymmetric filter is
  `x + φ(prev − x)` with the slopes of `φ` in `[0.5, 0.999]`, so an error in the state shrinks by a thousandth per frame and the
  local rounding errors (at most `8.1 u` times the size) add up to at most `8200 u B` over any number of frames. The coefficient
  `1 − fl 0.999` has a relative error of about `1000 u`, which the bound includes. Temporal masking and the excitation switch are
  discontinuous (`C183_jump`), so the result is only bounded away from their thresholds; `C183_candidates` holds without this. The
  running mean is the one recursion whose relative error grows: linearly, three roundings per frame. `C183_exact` shows that the
  rounded functions with `fl = id` are those of `Spec/Pncc.lean`, which `C58_meaning` proves of the model of the code.
* **C184** (`Props/RootLimit.lean`): `msrcc` against `mfcc` for small exponents: `(x^γ − 1)/γ` differs from `log x` by at most
  `|γ| (log x)²`, and the DCT of the constant 1 is `√n` in the first column and 0 elsewhere.
* **C185** (`Props/LpcTone.lean`): the normal equations of order 2 for a tone. The autocorrelation of `l` samples differs from that of
  an endless tone by `(k + 1/|sin θ|)/l` (a telescoping sum of cosines); solving the two perturbed equations gives the bounds for the
  coefficients, and continuity of `arccos` the limit. `C61` gives that `lpc` succeeds: a tone has no two neighbouring zeros.
* **C186** (`Props/Inversion.lean`): `(-1)^t x[t]` has the mirrored spectrum (conjugate symmetry of the DFT of real samples, even
  `nfft`), its pre-emphasis with `-c` is the inverted pre-emphasis with `c`, and `C31` says that the inverse bank is the mel bank with
  reversed rows. `lfcc`: the linear bank is its own mirror image with the filters in reverse order, and the DCT-II of a reversed
  sequence changes the sign of odd coefficients. `lpc`: the autocorrelation gets the factor `(-1)^k`.
* **C187** (`Props/Tones.lean`): pre-emphasis and the transform of a frame are linear, so a sum of tones gives the sum of the single
  transforms. The bounds of `C135` for one tone and the triangle inequality give an upper bound away from all tones and a lower
  bound next to one of them.
* **C188** (`Props/Click.lean`): the transform of a frame with one sample that is not zero has one term, with pre-emphasis two. The band
  energies without pre-emphasis are the energy of the click times the filter sums, and the DCT of a constant is in coefficient 0.
* **C189** (`Props/Click.lean`): the transform is linear, so the change is the transform of a constant times the gain of the
  pre-emphasis (plus one sample in the first frame), bounded like the leakage in `C135` by `1 / sin (pi k / nfft) <= nfft / (2 k)`.
* **C190** (`Props/Convolution.lean`): pre-emphasis commutes with the filter. A delay by one sample multiplies the transform of a frame
  by `exp (-2 pi i k / nfft)` up to `X` times the total variation of the window extended by zeros, which is at most 2 because
  every window rises to at most 1 and falls again; induction on the delay, then the sum over the filter.
* **C191** (`Props/NoisyTone.lean`): the transform of the disturbance is at most `rho e S` in every bin, so a strongest bin of the
  disturbed frame is a strongest bin of the tone up to `2 rho e S`, which is the slack already allowed by the lemma behind `C135`.
* **C192** (`Props/YinNoise.lean`): the root of the difference function is a seminorm of the frame, so the disturbance moves it by at
  most `2 rho sqrt w`; with the bounds for the tone from `C139` the normalised difference is below 0.1 at the lag nearest to the
  period and above 0.125 at all lags searched up to 3/4 of the period and at one lag just above 5/4 of it.
* **C193** (`Props/LpcStability.lean`): the autocorrelations of two frames differ by at most `eps (2 sqrt r + eps)` (Cauchy-Schwarz), so
  the predictor of one frame solves the normal equations of the other with a small residual; the lower bound of the matrix from `C175`
  turns the residual into a distance. Finitely many frames have a common `eta`.
* **C194** (same file): continuity of the `lpcc` coefficients follows except for the logarithm of a zero residual; frames of three
  samples with one coefficient have the residual `|x0 x2|`, which gives the counterexample.
* **C195** (`Props/PlpContinuous.lean`): the neighbourhoods of a signal form a filter along which band energies, loudness, inverse
  transform and RASTA output converge; the predictor follows by the lemma behind `C193`.
* **C196** (`Props/PnccContinuous.lean`): all stages of `pncc` converge along the filter of `C195` except the two selections, which do
  so off their thresholds; a four-sample signal with its last frame on the threshold of the temporal masking gives the jump.
* **C197** (`Props/RoundingRasta.lean`): the state of the transposed filter holds three finite sums and one feedback term; bounds on the
  four state errors and on the output are an invariant of the recursion because 0.94 times the output bound leaves room for one step.
* **C198** (`Model/RoundingPlp.lean`, `Props/RoundingPlp.lean`): the errors of `C120`/`C197` in the log energies are at most doubled by
  the loudness law, the inverse DFT passes them on relative to its entry 0, and the solver is bounded as in C175/C193, with the exact
  autocorrelations of the exact vector as reference. Coefficient 0 follows from a bound on the residual. The inverse FFT, the solver and `lpc2lpcc` enter by their accuracy only.
* **C199** (`Props/CqccContinuous.lean`): frames, transform, resampling and DCT are linear in the samples and the logarithm is continuous
  away from zero, so the limit along the neighbourhoods of the signal passes through. At a zero entry `zero_handling` makes a jump.
* **C200** (`Model/RoundingCqt.lean`, `Props/RoundingCqt.lean`): Parseval bounds spectrum and kernel in the Euclidean norm, Cauchy–Schwarz
  their product, and the sparse product is a rounded sum of `2 n + 1` terms in any order. A kernel entry can be dropped by rounding only if its magnitude is
  within `μ` of the threshold; those entries are counted. Logarithm, resampling (linear, its gain is the sum of the absolute weights) and DCT follow as in C120.
* **C201** (`Props/CqtClick.lean`): C91 gives the meaning of the transform for given frames; here the frames come from the signal. For a click a single term of the
  coefficient is left. Two signals that agree on the analysis windows have equal coefficients, whatever is between the windows.
* **C202** (`Model/RoundingPhase.lean`, `Props/RoundingPhase.lean`): a disc around a bin that does not meet the non-negative real axis lies in the domain of a branch of the
  logarithm, whose imaginary part is the phase; the mean value inequality bounds its change. An FFT error in one bin moves a phase across 0 (C159) and gives the counterexample.
* **C203** (`Model/RoundingPnccAll.lean`, `Props/RoundingPnccAll.lean`): the stages of C183 chained by relative errors, with the weight smoothing between them. The
  recursions look only at the past, so the arrays of a run may be continued by exact values beyond the last frame. The suppressed power is never 0, so an absolute
  error below it is a relative one; quotient, average, product and running mean keep relative errors, and C174 does the power and the DCT.
* **C204** (`Props/Channel.lean`): C190 says that a short filter multiplies the bins of a frame, up to its edges. The weighted Euclidean norm over the bins of one filter
  turns this into the root of a band energy, the logarithm into a sum, and the DCT is an isometry. The mean over the frames takes the constant vector away and at most doubles the rest.
