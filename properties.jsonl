{"id": "C01", "title": "Mel round trip", "statement": "mel2hz(hz2mel(f, a), a) = f for every frequency f >= 0 and hz2mel(mel2hz(m, a), a) = m for every real m, for both mel approaches.", "quantifier": "all real frequencies / mels, both approaches", "why_tests_cant": "the repository's tests compare hz2mel with itself on 15 integers; the inverse relation is over a continuum", "anchors": ["spafe/utils/converters.py:hz2mel", "spafe/utils/converters.py:mel2hz"]}
{"id": "C02", "title": "Mel scale is strictly increasing and anchored at zero", "statement": "hz2mel is strictly increasing on f >= 0, maps 0 to 0, and any approach other than the two documented names raises KeyError in both directions.", "quantifier": "all pairs of frequencies, all approach strings", "why_tests_cant": "monotonicity is a statement about all pairs", "anchors": ["spafe/utils/converters.py:hz2mel", "spafe/utils/converters.py:mel2hz"]}
{"id": "C03", "title": "ERB round trip and monotonicity", "statement": "erb2hz(hz2erb(f)) = f for f >= 0, hz2erb(erb2hz(e)) = e for every e, hz2erb strictly increasing on f >= 0; any other approach string yields None.", "quantifier": "all real frequencies", "why_tests_cant": "continuum of inputs", "anchors": ["spafe/utils/converters.py:hz2erb", "spafe/utils/converters.py:erb2hz"]}
{"id": "C04", "title": "Bark round trip", "statement": "For every documented Bark approach, bark2hz(hz2bark(f, a), a) = f for every f > 0. (The code violates this for Terhardt and Traunmueller.)", "quantifier": "all positive frequencies, all six approaches", "why_tests_cant": "the tests never compose the two directions", "anchors": ["spafe/utils/converters.py:hz2bark", "spafe/utils/converters.py:bark2hz", "spafe/utils/converters.py:__traunmueller_helper"]}
{"id": "C05", "title": "Bark scale monotone; unknown approach means Wang", "statement": "hz2bark is strictly increasing on f > 0 for each approach; an unknown approach string gives exactly the Wang conversion in both directions.", "quantifier": "all pairs of frequencies, all strings", "why_tests_cant": "all pairs / all strings", "anchors": ["spafe/utils/converters.py:hz2bark", "spafe/utils/converters.py:bark2hz"]}
{"id": "C06", "title": "Scaling vector", "statement": "scale_fbank returns nfilts factors: (i+1)/nfilts ascending, (nfilts-i)/nfilts descending, 1 constant, all in (0,1]; ascendant and descendant are mirror images; any other name raises KeyError.", "quantifier": "all nfilts, all scale names", "why_tests_cant": "all sizes", "anchors": ["spafe/utils/filters.py:scale_fbank"]}
{"id": "C07", "title": "RASTA filter: shape, start-up zeros, bounded output, frame independence", "statement": "rasta_filter keeps the shape, the first four outputs of each row are 0, from then on each row satisfies y[n] = 0.2x[n]+0.1x[n-1]-0.1x[n-3]-0.2x[n-4]+0.94y[n-1]; each row's output depends on that row only although the code carries filter state from row to row; |x| <= B gives |y| <= 10B; constant rows give zeros; a row without columns raises IndexError.", "quantifier": "all matrices with at least one column", "why_tests_cant": "independence and boundedness quantify over all inputs", "anchors": ["spafe/utils/filters.py:rasta_filter"]}
{"id": "C08", "title": "zero_handling removes zeros and nothing else", "statement": "zero_handling replaces exactly the zeros by machine epsilon, leaves all else untouched, keeps shape, is idempotent, and its result never contains 0 so log of non-negative data is finite.", "quantifier": "all arrays", "why_tests_cant": "all arrays", "anchors": ["spafe/utils/preprocessing.py:zero_handling"]}
{"id": "C09", "title": "Pre-emphasis difference equation", "statement": "pre_emphasis(x, c) of a signal with at least one sample has the length of x, y[0] = x[0] and y[t] = x[t] - c*x[t-1] for t >= 1; an empty signal raises ValueError.", "quantifier": "all signals, coefficients and times", "why_tests_cant": "all signals", "anchors": ["spafe/utils/preprocessing.py:pre_emphasis"]}
{"id": "C10", "title": "Pre-emphasis is linear, causal and invertible", "statement": "On signals with at least one sample pre_emphasis is linear in the signal, its first n outputs depend on the first n inputs only, coefficient 0 is the identity, and two signals with the same pre-emphasised version are equal.", "quantifier": "all signals and coefficients", "why_tests_cant": "injectivity / linearity are for all pairs", "anchors": ["spafe/utils/preprocessing.py:pre_emphasis"]}
{"id": "C11", "title": "Framing content and memory safety", "statement": "If framing succeeds with a positive hop, frame i is exactly samples i*step .. i*step+frame_length-1 of the signal, all reads are inside the signal buffer, and the number of frames is floor((len-frame_length)/step)+1.", "quantifier": "all signals, sampling rates, window lengths and hops, under any monotone rounding of the seconds-to-samples product", "why_tests_cant": "as_strided does no bounds check; a test can only sample sizes", "anchors": ["spafe/utils/preprocessing.py:framing", "spafe/utils/preprocessing.py:stride_trick"]}
{"id": "C12", "title": "Framing failure modes", "statement": "framing raises ParameterError iff win_len < win_hop (first of all checks), ZeroDivisionError if the hop rounds to 0 samples, and IndexError/ValueError when the signal is shorter than one frame; otherwise it succeeds.", "quantifier": "all signals and parameters with hop >= 0", "why_tests_cant": "exact characterisation of the error region", "anchors": ["spafe/utils/preprocessing.py:framing"]}
{"id": "C13", "title": "Framing coverage", "statement": "Every sample before the end of the last frame is in some frame, and fewer than step samples at the end of the signal are dropped.", "quantifier": "all signals and frame geometries with step <= length", "why_tests_cant": "all sizes", "anchors": ["spafe/utils/preprocessing.py:framing"]}
{"id": "C14", "title": "Windows are symmetric and never amplify", "statement": "For each of the five window names and each frame length, window weights are symmetric and in [0,1]; windowing keeps shape and never increases a sample's magnitude; other names raise KeyError.", "quantifier": "all frame lengths, all frames", "why_tests_cant": "all lengths", "anchors": ["spafe/utils/preprocessing.py:windowing"]}
{"id": "C15", "title": "Mean subtraction", "statement": "normalize_ceps 'ms' gives zero mean in every column, is idempotent, and is invariant under adding a constant row to all rows.", "quantifier": "all non-empty matrices", "why_tests_cant": "all matrices", "anchors": ["spafe/utils/cepstral.py:normalize_ceps"]}
{"id": "C16", "title": "Mean-variance normalisation", "statement": "normalize_ceps 'mvn' gives zero column means and its overall variance is at most 1, with unit variance iff all column means agree. (Documented as giving unit variance.)", "quantifier": "all matrices with non-zero standard deviation", "why_tests_cant": "all matrices", "anchors": ["spafe/utils/cepstral.py:normalize_ceps"]}
{"id": "C17", "title": "Variance normalisation", "statement": "normalize_ceps 'vn' yields overall standard deviation 1 and is invariant under positive rescaling of the input.", "quantifier": "all matrices with non-zero standard deviation", "why_tests_cant": "all matrices", "anchors": ["spafe/utils/cepstral.py:normalize_ceps"]}
{"id": "C18", "title": "Mean normalisation", "statement": "normalize_ceps 'mn' yields overall mean 0, max - min = 1 and all values in [-1, 1].", "quantifier": "all matrices with max > min", "why_tests_cant": "all matrices", "anchors": ["spafe/utils/cepstral.py:normalize_ceps"]}
{"id": "C19", "title": "Normalising constant features", "statement": "For a constant feature matrix (e.g. silence) normalize_ceps 'ms' gives all zeros, while 'mvn' and 'mn' give NaN everywhere and 'vn' non-finite values; unknown names raise KeyError and empty matrices ValueError.", "quantifier": "all constant matrices", "why_tests_cant": "edge of every size", "anchors": ["spafe/utils/cepstral.py:normalize_ceps"]}
{"id": "C20", "title": "Liftering weights", "statement": "lifter_ceps is the identity for lift = 0 and lift > 10, multiplies column j by j**lift (column 0 by 1) for 0 < lift <= 10, and by 1 + L/2 sin(pi (j+1)/L) for lift = -L; shape is kept.", "quantifier": "all finite matrices and lifts", "why_tests_cant": "all matrices", "anchors": ["spafe/utils/cepstral.py:lifter_ceps"]}
{"id": "C21", "title": "When liftering is reversible", "statement": "For every lift and every number c >= 1 of columns, two matrices of finite cepstra with the same liftered version are equal, i.e. the cepstra can be recovered from lifter_ceps's result, exactly when lift is not strictly between -1 and 0 and not both int(-lift) = 2 and c >= 3. (So the usual lifts such as -22 lose nothing for any number of columns, although their weights 1 + (L/2) sin(pi k/L) become small and negative; -2 erases the third column.)", "quantifier": "all real lifts, all numbers of columns, all matrices", "why_tests_cant": "that no weight 1 + (L/2) sin(pi k/L) vanishes for any L other than 2 and any k is a statement about infinitely many sines (Niven's theorem)", "anchors": ["spafe/utils/cepstral.py:lifter_ceps"]}
{"id": "C22", "title": "Deltas formula", "statement": "deltas(x, w)[r][t] = sum over k=-h..h of k*x[r][clamp(t+k)] with h = floor(w/2) and clamping to the row's ends; shape is kept. A matrix without columns raises IndexError; with columns, a negative w or a matrix without rows raises ValueError.", "quantifier": "all non-empty matrices, all windows", "why_tests_cant": "all sizes", "anchors": ["spafe/utils/cepstral.py:deltas"]}
{"id": "C23", "title": "Deltas of constants, ramps and reversed sequences", "statement": "deltas of a constant row is 0; at interior points of a ramp with slope s it is s*h(h+1)(2h+1)/3; reversing a row in time negates and reverses its deltas; deltas is linear.", "quantifier": "all rows and windows", "why_tests_cant": "all sizes", "anchors": ["spafe/utils/cepstral.py:deltas"]}
{"id": "C24", "title": "Filter-bank parameter validation", "statement": "mel, linear, bark and gammatone filter banks raise ParameterError(low_freq) iff low_freq < 0, else ParameterError(high_freq) iff the effective high frequency exceeds fs/2; None and 0 both mean fs/2.", "quantifier": "all parameter values", "why_tests_cant": "all reals", "anchors": ["spafe/fbanks/mel_fbanks.py:mel_filter_banks_helper", "spafe/fbanks/bark_fbanks.py:bark_filter_banks", "spafe/fbanks/gammatone_fbanks.py:gammatone_filter_banks", "spafe/fbanks/linear_fbanks.py:linear_filter_banks"]}
{"id": "C25", "title": "Filter-bank shape", "statement": "Whenever a filter bank call succeeds the matrix has nfilts rows of nfft//2+1 columns and nfilts centre frequencies.", "quantifier": "all parameters", "why_tests_cant": "all sizes", "anchors": ["spafe/fbanks/mel_fbanks.py", "spafe/fbanks/linear_fbanks.py", "spafe/fbanks/bark_fbanks.py", "spafe/fbanks/gammatone_fbanks.py"]}
{"id": "C26", "title": "Mel filters are triangles in [0,1]", "statement": "For 0 <= low < high <= fs/2 each entry is the scale factor times the triangle with feet at the neighbouring centres and apex 1 at its centre, evaluated at the column's frequency; hence finite, in [0,1] and zero outside the band.", "quantifier": "all parameters", "why_tests_cant": "all sizes and bins", "anchors": ["spafe/fbanks/mel_fbanks.py:mel_filter_banks_helper"]}
{"id": "C27", "title": "Mel centre frequencies", "statement": "The returned centres are strictly increasing, evenly spaced in mel, strictly inside (hz2mel(low), hz2mel(high)); linear centres likewise in Hz.", "quantifier": "all parameters", "why_tests_cant": "all sizes", "anchors": ["spafe/fbanks/mel_fbanks.py:mel_filter_banks_helper", "spafe/fbanks/linear_fbanks.py:linear_filter_banks"]}
{"id": "C28", "title": "Partition of unity", "statement": "With constant scale, at every column frequency between the first and the last centre the filter weights of a mel or linear bank sum to 1.", "quantifier": "all parameters and bins", "why_tests_cant": "all sizes", "anchors": ["spafe/fbanks/mel_fbanks.py:mel_filter_banks_helper", "spafe/fbanks/linear_fbanks.py:linear_filter_banks"]}
{"id": "C29", "title": "Filter-bank columns are FFT bins", "statement": "Column k of a mel or linear bank is the weight at the FFT bin frequency k*fs/nfft. (Holds only for low = 0, high = fs/2, nfft even; violated otherwise.)", "quantifier": "all parameters", "why_tests_cant": "needs the exact region of validity", "anchors": ["spafe/fbanks/mel_fbanks.py:mel_filter_banks_helper"]}
{"id": "C30", "title": "Linear filter bank", "statement": "linear_filter_banks gives non-negative triangles with evenly spaced centres; taking absolute values changes nothing.", "quantifier": "all parameters", "why_tests_cant": "all sizes", "anchors": ["spafe/fbanks/linear_fbanks.py:linear_filter_banks"]}
{"id": "C31", "title": "Inverse mel bank mirrors the mel bank", "statement": "inverse_mel_filter_banks with explicit high_freq returns the mel bank with each row reversed and ascending/descending scale swapped.", "quantifier": "all parameters", "why_tests_cant": "all sizes", "anchors": ["spafe/fbanks/mel_fbanks.py:inverse_mel_filter_banks"]}
{"id": "C32", "title": "Inverse mel bank defaults and centres", "statement": "inverse_mel_filter_banks (and imfcc) accept their documented default high_freq=None, and the returned centres are the mirrored filters' centres. (Both violated: None raises TypeError, and the centres are off by low_freq.)", "quantifier": "all parameters with the default high_freq", "why_tests_cant": "the default call is never tested", "anchors": ["spafe/fbanks/mel_fbanks.py:inverse_mel_filter_banks", "spafe/features/mfcc.py:imfcc"]}
{"id": "C33", "title": "Bark filter shape", "statement": "The Bark filter curve is in [0,1], equals 1 on the plateau |fb-fc| < 0.5, is 0 outside [-1.3, 2.5], rises then falls; hence Bark bank entries are in [0,1].", "quantifier": "all frequencies and centres", "why_tests_cant": "continuum", "anchors": ["spafe/fbanks/bark_fbanks.py:Fm", "spafe/fbanks/bark_fbanks.py:bark_filter_banks"]}
{"id": "C34", "title": "Bark filter bank never crashes on valid parameters", "statement": "For 0 <= low <= high <= fs/2 and a documented approach bark_filter_banks returns a bank. (True for Wang, Tjomov, Schroeder; violated for Terhardt (IndexError) and Zwicker with the default low_freq=0 (ValueError).)", "quantifier": "all valid parameters, all approaches", "why_tests_cant": "index arithmetic over all nfft, fs", "anchors": ["spafe/fbanks/bark_fbanks.py:bark_filter_banks"]}
{"id": "C35", "title": "Gammatone filters are finite with peak 1", "statement": "For 0 <= low < high <= fs/2 and nfft >= 3 all gammatone entries are finite and non-negative and, with constant scale, each row's maximum is exactly 1.", "quantifier": "all parameters", "why_tests_cant": "division by gains/maxima that must never vanish", "anchors": ["spafe/fbanks/gammatone_fbanks.py:gammatone_filter_banks", "spafe/fbanks/gammatone_fbanks.py:compute_gain"]}
{"id": "C36", "title": "Gammatone centre frequencies", "statement": "Centre frequencies start exactly at low_freq, increase strictly, stay below high_freq, and are returned in ERB units.", "quantifier": "all parameters", "why_tests_cant": "all sizes", "anchors": ["spafe/fbanks/gammatone_fbanks.py:generate_center_frequencies", "spafe/fbanks/gammatone_fbanks.py:gammatone_filter_banks"]}
{"id": "C37", "title": "More cepstra than filters is rejected first", "statement": "mfcc, imfcc, bfcc, lfcc, gfcc, ngcc, msrcc, psrcc, pncc, plp and rplp raise ParameterError(nfilts) iff nfilts < num_ceps, before looking at anything else.", "quantifier": "all arguments", "why_tests_cant": "all arguments", "anchors": ["spafe/features/mfcc.py", "spafe/features/lfcc.py", "spafe/features/bfcc.py", "spafe/features/gfcc.py", "spafe/features/ngcc.py", "spafe/features/msrcc.py", "spafe/features/psrcc.py", "spafe/features/pncc.py", "spafe/features/rplp.py"]}
{"id": "C38", "title": "Feature shape", "statement": "A successful cepstral call returns one row per frame and min(num_ceps, number of filters) columns.", "quantifier": "all signals and parameters", "why_tests_cant": "all sizes", "anchors": ["spafe/features/*"]}
{"id": "C39", "title": "Precomputed filter banks give the same features", "statement": "Calling a feature with fbanks set to the matrix that the corresponding filter-bank function returns for the same parameters gives the same result as fbanks=None.", "quantifier": "all signals and parameters", "why_tests_cant": "equality of two code paths for all inputs", "anchors": ["spafe/features/mfcc.py", "spafe/features/lfcc.py", "spafe/features/bfcc.py", "spafe/features/gfcc.py", "spafe/features/ngcc.py", "spafe/features/pncc.py", "spafe/features/psrcc.py"]}
{"id": "C40", "title": "Spectrograms are non-negative", "statement": "mel/linear/bark/erb spectrogram values are >= 0 whenever the bank is non-negative.", "quantifier": "all signals", "why_tests_cant": "all signals", "anchors": ["spafe/features/mfcc.py:mel_spectrogram", "spafe/features/lfcc.py:linear_spectrogram", "spafe/features/bfcc.py:bark_spectrogram", "spafe/features/gfcc.py:erb_spectrogram"]}
{"id": "C41", "title": "Log-based features are finite for every signal", "statement": "mfcc, imfcc, lfcc, ngcc and bfcc (without normalisation) contain only finite numbers for every finite signal including silence; gfcc too.", "quantifier": "all signals", "why_tests_cant": "silence and exact zeros are measure-zero inputs", "anchors": ["spafe/features/mfcc.py", "spafe/features/lfcc.py", "spafe/features/ngcc.py", "spafe/features/bfcc.py", "spafe/features/gfcc.py", "spafe/utils/preprocessing.py:zero_handling"]}
{"id": "C42", "title": "Root/phase features are finite for every signal", "statement": "msrcc, psrcc and pncc contain only finite numbers for every finite signal. (Violated on silence: 0**negative, max() of an array containing inf, 0/0.)", "quantifier": "all signals", "why_tests_cant": "corner inputs", "anchors": ["spafe/features/msrcc.py", "spafe/features/psrcc.py", "spafe/features/pncc.py"]}
{"id": "C43", "title": "Gain law of log features", "statement": "Multiplying the signal by c != 0 adds sqrt(nfilts)*2*ln|c| to the first mfcc/lfcc/ngcc/imfcc coefficient of each frame and leaves all others unchanged, when no filter output is zero.", "quantifier": "all signals and gains", "why_tests_cant": "all signals and gains", "anchors": ["spafe/features/mfcc.py", "spafe/features/lfcc.py", "spafe/features/ngcc.py"]}
{"id": "C44", "title": "Gain law of root features", "statement": "Multiplying the signal by c != 0 multiplies gfcc by |c|**(2/3) and msrcc by |c|**(2*gamma).", "quantifier": "all signals and gains", "why_tests_cant": "all signals and gains", "anchors": ["spafe/features/gfcc.py", "spafe/features/msrcc.py"]}
{"id": "C45", "title": "psrcc ignores gain", "statement": "psrcc of c*sig equals psrcc of sig for every c > 0 (without use_energy).", "quantifier": "all signals and gains", "why_tests_cant": "all signals and gains", "anchors": ["spafe/features/psrcc.py"]}
{"id": "C46", "title": "Appending audio does not change earlier frames", "statement": "mfcc (likewise lfcc, bfcc, gfcc, ngcc, msrcc; without normalisation) of a signal is a prefix of the features of any extension of it.", "quantifier": "all signals and extensions", "why_tests_cant": "all pairs", "anchors": ["spafe/features/mfcc.py", "spafe/features/lfcc.py", "spafe/features/bfcc.py", "spafe/features/gfcc.py", "spafe/features/ngcc.py", "spafe/features/msrcc.py"]}
{"id": "C47", "title": "pre_emph_coeff is honoured", "statement": "Changing pre_emph_coeff changes the features as the pre-emphasis formula says. (Violated by lfcc, bfcc, gfcc, lpc, lpcc: the argument is ignored and 0.97 used.)", "quantifier": "all coefficients, all signals with at least one sample", "why_tests_cant": "needs equality for all coefficients", "anchors": ["spafe/features/lfcc.py:linear_spectrogram", "spafe/features/bfcc.py:bark_spectrogram", "spafe/features/gfcc.py:erb_spectrogram", "spafe/features/lpc.py:lpc"]}
{"id": "C48", "title": "FFT size versus frame length", "statement": "Samples of a frame beyond nfft never influence a spectrogram-based feature (the frame is silently cropped); when frame_length <= nfft no sample is dropped.", "quantifier": "all frames and FFT sizes", "why_tests_cant": "all sizes", "anchors": ["spafe/features/mfcc.py:mel_spectrogram"]}
{"id": "C49", "title": "use_energy", "statement": "With use_energy = True (no liftering or normalisation) the first entry of row i of mfcc, imfcc, lfcc, bfcc, gfcc, ngcc, msrcc and psrcc is the natural log of the power of frame i in the bins 0..nfft/2 - the samples under window i, pre-emphasised (with the given coefficient, or 0.97 in lfcc, bfcc and gfcc), windowed and Fourier transformed - or of machine epsilon when that power is 0. For an even nfft at least as long as the frame this power is half the frame's own energy plus half the power of the bins 0 and nfft/2. The other entries of the row are the ones without use_energy: coefficients 1, 2, ... of the DCT of the compressed band energies.", "quantifier": "all frames with length <= nfft", "why_tests_cant": "all frames", "anchors": ["spafe/features/mfcc.py:mfcc"]}
{"id": "C50", "title": "The DCT loses nothing", "statement": "The type-2 orthonormal DCT used for cepstra is an isometry: sum of squares of all coefficients equals the sum of squares of the log energies, so num_ceps = nfilts is reversible.", "quantifier": "all rows", "why_tests_cant": "all sizes", "anchors": ["spafe/features/mfcc.py:mfcc"]}
{"id": "C51", "title": "num_ceps only truncates", "statement": "Raising num_ceps only appends columns to mfcc output (no normalisation).", "quantifier": "all signals and pairs num_ceps <= num_ceps' <= nfilts", "why_tests_cant": "all pairs", "anchors": ["spafe/features/mfcc.py:mfcc"]}
{"id": "C52", "title": "imfcc is mfcc on the inverse bank", "statement": "imfcc(...) equals mfcc(..., fbanks=inverse_mel_filter_banks(...)[0]) for every input for which the bank exists.", "quantifier": "all inputs", "why_tests_cant": "equality of code paths", "anchors": ["spafe/features/mfcc.py:imfcc"]}
{"id": "C53", "title": "Medium-time power", "statement": "medium_time_power_calculation is the centred (2M+1)-frame sum divided by 2M+1 (missing frames counted as zero), non-negative for non-negative input and never above the channel's maximum.", "quantifier": "all matrices and M", "why_tests_cant": "all sizes", "anchors": ["spafe/features/pncc.py:medium_time_power_calculation"]}
{"id": "C54", "title": "Asymmetric low-pass filter", "statement": "asymmetric_lowpass_filtering follows the documented recursion for m >= 1, is non-negative for non-negative input and never exceeds the running maximum of the input; the first output is 0.9 times the first input. (The last clause is violated for two frames or more.)", "quantifier": "all matrices", "why_tests_cant": "all histories", "anchors": ["spafe/features/pncc.py:asymmetric_lowpass_filtering"]}
{"id": "C55", "title": "Temporal masking", "statement": "The online peak power in temporal_masking is max over k<=m of lam^(m-k)*Q[k]; the output is between 0 and the peak.", "quantifier": "all matrices and times", "why_tests_cant": "induction over time", "anchors": ["spafe/features/pncc.py:temporal_masking"]}
{"id": "C56", "title": "Weight smoothing is a local average", "statement": "weight_smoothing returns the average of the ratios R/Q over channels max(l-N,..)..min(l+N,..). (Violated: constant ratio c gives c*n/(n+1), and channel 0 is never used.)", "quantifier": "all matrices", "why_tests_cant": "all sizes", "anchors": ["spafe/features/pncc.py:weight_smoothing"]}
{"id": "C57", "title": "Mean power normalisation never divides by zero", "statement": "For non-negative input the running mean power is strictly positive at every frame, so the normalised power is finite and non-negative.", "quantifier": "all matrices with >= nfilts columns", "why_tests_cant": "induction over time", "anchors": ["spafe/features/pncc.py:mean_power_normalization"]}
{"id": "C58", "title": "Noise suppression: non-negative output and its meaning", "statement": "asymmetric_noise_suppression_with_temporal_masking maps non-negative power to non-negative power of the same shape; entry (i,n) is the value that the following recursions (noise floor, half-wave rectification, floor of the excess, decaying peak, excitation switch without the documented maximum, see C157) give for channel n at frame i.", "quantifier": "all matrices", "why_tests_cant": "all histories", "anchors": ["spafe/features/pncc.py:asymmetric_noise_suppression_with_temporal_masking"]}
{"id": "C59", "title": "LPC coefficients solve the normal equations", "statement": "For every frame and order, lpc coefficients start with 1 and satisfy sum_k a_k r(|i-k|) = -r(i) for i=1..p.", "quantifier": "all non-zero frames and orders", "why_tests_cant": "all frames", "anchors": ["spafe/features/lpc.py:__lpc_helper"]}
{"id": "C60", "title": "LPC minimises the prediction error", "statement": "No other coefficient vector gives a smaller total squared prediction error over the (zero-extended) frame.", "quantifier": "all non-zero frames, all competing vectors", "why_tests_cant": "all competitors", "anchors": ["spafe/features/lpc.py:__lpc_helper"]}
{"id": "C61", "title": "LPC is defined for every non-silent frame", "statement": "The Toeplitz system is non-singular for every non-zero frame and any order; for an all-zero frame lpc raises LinAlgError.", "quantifier": "all frames and orders", "why_tests_cant": "invertibility for all frames", "anchors": ["spafe/features/lpc.py:__lpc_helper"]}
{"id": "C62", "title": "LPC ignores gain", "statement": "lpc coefficients of c*frame equal those of frame for c != 0.", "quantifier": "all frames and gains", "why_tests_cant": "all frames", "anchors": ["spafe/features/lpc.py"]}
{"id": "C63", "title": "LPC error term is the prediction error", "statement": "The second value returned by lpc is the (square root of the squared) minimal prediction error r(0)+sum a_k r(k). (Violated: lags -(N-1).. are used.)", "quantifier": "all frames", "why_tests_cant": "all frames", "anchors": ["spafe/features/lpc.py:__lpc_helper"]}
{"id": "C64", "title": "lpc applies the window", "statement": "lpc/lpcc results depend on the chosen window type. (Violated: the unwindowed frames are analysed.)", "quantifier": "all window types", "why_tests_cant": "all signals", "anchors": ["spafe/features/lpc.py:lpc", "spafe/features/lpc.py:lpcc"]}
{"id": "C65", "title": "lpc2lpcc computes the LP cepstrum", "statement": "lpc2lpcc satisfies the LP cepstral recursion c_m = -a_m - sum (k/m) c_k a_{m-k} up to sign convention, for every m. (Violated: c_m on the right-hand side is the constant 1.)", "quantifier": "all coefficient vectors", "why_tests_cant": "all orders", "anchors": ["spafe/features/lpc.py:lpc2lpcc"]}
{"id": "C66", "title": "PLP shape and validation", "statement": "plp and rplp return one row of `order` coefficients per frame when they succeed.", "quantifier": "all signals", "why_tests_cant": "all sizes", "anchors": ["spafe/features/rplp.py"]}
{"id": "C67", "title": "Constant-Q frequency selection", "statement": "The analysed frequencies are exactly those f0*2^(k/B), in increasing order, with low <= f <= high whose window length ceil(Q fs/f) is at most nfft, each paired with its own window length.", "quantifier": "all parameters with at least one such frequency", "why_tests_cant": "filtering by a mask vs a negative slice must agree for all sizes", "anchors": ["spafe/utils/spectral.py:compute_constant_qtransform"]}
{"id": "C68", "title": "Constant-Q kernel stays in bounds; output shape", "statement": "Each kernel window lies inside [0, nfft), and the transform has one row per frequency and one column per frame.", "quantifier": "all parameters", "why_tests_cant": "index arithmetic for all sizes", "anchors": ["spafe/utils/spectral.py:compute_constant_qtransform"]}
{"id": "C69", "title": "Constant-Q with no admissible window", "statement": "When no frequency has a window of at most nfft samples the transform is empty. (Violated: a -0 slice keeps all frequencies and indexing raises IndexError.)", "quantifier": "all such parameters", "why_tests_cant": "corner region", "anchors": ["spafe/utils/spectral.py:compute_constant_qtransform"]}
{"id": "C70", "title": "Constant-Q is linear", "statement": "The transform of a linear combination of frames is the linear combination of transforms.", "quantifier": "all frames", "why_tests_cant": "all frames", "anchors": ["spafe/utils/spectral.py:compute_constant_qtransform"]}
{"id": "C71", "title": "cqcc rows and validation", "statement": "cqcc rejects high_freq > fs/2 and returns int(frames*resampling_ratio) rows and min(num_ceps, number of frequencies) columns.", "quantifier": "all signals", "why_tests_cant": "all sizes", "anchors": ["spafe/features/cqcc.py:cqcc", "spafe/features/cqcc.py:cqt_spectrogram"]}
{"id": "C72", "title": "Spectral centroid", "statement": "spectral_centroid of a non-zero spectrum is in [0, fs/2] and is unchanged when the spectrum is multiplied by a non-zero number.", "quantifier": "all spectra", "why_tests_cant": "all spectra", "anchors": ["spafe/features/spfeats.py:spectral_centroid"]}
{"id": "C73", "title": "Spectral flatness", "statement": "spectral_flatness of a non-zero spectrum is in [0,1], is 1 iff all magnitudes agree, and ignores gain.", "quantifier": "all spectra", "why_tests_cant": "AM-GM for all lengths", "anchors": ["spafe/features/spfeats.py:spectral_flatness"]}
{"id": "C74", "title": "Spectral flux", "statement": "spectral_flux is non-negative, 0 for constant-magnitude spectra and scales with |c|.", "quantifier": "all spectra", "why_tests_cant": "all spectra", "anchors": ["spafe/features/spfeats.py:spectral_flux"]}
{"id": "C75", "title": "Spectral entropy range", "statement": "spectral_entropy is between 0 and 1. (Violated: magnitudes are not normalised; a zero bin gives NaN.)", "quantifier": "all spectra", "why_tests_cant": "all spectra", "anchors": ["spafe/features/spfeats.py:spectral_entropy"]}
{"id": "C76", "title": "Spectral spread and roll-off are single numbers with their documented meaning", "statement": "spectral_spread and the spectral_rolloff entry of extract_feats are scalars. (Violated: both are arrays; extract_feats swaps the arguments.)", "quantifier": "all signals", "why_tests_cant": "all signals", "anchors": ["spafe/features/spfeats.py:spectral_spread", "spafe/features/spfeats.py:extract_feats"]}
{"id": "C77", "title": "YIN difference function", "statement": "compute_difference(x, t)[tau] = sum_j (x[j]-x[j+tau])^2 over the frame, so it is >= 0 and 0 at tau=0; it has min(tau_max, len) entries.", "quantifier": "all frames and lags", "why_tests_cant": "all frames", "anchors": ["spafe/frequencies/fundamental_frequencies.py:compute_difference"]}
{"id": "C78", "title": "YIN normalised difference", "statement": "compute_cmnd starts with 1, is >= 0 where finite, tau*d(tau) over the cumulative sum, and is unchanged when the frame is multiplied by a non-zero constant.", "quantifier": "all frames and gains", "why_tests_cant": "all frames", "anchors": ["spafe/frequencies/fundamental_frequencies.py:compute_cmnd"]}
{"id": "C79", "title": "Pitch search", "statement": "get_pitch returns 0 iff no lag in [tau_min,tau_max) is below the threshold; otherwise a lag in that range, below the threshold, reached by descending from the first such lag, where the function does not decrease further.", "quantifier": "all functions, ranges and thresholds", "why_tests_cant": "loop over all lengths", "anchors": ["spafe/frequencies/fundamental_frequencies.py:get_pitch"]}
{"id": "C80", "title": "YIN output shape", "statement": "compute_yin returns four sequences of the same length, one entry per window start 0, step, 2*step, ... strictly below len-window.", "quantifier": "all signals", "why_tests_cant": "all sizes", "anchors": ["spafe/frequencies/fundamental_frequencies.py:compute_yin"]}
{"id": "C81", "title": "YIN pitch range", "statement": "Every reported pitch is 0 or lies between low_freq and high_freq. (Lower bound holds; the upper bound is violated by rounding of fs/high_freq: only fs/floor(fs/high_freq) is guaranteed.)", "quantifier": "all signals and parameters", "why_tests_cant": "all parameters", "anchors": ["spafe/frequencies/fundamental_frequencies.py:compute_yin"]}
{"id": "C82", "title": "YIN ignores gain and offset", "statement": "compute_yin of c*sig + b equals compute_yin of sig for c != 0 and every constant b.", "quantifier": "all signals and gains", "why_tests_cant": "all signals", "anchors": ["spafe/frequencies/fundamental_frequencies.py:compute_yin"]}
{"id": "C83", "title": "YIN on silence", "statement": "A constant signal (silence in particular) is reported as unvoiced in every window (pitch 0), with harmonic rate 1 and argmin 0, without error.", "quantifier": "all frame sizes", "why_tests_cant": "NaN comparison semantics", "anchors": ["spafe/frequencies/fundamental_frequencies.py:compute_yin"]}
{"id": "C84", "title": "YIN finds exact periods", "statement": "If a window is not constant and repeats after P samples, tau_min <= P < tau_max, then a pitch of at least fs/P is reported for it with harmonic rate below the threshold, and exactly fs/P when no shorter lag is below the threshold.", "quantifier": "all periodic frames", "why_tests_cant": "all frames", "anchors": ["spafe/frequencies/fundamental_frequencies.py:get_pitch", "spafe/frequencies/fundamental_frequencies.py:compute_yin"]}
{"id": "C85", "title": "Dominant frequencies range and count", "statement": "get_dominant_frequencies returns at most one value per frame (exactly one with only_positive=False), every value is at most fs/2, and with only_positive every value is in [0, fs/2], for integer fs >= 1.", "quantifier": "all signals", "why_tests_cant": "all signals", "anchors": ["spafe/frequencies/dominant_frequencies.py:get_dominant_frequencies"]}
{"id": "C86", "title": "Dominant frequency is the frequency of the strongest bin", "statement": "The value reported for a frame is the frequency k*fs/nfft of its strongest FFT bin k. (Violated: k*fs/(nfft//2+1), or dropped when k is in the upper half.)", "quantifier": "all frames", "why_tests_cant": "all frames", "anchors": ["spafe/frequencies/dominant_frequencies.py:get_dominant_frequencies"]}
{"id": "C87", "title": "Spectrogram dB range", "statement": "The dB image computed by show_spectrogram has the shape of the spectrogram, maximum exactly 0 and no value below -dbf (dbf >= 0); each value is the level relative to the peak, floored at 1e-10; the image is unchanged by a gain above that floor.", "quantifier": "all spectrograms", "why_tests_cant": "all matrices", "anchors": ["spafe/utils/vis.py:show_spectrogram"]}
{"id": "C88", "title": "Axis tick conversion", "statement": "tick_function uses the mel, bark or erb conversion for the names 'mel', 'bark' and 'gamma' and leaves ticks unconverted for every other name (including 'erb').", "quantifier": "all names and ticks", "why_tests_cant": "all strings", "anchors": ["spafe/utils/vis.py:tick_function"]}
{"id": "C89", "title": "rplp ignores gain", "statement": "rplp(k*sig) = rplp(sig) for every k != 0 when every filter output is positive, with every liftering, normalisation and order option.", "quantifier": "all signals, gains and options", "why_tests_cant": "all signals and gains", "anchors": ["spafe/features/rplp.py:rplp", "spafe/utils/filters.py:rasta_filter"]}
{"id": "C90", "title": "rplp rows are local to their frame", "statement": "Each rplp row is a function of that frame's filter outputs only (the RASTA filter runs across channels, not along time); with at most four filters it is the same for all frames of all signals.", "quantifier": "all pairs of signals (or frames of one signal) whose filter outputs are positive, no liftering or normalisation (C111 covers liftering)", "why_tests_cant": "all signals", "anchors": ["spafe/features/rplp.py:rplp", "spafe/utils/filters.py:rasta_filter"]}
{"id": "C91", "title": "Meaning of the constant-Q transform", "statement": "The entry for frequency f (window length N) and frame x is (1/N) sum_m x[(nfft-N)/2+m] w[m] exp(-2 pi i f m/fs) up to spectral_threshold times sum|x|, and exactly this for a negative threshold.", "quantifier": "all frames, frequencies, windows and thresholds", "why_tests_cant": "an error bound for all signals", "anchors": ["spafe/utils/spectral.py:compute_constant_qtransform"]}
{"id": "C92", "title": "cqcc under gain; resampling with ratio 1", "statement": "Multiplying the signal by c multiplies the constant-Q spectrogram by c and adds sqrt(n)*2 ln|c| to the first cqcc coefficient only, for every resampling ratio; with resampling_ratio 1 each row is the DCT of the log powers of its own frame.", "quantifier": "all signals, gains other than 0 and ratios; for cqcc DCT type 2 without liftering or normalisation and no constant-Q coefficient equal to 0", "why_tests_cant": "all signals and gains", "anchors": ["spafe/features/cqcc.py:cqcc", "spafe/features/cqcc.py:cqt_spectrogram"]}
{"id": "C93", "title": "cqcc is defined and finite", "statement": "For valid arguments with at least one admissible frequency cqcc succeeds and is finite on every signal with at least one frame, including all-zero ones.", "quantifier": "all signals", "why_tests_cant": "all signals", "anchors": ["spafe/features/cqcc.py:cqcc"]}
{"id": "C94", "title": "Centroid of extract_feats is the frequency of the tone", "statement": "If the one-sided spectrum of the signal is non-zero at one bin k only, the spectral_centroid entry of extract_feats is k*fs/nfft. (Violated for every nfft >= 3 and every k >= 1: the frequencies are those of a two-sided FFT of length nfft/2+1.)", "quantifier": "all signals, nfft and bins", "why_tests_cant": "all signals, sizes and bins", "anchors": ["spafe/features/spfeats.py:extract_feats", "spafe/features/spfeats.py:spectral_centroid"]}
{"id": "C95", "title": "Spectral skewness and kurtosis", "statement": "If some bin other than 0 is non-zero they are the central moments of order 3 and 4 over mu2^3 and mu2^4, the kurtosis is non-negative and both ignore gain; if only bin 0 can be non-zero both are NaN.", "quantifier": "all spectra, rates and gains", "why_tests_cant": "all spectra and gains", "anchors": ["spafe/features/spfeats.py:spectral_skewness", "spafe/features/spfeats.py:spectral_kurtosis"]}
{"id": "C96", "title": "Mean, RMS, standard deviation and variance entries", "statement": "The variance entry is mean|X|^2 - |mean|^2 >= 0, 0 iff all bins agree, and the square of the std entry; the RMS entry is sqrt(mean |X|^2). (RMS violated: the complex bins are squared.)", "quantifier": "all signals", "why_tests_cant": "all signals", "anchors": ["spafe/features/spfeats.py:extract_feats"]}
{"id": "C97", "title": "When compute_yin succeeds", "statement": "compute_yin succeeds on every signal if a window holds tau_max = int(fs/low_freq) samples; shorter windows (3 samples or more) raise ValueError as soon as there is one window; zero frequencies raise ZeroDivisionError and a hop below one sample ValueError.", "quantifier": "all signals and arguments", "why_tests_cant": "all sizes", "anchors": ["spafe/frequencies/fundamental_frequencies.py:compute_yin", "spafe/frequencies/fundamental_frequencies.py:compute_cmnd"]}
{"id": "C98", "title": "YIN entries are local", "statement": "Entry i of pitches, harmonic_rates and argmins depends on the samples of window i only.", "quantifier": "all pairs of signals", "why_tests_cant": "all pairs of signals", "anchors": ["spafe/frequencies/fundamental_frequencies.py:compute_yin"]}
{"id": "C99", "title": "Dominant frequencies do not depend on level", "statement": "get_dominant_frequencies(c*sig) = get_dominant_frequencies(sig) for every c != 0, with or without the Butterworth filter and whatever its cut-offs (including which exception is raised), and silence is reported as 0 Hz in every frame.", "quantifier": "all signals, gains and parameters", "why_tests_cant": "all signals", "anchors": ["spafe/frequencies/dominant_frequencies.py:get_dominant_frequencies"]}
{"id": "C100", "title": "Dominant frequencies are defined", "statement": "For every signal of at least one frame, a known window and a hop of at least one sample not longer than the window, a result exists if nfft >= 1; nfft = 0 is a ValueError and a hop longer than the window a ParameterError.", "quantifier": "all signals and parameters", "why_tests_cant": "all signals", "anchors": ["spafe/frequencies/dominant_frequencies.py:get_dominant_frequencies"]}
{"id": "C101", "title": "End-to-end meaning of the cepstral features", "statement": "For a given real non-negative bank and a signal of at least one frame, entry (i,k) of mfcc, imfcc, ngcc, lfcc, bfcc, gfcc, msrcc (psrcc) is coefficient k of the orthonormal DCT-II of the compressed band energies (phase sums) of frame i: samples i*step..i*step+l-1 of the pre-emphasised signal times the named textbook window, cropped or zero-padded to nfft, DFT, |X|^2/nfft, weighted by the bank; compression ln (floored at eps for 0), ln of the intensity law, cube root, power gamma.", "quantifier": "every signal, bank, window name, frame length and hop, nfft >= 1, coefficient", "why_tests_cant": "A closed formula for all inputs; a test compares a few signals with stored numbers.", "anchors": ["spafe/features/mfcc.py:mfcc", "spafe/features/lfcc.py:lfcc", "spafe/features/bfcc.py:bfcc", "spafe/features/gfcc.py:gfcc", "spafe/features/ngcc.py:ngcc", "spafe/features/msrcc.py:msrcc", "spafe/features/psrcc.py:psrcc"]}
{"id": "C102", "title": "Liftering and normalisation are separate last steps", "statement": "Every cepstral feature called with lifter and normalize equals lifter_ceps and then normalize_ceps applied to the result of the same call without them, including which exception is raised (mfcc, imfcc, lfcc, bfcc, gfcc, ngcc, msrcc, psrcc, pncc, plp, rplp, cqcc, lpcc).", "quantifier": "every argument combination and signal", "why_tests_cant": "Equality over all arguments and all error paths of thirteen functions.", "anchors": ["spafe/utils/cepstral.py:lifter_ceps", "spafe/utils/cepstral.py:normalize_ceps", "spafe/features/mfcc.py:mfcc", "spafe/features/rplp.py:__rastaplp", "spafe/features/lpc.py:lpcc", "spafe/features/cqcc.py:cqcc"]}
{"id": "C103", "title": "use_energy touches the first column only", "statement": "If a cepstral feature with use_energy=True succeeds, so does the call with use_energy=False, and the results have the same shape and agree in every column except the first.", "quantifier": "every argument combination without lifter and normalize, every signal", "why_tests_cant": "Universally quantified over signals and arguments.", "anchors": ["spafe/features/mfcc.py:mfcc", "spafe/features/lfcc.py:lfcc", "spafe/features/bfcc.py:bfcc", "spafe/features/gfcc.py:gfcc", "spafe/features/ngcc.py:ngcc", "spafe/features/msrcc.py:msrcc", "spafe/features/psrcc.py:psrcc"]}
{"id": "C104", "title": "Gammatone bank is Slaney's filter, peak-normalised", "statement": "For valid arguments entry (j,k) of the gammatone filter bank is the constant scale factor times |Slaney's fourth-order gammatone response of channel j at DFT bin k| divided by its maximum over the bins; the gain the code computes cancels.", "quantifier": "every number of filters, nfft, sampling rate, band limits, order parameters for which the call succeeds", "why_tests_cant": "Closed formula for all bins and channels; numeric tests only check shape or a few values.", "anchors": ["spafe/fbanks/gammatone_fbanks.py:gammatone_filter_banks", "spafe/fbanks/gammatone_fbanks.py:compute_gain"]}
{"id": "C105", "title": "dct_type selects an orthonormal invertible transform", "statement": "dct_type 1 and 4 are their own inverse, 2 and 3 invert each other, all preserve the sum of squares; a cepstral feature with num_ceps = number of filters can be turned back into the compressed band energies by the inverse type; any other dct_type is a ValueError for a call that succeeds with type 2.", "quantifier": "every row length (>= 2 for type 1), every signal, bank, argument combination", "why_tests_cant": "Orthonormality holds for every length and every real input, tests use one length.", "anchors": ["spafe/features/mfcc.py:mfcc", "spafe/features/lfcc.py:lfcc", "spafe/features/bfcc.py:bfcc", "spafe/features/gfcc.py:gfcc", "spafe/features/ngcc.py:ngcc", "spafe/features/psrcc.py:psrcc"]}
{"id": "C106", "title": "End-to-end meaning of pncc", "statement": "For a given real non-negative bank (nfilts filters), a signal of at least one frame and positive medium-time power in the channels >= 1, entry (i,k) of pncc is coefficient k of the orthonormal DCT-II of the 1/15-powers of the band values defined by the published pipeline with the deviations recorded in C54, C56 and C157: medium-time average over 5 frames, noise floor and floor of the excess by asymmetric lowpass recursions, temporal masking with decaying peak, excitation switching, weights averaged over neighbouring channels, running mean normalisation.", "quantifier": "every signal, bank, window, frame length and hop, nfft, power exponent, coefficient", "why_tests_cant": "A closed description of recursions over all frames and channels; a test compares a few signals with stored numbers.", "anchors": ["spafe/features/pncc.py:pncc", "spafe/features/pncc.py:medium_time_power_calculation", "spafe/features/pncc.py:weight_smoothing", "spafe/features/pncc.py:mean_power_normalization"]}
{"id": "C107", "title": "End-to-end meaning of lpc, lpcc, plp and rplp", "statement": "Row i of lpc is the unique predictor (normal equations of the autocorrelation) of samples i*step..i*step+l-1 of the pre-emphasised signal, without window; lpcc derives its row from this predictor and the residual by ln (floored) and a_m + sum k/m a_(m-k). plp and rplp do the same with the magnitude of the inverse DFT of the loudness-compressed band energies of the windowed frame (for rplp RASTA-filtered in the log domain along the bands).", "quantifier": "every signal, frame length and hop, order (>= 2 for plp and rplp), bank, window, nfft", "why_tests_cant": "A closed formula for all inputs; a test compares a few signals with stored numbers.", "anchors": ["spafe/features/lpc.py:lpc", "spafe/features/lpc.py:lpcc", "spafe/features/rplp.py:plp", "spafe/features/rplp.py:rplp"]}
{"id": "C108", "title": "Features with their own filter bank, end to end", "statement": "When no bank is passed, mfcc, lfcc, imfcc, bfcc, msrcc, gfcc, ngcc, plp, rplp and pncc succeed for every valid frequency band and scale, and every entry is the closed formula of the signal alone: DFT power of the windowed, emphasised frame weighted by the explicit band weights (mel or linear triangles, mirrored mel triangles, Bark trapezoids, peak-normalised gammatone responses), compression, orthonormal DCT-II (or linear prediction for plp and rplp).", "quantifier": "every signal of at least one frame, sampling rate, band, scale, approach (for Bark the formulas with a total inverse), number of filters, nfft, window, hop", "why_tests_cant": "A closed formula for all inputs and options; tests compare a handful of recordings with stored numbers or only check shapes.", "anchors": ["spafe/features/mfcc.py:mfcc", "spafe/features/mfcc.py:imfcc", "spafe/features/lfcc.py:lfcc", "spafe/features/bfcc.py:bfcc", "spafe/features/gfcc.py:gfcc", "spafe/features/ngcc.py:ngcc", "spafe/features/msrcc.py:msrcc", "spafe/features/rplp.py:plp", "spafe/features/pncc.py:pncc"]}
{"id": "C109", "title": "Framing stays inside the array for any number of channels", "statement": "framing never reads outside the buffer of the array it is given, also when the array has two axes (samples x channels, as scipy.io.wavfile.read returns a stereo file).", "quantifier": "every array shape and memory order, signal, window length and hop, rounding", "why_tests_cant": "The out-of-bounds reads of as_strided return whatever lies behind the array; a test sees plausible numbers and no exception.", "anchors": ["spafe/utils/preprocessing.py:stride_trick", "spafe/utils/preprocessing.py:framing", "spafe/utils/preprocessing.py:pre_emphasis"]}
{"id": "C110", "title": "Polarity does not matter", "statement": "Changing the sign of the whole signal (swapped microphone wires) changes no output of mfcc, imfcc, lfcc, bfcc, gfcc, ngcc, msrcc, plp, rplp, pncc, lpc, lpcc, cqcc, the four spectrograms, compute_yin and get_dominant_frequencies, whatever the options, including which exception is raised.", "quantifier": "every signal and every argument, all options", "why_tests_cant": "An equality of two runs for all signals and all option combinations.", "anchors": ["spafe/features/mfcc.py:mfcc", "spafe/features/pncc.py:pncc", "spafe/features/lpc.py:lpc", "spafe/features/cqcc.py:cqcc", "spafe/frequencies/fundamental_frequencies.py:compute_yin"]}
{"id": "C111", "title": "A row depends only on the samples under its window", "statement": "Without normalisation, row i of mfcc, imfcc, lfcc, bfcc, gfcc, ngcc, msrcc, plp, rplp (positive band energies), lpc and lpcc, and column i of the constant-Q spectrogram, are functions of samples i*step .. i*step+l-1 (plus one sample before them with pre-emphasis) alone: two signals, or two places in a signal, with the same samples there get the same row. Cutting k hops from the front removes k rows and changes no other row (except the new first one with pre-emphasis).", "quantifier": "every pair of signals and frames, all options except normalisation", "why_tests_cant": "A relation between two runs on arbitrary signals; state leaking between frames shows only for particular inputs.", "anchors": ["spafe/features/mfcc.py:mfcc", "spafe/features/rplp.py:plp", "spafe/features/lpc.py:lpc", "spafe/utils/preprocessing.py:framing"]}
{"id": "C112", "title": "Playing a signal backwards reverses the rows", "statement": "Without pre-emphasis and normalisation, if frames fit into nfft and the last frame ends with the signal, the feature rows of the reversed signal are the rows of the signal in reverse order (mfcc, imfcc, lfcc, bfcc, gfcc, ngcc, msrcc, lpc).", "quantifier": "every signal, window, bank, option", "why_tests_cant": "A symmetry of the whole pipeline (framing, symmetric windows, DFT magnitude) for all inputs.", "anchors": ["spafe/features/mfcc.py:mfcc", "spafe/features/lpc.py:lpc", "spafe/utils/preprocessing.py:windowing"]}
{"id": "C113", "title": "Meaning of the spectrogram functions", "statement": "mel_spectrogram, linear_spectrogram, bark_spectrogram and erb_spectrogram return (features, fourrier_transform) where features[i,j] is the power |X|^2/nfft of frame i weighted by filter j of the documented bank (closed formula), and fourrier_transform[i,k] is the magnitude of DFT bin k of the windowed frame i.", "quantifier": "every signal of at least one frame, every valid band, window, scale, approach (for Bark the formulas with a total inverse) and FFT size", "why_tests_cant": "A closed formula for all inputs; tests compare shapes only.", "anchors": ["spafe/features/mfcc.py:mel_spectrogram", "spafe/features/lfcc.py:linear_spectrogram", "spafe/features/bfcc.py:bark_spectrogram", "spafe/features/gfcc.py:erb_spectrogram"]}
{"id": "C114", "title": "Features of a silent frame", "statement": "If the samples under the window of frame i (and the one before with pre-emphasis) are zero, row i of mfcc, imfcc, ngcc, lfcc and bfcc is [sqrt(nfilts)*ln(2^-52), 0, ..., 0] and row i of gfcc is all zero, whatever the rest of the signal.", "quantifier": "every signal with such a frame, all banks and windows", "why_tests_cant": "Needs the orthogonality of the DCT and the floor of the logarithm for every filter count.", "anchors": ["spafe/features/mfcc.py:mfcc", "spafe/features/bfcc.py:bfcc", "spafe/features/gfcc.py:gfcc", "spafe/utils/preprocessing.py:zero_handling"]}
{"id": "C115", "title": "Filter banks create no energy", "statement": "The entries of a row of mel_spectrogram and linear_spectrogram are non-negative and sum to at most the energy of the pre-emphasised samples under the window; with constant scale and power only between the first and last centre they sum exactly to the power of the lower half of the spectrum.", "quantifier": "every signal, window, band, scale, FFT size", "why_tests_cant": "Parseval plus partition of unity for every size; not observable from a few signals.", "anchors": ["spafe/features/mfcc.py:mel_spectrogram", "spafe/features/lfcc.py:linear_spectrogram", "spafe/fbanks/mel_fbanks.py:mel_filter_banks"]}
{"id": "C116", "title": "Complete exception table of the cepstral features", "statement": "Whether mfcc, imfcc, lfcc, bfcc, gfcc, ngcc, msrcc and psrcc return or raise, and which exception, is decided by an explicit ordered list of conditions on the arguments and the signal's length: the first condition that holds gives the exception, and if none holds the call returns a matrix. The sample values never matter. One list for calls with a bank, one per bank type for calls without.", "quantifier": "every argument record with non-negative rate and hop, every signal", "why_tests_cant": "Completeness (no further exception exists, none is raised too early or in another order) quantifies over all argument combinations.", "anchors": ["spafe/features/mfcc.py:mfcc", "spafe/features/mfcc.py:imfcc", "spafe/features/lfcc.py:lfcc", "spafe/features/bfcc.py:bfcc", "spafe/features/gfcc.py:gfcc", "spafe/features/ngcc.py:ngcc", "spafe/features/msrcc.py:msrcc", "spafe/features/psrcc.py:psrcc", "spafe/fbanks/mel_fbanks.py:mel_filter_banks"]}
{"id": "C117", "title": "Exception tables of the spectrograms, pncc, lpc, lpcc and plp", "statement": "Which exception mel_spectrogram, linear_spectrogram, bark_spectrogram, erb_spectrogram, pncc, lpc, lpcc and plp raise (and whether they raise any) is given by the first true line of an explicit table: pre-emphasis of an empty signal, framing and window checks, filter-bank shape, for pncc the number of channels against nfilts in the noise processing, for lpc and lpcc a frame of zeros (singular matrix), for plp a frame without energy in all bands, then the name of the normalisation. If no line holds, a result is returned.", "quantifier": "all signals, all option values (non-negative rate and hop; for lpc, lpcc, plp order at least 2; plp with a given finite non-negative bank), all given filter banks", "why_tests_cant": "The table says both that no other exception can happen for any argument combination and which one wins when several conditions hold.", "anchors": ["spafe/features/pncc.py", "spafe/features/lpc.py", "spafe/features/rplp.py", "spafe/features/mfcc.py", "spafe/utils/preprocessing.py"]}
{"id": "C118", "title": "Effect of added noise", "statement": "Adding noise e to a signal x changes the square root of every band energy by at most the square root of the noise's energy in that band. If the noise has at most eta^2 times the signal's energy in every band of every frame (eta < 1), every row of mfcc, imfcc, ngcc and lfcc moves by at most sqrt(N) * 2 * log(1/(1-eta)) in Euclidean norm (N filters); a row of gfcc moves by at most the root of the sum of the noise's band energies to the power 2/3, whatever the signal.", "quantifier": "all pairs of signals of equal length, all windows, pre-emphasis settings and non-negative filter banks (dct_type 2, no lifter, normalisation or energy column)", "why_tests_cant": "It is a worst-case bound over all signals and all noises.", "anchors": ["spafe/features/mfcc.py", "spafe/features/lfcc.py", "spafe/features/gfcc.py", "spafe/features/ngcc.py"]}
{"id": "C119", "title": "Integer samples give the same linear prediction as floats", "statement": "lpc and lpcc return the same for integer samples (int16 as read from a wav file) as for the same numbers stored as floats. (Violated without pre-emphasis: the autocorrelation is computed in the integer dtype and wraps around. Every 16-bit signal whose samples are multiples of 256 ends in LinAlgError; unsigned samples also get the sign wrong. Holds with pre-emphasis, and for signed samples if every frame has energy below 2^(bits-1).)", "quantifier": "all integer signals, all integer dtypes, all option values with frames of at least two samples", "why_tests_cant": "The tests use one wav file with the default pre-emphasis; wrap-around depends on the data.", "anchors": ["spafe/features/lpc.py:25-85", "spafe/features/lpc.py:178-201"]}
{"id": "C120", "title": "Rounding errors of the spectrograms and log features are bounded", "statement": "Run the spectrogram functions with rounded arithmetic: every product and sum rounded with relative error at most u, additions in any order and with or without fused multiply-add, an FFT accurate to delta in norm, np.absolute to v, window values to omega. Then the root of every band energy is within (G-1)*sqrt(E) + G*sqrt(M)*(delta(1+eps)+eps)*A of the root of the energy E that the exact function returns (G = (1+u)^(nfft/2+4)(1+v)^2, 1+eps = (1+omega)(1+u)^3, M bounds the bank, A the norm of the samples of the frame). If that is at most eta*sqrt(E), eta < 1, every row of mfcc, imfcc, lfcc, ngcc moves by at most the errors of log and DCT plus sqrt(N)*2*log(1/(1-eta)). Silent frames are computed exactly (energy 0).", "quantifier": "for all signals, banks with non-negative weights, windows, roundings, summation orders and float runs", "why_tests_cant": "A test sees one summation order on one machine; the bound holds for every rounding function and every order of additions.", "anchors": ["spafe/utils/preprocessing.py:55-72", "spafe/utils/preprocessing.py:146-172", "spafe/features/mfcc.py:138-162", "spafe/features/lfcc.py:129-153"]}
{"id": "C121", "title": "Functions that write in place compute what is specified and never change the caller's arrays", "statement": "asymmetric_lowpass_filtering, temporal_masking, weight_smoothing, mean_power_normalization, the noise suppression and the whole medium-time processing of pncc, rasta_filter and the mel filter loop are run as programs over a store of arrays (allocation, reads with negative indices, row, entry and masked writes). For every store and every rectangular input: they raise exactly when the functional description raises, with the same exception; otherwise the result is a newly allocated array with the described value, and every array that existed before the call still has its value. The row reversal of inverse_mel_filter_banks overwrites the bank it is given and nothing else.", "quantifier": "all stores, all rectangular matrices of extended floats (NaN and infinities included), all parameters", "why_tests_cant": "a test compares outputs for some inputs and rarely checks that inputs are unmodified; an aliasing or stale-row bug shows only for particular shapes such as one row", "anchors": ["spafe/features/pncc.py:83-96", "spafe/features/pncc.py:120-136", "spafe/features/pncc.py:162-173", "spafe/features/pncc.py:200-212", "spafe/features/pncc.py:250-271", "spafe/utils/filters.py:32-47", "spafe/fbanks/mel_fbanks.py:104-118", "spafe/fbanks/mel_fbanks.py:321-330"]}
{"id": "C122", "title": "Frames are views of a private copy of the signal", "statement": "stride_trick copies the signal and returns views of the copy. Reading the views gives the frames of C15. Whatever is written later to the signal or any other array that existed before does not change the frames, and writing to the frames does not change the signal. But overlapping frames are the same memory: after frames[i, j] = y the frames are exactly those of the signal with sample i*step+j replaced by y, so that the other frames containing this sample change too.", "quantifier": "all stores, signals, frame lengths and steps, all later writes", "why_tests_cant": "sharing of memory is visible only after a write, and depends on overlap", "anchors": ["spafe/utils/preprocessing.py:75-96"]}
{"id": "C123", "title": "Exceptions of filter banks, framing, dominant frequencies, spectral features, pitch and cqcc", "statement": "Each of mel_filter_banks, linear_filter_banks, inverse_mel_filter_banks, bark_filter_banks, gammatone_filter_banks, framing, windowing, get_dominant_frequencies (no Butterworth filter), extract_feats, compute_yin, cqt_spectrogram and cqcc raises exactly the exception of the first failing entry of an explicit table of conditions on its arguments, and returns a value if none fails. In particular inverse_mel_filter_banks looks up the scale before any validation and fails with TypeError on high_freq=None at the very end; gammatone_filter_banks never checks the conversion approach; compute_yin raises ValueError for windows shorter than the number of lags, except windows of two samples, which pass silently, and windows of at most one sample with two lags, which end in IndexError.", "quantifier": "all signals and all argument values with non-negative fs, hop and frequencies (Bark: the formulas with a total inverse; cqt: fs, f0, q_rate > 0 and a grid frequency in the band)", "why_tests_cant": "The order of checks matters only when several arguments are wrong at once, and the tables cover every combination.", "anchors": ["spafe/fbanks/mel_fbanks.py", "spafe/fbanks/linear_fbanks.py", "spafe/fbanks/bark_fbanks.py:44-173", "spafe/fbanks/gammatone_fbanks.py:88-231", "spafe/utils/preprocessing.py:75-220", "spafe/frequencies/dominant_frequencies.py:16-164", "spafe/frequencies/fundamental_frequencies.py:129-268", "spafe/features/spfeats.py:267-336", "spafe/features/cqcc.py:28-305"]}
{"id": "C124", "title": "What compute_yin reports, window by window, in terms of the samples", "statement": "For valid arguments (tau_max at most the window length) compute_yin returns one entry per window that starts at i*hop and ends strictly before the last sample. For every such window that is not constant: let c be the cumulative mean normalised difference of its samples. There is exactly one lag p determined by: 0 if no lag of [tau_min, tau_max) is below harmo_thresh, else the first local stop of the descent that begins at the first such lag. The reported pitch is 0 or fs/p, the reported harmonic rate is c(p) (or the smallest c of all lags if there is no pitch), and the reported argmin is fs/k for the first lag k at which c is smallest if k > tau_min, else 0.", "quantifier": "for all signals, sampling rates, window lengths, hops, frequency ranges and thresholds", "why_tests_cant": "The end-to-end meaning of three lists as functions of the samples over all signals and parameters; a test compares a few tones within a tolerance and cannot exclude a wrong lag on others.", "anchors": ["spafe/frequencies/fundamental_frequencies.py:28-127", "spafe/frequencies/fundamental_frequencies.py:129-268"]}
{"id": "C125", "title": "YIN under rounding: which pitches are stable", "statement": "Let the difference function of a window be computed with any errors up to kappa times the energy of the window (the FFT), the cumulative sums with relative error sigma and the quotients with relative error u. An explicit bound holds for the error of the normalised difference at every lag; if the comparisons that decide the pitch hold with a margin above this bound, every such computation reports exactly the same pitch as the exact one, with a harmonic rate within the bound. On a silent window every such computation reports pitch 0 and harmonic rate 1. On a window of constant non-zero samples the result is not stable: the exact computation reports no pitch, but for every kappa > 0 there is an admissible computation that reports fs/tau_min with harmonic rate 0.", "quantifier": "for all windows, sampling rates, lags, thresholds, error levels and all computations within these errors", "why_tests_cant": "Quantifies over all rounding behaviours of an FFT library; a test sees only the one on the machine it runs on.", "anchors": ["spafe/frequencies/fundamental_frequencies.py:28-127", "spafe/frequencies/fundamental_frequencies.py:226-256"]}
{"id": "C126", "title": "The Butterworth option is a stable band-pass filter with the documented cut-off frequencies", "statement": "For 0 < lower_cutoff < upper_cutoff < fs/2 the option butter_filter=True convolves every signal with one fixed impulse response, which is absolutely summable. A bounded signal stays bounded by one constant times its bound, for all lengths. A tone of frequency f comes out, after a start-up time independent of the tone, as a tone of the same frequency with amplitude multiplied by |H(f)| up to any given relative error; |H(f)|^2 = 1/(1 + Omega(f)^12) with Omega the bilinear band-pass variable. The power gain is at most 1, is 1/2 at both cut-off frequencies, is at least 1/2 exactly between them, and is 0 for constants and for the alternating signal.", "quantifier": "for all sampling rates, cut-off frequencies, signals, tones, phases and amplitudes", "why_tests_cant": "Stability and the frequency response are statements about infinitely many samples and frequencies; a test filters a few tones at one sampling rate.", "anchors": ["spafe/frequencies/dominant_frequencies.py:119-124"]}
{"id": "C127", "title": "get_dominant_frequencies with the Butterworth option: exceptions, count, level", "statement": "With butter_filter=True and lower_cutoff < upper_cutoff, get_dominant_frequencies raises ZeroDivisionError for fs = 0, ValueError if lower_cutoff <= 0 or upper_cutoff >= fs/2, and otherwise exactly what it raises without the filter. In particular it raises ValueError for every signal with fs <= 6000 and default cut-offs. If it returns, it returns one value per frame as without the filter, and multiplying the signal by a non-zero constant does not change the result.", "quantifier": "for all signals, sampling rates, cut-off frequencies, FFT sizes and windows", "why_tests_cant": "A complete exception table and an invariance over all signals and gains.", "anchors": ["spafe/frequencies/dominant_frequencies.py:16-164"]}
{"id": "C128", "title": "LPC filters are stable", "statement": "Whenever lpc returns coefficients, every row is a minimum-phase polynomial: all zeros of z^p + a_1 z^(p-1) + ... + a_p lie strictly inside the unit circle. Hence |a_k| <= binomial(p, k) whatever the frame, rebuilding a signal from its prediction error is bounded-input bounded-output stable, the minimal prediction error is positive, at most the frame energy and non-increasing in the order, and every lpcc/plp/rplp value but the first is finite and at most 2^(order-1) in absolute value.", "quantifier": "all signals, frames, orders and parameter choices for which the functions return", "why_tests_cant": "stability is a statement about the complex zeros of every coefficient row that any signal can produce; the bound is uniform over an infinite set of frames", "anchors": ["spafe/features/lpc.py:25-85", "spafe/features/lpc.py:88-201", "spafe/features/lpc.py:204-244", "spafe/features/rplp.py:28-179"]}
{"id": "C129", "title": "Frames have the requested number of samples in float64", "statement": "When win_len*fs and win_hop*fs, as written by the caller, are whole numbers of samples n and m, framing returns frames of n samples starting m samples apart. (Violated: the product of the rounded win_len with fs can be just below n and int() cuts; 18 ms and 9 ms at 48 kHz give 863 and 431 instead of 864 and 432. Always n or n-1, and n whenever the float of win_len is not below the decimal number.)", "quantifier": "all signals, sampling rates and window parameters with at most 2^51 samples", "why_tests_cant": "the affected parameter values are scattered (40 of 2000 millisecond windows at common rates); a test of the default window never meets one", "anchors": ["spafe/utils/preprocessing.py:131-133"]}
{"id": "C130", "title": "Float64 rounding in the integer decisions of the code", "statement": "Round-to-nearest-even binary64 is the nearest rounding, monotone, exact on integers up to 2^53 and of relative error at most 2^-53, and takes the number with the even significand when two are equally near (so it satisfies the assumptions of C120 and C125). int(a/b) of integers below 2^53 is the exact integer quotient, so int(nfft/2), int((nfft-Nk)/2) and int(fs/high_freq) are exact. int of a rounded number is the exact integer part or one more, the latter only within the rounding error of the next integer. With the default window (25 ms, 10 ms) framing is exact at every sampling rate: fs//40 and fs//100 samples.", "quantifier": "all reals, all naturals below 2^53 (2^51 for the sampling rate), all signals", "why_tests_cant": "quantifies over all sampling rates and all real numbers", "anchors": ["spafe/utils/preprocessing.py:99-143", "spafe/frequencies/fundamental_frequencies.py:234-237", "spafe/utils/spectral.py:107", "spafe/features/mfcc.py:156"]}
{"id": "C131", "title": "Exceptions of rplp", "statement": "rplp called with a non-negative bank of at most nfft filters and order at least 2 raises exactly by a fixed table, in this order: ParameterError when nfilts < order; ValueError for the pre-emphasis of an empty signal; the framing checks; the bank shape checks; ValueError (NaN in the autocorrelation) when some frame has zero energy in one of the first four bands or in a band that is followed by at least two further bands; the normalisation check. In particular an empty band among the last two (beyond the first four) raises nothing, and an empty band in one frame does not affect whether other frames raise.", "quantifier": "all signals, banks and arguments within the stated bounds", "why_tests_cant": "the condition depends on which of infinitely many signals have an exactly empty band, and on how -inf and NaN travel through the filter state", "anchors": ["spafe/features/rplp.py:28-179", "spafe/utils/filters.py:17-47"]}
{"id": "C132", "title": "Which window lengths and resampling ratios survive float64", "statement": "For a window of k = 1..100 milliseconds int(win_len*fs) computed in float64 is floor(k*fs/1000) at every integer sampling rate, except for the fourteen lengths 9, 11, 18, 22, 36, 43, 44, 51, 71, 72, 73, 86, 87, 88 ms, each of which loses a sample at some rate below 32768 Hz although k*fs/1000 is an integer. With the other lengths (and integer frequency limits) framing and compute_yin do in float64 exactly what they do in exact arithmetic, in particular with the default windows. More generally int(w*n) is exact for every ratio w = p/q whose float is not below w by 2^-54 relative; cqcc with such a resampling ratio has the exact number of rows, and with the ratio 0.29 it returns 28 rows for 100 frames instead of 29.", "quantifier": "all signals, all integer sampling rates below 2^44, all whole-millisecond windows up to 100 ms, all safe ratios", "why_tests_cant": "quantifies over all sampling rates; the failing combinations are sparse", "anchors": ["spafe/utils/preprocessing.py:132-133", "spafe/frequencies/fundamental_frequencies.py:235-237", "spafe/features/cqcc.py:290-292"]}
{"id": "C133", "title": "pncc and the recording level", "statement": "Multiplying the signal by g != 0 multiplies row i of pncc (no liftering, no normalisation) by one positive factor k_i. In the first row it is |g|**(power/15), because the running mean power starts at the constant 0.0001 instead of an estimate; so pncc is never level independent (any signal of at least two frames whose first frame is not silent changes its output with the level). The factor never crosses 1, never moves away from 1 in the fifteenth power, and with a mean weighted power of at least p it is within 0.0001*0.999**i/(p*(1-0.999**i)) of 1 after i frames, whatever the amplification.", "quantifier": "all signals, levels, banks, windows and powers for which pncc is defined (C106)", "why_tests_cant": "quantifies over all signals and levels; the mean-power stage hides the dependence in long recordings", "anchors": ["spafe/features/pncc.py:176-212", "spafe/features/pncc.py:274-457"]}
{"id": "C134", "title": "Resampling in cqcc", "statement": "The uniform resampling of cqcc changes the time grid only: the time average of every coefficient is the same for all resampling ratios, and with an integer ratio c the output has c times as many rows and every c-th row is exactly a row computed without resampling.", "quantifier": "all signals, arguments and ratios for which cqcc is defined (dct_type 2, no liftering, no normalisation)", "why_tests_cant": "quantifies over all signals and ratios; a wrong Nyquist weight or a shifted grid shows only for some lengths", "anchors": ["spafe/features/cqcc.py:155-305"]}
{"id": "C135", "title": "A tone appears at its frequency in the spectrograms", "statement": "If the signal is a pure tone A*cos(2*pi*f*t/fs + phi) with m <= f <= fs/2 - m, and the frame of l >= 2 samples fits in nfft, then in the second array returned by mel_spectrogram, linear_spectrogram, bark_spectrogram and erb_spectrogram (every window type, every bank; from the second frame on with pre-emphasis, from the first without) the magnitude of bin k is at most B/2*(1/|sin(pi*(f-f_k)/fs)| + 1/sin(pi*m/fs)), and at least B/2*(sin(x)/x*sum(w) - 1/sin(pi*m/fs)) with x = pi*l*d/fs <= pi for |f - f_k| <= d, where f_k = k*fs/nfft and B = |A| times the gain of the pre-emphasis at f. Hence the strongest bin is less than delta from f as soon as 1/sin(pi*delta/fs) + 2/sin(pi*m/fs) < sin(y)/y*sum(w), y = pi*l/(2*nfft). With the defaults at 16 kHz: every tone of 200 to 7800 Hz peaks less than 45 Hz (one and a half bins) from its frequency in every frame.", "quantifier": "all tones (frequency, amplitude, phase, length), all window types and lengths, all valid arguments", "why_tests_cant": "A bound for all frequencies, phases and window lengths at once; tests check a few tones.", "anchors": ["spafe/features/mfcc.py:mel_spectrogram", "spafe/features/lfcc.py:linear_spectrogram", "spafe/features/bfcc.py:bark_spectrogram", "spafe/features/gfcc.py:erb_spectrogram", "spafe/utils/preprocessing.py:windowing"]}
{"id": "C136", "title": "Dominant frequency of a tone: an octave too high, or missing", "statement": "For a pure tone f under the same window condition, get_dominant_frequencies (no filter) returns, for every frame, the value of the (nfft//2+1)-point two-sided grid at a bin k with |k*fs/nfft - f| < delta. With the defaults at 16 kHz, for every amplitude, phase and length: a tone of 200 to 3985 Hz is reported in every frame within 90 Hz of 512/257*f, about twice its frequency; for a tone of 4045 to 7800 Hz the result is the empty array.", "quantifier": "all tones (frequency, amplitude, phase, length)", "why_tests_cant": "A statement on every frequency in an interval, every phase and every frame.", "anchors": ["spafe/frequencies/dominant_frequencies.py:get_dominant_frequencies"]}
{"id": "C137", "title": "Results do not depend on the unit of time", "statement": "Measure time in another unit: for c > 0 multiply fs, low_freq, high_freq (and f0 for the constant-Q functions) by c and divide win_len and win_hop by c, for the same samples. Then linear_filter_banks returns the same bank with centre frequencies multiplied by c; linear_spectrogram, lfcc, lpc, lpcc, cqt_spectrogram and cqcc return the same result or raise the same exception; so do mfcc, bfcc, gfcc, ngcc, msrcc and psrcc when a filter bank is given; compute_yin returns pitches and argmins multiplied by c, times divided by c and the same harmonic rates; get_dominant_frequencies returns the roundings of ds and of c*ds for the same unrounded ds.", "quantifier": "all c > 0, all signals, all arguments", "why_tests_cant": "An invariance under a continuous group of changes of unit for every input; a hard-coded sampling rate or a duration read in the wrong unit is invisible at the default rate.", "anchors": ["spafe/fbanks/linear_fbanks.py:linear_filter_banks", "spafe/features/lfcc.py:lfcc", "spafe/features/lpc.py:lpc", "spafe/features/cqcc.py:cqcc", "spafe/utils/spectral.py:compute_constant_qtransform", "spafe/frequencies/fundamental_frequencies.py:compute_yin", "spafe/frequencies/dominant_frequencies.py:get_dominant_frequencies"]}
{"id": "C138", "title": "Units of the spectral descriptors", "statement": "When fs is multiplied by c > 0 for the same samples, extract_feats multiplies the centroid, the spread and the roll-off (frequencies) by c and leaves the dimensionless descriptors entropy, flatness, flux, skewness and kurtosis unchanged, as well as mean, rms, std and variance.", "quantifier": "all c > 0, all signals, fs and nfft", "why_tests_cant": "A scaling law for every signal and every factor.", "anchors": ["spafe/features/spfeats.py:extract_feats", "spafe/features/spfeats.py:spectral_skewness", "spafe/features/spfeats.py:spectral_kurtosis"]}
{"id": "C139", "title": "compute_yin finds the pitch of a pure tone to within one sample of its period", "statement": "Let every sample of an analysis window of compute_yin be A*cos(2*pi*f*t/fs + phi) with A != 0, where one period fs/f has at least 10 samples, the window holds at least 4 periods, f <= high_freq <= fs, the period rounded up is below int(fs/low_freq) <= window length, and the threshold lies between 0.1 (the default) and 0.25. Then the pitch reported for that window is fs/p for a lag p less than one sample away from the true period fs/f (so no octave errors), the error in Hertz is below f^2/(fs-f), the pitch is exactly f if the period is a whole number of samples, and the harmonic rate is below the threshold. Amplitude, phase and the rest of the signal do not matter. With the default arguments at 16 kHz this covers all tones from 134 Hz to 1600 Hz.", "quantifier": "all amplitudes, phases, frequencies in the range, sampling rates, window sizes, positions of the window, and signals outside of the window", "why_tests_cant": "There are infinitely many frequencies, phases and window sizes; a test checks some of them, and an octave error may occur for only some phases of a frequency.", "anchors": ["spafe/frequencies/fundamental_frequencies.py:16-268"]}
{"id": "C140", "title": "How far pncc, psrcc, cqcc and the dominant frequencies look", "statement": "Without normalisation: (a) row i of pncc depends only on the samples up to the end of frame i+2 - the look-ahead of the five-frame medium-time average is the only access to the future, although smoothing, floors and the running mean are carried over the whole signal. So appending audio changes at most the last two rows. The look-ahead is really used: two signals that differ only in frame 2 can give different rows 0. (b) A row of psrcc with a non-negative bank depends on its own window only, although the code takes a maximum over the whole array. (c) With resampling_ratio = 1 a row of cqcc depends on its own window only. (d) An entry of get_dominant_frequencies without band filter and with only_positive = False depends on its own window only. pncc with a non-negative bank is defined on every signal of at least one frame.", "quantifier": "all arguments, all pairs of signals of any lengths, all rows", "why_tests_cant": "A wrong index in one of pncc's recursions, or a statistic taken over the whole signal, changes rows by amounts that look like noise; a test with one signal has nothing to compare with. Only all pairs of signals that agree up to a frame pin the claim down.", "anchors": ["spafe/features/pncc.py:28-271", "spafe/features/pncc.py:274-457", "spafe/features/psrcc.py:29-206", "spafe/features/cqcc.py:28-305", "spafe/frequencies/dominant_frequencies.py:16-164"]}
{"id": "C141", "title": "Which normalisations make features independent of the recording level", "statement": "Multiplying a recording by any non-zero gain (including a polarity flip) leaves the features unchanged when the normalisation fits the compression: gfcc and msrcc (root compression) return exactly the same matrix, or fail on both recordings, with normalize 'vn', 'mvn' or 'mn' and any lifter; mfcc, imfcc, ngcc and lfcc (logarithmic compression) return exactly the same matrix with normalize 'ms' for every DCT type, use_energy setting and lifter, whenever the band energies are positive. 'mvn' does not have this effect on logarithmic features: normalize_ceps divides all columns by one standard deviation taken over the whole matrix, which the gain shifts through the first coefficient, so with 'mvn' (orthonormal type II DCT, at least two coefficients, no lifter) every entry of the result tends to 0 as the gain grows.", "quantifier": "all recordings, gains, filter banks, option values within the stated ranges", "why_tests_cant": "A test fixes a recording and a few gains and compares within tolerances; the decay of all entries under 'mvn' is a statement about the limit of large gains.", "anchors": ["spafe/utils/cepstral.py:17-56", "spafe/features/mfcc.py", "spafe/features/gfcc.py", "spafe/features/msrcc.py", "spafe/features/lfcc.py", "spafe/features/ngcc.py"]}
{"id": "C142", "title": "Deltas are slopes of fitted lines", "statement": "For w >= 2 and h = floor(w/2), deltas(x, w)[i][t] = h(h+1)(2h+1)/3 times the slope of the straight line fitted by least squares to the 2h+1 values of row i around column t (the row continued by its end values); with the default window the factor is 60, so the entries are not the slopes themselves. Values between lo and hi give deltas of absolute value at most (hi-lo)*h(h+1)/2; a non-decreasing row has no negative delta; an even window equals the next odd one and windows 0 and 1 give zeros. Each row is differentiated on its own along the columns, so on a feature matrix (frames x coefficients) the derivative runs over the coefficients of one frame and never over time. A negative window or a matrix without rows raises ValueError, a matrix without columns IndexError.", "quantifier": "all matrices, all integer windows, all positions", "why_tests_cant": "Least-squares optimality compares with every other line; the bounds hold for all rows and windows.", "anchors": ["spafe/utils/cepstral.py:98-123"]}
{"id": "C143", "title": "The constant-Q transform of a tone peaks at the tone", "statement": "Let a frame given to compute_constant_qtransform hold a pure tone of amplitude A and frequency f in its first nfft samples. The entry of every frequency g of the transform (window length N) is at most |A|((1/|sin(pi(f-g)/fs)| + 1/|sin(pi(f+g)/fs)|)/(2N) + E), and for pi N|f-g|/fs <= x <= pi at least |A|((sin x/x * sum of the window weights - 1/|sin(pi(f+g)/fs)|)/(2N) - E), with E = spectral_threshold*(2 + 2/pi*(1 + log nfft)). Hence with the arguments cqcc uses by default (16 kHz, 24 bins per octave from 120 Hz, nfft 512, Hamming, threshold 0.005) a tone of any amplitude and phase between 1100 and 5000 Hz is strongest at a frequency within 1/15 of the tone, and a tone of a frequency of the grid up to 6000 Hz is strictly strongest in its own row.", "quantifier": "all frames, sampling rates, grids, windows, thresholds >= 0, tone frequencies, amplitudes and phases; the concrete conclusion for all tones at the default arguments", "why_tests_cant": "the tone frequency, amplitude and phase are continuous; a wrong centring, a conjugated kernel or a threshold applied to the wrong matrix moves the peak only for some of them", "anchors": ["spafe/utils/spectral.py:compute_constant_qtransform"]}
{"id": "C144", "title": "Rounding in normalize_ceps and deltas", "statement": "Let every operation of normalize_ceps and deltas be rounded with relative error at most u, sums being taken in any order. Then np.mean of n numbers is off by at most ((1+u)^n - 1) times their mean absolute value, np.std by a relative error of (1+u)^(n+4) - 1 plus about the error of the mean, and from this follow explicit error bounds for each entry of 'ms', 'vn', 'mvn' and 'mn' relative to the exact result, and of deltas relative to the weighted absolute values of the neighbours. In float64, for up to a million coefficients none of which exceeds 1000 standard deviations, 'mvn' is accurate to five digits. The condition on the standard deviation is needed: for three frames holding the one coefficient 0.1 the exact result of 'mvn' is NaN, but the float64 result is -1 in every frame.", "quantifier": "all matrices, all window sizes, all rounding functions with unit roundoff u, all orders of summation", "why_tests_cant": "The order of summation and the rounding errors depend on the platform; a test sees one of them.", "anchors": ["spafe/utils/cepstral.py:50-55", "spafe/utils/cepstral.py:98-123"]}
{"id": "C145", "title": "Dominant frequencies under rounding", "statement": "Let get_dominant_frequencies (no filter) be run with rounding: operations with relative error u, np.abs within v, window values within omega, FFT within delta of the norm. The bin k that such a run takes for the strongest is nearly strongest in the exact spectrum X: |X_j| <= H|X_k| + (1+H)E for all bins j, with H = g/(2-g), g = (1+u)^7(1+v)^2 and E = (delta*sqrt(nfft)*(1+u)(1+omega) + (1+u)(1+omega) - 1) times the sum of the absolute samples of the frame. Hence if one bin exceeds all others by more than this bound, every run finds it, as the exact computation does. The number reported for bin k is the grid value up to rounding to thousandths and a relative error of (1+u)^4/(2-(1+u)^2) - 1. With the defaults at 16 kHz in float64, for a tone of 200 to 7800 Hz of any amplitude, phase and length, every run finds in every frame a bin less than 45 Hz from the tone.", "quantifier": "all signals, frame and FFT lengths, windows, rounding functions and FFT implementations within the stated accuracy; all tones for the concrete conclusion", "why_tests_cant": "Quantifies over all rounding behaviours of the FFT library and over a continuum of tones.", "anchors": ["spafe/frequencies/dominant_frequencies.py:130-158"]}
{"id": "C146", "title": "LPC rows are the spectral envelope of their frame", "statement": "For every frame on which lpc returns coefficients 1, a_1, ..., a_p with minimal prediction error E, the all-pole spectrum E/|1 + a_1 e^(-i t) + ... + a_p e^(-i p t)|^2 is positive at all frequencies and has exactly the autocorrelations of the frame at the lags 0..p (in particular the same energy). The mean over all frequencies of the ratio of the frame's power spectrum to it is 1, its mean logarithm is log E, and it is the unique minimiser of the mean of P/S + log S (Itakura-Saito distance) among all all-pole spectra S of this order.", "quantifier": "every signal, frame and order for which lpc returns; every competing gain and filter with zeros in the unit disc", "why_tests_cant": "an identity between integrals over all frequencies and an optimum over a continuum of filters, for every frame", "anchors": ["spafe/features/lpc.py:25-85", "spafe/features/lpc.py:88-201"]}
{"id": "C147", "title": "Mel and linear filter banks in floating point", "statement": "Let every arithmetic operation of mel_filter_banks, inverse_mel_filter_banks and linear_filter_banks be rounded monotonically with relative error at most u, and np.log10 and 10**x be accurate to a relative error v. Then the computed filter edges are within (b + edge)*E of the exact ones, E an explicit function of u, v and log10(1 + high/b), and the column frequencies within ((1+u)^4 - 1)*high. With r = log((b+high)/(b+low))/(nfilts+1), the edges of a mel bank plus b form a geometric sequence of ratio e^r, and if e = e^(2r)*max(E, ((1+u)^4-1)*high/(b+low)) is below r/2 then every computed weight lies between 0 and 1 and differs from the weight of the exact bank by at most 4*e/r plus a few u, although the comparisons that select the rising and the falling side are made on rounded numbers; linear banks likewise. In float64, for high up to 600 kHz and 40*(b+low), this is 8*10^-14*e^(2r)/r, and every weight of the default bank (24 filters, 512 points, 16 kHz) is within 1.1*10^-12 of the exact one, for each scale.", "quantifier": "all numbers of filters, nfft >= 2, bounds 0 <= low < high <= fs/2, scales and both mel formulas; every rounding function and library log10/pow of the stated accuracy", "why_tests_cant": "the claim covers every rounding function and library of the given accuracy and all real band limits; the comparisons near the edges of the triangles switch on the last bit", "anchors": ["spafe/fbanks/mel_fbanks.py:19-120", "spafe/fbanks/mel_fbanks.py:217-330", "spafe/fbanks/linear_fbanks.py:18-105", "spafe/utils/converters.py:314-386"]}
{"id": "C148", "title": "Features with their own filter bank in floating point, end to end", "statement": "Run mfcc, lfcc, imfcc, mel_spectrogram and linear_spectrogram without a given bank entirely in rounded arithmetic: the bank itself (as in C147), pre-emphasis, windowing, FFT, absolute value, squares and the product with the bank. If the bank is accurate to tau, the root of a positive band energy E is within the bound of C120 plus G*tau*A^2/sqrt(E) of the root of the energy the exact function returns (A the norm of the samples of the frame, G = (1+u)^(nfft/2+4)(1+v)^2), and if that is at most eta*sqrt(E) in all bands, eta < 1, the rows of the features move by at most the errors of log and DCT plus sqrt(nfilts)*2*log(1/(1-eta)). In float64 with the default bank (24 filters, 512 points, 16 kHz): when every band carries at least the kappa^2-th part of the energy of its frame, kappa up to 10^5, the rows of mfcc are within sqrt(24)*3*10^-12*kappa^2 plus the errors of log and DCT.", "quantifier": "all signals, windows, valid bands, scales, numbers of filters, nfft >= 2; every rounding function, summation order and library of the stated accuracy", "why_tests_cant": "the claim covers all signals and every platform's rounding, FFT and summation order; a test compares two runs on one machine", "anchors": ["spafe/features/mfcc.py:28-462", "spafe/features/lfcc.py:25-304", "spafe/fbanks/mel_fbanks.py:76-120", "spafe/fbanks/linear_fbanks.py:18-105"]}
{"id": "C149", "title": "Loudness grows with the energy of a band", "statement": "In bfcc and plp a band with more energy gets a larger loudness value, the intensity-loudness law compresses (exponent 1/3), the equal-loudness weight depends on the frequency of the band, and so a change of the recording level changes only the level coefficient. Violated: the equal-loudness polynomial is applied to the band energy instead of the frequency. The values rise up to an energy of 20000, fall from 32000 on (louder bands get smaller values, with limit zero), grow with exponent 4/3 below 100, and a signal played 100 times louder changes the second coefficient of plp and bfcc substantially.", "quantifier": "all band energies; level dependence by a concrete signal", "why_tests_cant": "The order of loudness values over all energies is a statement about infinitely many pairs; tests with normalised signals never reach the range where it is reversed.", "anchors": ["spafe/features/rplp.py:150-157", "spafe/features/bfcc.py:29-47"]}
{"id": "C150", "title": "plp does not see where on the Bark axis the energy is", "statement": "plp with the filter bank turned upside down, or moved along the Bark axis by any number of filters (as long as it has at most nfft rows), returns exactly what it returns with the original bank, for every signal and option, including exceptions. When the energy of a frame lies in a single band, the coefficients 1, 2, ... of its row are fixed numbers given by nfft and order alone (-(1 - 1/(2 nfft - order + 2)) and so on), whatever the band and the energy.", "quantifier": "all signals, options and banks of at most nfft filters (reversal and shift); all frames with one non-zero band energy", "why_tests_cant": "An invariance under a change of the bank for all signals and banks; it comes from the magnitude of the inverse transform and shows in no output shape or finiteness test.", "anchors": ["spafe/features/rplp.py:159-169"]}
{"id": "C151", "title": "The all-pole model of plp fits the loudness spectrum", "statement": "plp solves the prediction equations with the inverse transform of the symmetric loudness spectrum as autocorrelation (perceptual linear prediction as published). Violated: the magnitudes of the inverse transform are treated as a frame of samples and correlated again. Every row still comes from a stable all-pole model, but of the power spectrum of these magnitudes, whose autocorrelations it matches; for two bands with energies 2 and 4 the published coefficient is above 0.3 and that of plp below -0.3.", "quantifier": "all signals, banks and orders >= 2 with energy in every frame; violation by a concrete signal", "why_tests_cant": "Which spectrum the model fits is an integral identity over all frequencies for every signal.", "anchors": ["spafe/features/rplp.py:159-169", "spafe/features/lpc.py:25-86"]}
{"id": "C152", "title": "Noise suppression in pncc removes a stationary background, and how slowly", "statement": "In asymmetric_noise_suppression_with_temporal_masking with its default threshold, if the power of a band never exceeds B and is constant from frame m0 on, k frames later the output of that band lies between 0 and 2 B 0.999^k. A band that is constant from the first of at least two frames keeps 0.999^(m+1) of its power in the frames m < 692 (never less than half), and 0.001 (m+1) 0.999^(m+1) of it in the frames 692 to 999.", "quantifier": "all non-empty non-negative arrays, all bands, levels, onset frames and numbers of frames", "why_tests_cant": "The time constant is a statement about arbitrarily long recordings and all histories before the constant stretch.", "anchors": ["spafe/features/pncc.py:59-96", "spafe/features/pncc.py:99-136", "spafe/features/pncc.py:215-271"]}
{"id": "C153", "title": "A negative num_ceps counts from the end and passes the check", "statement": "mfcc, imfcc, lfcc, bfcc, gfcc, ngcc, msrcc, psrcc and pncc accept a negative num_ceps. With the bank they compute themselves, num_ceps = -k gives the same result or exception as num_ceps = nfilts - k (0 if k is larger). With a bank of n filters given by the caller it means n - k, and the check nfilts < num_ceps no longer guards it: the call works even where the same number of coefficients asked for directly is refused with ParameterError (for pncc the given bank is assumed to have nfilts filters). A num_ceps >= 0 means itself.", "quantifier": "all signals, arguments, banks and integers num_ceps", "why_tests_cant": "Equality of two calls for every combination of arguments, including every exception.", "anchors": ["spafe/features/mfcc.py:276-277", "spafe/features/mfcc.py:300-323", "spafe/features/lfcc.py:282-304", "spafe/features/bfcc.py:323-346", "spafe/features/gfcc.py:302-326", "spafe/features/ngcc.py:181-204", "spafe/features/msrcc.py:157-180", "spafe/features/psrcc.py:183-206", "spafe/features/pncc.py:383-457"]}
{"id": "C154", "title": "LPC identifies an all-pole filter from its impulse response", "statement": "If a frame consists of the first N samples of the response of 1/(1 + b_1 z^-1 + ... + b_p z^-p) to an impulse of height g, the coefficients a that lpc computes for it (order p) satisfy: (b - a) filtered by the response has no more energy in the frame than the prediction error of b after the end of the frame, and the prediction error lies between g^2 and g^2 plus that energy. For a stable filter and g != 0 the coefficients are defined for every N >= 1 and converge to b, the prediction error to g^2. For one pole, x[n] = g r^n, the coefficient is exactly -r (1 - r^(2N-2)) / (1 - r^(2N)).", "quantifier": "all orders, filters, impulses, frame lengths; limit over all stable filters", "why_tests_cant": "A limit over frame lengths and a bound for every filter of every order.", "anchors": ["spafe/features/lpc.py:25-86", "spafe/features/lpc.py:176-201"]}
{"id": "C155", "title": "Auditory scales compress high frequencies", "statement": "On the mel, ERB and Bark scales the same step in Hz is strictly smaller the higher it lies: phi(g+d)-phi(g) < phi(f+d)-phi(f) for f < g, d > 0. Consequently the centres of the mel bank (converted back with mel2hz, starting from the lower edge) and the centre frequencies of the gammatone bank lie further and further apart in Hz, by one constant factor > 1 per filter.", "quantifier": "all frequencies >= 0 (> 0 for Bark, where Zwicker is undefined at 0), all steps, all documented formulas, all valid bands and bank sizes", "why_tests_cant": "A strict inequality over a continuum of pairs of frequencies and steps.", "anchors": ["spafe/utils/converters.py:hz2erb", "spafe/utils/converters.py:hz2bark", "spafe/utils/converters.py:hz2mel", "spafe/fbanks/mel_fbanks.py:19-120", "spafe/fbanks/gammatone_fbanks.py:23-45", "spafe/fbanks/gammatone_fbanks.py:88-231"]}
{"id": "C156", "title": "Converters agree with the publications and docstrings they cite", "statement": "With approach 'Traunmueller', hz2bark computes Traunmueller's published critical-band rate (26.81 f/(1960+f) - 0.53 with corrections below 2 and above 20.1 Bark) and bark2hz its inverse; both agree with the formulas in their docstrings; bark2hz(hz2bark(f)) is never negative; the Beranek formula 1127 ln(1+f/700), which the docstring of hz2mel calls equivalent to the default one, gives the same value.", "quantifier": "all frequencies, all Bark values", "why_tests_cant": "The existing Bark tests compare hz2bark and bark2hz with a second call of themselves at 15 small values; disagreement with a publication at every frequency but one needs an argument over all reals.", "anchors": ["spafe/utils/converters.py:123-192", "spafe/utils/converters.py:195-285", "spafe/utils/converters.py:291-349"]}
{"id": "C157", "title": "Noise suppression of pncc follows its block diagram", "statement": "asymmetric_noise_suppression_with_temporal_masking computes the block diagram in its docstring: during excitation (power at least twice the lower envelope) the maximum of the temporally masked excess and the floor of the excess, otherwise the floor. Consequently no output is below the floor.", "quantifier": "all non-empty power arrays, frames, channels, thresholds", "why_tests_cant": "The deviation needs a band that is steady for hundreds of frames before it drops; the claim is over all arrays.", "anchors": ["spafe/features/pncc.py:215-271", "docs/source/_static/architectures/pncc_medium_processing.png"]}
{"id": "C158", "title": "RASTA filtering removes what does not change in time", "statement": "rasta_filter (rows are frames, columns are critical bands, as documented) filters each band along time: a steady sound gives zeros, and a fixed weighting of the bands (a channel, additive in the log domain) does not change the result.", "quantifier": "all arrays with at least one column, all channels, over any ordered field", "why_tests_cant": "The only test of rasta_filter checks that the function exists; the direction of a filter shows only in relations between outputs for all arrays.", "anchors": ["spafe/utils/filters.py:17-47", "spafe/features/rplp.py:140-148"]}
{"id": "C159", "title": "Small changes of the signal cause small changes of psrcc", "statement": "psrcc is continuous in the samples: whenever it gives coefficients for a signal, every sufficiently small change of the samples changes every coefficient by as little as wanted (the documented pipeline unwraps the phases, so that they do not jump).", "quantifier": "all signals, tolerances, filter banks with non-negative entries, windows and FFT sizes", "why_tests_cant": "Continuity is a statement about all neighbouring signals and all tolerances; the jump sits on a surface of measure zero, which sampled signals miss.", "anchors": ["spafe/features/psrcc.py:163-181"]}
{"id": "C160", "title": "When a filter bank has filters that hear nothing", "statement": "All rows of a mel or inverse mel bank (n filters, band low..high, formula a*log10(1+f/b)) have a positive weight if and only if (high-low)/floor(nfft/2) < (b+low)*(((b+high)/(b+low))^(2/(n+1)) - 1); all rows of a linear bank if and only if n+1 < 2*floor(nfft/2); any other row is entirely zero and its band is 0 for every signal. With the defaults (16 kHz, 512 points) mel banks of up to 114 filters are fine and no larger ones; with 128 filters the first band of mel_spectrogram is 0 for every signal.", "quantifier": "all numbers of filters >= 1, FFT sizes >= 2, valid bands, scales, mel formulas, and all signals", "why_tests_cant": "The threshold is an equivalence over all parameter combinations; tests compare banks of a few sizes and never look for empty rows.", "anchors": ["spafe/fbanks/mel_fbanks.py:19-330", "spafe/fbanks/linear_fbanks.py:18-105", "spafe/features/mfcc.py:29-163"]}
{"id": "C161", "title": "Pre-emphasis is a high-pass filter", "statement": "pre_emphasis turns a tone of f Hz (from the second sample on) into a tone of f Hz whose amplitude is multiplied by sqrt(1+c^2-2c*cos(2*pi*f/fs)); for c > 0 this gain grows strictly from |1-c| at 0 Hz to 1+c at fs/2 (a ratio above 65 for c = 0.97). A constant signal is reduced to 1-c times its value, and the energy of any signal grows at most by the factor (1+|c|)^2.", "quantifier": "all tones (frequency, amplitude, phase), sampling rates, coefficients, signal lengths", "why_tests_cant": "Monotonicity of a frequency response and an energy bound for every signal cannot be sampled.", "anchors": ["spafe/utils/preprocessing.py:55-72"]}
{"id": "C162", "title": "Silence is the quietest signal", "statement": "The first coefficient of a frame of mfcc, imfcc, ngcc, lfcc or bfcc is never below that of a silent frame, sqrt(nfilts)*ln(2^-52).", "quantifier": "all signals, frames, banks with non-negative entries, windows, FFT sizes", "why_tests_cant": "It relates every signal to silence; a random or recorded test signal never has energies between 0 and 2^-52.", "anchors": ["spafe/utils/preprocessing.py:41-52", "spafe/features/mfcc.py:293-302", "spafe/features/bfcc.py:29-47"]}
{"id": "C163", "title": "A larger FFT size refines the spectrum", "statement": "If a frame has at most nfft samples, then the magnitude spectra returned by mel_spectrogram, linear_spectrogram, bark_spectrogram and erb_spectrogram with q*nfft points hold in column q*k the value of column k with nfft points. If a frame is longer than nfft, samples are dropped and this can fail.", "quantifier": "all signals of at least one frame, frames, columns k <= nfft/2, factors q >= 1, FFT sizes at least the frame length, windows, bands and conversion approaches", "why_tests_cant": "It relates two calls for every FFT size and every factor; tests compare shapes at one size.", "anchors": ["spafe/features/mfcc.py:138-163", "spafe/features/lfcc.py:129-154", "spafe/features/bfcc.py:159-183", "spafe/features/gfcc.py:137-162"]}
{"id": "C164", "title": "intensity_power_law computes its documented formula", "statement": "intensity_power_law(w) returns E(w) = (w^2+56.8e6) w^4 / ((w^2+6.3e6)^2 (w^2+0.38e9)), the formula of its docstring. Violated: the code leaves out one factor w^2+6.3e6, divides by w^6+9.58e26 and takes a cube root. Its result is above E for 0 < w <= 12.1 and below E for w >= 12.12. E grows with w and stays below 1.", "quantifier": "all arguments w >= 0", "why_tests_cant": "The comparison holds for every argument; the tests of the library never evaluate the documented formula.", "anchors": ["spafe/features/bfcc.py:29-47"]}
{"id": "C165", "title": "lpc minimises the error of its docstring with the documented order", "statement": "The coefficients a_1..a_p returned by lpc minimise the error of its docstring, E = sum over the frame of (x[i] - sum_k a_k x[i-k])^2, and p is the argument order. Violated three times: the returned coefficients have the opposite sign, the code also counts the errors after the end of the frame, and it uses order - 1 coefficients.", "quantifier": "all frames and orders; the end effect and the order by concrete frames", "why_tests_cant": "Minimality compares with every coefficient vector; the tests of the library only check shapes.", "anchors": ["spafe/features/lpc.py:25-85", "spafe/features/lpc.py:88-201"]}
{"id": "C166", "title": "A column of samples gives the features of the signal", "statement": "Every feature function documents its input as a mono audio signal of shape (Nx1). Given the samples as an array of that shape it returns what it returns for the flat array of the same samples. In particular pre_emph=True applies y[t] = x[t] - alpha*x[t-1] along time.", "quantifier": "for all samples and all arguments of mfcc, imfcc, lfcc, bfcc, gfcc, ngcc, msrcc, psrcc, plp, rplp, pncc, lpc, lpcc and cqcc", "why_tests_cant": "The test-suite passes flat arrays only; that the two shapes agree, and which of the arguments they disagree for, is a statement about all signals and all argument combinations.", "anchors": ["spafe/features/mfcc.py:47", "spafe/features/mfcc.py:199", "spafe/features/mfcc.py:138-139", "spafe/features/lpc.py:100", "spafe/features/lpc.py:178-179", "spafe/utils/preprocessing.py:72", "spafe/utils/preprocessing.py:91-96", "spafe/features/cqcc.py:122-132", "spafe/features/cqcc.py:180"]}
{"id": "C167", "title": "The YIN difference function compares a full window at every lag", "statement": "compute_difference returns the function of its docstring, d(tau) = sum over j=1..W of (x_j - x_{j+tau})^2, with the same number W of terms for every lag. In particular a signal whose documented normalised difference is at least 1 at all lags, such as a ramp, is unvoiced for compute_yin with a threshold below 1.", "quantifier": "for all signals, windows and lags", "why_tests_cant": "A test compares pitches of one recording; the bias of the shrinking sum grows with the lag and shows for windows close to the longest period only.", "anchors": ["spafe/frequencies/fundamental_frequencies.py:23", "spafe/frequencies/fundamental_frequencies.py:31", "spafe/frequencies/fundamental_frequencies.py:60-73", "spafe/frequencies/fundamental_frequencies.py:92-94"]}
{"id": "C168", "title": "extract_feats describes the whole signal", "statement": "The features returned by extract_feats(sig, fs, nfft) depend on every sample of the input signal: signals that differ have different features.", "quantifier": "for all signals, rates and FFT sizes", "why_tests_cant": "A test looks at the features of one recording; which samples they depend on is a statement about all pairs of signals.", "anchors": ["spafe/features/spfeats.py:267-280", "spafe/features/spfeats.py:321"]}
{"id": "C169", "title": "spectral_flux measures change in time", "statement": "spectral_flux measures how quickly the power spectrum of a signal is changing: it is the p-norm of the difference between the magnitudes of one time and of the previous time. A signal whose spectrum does not change has flux 0.", "quantifier": "for all spectra and norm types", "why_tests_cant": "A single value of the flux does not show which axis the difference is taken along; the claim concerns all signals without change.", "anchors": ["spafe/features/spfeats.py:238-253", "spafe/features/spfeats.py:262-264", "spafe/features/spfeats.py:331"]}
{"id": "C170", "title": "Block processing gives the features of the whole recording", "statement": "A stream cut into blocks of any sizes can be processed block by block: keeping the samples from the start of the next frame on and calling the feature function on them with each new block yields, one after the other, the rows of mfcc, imfcc, lfcc, bfcc, gfcc, ngcc, msrcc, plp, rplp, lpc and lpcc of the whole recording (without normalisation; rplp where the filter outputs are positive). With pre-emphasis the rows agree if the filter is applied outside with the last sample carried over from block to block; the library's own pre_emph on each block changes rows at block borders.", "quantifier": "for all recordings, all divisions into blocks, all parameters the functions accept with frames at least as long as the hop", "why_tests_cant": "The divisions of a recording into blocks are as many as its compositions; a test tries a few block sizes.", "anchors": ["spafe/utils/preprocessing.py:55-72", "spafe/utils/preprocessing.py:75-96", "spafe/utils/preprocessing.py:99-143", "spafe/features/mfcc.py", "spafe/features/lpc.py", "spafe/features/rplp.py"]}
{"id": "C171", "title": "How fast mean power normalisation settles", "statement": "The average of frame m of mean_power_normalization is k times the average of that frame over the exponentially weighted mean of 0.0001 and the averages of the frames 1..m (frame 0 has no weight). For a signal of constant average power M it is k M / (lam^m 0.0001 + (1 - lam^m) M); it approaches k at the rate lam^m, and with the default lam = 0.999 and M at least 0.0001 it starts at 10000 M and is at least 2 M / (M + 0.0001), nearly twice its limit if M is large, for the first 692 frames.", "quantifier": "for all nonnegative matrices, channel counts, lam in (0,1] and k", "why_tests_cant": "The settling is a statement about all frame indices and all power levels.", "anchors": ["spafe/features/pncc.py:176-212"]}
{"id": "C172", "title": "What distinguishes the features once the caller supplies the filter bank", "statement": "With a bank passed as fbanks, mfcc, imfcc and ngcc are the same function (results and exceptions), lfcc too for the default pre-emphasis or none, and gfcc is msrcc with gamma = 1/3. low_freq, high_freq, scale and conversion_approach then have no effect, not even an exception, in all eight cepstral features, and nfilts none beyond its comparison with num_ceps. So ngcc is mfcc on the gammatone bank, lfcc is mfcc on the linear bank and msrcc(gamma=1/3) is gfcc on the mel bank.", "quantifier": "for all signals, banks and parameters", "why_tests_cant": "Equality of functions: a test compares two of them on one signal with one bank.", "anchors": ["spafe/features/mfcc.py:124", "spafe/features/mfcc.py:430", "spafe/features/lfcc.py:116", "spafe/features/bfcc.py:146", "spafe/features/gfcc.py:123", "spafe/features/ngcc.py:139", "spafe/features/psrcc.py:137"]}
{"id": "C173", "title": "Spectral skewness and kurtosis are the standardised moments of Peeters", "statement": "spectral_skewness and spectral_kurtosis are the third and fourth standardised moments of the spectrum (as described in the cited publication): central moments over powers of the standard deviation, numbers without unit that satisfy kurtosis >= 1 + skewness^2. Violated: the code divides by powers of the raw second moment.", "quantifier": "for all spectra with a spread, all rates", "why_tests_cant": "A wrong normalisation gives plausible numbers on any one spectrum; the inequality and the relation are statements about all of them.", "anchors": ["spafe/features/spfeats.py:62-92", "spafe/features/spfeats.py:95-125"]}
{"id": "C174", "title": "Root features and bfcc in floating point", "statement": "gfcc, and msrcc with an exponent gamma in (0, 1/2], are accurate in floating point for every signal, however quiet a band is: each compressed band energy is within rho^(2 gamma) of the exact one, rho the bound of C120 for the square root of the energy, and the coefficients within the root sum of squares of these. In double precision with nfft = 512 a row of gfcc is within 2.5e-9 sqrt(N) A^(2/3) of the exact row besides the errors of the power function and the DCT (A^2 the energy of the frame, N filters with weights up to 1). With any exponent, also the negative default of msrcc, the error is small relative to the compressed energies if the arithmetic resolves the energies; under the same condition the rows of bfcc are accurate, because its loudness law at most doubles the relative error of an energy.", "quantifier": "for all signals, banks, rounding functions with relative error u, summation orders, FFTs with relative error delta", "why_tests_cant": "The rounding pattern depends on the machine, the FFT library and the order of summation; a test sees one of them.", "anchors": ["spafe/features/gfcc.py:301", "spafe/features/msrcc.py:154", "spafe/features/gfcc.py:137-161", "spafe/features/bfcc.py:29-47"]}
{"id": "C175", "title": "Linear prediction in floating point", "statement": "In floating-point arithmetic with unit roundoff u the autocorrelations used by lpc are within ((1+u)^N - 1) r(0) of the exact ones, and the computed coefficients b satisfy the exact normal equations up to D = rho + ((1+u)^N - 1) r(0) (1 + sum |b_k|), where rho is the residual left by the solver. If m > 0 is at most the smallest eigenvalue of the autocorrelation matrix (for instance the minimum of the power spectrum of the frame; a frame that is not silent always has one), then the squared distance to the exact coefficients is at most p (D/m)^2, and the prediction error of the computed coefficients exceeds the least possible one by at most p D^2/m. For order 13 and frames of up to 400 samples in double precision, with r(0) <= K m and K <= 9e11, every coefficient is within 7 K (rho + 4.5e-14 (1 + sum |a_k|)) of the exact one when the residual is rho r(0). As u and rho tend to zero, all runs converge to the exact coefficients.", "quantifier": "all frames, all orders >= 1, all rounding functions with relative error u, all orders of summation, all solver results with the stated residual", "why_tests_cant": "A test compares two floating-point programs on chosen frames; it cannot bound the error for all frames and summation orders, nor relate it to the spectrum of the frame.", "anchors": ["spafe/features/lpc.py:74-83"]}
{"id": "C176", "title": "What the parameters of compute_yin do to the pitches", "statement": "Raising harmonic_threshold never makes a voiced window unvoiced and never lowers its pitch; the times and argmins are unchanged. Raising high_freq (up to fs) does the same to voicing and pitch. Lowering low_freq never makes a voiced window unvoiced and never raises its pitch, and it changes the pitch only of windows that had been given the longest period searched, floor(fs/low_freq) - 1 samples.", "quantifier": "all signals, all sampling rates, window sizes, hops, frequency limits up to fs and thresholds for which the longest lag fits into the window", "why_tests_cant": "Monotonicity relates pairs of runs for all signals and all pairs of parameter values.", "anchors": ["spafe/frequencies/fundamental_frequencies.py:100-126", "spafe/frequencies/fundamental_frequencies.py:235-266"]}
{"id": "C177", "title": "Prediction gain and spectral flatness", "statement": "The minimal prediction error of a frame, reached by the coefficients of lpc, lies between the geometric and the arithmetic mean of the power spectrum of the frame, so the prediction gain is at most the inverse of the spectral flatness. As the order grows, the error tends to the geometric mean (the theorem of Szego and Kolmogorov), also when the spectrum has zeros.", "quantifier": "all frames that are not silent, all orders", "why_tests_cant": "The limit and the bound range over all orders and all frames; a test sees finitely many and only in floating point.", "anchors": ["spafe/features/lpc.py:25-85"]}
{"id": "C178", "title": "Mean subtraction removes the weights of the filters", "statement": "Multiplying each filter of the bank by its own positive gain adds one and the same vector, the DCT of the logarithms of the gains, to every frame of mfcc, imfcc, ngcc and lfcc. With normalize='ms' the result does not change at all. In particular the option scale ('constant', 'ascendant', 'descendant') has no effect on the mean-normalised features computed with the built-in banks.", "quantifier": "all signals in which each band has energy in every frame or in none, all banks, gains, scales and lifters outside (-1, 0), dct_type 2 without the energy column", "why_tests_cant": "An equality over all banks and all gains; a test compares single recordings within a tolerance.", "anchors": ["spafe/features/mfcc.py:166-462", "spafe/features/lfcc.py", "spafe/features/ngcc.py", "spafe/utils/filters.py:50-75", "spafe/utils/cepstral.py:51-56"]}
{"id": "C179", "title": "Energies of independent sources add; noise floor of white noise", "statement": "The average of the mel, linear, Bark or ERB spectrogram of +-x1 +- x2 ... +- xn over all choices of the signs is the sum of the spectrograms of x1, ..., xn (for n = 2 the parallelogram law). The average over all signals of samples +-sigma (white noise) of the energy in a band is the same in every frame: sigma^2 times the energy of the window times the sum of the weights of the band, divided by nfft (without pre-emphasis).", "quantifier": "all n, all signals of equal length, all non-negative filter banks, windows, frame and FFT sizes", "why_tests_cant": "An average over 2^n mixtures, for every n and every choice of signals.", "anchors": ["spafe/features/mfcc.py:29-163", "spafe/features/lfcc.py:28-154", "spafe/features/bfcc.py:50-183", "spafe/features/gfcc.py:29-162"]}
{"id": "C180", "title": "Converter round trips in floating point", "statement": "In double precision mel2hz(hz2mel(f)) differs from f by at most 7e-15 (b + f) up to 600 kHz (b = 700 or 625), erb2hz(hz2erb(f)) by at most 7e-15 (1/k + f) up to 200 kHz, and bark2hz(hz2bark(f)) for Wang and Schroeder by at most 7e-15 f up to 300 kHz, for Tjomov by at most 8e-15 (f + 20) up to 250 kHz, if log10, the power of ten, arcsinh and sinh are accurate to 2 units in the last place. hz2mel keeps the order of frequencies if log10 is monotone, but not strictly: all frequencies up to b 2^-55 are mapped to 0.", "quantifier": "all frequencies in the range, all library functions of the stated accuracy, any values the ERB constants are stored with; the general bounds hold for every rounding function of relative error u", "why_tests_cant": "A bound for every double in the range and every conforming math library; tests sample a few frequencies on one library.", "anchors": ["spafe/utils/converters.py:24-71", "spafe/utils/converters.py:74-115", "spafe/utils/converters.py:123-184", "spafe/utils/converters.py:195-263", "spafe/utils/converters.py:291-385"]}
{"id": "C181", "title": "Spectral descriptors in floating point", "statement": "In double precision, over at most 65536 bins and with library functions accurate to 2 units roundoff: spectral_centroid of order 1 and 2 has a relative error of at most 2e-11 for every spectrum that is not zero; spectral_flatness one of at most 6e-9 if all magnitudes lie between e^-700 and e^700; spectral_flux (p = 2) an error of at most 1e-11 of the flux plus 1e-15 of the norm of the magnitudes, and no bound relative to the flux alone exists. The centroid moves by at most fs/2 times the relative change of the magnitudes when the spectrum changes.", "quantifier": "all spectra of at most 65536 bins, all sampling rates, every order of summation, with or without fused multiply-add; the general bounds hold for every rounding of relative error u and every length", "why_tests_cant": "A bound for every spectrum, every order of summation and every math library of the stated accuracy.", "anchors": ["spafe/features/spfeats.py:31-59", "spafe/features/spfeats.py:191-211", "spafe/features/spfeats.py:236-264"]}
{"id": "C182", "title": "What the pictures of utils/vis.py show", "statement": "show_fbanks raises ValueError when ref_freqs and the columns of the bank differ in number, and otherwise draws filter j through the points (ref_freqs[k], fbanks[j][k]) with a marker at exactly the given centre frequencies; in the plot of the mel_filter_banks docstring each marker stands at the apex of its triangle. show_features shows coefficient k of frame i at column i and height k. The documented call of show_spectrogram shows at time t and height f the level in dB of band floor(f n / F) of frame floor(t M / T); the column of a frame always overlaps the time span of the frame, and each band is shown at its centre frequency.", "quantifier": "all filter banks, all frequencies and centres, all feature matrices, all spectrograms with at least one frame and one band, all signal lengths and windows; for the frequency axis all numbers of filters and upper frequencies", "why_tests_cant": "A test sees that a figure is created without error, not that the value at every point of the plane belongs to the time and frequency written on the axes for every number of frames and bands.", "anchors": ["spafe/utils/vis.py:33-97", "spafe/utils/vis.py:100-169", "spafe/utils/vis.py:172-196", "spafe/features/mfcc.py:110-120", "spafe/fbanks/mel_fbanks.py:178-200"]}
{"id": "C183", "title": "Noise suppression of pncc in floating point: rounding errors do not accumulate with the length of the recording", "statement": "With every operation rounded (relative error at most u <= 1e-7, binary64 in particular), nonnegative medium-time powers of at most B and computed powers within e of them: the lower envelope, the rectified excess and the decaying peak are within 1.01 e + 8200 u B, 2.02 e + 8202 u B and the error of the excess plus 12 u B of the exact values in every frame, whatever the number of frames. The result of asymmetric_noise_suppression_with_temporal_masking is within 2.05 e + 16490 u B (2.05 e + 2e-12 B in binary64) of the exact result wherever the exact values keep a distance from the two thresholds (excitation switch and temporal masking), and otherwise that close to one of the three exact candidates; near the masking threshold no such bound can hold, since the exact result jumps there by more than half of the largest power. The medium-time power takes at most seven roundings. The relative error of the running mean of mean_power_normalization grows by three roundings per frame; in binary64 up to 333000 frames and 1000 channels keep a relative precision of 2.1 delta + 5e-9 for powers known to delta.", "quantifier": "all roundings with relative error at most u, all orders of summation, all inputs and their perturbations, all numbers of frames and channels", "why_tests_cant": "The tests compare one recording with stored shapes; they cannot vary the rounding, nor show that a recursion over arbitrarily many frames stays within a bound.", "anchors": ["spafe/features/pncc.py:46-56", "spafe/features/pncc.py:83-96", "spafe/features/pncc.py:119-136", "spafe/features/pncc.py:200-212", "spafe/features/pncc.py:249-271"]}
{"id": "C184", "title": "Root compression with a small exponent is logarithmic compression", "statement": "If all band energies are positive, then as gamma tends to 0, from either side, the columns of msrcc(..., gamma) divided by gamma tend to the columns of mfcc with the same arguments (the first column after subtracting the square root of the number of filters n). Quantitatively: when the logarithms of the energies are between -L and L and |gamma| L <= 1, every entry differs from the limit by at most |gamma| L^2 sqrt(2 n).", "quantifier": "all signals, banks, windows, FFT sizes and numbers of coefficients, all exponents with |gamma| L <= 1; plain features with DCT-II (no liftering, normalisation, energy column)", "why_tests_cant": "A limit over the exponent, with a bound uniform in the signal, is not a finite set of runs; the tests call msrcc with its default exponent only.", "anchors": ["spafe/features/msrcc.py:138-157", "spafe/features/mfcc.py:295-300"]}
{"id": "C185", "title": "Linear prediction finds the frequency of a tone", "statement": "For every pure tone A*cos(2*pi*f*t/fs + phi) with A nonzero and 0 < f < fs/2, lpc with order 3 (two prediction coefficients), any accepted window name and frames of l >= 3 samples succeeds, and every row (except the first one when pre_emph is on) is [1, a, b]. With theta = 2*pi*f/fs and g = (2 + 1/|sin theta|)/l <= sin(theta)^2/10, |a + 2 cos theta| <= 26 g/sin(theta)^2 and |b - 1| <= 17 g/sin(theta)^2. So for every tolerance there is a frame length from which on fs/(2 pi) * arccos(-a/2) is within that tolerance of f and b within it of 1, whatever the amplitude, the phase, the window, the hop and the pre-emphasis.", "quantifier": "for all amplitudes, phases, frequencies below half the sampling rate, sampling rates, frame lengths, hops, window names, signal lengths and frames", "why_tests_cant": "A test compares the coefficients of a few recorded signals with a reference; it cannot bound the bias of the autocorrelation method for every tone, phase and frame length nor show convergence.", "anchors": ["spafe/features/lpc.py:25-85", "spafe/features/lpc.py:88-201"]}
{"id": "C186", "title": "imfcc is mfcc of the signal with its spectrum upside down", "statement": "Changing the sign of every second sample moves each frequency f to fs/2 - f. With an explicit high_freq and an even nfft, imfcc of a signal returns exactly what mfcc returns for the signal with every second sign changed, ascendant and descendant scale exchanged and the opposite pre-emphasis coefficient, whatever the window, DCT type, energy option, liftering and normalisation. With a bank given by the caller, mfcc, imfcc, msrcc and ngcc return for the changed signal and the mirrored bank what they return for the signal and the bank. For lfcc and lpc without pre-emphasis the change turns the sign of the coefficients with odd index and leaves the others alone.", "quantifier": "for all signals, all option values with a positive hop, all even FFT sizes, all banks", "why_tests_cant": "The tests compare imfcc with stored arrays of one recording; a mirrored bank with a wrong offset or order passes shape tests, and the exact symmetry between two functions for every signal cannot be sampled.", "anchors": ["spafe/features/mfcc.py:326-462", "spafe/features/mfcc.py:166-323", "spafe/fbanks/mel_fbanks.py:inverse_mel_filter_banks", "spafe/features/lfcc.py:157-304", "spafe/features/lpc.py:88-201"]}
{"id": "C187", "title": "Several tones are resolved by the spectrograms", "statement": "If the signal is a sum of K tones A_q*cos(2*pi*f_q*t/fs + phi_q) with m <= f_q <= fs/2 - m, and the frame of l >= 2 samples fits in nfft, then in the second array returned by mel_spectrogram, linear_spectrogram, bark_spectrogram and erb_spectrogram (every window type and bank; from the second frame on with pre-emphasis, from the first without) a bin at a distance of at least d from every tone is at most sum(B_q)*leak(d), leak(d) = (1/sin(pi*d/fs) + 1/sin(pi*m/fs))/2, and a bin at most half a bin from tone p and at least D from the others is at least B_p*peak - sum_{q != p}(B_q)*leak(D), peak = (sin(y)/y*sum(w) - 1/sin(pi*m/fs))/2, y = pi*l/(2*nfft), where B_q is |A_q| times the gain of the pre-emphasis at f_q. Hence the bins at tone p exceed all bins farther than d from every tone as soon as the first bound is below the second. With the defaults at 16 kHz and no pre-emphasis: for two tones of equal amplitude, 200 to 7800 Hz and at least 316 Hz apart, each bin next to a tone exceeds, in every frame, every bin 300 Hz or more from both.", "quantifier": "all numbers of tones, frequencies, amplitudes, phases and lengths, all window types and lengths, all valid arguments", "why_tests_cant": "The interference of several tones depends on all phases at once; tests use recordings or a single sine.", "anchors": ["spafe/features/mfcc.py:mel_spectrogram", "spafe/features/lfcc.py:linear_spectrogram", "spafe/features/bfcc.py:bark_spectrogram", "spafe/features/gfcc.py:erb_spectrogram", "spafe/utils/preprocessing.py:windowing"]}
{"id": "C188", "title": "A click appears in the frames that contain it, with a flat spectrum", "statement": "If the only sample that is not zero is sample t0, of value A, then entry (i, k) of the second array returned by mel_spectrogram, linear_spectrogram, bark_spectrogram and erb_spectrogram is |A| * |v(t0) - c*v(t0+1)*exp(-2*pi*j*k/nfft)|, where v(t) is the window weight of sample t in frame i (0 outside the frame or beyond its first nfft samples) and c the pre-emphasis coefficient, 0 without pre-emphasis. Without pre-emphasis every row is constant, |A|*v(t0). Rows of frames that begin after t0+1 or end before t0 are zero. With a bank given by the caller and no pre-emphasis, mfcc, imfcc, ngcc and lfcc return, in every frame with A*v(t0) != 0, the same coefficients from the second on, those of the logarithms of the sums of the filter weights: they do not depend on the height of the click or its place in the frame; the first coefficient adds sqrt(N)*log((A*v(t0))^2/nfft).", "quantifier": "all signals with one sample that is not zero, all positions and heights, window types and lengths, hops, FFT sizes, banks and other valid arguments", "why_tests_cant": "An off-by-one in framing, a shifted window or a wrong order of pre-emphasis and framing changes these values at some position only; all positions in all frame grids cannot be sampled.", "anchors": ["spafe/features/mfcc.py:mel_spectrogram", "spafe/features/lfcc.py:linear_spectrogram", "spafe/features/bfcc.py:bark_spectrogram", "spafe/features/gfcc.py:erb_spectrogram", "spafe/utils/preprocessing.py:pre_emphasis", "spafe/utils/preprocessing.py:windowing"]}
{"id": "C189", "title": "A constant offset stays in the low bins", "statement": "Adding D to every sample changes bin k >= 1 of every row of the second array returned by mel_spectrogram, linear_spectrogram, bark_spectrogram and erb_spectrogram by at most |D|*g*nfft/(2*k), where g = |1 - c| with pre-emphasis of coefficient c and 1 without; with pre-emphasis the first row may change by |D|*|c| more, because the sample before the signal counts as 0. The frame of l >= 2 samples must fit in nfft. With the defaults: at most 7.68*|D|/k from the second frame on.", "quantifier": "all signals and offsets, all window types and lengths, all valid arguments", "why_tests_cant": "A bound for all signals and offsets at once; the tests contain no recording with an offset.", "anchors": ["spafe/features/mfcc.py:mel_spectrogram", "spafe/features/lfcc.py:linear_spectrogram", "spafe/features/bfcc.py:bark_spectrogram", "spafe/features/gfcc.py:erb_spectrogram", "spafe/utils/preprocessing.py:pre_emphasis", "spafe/utils/preprocessing.py:windowing"]}
{"id": "C190", "title": "A short filter multiplies the spectra", "statement": "If the signal goes through a filter with the coefficients h_0, ..., h_(p-1) (a microphone, a room, an echo), then every entry (i, k) of the second array returned by mel_spectrogram, linear_spectrogram, bark_spectrogram and erb_spectrogram becomes |H(k)| times its former value, H(k) = sum of h_m*exp(-2*pi*j*m*k/nfft), up to an error of at most 2*X*e*sum(m*|h_m|), where X bounds the samples and e = 1 + |c| with pre-emphasis of coefficient c, 1 without. The bound does not depend on the length of the frames or the window type. The frame of l >= 2 samples must fit in nfft. In particular a delay by m samples changes every magnitude by at most 3.94*m*X with the defaults.", "quantifier": "all signals, all filters of any length, all window types and lengths, all valid arguments", "why_tests_cant": "A bound for all signals and filters at once; the tests do not compare a recording with a filtered copy.", "anchors": ["spafe/features/mfcc.py:mel_spectrogram", "spafe/features/lfcc.py:linear_spectrogram", "spafe/features/bfcc.py:bark_spectrogram", "spafe/features/gfcc.py:erb_spectrogram", "spafe/utils/preprocessing.py:framing", "spafe/utils/preprocessing.py:windowing"]}
{"id": "C191", "title": "A tone is found under any small disturbance", "statement": "If every sample differs from a tone A*cos(2*pi*f*t/fs + phi), m <= f <= fs/2 - m, by at most rho (noise, clipping, other tones, of whatever shape), then in the second array returned by mel_spectrogram, linear_spectrogram, bark_spectrogram and erb_spectrogram the strongest bin up to nfft/2 is less than delta Hz from f in every frame (from the second frame on with pre-emphasis), as long as 1/sin(pi*delta/fs) + 2/sin(pi*m/fs) + 4*e*rho/(|A|*g)*S is less than sinc(l/(2*nfft))*S. S is the sum of the window, e = 1 + |c| and g = |1 - c*exp(-2*pi*j*f/fs)| with pre-emphasis of coefficient c, both 1 without; the frame of l >= 2 samples fits in nfft. With the defaults at 16 kHz and no pre-emphasis: a tone of 200 to 7800 Hz disturbed by at most a twelfth of its amplitude is located to 150 Hz by mel_spectrogram. get_dominant_frequencies (no filter) too looks up, in every frame, a bin less than delta from the tone, under the same condition with e = g = 1.", "quantifier": "all signals near a tone, all frequencies, amplitudes, phases, window types, lengths, all valid arguments", "why_tests_cant": "A worst case over all disturbances; the tests do not check where a peak is.", "anchors": ["spafe/features/mfcc.py:mel_spectrogram", "spafe/features/lfcc.py:linear_spectrogram", "spafe/features/bfcc.py:bark_spectrogram", "spafe/features/gfcc.py:erb_spectrogram", "spafe/utils/preprocessing.py:pre_emphasis", "spafe/utils/preprocessing.py:windowing", "spafe/frequencies/dominant_frequencies.py:get_dominant_frequencies"]}
{"id": "C192", "title": "compute_yin makes no octave errors on a disturbed tone", "statement": "Let every sample of an analysis window of compute_yin differ from A*cos(2*pi*f*t/fs + phi) by at most q*|A| (noise, hum, clipping, of whatever shape), where one period fs/f has at least 20 samples, the window holds at least 4 periods, f <= high_freq <= fs, the period rounded up is below int(fs/low_freq) <= window length, the threshold is between 0.1 (the default) and 0.125, q <= 0.04 and q*fs/f <= 0.4*int(fs/high_freq). Then the pitch reported for that window is fs/p for a lag p less than a quarter of a period away from fs/f, that is between 4/5 f and 4/3 f, and the harmonic rate is below the threshold. With the default arguments at 16 kHz this covers all tones from 134 Hz to 800 Hz with disturbances of up to min(0.04, f/8000) of the amplitude.", "quantifier": "all disturbances within the bound, all amplitudes, phases, frequencies in the range, sampling rates, window sizes, positions of the window", "why_tests_cant": "A worst case over all disturbances of all tones; a test tries some noise on some tones.", "anchors": ["spafe/frequencies/fundamental_frequencies.py:16-268"]}
{"id": "C193", "title": "Small changes of the signal cause small changes of lpc", "statement": "Wherever lpc(sig) returns coefficients (order >= 2, frames and hop of at least one sample), it is continuous: for every tolerance there is an eta > 0 such that lpc returns for every signal of the same length whose samples differ by at most eta, with as many frames, and all coefficients and error values differ by at most the tolerance. Quantitatively: let r be the energy of a frame of l samples, m > 0 a lower bound of the eigenvalues of its autocorrelation matrix, P = 1 without and 1.97 with pre-emphasis, D = eps*(2*sqrt(r)+eps) with eps = sqrt(l)*P*eta, p = order-1, S the sum of |a_k| over k = 1..p and W = 2*D*(1+S)/m. If 2*p*D <= m then the sum of the squared changes of the coefficients of this frame is at most p*W^2 and the error value changes by at most D*(2+S+p*W) + r*p*W.", "quantifier": "all signals, all neighbouring signals, all orders, sampling rates and windows", "why_tests_cant": "Continuity quantifies over all neighbours of all signals; the predictor solves a linear system that can be arbitrarily ill-conditioned, so no finite sample bounds its sensitivity.", "anchors": ["spafe/features/lpc.py:20-201"]}
{"id": "C194", "title": "Small changes of the signal cause small changes of lpcc", "statement": "Wherever lpcc(sig) returns (order >= 2, no liftering, no normalisation), it is continuous: for every tolerance there is an eta > 0 such that lpcc returns for every signal of the same length whose samples differ by at most eta, and all its coefficients differ by at most the tolerance.", "quantifier": "all signals, all neighbouring signals, all orders, sampling rates and windows", "why_tests_cant": "The jump happens only at signals whose residual is exactly zero, in every neighbourhood of them; random signals do not hit them.", "anchors": ["spafe/features/lpc.py:20-345", "spafe/utils/preprocessing.py:41-52"]}
{"id": "C195", "title": "Small changes of the signal cause small changes of plp and rplp", "statement": "Let plp return for a signal (order >= 2, non-negative filter bank given by the caller, no liftering, no normalisation, every frame has energy in one of the first nfft bands; for rplp in all bands). For every tolerance there is an eta > 0 such that plp (rplp) returns for every signal of the same length whose samples differ by at most eta, with as many rows, and coefficients 1, 2, ... of every row differ by at most the tolerance; so does coefficient 0 of every row whose prediction residual is not zero.", "quantifier": "all signals, all neighbouring signals, all non-negative filter banks, windows, FFT sizes and orders", "why_tests_cant": "Continuity quantifies over all neighbours of all signals; the chain contains a linear system, a cube root with infinite slope and a logarithm.", "anchors": ["spafe/features/rplp.py", "spafe/features/lpc.py:20-85"]}
{"id": "C196", "title": "Small changes of the signal cause small changes of pncc", "statement": "Let pncc return for a signal (positive power, non-negative filter bank given by the caller, DCT type 2, no liftering, no normalisation, every frame has medium-time power in every channel from the second on). For every tolerance there is an eta > 0 such that pncc returns for every signal of the same length whose samples differ by at most eta, with the same shape, and every coefficient differs by at most the tolerance.", "quantifier": "all signals, all neighbouring signals, all powers, non-negative filter banks, windows and FFT sizes", "why_tests_cant": "Continuity quantifies over all neighbours of all signals; the signals where it fails form a thin set that random inputs never hit.", "anchors": ["spafe/features/pncc.py:99-136", "spafe/features/pncc.py:215-271", "spafe/features/pncc.py:274-457"]}
{"id": "C197", "title": "The RASTA filter in floating point: rounding errors do not build up", "statement": "Let rasta_filter run in any arithmetic with unit roundoff u <= 1e-7 on rows whose entries are within e of exact values of size at most X. Every entry of the output is within 11 e + 750 u X of the exact result, however many columns and rows there are (double precision: 11 e + X / 1e13). Without rounding the result is the exact one. In rplp, np.exp of the output is within the relative error (1 + v) exp(11 e + 750 u X) - 1 if np.exp is accurate to v.", "quantifier": "all matrices with non-empty rows, all input errors, all roundings with relative error u, all orders of summation in the convolution", "why_tests_cant": "The filter has a pole at 0.94 and feeds its own rounding errors back; a bound for all inputs and lengths needs an invariant of the state.", "anchors": ["spafe/utils/filters.py:17-47", "spafe/features/rplp.py:140-148"]}
{"id": "C198", "title": "plp and rplp in floating point, end to end", "statement": "Run plp or rplp in any arithmetic with unit roundoff u, with an FFT, window, logarithm, exponential, loudness law, inverse FFT, linear solver and cepstral recursion of given accuracy, on a signal whose bands all have energy. Coefficient k >= 1 of each frame is within kappa + k * sqrt(p) * 2 (rho + G (1 + S)) / mu of the exact coefficient. Here p = order - 1, rho is the residual of the solver, kappa the error of the recursion and its logarithm, S the sum of the magnitudes of the exact prediction coefficients, mu the lower bound of the autocorrelation form, and G the error of the autocorrelations, an explicit function of all other accuracies. The hypothesis is 2 p G <= mu. Coefficient 0 (the logarithm of the prediction residual) is within kappa + log(1 / (1 - t)) wherever an explicit bound on the error of the residual is at most the fraction t < 1 of the residual. For fixed loudness values, not all zero, the error of the coefficients k >= 1 vanishes as the accuracies go to zero.", "quantifier": "all signals with energy in all bands, all banks, all frames, all coefficients, all roundings with relative error u, all orders of summation, all accuracies of the library routines", "why_tests_cant": "There is no exact result to compare a run with, and the error depends on the conditioning of each frame.", "anchors": ["spafe/features/rplp.py:28-179", "spafe/features/lpc.py:74-85", "spafe/features/lpc.py:235"]}
{"id": "C199", "title": "Small changes of the signal cause small changes of cqcc", "statement": "For every tolerance there is a distance such that cqcc of every signal of the same length within that distance of the given signal, sample by sample, succeeds with the same shape and has all coefficients within the tolerance. The same holds for the complex output of cqt_spectrogram.", "quantifier": "all signals on which cqcc succeeds, all parameters with dct_type 2 and a positive hop, all resampling ratios, all tolerances, all perturbed signals", "why_tests_cant": "A test compares finitely many pairs of signals; a jump sits at single signals that random tests never hit.", "anchors": ["spafe/features/cqcc.py:155-305", "spafe/utils/spectral.py:19-128"]}
{"id": "C200", "title": "cqcc in floating point stays close to exact arithmetic", "statement": "Every entry of the constant-Q transform computed in floating point differs from the exact entry by at most an explicit multiple of the amplitude of its frame, which depends only on the unit roundoff, the accuracy of the window, the FFT and the kernel, the number of bins and the number of kernel entries whose magnitude is too close to the sparsity threshold to be told from it. Where that error is at most a fraction eta < 1 of every entry, the cepstra differ from the exact ones by at most an explicit bound: logarithm, resampling gain and DCT. For float64, 512 bins, the default threshold and no doubtful kernel entry the multiple is below 1e-12; the condition on doubtful entries cannot be dropped.", "quantifier": "all signals of at least one frame, all positive rates, all admissible frequency grids, all documented windows, all thresholds, all resampling ratios that leave a frame, all roundings with a relative error bound, all summation orders of the sparse product, with or without fused multiply-add", "why_tests_cant": "A test runs one summation order on finitely many signals and has no exact result to compare with.", "anchors": ["spafe/features/cqcc.py:155-305", "spafe/utils/spectral.py:103-127"]}
{"id": "C201", "title": "Every row of the constant-Q spectrogram depends on every sample", "statement": "Every entry of cqt_spectrogram is, up to the sparsity threshold times the content of the frame, the constant-Q coefficient of its frequency: the mean of the windowed, modulated stretch of N = ceil(Q fs / f) samples in the middle of the nfft-point frame. A click therefore appears in a row as its height times an explicit weight, a click heard at one frequency is heard at all lower ones, and every sample between the first and last analysis window has an effect on every row. The last clause is false: where N is shorter than the hop, the samples between two windows are never looked at; with the default frames and grid the row of 7680 Hz uses 72 of every 160 samples.", "quantifier": "all signals of at least one frame, all clicks (position, height), all positive rates, all frame lengths, all hops, all admissible grids, all documented windows (Hamming for the positive part), all thresholds", "why_tests_cant": "A test can move a few clicks; that a whole set of samples never matters, whatever their values, is a statement about all pairs of signals.", "anchors": ["spafe/features/cqcc.py:28-152", "spafe/utils/spectral.py:103-127"]}
{"id": "C202", "title": "psrcc in floating point: accurate away from phase 0, no guarantee near it", "statement": "If no FFT bin heard by the bank comes closer to the non-negative real axis than the error of the computed spectrum (the two real bins only have to keep their sign), every floating-point run has phase sums within an explicit bound of the exact ones: angle, map to [0, 360), dot product and the shift eps / (|X| - eps) of each phase. Where that bound is at most a fraction eta < 1 of every phase sum, the cepstra are accurate relative to the compressed phase sums, for every exponent. The condition on the bins cannot be dropped: for every accuracy of the FFT there is a signal whose coefficient an admissible run misses by more than 0.1.", "quantifier": "all signals of at least one frame, all banks with non-negative weights, all documented windows, all exponents, all roundings with a relative error bound, all summation orders, with or without fused multiply-add, all FFT and angle routines of the stated accuracy", "why_tests_cant": "A test runs one FFT and one summation order on finitely many signals and has no exact phases to compare with; the jump at 0 degrees is met only by chance.", "anchors": ["spafe/features/psrcc.py:151-183"]}
{"id": "C203", "title": "pncc in floating point, from the signal to the coefficients", "statement": "Every floating-point run of pncc with power 2 is accurate, provided its decisions are: if the band energies are above the rounding errors of their frame (relative precision eta), if in every frame and every channel but the first the two comparisons of the noise suppression are decided by more than the rounding errors of the channel, and if the suppressed power is above those errors (relative precision eps), then the coefficients of each frame differ from the exact ones by at most the error of the DCT plus a stated factor times the norm of the exact compressed powers. In binary64 with eta, eps <= 1/1000, up to 333000 frames and 1000 channels the factor is (1 + lam)(1 + 1.2 eta + 0.33 eps + 1e-9) - 1, where lam is the accuracy of the power 1/15.", "quantifier": "all signals of at least one frame, all banks of at least two filters with non-negative weights, all documented windows, all roundings with a relative error bound of at most 1e-7, all summation orders, with or without fused multiply-add in the dot product, all FFT routines of the stated accuracy, any number of frames", "why_tests_cant": "A test has no exact values to compare with, runs one summation order, and cannot show that the errors of the recursions stay bounded for recordings of every length.", "anchors": ["spafe/features/pncc.py:49-50", "spafe/features/pncc.py:83-96", "spafe/features/pncc.py:123-134", "spafe/features/pncc.py:162-171", "spafe/features/pncc.py:202-211", "spafe/features/pncc.py:249-271", "spafe/features/pncc.py:417-447"]}
{"id": "C204", "title": "Mean subtraction removes a transmission channel", "statement": "If a recording goes through a filter h_0, ..., h_(p-1) (a microphone, a telephone line) whose response at the bins of filter n of the bank is g_n up to the fraction theta, then the roots of the band energies are multiplied by g_n, up to theta*g_n*sqrt(E) plus a contribution of the edges of the frames of at most 2*X*e*sum(m*|h_m|)*sqrt(w_n/nfft), where X bounds the samples, w_n is the sum of the weights of filter n and e = 1 + |c| with pre-emphasis of coefficient c, 1 without. If these errors are at most the fraction eta < 1 of g_n*sqrt(E), then every row of mfcc, imfcc, ngcc and lfcc is moved by one and the same vector, the DCT of 2*log(g_n), up to a Euclidean distance of 2*sqrt(N)*log(1/(1-eta)) for N filters. With normalize='ms' the vector disappears: the features of the two recordings differ in each row by at most 4*sqrt(N)*log(1/(1-eta)).", "quantifier": "all signals of at least one frame, all filters of any length, all banks with non-negative weights, all documented windows, all numbers of coefficients; dct_type 2, no lifter, no energy column, frames of at least 2 samples that fit in nfft", "why_tests_cant": "A bound for all signals and all channels at once; the tests do not compare a recording with a filtered copy, and the two agree only up to the edges of the frames.", "anchors": ["spafe/utils/cepstral.py:51-56", "spafe/features/mfcc.py:295-323", "spafe/features/lfcc.py:276-305", "spafe/features/ngcc.py:175-204", "spafe/utils/preprocessing.py:framing"]}
