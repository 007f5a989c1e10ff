{
 "C04": {
  "status": "partial",
  "note": "Proved for Wang, Tjomov, Schroeder, Zwicker. The claim is false for Terhardt (at every f > 0) and for Traunmueller (at every f > 0 but one, between 146 and 148 Hz); both negations are proved."
 },
 "C16": {
  "status": "proved",
  "note": "Exact variance of the result; the documented unit variance is refuted by C16_mvn_not_unit_variance."
 },
 "C21": {
  "status": "proved",
  "note": "C21_reversible_iff characterises exactly when liftering can be undone (exact reals); C21_lifter_minus_two_not_injective is the concrete failing case."
 },
 "C11": {
  "status": "proved",
  "note": "For a positive hop, any rounding. For negative hops the code reads out of bounds: C11_negative_hop_reads_out_of_bounds."
 },
 "C24": {
  "status": "proved",
  "note": "Inverse mel bank: the same for known scale names; an unknown scale raises KeyError before the checks (C24_inverse_mel_unknown_scale)."
 },
 "C29": {
  "status": "partial",
  "note": "Holds for low=0, high=fs/2, even nfft; characterised exactly by C29_bins_iff; refuted otherwise by C29_violated."
 },
 "C32": {
  "status": "partial",
  "note": "Violated: default high_freq=None raises TypeError on every valid input (C32_default_raises_type_error) and for low_freq>0 every returned centre is too low (C32_centres_off). The remaining case low_freq=0 with explicit high_freq is C32_centres_partial."
 },
 "C34": {
  "status": "partial",
  "note": "Holds for Wang, Tjomov, Schroeder and Zwicker with low>0. Violated: Zwicker low=0 (ValueError), Terhardt defaults (IndexError), Traunmueller defaults (all-zero bank), all proved."
 },
 "C42": {
  "status": "partial",
  "note": "Violated: msrcc and psrcc with the default negative gamma return +inf on silence (C42_msrcc_silence_infinite, C42_psrcc_silence_infinite, C42_violated). The _partial theorems give finiteness for gamma >= 0 or positive filter outputs. pncc returns NaN on silence and on every frame after a silent stretch (C42_pncc_silence_nan, C42_pncc_silent_stretch_nan, C42_pncc_violated); finite when the filter outputs are positive near every frame (C42_pncc_finite_partial)."
 },
 "C47": {
  "status": "partial",
  "note": "Violated by lfcc, bfcc, gfcc (C47_ignored, C47_violated) and lpc, lpcc (C47_lpc_ignored, C47_lpc_violated); proved for mfcc, imfcc, ngcc, msrcc, psrcc, pncc."
 },
 "C54": {
  "status": "partial",
  "note": "Recursion and bounds proved (C54_recursion_partial). The first-frame clause is false for two frames or more: C54_first_frame, C54_violated."
 },
 "C56": {
  "status": "partial",
  "note": "Exact formula proved (C56_weight_smoothing_partial). It is not an average: divides by one more than the number of channels (C56_constant_ratio) and skips channel 0 (C56_channel_zero_unused)."
 },
 "C63": {
  "status": "partial",
  "note": "Violated: C63_violated ([1,1], order 1: 5/2 instead of 3/2). C63_code_value_all gives what is computed, C63_minimal_error_formula the documented value; they agree for one-sample frames (C63_one_sample_partial)."
 },
 "C64": {
  "status": "partial",
  "note": "Violated for every signal (C64_window_ignored, C64_violated). Only the window name is checked (C64_unknown_window_partial)."
 },
 "C65": {
  "status": "partial",
  "note": "Violated (C65_index_two, C65_violated). C65_lpc2lpcc_partial gives the exact result and the indices at which the recursion holds; C65_index_error the sizes that raise."
 },
 "C66": {
  "status": "proved",
  "note": "Shape for every successful call. Success of plp characterised exactly (positive filter outputs in every frame, else LinAlgError); rplp succeeds for positive filter outputs and raises ValueError when the first output of the first frame is 0. Orders 0 and 1 not modelled."
 },
 "C90": {
  "status": "proved",
  "note": "The documented purpose of RASTA (filtering along time) is not what the code does; this states what it does."
 },
 "C69": {
  "status": "partial",
  "note": "Violated: C69_raises (every such call raises IndexError), C69_violated and C69_cqcc_violated (concrete arguments). The remaining case of a band without grid frequency is C69_empty_band_partial."
 },
 "C91": {
  "status": "proved",
  "note": "Float64 as exact reals; sparse product as the plain product."
 },
 "C75": {
  "status": "partial",
  "note": "Violated: C75_violated, C75_zero_bin. C75_range_partial proves range and maximum for normalised non-zero magnitudes."
 },
 "C76": {
  "status": "partial",
  "note": "Violated: C76_arrays and C76_rolloff_swapped for every successful call, C76_spread_violated, C76_rolloff_violated. C76_rolloff_partial covers the direct call."
 },
 "C94": {
  "status": "partial",
  "note": "Violated for all nfft >= 3 and k >= 1: C94_every_bin_wrong. C94_range_partial keeps the range and the 0 Hz case."
 },
 "C96": {
  "status": "partial",
  "note": "Variance, std and mean proved (C96_variance); RMS violated (C96_rms_violated) and proved for real spectra (C96_rms_partial)."
 },
 "C81": {
  "status": "partial",
  "note": "Upper bound violated: C81_violated (3200 Hz for high_freq 3000 with the defaults). C81_range_partial proves the lower bound and the bound fs/floor(fs/high_freq)."
 },
 "C86": {
  "status": "partial",
  "note": "The claim is false in the code: C86_wrong proves that every bin k >= 1 is reported wrongly (a third too high or negative), C86_upper_half_dropped that such frames vanish, C86_violated gives concrete signals. C86_meaning says exactly what is reported; C86_dc_partial is the case that holds."
 },
 "C101": {
  "status": "proved",
  "note": "dct_type 2, no lifter/normalize/use_energy (those are C102, C103); msrcc and psrcc with gamma < 0 need positive band sums (see C42)."
 },
 "C106": {
  "status": "proved",
  "note": "DCT type 2, no lifter, no normalisation; the power exponent, bank, window and framing are arbitrary."
 },
 "C107": {
  "status": "proved",
  "note": "No lifter, no normalisation. The residual and the coefficients are those spafe computes (they differ from the documented ones, see C63 and C65)."
 },
 "C108": {
  "status": "proved",
  "note": "Hypotheses Auto/Band are the valid argument ranges; default arguments are shown to meet them. msrcc with a negative exponent and rplp additionally need positive band energies, plp a nonzero one per frame, pncc positive medium-time powers (otherwise logarithms or divisions leave the reals; see C63, C106)."
 },
 "C109": {
  "status": "partial",
  "note": "Violated: with two or more C-ordered channels every call with arguments in range reads outside the array (C109_multichannel_out_of_bounds, C109_multichannel_never_ok, C109_violated). It holds for one column (C109_one_column_partial) and for Fortran order (C109_fortran_partial, channels concatenated)."
 },
 "C110": {
  "status": "proved",
  "note": "psrcc, which uses the phase, is excluded: C45_negative_gain_matters shows the difference."
 },
 "C111": {
  "status": "proved",
  "note": ""
 },
 "C112": {
  "status": "proved",
  "note": ""
 },
 "C113": {
  "status": "proved",
  "note": ""
 },
 "C114": {
  "status": "proved",
  "note": "For mfcc also with its own bank (C114_own_bank)."
 },
 "C115": {
  "status": "proved",
  "note": ""
 },
 "C116": {
  "status": "proved",
  "note": "bfcc without a bank: the approaches Wang, Tjomov, Schroeder; gfcc, ngcc without a bank: positive rate and a non-negative upper frequency."
 },
 "C117": {
  "status": "proved",
  "note": "Non-negative sampling rate and hop; lpc, lpcc and plp with order at least 2 (smaller orders are outside the model); plp with a given finite non-negative bank; pncc both with a given bank and with its own (positive rate, non-negative upper frequency)."
 },
 "C118": {
  "status": "proved",
  "note": "dct_type 2, given finite non-negative bank."
 },
 "C119": {
  "status": "partial",
  "note": "Violated without pre-emphasis: C119_multiples, C119_unsigned, C119_violated. C119_same_partial proves it with pre-emphasis and for quiet frames of signed samples. Frames of one sample are outside the model."
 },
 "C120": {
  "status": "proved",
  "note": "The rounded computation is the relation FlFrame (Model/Rounding.lean). Overflow and underflow are excluded by the relative-error model; the accuracy of FFT, absolute value, log, DCT and window functions is a hypothesis; the bank is given."
 },
 "C121": {
  "status": "proved",
  "note": "Lists of rows as arrays, one address per array; numpy evaluates right-hand sides completely before writing. weight_smoothing for R and Q of the same shape, as it is called."
 },
 "C122": {
  "status": "proved",
  "note": "The view semantics of as_strided is part of the model."
 },
 "C123": {
  "status": "proved",
  "note": "Integer sizes are modelled as natural numbers. With no grid frequency in the band the cqt functions depend on scipy's handling of empty sparse matrices; that case is excluded by hypothesis."
 },
 "C124": {
  "status": "proved",
  "note": "Props/YinMeaning.lean. Exact reals; the case of constant windows is C83, the other cases of tau_max are C82/C123."
 },
 "C125": {
  "status": "proved",
  "note": "Props/YinMeaning.lean. The errors of the FFT, of cumsum and of the quotient are hypotheses (RoundedDiff, RoundedCmnd); the final division fs/tau is exact. exact_is_rounded shows that the exact run is an instance."
 },
 "C126": {
  "status": "proved",
  "note": "Props/Butter.lean. scipy.signal.butter and lfilter are modelled by their algorithms in exact arithmetic; the loss of accuracy of the coefficient form in floating point (large for very low cut-offs) is outside the model."
 },
 "C127": {
  "status": "proved",
  "note": "Props/Butter.lean. Cut-off frequencies in the wrong order depend on the version of scipy and are excluded."
 },
 "C128": {
  "status": "proved",
  "note": "C128_stable (zeros), C128_coefficients (binomial bound), C128_synthesis (bounded resynthesis), C128_error (error positive, at most the energy, non-increasing in the order), C128_lpc, C128_lpcc and C128_plp for the API functions. Exact real arithmetic."
 },
 "C129": {
  "status": "partial",
  "note": "The code violates it: C129_violated (every signal, 18 ms / 9 ms at 48 kHz). C129_frame_length_partial: always n or n-1 samples, exactly n when the float is not below the decimal number, with the content of every frame."
 },
 "C130": {
  "status": "proved",
  "note": "fl64 is a concrete model of binary64 rounding without overflow and subnormals. C130_binary64, C130_ties_to_even, C130_int_division, C130_int_rounded, C130_default_window."
 },
 "C131": {
  "status": "proved",
  "note": "Real arithmetic with IEEE infinities and NaN; banks with more filters than nfft are excluded (the ifft truncates them)."
 },
 "C132": {
  "status": "proved",
  "note": "binary64 rounding of the products and quotients under int(); the rest of the functions in exact arithmetic. The table of the 100 floats is checked by kernel evaluation, the statement over all sampling rates is proved."
 },
 "C133": {
  "status": "proved",
  "note": "Derived from the closed form of C106. C133_gain, C133_level_dependent (the expected level independence is false for every signal)."
 },
 "C134": {
  "status": "proved",
  "note": "scipy.signal.resample is modelled by its definition (real FFT, spectrum cropped or padded, unpaired Nyquist bin, inverse). C134_mean, C134_interpolates."
 },
 "C135": {
  "status": "proved",
  "note": "leakage by summation by parts for unimodal windows, main lobe by Chebyshev's inequality; all five windows are decreasing functions of the distance from the middle"
 },
 "C136": {
  "status": "proved",
  "note": "states what the code does; the expected behaviour (the frequency of the tone) is refuted for these tones, see also C86"
 },
 "C138": {
  "status": "partial",
  "note": "Violated by the code: skewness and kurtosis are multiplied by c^-3 and c^-4, because they divide by powers of the raw second moment mu2 (witness C138_violated). Everything else is proved, for all signals including NaN results and exceptions."
 },
 "C139": {
  "status": "proved",
  "note": "exact arithmetic; tones with less than 10 samples per period or windows with less than 4 periods are not covered"
 },
 "C140": {
  "status": "proved",
  "note": "The look-ahead of exactly two frames is shown to be needed by C140_pncc_lookahead (row 0 is NaN for one signal, finite for the other). cqcc with another ratio mixes all frames through the FFT resampling, so no such claim is made there."
 },
 "C141": {
  "status": "proved",
  "note": "C141_root (equivalence of success with the same matrix), C141_ms (bank given in the call, band energies positive), C141_mvn_vanishes (bank given, type II DCT, no lifter, at least two coefficients; entries below any \u03b5 for all gains above a bound). Exact arithmetic."
 },
 "C142": {
  "status": "proved",
  "note": "Over every ordered field. The optimality statement (Spec/Deltas.lean) quantifies over all lines and gives uniqueness of the slope."
 },
 "C143": {
  "status": "proved",
  "note": "The tone fills the frame passed to compute_constant_qtransform; inside cqt_spectrogram the frames are windowed first, which this property does not cover."
 },
 "C144": {
  "status": "proved",
  "note": "Error bounds for every order of summation (C144_mean, C144_std, C144_ms, C144_vn, C144_mvn, C144_mn, C144_deltas), numbers for float64 (C144_double), and the witness that constant features give -1 instead of NaN (C144_constant). Overflow and underflow are left out."
 },
 "C145": {
  "status": "proved",
  "note": "C145_nearly and C145_stable for all signals, C145_value for the reported number, C145_tone and C145_default for tones. Overflow and underflow are left out; the accuracy of the FFT, of np.abs and of the window values is assumed."
 },
 "C146": {
  "status": "proved",
  "note": "C146_match (autocorrelations of the envelope), C146_ratio (mean ratio 1, mean logarithm log E), C146_optimal (unique minimiser), C146_lpc (rows of lpc), C146_autocorrelation (the spec's power spectrum and autocorrelation belong together). The windowing of lpc has no effect, see C64, so the frame is the unwindowed one."
 },
 "C147": {
  "status": "proved",
  "note": "Accuracy of np.log10 and ** is an assumption (LogPow), met by correctly rounded functions; no overflow or underflow, as in C120."
 },
 "C148": {
  "status": "proved",
  "note": "Accuracy of FFT, absolute value, window functions, log10, pow, log and DCT is a hypothesis; no overflow or underflow. The frame length and hop are the integers of the exact product (see C129, C132 for their float64 value)."
 },
 "C149": {
  "status": "partial",
  "note": "The full claim is false. C149_monotone_partial proves the order up to an energy of 20000; C149_reversed proves the opposite order above 32000 and the limit zero, C149_expansion the exponent 4/3 for small energies, C149_level and C149_level_bfcc the dependence on the level, C149_values that the value does not depend on the frequency of the band."
 },
 "C150": {
  "status": "proved",
  "note": "C150_reversed_bank and C150_shifted_bank for all signals and options; C150_one_band gives the row of a sound in one band in closed form."
 },
 "C151": {
  "status": "partial",
  "note": "The full claim is false, shown by C151_not_published. C151_model_partial proves which all-pole model is fitted instead, with stability and the matching of autocorrelations."
 },
 "C152": {
  "status": "proved",
  "note": "C152_stationary_decays (explicit geometric bound for every history), C152_onset (closed form of the first 1000 frames)."
 },
 "C153": {
  "status": "proved",
  "note": "C153_integer_num_ceps (all eight functions, any integer), C153_negative_own_bank, C153_negative_given_bank (with the bypassed check), C153_negative_pncc."
 },
 "C154": {
  "status": "proved",
  "note": "C154_bound (finite frames), C154_limit (convergence for stable filters), C154_lpc (rows of lpc), C154_exponential (exact value for one pole). Exact real arithmetic."
 },
 "C155": {
  "status": "partial",
  "note": "Violated by hz2bark(f, 'Traunmueller'): the code computes a straight line (C155_traunmueller_linear: a step of 1961 Hz is 26.28 Bark wherever it lies). Proved for both mel formulas, ERB, the other five Bark formulas and undocumented Bark names (C155_bark_partial), and for the mel and gammatone banks. Exact real arithmetic."
 },
 "C156": {
  "status": "partial",
  "note": "bark2hz inverts the published formula at every frequency (C156_bark2hz_inverts_partial). The rest is violated by the code, negations proved: hz2bark differs from the publication at every f > 0 outside (146, 148) (C156_hz2bark_not_published; C04_traunmueller_once: at most one agreement inside) and from its docstring at every f != 0 (C156_hz2bark_docstring, 26.28 instead of 26.81); the docstring of bark2hz is right exactly on [2, 20.1] Bark (C156_bark2hz_docstring, Bark values below 26.28); from 2103 Hz on the round trip is negative (C156_traunmueller_negative); Beranek's formula is larger by 5 to 6 parts per million and the name raises KeyError (C156_beranek). Exact real arithmetic."
 },
 "C157": {
  "status": "partial",
  "note": "Violated: the code has no MAX block. C157_diagram_partial: every output is at most the documented one, and equal exactly unless there is excitation and the masked excess is below the floor. C157_max_missing: after any steady stretch of 201 to 500 frames a drop to 2.2 times the noise estimate is passed on with 0.2 of the steady excess, below the documented floor. Exact real arithmetic."
 },
 "C158": {
  "status": "partial",
  "note": "Violated: the code filters along the bands of each frame. C158_transposed_partial: the claim holds for the transposed call. C158_steady: for equal frames the output is zero iff the bands satisfy a fixed linear relation, where filtering in time gives zero. C158_channel: a fixed channel changes every output row by the response to the channel, where filtering in time does not see it."
 },
 "C159": {
  "status": "partial",
  "note": "Violated: C159_jump gives, for every delta, two signals that differ by less than delta in one sample while their coefficients differ by more than 0.1 (the phase is reduced to [0, 360) instead of unwrapped). C159_continuous_partial proves continuity when every phase sum is positive and every complex bin is away from the non-negative real axis (the two real bins only have to be non-zero); missing: signals with a bin on that axis, where the claim is false."
 },
 "C160": {
  "status": "proved",
  "note": "Exact criterion for mel, inverse mel and linear banks; the band of an empty filter is zero for every signal."
 },
 "C161": {
  "status": "proved",
  "note": ""
 },
 "C162": {
  "status": "partial",
  "note": "Violated: zero_handling raises energies that are exactly 0 to 2^-52 but leaves smaller positive ones alone. C162_below_silence: any signal with energy in every band of a frame, scaled down far enough, gets a first coefficient below every bound, for all five features. C162_bfcc_quiet: for bfcc every non-silent frame with at most 1e-4 of energy per band is already below silence. C162_floor_partial proves the claim when no band value lies strictly between 0 and 2^-52."
 },
 "C163": {
  "status": "proved",
  "note": "For automatically built banks and frames of at most nfft samples. C163_crop shows with a frame of two samples and nfft = 1 that the condition is needed. Only the second returned array is compared: the first one changes with nfft."
 },
 "C164": {
  "status": "partial",
  "note": "The full claim is false (C164_differs). C164_relation_partial gives the exact relation between the result and the documented formula and equality at 0; C164_documented the order and the bound of the documented formula. Not settled: the exact argument between 12.1 and 12.12 where the two cross."
 },
 "C165": {
  "status": "partial",
  "note": "The full claim is false. C165_sign: for frames ending with p zeros the returned coefficients minimise the documented error only if all are zero. C165_end: frame [1, 1], error 13/4 as returned, 5/4 with the sign changed, minimum 1. C165_order: order = 2 predicts from one sample. C165_negated_partial proves minimality of the negated coefficients for frames ending with p zeros."
 },
 "C166": {
  "status": "partial",
  "note": "Violated: lfilter runs along the last axis, which has length 1, so pre-emphasis leaves a column as it is. C166_features, C166_pncc, C166_lpc and C166_cqcc prove that the result for a column is that for the flat signal with pre_emph=False; C166_same_partial, C166_lpc_same_partial and C166_cqcc_same_partial give the agreement without pre-emphasis; C166_differs (mfcc), C166_lpc_differs (lpc) and C166_cqcc_differs (cqcc) are concrete signals where the two shapes give different features. Not covered: columns that are not C-ordered. An empty column with pre_emph=True is excluded by hypothesis in C166_features."
 },
 "C167": {
  "status": "partial",
  "note": "Violated: the sum at lag tau has len - tau terms. C167_terms_partial gives the missing terms exactly and the condition for agreement; C167_ramp_documented shows that the documented normalised difference of a ramp is at least 1 for every W (so also for the reading W = tau_max of line 23); C167_differs proves that compute_yin reports a pitch in every window of every ramp if the window has exactly int(fs/low_freq) samples and thr*(W+1) >= 12; C167_ramp_default is the case of the default frequencies and threshold with win_len = 0.02."
 },
 "C168": {
  "status": "partial",
  "note": "Violated: rfft(a=sig, n=nfft) crops the signal to nfft = 512 samples. C168_reach characterises the dependence exactly (equal features iff the first nfft samples agree), C168_ignored and C168_violated give the negation, C168_whole_partial the property for signals of at most nfft samples."
 },
 "C169": {
  "status": "partial",
  "note": "Violated: the difference is taken between neighbouring bins of one spectrum. C169_violated: a click has flux 0 and a constant signal nfft*|c|, while the documented flux between equal spectra is 0 (C169_documented). C169_neighbours_partial: the value is the documented flux from the spectrum to itself moved by one bin."
 },
 "C170": {
  "status": "proved",
  "note": "Exceptions are included for lpc, lpcc, plp and rplp; the parameters are assumed to be accepted on some signal. rplp (C170_rplp) for recordings with positive filter outputs: the RASTA state is handed to the next frame but has no effect there. Normalisation, which uses all rows, is not covered."
 },
 "C171": {
  "status": "proved",
  "note": "L = nfilts equal to the number of columns."
 },
 "C172": {
  "status": "proved",
  "note": "Model of the cepstral functions as in C116."
 },
 "C173": {
  "status": "partial",
  "note": "Violated: C173_violated (kurtosis 16/fs^4 instead of 1 for two equal bins at any rate). C173_standard proves kurtosis >= 1 + skewness^2 for the standardised moments. C173_relation_partial gives the exact factor (spread/mu2)^p between the two: the sign of the skewness is right, the values are too small by at least mu2^(3/2) and mu2^2."
 },
 "C174": {
  "status": "proved",
  "note": "DCT type 2, no energy, liftering or normalisation. Accuracy of FFT, absolute value, power function and DCT is assumed as in C120; no underflow or overflow."
 },
 "C175": {
  "status": "proved",
  "note": "The inverse and its product with -r[1:] (LAPACK, numpy) enter through the residual they leave in the computed equations; no bound of that residual is claimed. The error term returned by the code is not covered (C63)."
 },
 "C176": {
  "status": "proved",
  "note": "Real arithmetic for the samples and differences; the integer period limits are the exact floors."
 },
 "C177": {
  "status": "proved",
  "note": "About the coefficients returned and their true prediction error; the error term the code returns is a different number (C63)."
 },
 "C178": {
  "status": "proved",
  "note": "C178_weights gives the added vector, C178_ms the invariance for given banks, C178_scale/_imfcc/_ngcc the invariance under the option scale with the built-in banks."
 },
 "C179": {
  "status": "proved",
  "note": "C179_sources for the spectrogram functions with a given bank, C179_white for white noise without pre-emphasis. Exact real arithmetic."
 },
 "C180": {
  "status": "proved",
  "note": "C180_mel, C180_bark for every rounding; *_double for binary64 without overflow and denormals. Zwicker is not covered; Terhardt and Traunmueller do not round-trip even exactly (C04). C180_mel_flat assumes log10(1) = 0 and 10**0 = 1 exactly."
 },
 "C181": {
  "status": "proved",
  "note": "C181_centroid, C181_flatness, C181_flux for every rounding; *_double for binary64 without overflow and denormals. The spectrum is given exactly; C181_centroid_stable adds the effect of errors in it for the centroid."
 },
 "C182": {
  "status": "partial",
  "note": "Proved: show_fbanks (exceptions, curves, markers), the mel plot of the docstring, show_features, the value at every point of the documented spectrogram picture, the time axis for every signal length and hop, and the frequency axis for a linear spectrogram (C182_bands_partial). Violated for mel: the axis of the documented picture is linear in kHz while the bands are equally spaced in mel, so with n >= 5 filters up to at least 8b Hz (5600 for the default) the centre frequency of the middle band lies in the strip of a lower band (C182_bands_violated), and a spectrogram with all its energy in that band is drawn 80 dB down there (C182_picture_violated). Figures, colours, fonts and file output of matplotlib are not modelled: a picture is the list of drawing commands with their data."
 },
 "C183": {
  "status": "proved",
  "note": "Overflow and underflow are not modelled. Comparisons, np.maximum and np.where are exact. The distances from the thresholds are hypotheses of C183_channel and C183_suppression; C183_jump shows that they cannot be dropped, C183_candidates is the unconditional statement."
 },
 "C184": {
  "status": "proved",
  "note": "With the default exponent -1/7 the bound applies to energies between e^-7 and e^7."
 },
 "C185": {
  "status": "proved",
  "note": "C185_tone (bounds for every frame length, including that lpc succeeds), C185_frequency (limit of long frames), C185_default (4 kHz at the default settings)."
 },
 "C186": {
  "status": "proved",
  "note": "C186_imfcc (both directions), C186_bank, C186_lfcc, C186_lpc, C186_tone (what the change of signs does to a tone)."
 },
 "C187": {
  "status": "proved",
  "note": "C187_mel, C187_linear, C187_bark, C187_erb (the two bounds), C187_resolved (comparison of bins), C187_default (two tones, defaults at 16 kHz without pre-emphasis, melSpectrogram)."
 },
 "C188": {
  "status": "proved",
  "note": "C188_mel, C188_linear, C188_bark, C188_erb (the magnitudes), C188_features (log features with the caller's bank)."
 },
 "C189": {
  "status": "proved",
  "note": "C189_mel, C189_linear, C189_bark, C189_erb, C189_default."
 },
 "C190": {
  "status": "proved",
  "note": "C190_mel, C190_linear, C190_bark, C190_erb, C190_delay (delay, defaults, mel_spectrogram)."
 },
 "C191": {
  "status": "proved",
  "note": "C191_mel, C191_linear, C191_bark, C191_erb, C191_dominant, C191_default (numbers, mel_spectrogram). Exact reals."
 },
 "C192": {
  "status": "proved",
  "note": "C192_tone (lag), C192_hertz (Hz); default_yinNoise gives the default range. Exact reals."
 },
 "C193": {
  "status": "proved",
  "note": "C193_lpc_continuous, C193_lpc_bound, C193_frame. Exact reals; rounding is C175."
 },
 "C194": {
  "status": "partial",
  "note": "Violated: C194_violated. At the signal 1, 1, 0 the residual is 0 and is replaced by 2^-52, while nearby signals have log residuals below any bound. C194_lpcc_partial proves continuity of the coefficients 1, 2, ... and of coefficient 0 of every frame whose residual is not zero."
 },
 "C195": {
  "status": "proved",
  "note": "C195_plp, C195_rplp. Exact reals. Coefficient 0 at a zero residual is excluded in the statement; the jump there is C194_violated."
 },
 "C196": {
  "status": "partial",
  "note": "Violated by the code: C196_violated gives a four-sample signal, on the threshold 0.85 of temporal_masking, at which coefficient 0 of the last frame jumps by a fixed amount. C196_pncc_partial proves continuity at every signal that is off the two thresholds (excess against 0.85 times the peak, power against twice the envelope). Exact reals."
 },
 "C197": {
  "status": "proved",
  "note": "C197_rasta, C197_double, C197_exponential, C197_exact. No overflow or underflow; no fused multiply-add in lfilter's recursion."
 },
 "C198": {
  "status": "proved",
  "note": "C198_tail, C198_zero, C198_converges, C198_plp, C198_rplp, with fbanks given, lifter and normalize None. Library routines enter by their accuracy. No overflow or underflow."
 },
 "C199": {
  "status": "partial",
  "note": "C199_spectrogram has no exception; C199_cqcc_partial assumes that no entry of the transform is zero, with lifter and normalize None. Where an entry is zero the property is false, C199_violated: zero_handling replaces the zero by 2.22e-16, nearby powers are kept however small."
 },
 "C200": {
  "status": "proved",
  "note": "C200_entry (transform), C200_cqcc (end to end; dct_type 2, lifter and normalize None), C200_double (numbers for float64), C200_gain (the resampling gain is 1 for ratio 1), C200_threshold (a doubtful entry may cost the whole transform). The selected frequencies and window lengths are those of exact arithmetic; the kernel FFT, np.abs, the logarithm, resample and the DCT enter by their accuracy; overflow and underflow are left out."
 },
 "C201": {
  "status": "partial",
  "note": "Violated: C201_unheard (the samples outside the analysis windows do not matter) and C201_violated (default grid, 16 kHz, 7680 Hz: any two signals agreeing on 72 of every 160 samples have the same row). What holds: C201_meaning (every entry, from the signal), C201_click (weight of a sample), C201_nested (lower frequencies hear more), C201_heard_partial (windows at least as long as the hop). Pre-emphasis is off in all but C201_meaning."
 },
 "C202": {
  "status": "proved",
  "note": "C202_band (phase sums), C202_psrcc (end to end; dct_type 2, use_energy False, lifter and normalize None), C202_double (numbers for float64 and 512 points), C202_jump (the condition is needed). Assumed: relative accuracy of np.angle, accuracy of np.fft.rfft in norm and that its real bins have no imaginary part; power and DCT enter by their accuracy; overflow, underflow and signed zeros are left out."
 },
 "C203": {
  "status": "proved",
  "note": "C203_weight (weight smoothing), C203_suppressed and C203_weighted (the stages chained), C203_powers (band powers to normalised powers), C203_pncc (end to end; power 2, dct_type 2, lifter and normalize None), C203_double (numbers for binary64). That the comparisons have to be decided is C183_jump. The power 1/15 (including the rounding of the exponent) and the DCT enter by their accuracy; overflow and underflow are left out."
 },
 "C204": {
  "status": "proved",
  "note": "C204_energy (band energies), C204_shift (normalize None), C204_ms (normalize 'ms'). The edges are those of C190, so the statement is useful for impulse responses that are short against the frame. lifter None, dct_type 2, use_energy False. Exact reals."
 }
}