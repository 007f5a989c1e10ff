{
 "claims": [
  {
   "property": "C01",
   "status": "proved",
   "theorems": [
    "Spafe.Props.C01_mel2hz_hz2mel",
    "Spafe.Props.C01_hz2mel_mel2hz"
   ],
   "note": ""
  },
  {
   "property": "C02",
   "status": "proved",
   "theorems": [
    "Spafe.Props.C02_hz2mel_strictMono",
    "Spafe.Props.C02_unknown_approach",
    "Spafe.Props.C02_anchor"
   ],
   "note": ""
  },
  {
   "property": "C03",
   "status": "proved",
   "theorems": [
    "Spafe.Props.C03_erb2hz_hz2erb",
    "Spafe.Props.C03_hz2erb_erb2hz",
    "Spafe.Props.C03_hz2erb_strictMono",
    "Spafe.Props.C03_anchor",
    "Spafe.Props.C03_unknown_approach"
   ],
   "note": ""
  },
  {
   "property": "C04",
   "status": "partial",
   "theorems": [
    "Spafe.Props.C04_bark_roundtrip_partial",
    "Spafe.Props.C04_terhardt_never_roundtrips",
    "Spafe.Props.C04_traunmueller_once"
   ],
   "note": "Proved for Wang, Tjomov, Schroeder, Zwicker. The claim is false for Terhardt (at every f > 0) and for Traunmueller (at every f > 0 but one, between 146 and 148 Hz); both negations are proved."
  },
  {
   "property": "C05",
   "status": "proved",
   "theorems": [
    "Spafe.Props.C05_hz2bark_strictMono",
    "Spafe.Props.C05_anchor",
    "Spafe.Props.C05_unknown_is_wang",
    "Spafe.Props.C05_wang_onto"
   ],
   "note": ""
  },
  {
   "property": "C06",
   "status": "proved",
   "theorems": [
    "Spafe.Props.C06_scale_values",
    "Spafe.Props.C06_scale_range",
    "Spafe.Props.C06_scale_mirror",
    "Spafe.Props.C06_scale_unknown"
   ],
   "note": ""
  },
  {
   "property": "C07",
   "status": "proved",
   "theorems": [
    "Spafe.Props.C07_rasta_rows",
    "Spafe.Props.C07_rasta_unique",
    "Spafe.Props.C07_rasta_row_independent",
    "Spafe.Props.C07_rasta_bounded",
    "Spafe.Props.C07_rasta_constant",
    "Spafe.Props.C07_rasta_empty_row"
   ],
   "note": ""
  },
  {
   "property": "C08",
   "status": "proved",
   "theorems": [
    "Spafe.Props.C08_zero_handling_pointwise",
    "Spafe.Props.C08_zero_handling_nonzero",
    "Spafe.Props.C08_log_finite"
   ],
   "note": ""
  },
  {
   "property": "C09",
   "status": "proved",
   "theorems": [
    "Spafe.Props.C09_pre_emphasis",
    "Spafe.Props.C09_call"
   ],
   "note": ""
  },
  {
   "property": "C10",
   "status": "proved",
   "theorems": [
    "Spafe.Props.C10_pre_emphasis_add",
    "Spafe.Props.C10_pre_emphasis_smul",
    "Spafe.Props.C10_pre_emphasis_causal",
    "Spafe.Props.C10_pre_emphasis_zero",
    "Spafe.Props.C10_pre_emphasis_injective"
   ],
   "note": ""
  },
  {
   "property": "C11",
   "status": "proved",
   "theorems": [
    "Spafe.Props.C11_framing_content",
    "Spafe.Props.C11_negative_hop_reads_out_of_bounds"
   ],
   "note": "For a positive hop, any rounding. For negative hops the code reads out of bounds: C11_negative_hop_reads_out_of_bounds."
  },
  {
   "property": "C12",
   "status": "proved",
   "theorems": [
    "Spafe.Props.C12_framing_cases",
    "Spafe.Props.C12_framing_param_iff",
    "Spafe.Props.C12_framing_zero_hop"
   ],
   "note": ""
  },
  {
   "property": "C13",
   "status": "proved",
   "theorems": [
    "Spafe.Props.C13_framing_coverage"
   ],
   "note": ""
  },
  {
   "property": "C14",
   "status": "proved",
   "theorems": [
    "Spafe.Props.C14_window_formula",
    "Spafe.Props.C14_window_vector",
    "Spafe.Props.C14_windowing_contracts",
    "Spafe.Props.C14_window_shape"
   ],
   "note": ""
  },
  {
   "property": "C15",
   "status": "proved",
   "theorems": [
    "Spafe.Props.C15_ms",
    "Spafe.Props.C15_ms_idempotent",
    "Spafe.Props.C15_ms_shift"
   ],
   "note": ""
  },
  {
   "property": "C16",
   "status": "proved",
   "theorems": [
    "Spafe.Props.C16_mvn",
    "Spafe.Props.C16_mvn_not_unit_variance"
   ],
   "note": "Exact variance of the result; the documented unit variance is refuted by C16_mvn_not_unit_variance."
  },
  {
   "property": "C17",
   "status": "proved",
   "theorems": [
    "Spafe.Props.C17_vn",
    "Spafe.Props.C17_vn_gain"
   ],
   "note": ""
  },
  {
   "property": "C18",
   "status": "proved",
   "theorems": [
    "Spafe.Props.C18_mn"
   ],
   "note": ""
  },
  {
   "property": "C19",
   "status": "proved",
   "theorems": [
    "Spafe.Props.C19_constant",
    "Spafe.Props.C19_errors"
   ],
   "note": ""
  },
  {
   "property": "C20",
   "status": "proved",
   "theorems": [
    "Spafe.Props.C20_lifter_identity",
    "Spafe.Props.C20_lifter_weights",
    "Spafe.Props.C20_lifter_fraction_nan"
   ],
   "note": ""
  },
  {
   "property": "C21",
   "status": "proved",
   "theorems": [
    "Spafe.Props.C21_reversible_iff",
    "Spafe.Props.C21_lifter_minus_two_not_injective"
   ],
   "note": "C21_reversible_iff characterises exactly when liftering can be undone (exact reals); C21_lifter_minus_two_not_injective is the concrete failing case."
  },
  {
   "property": "C22",
   "status": "proved",
   "theorems": [
    "Spafe.Props.C22_deltas_formula"
   ],
   "note": ""
  },
  {
   "property": "C23",
   "status": "proved",
   "theorems": [
    "Spafe.Props.C23_deltas_constant",
    "Spafe.Props.C23_deltas_ramp",
    "Spafe.Props.C23_deltas_reverse",
    "Spafe.Props.C23_deltas_add",
    "Spafe.Props.C23_deltas_smul"
   ],
   "note": ""
  },
  {
   "property": "C24",
   "status": "proved",
   "theorems": [
    "Spafe.Props.C24_bark_validation",
    "Spafe.Props.C24_gammatone_validation",
    "Spafe.Props.C24_mel_validation",
    "Spafe.Props.C24_linear_validation",
    "Spafe.Props.C24_inverse_mel_validation",
    "Spafe.Props.C24_inverse_mel_unknown_scale",
    "Spafe.Props.C24_zero_is_none"
   ],
   "note": "Inverse mel bank: the same for known scale names; an unknown scale raises KeyError before the checks (C24_inverse_mel_unknown_scale)."
  },
  {
   "property": "C25",
   "status": "proved",
   "theorems": [
    "Spafe.Props.C25_bark_shape",
    "Spafe.Props.C25_gammatone_shape",
    "Spafe.Props.C25_mel_shape",
    "Spafe.Props.C25_linear_shape",
    "Spafe.Props.C25_inverse_mel_shape"
   ],
   "note": ""
  },
  {
   "property": "C26",
   "status": "proved",
   "theorems": [
    "Spafe.Props.C26_mel_triangles",
    "Spafe.Props.C26_mel_edges",
    "Spafe.Props.C26_mel_range",
    "Spafe.Props.C26_apex"
   ],
   "note": ""
  },
  {
   "property": "C27",
   "status": "proved",
   "theorems": [
    "Spafe.Props.C27_mel_centres",
    "Spafe.Props.C27_linear_centres"
   ],
   "note": ""
  },
  {
   "property": "C28",
   "status": "proved",
   "theorems": [
    "Spafe.Props.C28_mel_partition_of_unity",
    "Spafe.Props.C28_linear_partition_of_unity"
   ],
   "note": ""
  },
  {
   "property": "C29",
   "status": "partial",
   "theorems": [
    "Spafe.Props.C29_columns_are_bins_partial",
    "Spafe.Props.C29_linear_columns_are_bins_partial",
    "Spafe.Props.C29_bins_iff",
    "Spafe.Props.C29_violated"
   ],
   "note": "Holds for low=0, high=fs/2, even nfft; characterised exactly by C29_bins_iff; refuted otherwise by C29_violated."
  },
  {
   "property": "C30",
   "status": "proved",
   "theorems": [
    "Spafe.Props.C30_linear_triangles"
   ],
   "note": ""
  },
  {
   "property": "C31",
   "status": "proved",
   "theorems": [
    "Spafe.Props.C31_inverse_mel_is_mirror",
    "Spafe.Props.C31_inverse_mel_weights"
   ],
   "note": ""
  },
  {
   "property": "C32",
   "status": "partial",
   "theorems": [
    "Spafe.Props.C32_default_raises_type_error",
    "Spafe.Props.C32_inverse_centres",
    "Spafe.Props.C32_centres_partial",
    "Spafe.Props.C32_centres_off"
   ],
   "note": "Violated: default high_freq=None raises TypeError on every valid input (C32_default_raises_type_error) and for low_freq>0 every returned centre is too low (C32_centres_off). The remaining case low_freq=0 with explicit high_freq is C32_centres_partial."
  },
  {
   "property": "C33",
   "status": "proved",
   "theorems": [
    "Spafe.Props.C33_curve",
    "Spafe.Props.C33_monotone",
    "Spafe.Props.C33_bank_range"
   ],
   "note": ""
  },
  {
   "property": "C34",
   "status": "partial",
   "theorems": [
    "Spafe.Props.C34_bark_ok_partial",
    "Spafe.Props.C34_zwicker_ok_partial",
    "Spafe.Props.C34_zwicker_value_error",
    "Spafe.Props.C34_terhardt_index_error",
    "Spafe.Props.C34_traunmueller_zero_bank"
   ],
   "note": "Holds for Wang, Tjomov, Schroeder and Zwicker with low>0. Violated: Zwicker low=0 (ValueError), Terhardt defaults (IndexError), Traunmueller defaults (all-zero bank), all proved."
  },
  {
   "property": "C35",
   "status": "proved",
   "theorems": [
    "Spafe.Props.C35_peak",
    "Spafe.Props.C35_no_division_by_zero"
   ],
   "note": ""
  },
  {
   "property": "C36",
   "status": "proved",
   "theorems": [
    "Spafe.Props.C36_centres"
   ],
   "note": ""
  },
  {
   "property": "C37",
   "status": "proved",
   "theorems": [
    "Spafe.Props.C37_nfilts_check",
    "Spafe.Props.C37_plp_nfilts_check",
    "Spafe.Props.C37_pncc_nfilts_check"
   ],
   "note": ""
  },
  {
   "property": "C38",
   "status": "proved",
   "theorems": [
    "Spafe.Props.C38_feature_shape",
    "Spafe.Props.C38_num_ceps_columns",
    "Spafe.Props.C38_pncc_shape"
   ],
   "note": ""
  },
  {
   "property": "C39",
   "status": "proved",
   "theorems": [
    "Spafe.Props.C39_precomputed_bank",
    "Spafe.Props.C39_given_bank_ignores_band",
    "Spafe.Props.C39_plp_precomputed_bank",
    "Spafe.Props.C39_pncc_precomputed_bank"
   ],
   "note": ""
  },
  {
   "property": "C40",
   "status": "proved",
   "theorems": [
    "Spafe.Props.C40_spectrogram_nonneg",
    "Spafe.Props.C40_own_banks"
   ],
   "note": ""
  },
  {
   "property": "C41",
   "status": "proved",
   "theorems": [
    "Spafe.Props.C41_finite_given_bank",
    "Spafe.Props.C41_finite_own_bank",
    "Spafe.Props.C41_mfcc_defaults"
   ],
   "note": ""
  },
  {
   "property": "C42",
   "status": "partial",
   "theorems": [
    "Spafe.Props.C42_msrcc_finite_partial",
    "Spafe.Props.C42_psrcc_finite_partial",
    "Spafe.Props.C42_psrcc_repair_is_identity",
    "Spafe.Props.C42_msrcc_silence_infinite",
    "Spafe.Props.C42_psrcc_silence_infinite",
    "Spafe.Props.C42_violated",
    "Spafe.Props.C42_pncc_silent_stretch_nan",
    "Spafe.Props.C42_pncc_silence_nan",
    "Spafe.Props.C42_pncc_finite_partial",
    "Spafe.Props.C42_pncc_violated"
   ],
   "note": "Violated: msrcc and psrcc with the default negative gamma return +inf on silence (C42_msrcc_silence_infinite, C42_psrcc_silence_infinite, C42_violated). The _partial theorems give finiteness for gamma >= 0 or positive filter outputs. pncc returns NaN on silence and on every frame after a silent stretch (C42_pncc_silence_nan, C42_pncc_silent_stretch_nan, C42_pncc_violated); finite when the filter outputs are positive near every frame (C42_pncc_finite_partial)."
  },
  {
   "property": "C43",
   "status": "proved",
   "theorems": [
    "Spafe.Props.C43_gain"
   ],
   "note": ""
  },
  {
   "property": "C44",
   "status": "proved",
   "theorems": [
    "Spafe.Props.C44_root_gain"
   ],
   "note": ""
  },
  {
   "property": "C45",
   "status": "proved",
   "theorems": [
    "Spafe.Props.C45_psrcc_gain",
    "Spafe.Props.C45_negative_gain_matters"
   ],
   "note": ""
  },
  {
   "property": "C46",
   "status": "proved",
   "theorems": [
    "Spafe.Props.C46_prefix"
   ],
   "note": ""
  },
  {
   "property": "C47",
   "status": "partial",
   "theorems": [
    "Spafe.Props.C47_cqcc_pre_emph_coeff",
    "Spafe.Props.C47_pre_emph_coeff_partial",
    "Spafe.Props.C47_ignored",
    "Spafe.Props.C47_violated",
    "Spafe.Props.C47_lpc_ignored",
    "Spafe.Props.C47_lpc_violated",
    "Spafe.Props.C47_plp_pre_emph_coeff",
    "Spafe.Props.C47_pncc_honoured"
   ],
   "note": "Violated by lfcc, bfcc, gfcc (C47_ignored, C47_violated) and lpc, lpcc (C47_lpc_ignored, C47_lpc_violated); proved for mfcc, imfcc, ngcc, msrcc, psrcc, pncc."
  },
  {
   "property": "C48",
   "status": "proved",
   "theorems": [
    "Spafe.Props.C48_cropped",
    "Spafe.Props.C48_no_sample_dropped"
   ],
   "note": ""
  },
  {
   "property": "C49",
   "status": "proved",
   "theorems": [
    "Spafe.Props.C49_first_column",
    "Spafe.Props.C49_meaning",
    "Spafe.Props.C49_use_energy",
    "Spafe.Props.C49_parseval"
   ],
   "note": ""
  },
  {
   "property": "C50",
   "status": "proved",
   "theorems": [
    "Spafe.Props.C50_dct_isometry",
    "Spafe.Props.C50_mfcc_reversible"
   ],
   "note": ""
  },
  {
   "property": "C51",
   "status": "proved",
   "theorems": [
    "Spafe.Props.C51_num_ceps_truncates"
   ],
   "note": ""
  },
  {
   "property": "C52",
   "status": "proved",
   "theorems": [
    "Spafe.Props.C52_imfcc",
    "Spafe.Props.C52_imfcc_default_raises"
   ],
   "note": ""
  },
  {
   "property": "C53",
   "status": "proved",
   "theorems": [
    "Spafe.Props.C53_medium_time_average",
    "Spafe.Props.C53_medium_time_bounds"
   ],
   "note": ""
  },
  {
   "property": "C54",
   "status": "partial",
   "theorems": [
    "Spafe.Props.C54_recursion_partial",
    "Spafe.Props.C54_first_frame",
    "Spafe.Props.C54_violated",
    "Spafe.Props.C54_no_frames"
   ],
   "note": "Recursion and bounds proved (C54_recursion_partial). The first-frame clause is false for two frames or more: C54_first_frame, C54_violated."
  },
  {
   "property": "C55",
   "status": "proved",
   "theorems": [
    "Spafe.Props.C55_temporal_masking",
    "Spafe.Props.C55_masking_bounds"
   ],
   "note": ""
  },
  {
   "property": "C56",
   "status": "partial",
   "theorems": [
    "Spafe.Props.C56_weight_smoothing_partial",
    "Spafe.Props.C56_constant_ratio",
    "Spafe.Props.C56_channel_zero_unused",
    "Spafe.Props.C56_too_many_filters"
   ],
   "note": "Exact formula proved (C56_weight_smoothing_partial). It is not an average: divides by one more than the number of channels (C56_constant_ratio) and skips channel 0 (C56_channel_zero_unused)."
  },
  {
   "property": "C57",
   "status": "proved",
   "theorems": [
    "Spafe.Props.C57_mean_power",
    "Spafe.Props.C57_too_few_channels"
   ],
   "note": ""
  },
  {
   "property": "C58",
   "status": "proved",
   "theorems": [
    "Spafe.Props.C58_noise_suppression",
    "Spafe.Props.C58_noise_suppression_le",
    "Spafe.Props.C58_meaning"
   ],
   "note": ""
  },
  {
   "property": "C59",
   "status": "proved",
   "theorems": [
    "Spafe.Props.C59_normal_equations",
    "Spafe.Props.C59_unique",
    "Spafe.Props.C59_lpc"
   ],
   "note": ""
  },
  {
   "property": "C60",
   "status": "proved",
   "theorems": [
    "Spafe.Props.C60_minimal_error"
   ],
   "note": ""
  },
  {
   "property": "C61",
   "status": "proved",
   "theorems": [
    "Spafe.Props.C61_defined_iff",
    "Spafe.Props.C61_lpc_defined_iff"
   ],
   "note": ""
  },
  {
   "property": "C62",
   "status": "proved",
   "theorems": [
    "Spafe.Props.C62_gain",
    "Spafe.Props.C62_lpc_gain"
   ],
   "note": ""
  },
  {
   "property": "C63",
   "status": "partial",
   "theorems": [
    "Spafe.Props.C63_code_value_all",
    "Spafe.Props.C63_minimal_error_formula",
    "Spafe.Props.C63_code_value",
    "Spafe.Props.C63_one_sample_partial",
    "Spafe.Props.C63_violated"
   ],
   "note": "Violated: C63_violated ([1,1], order 1: 5/2 instead of 3/2). C63_code_value_all gives what is computed, C63_minimal_error_formula the documented value; they agree for one-sample frames (C63_one_sample_partial)."
  },
  {
   "property": "C64",
   "status": "partial",
   "theorems": [
    "Spafe.Props.C64_window_ignored",
    "Spafe.Props.C64_unknown_window_partial",
    "Spafe.Props.C64_violated"
   ],
   "note": "Violated for every signal (C64_window_ignored, C64_violated). Only the window name is checked (C64_unknown_window_partial)."
  },
  {
   "property": "C65",
   "status": "partial",
   "theorems": [
    "Spafe.Props.C65_lpc2lpcc_partial",
    "Spafe.Props.C65_index_error",
    "Spafe.Props.C65_index_two",
    "Spafe.Props.C65_violated"
   ],
   "note": "Violated (C65_index_two, C65_violated). C65_lpc2lpcc_partial gives the exact result and the indices at which the recursion holds; C65_index_error the sizes that raise."
  },
  {
   "property": "C66",
   "status": "proved",
   "theorems": [
    "Spafe.Props.C66_plp_shape",
    "Spafe.Props.C66_plp_defined",
    "Spafe.Props.C66_plp_silence",
    "Spafe.Props.C66_rplp_defined",
    "Spafe.Props.C66_rplp_zero_raises",
    "Spafe.Props.C66_rplp_silence"
   ],
   "note": "Shape for every successful call. Success of plp characterised exactly (positive filter outputs in every frame, else LinAlgError); rplp succeeds for positive filter outputs and raises ValueError when the first output of the first frame is 0. Orders 0 and 1 not modelled."
  },
  {
   "property": "C67",
   "status": "proved",
   "theorems": [
    "Spafe.Props.C67_selection"
   ],
   "note": ""
  },
  {
   "property": "C68",
   "status": "proved",
   "theorems": [
    "Spafe.Props.C68_shape",
    "Spafe.Props.C68_in_bounds"
   ],
   "note": ""
  },
  {
   "property": "C69",
   "status": "partial",
   "theorems": [
    "Spafe.Props.C69_raises",
    "Spafe.Props.C69_empty_band_partial",
    "Spafe.Props.C69_violated",
    "Spafe.Props.C69_cqcc_violated"
   ],
   "note": "Violated: C69_raises (every such call raises IndexError), C69_violated and C69_cqcc_violated (concrete arguments). The remaining case of a band without grid frequency is C69_empty_band_partial."
  },
  {
   "property": "C70",
   "status": "proved",
   "theorems": [
    "Spafe.Props.C70_linear"
   ],
   "note": ""
  },
  {
   "property": "C71",
   "status": "proved",
   "theorems": [
    "Spafe.Props.C71_shape",
    "Spafe.Props.C71_validation"
   ],
   "note": ""
  },
  {
   "property": "C72",
   "status": "proved",
   "theorems": [
    "Spafe.Props.C72_meaning",
    "Spafe.Props.C72_range",
    "Spafe.Props.C72_gain",
    "Spafe.Props.C72_single_bin",
    "Spafe.Props.C72_degenerate"
   ],
   "note": ""
  },
  {
   "property": "C73",
   "status": "proved",
   "theorems": [
    "Spafe.Props.C73_meaning",
    "Spafe.Props.C73_range",
    "Spafe.Props.C73_gain"
   ],
   "note": ""
  },
  {
   "property": "C74",
   "status": "proved",
   "theorems": [
    "Spafe.Props.C74_meaning",
    "Spafe.Props.C74_nonneg_zero_iff",
    "Spafe.Props.C74_scale"
   ],
   "note": ""
  },
  {
   "property": "C75",
   "status": "partial",
   "theorems": [
    "Spafe.Props.C75_violated",
    "Spafe.Props.C75_zero_bin",
    "Spafe.Props.C75_range_partial"
   ],
   "note": "Violated: C75_violated, C75_zero_bin. C75_range_partial proves range and maximum for normalised non-zero magnitudes."
  },
  {
   "property": "C76",
   "status": "partial",
   "theorems": [
    "Spafe.Props.C76_arrays",
    "Spafe.Props.C76_rolloff_swapped",
    "Spafe.Props.C76_spread_violated",
    "Spafe.Props.C76_rolloff_violated",
    "Spafe.Props.C76_rolloff_partial",
    "Spafe.Props.C76_defined"
   ],
   "note": "Violated: C76_arrays and C76_rolloff_swapped for every successful call, C76_spread_violated, C76_rolloff_violated. C76_rolloff_partial covers the direct call."
  },
  {
   "property": "C77",
   "status": "proved",
   "theorems": [
    "Spafe.Props.C77_difference",
    "Spafe.Props.C77_lag_zero"
   ],
   "note": ""
  },
  {
   "property": "C78",
   "status": "proved",
   "theorems": [
    "Spafe.Props.C78_normalised",
    "Spafe.Props.C78_gain"
   ],
   "note": ""
  },
  {
   "property": "C79",
   "status": "proved",
   "theorems": [
    "Spafe.Props.C79_search"
   ],
   "note": ""
  },
  {
   "property": "C80",
   "status": "proved",
   "theorems": [
    "Spafe.Props.C80_shape",
    "Spafe.Props.C80_last_window_skipped"
   ],
   "note": ""
  },
  {
   "property": "C81",
   "status": "partial",
   "theorems": [
    "Spafe.Props.C81_range_partial",
    "Spafe.Props.C81_violated"
   ],
   "note": "Upper bound violated: C81_violated (3200 Hz for high_freq 3000 with the defaults). C81_range_partial proves the lower bound and the bound fs/floor(fs/high_freq)."
  },
  {
   "property": "C82",
   "status": "proved",
   "theorems": [
    "Spafe.Props.C82_affine",
    "Spafe.Props.C82_gain"
   ],
   "note": ""
  },
  {
   "property": "C83",
   "status": "proved",
   "theorems": [
    "Spafe.Props.C83_silence"
   ],
   "note": ""
  },
  {
   "property": "C84",
   "status": "proved",
   "theorems": [
    "Spafe.Props.C84_periodic"
   ],
   "note": ""
  },
  {
   "property": "C85",
   "status": "proved",
   "theorems": [
    "Spafe.Props.C85_count",
    "Spafe.Props.C85_range"
   ],
   "note": ""
  },
  {
   "property": "C86",
   "status": "partial",
   "theorems": [
    "Spafe.Props.C86_meaning",
    "Spafe.Props.C86_dc_partial",
    "Spafe.Props.C86_wrong",
    "Spafe.Props.C86_upper_half_dropped",
    "Spafe.Props.C86_violated"
   ],
   "note": "The claim is false in the code: C86_wrong proves that every bin k >= 1 is reported wrongly (a third too high or negative), C86_upper_half_dropped that such frames vanish, C86_violated gives concrete signals. C86_meaning says exactly what is reported; C86_dc_partial is the case that holds."
  },
  {
   "property": "C87",
   "status": "proved",
   "theorems": [
    "Spafe.Props.C87_meaning",
    "Spafe.Props.C87_range",
    "Spafe.Props.C87_negative_range",
    "Spafe.Props.C87_silence",
    "Spafe.Props.C87_gain"
   ],
   "note": ""
  },
  {
   "property": "C88",
   "status": "proved",
   "theorems": [
    "Spafe.Props.C88_unconverted",
    "Spafe.Props.C88_converted"
   ],
   "note": ""
  },
  {
   "property": "C89",
   "status": "proved",
   "theorems": [
    "Spafe.Props.C89_rplp_gain_invariant"
   ],
   "note": ""
  },
  {
   "property": "C90",
   "status": "proved",
   "theorems": [
    "Spafe.Props.C90_rplp_row_local",
    "Spafe.Props.C90_rplp_four_filters"
   ],
   "note": "The documented purpose of RASTA (filtering along time) is not what the code does; this states what it does."
  },
  {
   "property": "C91",
   "status": "proved",
   "theorems": [
    "Spafe.Props.C91_meaning",
    "Spafe.Props.C91_exact"
   ],
   "note": "Float64 as exact reals; sparse product as the plain product."
  },
  {
   "property": "C92",
   "status": "proved",
   "theorems": [
    "Spafe.Props.C92_gain",
    "Spafe.Props.C92_no_resampling"
   ],
   "note": ""
  },
  {
   "property": "C93",
   "status": "proved",
   "theorems": [
    "Spafe.Props.C93_defined"
   ],
   "note": ""
  },
  {
   "property": "C94",
   "status": "partial",
   "theorems": [
    "Spafe.Props.C94_every_bin_wrong",
    "Spafe.Props.C94_range_partial"
   ],
   "note": "Violated for all nfft >= 3 and k >= 1: C94_every_bin_wrong. C94_range_partial keeps the range and the 0 Hz case."
  },
  {
   "property": "C95",
   "status": "proved",
   "theorems": [
    "Spafe.Props.C95_meaning",
    "Spafe.Props.C95_gain",
    "Spafe.Props.C95_nan"
   ],
   "note": ""
  },
  {
   "property": "C96",
   "status": "partial",
   "theorems": [
    "Spafe.Props.C96_variance",
    "Spafe.Props.C96_rms_violated",
    "Spafe.Props.C96_rms_partial"
   ],
   "note": "Variance, std and mean proved (C96_variance); RMS violated (C96_rms_violated) and proved for real spectra (C96_rms_partial)."
  },
  {
   "property": "C97",
   "status": "proved",
   "theorems": [
    "Spafe.Props.C97_defined",
    "Spafe.Props.C97_short_window",
    "Spafe.Props.C97_errors"
   ],
   "note": ""
  },
  {
   "property": "C98",
   "status": "proved",
   "theorems": [
    "Spafe.Props.C98_local"
   ],
   "note": ""
  },
  {
   "property": "C99",
   "status": "proved",
   "theorems": [
    "Spafe.Props.C99_call",
    "Spafe.Props.C99_gain",
    "Spafe.Props.C99_silence"
   ],
   "note": ""
  },
  {
   "property": "C100",
   "status": "proved",
   "theorems": [
    "Spafe.Props.C100_defined"
   ],
   "note": ""
  },
  {
   "property": "C101",
   "status": "proved",
   "theorems": [
    "Spafe.Props.C101_meaning",
    "Spafe.Props.C101_msrcc_meaning",
    "Spafe.Props.C101_psrcc_meaning"
   ],
   "note": "dct_type 2, no lifter/normalize/use_energy (those are C102, C103); msrcc and psrcc with gamma < 0 need positive band sums (see C42)."
  },
  {
   "property": "C102",
   "status": "proved",
   "theorems": [
    "Spafe.Props.C102_post_processing",
    "Spafe.Props.C102_cqcc",
    "Spafe.Props.C102_lpcc"
   ],
   "note": ""
  },
  {
   "property": "C103",
   "status": "proved",
   "theorems": [
    "Spafe.Props.C103_energy_column_only"
   ],
   "note": ""
  },
  {
   "property": "C104",
   "status": "proved",
   "theorems": [
    "Spafe.Props.C104_gammatone_formula"
   ],
   "note": ""
  },
  {
   "property": "C105",
   "status": "proved",
   "theorems": [
    "Spafe.Props.C105_dct_inverse",
    "Spafe.Props.C105_dct_isometry",
    "Spafe.Props.C105_features_reversible",
    "Spafe.Props.C105_other_types_rejected"
   ],
   "note": ""
  },
  {
   "property": "C106",
   "status": "proved",
   "theorems": [
    "Spafe.Props.C106_pncc_meaning"
   ],
   "note": "DCT type 2, no lifter, no normalisation; the power exponent, bank, window and framing are arbitrary."
  },
  {
   "property": "C107",
   "status": "proved",
   "theorems": [
    "Spafe.Props.C107_lpc_meaning",
    "Spafe.Props.C107_lpcc_meaning",
    "Spafe.Props.C107_plp_meaning",
    "Spafe.Props.C107_rplp_meaning",
    "Spafe.Props.C107_predictor_unique"
   ],
   "note": "No lifter, no normalisation. The residual and the coefficients are those spafe computes (they differ from the documented ones, see C63 and C65)."
  },
  {
   "property": "C108",
   "status": "proved",
   "theorems": [
    "Spafe.Props.C108_mfcc",
    "Spafe.Props.C108_lfcc",
    "Spafe.Props.C108_imfcc",
    "Spafe.Props.C108_bfcc",
    "Spafe.Props.C108_gammatone",
    "Spafe.Props.C108_msrcc",
    "Spafe.Props.C108_plp",
    "Spafe.Props.C108_rplp",
    "Spafe.Props.C108_pncc"
   ],
   "note": "Hypotheses Auto/Band are the valid argument ranges; default arguments are shown to meet them. msrcc with a negative exponent and rplp additionally need positive band energies, plp a nonzero one per frame, pncc positive medium-time powers (otherwise logarithms or divisions leave the reals; see C63, C106)."
  },
  {
   "property": "C109",
   "status": "partial",
   "theorems": [
    "Spafe.Props.C109_read",
    "Spafe.Props.C109_multichannel_out_of_bounds",
    "Spafe.Props.C109_multichannel_never_ok",
    "Spafe.Props.C109_one_column_partial",
    "Spafe.Props.C109_fortran_partial",
    "Spafe.Props.C109_pre_emphasis_across_channels",
    "Spafe.Props.C109_violated"
   ],
   "note": "Violated: with two or more C-ordered channels every call with arguments in range reads outside the array (C109_multichannel_out_of_bounds, C109_multichannel_never_ok, C109_violated). It holds for one column (C109_one_column_partial) and for Fortran order (C109_fortran_partial, channels concatenated)."
  },
  {
   "property": "C110",
   "status": "proved",
   "theorems": [
    "Spafe.Props.C110_call",
    "Spafe.Props.C110_polarity",
    "Spafe.Props.C110_spectrograms",
    "Spafe.Props.C110_pncc",
    "Spafe.Props.C110_lpc",
    "Spafe.Props.C110_cqcc",
    "Spafe.Props.C110_frequencies"
   ],
   "note": "psrcc, which uses the phase, is excluded: C45_negative_gain_matters shows the difference."
  },
  {
   "property": "C111",
   "status": "proved",
   "theorems": [
    "Spafe.Props.C111_local",
    "Spafe.Props.C111_plp_local",
    "Spafe.Props.C111_rplp_local",
    "Spafe.Props.C111_lpc_local",
    "Spafe.Props.C111_lpcc_local",
    "Spafe.Props.C111_cqt_local",
    "Spafe.Props.C111_shift",
    "Spafe.Props.C111_cut"
   ],
   "note": ""
  },
  {
   "property": "C112",
   "status": "proved",
   "theorems": [
    "Spafe.Props.C112_reversal",
    "Spafe.Props.C112_lpc"
   ],
   "note": ""
  },
  {
   "property": "C113",
   "status": "proved",
   "theorems": [
    "Spafe.Props.C113_mel",
    "Spafe.Props.C113_linear",
    "Spafe.Props.C113_bark",
    "Spafe.Props.C113_erb"
   ],
   "note": ""
  },
  {
   "property": "C114",
   "status": "proved",
   "theorems": [
    "Spafe.Props.C114_log_features",
    "Spafe.Props.C114_gfcc",
    "Spafe.Props.C114_own_bank"
   ],
   "note": "For mfcc also with its own bank (C114_own_bank)."
  },
  {
   "property": "C115",
   "status": "proved",
   "theorems": [
    "Spafe.Props.C115_mel",
    "Spafe.Props.C115_linear",
    "Spafe.Props.C115_mel_exact",
    "Spafe.Props.C115_linear_exact"
   ],
   "note": ""
  },
  {
   "property": "C116",
   "status": "proved",
   "theorems": [
    "Spafe.Props.C116_given_bank",
    "Spafe.Props.C116_mel_features",
    "Spafe.Props.C116_lfcc",
    "Spafe.Props.C116_imfcc",
    "Spafe.Props.C116_gfcc_ngcc",
    "Spafe.Props.C116_bfcc"
   ],
   "note": "bfcc without a bank: the approaches Wang, Tjomov, Schroeder; gfcc, ngcc without a bank: positive rate and a non-negative upper frequency."
  },
  {
   "property": "C117",
   "status": "proved",
   "theorems": [
    "Spafe.Props.C117_spectrograms",
    "Spafe.Props.C117_pncc_given_bank",
    "Spafe.Props.C117_pncc",
    "Spafe.Props.C117_lpc",
    "Spafe.Props.C117_lpcc",
    "Spafe.Props.C117_plp"
   ],
   "note": "Non-negative sampling rate and hop; lpc, lpcc and plp with order at least 2 (smaller orders are outside the model); plp with a given finite non-negative bank; pncc both with a given bank and with its own (positive rate, non-negative upper frequency)."
  },
  {
   "property": "C118",
   "status": "proved",
   "theorems": [
    "Spafe.Props.C118_energy",
    "Spafe.Props.C118_log_features",
    "Spafe.Props.C118_gfcc"
   ],
   "note": "dct_type 2, given finite non-negative bank."
  },
  {
   "property": "C119",
   "status": "partial",
   "theorems": [
    "Spafe.Props.C119_same_partial",
    "Spafe.Props.C119_multiples",
    "Spafe.Props.C119_unsigned",
    "Spafe.Props.C119_quiet_partial",
    "Spafe.Props.C119_loud",
    "Spafe.Props.C119_violated"
   ],
   "note": "Violated without pre-emphasis: C119_multiples, C119_unsigned, C119_violated. C119_same_partial proves it with pre-emphasis and for quiet frames of signed samples. Frames of one sample are outside the model."
  },
  {
   "property": "C120",
   "status": "proved",
   "theorems": [
    "Spafe.Props.C120_sum",
    "Spafe.Props.C120_dot",
    "Spafe.Props.C120_pre_emphasis",
    "Spafe.Props.C120_windowing",
    "Spafe.Props.C120_energy",
    "Spafe.Props.C120_spectrograms",
    "Spafe.Props.C120_log_features",
    "Spafe.Props.C120_silence",
    "Spafe.Props.C120_double"
   ],
   "note": "The rounded computation is the relation FlFrame (Model/Rounding.lean). Overflow and underflow are excluded by the relative-error model; the accuracy of FFT, absolute value, log, DCT and window functions is a hypothesis; the bank is given."
  },
  {
   "property": "C121",
   "status": "proved",
   "theorems": [
    "Spafe.Props.C121_asymmetric",
    "Spafe.Props.C121_masking",
    "Spafe.Props.C121_smoothing",
    "Spafe.Props.C121_mean_power",
    "Spafe.Props.C121_rasta",
    "Spafe.Props.C121_mel_bank",
    "Spafe.Props.C121_reverse",
    "Spafe.Props.C121_noise_suppression",
    "Spafe.Props.C121_pncc",
    "Spafe.Props.C121_unchanged"
   ],
   "note": "Lists of rows as arrays, one address per array; numpy evaluates right-hand sides completely before writing. weight_smoothing for R and Q of the same shape, as it is called."
  },
  {
   "property": "C122",
   "status": "proved",
   "theorems": [
    "Spafe.Props.C122_frames",
    "Spafe.Props.C122_independent",
    "Spafe.Props.C122_shared"
   ],
   "note": "The view semantics of as_strided is part of the model."
  },
  {
   "property": "C123",
   "status": "proved",
   "theorems": [
    "Spafe.Props.C123_mel",
    "Spafe.Props.C123_linear",
    "Spafe.Props.C123_inverse_mel",
    "Spafe.Props.C123_bark",
    "Spafe.Props.C123_gammatone",
    "Spafe.Props.C123_framing",
    "Spafe.Props.C123_windowing",
    "Spafe.Props.C123_dominant",
    "Spafe.Props.C123_extract_feats",
    "Spafe.Props.C123_yin",
    "Spafe.Props.C123_cqt_spectrogram",
    "Spafe.Props.C123_cqcc"
   ],
   "note": "Integer sizes are modelled as natural numbers. With no grid frequency in the band the cqt functions depend on scipy's handling of empty sparse matrices; that case is excluded by hypothesis."
  },
  {
   "property": "C124",
   "status": "proved",
   "theorems": [
    "Spafe.Props.C124_meaning",
    "Spafe.Props.C124_unique"
   ],
   "note": "Props/YinMeaning.lean. Exact reals; the case of constant windows is C83, the other cases of tau_max are C82/C123."
  },
  {
   "property": "C125",
   "status": "proved",
   "theorems": [
    "Spafe.Props.C125_same_pitch",
    "Spafe.Props.C125_exact",
    "Spafe.Props.C125_silence",
    "Spafe.Props.C125_constant_not_robust"
   ],
   "note": "Props/YinMeaning.lean. The errors of the FFT, of cumsum and of the quotient are hypotheses (RoundedDiff, RoundedCmnd); the final division fs/tau is exact. exact_is_rounded shows that the exact run is an instance."
  },
  {
   "property": "C126",
   "status": "proved",
   "theorems": [
    "Spafe.Props.C126_band_pass",
    "Spafe.Props.C126_gain",
    "Spafe.Props.C126_tone",
    "Spafe.Props.C126_bounded"
   ],
   "note": "Props/Butter.lean. scipy.signal.butter and lfilter are modelled by their algorithms in exact arithmetic; the loss of accuracy of the coefficient form in floating point (large for very low cut-offs) is outside the model."
  },
  {
   "property": "C127",
   "status": "proved",
   "theorems": [
    "Spafe.Props.C127_exceptions",
    "Spafe.Props.C127_default_fails",
    "Spafe.Props.C127_count_gain"
   ],
   "note": "Props/Butter.lean. Cut-off frequencies in the wrong order depend on the version of scipy and are excluded."
  },
  {
   "property": "C128",
   "status": "proved",
   "theorems": [
    "Spafe.Props.C128_stable",
    "Spafe.Props.C128_coefficients",
    "Spafe.Props.C128_synthesis",
    "Spafe.Props.C128_error",
    "Spafe.Props.C128_lpc",
    "Spafe.Props.C128_lpcc",
    "Spafe.Props.C128_plp"
   ],
   "note": "C128_stable (zeros), C128_coefficients (binomial bound), C128_synthesis (bounded resynthesis), C128_error (error positive, at most the energy, non-increasing in the order), C128_lpc, C128_lpcc and C128_plp for the API functions. Exact real arithmetic."
  },
  {
   "property": "C129",
   "status": "partial",
   "theorems": [
    "Spafe.Props.C129_frame_length_partial",
    "Spafe.Props.C129_violated"
   ],
   "note": "The code violates it: C129_violated (every signal, 18 ms / 9 ms at 48 kHz). C129_frame_length_partial: always n or n-1 samples, exactly n when the float is not below the decimal number, with the content of every frame."
  },
  {
   "property": "C130",
   "status": "proved",
   "theorems": [
    "Spafe.Props.C130_binary64",
    "Spafe.Props.C130_ties_to_even",
    "Spafe.Props.C130_int_division",
    "Spafe.Props.C130_int_rounded",
    "Spafe.Props.C130_default_window"
   ],
   "note": "fl64 is a concrete model of binary64 rounding without overflow and subnormals. C130_binary64, C130_ties_to_even, C130_int_division, C130_int_rounded, C130_default_window."
  },
  {
   "property": "C131",
   "status": "proved",
   "theorems": [
    "Spafe.Props.C131_rplp",
    "Spafe.Props.C131_rplp_ok"
   ],
   "note": "Real arithmetic with IEEE infinities and NaN; banks with more filters than nfft are excluded (the ifft truncates them)."
  },
  {
   "property": "C132",
   "status": "proved",
   "theorems": [
    "Spafe.Props.C132_safe",
    "Spafe.Props.C132_milliseconds",
    "Spafe.Props.C132_framing",
    "Spafe.Props.C132_yin",
    "Spafe.Props.C132_cqcc",
    "Spafe.Props.C132_cqcc_violated"
   ],
   "note": "binary64 rounding of the products and quotients under int(); the rest of the functions in exact arithmetic. The table of the 100 floats is checked by kernel evaluation, the statement over all sampling rates is proved."
  },
  {
   "property": "C133",
   "status": "proved",
   "theorems": [
    "Spafe.Props.C133_gain",
    "Spafe.Props.C133_level_dependent"
   ],
   "note": "Derived from the closed form of C106. C133_gain, C133_level_dependent (the expected level independence is false for every signal)."
  },
  {
   "property": "C134",
   "status": "proved",
   "theorems": [
    "Spafe.Props.C134_mean",
    "Spafe.Props.C134_interpolates"
   ],
   "note": "scipy.signal.resample is modelled by its definition (real FFT, spectrum cropped or padded, unpaired Nyquist bin, inverse). C134_mean, C134_interpolates."
  },
  {
   "property": "C135",
   "status": "proved",
   "theorems": [
    "Spafe.Props.C135_mel",
    "Spafe.Props.C135_linear",
    "Spafe.Props.C135_bark",
    "Spafe.Props.C135_erb",
    "Spafe.Props.C135_default"
   ],
   "note": "leakage by summation by parts for unimodal windows, main lobe by Chebyshev's inequality; all five windows are decreasing functions of the distance from the middle"
  },
  {
   "property": "C136",
   "status": "proved",
   "theorems": [
    "Spafe.Props.C136_tone",
    "Spafe.Props.C136_default"
   ],
   "note": "states what the code does; the expected behaviour (the frequency of the tone) is refuted for these tones, see also C86"
  },
  {
   "property": "C137",
   "status": "proved",
   "theorems": [
    "Spafe.Props.C137_linear_bank",
    "Spafe.Props.C137_lfcc",
    "Spafe.Props.C137_given_bank",
    "Spafe.Props.C137_lpc",
    "Spafe.Props.C137_cqt",
    "Spafe.Props.C137_yin",
    "Spafe.Props.C137_dominant"
   ],
   "note": ""
  },
  {
   "property": "C138",
   "status": "partial",
   "theorems": [
    "Spafe.Props.C138_centroid",
    "Spafe.Props.C138_extract_feats_partial",
    "Spafe.Props.C138_violated"
   ],
   "note": "Violated by the code: skewness and kurtosis are multiplied by c^-3 and c^-4, because they divide by powers of the raw second moment mu2 (witness C138_violated). Everything else is proved, for all signals including NaN results and exceptions."
  },
  {
   "property": "C139",
   "status": "proved",
   "theorems": [
    "Spafe.Props.C139_tone",
    "Spafe.Props.C139_error",
    "Spafe.Props.C139_exact"
   ],
   "note": "exact arithmetic; tones with less than 10 samples per period or windows with less than 4 periods are not covered"
  },
  {
   "property": "C140",
   "status": "proved",
   "theorems": [
    "Spafe.Props.C140_pncc",
    "Spafe.Props.C140_pncc_append",
    "Spafe.Props.C140_pncc_defined",
    "Spafe.Props.C140_pncc_lookahead",
    "Spafe.Props.C140_psrcc",
    "Spafe.Props.C140_cqcc",
    "Spafe.Props.C140_dominant"
   ],
   "note": "The look-ahead of exactly two frames is shown to be needed by C140_pncc_lookahead (row 0 is NaN for one signal, finite for the other). cqcc with another ratio mixes all frames through the FFT resampling, so no such claim is made there."
  },
  {
   "property": "C141",
   "status": "proved",
   "theorems": [
    "Spafe.Props.C141_root",
    "Spafe.Props.C141_ms",
    "Spafe.Props.C141_mvn_vanishes"
   ],
   "note": "C141_root (equivalence of success with the same matrix), C141_ms (bank given in the call, band energies positive), C141_mvn_vanishes (bank given, type II DCT, no lifter, at least two coefficients; entries below any \u03b5 for all gains above a bound). Exact arithmetic."
  },
  {
   "property": "C142",
   "status": "proved",
   "theorems": [
    "Spafe.Props.C142_least_squares",
    "Spafe.Props.C142_default_window",
    "Spafe.Props.C142_bound",
    "Spafe.Props.C142_monotone",
    "Spafe.Props.C142_even_window",
    "Spafe.Props.C142_trivial_window",
    "Spafe.Props.C142_rows_separate"
   ],
   "note": "Over every ordered field. The optimality statement (Spec/Deltas.lean) quantifies over all lines and gives uniqueness of the slope."
  },
  {
   "property": "C143",
   "status": "proved",
   "theorems": [
    "Spafe.Props.C143_response",
    "Spafe.Props.C143_default",
    "Spafe.Props.C143_own_row"
   ],
   "note": "The tone fills the frame passed to compute_constant_qtransform; inside cqt_spectrogram the frames are windowed first, which this property does not cover."
  },
  {
   "property": "C144",
   "status": "proved",
   "theorems": [
    "Spafe.Props.C144_mean",
    "Spafe.Props.C144_std",
    "Spafe.Props.C144_ms",
    "Spafe.Props.C144_vn",
    "Spafe.Props.C144_mvn",
    "Spafe.Props.C144_mn",
    "Spafe.Props.C144_deltas",
    "Spafe.Props.C144_double",
    "Spafe.Props.C144_constant"
   ],
   "note": "Error bounds for every order of summation (C144_mean, C144_std, C144_ms, C144_vn, C144_mvn, C144_mn, C144_deltas), numbers for float64 (C144_double), and the witness that constant features give -1 instead of NaN (C144_constant). Overflow and underflow are left out."
  },
  {
   "property": "C145",
   "status": "proved",
   "theorems": [
    "Spafe.Props.C145_nearly",
    "Spafe.Props.C145_stable",
    "Spafe.Props.C145_tone",
    "Spafe.Props.C145_value",
    "Spafe.Props.C145_default"
   ],
   "note": "C145_nearly and C145_stable for all signals, C145_value for the reported number, C145_tone and C145_default for tones. Overflow and underflow are left out; the accuracy of the FFT, of np.abs and of the window values is assumed."
  },
  {
   "property": "C146",
   "status": "proved",
   "theorems": [
    "Spafe.Props.C146_autocorrelation",
    "Spafe.Props.C146_match",
    "Spafe.Props.C146_ratio",
    "Spafe.Props.C146_optimal",
    "Spafe.Props.C146_lpc"
   ],
   "note": "C146_match (autocorrelations of the envelope), C146_ratio (mean ratio 1, mean logarithm log E), C146_optimal (unique minimiser), C146_lpc (rows of lpc), C146_autocorrelation (the spec's power spectrum and autocorrelation belong together). The windowing of lpc has no effect, see C64, so the frame is the unwindowed one."
  },
  {
   "property": "C147",
   "status": "proved",
   "theorems": [
    "Spafe.Props.C147_points",
    "Spafe.Props.C147_grid",
    "Spafe.Props.C147_hz2mel",
    "Spafe.Props.C147_mel2hz",
    "Spafe.Props.C147_mel_edges",
    "Spafe.Props.C147_entry",
    "Spafe.Props.C147_weight",
    "Spafe.Props.C147_mel",
    "Spafe.Props.C147_inverse",
    "Spafe.Props.C147_linear",
    "Spafe.Props.C147_double",
    "Spafe.Props.C147_default"
   ],
   "note": "Accuracy of np.log10 and ** is an assumption (LogPow), met by correctly rounded functions; no overflow or underflow, as in C120."
  },
  {
   "property": "C148",
   "status": "proved",
   "theorems": [
    "Spafe.Props.C148_energy",
    "Spafe.Props.C148_mfcc",
    "Spafe.Props.C148_lfcc",
    "Spafe.Props.C148_imfcc",
    "Spafe.Props.C148_mel_spectrogram",
    "Spafe.Props.C148_linear_spectrogram",
    "Spafe.Props.C148_default"
   ],
   "note": "Accuracy of FFT, absolute value, window functions, log10, pow, log and DCT is a hypothesis; no overflow or underflow. The frame length and hop are the integers of the exact product (see C129, C132 for their float64 value)."
  },
  {
   "property": "C149",
   "status": "partial",
   "theorems": [
    "Spafe.Props.C149_values",
    "Spafe.Props.C149_monotone_partial",
    "Spafe.Props.C149_reversed",
    "Spafe.Props.C149_expansion",
    "Spafe.Props.C149_level",
    "Spafe.Props.C149_level_bfcc"
   ],
   "note": "The full claim is false. C149_monotone_partial proves the order up to an energy of 20000; C149_reversed proves the opposite order above 32000 and the limit zero, C149_expansion the exponent 4/3 for small energies, C149_level and C149_level_bfcc the dependence on the level, C149_values that the value does not depend on the frequency of the band."
  },
  {
   "property": "C150",
   "status": "proved",
   "theorems": [
    "Spafe.Props.C150_reversed_bank",
    "Spafe.Props.C150_shifted_bank",
    "Spafe.Props.C150_one_band"
   ],
   "note": "C150_reversed_bank and C150_shifted_bank for all signals and options; C150_one_band gives the row of a sound in one band in closed form."
  },
  {
   "property": "C151",
   "status": "partial",
   "theorems": [
    "Spafe.Props.C151_model_partial",
    "Spafe.Props.C151_not_published"
   ],
   "note": "The full claim is false, shown by C151_not_published. C151_model_partial proves which all-pole model is fitted instead, with stability and the matching of autocorrelations."
  },
  {
   "property": "C152",
   "status": "proved",
   "theorems": [
    "Spafe.Props.C152_stationary_decays",
    "Spafe.Props.C152_onset"
   ],
   "note": "C152_stationary_decays (explicit geometric bound for every history), C152_onset (closed form of the first 1000 frames)."
  },
  {
   "property": "C153",
   "status": "proved",
   "theorems": [
    "Spafe.Props.C153_integer_num_ceps",
    "Spafe.Props.C153_negative_own_bank",
    "Spafe.Props.C153_negative_given_bank",
    "Spafe.Props.C153_negative_pncc"
   ],
   "note": "C153_integer_num_ceps (all eight functions, any integer), C153_negative_own_bank, C153_negative_given_bank (with the bypassed check), C153_negative_pncc."
  },
  {
   "property": "C154",
   "status": "proved",
   "theorems": [
    "Spafe.Props.C154_bound",
    "Spafe.Props.C154_limit",
    "Spafe.Props.C154_lpc",
    "Spafe.Props.C154_exponential"
   ],
   "note": "C154_bound (finite frames), C154_limit (convergence for stable filters), C154_lpc (rows of lpc), C154_exponential (exact value for one pole). Exact real arithmetic."
  },
  {
   "property": "C155",
   "status": "partial",
   "theorems": [
    "Spafe.Props.C155_mel",
    "Spafe.Props.C155_erb",
    "Spafe.Props.C155_bark_partial",
    "Spafe.Props.C155_traunmueller_linear",
    "Spafe.Props.C155_mel_bank",
    "Spafe.Props.C155_gammatone_bank"
   ],
   "note": "Violated by hz2bark(f, 'Traunmueller'): the code computes a straight line (C155_traunmueller_linear: a step of 1961 Hz is 26.28 Bark wherever it lies). Proved for both mel formulas, ERB, the other five Bark formulas and undocumented Bark names (C155_bark_partial), and for the mel and gammatone banks. Exact real arithmetic."
  },
  {
   "property": "C156",
   "status": "partial",
   "theorems": [
    "Spafe.Props.C156_bark2hz_inverts_partial",
    "Spafe.Props.C156_hz2bark_not_published",
    "Spafe.Props.C156_hz2bark_docstring",
    "Spafe.Props.C156_bark2hz_docstring",
    "Spafe.Props.C156_traunmueller_negative",
    "Spafe.Props.C156_beranek"
   ],
   "note": "bark2hz inverts the published formula at every frequency (C156_bark2hz_inverts_partial). The rest is violated by the code, negations proved: hz2bark differs from the publication at every f > 0 outside (146, 148) (C156_hz2bark_not_published; C04_traunmueller_once: at most one agreement inside) and from its docstring at every f != 0 (C156_hz2bark_docstring, 26.28 instead of 26.81); the docstring of bark2hz is right exactly on [2, 20.1] Bark (C156_bark2hz_docstring, Bark values below 26.28); from 2103 Hz on the round trip is negative (C156_traunmueller_negative); Beranek's formula is larger by 5 to 6 parts per million and the name raises KeyError (C156_beranek). Exact real arithmetic."
  },
  {
   "property": "C157",
   "status": "partial",
   "theorems": [
    "Spafe.Props.C157_diagram_partial",
    "Spafe.Props.C157_max_missing"
   ],
   "note": "Violated: the code has no MAX block. C157_diagram_partial: every output is at most the documented one, and equal exactly unless there is excitation and the masked excess is below the floor. C157_max_missing: after any steady stretch of 201 to 500 frames a drop to 2.2 times the noise estimate is passed on with 0.2 of the steady excess, below the documented floor. Exact real arithmetic."
  },
  {
   "property": "C158",
   "status": "partial",
   "theorems": [
    "Spafe.Props.C158_transposed_partial",
    "Spafe.Props.C158_steady",
    "Spafe.Props.C158_channel"
   ],
   "note": "Violated: the code filters along the bands of each frame. C158_transposed_partial: the claim holds for the transposed call. C158_steady: for equal frames the output is zero iff the bands satisfy a fixed linear relation, where filtering in time gives zero. C158_channel: a fixed channel changes every output row by the response to the channel, where filtering in time does not see it."
  },
  {
   "property": "C159",
   "status": "partial",
   "theorems": [
    "Spafe.Props.C159_continuous_partial",
    "Spafe.Props.C159_jump"
   ],
   "note": "Violated: C159_jump gives, for every delta, two signals that differ by less than delta in one sample while their coefficients differ by more than 0.1 (the phase is reduced to [0, 360) instead of unwrapped). C159_continuous_partial proves continuity when every phase sum is positive and every complex bin is away from the non-negative real axis (the two real bins only have to be non-zero); missing: signals with a bin on that axis, where the claim is false."
  },
  {
   "property": "C160",
   "status": "proved",
   "theorems": [
    "Spafe.Props.C160_mel_iff",
    "Spafe.Props.C160_inverse_iff",
    "Spafe.Props.C160_linear_iff",
    "Spafe.Props.C160_default",
    "Spafe.Props.C160_silent_band",
    "Spafe.Props.C160_deaf"
   ],
   "note": "Exact criterion for mel, inverse mel and linear banks; the band of an empty filter is zero for every signal."
  },
  {
   "property": "C161",
   "status": "proved",
   "theorems": [
    "Spafe.Props.C161_tone",
    "Spafe.Props.C161_high_pass",
    "Spafe.Props.C161_default",
    "Spafe.Props.C161_energy",
    "Spafe.Props.C161_constant"
   ],
   "note": ""
  },
  {
   "property": "C162",
   "status": "partial",
   "theorems": [
    "Spafe.Props.C162_floor_partial",
    "Spafe.Props.C162_below_silence",
    "Spafe.Props.C162_bfcc_quiet"
   ],
   "note": "Violated: zero_handling raises energies that are exactly 0 to 2^-52 but leaves smaller positive ones alone. C162_below_silence: any signal with energy in every band of a frame, scaled down far enough, gets a first coefficient below every bound, for all five features. C162_bfcc_quiet: for bfcc every non-silent frame with at most 1e-4 of energy per band is already below silence. C162_floor_partial proves the claim when no band value lies strictly between 0 and 2^-52."
  },
  {
   "property": "C163",
   "status": "proved",
   "theorems": [
    "Spafe.Props.C163_mel",
    "Spafe.Props.C163_linear",
    "Spafe.Props.C163_bark",
    "Spafe.Props.C163_erb",
    "Spafe.Props.C163_crop"
   ],
   "note": "For automatically built banks and frames of at most nfft samples. C163_crop shows with a frame of two samples and nfft = 1 that the condition is needed. Only the second returned array is compared: the first one changes with nfft."
  },
  {
   "property": "C164",
   "status": "partial",
   "theorems": [
    "Spafe.Props.C164_relation_partial",
    "Spafe.Props.C164_documented",
    "Spafe.Props.C164_differs"
   ],
   "note": "The full claim is false (C164_differs). C164_relation_partial gives the exact relation between the result and the documented formula and equality at 0; C164_documented the order and the bound of the documented formula. Not settled: the exact argument between 12.1 and 12.12 where the two cross."
  },
  {
   "property": "C165",
   "status": "partial",
   "theorems": [
    "Spafe.Props.C165_negated_partial",
    "Spafe.Props.C165_sign",
    "Spafe.Props.C165_end",
    "Spafe.Props.C165_order"
   ],
   "note": "The full claim is false. C165_sign: for frames ending with p zeros the returned coefficients minimise the documented error only if all are zero. C165_end: frame [1, 1], error 13/4 as returned, 5/4 with the sign changed, minimum 1. C165_order: order = 2 predicts from one sample. C165_negated_partial proves minimality of the negated coefficients for frames ending with p zeros."
  },
  {
   "property": "C166",
   "status": "partial",
   "theorems": [
    "Spafe.Props.C166_cqcc",
    "Spafe.Props.C166_cqcc_same_partial",
    "Spafe.Props.C166_cqcc_differs",
    "Spafe.Props.C166_features",
    "Spafe.Props.C166_pncc",
    "Spafe.Props.C166_lpc",
    "Spafe.Props.C166_same_partial",
    "Spafe.Props.C166_lpc_same_partial",
    "Spafe.Props.C166_differs",
    "Spafe.Props.C166_lpc_differs"
   ],
   "note": "Violated: lfilter runs along the last axis, which has length 1, so pre-emphasis leaves a column as it is. C166_features, C166_pncc, C166_lpc and C166_cqcc prove that the result for a column is that for the flat signal with pre_emph=False; C166_same_partial, C166_lpc_same_partial and C166_cqcc_same_partial give the agreement without pre-emphasis; C166_differs (mfcc), C166_lpc_differs (lpc) and C166_cqcc_differs (cqcc) are concrete signals where the two shapes give different features. Not covered: columns that are not C-ordered. An empty column with pre_emph=True is excluded by hypothesis in C166_features."
  },
  {
   "property": "C167",
   "status": "partial",
   "theorems": [
    "Spafe.Props.C167_terms_partial",
    "Spafe.Props.C167_ramp_documented",
    "Spafe.Props.C167_differs",
    "Spafe.Props.C167_ramp_default"
   ],
   "note": "Violated: the sum at lag tau has len - tau terms. C167_terms_partial gives the missing terms exactly and the condition for agreement; C167_ramp_documented shows that the documented normalised difference of a ramp is at least 1 for every W (so also for the reading W = tau_max of line 23); C167_differs proves that compute_yin reports a pitch in every window of every ramp if the window has exactly int(fs/low_freq) samples and thr*(W+1) >= 12; C167_ramp_default is the case of the default frequencies and threshold with win_len = 0.02."
  },
  {
   "property": "C168",
   "status": "partial",
   "theorems": [
    "Spafe.Props.C168_reach",
    "Spafe.Props.C168_ignored",
    "Spafe.Props.C168_violated",
    "Spafe.Props.C168_whole_partial"
   ],
   "note": "Violated: rfft(a=sig, n=nfft) crops the signal to nfft = 512 samples. C168_reach characterises the dependence exactly (equal features iff the first nfft samples agree), C168_ignored and C168_violated give the negation, C168_whole_partial the property for signals of at most nfft samples."
  },
  {
   "property": "C169",
   "status": "partial",
   "theorems": [
    "Spafe.Props.C169_neighbours_partial",
    "Spafe.Props.C169_violated",
    "Spafe.Props.C169_documented"
   ],
   "note": "Violated: the difference is taken between neighbouring bins of one spectrum. C169_violated: a click has flux 0 and a constant signal nfft*|c|, while the documented flux between equal spectra is 0 (C169_documented). C169_neighbours_partial: the value is the documented flux from the spectrum to itself moved by one bin."
  },
  {
   "property": "C170",
   "status": "proved",
   "theorems": [
    "Spafe.Props.C170_blocks",
    "Spafe.Props.C170_lpc",
    "Spafe.Props.C170_emphasis",
    "Spafe.Props.C170_plp",
    "Spafe.Props.C170_naive_differs",
    "Spafe.Props.C170_rplp",
    "Spafe.Props.C170_emphasis_lp"
   ],
   "note": "Exceptions are included for lpc, lpcc, plp and rplp; the parameters are assumed to be accepted on some signal. rplp (C170_rplp) for recordings with positive filter outputs: the RASTA state is handed to the next frame but has no effect there. Normalisation, which uses all rows, is not covered."
  },
  {
   "property": "C171",
   "status": "proved",
   "theorems": [
    "Spafe.Props.C171_average",
    "Spafe.Props.C171_stationary",
    "Spafe.Props.C171_settles",
    "Spafe.Props.C171_slow"
   ],
   "note": "L = nfilts equal to the number of columns."
  },
  {
   "property": "C172",
   "status": "proved",
   "theorems": [
    "Spafe.Props.C172_log_features",
    "Spafe.Props.C172_lfcc",
    "Spafe.Props.C172_root_features",
    "Spafe.Props.C172_bank_parameters_ignored",
    "Spafe.Props.C172_exchange"
   ],
   "note": "Model of the cepstral functions as in C116."
  },
  {
   "property": "C173",
   "status": "partial",
   "theorems": [
    "Spafe.Props.C173_relation_partial",
    "Spafe.Props.C173_standard",
    "Spafe.Props.C173_violated"
   ],
   "note": "Violated: C173_violated (kurtosis 16/fs^4 instead of 1 for two equal bins at any rate). C173_standard proves kurtosis >= 1 + skewness^2 for the standardised moments. C173_relation_partial gives the exact factor (spread/mu2)^p between the two: the sign of the skewness is right, the values are too small by at least mu2^(3/2) and mu2^2."
  },
  {
   "property": "C174",
   "status": "proved",
   "theorems": [
    "Spafe.Props.C174_absolute",
    "Spafe.Props.C174_relative",
    "Spafe.Props.C174_gfcc_double",
    "Spafe.Props.C174_bfcc"
   ],
   "note": "DCT type 2, no energy, liftering or normalisation. Accuracy of FFT, absolute value, power function and DCT is assumed as in C120; no underflow or overflow."
  },
  {
   "property": "C175",
   "status": "proved",
   "theorems": [
    "Spafe.Props.C175_lower_bound",
    "Spafe.Props.C175_autocorrelation",
    "Spafe.Props.C175_residual",
    "Spafe.Props.C175_coefficients",
    "Spafe.Props.C175_apriori",
    "Spafe.Props.C175_converges",
    "Spafe.Props.C175_double"
   ],
   "note": "The inverse and its product with -r[1:] (LAPACK, numpy) enter through the residual they leave in the computed equations; no bound of that residual is claimed. The error term returned by the code is not covered (C63)."
  },
  {
   "property": "C176",
   "status": "proved",
   "theorems": [
    "Spafe.Props.C176_threshold",
    "Spafe.Props.C176_high_freq",
    "Spafe.Props.C176_low_freq"
   ],
   "note": "Real arithmetic for the samples and differences; the integer period limits are the exact floors."
  },
  {
   "property": "C177",
   "status": "proved",
   "theorems": [
    "Spafe.Props.C177_any_filter",
    "Spafe.Props.C177_prediction_gain",
    "Spafe.Props.C177_limit"
   ],
   "note": "About the coefficients returned and their true prediction error; the error term the code returns is a different number (C63)."
  },
  {
   "property": "C178",
   "status": "proved",
   "theorems": [
    "Spafe.Props.C178_weights",
    "Spafe.Props.C178_ms",
    "Spafe.Props.C178_scale",
    "Spafe.Props.C178_scale_imfcc",
    "Spafe.Props.C178_scale_ngcc"
   ],
   "note": "C178_weights gives the added vector, C178_ms the invariance for given banks, C178_scale/_imfcc/_ngcc the invariance under the option scale with the built-in banks."
  },
  {
   "property": "C179",
   "status": "proved",
   "theorems": [
    "Spafe.Props.C179_sources",
    "Spafe.Props.C179_white"
   ],
   "note": "C179_sources for the spectrogram functions with a given bank, C179_white for white noise without pre-emphasis. Exact real arithmetic."
  },
  {
   "property": "C180",
   "status": "proved",
   "theorems": [
    "Spafe.Props.C180_mel",
    "Spafe.Props.C180_mel_double",
    "Spafe.Props.C180_erb_double",
    "Spafe.Props.C180_bark",
    "Spafe.Props.C180_bark_double",
    "Spafe.Props.C180_tjomov_double",
    "Spafe.Props.C180_monotone",
    "Spafe.Props.C180_mel_flat"
   ],
   "note": "C180_mel, C180_bark for every rounding; *_double for binary64 without overflow and denormals. Zwicker is not covered; Terhardt and Traunmueller do not round-trip even exactly (C04). C180_mel_flat assumes log10(1) = 0 and 10**0 = 1 exactly."
  },
  {
   "property": "C181",
   "status": "proved",
   "theorems": [
    "Spafe.Props.C181_freqs",
    "Spafe.Props.C181_centroid",
    "Spafe.Props.C181_centroid_double",
    "Spafe.Props.C181_centroid_stable",
    "Spafe.Props.C181_flatness",
    "Spafe.Props.C181_flatness_double",
    "Spafe.Props.C181_flux",
    "Spafe.Props.C181_flux_double",
    "Spafe.Props.C181_flux_not_relative",
    "Spafe.Props.C181_runs"
   ],
   "note": "C181_centroid, C181_flatness, C181_flux for every rounding; *_double for binary64 without overflow and denormals. The spectrum is given exactly; C181_centroid_stable adds the effect of errors in it for the centroid."
  },
  {
   "property": "C182",
   "status": "partial",
   "theorems": [
    "Spafe.Props.C182_features",
    "Spafe.Props.C182_fbanks",
    "Spafe.Props.C182_mel_plot",
    "Spafe.Props.C182_spectrogram",
    "Spafe.Props.C182_time",
    "Spafe.Props.C182_bands_partial",
    "Spafe.Props.C182_bands_violated",
    "Spafe.Props.C182_picture_violated"
   ],
   "note": "Proved: show_fbanks (exceptions, curves, markers), the mel plot of the docstring, show_features, the value at every point of the documented spectrogram picture, the time axis for every signal length and hop, and the frequency axis for a linear spectrogram (C182_bands_partial). Violated for mel: the axis of the documented picture is linear in kHz while the bands are equally spaced in mel, so with n >= 5 filters up to at least 8b Hz (5600 for the default) the centre frequency of the middle band lies in the strip of a lower band (C182_bands_violated), and a spectrogram with all its energy in that band is drawn 80 dB down there (C182_picture_violated). Figures, colours, fonts and file output of matplotlib are not modelled: a picture is the list of drawing commands with their data."
  },
  {
   "property": "C183",
   "status": "proved",
   "theorems": [
    "Spafe.Props.C183_envelope",
    "Spafe.Props.C183_excess",
    "Spafe.Props.C183_peak",
    "Spafe.Props.C183_masked",
    "Spafe.Props.C183_exact",
    "Spafe.Props.C183_channel",
    "Spafe.Props.C183_candidates",
    "Spafe.Props.C183_suppression",
    "Spafe.Props.C183_jump",
    "Spafe.Props.C183_mean",
    "Spafe.Props.C183_medium",
    "Spafe.Props.C183_normalized",
    "Spafe.Props.C183_normalization"
   ],
   "note": "Overflow and underflow are not modelled. Comparisons, np.maximum and np.where are exact. The distances from the thresholds are hypotheses of C183_channel and C183_suppression; C183_jump shows that they cannot be dropped, C183_candidates is the unconditional statement."
  },
  {
   "property": "C184",
   "status": "proved",
   "theorems": [
    "Spafe.Props.C184_root_log",
    "Spafe.Props.C184_limit"
   ],
   "note": "With the default exponent -1/7 the bound applies to energies between e^-7 and e^7."
  },
  {
   "property": "C185",
   "status": "proved",
   "theorems": [
    "Spafe.Props.C185_tone",
    "Spafe.Props.C185_frequency",
    "Spafe.Props.C185_default"
   ],
   "note": "C185_tone (bounds for every frame length, including that lpc succeeds), C185_frequency (limit of long frames), C185_default (4 kHz at the default settings)."
  },
  {
   "property": "C186",
   "status": "proved",
   "theorems": [
    "Spafe.Props.C186_imfcc",
    "Spafe.Props.C186_bank",
    "Spafe.Props.C186_lfcc",
    "Spafe.Props.C186_lpc",
    "Spafe.Props.C186_tone"
   ],
   "note": "C186_imfcc (both directions), C186_bank, C186_lfcc, C186_lpc, C186_tone (what the change of signs does to a tone)."
  },
  {
   "property": "C187",
   "status": "proved",
   "theorems": [
    "Spafe.Props.C187_mel",
    "Spafe.Props.C187_linear",
    "Spafe.Props.C187_bark",
    "Spafe.Props.C187_erb",
    "Spafe.Props.C187_resolved",
    "Spafe.Props.C187_default"
   ],
   "note": "C187_mel, C187_linear, C187_bark, C187_erb (the two bounds), C187_resolved (comparison of bins), C187_default (two tones, defaults at 16 kHz without pre-emphasis, melSpectrogram)."
  },
  {
   "property": "C188",
   "status": "proved",
   "theorems": [
    "Spafe.Props.C188_mel",
    "Spafe.Props.C188_linear",
    "Spafe.Props.C188_bark",
    "Spafe.Props.C188_erb",
    "Spafe.Props.C188_features"
   ],
   "note": "C188_mel, C188_linear, C188_bark, C188_erb (the magnitudes), C188_features (log features with the caller's bank)."
  },
  {
   "property": "C189",
   "status": "proved",
   "theorems": [
    "Spafe.Props.C189_mel",
    "Spafe.Props.C189_linear",
    "Spafe.Props.C189_bark",
    "Spafe.Props.C189_erb",
    "Spafe.Props.C189_default"
   ],
   "note": "C189_mel, C189_linear, C189_bark, C189_erb, C189_default."
  },
  {
   "property": "C190",
   "status": "proved",
   "theorems": [
    "Spafe.Props.C190_mel",
    "Spafe.Props.C190_linear",
    "Spafe.Props.C190_bark",
    "Spafe.Props.C190_erb",
    "Spafe.Props.C190_delay"
   ],
   "note": "C190_mel, C190_linear, C190_bark, C190_erb, C190_delay (delay, defaults, mel_spectrogram)."
  },
  {
   "property": "C191",
   "status": "proved",
   "theorems": [
    "Spafe.Props.C191_mel",
    "Spafe.Props.C191_linear",
    "Spafe.Props.C191_bark",
    "Spafe.Props.C191_erb",
    "Spafe.Props.C191_dominant",
    "Spafe.Props.C191_default"
   ],
   "note": "C191_mel, C191_linear, C191_bark, C191_erb, C191_dominant, C191_default (numbers, mel_spectrogram). Exact reals."
  },
  {
   "property": "C192",
   "status": "proved",
   "theorems": [
    "Spafe.Props.C192_tone",
    "Spafe.Props.C192_hertz"
   ],
   "note": "C192_tone (lag), C192_hertz (Hz); default_yinNoise gives the default range. Exact reals."
  },
  {
   "property": "C193",
   "status": "proved",
   "theorems": [
    "Spafe.Props.C193_frame",
    "Spafe.Props.C193_lpc_continuous",
    "Spafe.Props.C193_lpc_bound"
   ],
   "note": "C193_lpc_continuous, C193_lpc_bound, C193_frame. Exact reals; rounding is C175."
  },
  {
   "property": "C194",
   "status": "partial",
   "theorems": [
    "Spafe.Props.C194_lpcc_partial",
    "Spafe.Props.C194_violated"
   ],
   "note": "Violated: C194_violated. At the signal 1, 1, 0 the residual is 0 and is replaced by 2^-52, while nearby signals have log residuals below any bound. C194_lpcc_partial proves continuity of the coefficients 1, 2, ... and of coefficient 0 of every frame whose residual is not zero."
  },
  {
   "property": "C195",
   "status": "proved",
   "theorems": [
    "Spafe.Props.C195_plp",
    "Spafe.Props.C195_rplp"
   ],
   "note": "C195_plp, C195_rplp. Exact reals. Coefficient 0 at a zero residual is excluded in the statement; the jump there is C194_violated."
  },
  {
   "property": "C196",
   "status": "partial",
   "theorems": [
    "Spafe.Props.C196_pncc_partial",
    "Spafe.Props.C196_violated"
   ],
   "note": "Violated by the code: C196_violated gives a four-sample signal, on the threshold 0.85 of temporal_masking, at which coefficient 0 of the last frame jumps by a fixed amount. C196_pncc_partial proves continuity at every signal that is off the two thresholds (excess against 0.85 times the peak, power against twice the envelope). Exact reals."
  },
  {
   "property": "C197",
   "status": "proved",
   "theorems": [
    "Spafe.Props.C197_row",
    "Spafe.Props.C197_rasta",
    "Spafe.Props.C197_double",
    "Spafe.Props.C197_exponential",
    "Spafe.Props.C197_exact"
   ],
   "note": "C197_rasta, C197_double, C197_exponential, C197_exact. No overflow or underflow; no fused multiply-add in lfilter's recursion."
  },
  {
   "property": "C198",
   "status": "proved",
   "theorems": [
    "Spafe.Props.C198_tail",
    "Spafe.Props.C198_zero",
    "Spafe.Props.C198_converges",
    "Spafe.Props.C198_plp",
    "Spafe.Props.C198_rplp"
   ],
   "note": "C198_tail, C198_zero, C198_converges, C198_plp, C198_rplp, with fbanks given, lifter and normalize None. Library routines enter by their accuracy. No overflow or underflow."
  },
  {
   "property": "C199",
   "status": "partial",
   "theorems": [
    "Spafe.Props.C199_spectrogram",
    "Spafe.Props.C199_cqcc_partial",
    "Spafe.Props.C199_violated"
   ],
   "note": "C199_spectrogram has no exception; C199_cqcc_partial assumes that no entry of the transform is zero, with lifter and normalize None. Where an entry is zero the property is false, C199_violated: zero_handling replaces the zero by 2.22e-16, nearby powers are kept however small."
  },
  {
   "property": "C200",
   "status": "proved",
   "theorems": [
    "Spafe.Props.C200_entry",
    "Spafe.Props.C200_gain",
    "Spafe.Props.C200_cqcc",
    "Spafe.Props.C200_double",
    "Spafe.Props.C200_threshold"
   ],
   "note": "C200_entry (transform), C200_cqcc (end to end; dct_type 2, lifter and normalize None), C200_double (numbers for float64), C200_gain (the resampling gain is 1 for ratio 1), C200_threshold (a doubtful entry may cost the whole transform). The selected frequencies and window lengths are those of exact arithmetic; the kernel FFT, np.abs, the logarithm, resample and the DCT enter by their accuracy; overflow and underflow are left out."
  },
  {
   "property": "C201",
   "status": "partial",
   "theorems": [
    "Spafe.Props.C201_meaning",
    "Spafe.Props.C201_click",
    "Spafe.Props.C201_nested",
    "Spafe.Props.C201_heard_partial",
    "Spafe.Props.C201_unheard",
    "Spafe.Props.C201_violated"
   ],
   "note": "Violated: C201_unheard (the samples outside the analysis windows do not matter) and C201_violated (default grid, 16 kHz, 7680 Hz: any two signals agreeing on 72 of every 160 samples have the same row). What holds: C201_meaning (every entry, from the signal), C201_click (weight of a sample), C201_nested (lower frequencies hear more), C201_heard_partial (windows at least as long as the hop). Pre-emphasis is off in all but C201_meaning."
  },
  {
   "property": "C202",
   "status": "proved",
   "theorems": [
    "Spafe.Props.C202_band",
    "Spafe.Props.C202_psrcc",
    "Spafe.Props.C202_double",
    "Spafe.Props.C202_jump"
   ],
   "note": "C202_band (phase sums), C202_psrcc (end to end; dct_type 2, use_energy False, lifter and normalize None), C202_double (numbers for float64 and 512 points), C202_jump (the condition is needed). Assumed: relative accuracy of np.angle, accuracy of np.fft.rfft in norm and that its real bins have no imaginary part; power and DCT enter by their accuracy; overflow, underflow and signed zeros are left out."
  },
  {
   "property": "C203",
   "status": "proved",
   "theorems": [
    "Spafe.Props.C203_weight",
    "Spafe.Props.C203_suppressed",
    "Spafe.Props.C203_weighted",
    "Spafe.Props.C203_powers",
    "Spafe.Props.C203_pncc",
    "Spafe.Props.C203_double"
   ],
   "note": "C203_weight (weight smoothing), C203_suppressed and C203_weighted (the stages chained), C203_powers (band powers to normalised powers), C203_pncc (end to end; power 2, dct_type 2, lifter and normalize None), C203_double (numbers for binary64). That the comparisons have to be decided is C183_jump. The power 1/15 (including the rounding of the exponent) and the DCT enter by their accuracy; overflow and underflow are left out."
  },
  {
   "property": "C204",
   "status": "proved",
   "theorems": [
    "Spafe.Props.C204_energy",
    "Spafe.Props.C204_shift",
    "Spafe.Props.C204_ms"
   ],
   "note": "C204_energy (band energies), C204_shift (normalize None), C204_ms (normalize 'ms'). The edges are those of C190, so the statement is useful for impulse responses that are short against the frame. lifter None, dct_type 2, use_energy False. Exact reals."
  }
 ]
}