{
 "claims": [
  {
   "property": "C01",
   "status": "proved",
   "theorems": [
    "Verif.Props.C01_field_exists_unique",
    "Verif.Props.C01_kernel_is_maxwell"
   ],
   "note": "per horizontal wavenumber lambda > 0; a receiver at the depth of the source must be in the layer of the source; the infinite Hankel integral itself is not formalised"
  },
  {
   "property": "C02",
   "status": "proved",
   "theorems": [
    "Verif.Props.C02_never_undefined"
   ],
   "note": "the returned values are independent of what an undefined operation (division by zero, growing exponential, unassigned variable) would return; exact arithmetic"
  },
  {
   "property": "C03",
   "status": "proved",
   "theorems": [
    "Verif.Props.C03_field_reciprocity",
    "Verif.Props.C03_code_reciprocity"
   ],
   "note": "per horizontal wavenumber"
  },
  {
   "property": "C04",
   "status": "proved",
   "theorems": [
    "Verif.Props.C04_split"
   ],
   "note": "per horizontal wavenumber; direct field computed in the kernel (xdirect=False)"
  },
  {
   "property": "C05",
   "status": "proved",
   "theorems": [
    "Verif.Props.C05_identical_layers",
    "Verif.Props.C05_no_reflections"
   ],
   "note": ""
  },
  {
   "property": "C06",
   "status": "proved",
   "theorems": [
    "Verif.Props.C06_depth_shift"
   ],
   "note": ""
  },
  {
   "property": "C07",
   "status": "proved",
   "theorems": [
    "Verif.Props.C07_mirror"
   ],
   "note": ""
  },
  {
   "property": "C08",
   "status": "partial",
   "theorems": [
    "Verif.Props.C08_translation",
    "Verif.Props.C08_rotation",
    "Verif.Props.C08_method",
    "Verif.Props.C08_snapped",
    "Verif.Props.C08_dlf"
   ],
   "note": "Translation complete. Rotation: the Hankel integrand with exact Bessel functions (C08_rotation); every transform that handles the kernels separately and is odd in them, with exact angle factors and, up to 1e-9 of the angle-dependent terms, with those of the code (C08_method, C08_snapped); all variants of the digital filters (C08_dlf). Missing: QWE and adaptive quadrature, whose result is not a function of the separate kernels; for them only the integrand."
  },
  {
   "property": "C09",
   "status": "proved",
   "theorems": [
    "Verif.Props.C09_accept",
    "Verif.Props.C09_reject",
    "Verif.Props.C09_float",
    "Verif.Props.C09_meaning",
    "Verif.Props.C09_implemented"
   ],
   "note": ""
  },
  {
   "property": "C10",
   "status": "proved",
   "theorems": [
    "Verif.Props.C10_reject",
    "Verif.Props.C10_internal",
    "Verif.Props.C10_interfaces",
    "Verif.Props.C10_reverse"
   ],
   "note": ""
  },
  {
   "property": "C11",
   "status": "partial",
   "theorems": [
    "Verif.Props.C11_accept",
    "Verif.Props.C11_values",
    "Verif.Props.C11_fullspace",
    "Verif.Props.C11_passive_partial",
    "Verif.Props.C11_mperm_zero"
   ],
   "note": "passivity needs mperm > 0: check_model accepts mperm = 0, witness C11_mperm_zero"
  },
  {
   "property": "C12",
   "status": "proved",
   "theorems": [
    "Verif.Props.C12_layer_nr"
   ],
   "note": ""
  },
  {
   "property": "C13",
   "status": "proved",
   "theorems": [
    "Verif.Props.C13_off_ang"
   ],
   "note": ""
  },
  {
   "property": "C14",
   "status": "proved",
   "theorems": [
    "Verif.Props.C14_codes",
    "Verif.Props.C14_contraction"
   ],
   "note": "weights exact to 1e-8, the tolerance with which the code drops components"
  },
  {
   "property": "C15",
   "status": "partial",
   "theorems": [
    "Verif.Props.C15_direction",
    "Verif.Props.C15_bipole",
    "Verif.Props.C15_negative_strength"
   ],
   "note": "the documented scaling by any strength != 0 is false for negative strength, which the code ignores (C15_negative_strength); everything else is proved, coordinate rounding is a parameter"
  },
  {
   "property": "C16",
   "status": "proved",
   "theorems": [
    "Verif.Props.C16_bipole",
    "Verif.Props.C16_poles_dipole",
    "Verif.Props.C16_poles_finite",
    "Verif.Props.C16_poles_length",
    "Verif.Props.C16_dipole",
    "Verif.Props.C16_squeeze"
   ],
   "note": "one frequency row; fem is required to treat offsets one by one (see C17, C18); component weights exact to 1e-8"
  },
  {
   "property": "C17",
   "status": "proved",
   "theorems": [
    "Verif.Props.C17_fem",
    "Verif.Props.C17_loops",
    "Verif.Props.C17_kcount",
    "Verif.Props.C17_check_loop",
    "Verif.Props.C17_dlf"
   ],
   "note": "For any transform that treats frequencies and offsets one by one (Elementwise); C17_dlf shows that the standard digital filter method does. QWE, QUAD and the interpolating filter variants always loop over frequencies (C17_check_loop)."
  },
  {
   "property": "C18",
   "status": "proved",
   "theorems": [
    "Verif.Props.C18_standard",
    "Verif.Props.C18_no_angles",
    "Verif.Props.C18_splined",
    "Verif.Props.C18_lagged",
    "Verif.Props.C18_independent",
    "Verif.Props.C18_linear",
    "Verif.Props.C18_raises",
    "Verif.Props.C18_fourier",
    "Verif.Props.C18_fourier_lagged"
   ],
   "note": "The spline is a parameter; for the lagged variant it is assumed linear in its values and dependent on its points only. One frequency."
  },
  {
   "property": "C19",
   "status": "proved",
   "theorems": [
    "Verif.Props.C19_window",
    "Verif.Props.C19_lagged_cover",
    "Verif.Props.C19_splined_cover",
    "Verif.Props.C19_lagged_standard"
   ],
   "note": "For filters with exactly logarithmic base; the bundled coefficients satisfy that up to rounding, which is not modelled."
  },
  {
   "property": "C20",
   "status": "partial",
   "theorems": [
    "Verif.Props.C20_qwe_partial",
    "Verif.Props.C20_stops",
    "Verif.Props.C20_raises",
    "Verif.Props.C20_violated",
    "Verif.Props.C20_geometric",
    "Verif.Props.C20_kernel",
    "Verif.Props.C20_tolerance"
   ],
   "note": "Everything but the value: an entry that converges returns the previous extrapolated value, and zero if it converges at the first test (C20_violated); the test for an extrapolated value of exactly zero (division by zero) is a parameter. C20_geometric, C20_kernel give the meaning of extrapolation and integrand."
  },
  {
   "property": "C21",
   "status": "partial",
   "theorems": [
    "Verif.Props.C21_quad_partial",
    "Verif.Props.C21_offsets_partial",
    "Verif.Props.C21_violated",
    "Verif.Props.C21_value"
   ],
   "note": "Warnings of the imaginary part are ignored by the code (C21_violated)."
  },
  {
   "property": "C22",
   "status": "partial",
   "theorems": [
    "Verif.Props.C22_impulse",
    "Verif.Props.C22_on",
    "Verif.Props.C22_off",
    "Verif.Props.C22_sum",
    "Verif.Props.C22_selection",
    "Verif.Props.C22_convergence",
    "Verif.Props.C22_accepted",
    "Verif.Props.C22_waveform",
    "Verif.Props.C22_fft_violated",
    "Verif.Props.C22_signal_violated"
   ],
   "note": "For every impulse response with convergent transforms and every transform that is exact for it, tem returns the impulse response, its integral from zero (switch-on) and to infinity (switch-off); the two add up to the response at frequency zero. Selection of sine and cosine, convergence flag, accepted signals and waveforms proved. Missing: the FFT method violates the consistency (C22_fft_violated), non-integer signals are accepted (C22_signal_violated)."
  },
  {
   "property": "C23",
   "status": "partial",
   "theorems": [
    "Verif.Props.C23_superposition",
    "Verif.Props.C23_times",
    "Verif.Props.C23_raises",
    "Verif.Props.C23_convolution",
    "Verif.Props.C23_response_partial",
    "Verif.Props.C23_telescoping",
    "Verif.Props.C23_causal",
    "Verif.Props.C23_quadrature",
    "Verif.Props.C23_sign_violated"
   ],
   "note": "What the code returns is, for every waveform, time list and response, the sum of the segment contributions; with an exact quadrature rule minus the convolution of the slope with the response. Proved: rejection condition, minimum time, telescoping, causality, degree five exactness of the default rule. Missing: the sign is opposite to the documented convolution (C23_sign_violated), exactness for general responses."
  },
  {
   "property": "C24",
   "status": "proved",
   "theorems": [
    "Verif.Props.C24_cut"
   ],
   "note": ""
  },
  {
   "property": "C25",
   "status": "proved",
   "theorems": [
    "Verif.Props.C25_history",
    "Verif.Props.C25_names"
   ],
   "note": "set_minimum/get_minimum: after any history the minima are the last given ones, under the documented names."
  },
  {
   "property": "C26",
   "status": "partial",
   "theorems": [
    "Verif.Props.C26_model",
    "Verif.Props.C26_frequency",
    "Verif.Props.C26_hankel_args",
    "Verif.Props.C26_time_args",
    "Verif.Props.C26_hankel_partial",
    "Verif.Props.C26_time_partial",
    "Verif.Props.C26_name_violated",
    "Verif.Props.C26_checks",
    "Verif.Props.C26_dipole",
    "Verif.Props.C26_ipq",
    "Verif.Props.C26_kwargs",
    "Verif.Props.C26_bipole"
   ],
   "note": "check_model, check_frequency, check_ab, check_loop, check_time_only, check_hankel, check_time, get_kwargs, dipole, bipole and ip_and_q; the time domain is C48_verbosity. Partial: with verb > 2 check_hankel and check_time read the name of the filter, which they do not require: an accepted filter object raises only if verb > 2 (C26_name_violated)."
  },
  {
   "property": "C27",
   "status": "partial",
   "theorems": [
    "Verif.Props.C27_values",
    "Verif.Props.C27_dlf",
    "Verif.Props.C27_method_partial",
    "Verif.Props.C27_method_violated",
    "Verif.Props.C27_ignored",
    "Verif.Props.C27_messages",
    "Verif.Props.C27_maxint_violated"
   ],
   "note": "Defaults, conversions, filter lookup, unknown arguments and messages of check_hankel. Partial: 'ht in quad' accepts substrings of 'quad' (C27_method_violated) and the documented maxint default differs from the code (C27_maxint_violated)."
  },
  {
   "property": "C28",
   "status": "partial",
   "theorems": [
    "Verif.Props.C28_method",
    "Verif.Props.C28_method_violated",
    "Verif.Props.C28_dlf",
    "Verif.Props.C28_dlf_standard",
    "Verif.Props.C28_dlf_lagged",
    "Verif.Props.C28_dlf_splined",
    "Verif.Props.C28_qwe",
    "Verif.Props.C28_qwe_upper",
    "Verif.Props.C28_qwe_violated",
    "Verif.Props.C28_fft",
    "Verif.Props.C28_fft_runs",
    "Verif.Props.C28_fft_freq",
    "Verif.Props.C28_ntot_partial",
    "Verif.Props.C28_ntot_violated",
    "Verif.Props.C28_fftlog",
    "Verif.Props.C28_fftlog_cover",
    "Verif.Props.C28_positive"
   ],
   "note": "Arguments, positivity and coverage of the frequencies of check_time for every method. Violations: documented names sin/cos are rejected, QWE's lowest frequency lies above the smallest one used, ntot is one for more than 2^29 frequencies."
  },
  {
   "property": "C29",
   "status": "proved",
   "theorems": [
    "Verif.Props.C29_values",
    "Verif.Props.C29_rejects",
    "Verif.Props.C29_typeError",
    "Verif.Props.C29_warning"
   ],
   "note": "get_kwargs: values, rejection of unknown or positional-missing keywords, TypeError, and the verbosity warning."
  },
  {
   "property": "C30",
   "status": "proved",
   "theorems": [
    "Verif.Props.C30_frequency"
   ],
   "note": ""
  },
  {
   "property": "C31",
   "status": "partial",
   "theorems": [
    "Verif.Props.C31_input_partial",
    "Verif.Props.C31_input_rejected",
    "Verif.Props.C31_input_violated",
    "Verif.Props.C31_json_partial",
    "Verif.Props.C31_txt_partial",
    "Verif.Props.C31_data_rejected",
    "Verif.Props.C31_load_rejected",
    "Verif.Props.C31_json_violated",
    "Verif.Props.C31_txt_violated",
    "Verif.Props.C31_info_violated"
   ],
   "note": "Non-empty inputs and three-dimensional data (JSON: first two dimensions not empty; text: columns, one-line information) are loaded exactly as saved, character by character; rejections write nothing. Proved false for empty inputs, empty dimensions, several lines of information. Assumed: reading inverts writing of single numbers."
  },
  {
   "property": "C32",
   "status": "partial",
   "theorems": [
    "Verif.Props.C32_values_partial",
    "Verif.Props.C32_once",
    "Verif.Props.C32_identical",
    "Verif.Props.C32_separate",
    "Verif.Props.C32_unknown",
    "Verif.Props.C32_values_violated"
   ],
   "note": "All histories of accesses: values of the library, at most one load, identical objects, no interference. Proved false once a returned object is changed by assignment: the cache hands out its own objects."
  },
  {
   "property": "C33",
   "status": "partial",
   "theorems": [
    "Verif.Props.C33_files",
    "Verif.Props.C33_partial",
    "Verif.Props.C33_violated",
    "Verif.Props.C33_short_violated",
    "Verif.Props.C33_missing",
    "Verif.Props.C33_separate",
    "Verif.Props.C33_separate_violated"
   ],
   "note": "Exact result of reading for all earlier directory contents; round trip if no older files of that name exist. Proved false otherwise (stale coefficients), for bases shorter than two, and for coefficient names with underscores. Assumed: reading inverts writing of single numbers."
  },
  {
   "property": "C34",
   "status": "proved",
   "theorems": [
    "Verif.Props.C34_amp",
    "Verif.Props.C34_value",
    "Verif.Props.C34_principal",
    "Verif.Props.C34_unwrap"
   ],
   "note": "Exact arithmetic, no signed zeros; np.angle is the argument."
  },
  {
   "property": "C35",
   "status": "partial",
   "theorems": [
    "Verif.Props.C35_sum_freq",
    "Verif.Props.C35_sum_time",
    "Verif.Props.C35_laplace_partial",
    "Verif.Props.C35_airwave",
    "Verif.Props.C35_laplace",
    "Verif.Props.C35_step_partial",
    "Verif.Props.C35_off",
    "Verif.Props.C35_off_violated",
    "Verif.Props.C35_surface",
    "Verif.Props.C35_reciprocity",
    "Verif.Props.C35_fullspace",
    "Verif.Props.C35_rejects",
    "Verif.Props.C35_analytical_freq",
    "Verif.Props.C35_analytical_time",
    "Verif.Props.C35_list_violated",
    "Verif.Props.C35_medium",
    "Verif.Props.C35_eperm_violated",
    "Verif.Props.C35_axis_partial",
    "Verif.Props.C35_axis_violated"
   ],
   "note": "Sums of all output modes, rejection of unsupported settings, reciprocity, agreement with the independent fullspace routine, zero vertical field at the surface, frequency domain is the Laplace transform of the impulse response, airwave included (C35_laplace; ive and kve are the scaled modified Bessel functions), step/impulse consistency of direct and reflected field. Missing: the step response of the airwave is a Gaver-Stehfest approximation and not tied to the impulse response. Values on the axis are the limits off the axis for ab 12 and 21 (C35_axis_partial). Violations proved: on the axis for ab 11 and 22 (wrong sign), switch-off, list input, permittivity."
  },
  {
   "property": "C36",
   "status": "partial",
   "theorems": [
    "Verif.Props.C36_reciprocity",
    "Verif.Props.C36_shift",
    "Verif.Props.C36_mirror",
    "Verif.Props.C36_rotation",
    "Verif.Props.C36_maxwell",
    "Verif.Props.C36_isotropic",
    "Verif.Props.C36_near",
    "Verif.Props.C36_mm_violated",
    "Verif.Props.C01_kernel_is_maxwell",
    "Verif.Props.C36_sommerfeld",
    "Verif.Props.C36_plane_waves",
    "Verif.Props.C36_xdirect"
   ],
   "note": "All for every complex medium and all 36 components: reciprocity, shift, mirror, rotation. For conducting media (complex, anisotropic): the 36 components satisfy Maxwell's equations off the vertical axis; textbook solution in isotropic media (fixes the normalisation), static current dipole as near-field limit in anisotropic media; mm components fail for eperm=0 in anisotropic media (C36_mm_violated). xdirect: what the kernel adds with xdirect=False is integrable over all wavenumbers and its Hankel transform is fullspace (C36_sommerfeld; C36_plane_waves for the plane waves of Maxwell's equations); through dipole, True and False add the same closed form to None, at azimuths that agree up to the snapping of 1e-9 (C36_xdirect). Missing: source and receiver at the same depth (the integral converges only conditionally)."
  },
  {
   "property": "C37",
   "status": "proved",
   "theorems": [
    "Verif.Props.C37_dual_field",
    "Verif.Props.C37_dual_kernel",
    "Verif.Props.C37_dual",
    "Verif.Props.C37_zero_codes",
    "Verif.Props.C37_fem_zero"
   ],
   "note": "Physics: Maxwell's equations are invariant under the exchange, for every medium. Code: kernels of the magnetic pair are the negative of the electric ones in the exchanged earth, for every earth. Joined with C01 for passive media. Zero codes: physical and in fem."
  },
  {
   "property": "C38",
   "status": "partial",
   "theorems": [
    "Verif.Props.C38_kernels_partial",
    "Verif.Props.C38_violated",
    "Verif.Props.C38_rows_violated"
   ],
   "note": "Right for 24 of 36 components (all electric receivers and 43, 56, 61, 63, 65, 66), all models, frequencies, offsets and wavenumbers; the code violates it for the other twelve (C38_violated) and raises for one row of wavenumbers per offset (C38_rows_violated)."
  },
  {
   "property": "C39",
   "status": "partial",
   "theorems": [
    "Verif.Props.C39_runs",
    "Verif.Props.C39_stores",
    "Verif.Props.C39_only",
    "Verif.Props.C39_unknown",
    "Verif.Props.C39_no_input",
    "Verif.Props.C39_information",
    "Verif.Props.C39_argv_violated"
   ],
   "note": "Proved for the command line: for all arguments, input files and routines. main(args) called from another program looks at the arguments of the process instead of its own and then does nothing (C39_argv_violated)."
  },
  {
   "property": "C40",
   "status": "proved",
   "theorems": [
    "Verif.Props.C40_sum",
    "Verif.Props.C40_rejected",
    "Verif.Props.C40_origin",
    "Verif.Props.C40_origin_violated"
   ],
   "note": "Sum of the ten contributions equals fem with the standard DLF and the same filter (tmtemod always uses key_201_2012, dipole by default key_201_2009), for every medium, layer, offset list and loop setting; the non-physical corrections cancel because the reflection factors at vertical incidence are opposite. Restrictions raise ValueError. The individual du contributions depend on the origin of depth (C40_origin, C40_origin_violated), which does not affect the sum. Exact arithmetic: an overflow of exp(-gamma (zrec+zsrc)) for sources far above z=0 is outside the model."
  },
  {
   "property": "C41",
   "status": "proved",
   "theorems": [
    "Verif.Props.C41_ratio",
    "Verif.Props.C41_moment",
    "Verif.Props.C41_primary",
    "Verif.Props.C41_reject",
    "Verif.Props.C41_dict_violated",
    "Verif.Props.C41_float_violated"
   ],
   "note": "All valid layered models (listed top-down or bottom-up), all frequencies, accepted coordinates and integer codes: IP + iQ = scale*Hs/Hp with Hp the co-planar field of the homogeneous medium of the layer listed first (C41_ratio); unchanged for every source moment, for any linear integration rule (C41_moment); Hp is the textbook magnetic dipole in an isotropic first layer and never vanishes for vertical dipoles at one depth (C41_primary); rejections (C41_reject). Visible in the statements: for coils in different layers Hs is the total field (xdirect=None removes the direct field only within a layer), bottom-up models use the bottom layer for Hp. Defects: res dictionaries never work for layered models (C41_dict_violated), non-integer ab gives a primary that is not co-planar (C41_float_violated)."
  },
  {
   "property": "C42",
   "status": "partial",
   "theorems": [
    "Verif.Props.C42_grid",
    "Verif.Props.C42_grid_ends",
    "Verif.Props.C42_grid_single",
    "Verif.Props.C42_grid_reject",
    "Verif.Props.C42_base",
    "Verif.Props.C42_range",
    "Verif.Props.C42_printed_partial",
    "Verif.Props.C42_printed_violated",
    "Verif.Props.C42_lsq",
    "Verif.Props.C42_coefficients",
    "Verif.Props.C42_criterion",
    "Verif.Props.C42_criterion_all",
    "Verif.Props.C42_criterion_zero",
    "Verif.Props.C42_few",
    "Verif.Props.C42_guarantee",
    "Verif.Props.C42_monotone_violated",
    "Verif.Props.C42_several_partial",
    "Verif.Props.C42_several_violated",
    "Verif.Props.C42_search",
    "Verif.Props.C42_design",
    "Verif.Props.C42_shared_violated",
    "Verif.Props.C42_reuse_violated",
    "Verif.Props.C42_design_reject",
    "Verif.Props.C42_files_partial",
    "Verif.Props.C42_single_violated",
    "Verif.Props.C42_stale_violated",
    "Verif.Props.C42_files_absent",
    "Verif.Props.C42_response",
    "Verif.Props.C42_full_name"
   ],
   "note": "Proved: spacing/shift inputs are linspaces (C42_grid*), the base is the unique logarithmic base of spacing and shift (C42_base), the r of the inversion (C42_range), coefficients are the unique least-squares solution or zero (C42_lsq, C42_coefficients), the rating criterion for consistent failures and its general guarantee (C42_criterion*, C42_few, C42_guarantee, C42_several_partial), a filter that solves the equations of the inversion is rated with the exact transform (C42_response), design returns the candidate with the smallest rating with its filter and tables (C42_search, C42_design), names of the tables (C42_full_name), files round-trip for two or more shifts (C42_files_partial). Refuted: printed shift for even lengths, reading back a design with a single shift, stale tables, rating not monotone and not the worst over the transforms, same object in fI and fC. Not modelled: finish (fmin_powell), plots; qr/solve are a contract."
  },
  {
   "property": "C43",
   "status": "partial",
   "theorems": [
    "Verif.Props.C43_fft",
    "Verif.Props.C43_fft_zero_time",
    "Verif.Props.C43_fft_violated",
    "Verif.Props.C43_fftlog_partial",
    "Verif.Props.C43_fftlog_odd_violated",
    "Verif.Props.C43_fftlog_biased_partial",
    "Verif.Props.C43_fftlog_biased_violated",
    "Verif.Props.C43_reciprocal",
    "Verif.Props.C43_kr",
    "Verif.Props.C43_cover",
    "Verif.Props.C43_pad"
   ],
   "note": "Closed form of the FFT series and of the FFTLog multiplication, reciprocity, kr and cover of the times proved. The FFT series is not the inverse Fourier sum (C43_fft_violated), odd lengths and the last coefficient of the biased FFTLog are wrong (C43_fftlog_odd_violated, C43_fftlog_biased_violated)."
  },
  {
   "property": "C44",
   "status": "proved",
   "theorems": [
    "Verif.Props.C44_dipole",
    "Verif.Props.C44_entry",
    "Verif.Props.C44_accept",
    "Verif.Props.C44_dlf",
    "Verif.Props.angle_near"
   ],
   "note": "Exact arithmetic; the Hankel transform is any rule applied per frequency and offset. C44_dlf: the standard DLF is one; C51 identifies QWE and QUAD as such rules. Resistivities as an array (no user-defined functions), frequency domain."
  },
  {
   "property": "C45",
   "status": "proved",
   "theorems": [
    "Verif.Props.C45_decay",
    "Verif.Props.C45_field",
    "Verif.Props.user_physical"
   ],
   "note": "Exact arithmetic; Physical layers (real and imaginary parts of admittivities and impedivities not negative, which every valid user model satisfies: user_physical); source and receiver at different depths (at the same depth the integral converges only conditionally)."
  },
  {
   "property": "C46",
   "status": "partial",
   "theorems": [
    "Verif.Props.C46_pairs",
    "Verif.Props.C46_inverse",
    "Verif.Props.C46_inverse_violated"
   ],
   "note": "Proved for all pairs with inverse=False (C46_pairs). With inverse=True the claim is false: the six sine/cosine pairs are pairs only up to the factor pi/2 (C46_inverse, C46_inverse_violated)."
  },
  {
   "property": "C47",
   "status": "proved",
   "theorems": [
    "Verif.Props.C47_superposition",
    "Verif.Props.C47_bipole",
    "Verif.Props.C47_flags",
    "Verif.Props.C47_accept",
    "Verif.Props.C47_errors",
    "Verif.Props.C47_loop"
   ],
   "note": "bipole in the frequency domain end to end. The Hankel transform is any one that treats frequencies and offsets one by one (holds for the DLF and for every rule of C44: Uses.pointwise); Gauss nodes are any in [-1,1] with weights summing to two; coordinates rounded by at most delta. Component weights agree with the direction cosines up to 1e-8, because the code drops components of poles that are nearly aligned with an axis (see C14). Messages after the checks are not modelled."
  },
  {
   "property": "C48",
   "status": "partial",
   "theorems": [
    "Verif.Props.C48_dipole",
    "Verif.Props.C48_accept",
    "Verif.Props.C48_errors",
    "Verif.Props.C48_signals",
    "Verif.Props.C48_bipole",
    "Verif.Props.C48_bipole_accept",
    "Verif.Props.C48_bipole_signals",
    "Verif.Props.C48_early",
    "Verif.Props.C48_waveform",
    "Verif.Props.C48_standard",
    "Verif.Props.C48_independent",
    "Verif.Props.C48_standard_accept",
    "Verif.Props.C48_wave_accept",
    "Verif.Props.C48_inner_signal_violated",
    "Verif.Props.C48_lengths_violated",
    "Verif.Props.C48_verbose_violated",
    "Verif.Props.C48_verbosity",
    "Verif.Props.C48_bipole_verbosity"
   ],
   "note": "Composition, signals, independence of times, acceptance and errors are proved for every transform; exactness of the transform for the spectrum is a hypothesis (ExactFourier, one concrete instance), as it is false for a finite filter in general. The checks of waveforms are violated twice: the inner signal is not validated, lengths of nodes and amplitudes may differ. With verb > 3 the standard digital filter at several times raises a TypeError (C48_verbose_violated); otherwise the result does not depend on the verbosity."
  },
  {
   "property": "C49",
   "status": "partial",
   "theorems": [
    "Verif.Props.C49_gpr",
    "Verif.Props.C49_accept",
    "Verif.Props.C49_errors",
    "Verif.Props.C49_gain_violated",
    "Verif.Props.C49_wavelet_violated",
    "Verif.Props.C49_standard_violated",
    "Verif.Props.C49_gain_zero"
   ],
   "note": "C49_gpr and C49_accept say what gpr returns and when; C49_errors where exceptions come from. Violated: the documented and default gain=None always raises; the wavelet is taken at the previous frequency of the list; the standard digital filter with several times returns nothing."
  },
  {
   "property": "C50",
   "status": "partial",
   "theorems": [
    "Verif.Props.C50_sum",
    "Verif.Props.C50_sine",
    "Verif.Props.C50_cosine_violated",
    "Verif.Props.C50_maxint_violated",
    "Verif.Props.C50_default_violated",
    "Verif.Props.C50_two_violated",
    "Verif.Props.C50_one_interval"
   ],
   "note": "C50_sum is the exact relation between what is added up and the Gauss rules over the intervals. Violated: the terms are single points, so only ceil(maxint/nquad) intervals are used (10 of 200 by default); for the cosine transform the points of the first interval get the wrong weight."
  },
  {
   "property": "C51",
   "status": "partial",
   "theorems": [
    "Verif.Props.C51_dlf",
    "Verif.Props.C51_qwe",
    "Verif.Props.C51_quad",
    "Verif.Props.C51_dipole",
    "Verif.Props.C51_qwe_dipole",
    "Verif.Props.C51_splined",
    "Verif.Props.C51_lagged",
    "Verif.Props.C51_accept",
    "Verif.Props.C51_raises",
    "Verif.Props.C51_method_violated",
    "Verif.Props.C51_maxint_violated",
    "Verif.Props.C51_nquad",
    "Verif.Props.C51_qwe_splined",
    "Verif.Props.C51_splined_runs",
    "Verif.Props.C51_zeros",
    "Verif.Props.C51_first_test",
    "Verif.Props.C51_grid",
    "Verif.Props.C51_unneeded"
   ],
   "note": "Violated: parts of the word quad are accepted as names and end in an AttributeError (C51_method_violated); QWE with maxint=1 ends in an UnboundLocalError (C51_maxint_violated); the test for steep kernels of the splined QWE evaluates the interpolation below all its points (C51_first_test). QUAD is stated for an integrator that is exact on the integrands. Quadrature nodes and splines are parameters; C51_zeros: the interval ends are Newton iterates for J1, that these are positive is a hypothesis of C51_qwe_dipole."
  },
  {
   "property": "C52",
   "status": "partial",
   "theorems": [
    "Verif.Props.C52_kernel",
    "Verif.Props.C52_direct",
    "Verif.Props.C52_direct_violated",
    "Verif.Props.C52_types_violated",
    "Verif.Props.C52_dlf"
   ],
   "note": "Kernels are real for real Laplace parameters, the closed form in real arithmetic is the complex formula, and dipole with the standard DLF returns the real response at s=-f; violated for QWE and QUAD (TypeError) and for horizontal magnetic source and receiver with xdirect=True (nan). Splined and lagged DLF, bipole and analytical are not stated."
  },
  {
   "property": "C53",
   "status": "partial",
   "theorems": [
    "Verif.Props.C53_dipole",
    "Verif.Props.C53_array",
    "Verif.Props.C53_dict",
    "Verif.Props.C53_error",
    "Verif.Props.C53_band",
    "Verif.Props.C53_filter",
    "Verif.Props.C53_time",
    "Verif.Props.C53_bipole_time",
    "Verif.Props.C53_superposition",
    "Verif.Props.C53_factors",
    "Verif.Props.C53_cole_cole",
    "Verif.Props.C53_pelton",
    "Verif.Props.C53_key_error",
    "Verif.Props.C53_cole_passive",
    "Verif.Props.C53_pelton_passive",
    "Verif.Props.C53_layers"
   ],
   "note": "proved for dipole (frequency domain: field; time domain and bipole: composition with C48/C47), for passive laws; functions which return arrays of another shape or type or change other arrays are not modelled; analytical with functions: see C55_functions; dipole_k calls no functions; gpr with functions not covered"
  },
  {
   "property": "C54",
   "status": "partial",
   "theorems": [
    "Verif.Props.C54_accept",
    "Verif.Props.C54_entry_partial",
    "Verif.Props.C54_field_partial",
    "Verif.Props.C54_filter_partial",
    "Verif.Props.C54_violated",
    "Verif.Props.C54_float_violated"
   ],
   "note": "All acceptance and errors (C54_accept). Entries, field and digital filters for 24 of 36 components; the code violates the claim for the other twelve (C54_violated, from the arguments) and for codes which are no integers (C54_float_violated). Missing: keywords, wavenumbers with three dimensions."
  },
  {
   "property": "C55",
   "status": "partial",
   "theorems": [
    "Verif.Props.C55_dipole",
    "Verif.Props.C55_sums",
    "Verif.Props.C55_accept",
    "Verif.Props.C55_field",
    "Verif.Props.C55_functions",
    "Verif.Props.C55_cole_cole",
    "Verif.Props.C55_dfs",
    "Verif.Props.C55_single_partial",
    "Verif.Props.C55_single_violated",
    "Verif.Props.C55_impulse",
    "Verif.Props.C55_step"
   ],
   "note": "Acceptance, sums of the parts, agreement with dipole, field and agreement of the two closed forms for all arguments; functions of the user for the complete fullspace; impulse responses and frequency responses are Laplace transforms, step responses (full-space) integrals of impulse responses. Single frequencies and times: proved without displacement currents, violated with them."
  },
  {
   "property": "C56",
   "status": "proved",
   "theorems": [
    "Verif.Props.C56_pair",
    "Verif.Props.C56_fullspace",
    "Verif.Props.C56_unknown"
   ],
   "note": "For every model with source and receiver at different depths and a positive frequency: spectra of lhs, and rhs as their transform plus the QWE error of the secondary field; exact in a full space."
  },
  {
   "property": "C57",
   "status": "partial",
   "theorems": [
    "Verif.Props.C57_reciprocity",
    "Verif.Props.C57_moved",
    "Verif.Props.C57_origin",
    "Verif.Props.C57_mirror",
    "Verif.Props.C57_coincident"
   ],
   "note": "Reciprocity, moves and other descriptions, reflection, from the arguments of dipole to the entries of the array. Reciprocity and reflection for odd rules (exact integration, digital filters without interpolation), moves for every rule. Reciprocity is violated for coincident horizontal positions (C57_coincident); azimuths within 1e-9 of, but not at, multiples of 45 degrees are excluded. Missing: splined and lagged filters."
  },
  {
   "property": "C58",
   "status": "partial",
   "theorems": [
    "Verif.Props.C58_side",
    "Verif.Props.C58_swap",
    "Verif.Props.C58_turn",
    "Verif.Props.C58_rotation",
    "Verif.Props.C58_rotation_exact",
    "Verif.Props.C58_coincident"
   ],
   "note": "Reflection in y (also for coincident positions), exchange of the axes, quarter turn, rotation by any angle, from the arguments of dipole to the entries of the array. Components whose sign does not change: every rule; others: odd rules (exact integration, digital filters without interpolation). General angles: digital filters, and exact integration for source and receiver at different depths; directions put together from nine calls. The exchange of axes is violated for coincident horizontal positions (C58_coincident); azimuths within 1e-9 of, but not at, multiples of 45 degrees are excluded. Missing: splined and lagged filters, QWE and QUAD for general angles."
  },
  {
   "property": "C59",
   "status": "partial",
   "theorems": [
    "Verif.Props.C59_reciprocity",
    "Verif.Props.C59_moved",
    "Verif.Props.C59_side",
    "Verif.Props.C59_swap",
    "Verif.Props.C59_turn",
    "Verif.Props.C59_mirror",
    "Verif.Props.C59_rotation"
   ],
   "note": "Reciprocity, sideways moves and split layers, reflections, exchange of axes, quarter turn and rotation by any angle for impulse and step responses of dipole, from the arguments to the entries of the array; every Fourier filter with pts_per_dec=0; Hankel transforms and excluded positions as for C57 and C58. Missing: lagged and splined Fourier filters, QWE, FFTLog, FFT, waveforms."
  }
 ]
}
