# Formal model of empymod in Lean 4

## What is checked

* `properties.jsonl`: the properties, in terms of the API.
* `lean/Verif/Model/*.lean`: the model, function by function; each definition cites file and lines in `/repo`.
* `lean/Verif/Spec/*.lean`: small specifications that do not refer to the model.
* `lean/Verif/Lemmas/*.lean`: helper lemmas.
* `lean/Verif/Props/*.lean`: the property theorems, with an `example` beside each theorem.
* `MANIFEST.json`: property → theorems.
* `seeded/LOG.jsonl`: what happened when the model was edited as a bug would.

## Trusted base

* The Lean 4.33.0 kernel and the Mathlib definitions the statements are made of.
* Axioms: every theorem depends at most on `propext`, `Classical.choice`, `Quot.sound`
  (Lean's standard three); no own axioms, no `sorry`, no `native_decide`/`bv_decide`.
* The reading of the Python text: the model is written by hand; nothing is extracted.
* Arithmetic: floating point numbers are modelled by exact real/complex numbers (depths by
  extended reals, because the code uses ±inf).  Rounding is not modelled.
* NumPy broadcasting is modelled by functions of indices; `numba` compilation is taken to be
  semantics preserving.
* Partial primitives (division, exp with growing argument, unassigned variables) are an
  arbitrary record `Ops`; theorems hold for every `Ops` that is correct where the operation is
  defined (`Safe`).  A theorem about `greenfct o …` for all safe `o` therefore also says
  that the code never relies on an undefined operation.
* Third-party code (NumPy, SciPy `quad`, splines, `libdlf` coefficients, the file system,
  `json`) is either a parameter of the model or left out; see the table.

## Properties

| id | modelled | how it is proved |
|----|----------|------------------|
| C01 | `kernel.greenfct/reflections/fields` for one frequency, offset, wavenumber; all layer counts, complex properties | spec: 1-D Maxwell boundary value problem (`Spec/Maxwell1D`). Existence by explicit amplitudes, uniqueness by an energy argument, then loop invariants for the recursions of the code |
| C02 | same | same theorem, quantified over all `Ops` that are only correct where defined |
| C03 | same | Lagrange identity of two fields of the spec (Wronskian is constant between the sources) |
| C04 | same | uniqueness: the field of the split stack is the field of the original one |
| C05 | same | uniqueness |
| C06 | same | uniqueness, translated field |
| C07 | same | uniqueness, mirrored field |
| C08 | `get_off_ang`, `angle_factor`, `wavenumber`, integrand of the Hankel transforms, `dlf` | algebra of polar coordinates; rotation of the plane waves of the specification; symmetry of the kernels within groups of components, any odd transform |
| C09 | `check_ab` | finite case analysis over the digits, all other integers by arithmetic |
| C10 | `check_model` depth part | lists; reversal and sortedness |
| C11 | `check_model`, `check_frequency` | branch analysis; passivity of the resulting eta/zeta |
| C12 | `get_layer_nr` | order argument over arbitrary depth vectors |
| C13 | `get_off_ang` | nested loop invariant, polar coordinates |
| C14 | `get_abs`, `get_geo_fact` | sum over the selected components = full contraction |
| C15 | `get_azm_dip`, `check_bipole` | trigonometric identities, Gauss weights as parameter with sum 2 |
| C16 | index bookkeeping of `bipole` and `dipole` | loop invariant: placement map is a bijection |
| C17 | `fem` | fold over loops = pointwise map |
| C18 | `dlf`, `hankel_dlf` | sums, linearity |
| C19 | `get_dlf_points`, lagged part of `dlf` | index arithmetic and logarithms |
| C20 | `qwe` | invariant over the interval loop; finding |
| C21 | `quad` | branch analysis; finding |
| C22 | `tem`, `check_time` | branch analysis over `signal` and method |
| C23 | `check_waveform` | telescoping sums |
| C24 | `_check_min` | lists |
| C25 | `set_minimum`, `get_minimum` | induction over call histories |
| C26 | `verb` in the checking routines, `dipole`, `ip_and_q` | values and messages are separate; what is read in order to print can raise |
| C27 | `check_hankel` | dictionary semantics |
| C28 | `check_time` | dictionary semantics; frequency vectors |
| C29 | `get_kwargs` | dictionary semantics |
| C30 | `check_frequency` | branch analysis |
| C31 | `save_data/load_data/save_input` | structured values; printing of numbers is a parameter (round trip of one number assumed) |
| C32 | `filters._BaseFilter` | state machine, induction over access histories |
| C33 | `DigitalFilter.tofile/fromfile` | file system as a map |
| C34 | `EMArray.amp/pha` | complex argument; `np.unwrap` modelled |
| C35 | `kernel.halfspace` | algebra; special functions are parameters; for the airwave `ive`, `kve` are tied to the modified Bessel functions by hypothesis (`Scaled`), Laplace transform by subordination, Graf's addition theorem and analytic continuation |
| C36 | `kernel.fullspace`, `xdirect` | algebra; kernel part from C01; Hankel transform of the direct field by subordination (Gaussian integrals) and analytic continuation |
| C37 | `greenfct`, `wavenumber` with `msrc`, `mrec`; `check_ab`; `fem` | duality of Maxwell's equations, duality of the kernels, joined by C01 |
| C38 | `dipole_k` | finding (wrong for magnetic receivers), positive part for electric ones |
| C39 | `__main__` | branch analysis |
| C40 | `tmtemod` | algebra of geometric series of reflections |
| C41 | `ip_and_q` with `dipole` | C44 twice; linearity of the field in the moment |
| C42 | `fdesign` | linspace/base algebra; least squares from the QR contract; table search; files as texts |
| C43 | `fft`, `fftlog` | finite Fourier sums; finding |
| C44 | `dipole` from its arguments to the array | composition of C01, C08, C10, C13, C16, C17 with an independent description of the medium |
| C45 | `wavenumber` as a function of wavenumber | limits of all factors of the kernel for large wavenumber (closed under the algebra of the recursions), dominated tails |
| C46 | transform pairs `j0_1` … `cos_3` of `fdesign` (`Model/Pairs`) | Laplace transforms of J0, J1; Gaussian transforms; Sommerfeld identities; Fourier inversion |
| C47 | `bipole` in the frequency domain, `loop`, `check_bipole` (`Model/BipoleFull`) | C14 (component pairs), C15 (points on the segment), C16 (layout of the loops), C17 (loops of `fem`) put together; each term is identified with a call of the model of `dipole`; not modelled: `signal`, `bandpass`, functions in `res`, messages after the checks, numbers as flags |
| C48 | `dipole`, `bipole` with `signal` (`Model/TimeDomain`): `check_time`, `check_waveform`, the four `fourier_*`, `tem`, reshaping | the time series is identified with what the transform makes of the array the frequency-domain call returns; C22 (signals), C23 (waveforms), C28 (frequencies) put together; not modelled: `bandpass`, unknown keys in a waveform, equal nodes |
| C49 | `gpr` (`Model/TimeDomain`) | as C48, with wavelet and gain |
| C50 | `fourier_qwe` (`Model/TimeDomain`, `Model/Qwe`) | exact relation between the terms of `qwe` and Gauss rules over the intervals; congruence of the extrapolation loop |
| C51 | `dipole` with `ht`, `htarg` (`Model/HankelFull`): `check_hankel`, `hankel_dlf/qwe/quad`, `fem` | each method with the arguments `check_hankel` returns is identified with a rule of C44 (filter sum, extrapolated Gauss rules, interval integral), using C18–C21, C27; not modelled: exceptions of the spline constructor other than ValueError, warnings (C26), interpolation limits equal to zero; positivity of the Bessel zeros is a hypothesis |
| C52 | Laplace domain: `kernel.wavenumber`, `fullspace` on real arrays (`Model/FullspaceReal`), `dipole` with `ht`, `htarg` | kernels commute with complex conjugation (`Lemmas/Conj`: inductions over the loops of `reflections` and `fields`), so they are real for real Laplace parameters; the closed form on real arrays: `nan` if a used radicand is negative; array types in `rowErr` |
| C53 | `func_eta`, `func_zeta` (model.py 463-467, 865-869), `bandpass` (629-631, 903-905) in `dipole` and `bipole`, frequency and time domain (`Model/Hooks`); `cole_cole`, `pelton_et_al` (examples/time_domain/cole_cole_ip.py 142-169); media with laws in `Spec/Law` | functions of the user are arbitrary functions into results or exceptions; C44 and C47 hold for arbitrary checked arrays (`tail_field`, `tail_superposition`), the arrays after the functions are those of the medium with laws (`law_rows`) |
| C54 | `dipole_k` from its arguments (model.py 1293-1487; `Model/DipoleKFull`), `dipole` with the standard DLF | all errors and shapes modelled except unexpected keywords and wavenumbers with three dimensions; entries from C38, medium and geometry from C44, field from the ring integrals of C01; 24 of 36 components, the others violate it |
| C55 | `analytical` from its arguments (model.py 1053-1190; `Model/AnalyticalFull`) | model, frequencies, times, codes, coordinates and all errors modelled; `fullspace` from C36, `halfspace` from C35 with the Bessel functions as parameters; tuples as one stacked array; a value belongs to its own frequency only without displacement currents; time domain without permittivity: impulse responses as inverse Laplace transforms, steps as integrals (`C55_AnalyticalTime`); functions of the user only with `'fs'` (`C55_AnalyticalLaw`) |
| C56 | `empy_hankel` (fdesign.py 1169-1253; `Model/EmpyHankel`) | both functions for the three types, from the arguments through `dipole_k` (C54) and `dipole` with QWE (C51), `1/np.sqrt(2)` exact; left out: lists of types, `Ghosh` itself; `NameError` for an unknown type is `unboundLocal`; direct field from C36, integrability from C45, ring integrals from C01; exact arithmetic; Bessel functions exact, square root a square root, Gauss nodes in [-1, 1], zeros of the Bessel function positive; `zsrc` ≠ `zrec`, a positive frequency |
| C57 | `dipole` (model.py 663-922) called twice | the model of C44; kernel symmetries from C03, C06, C07, closed-form field from C36; media compared at user level (`Moved`, `Mirrored`: same material at every depth that is not an interface); integration: any odd rule (exact integral, digital filter without interpolation); independence of J0 and J1 carries the statement about integrands with Bessel functions over to filters. Left out: splined and lagged DLF, QWE and QUAD for reciprocity and reflection (their error estimates are not treated here); azimuths within 1e-9 of a multiple of 45° that are not multiples; coincident horizontal positions (finding 36) |
| C58 | `dipole` (model.py 663-922) called twice, and nine times twice | the model of C44 and C57; kernel integrands under a rotation from C08, closed-form field from C36; `TurnedBy` says what turned positions are, `turn` what turned directions are; a rule may be taken into the sum over components (`Sums`): digital filters always, exact integration where the integrals exist (shown for different depths with the decay of C45, `C58_rotation_exact`). Left out: splined and lagged DLF; QWE and QUAD for components whose sign changes and for general angles; azimuths within 1e-9 of a multiple of 45° that are not multiples; coincident horizontal positions for the exchange of axes (finding 37) |
| C59 | `dipole` with a signal (model.py 663-922, `tem` 1673-1714) called twice | the model of C48 (Fourier transform with a digital filter and `pts_per_dec=0`; `StdTime` says which arguments these are) over the frequency-domain statements C57 and C58; every time is transformed from its own frequencies, so a sign or a combination carries over entry by entry. Left out: lagged and splined filters, QWE, FFTLog and FFT; waveforms given as a dictionary; angles, coincident positions and Hankel transforms as for C57 and C58 |

## What is modelled, and how far

| module | in the model | left out, or a parameter |
|--------|--------------|--------------------------|
| `kernel` | `wavenumber`, `greenfct`, `reflections`, `fields`, `angle_factor`, `fullspace`, `halfspace` | `numba`; `erf`, Bessel functions and Gaver-Stehfest of the time-domain airwave are parameters |
| `transform` | `dlf` (standard, splined, lagged), `qwe`, `quad`, `fft`, `fftlog`, `get_dlf_points`, `get_fftlog_input`, `fourier_*`/`hankel_*` drivers | splines, `scipy.integrate.quad`, the discrete Fourier transform of `scipy` (defined by its sum) |
| `utils` | all `check_*`, `get_abs`, `get_geo_fact`, `get_azm_dip`, `get_off_ang`, `get_layer_nr`, `get_kwargs`, `set_minimum`, `EMArray`, `conv_warning` | time measurement, `Report`, text of messages beside the wording used in theorems |
| `model` | `fem`, `tem`, bookkeeping of `bipole` and `dipole`, `dipole` and `bipole` end to end in both domains, `loop`, `gpr`, `analytical`, `dipole_k`, `ip_and_q`, `bandpass`, user functions in `res` dictionaries (dipole, bipole, analytical) | user functions in `gpr` |
| `filters` | cache, `DigitalFilter`, files | coefficients of `libdlf` |
| `io`, `__main__` | texts character by character, JSON grammar, command line | reading and writing one number is a contract (`Nums`, `TxtNums`) |
| `scripts.tmtemod` | `dipole`, `tmtemod` | - |
| `scripts.fdesign` | `design`, `_get_min_val`, `_calculate_filter`, `_ls2ar`, `print_result`, `save_filter`, `load_filter`, transform pairs, `empy_hankel` | plots, `finish`; `qr`/`solve` are a contract |

Where a definition simplifies its source, its comment says so.  Number texts are never real numbers: `N` is an arbitrary
type with writing and reading that invert each other.

## Findings: where the code does not do what it says

Each is a theorem (in brackets); the property is then proved under the condition that excludes the case and its theorem
carries `_partial`.

1. `transform.quad`: `(len(re) or len(im)) > 3` ignores a warning of the imaginary part [C21_violated].
2. `transform.qwe`: an entry that converges returns the previous iterate, and 0 if it converges at the first check
   [C20_violated]; `maxint=1` raises [C20_raises].
3. `check_hankel`: `elif ht in 'quad'` is a substring test, `'u'` and `''` are accepted [C27_method_violated]; default of
   `maxint` differs from the documentation [C27_maxint_violated].
4. `check_time`: documented `'sin'`/`'cos'` are rejected [C28_method_violated]; lowest frequency of QWE is a factor 2π too
   high [C28_qwe_violated]; `ntot = 1` for more than 2^29 frequencies [C28_ntot_violated].
5. `dipole_k`: uses `ab` where `ab_calc` is needed; 12 of 36 components are wrong [C38_violated]; one row of wavenumbers
   per offset raises [C38_rows_violated].
6. `get_azm_dip`/`check_bipole`: negative `strength` is ignored [C15_negative_strength].
7. `save_input({})` writes text that cannot be read [C31_input_violated]; empty dimensions are lost in JSON
   [C31_json_violated]; several lines of `info` break the text format [C31_info_violated]; data without columns
   [C31_txt_violated].
8. `check_model` accepts `mperm = 0` [C11_mperm_zero].
9. `tmtemod`: the correction terms depend on the origin of depth, only their sum does not [C40_origin_violated].
10. `DigitalFilter.fromfile` reads older coefficient files of the same name [C33_violated]; bases shorter than two are saved
    but not read [C33_short_violated]; coefficient names with underscores collide [C33_separate_violated].
11. `__main__.main(args)` looks at `sys.argv` [C39_argv_violated].
12. `dlf` with `ang_fact=None` and splined variant: variable not assigned [C18_raises].
13. `check_waveform`/`tem`: sign opposite to the documented convolution [C23_sign_violated].
14. FFT: switch-on plus switch-off is 0, not the DC value [C22_fft_violated]; `int(signal)` accepts every number in (-2, 2)
    [C22_signal_violated]; the array given to the FFT is not Hermitian [C43_fft_violated].
15. FFTLog: wrong for odd lengths [C43_fftlog_odd_violated], last coefficient wrong with bias
    [C43_fftlog_biased_violated].
16. Filter cache hands out its own objects [C32_values_violated].
17. `halfspace`: switch-off uses the value at 1e4 s as DC [C35_off_violated]; resistivity from `1/eta` depends on `eperm`
    and the first frequency [C35_eperm_violated]; `analytical` raises for list input [C35_list_violated]. On the axis
    (offset 0, reachable with `set_minimum(min_off=0)` or by calling `halfspace`) the coefficients `g2m`, `g2p` of lines
    1114-1115 have the wrong sign for ab 11 and 22: the result is not the limit of the results for small offsets
    [C35_axis_violated]. The time-domain airwave on the axis is 0/0 in the code and 0 in the model; no claim covers it.
18. `fullspace`: magnetic-magnetic components for `eperm=0` in anisotropic media [C36_mm_violated].
19. `ip_and_q`: `res` dictionaries never work [C41_dict_violated]; non-integer `ab` passes [C41_float_violated]; for models
    listed bottom-up the primary field is that of the bottom layer (statement of C41_ratio).
20. `fdesign`: printed shift of filters with an even number of values [C42_printed_violated]; a design with one shift cannot be
    read back [C42_single_violated]; older tables are returned with a new filter [C42_stale_violated]; the rating is not
    monotone [C42_monotone_violated] and a filter that is zero for one transform may get a finite rating
    [C42_several_violated]; the same object in `fI` and `fC` raises [C42_shared_violated], and `fC` cannot be used twice
    [C42_reuse_violated].
21. `check_hankel`, `check_time`: with `verb > 2` the attribute `name` of the filter is read, which is not among the attributes
    that are required; an object that is accepted up to `verb=2` then raises [C26_name_violated].
22. `sin_1` … `cos_3` with `inverse=True` return the swapped functions without the factor 2/π of the inverse sine and cosine
    transform: for no `a` are they pairs of the transform they are named after, the integral is π/2 times `rhs`. A filter
    designed with one of them is too small by 2/π, and tests only compare `inverse.lhs` with `rhs`
    [C46_inverse, C46_inverse_violated].
23. Waveforms: the inner `signal` is not checked, 5 is accepted and means impulse [C48_inner_signal_violated]; two amplitudes
    with any number of nodes are accepted and broadcast [C48_lengths_violated].
24. `check_frequency` prints the frequencies with `G`; for the standard digital filter at several times they are a matrix and
    `verb=4` raises a TypeError [C48_verbose_violated].
25. `gpr`: the default and documented `gain=None` always raises a TypeError [C49_gain_violated]; the wavelet is taken at the
    previous frequency of the list, so that one frequency alone gives zero [C49_wavelet_violated]; with the standard
    digital filter and several times it returns nothing [C49_standard_violated]; a gain of 0 doubles [C49_gain_zero].
26. `fourier_qwe` passes all quadrature points of all intervals to `qwe`, which takes them for integrals over intervals: only
    ⌈maxint/nquad⌉ intervals are used, ten of 200 by default [C50_maxint_violated, C50_default_violated], and the weight
    of the points of the first interval is wrong for the cosine [C50_cosine_violated]. In an example the value is
    positive where the quadrature over the requested intervals is negative [C50_two_violated and the example].
    `maxint=1` raises [C50_one_interval].
27. `check_hankel` tests `ht in 'quad'`, so `'q'`, `'qua'`, `''` … are accepted and `dipole` ends in an AttributeError
    [C51_method_violated]; `maxint=1` with QWE ends in an UnboundLocalError [C51_maxint_violated]; `nquad=0` in a
    ValueError from NumPy [C51_nquad]. With splined QWE the first comparison that decides between QWE and QUAD is made at
    `1e-20/off`, below all the wavenumbers of the interpolation [C51_first_test].
28. Read but not stated as theorems: `check_model` accepts equal depths and
    repeated ±inf; `check_bipole` collapses z within 1e-8; `get_abs` drops components at 1e-8 while `get_geo_fact` uses
    1e-10; `_check_var(..., shape=())` checks nothing.
29. Laplace domain (all frequencies negative) with `ht='qwe'` or `'quad'`: the results of these transforms are always
    complex, `fEM` has the type of `etaH`, which is real; the in-place addition (model.py 1645-1649) raises a TypeError
    wherever the transform is needed [C52_types_violated]. The manual promises Laplace-domain responses without restriction
    (docs/manual/transforms.rst 166-174). C44, C47, C48 … take the Hankel transform as a parameter whose results fit the
    array; for QWE and QUAD they speak about the frequency domain only.
30. Laplace domain, horizontal magnetic source and receiver (`ab` = 44, 45, 54, 55), direct field in closed form
    (`xdirect=True` in the same layer, or `analytical`): `fullspace` takes real square roots of `-etaH` and `-zetaH`; the
    result is `nan`, without exception [C52_direct_violated]. All other components are fine [C52_direct]; so is the
    direct field in the wavenumber domain [C52_kernel]. C36 and C44 exclude this case by `Oscillating`.
    For the same reason (`dtype=etaH.dtype`) a `func_eta` that returns real numbers in the frequency domain makes `fem` raise
    a TypeError (read, not modelled).
31. A dictionary in `res` is never taken for a full-space (utils.py, `check_model`). If all layers are identical, source and
    receiver are in different layers and `xdirect=None`, the array gives zero and the dictionary without functions the
    whole field [C53_layers].
32. `func_eta` and `func_zeta` are not told whether `freq` is a frequency or a Laplace parameter: the functions of the
    gallery compute with `2iπf` in the Laplace domain as well (read). `dipole_k` ignores the functions in a dictionary
    without notice (model.py 1424-1432, read; its manual speaks of arrays only). `cole_perm` of the gallery works for two
    layers only and takes `eperm` absolute (read).
33. `dipole_k` with a code which is no integer, e.g. 11.5: `check_ab` truncates to 11 (as for `dipole`), but the angle factor
    and the division by the offset compare 11.5 with the codes; on the x-axis `PJ1` is zero instead of the kernel
    [C54_float_violated]. A list or number as `wavenumber` raises AttributeError [C54_accept]; a column of wavenumbers, one
    for each pair, gives a square array whose rows repeat the value of the pair (accepted [C54_accept, `WaveFits`]).
34. `analytical` with `'dfs'`, `'dhs'`, `'dsplit'`, `'dtetm'` derives resistivity and anisotropy from `etaH[0, 0]` and
    `etaV[0, 0]`, the values of the first frequency (kernel.py, `halfspace`). With a permittivity (the default is one) a value
    depends on the first frequency of the list, see `C55_single_violated`: for 1 and 10 Hz in one call, the value at 10 Hz
    is not the value of a call with 10 Hz alone. The difference is tiny for geophysical frequencies. In the time domain the
    times are passed to `check_frequency` as if they were frequencies, so the medium depends on the first time (in the model;
    without permittivity there is no effect, `C55_single_partial`). A `func_eta` matters through its first row only (read).
35. `analytical(signal=-1.5)` is accepted and gives the impulse response [C55_accept, `signalCode`]: `check_time_only` tests
    `int(signal)`, `halfspace` compares the number. A waveform (dictionary) is never accepted, `check_time_only` or
    `check_solution` passes it on and `halfspace` fails [C55_accept]. Frequencies as a list, e.g. `[1, 10]`, raise a TypeError
    with the diffusive solutions (`freqtime > 0` on a list), not with `'fs'` [C55_accept].
36. Source and receiver at the same horizontal position: the code takes the minimum offset (1 mm) and the azimuth zero,
    whichever of the two is the source. Components that are odd in the offset (e.g. `ab` = 31 and 13) then do not vanish, and
    the exchanged call has the opposite sign: reciprocity fails [C57_coincident]. The values are those at 1 mm offset, hence
    small. Within 1e-10 (relative) of 45° the snapping of `angle_factor` to zero is not symmetric in the direction either,
    as the tolerance is relative to the angle (read; C57_reciprocity excludes these azimuths).
37. At coincident horizontal positions the x direction is singled out: straight below a horizontal dipole in a whole space,
    `ab=32` gives zero and `ab=31` does not, so the result changes when the two axes are exchanged [C58_coincident]. Both should
    be zero; the reason is again the minimum offset at azimuth zero (finding 36). Reflection in y is not affected [C58_side].
