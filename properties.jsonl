{"id": "C01", "title": "The layered-medium kernel returns the physical field", "statement": "For every stack of horizontal VTI layers with passive properties, every source and receiver depth (same layer, above, below, first or last layer, on an interface) and every wavenumber, the TM and TE Green's functions returned by the wavenumber-domain kernel are the values at the receiver depth of THE unique field that satisfies the one-dimensional Maxwell equations in every layer, is continuous across every interface, jumps by the prescribed amount at the source and decays at +-infinity; the ab-specific prefactors turn that field into the requested component.", "quantifier": "all numbers of layers >= 1, all interface depths, all complex eta/zeta with passive real parts, all lambda > 0, all source/receiver depths and layers, all 13 kernel component codes", "why_tests_cant": "Unit tests compare with stored numbers for a handful of models; the recursions index layers differently depending on the relative position of source and receiver and on the first/last layer, so only a proof over all layer counts excludes an index or sign slip in an untested configuration.", "anchors": ["empymod/kernel.py:greenfct", "empymod/kernel.py:reflections", "empymod/kernel.py:fields"]}
{"id": "C02", "title": "The kernel never divides by zero and never exponentiates a growing argument", "statement": "For passive layers, no denominator evaluated by reflections/fields/greenfct is zero (impedance sums, 1+r*R*exp, 1-R+*R-*exp(-2*Gamma*d), 1+R*exp(-2*Gamma*d), Gamma, eta, zeta) and every exponential that is evaluated has an argument with non-positive real part, hence neither poles nor overflow can be produced by the layer recursion.", "quantifier": "all layer counts, thicknesses, passive complex properties, wavenumbers and source/receiver positions", "why_tests_cant": "Poles of a recursively defined rational function are measure-zero events that random or hand-picked tests do not hit; non-vanishing needs an energy argument.", "anchors": ["empymod/kernel.py:greenfct", "empymod/kernel.py:reflections", "empymod/kernel.py:fields"]}
{"id": "C03", "title": "Reciprocity of source and receiver", "statement": "Exchanging source and receiver (positions, and the two directions) leaves the response unchanged up to the sign required by physics (EE: equal, EM/ME: opposite sign). In the wavenumber domain this holds for every pair of components; magnetic receivers, which the code computes by swapping, give exactly the field of the swapped problem.", "quantifier": "all layered passive media, all source and receiver depths, all components, all wavenumbers", "why_tests_cant": "Needs agreement of two different code paths (rec above src: upgoing recursion, rec below src: downgoing recursion) for every layer count.", "anchors": ["empymod/kernel.py:greenfct", "empymod/kernel.py:wavenumber", "empymod/kernel.py:angle_factor"]}
{"id": "C04", "title": "Inserting an artificial interface changes nothing", "statement": "Splitting any layer at any depth into two layers with the same properties does not change the response for any source and receiver, wherever the new interface lies relative to them.", "quantifier": "all layered media, every layer, every splitting depth, every source/receiver position, all components", "why_tests_cant": "An equivalence between two runs with different layer counts; the code takes different branches in the two runs.", "anchors": ["empymod/kernel.py:greenfct", "empymod/kernel.py:reflections", "empymod/kernel.py:fields"]}
{"id": "C05", "title": "A stack of identical layers is a fullspace", "statement": "If all layers have the same properties, all reflections vanish and the kernel returns exactly the direct field, i.e. the result for a single layer.", "quantifier": "all numbers of layers and interface depths, all source/receiver depths, all components and wavenumbers", "why_tests_cant": "Must hold for each relative position of source and receiver layer; recursion over arbitrary many layers.", "anchors": ["empymod/kernel.py:greenfct", "empymod/model.py:fem"]}
{"id": "C06", "title": "Depth-translation invariance", "statement": "Adding one constant to all interface depths, to the source depth and to the receiver depth leaves the response unchanged.", "quantifier": "all shifts, all layered media, all components", "why_tests_cant": "Universally quantified over models and shifts; tests check one absolute coordinate system.", "anchors": ["empymod/kernel.py:greenfct", "empymod/utils.py:get_layer_nr"]}
{"id": "C07", "title": "Mirror symmetry in z", "statement": "Reflecting the model, source and receiver at a horizontal plane leaves the components with an even number of vertical directions unchanged and flips the sign of the others (with the axial rule for magnetic components), i.e. the upgoing and downgoing halves of the algorithm agree.", "quantifier": "all layered media, all positions, all components", "why_tests_cant": "Relates the upgoing and downgoing recursion, which the code implements by swapping variables in one loop, for every layer count.", "anchors": ["empymod/kernel.py:greenfct", "empymod/kernel.py:reflections", "empymod/kernel.py:fields"]}
{"id": "C08", "title": "Horizontal translation invariance and rotation covariance", "statement": "The response depends on the horizontal positions only through receiver minus source; rotating source, receiver and both dipole directions about the vertical axis leaves the response unchanged.", "quantifier": "all source and receiver coordinates, all rotation angles, all azimuths and dips, all layered media, any Hankel transform method", "why_tests_cant": "Nine separately coded angular dependencies (cos/sin of the angle or the double angle) must combine into a tensor for every angle.", "anchors": ["empymod/kernel.py:angle_factor", "empymod/kernel.py:wavenumber", "empymod/utils.py:get_off_ang", "empymod/utils.py:get_geo_fact"]}
{"id": "C09", "title": "The source-receiver code is decoded consistently", "statement": "The 36 codes ab with both digits in 1..6 are accepted and every other integer is rejected with ValueError; the returned calculation code is one of the codes implemented by the kernel, both source and receiver flags are correct, and for magnetic receivers the code describes the reciprocal (swapped) experiment.", "quantifier": "all integers", "why_tests_cant": "The quantifier ranges over all integers; the mapping must be right for all 36 codes simultaneously.", "anchors": ["empymod/utils.py:check_ab"]}
{"id": "C10", "title": "Depth orientation: decreasing interfaces describe the same model upside down", "statement": "Interfaces given in increasing order and the same model given in decreasing order with the property vectors reversed lead to the same internal model; the internal depth vector always starts with -infinity, is non-decreasing (layers of zero thickness are possible) and has as many entries as there are layers; anything that is not monotone is rejected.", "quantifier": "all lists of depths (with or without leading -inf or trailing +inf), all property vectors", "why_tests_cant": "Infinite input space of list lengths and orders; combination of four independent normalisation steps.", "anchors": ["empymod/utils.py:check_model"]}
{"id": "C11", "title": "Model acceptance and material properties", "statement": "A model is accepted exactly if all property vectors have one entry per layer and anisotropies/resistivities are cut off at the documented minimum; the fullspace flag is raised exactly if all layers are identical (a single layer included) and never for dictionary input; accepted finite models yield eta/zeta that satisfy the passivity conditions needed by the kernel for every positive frequency or Laplace value.", "quantifier": "all property vectors, all frequencies, Laplace and Fourier domain", "why_tests_cant": "Ranges over all real property vectors; the link from validation to kernel well-posedness cannot be sampled.", "anchors": ["empymod/utils.py:check_model", "empymod/utils.py:check_frequency"]}
{"id": "C12", "title": "Every depth belongs to exactly one layer", "statement": "For every depth the layer number is in range and is the unique layer whose half-open interval (top, bottom] contains the depth; a source or receiver on an interface is assigned to the upper layer; for lists the result is element-wise.", "quantifier": "all increasing depth vectors starting with -inf, all real depths (and lists of them)", "why_tests_cant": "Universal over depth vectors and positions; boundary cases are measure-zero.", "anchors": ["empymod/utils.py:get_layer_nr"]}
{"id": "C13", "title": "Offsets and angles enumerate all source-receiver pairs", "statement": "Offset and angle vectors contain exactly nsrc*nrec entries, entry i*nrec+j belongs to source i and receiver j, the offset is the horizontal distance cut off at the minimum offset, and (offset, angle) are the polar coordinates of receiver minus source whenever the distance exceeds the minimum.", "quantifier": "all numbers of sources and receivers and all coordinates", "why_tests_cant": "Index layout for arbitrary sizes; polar identity for all real coordinates.", "anchors": ["empymod/utils.py:get_off_ang"]}
{"id": "C14", "title": "Dipole decomposition loses nothing", "statement": "For arbitrarily oriented source and receiver, the sum over the components that are actually computed, weighted with the geometrical factors, equals the contraction of the 3x3 tensor with both direction vectors, each weight being exact to 1e-8: components are only dropped when their weight is at most 1e-8 in size (the tolerance of np.isclose, and of min_angle if that is not larger), none is counted twice, and the transposed bookkeeping for magnetic receivers pairs each component with the right weight.", "quantifier": "all azimuths and dips of source and receiver, electric or magnetic, any tensor", "why_tests_cant": "Continuum of orientations and 4 electric/magnetic combinations; dropping of components depends on exact coincidences.", "anchors": ["empymod/utils.py:get_abs", "empymod/utils.py:get_geo_fact", "empymod/model.py:bipole"]}
{"id": "C15", "title": "Finite-bipole geometry", "statement": "A bipole given by its end points is turned into integration points that lie on the straight segment between the end points, with azimuth and dip such that the direction vector is the normalised end point difference, a length equal to the distance and weights that sum to one (times length and strength as documented), for one or many integration points and for one or many bipoles.", "quantifier": "all end points, all numbers of bipoles and integration points, both input formats", "why_tests_cant": "Layout of flattened arrays for arbitrary sizes; identity between angles and direction for all reals.", "anchors": ["empymod/utils.py:get_azm_dip", "empymod/utils.py:check_bipole"]}
{"id": "C16", "title": "Output layout of the modelling routines", "statement": "Entry (f, r, s) of the returned array is the response of source s at receiver r for frequency/time f, for all combinations of single/multiple sources, receivers and depths, although the code loops over sources, receivers, both or neither depending on the input; squeeze only removes dimensions of length one.", "quantifier": "all numbers of sources, receivers, frequencies, depths, and integration points", "why_tests_cant": "Four loop strategies with different index arithmetic must agree for all sizes.", "anchors": ["empymod/model.py:bipole", "empymod/model.py:dipole"]}
{"id": "C17", "title": "The loop option never changes results", "statement": "Looping over frequencies, over offsets or not looping at all gives the same frequency-domain values and the same convergence flag; the kernel count is the number of calls of the transform.", "quantifier": "all loop settings, all frequency/offset vectors, any element-wise kernel", "why_tests_cant": "Equality of three programs for every size of input.", "anchors": ["empymod/model.py:fem", "empymod/utils.py:check_loop"]}
{"id": "C18", "title": "DLF result is the filter sum, whatever optimisation is active", "statement": "The standard digital-linear-filter transform returns, for each offset, the sum over filter points of kernel times filter coefficient divided by the offset, combined with the angle factors; the shortcut taken when all angle factors are equal gives the same value, the result is linear in the kernel, and the value at one offset does not depend on the other offsets.", "quantifier": "all filters, all offsets, all angle factors, all kernels", "why_tests_cant": "Optimised and unoptimised branches must agree for all arrays.", "anchors": ["empymod/transform.py:dlf", "empymod/transform.py:hankel_dlf"]}
{"id": "C19", "title": "Lagged and splined DLF sample the right wavenumbers", "statement": "The wavenumber vector generated for lagged-convolution and splined DLF covers every wavenumber that any requested offset needs; in the lagged variant, each output offset uses exactly the window of the pre-computed values that standard DLF would compute for that offset.", "quantifier": "all filters, all offset ranges, all points per decade", "why_tests_cant": "Index arithmetic with ceil/floor of logarithms for all reals; off-by-one at range ends is invisible to tests on fixed offsets.", "anchors": ["empymod/transform.py:get_dlf_points", "empymod/transform.py:dlf"]}
{"id": "C20", "title": "QWE reports convergence honestly and returns the extrapolated value", "statement": "If quadrature-with-extrapolation reports convergence, every entry passed the documented error test, and the returned value is the extrapolated value that passed that test; the number of intervals never exceeds the maximum.", "quantifier": "all integrand sequences, all tolerances, all maxint", "why_tests_cant": "Ranges over all possible sequences of partial sums, i.e. histories of the loop.", "anchors": ["empymod/transform.py:qwe", "empymod/transform.py:hankel_qwe"]}
{"id": "C21", "title": "QUAD reports convergence honestly", "statement": "The quadrature routine reports success exactly if neither the real nor the imaginary part of any of the integrals raised a warning of the integrator.", "quantifier": "all integrands and all outcomes of the external integrator", "why_tests_cant": "The failing combinations of integrator outcomes cannot be enforced by choosing models.", "anchors": ["empymod/transform.py:quad", "empymod/transform.py:hankel_quad"]}
{"id": "C22", "title": "Switch-on and switch-off responses are consistent", "statement": "Step-on and step-off time-domain responses add up to the DC response, the impulse response is computed with the sine/cosine convention selected, and the sign conventions selected for the Fourier transform are those documented.", "quantifier": "all signals, all Fourier methods, all models", "why_tests_cant": "Relates different runs for all models and times.", "anchors": ["empymod/utils.py:check_time", "empymod/model.py:tem", "empymod/kernel.py:halfspace"]}
{"id": "C23", "title": "Arbitrary waveforms are the telescoping superposition of step or impulse responses", "statement": "For every piecewise linear current and every time, the response computed from node times/weights equals the exact convolution applied to the steps; computation times are never below the minimum time; nodes after the evaluation time do not contribute (causality).", "quantifier": "all waveforms (any number of nodes), all times", "why_tests_cant": "Infinite family of waveforms; causality and telescoping need induction over nodes.", "anchors": ["empymod/utils.py:check_waveform"]}
{"id": "C24", "title": "Cut-off at minimum values", "statement": "Every value below the configured minimum is replaced by the minimum and no other value is changed, repeated application has no further effect, a warning is printed exactly if something was changed and verbosity permits, and the shape is preserved.", "quantifier": "all real arrays and all minima, all verbosities", "why_tests_cant": "Universal over arrays; idempotence and iff-warning.", "anchors": ["empymod/utils.py:_check_min", "empymod/utils.py:check_frequency", "empymod/utils.py:check_time_only", "empymod/utils.py:check_model"]}
{"id": "C25", "title": "set_minimum/get_minimum behave like a plain map for every history", "statement": "After any sequence of calls the reported minimum of each quantity is the last value explicitly set for it (None leaves it untouched) or the initial value, and no call changes another quantity.", "quantifier": "all histories of calls", "why_tests_cant": "All interleavings of calls of any length.", "anchors": ["empymod/utils.py:set_minimum", "empymod/utils.py:get_minimum"]}
{"id": "C26", "title": "Verbosity and validation never change numbers", "statement": "The verbosity influences only what is printed: with verb=0 nothing is printed, and the values returned by the checking routines are independent of verb.", "quantifier": "all inputs and all verbosity levels", "why_tests_cant": "Two-run property over all inputs.", "anchors": ["empymod/utils.py:check_ab", "empymod/utils.py:check_model", "empymod/utils.py:check_frequency", "empymod/utils.py:_check_min"]}
{"id": "C27", "title": "Hankel-transform arguments: defaults, overriding and rejection", "statement": "For every known method each unspecified argument gets its documented default, each specified one is used, unknown arguments produce a warning and are ignored, an unknown method raises ValueError, and the dictionary of the caller is not modified.", "quantifier": "all method names (strings) and all argument dictionaries", "why_tests_cant": "All strings and dictionaries, including adversarial names.", "anchors": ["empymod/utils.py:check_hankel"]}
{"id": "C28", "title": "Fourier-transform arguments: defaults and required frequencies", "statement": "For every method the frequencies at which the response is computed are positive and are exactly those the transform later consumes; every unspecified argument gets its documented default, and FFT interpolation frequencies include the requested range.", "quantifier": "all times, all argument dictionaries", "why_tests_cant": "All time vectors and argument combinations.", "anchors": ["empymod/utils.py:check_time", "empymod/transform.py:get_fftlog_input", "empymod/transform.py:fourier_fft"]}
{"id": "C29", "title": "Unknown keyword arguments are rejected", "statement": "Every keyword that is neither consumed nor known raises TypeError and every known keyword is passed through unchanged or replaced by its default; deprecated or ignored keywords trigger exactly the documented warning.", "quantifier": "all keyword dictionaries", "why_tests_cant": "All subsets of names.", "anchors": ["empymod/utils.py:get_kwargs"]}
{"id": "C30", "title": "Frequency sign selects Fourier or Laplace domain", "statement": "Laplace domain is used exactly if the input contains no positive value, the Laplace parameter is the absolute value and the Fourier parameter is 2*pi*i*f; all values are cut off at the minimum frequency so eta and zeta are finite and non-degenerate.", "quantifier": "all frequency vectors and models", "why_tests_cant": "All real vectors with mixed signs.", "anchors": ["empymod/utils.py:check_frequency"]}
{"id": "C31", "title": "Input and data files round-trip", "statement": "Loading a file written by the save routine returns the saved values, for all shapes and dtypes; unknown extensions and wrong dimensions are rejected before anything is written.", "quantifier": "all input dictionaries, all three-dimensional real or complex arrays, all file names, all header information", "why_tests_cant": "All shapes incl. singleton and empty, all strings.", "anchors": ["empymod/io.py:save_input", "empymod/io.py:load_input", "empymod/io.py:save_data", "empymod/io.py:load_data", "empymod/io.py:_ComplexNumPyEncoder"]}
{"id": "C32", "title": "Filter cache is transparent", "statement": "In any history of filter accesses each access returns the filter with the values of the filter library for that name, a filter is loaded at most once, repeated accesses return the identical object, and hankel and fourier namespaces do not interfere.", "quantifier": "all histories of accesses to all names", "why_tests_cant": "All interleavings; caching state.", "anchors": ["empymod/filters.py:_BaseFilter", "empymod/filters.py:FILTERS"]}
{"id": "C33", "title": "Filter files round-trip", "statement": "Reading a filter from the files written for it returns the same base and the same coefficients, the factor is recomputed from the base, and no coefficient appears that was not saved.", "quantifier": "all filters (any subset of coefficients), all directory contents beforehand", "why_tests_cant": "All previous directory contents (histories).", "anchors": ["empymod/filters.py:DigitalFilter.tofile", "empymod/filters.py:DigitalFilter.fromfile"]}
{"id": "C34", "title": "Amplitude and phase", "statement": "For every complex response amp is the modulus and pha the argument in the selected units/sign convention, amp*exp(i*pha) reproduces the value for every unwrap setting, and unwrapping only adds multiples of 2*pi and never leaves jumps larger than pi.", "quantifier": "all complex arrays, all options", "why_tests_cant": "All complex sequences.", "anchors": ["empymod/utils.py:EMArray"]}
{"id": "C35", "title": "Halfspace solution variants are consistent", "statement": "The analytical diffusive halfspace returned as a whole equals the sum of the separately returned direct, reflected and airwave parts, and equals the sum of the TE/TM split, in frequency and time domain; non-default solutions are rejected for unsupported settings.", "quantifier": "all frequencies/times, offsets, depths, resistivities and components", "why_tests_cant": "Identity between three output modes for all real parameters.", "anchors": ["empymod/kernel.py:halfspace", "empymod/model.py:analytical", "empymod/utils.py:check_solution"]}
{"id": "C36", "title": "Fullspace solution", "statement": "The space-frequency domain fullspace solution is reciprocal, covariant under rotation about the vertical axis and depends only on coordinate differences; requesting the direct field analytically (xdirect) and inside the kernel differ only by the direct field of the source layer.", "quantifier": "all coordinates, all components, all complex eta and zeta", "why_tests_cant": "Universal identities of nine separately coded components.", "anchors": ["empymod/kernel.py:fullspace", "empymod/model.py:fem", "empymod/kernel.py:greenfct"]}
{"id": "C37", "title": "Magnetic sources and receivers are the dual problem", "statement": "The response of a magnetic source at a magnetic receiver equals the negative of the electric one with eta and zeta exchanged and negated, and the kernel result for it is the physical field of the dual problem; codes 36 and 63 are identically zero.", "quantifier": "all media, positions and components", "why_tests_cant": "Holds for all models; the code re-uses the electric kernel by exchanging variables.", "anchors": ["empymod/kernel.py:greenfct", "empymod/utils.py:check_ab", "empymod/model.py:fem"]}
{"id": "C38", "title": "Wavenumber-domain routine agrees with the space-domain routine", "statement": "The wavenumber-domain modelling routine returns the kernels that the space-domain routine transforms, for every component.", "quantifier": "all 36 components and all models", "why_tests_cant": "A per-component property that the regression tests only check for a few components.", "anchors": ["empymod/model.py:dipole_k", "empymod/model.py:dipole"]}
{"id": "C39", "title": "Command line interface", "statement": "The command line runs exactly the requested routine with the parameters in the input file, always asks for unsqueezed data when storing results, and rejects unknown routines without computing.", "quantifier": "all argument vectors and input dictionaries", "why_tests_cant": "All argument vectors.", "anchors": ["empymod/__main__.py:main", "empymod/__main__.py:run"]}
{"id": "C40", "title": "TM/TE split add-on sums to the total field", "statement": "The ten separately returned TM and TE contributions of the add-on sum to the response of the dipole routine.", "quantifier": "all layered media with source and receiver in the same layer, all offsets", "why_tests_cant": "The non-physical corrections must cancel for every model.", "anchors": ["empymod/scripts/tmtemod.py:dipole", "empymod/scripts/tmtemod.py:greenfct", "empymod/scripts/tmtemod.py:fields"]}
{"id": "C41", "title": "In-phase/quadrature and coil geometries", "statement": "The derived in-phase/quadrature values are the secondary-to-primary ratios of the magnetic field with the documented components per geometry, and are independent of the common scaling of the dipole moment.", "quantifier": "all coil offsets, frequencies and models", "why_tests_cant": "All models.", "anchors": ["empymod/model.py:ip_and_q"]}
{"id": "C42", "title": "Filter-design add-on: stored results and least squares set-up", "statement": "Saved complete filter designs are read back unchanged, the candidate filter bases are logarithmically spaced with the requested spacing and shift, and the search picks the minimum that the error criterion defines.", "quantifier": "all filter lengths, spacings and shifts", "why_tests_cant": "All sizes and values.", "anchors": ["empymod/scripts/fdesign.py:save_filter", "empymod/scripts/fdesign.py:load_filter", "empymod/scripts/fdesign.py:_calculate_filter", "empymod/scripts/fdesign.py:_ls2ar", "empymod/scripts/fdesign.py:_get_min_val"]}
{"id": "C43", "title": "FFT and FFTLog combine the Fourier coefficients as the transforms require", "statement": "The FFT method returns at its time samples the inverse Fourier sum of the padded response; FFTLog multiplies every Fourier coefficient by its factor, for every length and bias, its output times are the reciprocals of its frequencies up to kr, kr is changed by at most half a step, and the output times enclose the requested times.", "quantifier": "all responses, all lengths, all times", "why_tests_cant": "Comparisons with stored or analytical values at a few settings have tolerances that hide a wrong factor of a single coefficient, and odd lengths or biased transforms are never run.", "anchors": ["empymod/transform.py:fourier_fft", "empymod/transform.py:fourier_fftlog", "empymod/transform.py:get_fftlog_input"]}
{"id": "C44", "title": "dipole returns the field of the medium the user described", "statement": "For every valid description of a layered medium (depths, resistivities, optional anisotropies, permittivities and permeabilities, each with its default), all source and receiver coordinates dipole accepts, every receiver/source component pair, every xdirect and loop setting: dipole returns an array of shape (frequencies, receivers, sources), and entry [f, r, s] is the integral over wavenumbers, by the integration rule of the Hankel transform, of the exact solution of Maxwell's equations for that medium at that frequency and the coordinates of that receiver and that source; the direct field is left out and, for xdirect=True, replaced by the closed form, exactly if source and receiver share a layer or all layers are identical. Anything else raises ValueError (TypeError if ab is not a number).", "quantifier": "all media, coordinates, frequencies, component pairs, xdirect and loop settings, and all integration rules that treat frequencies and offsets separately (shown for the standard digital filter method)", "why_tests_cant": "A test compares a few numbers with stored numbers or with another code; it cannot show that no combination of defaults, layer positions, snapped angles, broadcasting and index orders associates an entry with the wrong receiver, frequency, layer or sign.", "anchors": ["empymod/model.py:663-922", "empymod/model.py:1597-1670", "empymod/utils.py:371-431", "empymod/utils.py:706-903", "empymod/kernel.py:50-171"]}
{"id": "C45", "title": "the Hankel integral over the kernel exists and its tail is exponentially small", "statement": "For every layered medium (any number of layers, complex and anisotropic properties, frequency or Laplace parameter), source and receiver in any layers at different depths, every component pair, xdirect on or off, every offset and angle factor: the integrand that wavenumber returns is finite and continuous for all wavenumbers, bounded by C exp(-k lambda), integrable over all wavenumbers, and cutting the integral at a finite wavenumber L changes it by at most C/k exp(-k L).", "quantifier": "all media, layer positions, component pairs, offsets, wavenumbers, truncation points", "why_tests_cant": "Quadrature and filters always return some number, also for an integrand which does not decay or overflows (exp of a positive argument in a reflection term, a denominator 1 - R+R- approaching zero); tests see finitely many wavenumbers of finitely many models.", "anchors": ["empymod/kernel.py:50-171", "empymod/kernel.py:174-418", "empymod/kernel.py:421-517", "empymod/kernel.py:520-698", "empymod/transform.py:hankel_quad"]}
{"id": "C46", "title": "the transform pairs of the filter design are transform pairs", "statement": "For every parameter a > 0 (f, rho > 0 and z nonzero for the pairs 4 and 5) and every b > 0: the integral over x in (0, inf) of lhs(x) times the kernel named by the pair (J0, J1, sin, cos) at x b exists and equals rhs(b), for all theoretical pairs offered (j0_1-5, j1_1-5, sin_1-3, cos_1-3), with inverse=False and with inverse=True.", "quantifier": "all parameters of the pairs, all b", "why_tests_cant": "The tests compare lhs with rhs of the inverse pair at a few points, and never form the integral; a filter designed with a pair that is wrong by a factor is wrong by this factor and inverts its own pair perfectly, so the error indicator of the design cannot reveal it.", "anchors": ["empymod/scripts/fdesign.py:860-1164", "docs/LaTeX/fdesign.tex"]}
{"id": "C47", "title": "bipole is the superposition of dipole responses", "statement": "For all accepted inputs (point poles [x, y, z, azimuth, dip] or finite poles [x0, x1, y0, y1, z0, z1], any mixture of single values and vectors, any number of integration points, field, flux or current density, any strength): bipole returns an array of shape (frequencies, receivers, sources) whose entry [f, r, s] is the sum, over the integration points on source s and receiver r and the nine component pairs, of what dipole returns for these points and this pair in the same model, times the weights of the points (sum one), the direction cosines of the two poles, s*mu or sigma + s*eps of the layer of the point for flux and current density, and, if strength > 0, strength and the two lengths. It is accepted exactly if model, flags and coordinates are; otherwise ValueError, TypeError (unknown flag string) or IndexError (no coordinates at all). loop is bipole with msrc='b', srcpts=1.", "quantifier": "all models, frequencies, numbers of sources, receivers, depths and integration points, flags, strengths, loop and xdirect settings, and all Hankel transforms that treat frequencies and offsets separately", "why_tests_cant": "The tests compare bipole with dipole for a few hand-picked arrangements; four different loop layouts, broadcasting of angles and depths, skipped components and per-layer factors combine into far more cases than can be listed, and a wrong association gives plausible numbers.", "anchors": ["empymod/model.py:73-660", "empymod/model.py:925-941", "empymod/utils.py:216-368", "empymod/utils.py:1767-1970"]}
{"id": "C48", "title": "Time-domain responses of dipole and bipole", "statement": "For every signal (-1, 0, 1 or a waveform), every accepted Fourier method and its arguments: dipole and bipole return for times an array of shape (times, receivers, sources) whose series for a source-receiver pair is the Fourier transform of the array the same function returns for the same arguments at the required frequencies, scaled for the signal and multiplied by 2/pi, then convolved with the waveform. If that spectrum belongs to an impulse response e and the transform is exact for it, the entry at t is e(t), its integral from 0 to t, its integral from t on, or the sum over the segments of the waveform. With the standard digital filter a time gives the same value whatever other times are asked for. Times below the minimum give the value at the minimum. The call succeeds exactly if the checks, the frequency-domain call and all transforms do, and an exception is one of theirs.", "quantifier": "all times, signals and waveforms, Fourier methods and arguments, models, sources and receivers, and all Hankel transforms", "why_tests_cant": "Tests compare a handful of time-domain curves with stored numbers to a tolerance; a mistake in the order of the frequencies, in the assignment of pairs to columns or in the waveform bookkeeping shows up only for particular numbers of times, sources and receivers.", "anchors": ["empymod/model.py:441-636", "empymod/model.py:842-919", "empymod/model.py:tem", "empymod/utils.py:964-1465", "empymod/transform.py:508-842"]}
{"id": "C49", "title": "Ground-penetrating radar response", "statement": "gpr returns for times an array whose series for a source-receiver pair is the Fourier transform of the frequency-domain response of dipole for the same arguments, multiplied with the Ricker-type wavelet -(f/cf)^2 exp(-(f/cf)^2) and, if a gain g is given, with 1 + |(10^9 t)^g|; without gain no gain is applied. The call succeeds exactly if the checks of the times, dipole and all transforms do, and an exception is one of theirs.", "quantifier": "all times, centre frequencies, gains, Fourier methods and arguments, models, sources and receivers, and all Hankel transforms", "why_tests_cant": "The tests run one experimental case against stored numbers; a wavelet taken at the wrong frequency of the list or a default argument that always fails is only visible by reasoning about all frequency lists and the default path.", "anchors": ["empymod/model.py:1198-1290", "empymod/utils.py:964-1204", "empymod/model.py:1677-1729"]}
{"id": "C50", "title": "Fourier transform with quadrature and extrapolation", "statement": "fourier_qwe adds up the integrals of the interpolated response times sine or cosine over the intervals between zeros, each by the Gauss rule with nquad points on that interval with the length of that interval, for up to maxint intervals, and extrapolates the partial sums.", "quantifier": "all times, responses, interpolations, quadrature rules, numbers of points and intervals, sine and cosine", "why_tests_cant": "A test compares one decaying response with stored output of the same routine to a tolerance; whether the terms that are extrapolated are integrals over intervals or single points, and with which weight, does not show for responses that are negligible beyond the first intervals.", "anchors": ["empymod/transform.py:544-653", "empymod/transform.py:1049-1133", "empymod/utils.py:1085-1157"]}
{"id": "C51", "title": "dipole with each Hankel transform and its arguments", "statement": "dipole accepts ht in {dlf, qwe, quad} (any case) with the documented htarg and rejects every other name with ValueError. With valid arguments it returns, for every frequency and receiver, direct field plus the transform of the wavenumber-domain kernel: the digital filter sum (standard, lagged or splined), the extrapolated sum of Gauss rules on the intervals between Bessel zeros divided by the offset, or the adaptive integral over the given range. No other exception occurs.", "quantifier": "all surveys, layered models, frequencies, components, methods, dictionaries of arguments, filters, quadrature rules, integrators and interpolations", "why_tests_cant": "The tests compare the methods with each other for a few models with default arguments to a tolerance; a wrong weight, range, angle factor or argument that is read but not used disappears in the tolerance or in the default, and names that are nearly valid are not tried.", "anchors": ["empymod/transform.py:52-505", "empymod/transform.py:1049-1257", "empymod/model.py:838-922", "empymod/model.py:1597-1670", "empymod/utils.py:533-703"]}
{"id": "C52", "title": "Laplace domain", "statement": "If all frequencies are negative, dipole returns real numbers: the response of the medium at the real Laplace parameter s = -f, i.e. the frequency-domain formulas with 2*pi*i*f replaced by s, for every component, every setting of xdirect and every Hankel transform; computing with real instead of complex arrays changes nothing and no entry is nan.", "quantifier": "all layered models, surveys, components, negative frequencies, Hankel transforms and their arguments, filters", "why_tests_cant": "The tests check a handful of Laplace-domain values for the default digital filter and electric sources; that kernels stay real, that no square root leaves its domain and that result types fit for each method and each of 36 components is a statement about all models.", "anchors": ["empymod/utils.py:498-527", "empymod/kernel.py:175-700", "empymod/kernel.py:758-929", "empymod/model.py:1597-1670", "empymod/transform.py:122-505", "docs/manual/transforms.rst:163-175"]}
{"id": "C53", "title": "Functions of the user: func_eta, func_zeta and bandpass", "statement": "With a dictionary in res, dipole and bipole return the response of the medium whose eta and zeta are those the functions func_eta and func_zeta return for the checked parameters, layer by layer and frequency by frequency, func_zeta after func_eta, however the layers are listed; without functions the dictionary gives the result of the array (unless all layers are identical). A bandpass function is applied once to the response of every source-receiver pair at the frequencies used, before the transform to the time domain. An exception in a function is passed on. The Cole-Cole functions of the gallery compute the published laws, and the media they describe are passive for 0 <= c <= 1.", "quantifier": "all functions, layered models in either order, further parameters, frequencies, components, surveys, signals and filters", "why_tests_cant": "The tests use functions with fixed return values on one model; that arbitrary functions see the parameters in the internal order of layers, the clipped frequencies and each other's results, and that their result reaches kernel, direct field and flux factors alike, is a statement about all functions.", "anchors": ["empymod/model.py:453-467", "empymod/model.py:629-631", "empymod/model.py:852-869", "empymod/model.py:903-905", "empymod/utils.py:529-700", "examples/time_domain/cole_cole_ip.py:142-169"]}
{"id": "C54", "title": "Wavenumber-domain routine from its arguments", "statement": "dipole_k accepts exactly the models, codes, coordinates and arrays of wavenumbers whose shapes fit, and raises an exception otherwise. Entry (frequency, pair, wavenumber) of PJ0 and PJ1 belongs to the described medium at that frequency, to the source and receiver of that pair and to that wavenumber: PJ0 J0 + PJ1 J1 is the spectrum of the exact solution of Maxwell's equations. dipole with a digital filter is the filter sum of what dipole_k returns for the same arguments.", "quantifier": "all models, frequencies, sources, receivers, wavenumbers, components and filters", "why_tests_cant": "The tests compare a handful of components with stored kernels for one model; whether an entry belongs to the right pair and frequency, and agrees with dipole, for every shape and code is a statement about all arguments.", "anchors": ["empymod/model.py:dipole_k", "empymod/model.py:dipole", "empymod/transform.py:hankel_dlf"]}
{"id": "C55", "title": "Closed-form routine from its arguments", "statement": "analytical accepts exactly the requests it documents and raises an exception otherwise. With solution='fs' it returns what dipole returns for a model without interfaces, namely the field of the dipole in the homogeneous medium. The solutions 'dfs', 'dhs', 'dsplit' and 'dtetm' are accepted together, and their parts add up entry by entry. Without displacement currents 'dfs' equals 'fs'. Every value belongs to its own frequency or time: asking for several at once gives the values of single calls.", "quantifier": "all resistivities, anisotropies, permittivities, permeabilities, frequencies or times, signals, sources, receivers and components", "why_tests_cant": "The tests compare single calls with stored arrays and with dipole for a few configurations; whether the two closed forms and the Hankel-transform route agree, and whether one entry depends on the other frequencies, is a statement about all arguments.", "anchors": ["empymod/model.py:analytical", "empymod/kernel.py:fullspace", "empymod/kernel.py:halfspace", "empymod/utils.py:check_solution", "empymod/utils.py:check_time_only"]}
{"id": "C56", "title": "Numerical transform pair of the filter design", "statement": "The two functions empy_hankel returns belong together: rhs(r) is the Hankel transform at distance r of what lhs(k) returns as function of the wavenumber (order 0 for 'j0', order 1 for 'j1', both with the factor 1/r for the second for 'j2', as the filter design uses them), plus the error the QWE quadrature makes with the field without its direct part. In a full space there is no such error: the pair is exact. Any other type makes both functions fail.", "quantifier": "all three types, all layered or homogeneous models, source and receiver depths that differ, frequency lists with a positive frequency, QWE arguments without interpolation, wavenumber vectors and matrices, distance lists from the minimum offset on", "why_tests_cant": "The test compares one pair with stored numbers; that the two sides, calculated by different routines at a special azimuth and at offset one, are transforms of each other for every model is a statement about integrals.", "anchors": ["empymod/scripts/fdesign.py:empy_hankel", "empymod/model.py:dipole", "empymod/model.py:dipole_k"]}
{"id": "C57", "title": "Symmetries of a modelling call", "statement": "Two calls of dipole that describe the same physical situation in different ways return the same values, entry by entry. Exchanging the source and receiver coordinates and the two digits of ab transposes the array and multiplies it with the sign of reciprocity. Moving sources, receivers and material, describing the material with other layers (interfaces within one material, layers without thickness, reversed order, default values written out) changes nothing. Turning everything upside down multiplies the array with the reflection signs of the two components.", "quantifier": "all valid layered models, all lists of source and receiver coordinates, all components, all frequency lists, every setting of xdirect (with descriptions that agree on what it refers to), exact integration and every digital filter; for moves and other descriptions every Hankel transform that treats frequencies and offsets separately", "why_tests_cant": "The tests compare a few calls with each other to a relative tolerance; the statement pairs every call with its transformed call, including how arguments are checked, layers numbered, azimuths taken and arrays arranged.", "anchors": ["empymod/model.py:dipole", "empymod/model.py:fem", "empymod/utils.py:get_off_ang", "empymod/utils.py:get_layer_nr", "empymod/kernel.py:angle_factor", "empymod/kernel.py:fullspace"]}
{"id": "C58", "title": "Reflections and rotations in the horizontal plane", "statement": "A call of dipole does not depend on the direction of the horizontal axes. Changing the sign of all y coordinates multiplies the array with the reflection signs of the two components. Exchanging x and y, or turning by a quarter, for positions and components gives the same array up to the sign of magnetic components. Turning positions and directions by any angle, with the responses to arbitrary directions put together from nine calls, changes nothing.", "quantifier": "all valid layered models, lists of source and receiver coordinates, components or directions, angles, frequency lists and settings of xdirect; reflections of components with sign one with every Hankel transform that treats frequencies and offsets separately, the others with exact integration and every digital filter; rotations by any angle with every digital filter, and with exact integration where source and receiver are at different depths", "why_tests_cant": "The tests compare a few azimuths with stored arrays; that the azimuth, the snapping of the angle factor, the component codes and the direct field fit together for every position and every angle is a statement about all arguments.", "anchors": ["empymod/model.py:dipole", "empymod/model.py:fem", "empymod/utils.py:get_off_ang", "empymod/kernel.py:angle_factor", "empymod/kernel.py:fullspace"]}
{"id": "C59", "title": "Symmetries in the time domain", "statement": "The symmetries of a call of dipole hold for impulse and step responses as well. With a signal, source and receiver may be exchanged, the model may be moved sideways and its layers split, reflected in the horizontal plane or in a vertical one, and turned about the vertical axis. The time responses follow with the same signs and combinations as the frequency responses.", "quantifier": "all valid layered models, lists of coordinates, components or directions, angles, lists of times, accepted signals that are numbers, settings of xdirect, and Fourier filters without interpolation (pts_per_dec=0); integration rules as for the frequency domain", "why_tests_cant": "The tests compare a few time responses with stored arrays; that the transform takes real or imaginary parts, divides by the frequency for a step and multiplies with the filter in a way that keeps every symmetry is a statement about all arguments and all filters.", "anchors": ["empymod/model.py:dipole", "empymod/model.py:tem", "empymod/transform.py:fourier_dlf", "empymod/utils.py:check_time"]}
