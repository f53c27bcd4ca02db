{"id": "C01", "title": "Integer shift moves samples and fills the gap", "statement": "shift(arr, num, fill_value) with integer num returns an array of the same length whose entry i is arr[i-num] when 0 <= i-num < len(arr) and fill_value otherwise; shifting by a and then by b of the same sign equals shifting by a+b.", "quantifier": "every array, every fill value, every integer shift including zero, negative and |num| >= len(arr)", "why_tests_cant": "slicing code has three branches and negative-slice corner cases; tests sample a few shifts", "anchors": ["qetpy/utils/_utils.py:shift"]}
{"id": "C02", "title": "resample_factors makes fs/sgfreq an integer", "statement": "The pair (up, down) returned by resample_factors(fs, sgfreq) makes fs*up/down an integer multiple of sgfreq, as the docstring promises; non-integer input raises ValueError; if sgfreq already divides fs the factors are (1, 1). Otherwise both factors are positive, and up is the positive multiple nearest to down of the smallest prime in the reduced denominator of fs/sgfreq.", "quantifier": "all pairs of positive integers", "why_tests_cant": "depends on the prime factorisation of both numbers; a finite sample cannot cover it", "anchors": ["qetpy/utils/_utils.py:resample_factors"]}
{"id": "C03", "title": "make_decreasing returns a decreasing minorant", "statement": "make_decreasing(y, x) returns a strictly decreasing sequence that agrees with y at every strict running minimum and never exceeds y; for positive y the result stays positive.", "quantifier": "all increasing x grids and all nonzero y of any length with at least two running minima", "why_tests_cant": "the loop invariant (running minimum) and the extrapolated tail must hold for every sequence", "anchors": ["qetpy/utils/_utils.py:make_decreasing"]}
{"id": "C04", "title": "slope is the least-squares slope", "statement": "slope(x, y) with removemeans=True is the slope of the straight line minimising the sum of squared residuals, is exact on affine data, unchanged by adding a constant to y and linear in y.", "quantifier": "all x with at least two distinct values and all y of the same length", "why_tests_cant": "algebraic law over all reals and all lengths; the source subtracts mean(x) from y, which looks wrong", "anchors": ["qetpy/utils/_utils.py:slope"]}
{"id": "C05", "title": "fill_negatives replaces exactly the non-positive entries by positive interpolants", "statement": "After fill_negatives(arr) every entry is positive, entries that were positive are untouched, each replaced entry lies between the nearest positive neighbours, the call is idempotent, and an array with no positive entry is returned unchanged.", "quantifier": "all real arrays of any length", "why_tests_cant": "universal statement about every position of every array", "anchors": ["qetpy/utils/_utils.py:fill_negatives"]}
{"id": "C06", "title": "Muon-offset formulas are consistent with the power trace", "statement": "For get_offset_from_muon the returned offset, i0, r0 and p0 satisfy p0 = i0^2*r0 and p0 equals powertrace_simple evaluated at the baseline with the returned offset; Ohm's law vbias = i0*(r0+rload) holds.", "quantifier": "all real inputs with i0 != 0 (for p0/r0) and rload+rn != 0", "why_tests_cant": "polynomial identity over all reals", "anchors": ["qetpy/utils/_utils.py:get_offset_from_muon", "qetpy/utils/_utils.py:powertrace_simple"]}
{"id": "C07", "title": "energy_absorbed integrates the power removed relative to baseline", "statement": "energy_absorbed gives 0 for a trace sitting at its baseline and power difference times duration for a constant deviation; the baseline measured from the trace is the mean of the samples before indbasepre and from indbasepost on; it raises ValueError when neither baseline nor indbasepre is given, neither time nor fs, or time stamps of another length; with uniform sampling the fs and the time variant agree.", "quantifier": "all traces of any length, all biases, all sample rates", "why_tests_cant": "must hold for every trace length", "anchors": ["qetpy/utils/_utils.py:energy_absorbed"]}
{"id": "C08", "title": "estimate_g propagates errors with the true partial derivatives", "statement": "The three derivatives used by estimate_g are the partial derivatives of g(p0, tc, tbath) = n*p0*tc^(n-1)/(tc^n - tbath^n), and the returned error with a covariance matrix is sqrt(J*cov*J^T).", "quantifier": "all tc > tbath > 0, all real exponents n, all p0 and covariance matrices", "why_tests_cant": "calculus identity over a continuum", "anchors": ["qetpy/utils/_utils.py:estimate_g"]}
{"id": "C09", "title": "calc_offset with is_didv averages whole periods", "statement": "For periodic traces calc_offset(is_didv=True) returns exactly the mean over one signal-generator period whatever the length of the incomplete last period.", "quantifier": "all trace sets, all periods that are a whole number of bins, all trace lengths of at least one period", "why_tests_cant": "all lengths and all phases of truncation", "anchors": ["qetpy/utils/_utils.py:calc_offset"]}
{"id": "C10", "title": "removeoutliers terminates and only removes points", "statement": "removeoutliers returns after at most max(maxiter,0)+1 passes a mask of the input length that never selects infinite entries and has no holes (a point between two selected points is selected); the selected set only shrinks between passes; the loop exits early as soon as the skewness target is met.", "quantifier": "all arrays, all targets, all maxiter", "why_tests_cant": "loop with data-dependent exit", "anchors": ["qetpy/cut/_cut.py:removeoutliers"]}
{"id": "C11", "title": "iterstat terminates and returns statistics of the points it selects", "statement": "iterstat returns for all data, every cut and every non-negative precision, although its loop is not capped. Its mean and standard deviation are those of the points selected by the returned mask, the mask has the input's length and selects at least two points, or else it selects everything.", "quantifier": "all data arrays, cuts and non-negative precisions", "why_tests_cant": "data-dependent loop with a fallback branch", "anchors": ["qetpy/cut/_cut.py:iterstat"]}
{"id": "C12", "title": "itercov always terminates and rejects malformed input", "statement": "itercov performs at most maxiter+2 passes, returns a mask with one entry per event, and raises ValueError for data that is not at least two variables.", "quantifier": "all data sets, all cuts, all maxiter", "why_tests_cant": "termination for every data set", "anchors": ["qetpy/cut/_cut.py:itercov"]}
{"id": "C13", "title": "autocuts keeps a trace exactly when it survives every enabled stage", "statement": "The boolean mask returned by autocuts has one entry per input trace; it is True exactly for the traces that survive each enabled stage in sequence (each stage seeing only the survivors of the previous ones); with every stage disabled all traces pass. The call always ends.", "quantifier": "all trace sets, all stage algorithms, all 2^5 flag combinations", "why_tests_cant": "composition of index arrays through five stages for arbitrary stage outcomes", "anchors": ["qetpy/cut/_cut.py:autocuts"]}
{"id": "C14", "title": "autocuts slope stage removes steep traces", "statement": "A trace whose slope lies outside the cut computed by the slope stage is not selected by slopecut.", "quantifier": "all trace sets", "why_tests_cant": "must hold for all inputs; the returned mask is built from the wrong initial value", "anchors": ["qetpy/cut/_cut.py:slopecut"]}
{"id": "C15", "title": "get_muon_cut selects large flat pulses", "statement": "get_muon_cut returns a mask with one entry per trace for every non-empty trace set.", "quantifier": "all trace arrays", "why_tests_cant": "an undefined name is reached on every non-empty input", "anchors": ["qetpy/cut/_cut.py:get_muon_cut"]}
{"id": "C16", "title": "symmetrizedist leaves a balanced distribution", "statement": "In every mirrored pair of bins symmetrizedist keeps equal numbers of points on both sides of the centre and never invents indices.", "quantifier": "all value arrays, all bin choices, every outcome of the random selection", "why_tests_cant": "the selection is random, so the claim must hold for all random outcomes", "anchors": ["qetpy/cut/_cut.py:symmetrizedist"]}
{"id": "C17", "title": "Folding a PSD preserves total power and matches the direct one-sided estimate", "statement": "foldpsd of the two-sided calc_psd equals the one-sided calc_psd for every real trace; the sum of the folded spectrum equals the sum of the two-sided spectrum; the sum of the two-sided PSD times df equals the mean square of the trace (Parseval).", "quantifier": "all real traces of all lengths, even and odd", "why_tests_cant": "Nyquist/DC bookkeeping differs by parity of the length; needs the DFT theorem for all n", "anchors": ["qetpy/core/_noise.py:foldpsd", "qetpy/core/_noise.py:calc_psd"]}
{"id": "C18", "title": "Noise.calculate_psd agrees with calc_psd(folded_over=True)", "statement": "The spectrum computed by Noise.calculate_psd equals calc_psd with folding for the same traces.", "quantifier": "all trace sets and lengths", "why_tests_cant": "disagreement only at DC and Nyquist bins, which typical tests ignore", "anchors": ["qetpy/core/_noise.py:Noise.calculate_psd", "qetpy/core/_noise.py:calc_psd"]}
{"id": "C19", "title": "smooth_psd is symmetric and decreasing in |f|", "statement": "smooth_psd returns a two-sided array of the input length whose value depends only on |f| and does not increase with |f|.", "quantifier": "all two-sided PSDs of all lengths", "why_tests_cant": "index bookkeeping for even and odd lengths", "anchors": ["qetpy/core/_noise.py:smooth_psd"]}
{"id": "C20", "title": "Noise results reflect the current traces", "statement": "After any sequence of Noise method calls the stored PSD/CSD/uncorrelated noise are those of the object's current traces.", "quantifier": "all histories of method calls on a Noise object", "why_tests_cant": "a property of every call sequence, not of single calls", "anchors": ["qetpy/core/_noise.py:Noise"]}
{"id": "C21", "title": "Correlated and uncorrelated noise add up to the real CSD diagonal", "statement": "calculate_uncorr_noise splits each channel's PSD so that correlated + uncorrelated equals the real CSD; uncorrelated noise never exceeds the PSD (positive definite CSD).", "quantifier": "all CSD matrices", "why_tests_cant": "matrix inequality over all positive definite matrices", "anchors": ["qetpy/core/_noise.py:Noise.calculate_uncorr_noise"]}
{"id": "C22", "title": "IV curve quantities satisfy circuit laws", "statement": "calc_iv results satisfy (r0 + rload)*ites = vb, ptes = ites^2*r0 = ites*vb - ites^2*rload, and exactly linear normal data recovers slope and offset so that rnorm = 1/slope - rload.", "quantifier": "all readings with nonzero TES current and all load resistances", "why_tests_cant": "algebraic law over all inputs", "anchors": ["qetpy/core/_iv.py:IV.calc_iv"]}
{"id": "C23", "title": "IV accepts every documented rload shape", "statement": "After constructing IV with any rload shape the documentation lists, calc_iv has a load resistance for each temperature, channel and bias point; the readings are held at their temperature, channel and bias point whether they were given with one, two or three dimensions.", "quantifier": "all four documented shapes and all dimensions", "why_tests_cant": "shape dispatch with a missing branch", "anchors": ["qetpy/core/_iv.py:IV.__init__"]}
{"id": "C24", "title": "IV error outputs are errors", "statement": "calc_iv stores the fitted-resistance error (not the resistance itself) as rfit_err, and its r0/ptes errors are first-order propagation of the inputs.", "quantifier": "all inputs", "why_tests_cant": "calculus identity; wrong variable stored", "anchors": ["qetpy/core/_iv.py:IV.calc_iv"]}
{"id": "C25", "title": "_argmin window is exactly the requested set of delays", "statement": "The optimum-filter delay search with nconstrain=k, windowcenter=c inspects exactly the bins whose offset from the centred origin lies in [c - k//2, c + k//2 + k%2) (inside) or exactly its complement in the trace (lgcoutsidewindow); k is capped at the trace length and illegal k or c raise ValueError.", "quantifier": "all trace lengths (even and odd), all window widths and centres", "why_tests_cant": "off-by-one behaviour at every parity combination", "anchors": ["qetpy/core/_fitting.py:_argmin_chi2"]}
{"id": "C26", "title": "The delay search returns the first minimiser among admissible bins", "statement": "The returned index is admissible (inside the window and satisfying the pulse-direction constraint), attains the minimal chi2 among admissible bins and is the earliest such bin in search order; nan is returned exactly when no bin is admissible.", "quantifier": "all chi2 sequences, windows and constraint masks", "why_tests_cant": "universal minimality statement", "anchors": ["qetpy/core/_fitting.py:_argmin_chi2"]}
{"id": "C27", "title": "Pulse direction constraint selects the sign of the amplitude", "statement": "pulse_direction_constraint outside {-1,0,1} raises ValueError; 0 imposes nothing; +1/-1 make every returned amplitude strictly positive/negative, or zero when nothing qualifies.", "quantifier": "all signals, templates, PSDs", "why_tests_cant": "holds for all inputs incl. when no bin qualifies", "anchors": ["qetpy/core/_fitting.py:_get_pulse_direction_constraint_mask", "qetpy/core/_fitting.py:OptimumFilter.ofamp_withdelay", "qetpy/core/_fitting.py:ofamp"]}
{"id": "C28", "title": "Fitted amplitude minimises chi2 at fixed delay", "statement": "For each delay bin the optimum-filter amplitude is the unique real amplitude minimising the noise-weighted residual chi2 of signal minus shifted scaled template, and the reported chi2 equals that residual exactly.", "quantifier": "all signals, templates, PSDs (including infinite DC bin for AC coupling), all delays", "why_tests_cant": "optimality over a continuum of amplitudes, all lengths", "anchors": ["qetpy/core/_fitting.py:OptimumFilter.ofamp_nodelay", "qetpy/core/_fitting.py:OptimumFilter.ofamp_withdelay", "qetpy/core/_fitting.py:ofamp"]}
{"id": "C29", "title": "Delayed fit is the global optimum over window and amplitude", "statement": "ofamp_withdelay returns amplitude, delay and chi2 such that no admissible delay with any real amplitude gives a smaller residual chi2, and its chi2 is never above the no-pulse chi2.", "quantifier": "all signals, templates, PSDs, windows", "why_tests_cant": "global optimum claim", "anchors": ["qetpy/core/_fitting.py:OptimumFilter.ofamp_withdelay"]}
{"id": "C30", "title": "Noiseless scaled shifted template is recovered exactly", "statement": "If the signal is a times the template circularly shifted by k bins then the fit with delay returns chi2 = 0, and amplitude a at delay k satisfies the returned optimum; at delay k the amplitude is exactly a.", "quantifier": "all amplitudes, all shifts, all templates and PSDs with nonzero norm", "why_tests_cant": "round trip for all values", "anchors": ["qetpy/core/_fitting.py:OptimumFilter.ofamp_withdelay", "qetpy/core/_fitting.py:OptimumFilter.ofamp_nodelay"]}
{"id": "C31", "title": "Optimum filter is equivariant", "statement": "Scaling the signal by c scales every amplitude by c and chi2 by c^2; circularly shifting the signal shifts the amplitude-vs-delay trace; adding signals adds amplitudes.", "quantifier": "all signals and scalars/shifts", "why_tests_cant": "algebraic law over all signals", "anchors": ["qetpy/core/_fitting.py:OptimumFilter"]}
{"id": "C32", "title": "AC coupling ignores the baseline", "statement": "With coupling='AC' every amplitude, delay and chi2 reported is unchanged when a constant is added to the signal.", "quantifier": "all signals and constants", "why_tests_cant": "law over all constants; involves an infinite PSD entry", "anchors": ["qetpy/core/_fitting.py:OptimumFilter.__init__"]}
{"id": "C33", "title": "OptimumFilter results do not depend on call history", "statement": "After any sequence of fits and update_signal calls, every method returns what a freshly constructed filter with the current signal returns.", "quantifier": "all histories of public method calls", "why_tests_cant": "cached intermediate results; a property of all sequences", "anchors": ["qetpy/core/_fitting.py:OptimumFilter.update_signal", "qetpy/core/_fitting.py:OptimumFilter"]}
{"id": "C34", "title": "Function and class optimum filters agree", "statement": "ofamp, ofamp_pileup, chi2lowfreq and chi2_nopulse return the same values as the OptimumFilter methods for the same inputs.", "quantifier": "all inputs", "why_tests_cant": "two separately written implementations must agree everywhere", "anchors": ["qetpy/core/_fitting.py:ofamp", "qetpy/core/_fitting.py:OptimumFilter", "qetpy/core/_fitting.py:chi2lowfreq", "qetpy/core/_fitting.py:chi2_nopulse", "qetpy/core/_fitting.py:ofamp_pileup"]}
{"id": "C35", "title": "Low-frequency chi2 is a monotone part of the full chi2", "statement": "chi2_lowfreq is non-negative, non-decreasing in the cutoff, bounded by the full chi2 of the same amplitude and delay, and equal to it when the cutoff reaches the Nyquist frequency.", "quantifier": "all signals, cutoffs, amplitudes, delays", "why_tests_cant": "monotonicity over a continuum", "anchors": ["qetpy/core/_fitting.py:OptimumFilter.chi2_lowfreq", "qetpy/core/_fitting.py:chi2lowfreq"]}
{"id": "C36", "title": "Pile-up fit improves on the single-pulse fit", "statement": "ofamp_pileup_iterative reports chi2 no larger than the single-pulse chi2, and for each second delay the reported chi2 is the two-template residual minimised over the second amplitude.", "quantifier": "all signals, templates, PSDs, windows", "why_tests_cant": "optimality claim", "anchors": ["qetpy/core/_fitting.py:OptimumFilter.ofamp_pileup_iterative", "qetpy/core/_fitting.py:ofamp_pileup"]}
{"id": "C37", "title": "Stationary pile-up fit solves the two-amplitude least squares problem", "statement": "ofamp_pileup_stationary's pair of amplitudes minimises the residual chi2 over both amplitudes at every candidate second delay.", "quantifier": "all signals, templates, PSDs with nonsingular 2x2 system, including delay zero", "why_tests_cant": "optimality for each of n delays, with a special case at delay zero", "anchors": ["qetpy/core/_fitting.py:OptimumFilter.ofamp_pileup_stationary", "qetpy/core/_fitting.py:ofamp_pileup_stationary"]}
{"id": "C38", "title": "Baseline fit jointly minimises amplitude and constant offset", "statement": "ofamp_baseline: in its first pass the amplitude and baseline at each delay minimise the residual chi2 over both parameters; the returned result is the optimum over admissible delays and amplitudes with the baseline fixed to that of the unconstrained joint best fit (as documented), and with no constraints it is the joint global optimum. It returns for every template that is not constant, noise finite and positive in every bin, and non-empty window starting inside the trace. Adding a constant to the signal does not change it.", "quantifier": "all signals, templates, PSDs with nonsingular normal equations", "why_tests_cant": "two-parameter optimality for all inputs", "anchors": ["qetpy/core/_fitting.py:OptimumFilter.ofamp_baseline"]}
{"id": "C39", "title": "Parabolic interpolation refines within half a bin", "statement": "Parabolic interpolation returns the vertex of the parabola through the three chi-square samples around the minimum, and the amplitude of the parabola through the three amplitudes at that time; for a strict discrete minimum the vertex lies within half a bin and its value does not exceed the sampled minimum.  Without a window and a direction constraint, switching the interpolation on moves the time of the delayed fit by at most half a bin and never increases its chi-square.", "quantifier": "all triples of samples", "why_tests_cant": "continuum of values", "anchors": ["qetpy/core/_fitting.py:OptimumFilter._interpolate_parabola", "qetpy/core/_of_nsmb.py:_interpchi2"]}
{"id": "C40", "title": "Resolutions are positive and scale correctly", "statement": "energy_resolution is 1/sqrt(norm), positive, and scaling the PSD by c scales it by sqrt(c); time resolution scales inversely with amplitude.", "quantifier": "all templates, PSDs, amplitudes", "why_tests_cant": "scaling law", "anchors": ["qetpy/core/_fitting.py:OptimumFilter.energy_resolution", "qetpy/core/_fitting.py:OptimumFilter.time_resolution"]}
{"id": "C41", "title": "Non-linear pulse models agree between time and frequency", "statement": "For OFnonlin each n-pole time-domain pulse starts at zero at its start time and the two-pole frequency-domain model is the transform of its time-domain pulse; the sum of squared residuals equals chi2*(n - dof).", "quantifier": "all amplitudes, rise and fall times", "why_tests_cant": "continuum of parameters", "anchors": ["qetpy/core/_fitting.py:OFnonlin"]}
{"id": "C42", "title": "fit_falltimes validates guesses", "statement": "fit_falltimes rejects unsupported pole counts and guess tuples of the wrong length with ValueError, demands taurise for the one-pole fit, and its default bounds contain the guess.", "quantifier": "all guesses, pole counts", "why_tests_cant": "decision logic over all inputs, negative amplitude guesses break it", "anchors": ["qetpy/core/_fitting.py:OFnonlin.fit_falltimes"]}
{"id": "C43", "title": "TES parameter conversion round-trips", "statement": "Converting TES parameters to fit parameters and back is the identity for the 1-, 2- and 3-pole models, and the reverse composition is the identity on fit parameters.", "quantifier": "all parameter values off the singular set", "why_tests_cant": "algebraic identity over 4/8/10 parameters", "anchors": ["qetpy/core/didv/_base_didv.py:_BaseDIDV._converttotesvalues", "qetpy/core/didv/_base_didv.py:_BaseDIDV._convertfromtesvalues"]}
{"id": "C44", "title": "compleximpedance equals the documented circuit formulas", "statement": "compleximpedance/complexadmittance equal the formulas in their documentation for the model selected by the arguments present, and admittance is the reciprocal of impedance.", "quantifier": "all frequencies and parameters; all subsets of arguments given", "why_tests_cant": "model selection depends on which of nine arguments are present", "anchors": ["qetpy/core/didv/_base_didv.py:compleximpedance", "qetpy/core/didv/_base_didv.py:complexadmittance", "qetpy/core/didv/_base_didv.py:_pole_extractor"]}
{"id": "C45", "title": "Pole fall times are poles of the admittance", "statement": "Any solution of the equations solved by _findpolefalltimes gives values tau such that -1/tau is a zero of the impedance, for 1, 2 and 3 poles; the impedances and admittances the code evaluates are those functions, and their inverses, on the imaginary axis.", "quantifier": "all parameters and all solutions", "why_tests_cant": "algebraic identity", "anchors": ["qetpy/core/didv/_base_didv.py:_BaseDIDV._findpolefalltimes"]}
{"id": "C46", "title": "Deconvolution inverts square-wave convolution", "statement": "Deconvolving the square-wave response of a TES model recovers the model admittance at every excited harmonic except the Nyquist bin, and all other bins are flagged as unusable.", "quantifier": "all trace lengths, periods, duty cycles and model parameters", "why_tests_cant": "round trip for all parameters and lengths", "anchors": ["qetpy/core/didv/_base_didv.py:_BaseDIDV._convolvedidv", "qetpy/core/didv/_base_didv.py:_BaseDIDV._deconvolvedidv", "qetpy/core/didv/_base_didv.py:squarewaveresponse"]}
{"id": "C47", "title": "processtraces keeps a whole number of periods and is repeatable", "statement": "processtraces truncates to the largest whole number of signal-generator periods, its flat-region indices are valid indices of the truncated trace, and running it again leaves the object's time offset unchanged.", "quantifier": "all trace lengths, offsets and call histories", "why_tests_cant": "history property (offset accumulates) and index bounds for all lengths", "anchors": ["qetpy/core/didv/_base_didv.py:_BaseDIDV.processtraces"]}
{"id": "C48", "title": "DIDV starting guesses lie inside the optimiser bounds", "statement": "The starting guesses passed to the bounded optimiser satisfy its bounds in every branch of the loop-gain decision and for 1, 2 and 3 poles; for a settled response the loop-gain decision follows the sign of the low-frequency admittance, and the two-pole fit starts with that admittance.", "quantifier": "all mean traces and flat regions", "why_tests_cant": "every branch and all real values", "anchors": ["qetpy/core/didv/_base_didv.py:_BaseDIDV._guessdidvparams", "qetpy/core/didv/_didv.py:DIDV._fitdidv", "qetpy/core/didv/_didv.py:DIDV.dofit"]}
{"id": "C49", "title": "DIDV dispatch and result lookup", "statement": "dofit raises ValueError for a pole count other than 1, 2, 3; fitresult(k) returns the result of the latest dofit(k), an empty dict before; fits of one order never change stored results of another.", "quantifier": "all histories of dofit/fitresult calls", "why_tests_cant": "state-machine property over all call sequences", "anchors": ["qetpy/core/didv/_didv.py:DIDV.dofit", "qetpy/core/didv/_base_didv.py:_BaseDIDV.fitresult"]}
{"id": "C50", "title": "Prior fit starts from the same time offset", "statement": "The DIDV object used by DIDVPriors to guess parameters has the same time offset as the DIDVPriors object.", "quantifier": "all objects incl. add180phase", "why_tests_cant": "flag combination", "anchors": ["qetpy/core/didv/_didv_priors.py:DIDVPriors._guessparams", "qetpy/core/didv/_didv.py:didvinitfromdata"]}
{"id": "C51", "title": "IBIS circuit laws and error propagation", "statement": "IBIS r0 and ptes satisfy ptes = ites^2*r0 and Kirchhoff's law, and every derivative used in its error propagation is the true partial derivative of the propagated quantity. Offsets passed to analyze replace the fitted ones and leave the fitted lines and resistances unchanged.", "quantifier": "all inputs with nonzero current and distinct slopes", "why_tests_cant": "calculus identities over a continuum", "anchors": ["qetpy/core/_ibis.py:IBIS._rtes", "qetpy/core/_ibis.py:IBIS._ptes", "qetpy/core/_ibis.py:IBIS._rtes_err", "qetpy/core/_ibis.py:IBIS._ptes_err", "qetpy/core/_ibis.py:IBIS.analyze"]}
{"id": "C52", "title": "IBIS.analyze accepts documented arguments", "statement": "IBIS.analyze works for 1-, 2- and 3-dimensional data with scalar rp_guess and with scalar yoff/xoff. The constructor holds each reading at its temperature, channel and bias point, and raises ValueError for other shapes, a wrong number of channel names, and a superconducting fit without the indices of its points.", "quantifier": "all documented shapes", "why_tests_cant": "shape dispatch", "anchors": ["qetpy/core/_ibis.py:IBIS.__init__", "qetpy/core/_ibis.py:IBIS.analyze"]}
{"id": "C53", "title": "TES noise budget adds up", "statement": "TESnoise total current and power noise are non-negative, equal the sum of their components, and the power components are the current components divided by |dIdP|^2. Each component is that of the theory: Johnson noise 4 kB T R of load and TES (with the factor (1+beta)^2 and electrothermal feedback in transition), thermal fluctuation noise 4 kB Tc^2 G F, SQUID noise squiddc^2 (1+(squidpole/f)^squidn)^2; in the normal and superconducting states the Johnson noises over the squared impedance of the circuit plus the SQUID noise.", "quantifier": "all TES parameters and frequencies off the singular set", "why_tests_cant": "identity over a continuum", "anchors": ["qetpy/sim/_sim.py:TESnoise"]}
{"id": "C54", "title": "Simulation and dIdV models coincide", "statement": "TESnoise.dIdV equals the two-pole complexadmittance for the same parameters; it reduces to the normal and superconducting admittances in the corresponding limits; dIdP equals the alternative closed form kept in the source.", "quantifier": "all parameters and frequencies", "why_tests_cant": "two implementations must agree everywhere", "anchors": ["qetpy/sim/_sim.py:TESnoise.dIdV", "qetpy/sim/_sim.py:TESnoise.dIdP", "qetpy/core/didv/_base_didv.py:complexadmittance"]}
{"id": "C55", "title": "loadfromdidv maps every noise type", "statement": "loadfromdidv returns a TESnoise object for each documented noisetype (including 'normal' with rnormal given) and raises ValueError otherwise. The device has the response that was fitted, for a DIDV object (small signal parameters) and for a DIDVPriors object (fit parameters) alike. An object which has no fit with the number of poles needed (one for superconducting, two for transition) raises KeyError.", "quantifier": "all noise types, fit results and frequencies", "why_tests_cant": "dead code after an unconditional raise; agreement of two formulas for the response at every frequency", "anchors": ["qetpy/sim/_sim.py:loadfromdidv"]}
{"id": "C56", "title": "Thermal fluctuation suppression factor bounds", "statement": "For tbath <= tc the ballistic suppression factor lies in [1/2, 1] (and increases with tbath), the diffusive one is positive and at most 1.", "quantifier": "all temperatures and exponents", "why_tests_cant": "continuum inequality", "anchors": ["qetpy/sim/_sim.py:TESnoise.__init__"]}
{"id": "C57", "title": "Multi-template fit minimises chi2 for every delay", "statement": "At every delay of_nsmb's amplitudes minimise the noise-weighted residual over all real amplitude vectors even when templates are linearly dependent (pseudo-inverse), and its chi2 is that residual; the reported delay minimises it over the window.", "quantifier": "all template sets, signals, PSDs", "why_tests_cant": "optimality over R^n, singular matrices included", "anchors": ["qetpy/core/_of_nsmb.py:of_nsmb", "qetpy/core/_of_nsmb.py:of_nsmb_setup", "qetpy/core/_of_nsmb.py:of_nsmb_getPf"]}
{"id": "C58", "title": "Polarity constraints are respected", "statement": "Amplitudes returned by of_mb and of_nsmb_con have the polarity demanded by bkgpolarityconstraint/sigpolarityconstraint.", "quantifier": "all signals and constraint vectors", "why_tests_cant": "iterative active-set heuristic: failure needs specific correlations", "anchors": ["qetpy/core/_of_nsmb.py:of_mb", "qetpy/core/_of_nsmb.py:of_nsmb_con", "qetpy/core/_of_nsmb.py:_index_disallowed"]}
{"id": "C59", "title": "Constrained fits work for any number of active templates", "statement": "of_nsmb_getPt returns the restricted matrix for every mask.", "quantifier": "all masks including a single active template", "why_tests_cant": "only single-template masks fail", "anchors": ["qetpy/core/_of_nsmb.py:of_nsmb_getPt"]}
{"id": "C60", "title": "TTL template construction", "statement": "maketemplate_ttlfit_nsmb produces for each laser pulse the first template delayed by the rounded spacing with zero fill, and the search window excludes exactly the notch regions.", "quantifier": "all template lengths, rates and notch sizes", "why_tests_cant": "index arithmetic for all sizes", "anchors": ["qetpy/core/_of_nsmb.py:maketemplate_ttlfit_nsmb"]}
{"id": "C61", "title": "Interpolated fits return whenever plain fits do", "statement": "ofamp_withdelay with interpolate_t0=True returns a result whenever the same call with interpolate_t0=False does.", "quantifier": "all signals, templates, PSDs, windows", "why_tests_cant": "the failing case is a best delay in one particular bin of the trace", "anchors": ["qetpy/core/_fitting.py: OptimumFilter._interpolate_parabola, ofamp_withdelay"]}
{"id": "C62", "title": "Slope removal removes the slope", "statement": "After Noise.remove_trace_slope every trace has zero fitted slope, and calling it again changes nothing.", "quantifier": "all trace sets and non-constant time axes", "why_tests_cant": "all traces", "anchors": ["qetpy/core/_noise.py:Noise.remove_trace_slope"]}
{"id": "C63", "title": "Correlation coefficients are coefficients", "statement": "Noise.calculate_corrcoeff stores, at every frequency, a symmetric matrix with entries in [-1, 1] and ones on the diagonal (where defined).", "quantifier": "all trace sets", "why_tests_cant": "all traces", "anchors": ["qetpy/core/_noise.py:Noise.calculate_corrcoeff"]}
{"id": "C64", "title": "Generated noise has the requested PSD", "statement": "For a symmetric PSD, the traces of gen_noise have as periodogram the PSD times the periodogram of the underlying draws, hence for uncorrelated unit-variance draws the expected calc_psd of the generated noise is the requested PSD in every bin.", "quantifier": "all symmetric PSDs, sample rates, lengths and numbers of traces", "why_tests_cant": "statement about an expectation value; sampling cannot establish it", "anchors": ["qetpy/core/_noise.py:gen_noise", "qetpy/core/_noise.py:calc_psd"]}
{"id": "C65", "title": "iterstat and removeoutliers do not depend on units", "statement": "Scaling the data by a positive factor and shifting it by a constant leaves the masks of iterstat and removeoutliers unchanged and transforms the reported mean and standard deviation accordingly.", "quantifier": "all data arrays, all cuts, all precisions, all positive scales and all shifts", "why_tests_cant": "metamorphic relation through two data-dependent loops", "anchors": ["qetpy/cut/_cut.py:iterstat", "qetpy/cut/_cut.py:removeoutliers"]}
{"id": "C66", "title": "removeoutliers keeps something", "statement": "removeoutliers never rejects all points of a non-empty finite data set.", "quantifier": "all non-empty finite arrays, targets and maxiter", "why_tests_cant": "fails only for data with at least half of the points at one extreme", "anchors": ["qetpy/cut/_cut.py:removeoutliers"]}
{"id": "C67", "title": "IV guesses the longest linear stretch as the normal region", "statement": "When no normal indices are given, IV takes as normal the longest initial stretch of bias points whose best straight line has a reduced chi-square within the tolerance.", "quantifier": "all IV curves with at least three bias points", "why_tests_cant": "data-dependent loop; off-by-one only when the stretch ends with the data", "anchors": ["qetpy/core/_iv.py:_findnormalinds"]}
{"id": "C68", "title": "IBIS errors of the fitted quantities", "statement": "The errors IBIS.analyze reports for the offsets, the fitted, parasitic and normal resistances and the currents are the first-order propagation of the uncertainties of the two fitted lines and of the shunt resistance.", "quantifier": "all data sets that can be fitted, with and without the superconducting fit", "why_tests_cant": "A wrong factor in an error formula gives a plausible number for every data set; only comparison with the derivative for all inputs tells.", "anchors": ["qetpy/core/_ibis.py:453-612", "qetpy/core/_ibis.py:633-690"]}
{"id": "C69", "title": "Reported pole fall times are poles of the response", "statement": "The two fall times reported for a two-pole fit are poles of the fitted admittance, for every fitted parameter set including electrothermally oscillating (underdamped) ones.", "quantifier": "all fit parameters, any outcome of the equation solver", "why_tests_cant": "needs the underdamped region where the real equations have no solution", "anchors": ["qetpy/core/didv/_base_didv.py:_BaseDIDV._findpolefalltimes"]}
{"id": "C70", "title": "A DIDV fit can start from any time offset", "statement": "dofit hands the starting point to the optimiser for every time offset given to the constructor, including the natural value zero.", "quantifier": "all traces, offsets and pole counts", "why_tests_cant": "the scale of the parameters is the starting point itself, so the single value zero is refused while every tested value passes", "anchors": ["qetpy/core/didv/_didv.py:DIDV._fitdidv", "qetpy/core/didv/_didv.py:DIDV.dofit"]}
{"id": "C71", "title": "Small-signal parameters reproduce the fit", "statement": "For every stored fit result the small-signal TES parameters, put back into complexadmittance, give the fitted admittance at every frequency, and didv0 is its value at zero frequency.", "quantifier": "all fit parameters, shunt, parasitic and operating resistances, all frequencies", "why_tests_cant": "identity of rational functions over a continuum for three models", "anchors": ["qetpy/core/didv/_didv.py:DIDV._fitresult", "qetpy/core/didv/_base_didv.py:complexadmittance"]}
{"id": "C72", "title": "DIDV residuals are a chi-square", "statement": "The sum of squares minimised by the DIDV fit is the sum over frequencies of the squared differences of the real and imaginary parts, each divided by its own standard deviation; a fit without a loop-gain decision keeps the better of its two branches, so that with an exact optimiser no parameters allowed by either branch do better.", "quantifier": "all data, errors and parameters", "why_tests_cant": "identity over all data", "anchors": ["qetpy/core/didv/_didv.py:DIDV._fitdidv"]}
{"id": "C73", "title": "Averaged dIdV is unbiased", "statement": "At frequencies with drive the averaged dIdV of processtraces is the transform of the averaged trace divided by the drive; for a trace which is the response of a TES plus noise it is the admittance of this TES plus the noise divided by the drive.", "quantifier": "all sets of traces", "why_tests_cant": "linearity over arbitrary traces", "anchors": ["qetpy/core/didv/_base_didv.py:_BaseDIDV.processtraces", "qetpy/core/didv/_base_didv.py:_BaseDIDV._deconvolvedidv"]}
{"id": "C74", "title": "A DIDV fit works for any number of traces", "statement": "dofit can fit every non-empty set of traces, including one averaged trace.", "quantifier": "all sets of traces", "why_tests_cant": "only a single trace has zero spread at every frequency", "anchors": ["qetpy/core/didv/_base_didv.py:_BaseDIDV.processtraces", "qetpy/core/didv/_didv.py:DIDV._fitdidv"]}
{"id": "C75", "title": "Energy resolution estimate scales and orders correctly", "statement": "energy_res_estimate is defined for increasing frequencies and positive noise, scales with the square root of the noise and inversely with the collection efficiency, and never improves when the noise or the collection time grows.", "quantifier": "all frequency grids, spectra, collection times and efficiencies", "why_tests_cant": "inequalities and scaling laws over a continuum", "anchors": ["qetpy/sim/_sim.py:energy_res_estimate"]}
{"id": "C76", "title": "Energy resolution from one- or two-sided noise", "statement": "energy_res_estimate returns the same resolution for a one-sided power spectral density and for its two-sided form with negative frequencies included, as the documentation allows either.", "quantifier": "all spectra", "why_tests_cant": "relates two calls with different conventions", "anchors": ["qetpy/sim/_sim.py:energy_res_estimate"]}
{"id": "C77", "title": "Multi-template fits accept any number of backgrounds", "statement": "of_nsmb_setup followed by of_nsmb works for every number of background templates, including none and one.", "quantifier": "all numbers of background templates", "why_tests_cant": "the failing shapes are the degenerate ones nobody exercises", "anchors": ["qetpy/core/_of_nsmb.py:of_nsmb_setup", "qetpy/core/_of_nsmb.py:of_nsmb"]}
{"id": "C78", "title": "Constrained fit works when the pulse has zero delay", "statement": "of_nsmb_con returns a fit when the best delay is zero, i.e. when the pulse sits exactly where the template says.", "quantifier": "all traces whose chi2 minimum is at delay zero", "why_tests_cant": "only the boundary index fails", "anchors": ["qetpy/core/_of_nsmb.py:of_nsmb_con", "qetpy/core/_of_nsmb.py:_interpchi2"]}
{"id": "C79", "title": "Interpolated chi2 minimum improves on the bin minimum", "statement": "The interpolated delay returned by of_nsmb_con is within half a bin of the best bin and the interpolated chi2 is not larger than that of the best bin.", "quantifier": "all chi2 curves and search windows", "why_tests_cant": "inequality over all curves; fails only where the window cuts a falling edge", "anchors": ["qetpy/core/_of_nsmb.py:_interpchi2", "qetpy/core/_of_nsmb.py:of_nsmb_con"]}
{"id": "C80", "title": "The fit does not modify the caller's search window", "statement": "Calling of_nsmb leaves the window array of the caller unchanged, so the same window can be reused with another trace.", "quantifier": "all windows, in particular with negative indices", "why_tests_cant": "aliasing effect invisible in the return value", "anchors": ["qetpy/core/_of_nsmb.py:of_nsmb"]}
{"id": "C81", "title": "Further search windows of the constrained fit", "statement": "For each further window given to of_nsmb_con (indices counted from the start of the trace) the reported chi2 is the smallest in that window and the reported amplitude and time belong to that same bin.", "quantifier": "all windows, signals and templates", "why_tests_cant": "index bookkeeping over rolled arrays for all window contents", "anchors": ["qetpy/core/_of_nsmb.py:of_nsmb_con"]}
{"id": "C82", "title": "Reported uncertainties and chi2 of the pole fit", "statement": "Whenever OFnonlin.fit_falltimes returns, the covariance matrix is symmetric and positive semidefinite and equals the inverse of JtJ when that is invertible, the errors are the square roots of its diagonal, and the reduced chi2 is the noise-weighted distance between the data and the returned model divided by n minus the number of parameters.", "quantifier": "all traces, psds, guesses, pole counts and optimiser outputs", "why_tests_cant": "must hold at whatever point the optimiser stops", "anchors": ["qetpy/core/_fitting.py:OFnonlin.fit_falltimes", "qetpy/core/_fitting.py:OFnonlin.calcchi2"]}
{"id": "C83", "title": "Muon-tail fit", "statement": "MuonTailFit.fitmuontail fits the transform of an exponential decay to any trace; its covariance, errors and chi2 belong to the returned variables, and the fit is defined for every non-trivial trace and any psd, ignoring the zero-frequency bin of an AC-coupled psd.", "quantifier": "all traces, psds and optimiser outputs", "why_tests_cant": "the guess can degenerate for particular traces only", "anchors": ["qetpy/core/_fitting.py:MuonTailFit.fitmuontail", "qetpy/core/_fitting.py:MuonTailFit.muontailfcn"]}
{"id": "C84", "title": "Automatic start point of the pole fit", "statement": "Without a guess, fit_falltimes starts from a positive point with the start time at the maximum of the trace, inside the default bounds, for every trace.", "quantifier": "all traces and sample rates", "why_tests_cant": "the slice around the maximum only degenerates for early pulses", "anchors": ["qetpy/core/_fitting.py:OFnonlin.fit_falltimes"]}
{"id": "C85", "title": "The scaled two-pole amplitude is the pulse height", "statement": "With scale_amplitude the amplitude parameter of the two-pole model is the height (largest value) of the pulse, in the time and in the frequency domain.", "quantifier": "all amplitudes and pairs of different rise and fall times", "why_tests_cant": "a maximum over continuous time for a continuum of parameters", "anchors": ["qetpy/core/_fitting.py:OFnonlin.twopole", "qetpy/core/_fitting.py:OFnonlin.twopoletime"]}
{"id": "C86", "title": "make_template gives a pulse that starts where asked and peaks at one", "statement": "make_template(t, tau_r, tau_f, offset) returns one sample per time: zero before bin len(t)//2+offset, from there on the double exponential exp(-t/tau_f)-exp(-t/tau_r) divided by one positive number, all samples in [0,1] and the largest exactly 1.", "quantifier": "all time arrays from zero on, all time constants, all whole offsets", "why_tests_cant": "the normalisation depends on the order of the time constants and on where the pulse falls; tests use one shape", "anchors": ["qetpy/utils/_utils.py:make_template"]}
{"id": "C87", "title": "align_traces undoes the delays between traces", "statement": "align_traces reports shift 0 for the first trace and its copies and -d for a trace delayed by d bins; each aligned trace is the original moved by the reported shift with the missing bins masked; the cut-off and sampling rate given by the caller are used; traces without signal are left alone.", "quantifier": "all sets of traces, all filters, all delays, all arguments", "why_tests_cant": "the position of the maximum of a correlation for every pair of signals cannot be enumerated", "anchors": ["qetpy/utils/_utils.py:align_traces"]}
{"id": "C88", "title": "iterstat's unbiased estimates are maximum-likelihood estimates of the truncated normal distribution", "statement": "iterstat(..., return_unbiased_estimates=True) selects the same points as the plain call, always returns, and its estimates solve the likelihood equations of a normal distribution truncated at mean +- cut*std; converting the data to another unit converts the estimates.", "quantifier": "all data, cuts, precisions, all outcomes of the numerical solver", "why_tests_cant": "a term with a missing factor vanishes for centred data and for a standard deviation of one, which is what tests use", "anchors": ["qetpy/cut/_cut.py:_UnbiasedEstimators", "qetpy/cut/_cut.py:iterstat"]}
{"id": "C89", "title": "The cost of the fit with priors is the stated chi-square plus a Gaussian penalty", "statement": "The function DIDVPriors minimises is, wherever it is defined, half the chi-square of real and imaginary part of the scaled admittance of the documented circuit plus half the quadratic form of the deviations from the priors; parameters with independent priors add their deviation in standard deviations squared and parameters without prior add nothing; data generated by the priors cost zero, the least possible; it is defined for every covariance of known entries.", "quantifier": "all data points, priors, prior covariances and parameters, for one, two and three poles", "why_tests_cant": "the pseudo-inverse and the sign of the quadratic form depend on the covariance given, of which a test tries a few diagonal ones", "anchors": ["qetpy/core/didv/_didv_priors.py:_fitdidv", "qetpy/core/didv/_didv_priors.py:_convertfromtesvalues"]}
{"id": "C90", "title": "A fit with priors stores what the minimiser found, with its priors, under its number of poles", "statement": "DIDVPriors.dofit succeeds only for 1, 2 or 3 poles with 4, 8 or 10 priors; it then starts the minimiser at the priors, and where a prior is zero at the guess, which is the fit without priors with all signs dropped but that of the time shift. Data and errors are both scaled by the shunt resistance, so that every point has the chi-square of the measured dI/dV. It stores parameters, covariance, cost, errors (square roots of the variances), fall times, priors and zero-frequency admittance for this number of poles and leaves the other results alone; a call that raises changes no result; fitresult returns the latest successful fit.", "quantifier": "all histories of fits, all priors and covariances, every behaviour of the minimiser", "why_tests_cant": "histories of fits with failures in between, and a minimiser that may return anything", "anchors": ["qetpy/core/didv/_didv_priors.py:dofit", "qetpy/core/didv/_didv_priors.py:_fitresult"]}
{"id": "C91", "title": "Cuts and noise generation do not modify the caller's arrays", "statement": "pileupcut, autocuts and gen_noise leave the arrays passed to them unchanged, and work the same for traces of integers as for traces of floats.", "quantifier": "all traces, PSDs and settings", "why_tests_cant": "tests look at return values, not at the arguments afterwards", "anchors": ["qetpy/cut/_cut.py:pileupcut", "qetpy/cut/_cut.py:autocuts", "qetpy/core/_noise.py:gen_noise"]}
{"id": "C92", "title": "Frequency-domain plots show fits on the data they fit", "statement": "In the plots of real part, imaginary part, modulus and phase of dI/dV and of the impedance plane, a fit that reproduces the averaged data is drawn through the data points, the curves labelled 1-sigma bounds enclose the data at one standard deviation, and the range shows every data point below 100 kHz and every frequency drawn.", "quantifier": "all processed traces, results and selections of poles", "why_tests_cant": "plot tests check that plotting does not raise", "anchors": ["qetpy/core/didv/_plot_didv.py:_plot_freq_domain", "qetpy/core/didv/_plot_didv.py:_get_best_time_offset", "qetpy/core/didv/_plot_didv.py:plot_re_vs_im_dvdi"]}
{"id": "C93", "title": "Time-domain plots show fits on the averaged trace and zoom on the edge of the drive", "statement": "A fit that reproduces the spectrum of the averaged trace is drawn through the averaged trace whatever its delay, and the zoomed plot is centred on the edge of the square wave inside the first period.", "quantifier": "all processed traces, fits, delays of whole bins, drives and zoom factors", "why_tests_cant": "plot tests check that plotting does not raise", "anchors": ["qetpy/core/didv/_plot_didv.py:_plot_time_domain", "qetpy/core/didv/_plot_didv.py:plot_zoomed_in_trace"]}
{"id": "C94", "title": "The flipped trace of a linear device lies on its averaged trace", "statement": "plot_didv_flipped draws the negated trace half a period earlier; for a device that responds linearly to the square wave it lies on the averaged trace, so that a visible difference shows a nonlinearity.", "quantifier": "all linear devices and all drives with an even number of samples per period", "why_tests_cant": "needs an argument over all harmonics, and tests use one duty cycle", "anchors": ["qetpy/core/didv/_plot_didv.py:plot_didv_flipped"]}
{"id": "C95", "title": "Real and imaginary parts of the cross spectrum and their spreads", "statement": "After calculate_csd the matrix of every frequency is Hermitian, real_csd and imag_csd are its real and imaginary parts, and real_csd_std and imag_csd_std are the standard deviations of the parts over the traces.", "quantifier": "all sets of traces, any number of channels, all frequencies", "why_tests_cant": "the relation has to hold between every pair of channels at every frequency for arbitrary traces; one random set of traces cannot separate it from symmetric special cases", "anchors": ["qetpy/core/_noise.py:calculate_csd"]}
{"id": "C96", "title": "The IV plots show the readings and the fit to the normal points", "statement": "plot_iv, plot_rv and plot_pv draw one curve per selected temperature and channel, whose marks are exactly the readings in the units of the axes; the fit line runs through the normal points and covers the bias points; with lgcsave the figure is written and the call returns.", "quantifier": "all data, selections of temperatures and channels, bias points and paddings", "why_tests_cant": "figures are not compared by tests; the branches depend on signs, padding and shape of the data", "anchors": ["qetpy/plotting/_iv_plotting.py:plot_iv", "qetpy/plotting/_iv_plotting.py:plot_rv", "qetpy/plotting/_iv_plotting.py:plot_pv", "qetpy/plotting/_iv_plotting.py:plot_all_curves", "qetpy/core/_iv.py:IV.plot_iv"]}
{"id": "C97", "title": "The noise plots show the stored spectra channel by channel", "statement": "plot_psd, plot_reim_psd, plot_decorrelatednoise and plot_csd draw, for every channel or requested pair of channels, the stored spectrum at the non-zero frequencies under the name of that channel or pair, each in its own panel of the grid; the parts shown add up to the total; lgcsave writes the shown figure to a file of its own.", "quantifier": "all noise objects, numbers of channels, requests and save options", "why_tests_cant": "figures are not compared by tests; the cells of the grid, the parsing of the requested pairs and the file names depend on the number of channels and the request", "anchors": ["qetpy/plotting/_noise_plotting.py:plot_psd", "qetpy/plotting/_noise_plotting.py:plot_reim_psd", "qetpy/plotting/_noise_plotting.py:plot_csd", "qetpy/plotting/_noise_plotting.py:plot_decorrelatednoise", "qetpy/core/_noise.py:Noise.plot_reim_psd"]}
{"id": "C98", "title": "The plot of correlation coefficients shows every pair once, within -1 and 1", "statement": "plot_corrcoeff draws one line for each pair of different channels, labelled by the pair, whose heights are the correlation coefficients (smoothed on request) and lie between -1 and 1.", "quantifier": "all noise objects and numbers of channels, with and without smoothing", "why_tests_cant": "the smoothing filter has negative weights, so whether it leaves the range depends on the data", "anchors": ["qetpy/plotting/_noise_plotting.py:plot_corrcoeff", "qetpy/core/_noise.py:Noise.plot_corrcoeff"]}
{"id": "C99", "title": "compare_noise draws the named channels of several noise objects together", "statement": "compare_noise draws one figure per named channel which some of the objects have, with one line for each of these objects, and skips channels which none of them has.", "quantifier": "all lists of noise objects and of channel names", "why_tests_cant": "no test calls the function, and whether it fails depends on which channels exist", "anchors": ["qetpy/plotting/_noise_plotting.py:compare_noise"]}
{"id": "C100", "title": "The plots of simulated noise add up and lie on data which follow the model", "statement": "For a physical device plot_noise_sim draws, for each of the types 'current', 'power', 'sc' and 'normal', components whose squares add up to the square of the drawn total at every frequency; data equal to the model are drawn on the total; the simulation object is not changed; with lgcsave the figure is written instead of returned.", "quantifier": "all devices, frequencies, spectra and types", "why_tests_cant": "figures are not compared by tests; the type is compared by identity of strings and the plot has side effects on the simulation object", "anchors": ["qetpy/plotting/_noise_plotting.py:plot_noise_sim", "qetpy/plotting/_noise_plotting.py:_plot_ti_noise", "qetpy/plotting/_noise_plotting.py:_plot_tp_noise", "qetpy/plotting/_noise_plotting.py:_plot_sc_noise", "qetpy/plotting/_noise_plotting.py:_plot_n_noise"]}
{"id": "C101", "title": "The plot of the non-linear fit shows the data on the fit", "statement": "After a successful non-linear fit the plot is drawn; its legend lists every fitted parameter once with value and error; the frequency panel shows the moduli of data, model and noise at the positive frequencies; data equal to the fitted pulse on a constant baseline are drawn on the fit in both time panels; the zoom shows the points around the pulse.", "quantifier": "all traces, numbers of poles, parameters and errors", "why_tests_cant": "figures are not compared by tests; the baseline and the zoom are slices at computed indices which can be empty or negative", "anchors": ["qetpy/plotting/_fitting_plotting.py:plotnonlin", "qetpy/core/_fitting.py:OFnonlin.fit_falltimes"]}
{"id": "C102", "title": "The low-pass filter smooths without distorting", "statement": "lowpassfilter (of the default order) returns, for a cut-off below half the sampling rate and traces of at least seven samples, traces of the same length; it is linear and leaves constant traces as they are; the filtered trace stays within the range of the trace; a cosine comes out in phase, and at the cut-off frequency its amplitude is reduced by 3 dB (a factor of the square root of two), as documented.", "quantifier": "all traces, cut-offs and sampling rates; all cosines", "why_tests_cant": "the response holds for all frequencies and up to transients at the ends of the trace; no test calls the function with a known answer", "anchors": ["qetpy/utils/_utils.py:lowpassfilter"]}
{"id": "C103", "title": "The plots of the multi-template fits show the fit which is returned", "statement": "Asking of_nsmb, of_nsmb_con or of_mb for a plot does not change what they return; the chi2 in the label is the returned chi2; the total curve is the data minus the returned residual; the curves of the background templates and of the signal at its fitted delay, each on top of the constant and the slope, add up to the total; a line is drawn at every start time given; different numbers given for saving write different files.", "quantifier": "all traces, templates, windows, sampling rates, start times and numbers", "why_tests_cant": "figures are not compared by tests; the plot recomputes the fit from amplitudes and delay in its own code, with a fixed filter", "anchors": ["qetpy/plotting/_of_nsmb_plotting.py:plotnsmb", "qetpy/core/_of_nsmb.py:of_nsmb", "qetpy/core/_of_nsmb.py:of_nsmb_con", "qetpy/core/_of_nsmb.py:of_mb"]}
{"id": "C104", "title": "itercov keeps the events near the mean, whatever their units", "statement": "The mask returned by itercov keeps exactly the events whose chi-square with respect to the mean and (non-singular) covariance of a selection of the events is below M + nsigma*sqrt(2M) for M variables and which lie, in every variable, less than the threshold (default: the larger of 3 and the 95% quantile) times the standard deviation above or below the mean; if fewer than two events do, all events are kept. Which events are kept does not depend on the units or the zero point of the variables; mean and covariance transform with them.", "quantifier": "all data sets, thresholds, iteration caps and tolerances; all changes of units and shifts", "why_tests_cant": "a relation between a run and all runs on transformed data, through an iteration that stops on a tolerance", "anchors": ["qetpy/cut/_cut.py:itercov"]}
{"id": "C105", "title": "The autocuts stages cut on the quantity they name", "statement": "pileupcut and chi2cut give the same mask when the traces are rescaled, flipped in sign, or each shifted by an offset of its own, and pileupcut does not depend on removemeans; slopecut and baselinecut give the same mask when the traces are rescaled by a positive factor and shifted (slopecut: each by its own offset; baselinecut: all by one offset), so that autocuts does not depend on the units of the traces or an offset common to all. The slope of a dIdV trace is the difference of the means of the third eighth of its last and of its first period, hence zero for a trace that repeats itself, that of another trace the difference of the means of its last and first tenth; baselinecut uses the earlier of these means. An unknown outlier algorithm always raises.", "quantifier": "all traces, sampling rates, settings, factors and offsets", "why_tests_cant": "invariance under all rescalings and offsets of all traces, through an optimum filter and iterative outlier removal", "anchors": ["qetpy/cut/_cut.py:pileupcut", "qetpy/cut/_cut.py:slopecut", "qetpy/cut/_cut.py:baselinecut", "qetpy/cut/_cut.py:chi2cut", "qetpy/cut/_cut.py:autocuts"]}
{"id": "C106", "title": "The uncertainty of calc_offset", "statement": "The second value returned by calc_offset is the spread of the trace means about the returned offset divided by the number of traces: it is zero exactly if all traces have the same mean, does not change with a common baseline or the order of the traces, and with is_didv it depends on one period of periodic traces only. It estimates the error of the offset: for traces drawn independently from any population its square is on average the variance of the offset about the population mean, and a single trace does not get an uncertainty of zero.", "quantifier": "all sets of traces, all finite populations and numbers of traces", "why_tests_cant": "the average over all draws from every population, and an exact zero criterion", "anchors": ["qetpy/utils/_utils.py:calc_offset"]}
{"id": "C107", "title": "Noise.save writes one file per object", "statement": "Noise.save writes the object to one file in the given directory, named after the object, whether or not the path ends in a slash, and changes no other file. Every constructed object can be saved, and objects with different names do not overwrite each other.", "quantifier": "all paths, names, objects and file systems", "why_tests_cant": "collisions among all pairs of names", "anchors": ["qetpy/core/_noise.py:Noise.save"]}
{"id": "C108", "title": "The plots of IBIS show the analysed readings and the fit", "statement": "The plots of an IBIS object contain one curve per selected temperature and channel whose points are exactly the analysed readings in the units of the axes with horizontal and vertical error bars; negative indices count from the end, indices out of range and plots before analyze raise. The fit line passes through the readings of a straight normal branch. With lgcsave the figure is written and the call returns.", "quantifier": "all objects, results, selections and offsets", "why_tests_cant": "all shapes, selections and offsets; a picture is rarely compared with the data", "anchors": ["qetpy/plotting/_ibis_plotting.py:_plot_iv", "qetpy/plotting/_ibis_plotting.py:_plot_rv", "qetpy/plotting/_ibis_plotting.py:_plot_pv", "qetpy/plotting/_ibis_plotting.py:_plot_all_curves", "qetpy/core/_ibis.py:IBIS.plot_iv"]}
{"id": "C109", "title": "IV and IBIS analyse a measurement alike", "statement": "IV, given the bias voltages across the shunt after subtracting the bias offset that IBIS finds and the load resistance rsh + rp that IBIS finds or is given, returns the current offset, the fitted and normal resistances, and at every bias point the TES currents, resistances and powers of IBIS.analyze, whatever error bars it is given; with or without the superconducting fit.", "quantifier": "all data sets for which IBIS.analyze returns, all non-zero shunt resistances", "why_tests_cant": "equality of two independent implementations on all data", "anchors": ["qetpy/core/_ibis.py:IBIS.analyze", "qetpy/core/_iv.py:IV.calc_iv"]}
{"id": "C110", "title": "What the optimum filter reports on noisy pulses", "statement": "For pulses with additive stationary noise of mean zero whose power spectral density is the one given to the filter, the no-delay amplitude of OptimumFilter is on average the true one and its standard deviation is energy_resolution; no other linear estimator that uses the same bins and is right on noise-free pulses has a smaller spread. chi2_nopulse on noise is on average the number of bins used, the chi-square of the fit one less, and chi2_lowfreq at the true parameters the number of bins up to the cutoff. All this holds for noise made by gen_noise from the same spectrum. energy_resolution and time_resolution are the inverse square roots of the half curvatures of the noise-free chi-square in amplitude and delay, which do not mix.", "quantifier": "all trace lengths, templates, amplitudes, offsets, symmetric spectra with or without excluded bins, and noise ensembles with those second moments", "why_tests_cant": "statements on averages over an ensemble; a simulation only estimates them", "anchors": ["qetpy/core/_fitting.py:OptimumFilter.ofamp_nodelay", "qetpy/core/_fitting.py:OptimumFilter.energy_resolution", "qetpy/core/_fitting.py:OptimumFilter.time_resolution", "qetpy/core/_fitting.py:OptimumFilter.chi2_nopulse", "qetpy/core/_fitting.py:OptimumFilter.chi2_lowfreq", "qetpy/core/_noise.py:gen_noise"]}
{"id": "C111", "title": "The mean chi-square of the traces behind a PSD", "statement": "If the PSD given to OptimumFilter was made by two-sided calc_psd from a set of traces and is positive in every bin, then the mean of chi2_nopulse over those same traces is exactly the number of bins, one less with AC coupling, whatever the traces are. chi2_lowfreq of no pulse has as mean the number of used bins up to the cutoff. The mean chi-square of the no-delay fit is lower than that of no pulse by the mean of (amplitude / energy_resolution) squared.", "quantifier": "all trace lengths, sets of traces, sampling rates, templates and couplings for which the PSD has no zero bin", "why_tests_cant": "an exact identity over all sets of traces; a test sees one noise data set to rounding", "anchors": ["qetpy/core/_noise.py:calc_psd", "qetpy/core/_fitting.py:OptimumFilter.chi2_nopulse", "qetpy/core/_fitting.py:OptimumFilter.chi2_lowfreq", "qetpy/core/_fitting.py:OptimumFilter.ofamp_nodelay"]}
{"id": "C112", "title": "The multi-template fit agrees with the optimum filter", "statement": "On the same trace and noise (the DC bin of the PSD replaced by the first bin), the chi-square that of_nsmb reports is never above that of ofamp_withdelay of OptimumFilter with the signal template, under any constraint on the latter whose delay is in the window. With null backgrounds and all delays in the window the two chi-squares are equal, and the reported signal amplitude and delay reach it. With constant backgrounds, not all null, it equals the chi-square of ofamp_baseline without constraints.", "quantifier": "all trace lengths, traces, templates, PSDs positive away from DC, sampling rates, windows and numbers of backgrounds", "why_tests_cant": "equality of two independent implementations over all traces and templates, linearly dependent ones included", "anchors": ["qetpy/core/_of_nsmb.py:of_nsmb", "qetpy/core/_of_nsmb.py:of_nsmb_setup", "qetpy/core/_fitting.py:OptimumFilter.ofamp_withdelay", "qetpy/core/_fitting.py:OptimumFilter.ofamp_baseline"]}
{"id": "C113", "title": "Which figures the dI/dV plotting methods show and save", "statement": "A call of a plotting method of a dI/dV object makes all of its figures, or none if it raises. With saveplot each figure is written to its own file in the directory savepath and none is shown; without it nothing is written. Different methods called with the same path and name do not overwrite each other. The full-trace plot shows the whole averaged trace and the fits to the extent that their delay leaves them inside it, the single-period plot one period, the real, imaginary and modulus plots all data below 100 kHz, and the phase plot everything.", "quantifier": "all processed traces, results, selections of poles, paths and names", "why_tests_cant": "tests of plots check that nothing is raised for one path", "anchors": ["qetpy/core/didv/_plot_didv.py:plot_full_trace", "qetpy/core/didv/_plot_didv.py:plot_single_period_of_trace", "qetpy/core/didv/_plot_didv.py:plot_zoomed_in_trace", "qetpy/core/didv/_plot_didv.py:plot_didv_flipped", "qetpy/core/didv/_plot_didv.py:plot_re_im_didv", "qetpy/core/didv/_plot_didv.py:plot_abs_phase_didv", "qetpy/core/didv/_plot_didv.py:plot_re_vs_im_dvdi"]}
{"id": "C114", "title": "Averages stored by processtraces", "statement": "After a successful processtraces call the averaged trace is the mean of the usable traces divided by the gain, the time axis starts at minus the time offset in steps of 1/fs, the offset is the mean of the averaged trace, and its error and the errors of the real and imaginary parts of the averaged admittance are the standard errors of the mean over the traces, except that bins with no drive carry an error of 1e20; traces and gain in other units and traces in another order give the same averages; the constructor keeps all its arguments, replacing traces and rate by resampled ones exactly when the rate is not a whole multiple of the signal frequency.", "quantifier": "all objects, traces, gains, orders of traces and bins", "why_tests_cant": "equalities over all real data; a test sees only a few traces", "anchors": ["qetpy/core/didv/_base_didv.py:_BaseDIDV.processtraces", "qetpy/core/didv/_base_didv.py:_BaseDIDV.__init__", "qetpy/core/didv/_base_didv.py:stdcomplex"]}
{"id": "C115", "title": "The admittance determines the parameters of a dI/dV fit", "statement": "Fits that agree at two driven frequencies (three for the three-pole model) have the same parameters: for one pole including the time shift up to whole periods, for two and three poles at equal time shift, and for given load and detector resistance also the same small-signal parameters. Fits with non-negative A that agree at the first eight odd harmonics of the drive (twelve for three poles) have the same impedance and the same time shift up to whole periods. The detector resistance itself, and at odd harmonics the sign of the response together with half a period of delay, cannot be determined.", "quantifier": "all parameters of the pole models and all frequencies", "why_tests_cant": "uniqueness over all real parameters", "anchors": ["qetpy/core/didv/_didv.py:DIDV._fitdidv", "qetpy/core/didv/_base_didv.py:compleximpedance"]}
{"id": "C116", "title": "The predicted energy resolution is that of the optimum filter", "statement": "For a trace of even length and a pulse whose amplitude density has the power that energy_res_estimate assumes (an exponential collection of time constant tau_collect and efficiency collection_eff), the estimate computed from the one-sided noise power (twice the two-sided PSD, at the frequencies from zero to Nyquist) is exactly the energy_resolution of the DC-coupled OptimumFilter built with that template and the two-sided PSD, divided by the electron charge. Given instead the one-sided PSD that foldpsd returns, whose zero and Nyquist bins are not doubled, the inverse square of the estimate exceeds that of the filter by exactly the power of these two bins, so the estimate is always strictly better than the resolution of the filter, DC or AC coupled.", "quantifier": "all even trace lengths, positive sampling rates, positive even PSDs, time constants, non-zero efficiencies, signals and templates of the assumed power, both couplings", "why_tests_cant": "The two resolutions are computed by different modules from differently normalised spectra; a test would compare two floats for one PSD with a tolerance and could not distinguish the exact identity from the small bias at the ends of the folded spectrum.", "anchors": ["qetpy/sim/_sim.py:energy_res_estimate", "qetpy/core/_fitting.py:OptimumFilter.energy_resolution", "qetpy/core/_noise.py:foldpsd"]}
{"id": "C117", "title": "The data determine the parameters of the pulse fits", "statement": "The pulse models of OFnonlin and MuonTailFit are identifiable from the frequency bins other than zero. Two four-pole spectra of at least 9 samples (three-pole: 7) with the same start time which agree in these bins belong to the same pulse, and with positive amplitudes and distinct times they have the same rise time and the same (amplitude, fall time) pairs up to their order; with at least 33 samples (three-pole: 25) this holds also if the start times are not known to agree, and these then differ by a whole number of trace lengths. Two two-pole spectra of at least 7 samples, scaled or not, with positive amplitudes agree if and only if amplitude, rise time and fall time agree and the start times differ by a whole number of trace lengths; likewise for the one-pole model; without the sign condition the unscaled two-pole model is unchanged by exchanging the times and negating the amplitude. One non-zero bin determines the amplitude and decay time of a muon tail. If the data are exactly a two-pole pulse, chi2 is zero there and positive at every other pulse, so a two-pole fit which reports chi2 = 0 has returned the true parameters.", "quantifier": "all trace lengths at least the stated ones, sampling rates, positive time constants, positive PSDs and errscale, start points, bounds and results of the optimiser", "why_tests_cant": "Uniqueness is a statement about all pairs of parameters; a test can only exhibit that some optimiser run recovers one set of values.", "anchors": ["qetpy/core/_fitting.py:OFnonlin.fourpole", "qetpy/core/_fitting.py:OFnonlin.threepole", "qetpy/core/_fitting.py:OFnonlin.twopole", "qetpy/core/_fitting.py:OFnonlin.onepole", "qetpy/core/_fitting.py:OFnonlin.calcchi2", "qetpy/core/_fitting.py:OFnonlin.fit_falltimes", "qetpy/core/_fitting.py:MuonTailFit.muontailfcn"]}
{"id": "C118", "title": "Noise-free events are recovered exactly", "statement": "If shifted copies of the template can be told apart under the noise weighting, then on noise-free traces the fits without interpolation succeed and return the truth, whatever the window and direction constraint as long as they are legal and admit it: ofamp_withdelay on one scaled shifted template returns its amplitude, its delay and chi2 = 0; ofamp_pileup_iterative given the true first pulse returns the second; ofamp_pileup_stationary returns both amplitudes and the second delay (if it is not zero); ofamp_baseline returns amplitude and delay of a pulse on any constant baseline; of_nsmb leaves a zero residual on any combination of the templates and returns its amplitudes and delay if the templates are independent; of_mb returns the amplitudes of independent backgrounds with chi2 = 0 if they are not zero and have the demanded signs; of_nsmb_con then returns all amplitudes, the delay and a zero residual, if every delay can be fitted at all (C59) and the true delay is not the first bin (C78).", "quantifier": "all templates, noise spectra, sampling rates, couplings, amplitudes, delays, windows, directions, numbers of backgrounds", "why_tests_cant": "Tests recover a few simulated pulses within tolerances; that no window, delay or spectrum makes the search settle on another bin is a statement about all of them.", "anchors": ["qetpy/core/_fitting.py:OptimumFilter.ofamp_withdelay", "qetpy/core/_fitting.py:OptimumFilter.ofamp_pileup_iterative", "qetpy/core/_fitting.py:OptimumFilter.ofamp_pileup_stationary", "qetpy/core/_fitting.py:OptimumFilter.ofamp_baseline", "qetpy/core/_of_nsmb.py:of_nsmb", "qetpy/core/_of_nsmb.py:of_mb", "qetpy/core/_of_nsmb.py:of_nsmb_con"]}
{"id": "C119", "title": "Mean, covariance and chi-square of the amplitudes fitted with several templates", "statement": "For traces made of the templates with fixed heights plus stationary noise, of_nsmb at a given delay always returns and its amplitudes are unbiased (for dependent templates, the fitted trace is); if the noise has the PSD given to of_nsmb_setup, with the zero bin taken from the first one, the covariance matrix of the amplitudes is the matrix of of_nsmb_getiP at that delay and the mean chi2 is the number of bins less the number of independent templates. This holds in particular for noise made by gen_noise. Likewise ofamp_pileup_stationary with the second delay given has unbiased amplitudes with variance N/(N^2-C^2), never below the squared energy resolution, covariance -C/(N^2-C^2), and mean chi2 two less than the number of bins used, N being the norm of the template and C its overlap with the delayed template.", "quantifier": "all templates (also linearly dependent ones for of_nsmb), heights, delays, symmetric positive spectra, sampling rates, stationary noise of any distribution", "why_tests_cant": "A statement about expectations over all noise: simulations only estimate it, for one spectrum and one set of templates.", "anchors": ["qetpy/core/_of_nsmb.py:of_nsmb", "qetpy/core/_of_nsmb.py:of_nsmb_getiP", "qetpy/core/_fitting.py:OptimumFilter.ofamp_pileup_stationary", "qetpy/core/_noise.py:gen_noise"]}
{"id": "C120", "title": "Arrays of traces are analysed trace by trace", "statement": "For an array with any number of axes whose last axis is the trace, energy_absorbed returns an array of the shape of the others, each entry being what the function returns for that trace alone, and raises exactly if it raises for the single traces; calc_offset returns an array of the shape of the input without its last axis, and for events with several channels the offsets and uncertainties of every channel are those of the channel alone; a single trace is accepted too.", "quantifier": "all shapes, all entries, all arguments of the two functions", "why_tests_cant": "all shapes and all windows; tests use one shape", "anchors": ["qetpy/utils/_utils.py:energy_absorbed", "qetpy/utils/_utils.py:calc_offset"]}
{"id": "C121", "title": "calc_psd of an array with several channels is the PSD of each channel", "statement": "For an array of events, channels and samples (three or more axes), calc_psd gives for each channel, two-sided and folded, the spectrum of that channel alone. (Violated when folded: the doubling is applied to the channel axis, so a bin is right only when the channel number and the bin number are both inside or both outside the range of bins to be doubled, or the bin is empty.)", "quantifier": "all numbers of events and channels, trace lengths and data", "why_tests_cant": "a test on one channel count and length says nothing about which of the other combinations happen to be right", "anchors": ["qetpy/core/_noise.py:calc_psd"]}
{"id": "C122", "title": "Simulated noise spectra are even in frequency", "statement": "The noise spectra of TESnoise have the same value at a frequency and at its negative, so that they can be evaluated on the two-sided frequencies of a DFT. (Violated for the amplifier noise and the totals unless there is no 1/f knee or its exponent is even: with the default exponent one the amplifier noise vanishes at minus the knee frequency.)", "quantifier": "all devices and frequencies", "why_tests_cant": "tests evaluate the spectra at positive frequencies", "anchors": ["qetpy/sim/_sim.py:TESnoise"]}
{"id": "C123", "title": "The cuts do not depend on the order of the events", "statement": "Storing the same events in another order changes nothing but the order of the flags: removeoutliers, iterstat, itercov (events as rows of an array or as one array per variable), pileupcut, baselinecut, chi2cut, slopecut without symmetrizing, and autocuts unless it symmetrizes the slopes end in the same way, return the same statistics, and one rule decides for every event wherever it is stored; in particular equal events are treated equally.", "quantifier": "all data sets and all their orderings, all thresholds, caps and stage switches", "why_tests_cant": "a relation between runs on all orderings of all data sets, through iterations that stop on a tolerance", "anchors": ["qetpy/cut/_cut.py:removeoutliers", "qetpy/cut/_cut.py:iterstat", "qetpy/cut/_cut.py:itercov", "qetpy/cut/_cut.py:autocuts"]}
{"id": "C124", "title": "Optimum-filter results do not depend on the choice of units", "statement": "If the trace, the template, the noise spectrum and the sampling rate are each multiplied by a constant (a change of the units of current, of the template, of spectral density and of time, the signs of the currents included), then every fit of the single-template optimum filter - without delay, with a delay, with a second pulse, with a baseline, and with two pulses of which one is not delayed - chooses the same bins and returns the amplitudes, the delays, the chi-squares and the resolutions in the new units: amplitudes times signal/template (signal/rate if the template is normalised to its integral), delays divided by the rate, chi-squares times signal squared over noise times rate; with a polarity constraint, which is reversed if the sign of the amplitudes is; and it raises the same errors.", "quantifier": "all traces, templates, spectra, sampling rates, windows, directions, interpolation on or off, and all factors (signal and template nonzero, noise and rate positive)", "why_tests_cant": "tests compare numbers in one system of units", "anchors": ["qetpy/core/_fitting.py:OptimumFilter"]}
{"id": "C125", "title": "Uncorrelated noise is what the best prediction from the other channels leaves", "statement": "The uncorrelated noise of a channel stored by Noise.calculate_uncorr_noise is, at every frequency, the smallest spectral density that can be reached by adding the other channels to it with any complex weights, and exactly one choice of weights reaches it; so no sum of its traces with multiples of the other channels' traces has a spectrum below it. The correlated noise vanishes at a frequency exactly if the cross spectra of the channel with all others vanish there. With fewer traces than channels the calculation always raises LinAlgError.", "quantifier": "all sets of traces, any number of channels, all frequencies, all weights", "why_tests_cant": "a minimum over all weights; tests compare the output with stored numbers", "anchors": ["qetpy/core/_noise.py:Noise.calculate_uncorr_noise"]}
{"id": "C126", "title": "Noise results do not depend on the order of traces and channels and carry the units of the traces", "statement": "Whatever methods of a Noise object are called and in whatever order: traces in another order give the same results and errors; channels in another order give the results of the channels in that order; channels multiplied by constants, of either sign, and another unit of time give the same results in the new units (densities times the factors of the channels divided by that of the rate, coefficients unchanged); constants added to the traces change nothing but the power spectra and the correlation coefficients at zero frequency; cyclic shifts of the single traces change no power spectrum and no correlation coefficient. The same holds for calc_psd.", "quantifier": "all sets of traces, orders, factors, offsets, shifts, and all sequences of method calls", "why_tests_cant": "relations between runs on different data, over all sequences of calls", "anchors": ["qetpy/core/_noise.py:Noise", "qetpy/core/_noise.py:calc_psd"]}
{"id": "C127", "title": "Multi-template fits do not depend on the units or on the order of the backgrounds", "statement": "Rescale the trace, all templates, the PSD and the sampling rate, and pass the background templates in another order (with the polarities in the same order, reversed if trace and templates change sign relative to each other). Then of_nsmb, of_mb and of_nsmb_con return the same fit: amplitudes in the new units and order, the same delay in samples, chi-squares times the square of the trace factor over the noise and rate factors, the residual times the trace factor, the interpolated minimum and the results of the further windows in the new units; they fail in the same cases with the same error.", "quantifier": "all numbers of backgrounds, templates, PSDs, rates, traces, windows, polarities, nonzero factors (noise and rate positive) and orders", "why_tests_cant": "relations between runs on different data; pseudo-inverses of singular matrices and three rounds of refitting with masks", "anchors": ["qetpy/core/_of_nsmb.py:of_nsmb", "qetpy/core/_of_nsmb.py:of_mb", "qetpy/core/_of_nsmb.py:of_nsmb_con", "qetpy/core/_of_nsmb.py:of_nsmb_setup"]}
{"id": "C128", "title": "The multi-template fit depends on the backgrounds only through their combinations", "statement": "Describe the same backgrounds by other templates, in any number of at least two, rescaled, mixed or redundant, and add any combination of backgrounds to the trace: of_nsmb reports the same delay, chi-squares and residual and fails alike. If the signal, at the delays of the window, is not a combination of backgrounds, the signal amplitude is the same. With independent templates, adding b_i times background i to the trace raises the i-th background amplitude by b_i and leaves the others. The background-only fit without polarities has the same chi-squares.", "quantifier": "all templates, dependent or not, positive PSDs and rates, traces, windows, and added backgrounds", "why_tests_cant": "invariance over all equivalent descriptions, including singular matrices", "anchors": ["qetpy/core/_of_nsmb.py:of_nsmb", "qetpy/core/_of_nsmb.py:of_nsmb_getiP", "qetpy/core/_of_nsmb.py:of_mb"]}
{"id": "C129", "title": "IV results do not depend on units, readout zero, neighbours or order", "statement": "Measure voltages and currents in other units (both polarities may be reversed together) and move the zero of the readout: IV.calc_iv fails exactly as before, or the offset moves along and every current, resistance and power, with its error, is the same physical quantity; the automatic search for the normal region picks the same points. Each temperature and channel is analysed by itself: a measurement whose rows occur in another one returns their results. With the normal points chosen by hand, neither the order of the bias points nor the order in which the normal ones are listed matters.", "quantifier": "all measurements with any number of temperatures, channels and (padded) bias points, all unit factors with the same sign, all shifts, selections of rows and orders of the points", "why_tests_cant": "invariance over all data and all real factors and orders", "anchors": ["qetpy/core/_iv.py:IV.calc_iv", "qetpy/core/_iv.py:_findnormalinds"]}
{"id": "C130", "title": "IBIS results do not depend on units, current zeros, neighbours or the order of the bias points", "statement": "Measure the currents and the shunt in other units and move the zero of the readout and, if the superconducting branch is fitted, of the bias current: IBIS.analyze fails exactly as before, or the offsets move along and every current, voltage, resistance and power is the same physical quantity with the same error. Each temperature and channel is analysed by itself. The bias points in another order, with the same points called normal and superconducting, fail exactly as before or give the same results point by point, also with offset arrays given by the user which are the same for all bias points. (Violated for errors: those of the offsets, and all that contain them, depend on where the zero of the bias current is, and without the superconducting fit also on the zero of the readout.)", "quantifier": "all measurements with any number of temperatures, channels and (padded) bias points, all unit factors, shifts, selections of rows and orders of bias points", "why_tests_cant": "invariance over all data and all real factors and shifts", "anchors": ["qetpy/core/_ibis.py:IBIS.analyze"]}
{"id": "C131", "title": "dI/dV models, fits and responses carry units", "statement": "Express resistances and times in other units (inductances accordingly; beta, loop gain and conductance ratio are numbers). complexadmittance, compleximpedance and the conversions between fit and small-signal parameters return the same quantities in the new units and fail alike; residuals and cost of the fit are the same numbers, so the same parameters are best; the stored results carry the units; fall times scale with time only. squarewaveresponse is the same current, proportional to the drive amplitude. processtraces keeps the same traces and finds the same admittances and errors. The cost with priors is the same. (Violated for priors that tie parameters together without uncertainty: the pseudo-inverse of a singular covariance depends on the units, and so does the cost.)", "quantifier": "all parameters, frequencies, data points, traces, unit factors, priors and covariances (for the positive part: those in which only parameters without a prior lack uncertainty)", "why_tests_cant": "invariance over all real unit factors, data and parameters", "anchors": ["qetpy/core/didv/_base_didv.py:complexadmittance", "qetpy/core/didv/_base_didv.py:squarewaveresponse", "qetpy/core/didv/_base_didv.py:_BaseDIDV.processtraces", "qetpy/core/didv/_didv.py:DIDV.dofit", "qetpy/core/didv/_didv_priors.py:DIDVPriors.dofit"]}
{"id": "C132", "title": "The pulse fits carry units and follow the pulse", "statement": "Expressing the trace in other units of amplitude and time (and the psd and sample rate accordingly) leaves the residuals and chi2 of OFnonlin.fit_falltimes and MuonTailFit.fitmuontail unchanged at the converted parameters: the pulse models, guesses, default bounds, validation, failures and (muon tail) errors and covariance carry the units. A trace delayed by whole samples is fitted as well with the start time delayed, a trace of opposite sign with opposite amplitudes, and a constant offset does not matter for OFnonlin. (Violated by OFnonlin: its zero-frequency bin counts with a noise of 1e40 in whatever unit, so chi2 depends on the unit and on the offset by exactly that bin, and default time constants are fixed numbers.)", "quantifier": "all traces, psds, units, pole counts, parameters, bounds and optimiser outputs", "why_tests_cant": "a relation between runs for a continuum of units and parameters", "anchors": ["qetpy/core/_fitting.py:OFnonlin.fit_falltimes", "qetpy/core/_fitting.py:OFnonlin.residuals", "qetpy/core/_fitting.py:MuonTailFit.fitmuontail"]}
{"id": "C133", "title": "A dI/dV fit of noise-free data returns the detector", "statement": "If noise-free data, traces or averages, lie on the model at the fitted frequencies, among which are the first odd harmonics of the drive (two for one pole, eight for two, twelve for three), the loop gain is judged rightly from the averaged trace, and the optimiser returns the best point within its bounds, then after a dofit which succeeds fitresult has cost zero and exactly the parameters of the detector, with a time shift which is right up to whole periods. The same holds for the fit underneath whether the loop gain branch is left open or chosen rightly; with one pole and the branch left open an inverted response half a period later may be returned instead.", "quantifier": "all detectors within the bounds of the fit, all starting values, all error bars and all sets of frequencies containing the harmonics", "why_tests_cant": "tests fit a few simulated detectors; uniqueness of the returned parameters is a statement over all of them", "anchors": ["qetpy/core/didv/_didv.py:DIDV._fitdidv", "qetpy/core/didv/_didv.py:DIDV.dofit"]}
{"id": "C134", "title": "A pulse fit of exact data returns the pulse", "statement": "If the data of a trace are exactly the spectrum of one of the pulse models, fit_falltimes with its default bounds returns that pulse, provided that the optimiser finds the best point within its bounds: for a trace of more than 60 samples, a positive PSD and a positive guess within a factor 100 of the amplitudes, a factor 10 of the times and 30 samples of the start time, the two-pole fit (scaled or not) and the one-pole fit given the true rise time succeed and return exactly the amplitude, times and start time with chi2 = 0; the three- and four-pole fits, for distinct times, return the rise time and the start time, and the (amplitude, fall time) pairs in some order. fitmuontail returns amplitude and decay time of an exact muon tail if they are at most 100 times the values it guesses. Exact data need an odd number of samples: with an even number, no trace has the data of a two-pole pulse which starts on a sample.", "quantifier": "all trace lengths above the stated ones, sampling rates, positive PSDs, error scales, guesses, pulses within the default bounds of the guess, and all optimisers which return a best point within the bounds", "why_tests_cant": "A test recovers particular pulses with one optimiser; that nothing but the true pulse can be returned, for all pulses, guesses and exact optimisers, is a uniqueness statement.", "anchors": ["qetpy/core/_fitting.py:OFnonlin.fit_falltimes", "qetpy/core/_fitting.py:OFnonlin.residuals", "qetpy/core/_fitting.py:OFnonlin.fourpole", "qetpy/core/_fitting.py:OFnonlin.threepole", "qetpy/core/_fitting.py:OFnonlin.twopole", "qetpy/core/_fitting.py:MuonTailFit.fitmuontail"]}
{"id": "C135", "title": "Searches with different windows and directions agree with each other", "statement": "For ofamp_withdelay, ofamp_pileup_iterative (second pulse) and ofamp_baseline: the fit over all delays gives exactly the result of the fit inside, or of the fit outside, any given window (lgcoutsidewindow), with or without interpolation; without interpolation it is the one with the smaller chi2, a wider window never has the larger chi2 inside nor the smaller one outside, a window that contains the delay found with a wider window (or with none) does not change amplitude, delay or chi2, and the fit without a pulse direction is the fit with the direction of the amplitude it finds, its chi2 being the smaller of the two. The inside/outside statement also holds for ofamp_pileup_stationary.", "quantifier": "all traces, templates, noise spectra, sampling rates, couplings, window lengths and centres, directions, first pulses", "why_tests_cant": "A test compares a few windows on a few traces; off-by-one errors of window ends, ties between bins and empty windows show up only for particular lengths, parities, centres and traces.", "anchors": ["qetpy/core/_fitting.py:_argmin_chi2", "qetpy/core/_fitting.py:_get_pulse_direction_constraint_mask", "qetpy/core/_fitting.py:OptimumFilter.ofamp_withdelay", "qetpy/core/_fitting.py:OptimumFilter.ofamp_pileup_iterative", "qetpy/core/_fitting.py:OptimumFilter.ofamp_pileup_stationary", "qetpy/core/_fitting.py:OptimumFilter.ofamp_baseline"]}
{"id": "C136", "title": "The pile-up and chi-square cuts look at a least-squares pulse fit", "statement": "For traces of at least two samples, pileupcut hands to its outlier algorithm the absolute amplitudes, and chi2cut the sums of squared residuals divided by the sampling rate, of least-squares fits of a constant and a pulse at any (circular) position, where the pulse starts at the middle sample (n/2 rounded, halves to even), is zero up to there, rises in 10 and falls in 100 microseconds and has height one; these conditions determine the pulse. Traces which are pulses of this shape, each with its own height, place and baseline, are therefore seen by pileupcut as the absolute values of their heights and by chi2cut as zeros, with or without removemeans.", "quantifier": "all traces of at least two samples, sampling rates > 0, algorithms and settings", "why_tests_cant": "optimality over all amplitudes, positions and baselines for every trace, and a pulse shape for every length and sampling rate", "anchors": ["qetpy/cut/_cut.py:pileupcut", "qetpy/cut/_cut.py:chi2cut", "qetpy/core/_fitting.py:ofamp"]}
{"id": "C137", "title": "Arrays of integers are treated like the same numbers stored as floats", "statement": "shift, fill_negatives and IBIS.analyze give the same numbers whether their arrays hold integers (as read from a digitiser) or floats of the same values.", "quantifier": "all arrays of integers, all shifts, fill values and measurements", "why_tests_cant": "tests use float arrays; results written into an array of the type of the input lose their fractional parts silently", "anchors": ["qetpy/utils/_utils.py:shift", "qetpy/utils/_utils.py:fill_negatives", "qetpy/core/_ibis.py:IBIS.analyze"]}
{"id": "C138", "title": "A simulated device is found again from its dI/dV", "statement": "If the averaged dI/dV of a DIDV object is the noise-free response of a device, known at the first odd harmonics of the drive, the loop gain is judged rightly from the averaged trace and the optimiser returns the best point within its bounds, then a dofit which succeeds stores the small signal parameters of that device (beta, loop gain, inductance, time constants, thermal conductance ratio; the parasitic resistance for one pole) and a time shift right up to whole periods. loadfromdidv then returns the device itself ('transition'), with all its responses and noise spectra, or one with the same superconducting response and noise ('superconducting').", "quantifier": "all devices with physical parameters, all delays, cut-offs, error bars and sets of frequencies containing the harmonics", "why_tests_cant": "a test fits one device; the chain simulation, fit, conversion and loading must be the identity for all of them", "anchors": ["qetpy/core/didv/_didv.py:DIDV.dofit", "qetpy/core/didv/_base_didv.py:complexadmittance", "qetpy/sim/_sim.py:loadfromdidv", "qetpy/sim/_sim.py:TESnoise"]}
{"id": "C139", "title": "A dI/dV fit with priors on the resistances finds the device, and without them it cannot", "statement": "Take noise-free dI/dV averages of a device with shunt resistance rsh (the one given to the object), parasitic resistance rp, operating resistance r0, beta, loop gain other than one, inductance and tau0 (and for three poles a second body), time shift dt, with non-zero error bars, measured at enough odd harmonics of the square wave. If DIDVPriors.dofit finishes, its minimiser returns a best point within its limits, and the priors are independent, right wherever their standard deviation is not zero, and given at least for rsh, rp and r0, then the stored cost is zero and the stored small signal parameters are exactly those of the device, the time shift being right up to whole periods, and exactly right if it has a prior too. For a superconducting device (one pole) a prior on rsh is enough. Loading the result into the noise simulation gives back the device it came from. The priors on the resistances are needed: for every other r0' up to r0 (up to r0 (1 + beta) if the loop gain is below one, beta not negative) there are beta', l' and tau0' within the limits with the same scaled response at every frequency, and scaling rsh, rp, r0 and L together changes nothing.", "quantifier": "all devices, averages lying on their response, error bars, cut-off frequencies, right priors and standard deviations, external solvers, and minimisers which find a best point", "why_tests_cant": "A test fits a few simulated devices and checks the answer within a tolerance; it cannot show that the answer is the only one allowed by the data and the priors for every device, nor that without the priors there is always another one.", "anchors": ["qetpy/core/didv/_didv_priors.py:DIDVPriors.dofit", "qetpy/core/didv/_didv_priors.py:DIDVPriors._fitdidv", "qetpy/sim/_sim.py:loadfromdidv"]}
{"id": "C140", "title": "The cost of a dI/dV fit bounds how far the fitted response is from the true one", "statement": "After a dI/dV fit with an optimiser which, started within its bounds, reports half the sum of squares at the point it returns: twice the cost in the fit result is the squared distance, in units of the error bars of the averages, over the bins below the cut-off frequency, between the averages and the admittance computed from the reported small-signal parameters and delayed by the reported time offset. Hence, for any other response (the true one, in particular), the distance of the fitted response from it is at most sqrt(2*cost) plus the distance of the averages from it; and if the fit got at least as low as that response, at most twice the distance of the averages from it, in total and in the real and the imaginary part of every fitted bin.", "quantifier": "for all numbers of poles, averages with their error bars, cut-off frequencies, successful fits with an optimiser as described and all responses compared with", "why_tests_cant": "a test compares one fit of one simulated noise realisation with a tolerance; the bound holds for every data set and relates the reported cost to the unknown true response through the reported parameters (which went through the conversion to small-signal parameters) rather than through the fitted numbers", "anchors": ["qetpy/core/didv/_didv.py:DIDV.dofit", "qetpy/core/didv/_didv.py:DIDV._fitdidv"]}
{"id": "C141", "title": "How often noise looks like a pulse, and how often a pulse is missed", "statement": "For ofamp_withdelay without interpolation and stationary noise of mean zero whose power spectral density is the one given to the filter: on noise alone the fitted amplitude reaches l times energy_resolution with a probability of at most (number of delays searched)/l^2; a pulse at one of these delays is found with an amplitude smaller than its own by l resolutions or more with a probability of at most 1/l^2, however many delays are searched (with a direction constraint, if the pulse has that direction). A window of k bins has at most k delays. For noise made by gen_noise from the same spectrum the probabilities are at most 2 exp(-l^2/2) per delay (exp(-l^2/2) with a direction constraint) and exp(-l^2/2). On noise, without a direction constraint, the mean square of the amplitude is between one and (number of delays) times the square of energy_resolution and the mean chi2 between the number of bins used less the number of delays and one less than the number of bins used.", "quantifier": "all trace lengths, templates, spectra (with excluded bins), couplings, windows inside or outside, directions, noise with these first and second moments (any distribution) or normal draws, thresholds l > 0 and pulse heights", "why_tests_cant": "trigger thresholds are set where false triggers are too rare to be counted in a test; a simulation samples one spectrum, template and window, while the bounds hold for all of them", "anchors": ["qetpy/core/_fitting.py:OptimumFilter.ofamp_withdelay", "qetpy/core/_fitting.py:OptimumFilter.energy_resolution", "qetpy/core/_noise.py:gen_noise"]}
{"id": "C142", "title": "With more noise traces the measured PSD and the optimum filter made with it become the true ones", "statement": "For independent noise traces with one distribution, mean zero and stationary autocovariance, calc_psd of the first m traces (two-sided or folded) tends, almost surely and in every bin, to the power spectral density of the noise as m grows. In particular, as its documentation says, the PSD calculated from traces made by gen_noise tends to the PSD given to it, for any independent draws of unit variance. An OptimumFilter made with the measured PSD then has in the limit the energy_resolution, chi2_nopulse and no-delay amplitude and chi2 of the filter made with the true PSD, for every template and every trace; and ofamp_withdelay (no interpolation, no direction constraint) finds from some number of traces on the delay which it finds with the true PSD, with amplitude and chi2 tending to those, if that delay is the only best one.", "quantifier": "all trace lengths, sampling rates, noise distributions with finite second moments, positive spectra, templates, couplings, windows and traces", "why_tests_cant": "it is a statement about a limit and about almost every infinite run of noise traces; a test can only compare one finite sample with a tolerance", "anchors": ["qetpy/core/_noise.py:calc_psd", "qetpy/core/_noise.py:gen_noise", "qetpy/core/_fitting.py:OptimumFilter"]}
{"id": "C143", "title": "Statistical spread of chi-squares and of measured PSDs", "statement": "On traces whose noise is made by gen_noise (independent standard normal draws, positive PSD symmetric in frequency, fs > 0): chi2_nopulse varies from trace to trace with a variance of twice the number of bins the fit uses; the chi2 of ofamp_nodelay for a pulse at the time of the fit is on average one less than that number with a variance of twice that, whatever the pulse height, so a cut on chi2 at l standard deviations from its mean rejects at most one good pulse in l^2; chi2_lowfreq at the true amplitude and time has a variance of twice the number of used bins up to the cutoff. A two-sided calc_psd of m pairwise independent, identically distributed stationary traces is unbiased in every bin for m >= 1, and its variance is 1/m of that from one trace when fourth moments exist; for gen_noise the variance is psd^2/m, and 2 psd^2/m in the bins that are their own mirror image (zero frequency, and half the rate for even lengths).", "quantifier": "all lengths n >= 1, all positive symmetric PSDs, templates with a non-zero norm, pulse heights, bin offsets, cutoffs, AC/DC coupling, numbers of traces m >= 1, cut levels l > 0 (bins used > 1)", "why_tests_cant": "Variances are integrals over all noise realisations; a test can only compare finitely many random draws within a tolerance that hides a missing degree of freedom.", "anchors": ["qetpy/core/_fitting.py:OptimumFilter.chi2_nopulse", "qetpy/core/_fitting.py:OptimumFilter.ofamp_nodelay", "qetpy/core/_fitting.py:OptimumFilter.chi2_lowfreq", "qetpy/core/_noise.py:calc_psd", "qetpy/core/_noise.py:gen_noise"]}
{"id": "C144", "title": "Fitted amplitudes are normal, chi-squares are chi-square distributed, and the two are independent", "statement": "For traces made of a pulse (or two pulses, or a multi-template event) at the time of the fit plus noise of gen_noise with the same positive symmetric PSD: (a) chi2_nopulse on pure noise, and chi2_lowfreq with the true amplitude and time, have the chi-square distribution with as many degrees of freedom as bins are used; (b) ofamp_nodelay returns an amplitude that is normal around the true one with the standard deviation reported by energy_resolution, and a chi-square distributed with one degree of freedom less, and the two are independent; (c) so a chi-square cut leaves the distribution of the amplitudes unchanged; (d) the stationary pile-up fit gives two normal amplitudes, independent of a chi-square with two degrees of freedom less; (e) the multi-template fit at a given delay gives a chi-square with as many degrees of freedom as bins less independent templates, independent of the amplitudes, and for independent templates each amplitude is normal with the variance given by of_nsmb_getiP.", "quantifier": "for all lengths, positive symmetric PSDs, sampling rates, templates with non-zero norm, true amplitudes, delays, cuts, and all measurable sets of amplitudes", "why_tests_cant": "a distribution and an independence over all noise draws, for all templates and PSDs, cannot be read off from finitely many simulated traces", "anchors": ["qetpy/core/_fitting.py:OptimumFilter.ofamp_nodelay", "qetpy/core/_fitting.py:OptimumFilter.chi2_nopulse", "qetpy/core/_fitting.py:OptimumFilter.chi2_lowfreq", "qetpy/core/_fitting.py:OptimumFilter.ofamp_pileup_stationary", "qetpy/core/_fitting.py:OptimumFilter.energy_resolution", "qetpy/core/_of_nsmb.py:of_nsmb", "qetpy/core/_noise.py:gen_noise"]}
{"id": "C145", "title": "With more traces the averaged dI/dV and the fitted response become the true ones", "statement": "Take more and more traces of one measurement: every trace, divided by the gain, is the periodic response of one device to the square-wave drive plus stationary zero-mean noise, independent and identically distributed from trace to trace, such that no trace is thrown away. Then with probability one processtraces succeeds for every number of traces m >= 1, its averaged trace tends to the noise-free response, and in every bin with drive the averaged dI/dV tends to the true response at that frequency, while sqrt(m) times each of its two stored standard errors tends to sqrt(n*fs*PSD/2) divided by the modulus of the drive, so the error bars are right and shrink like 1/sqrt(m). For every eps > 0, from some number of traces on, every successful dofit (any number of poles, any cut-off, any optimiser that reports the sum of squares at the point it returns) which got at least as low as the true response yields small-signal parameters whose admittance, delayed by the fitted time offset, is within eps of the true response in every driven bin below the cut-off. For traces made by squarewaveresponse the true response is complexadmittance of the device.", "quantifier": "all trace lengths, rates, drives, gains, stationary noise laws, responses, eps > 0, and (uniformly) all optimisers, pole numbers and cut-offs", "why_tests_cant": "a limit over the number of traces with probability one, uniform in what the optimiser does; a test fits one simulated data set within a tolerance", "anchors": ["qetpy/core/didv/_base_didv.py:_BaseDIDV.processtraces", "qetpy/core/didv/_base_didv.py:_BaseDIDV._deconvolvedidv", "qetpy/core/didv/_base_didv.py:stdcomplex", "qetpy/core/didv/_didv.py:DIDV.dofit"]}
{"id": "C146", "title": "With more traces a dI/dV fit finds the device", "statement": "Take more and more traces of one measurement as in C145, of a physical device: superconducting or normal (one pole), in transition (two poles: loop gain positive and not one, beta >= -1, L >= 0, tau0 > 0), or in transition with a second heat capacity (three poles: also gratio > 0, tau3 > 0), with the object's shunt, parasitic and operating resistances those of the device, and let the first 4, 8 or 12 odd harmonics of the drive be bins with drive. Then for every eps > 0, with probability one, from some number of traces on, every successful dofit with that number of poles, with a cut-off above those harmonics or none, whose optimiser returned a point within its bounds, reported the sum of squares there and got at least as low as the true response, stores small-signal parameters which are all within eps of those of the device (beta, loop gain, L, tau0, gratio, tau3; for one pole rp and L, whatever rp the object was given), and a time offset within eps periods of the true one up to whole periods. No other parameters, however large, can mimic the device on those harmonics.", "quantifier": "all physical devices, trace lengths, rates, drives, gains, stationary noise laws, eps > 0, and (uniformly) all optimisers and cut-offs", "why_tests_cant": "the set of parameters is unbounded and the claim is that none of them imitates the device: a test fits one simulated device and compares within a tolerance", "anchors": ["qetpy/core/didv/_base_didv.py:_BaseDIDV.processtraces", "qetpy/core/didv/_base_didv.py:_BaseDIDV._deconvolvedidv", "qetpy/core/didv/_didv.py:DIDV.dofit", "qetpy/core/didv/_didv.py:DIDV._fitdidv", "qetpy/core/didv/_base_didv.py:_BaseDIDV._converttotesvalues"]}
{"id": "C147", "title": "With more traces a pulse fit finds the pulse", "statement": "Take a trace of more than 60 samples whose data are exactly the spectrum of a pulse model as in C134 (so usually an odd number of samples), with a positive guess within a factor 100 of its amplitudes, a factor 10 of its times and 30 samples of its start time. Then for every eps > 0 there is eta > 0 such that for every trace which differs from it by less than eta in every sample, every successful fit_falltimes with the default bounds whose optimiser stayed within them and reached a chi2 not larger than that of the true pulse returns parameters which are all within eps of the true ones (three and four poles with distinct times: with the (amplitude, fall time) pairs in some order; one pole: given the true rise time). Consequently, if noise traces are independent, identically distributed and stationary with mean zero, then with probability one such fits of the average of the first N noisy traces are within eps of the pulse from some N on. An optimiser which finds the best point within the bounds always reaches such a chi2. The same holds for fitmuontail and any optimiser with two parameters.", "quantifier": "for all pulses and guesses in the stated ranges, all sampling rates, PSDs, error scales, both amplitude conventions, all traces near the pulse, all optimisers and all noise processes", "why_tests_cant": "that every sequence of good fits converges, whatever the noise and the optimiser, is a limit statement over a continuum of parameters; a test sees one noise and one optimiser", "anchors": ["qetpy/core/_fitting.py:OFnonlin.fit_falltimes", "qetpy/core/_fitting.py:OFnonlin.residuals", "qetpy/core/_fitting.py:OFnonlin.calcchi2", "qetpy/core/_fitting.py:MuonTailFit.fitmuontail"]}
{"id": "C148", "title": "Statistics of the IV curve", "statement": "Let the user choose distinct normal points, let their currents lie on a line (offset b, total resistance R) up to errors which are uncorrelated, have mean zero and the standard deviations stated in dites_err, and let calc_iv succeed. Then the current offset ioff is b on average and ioff_err is its standard deviation, and no other linear combination of the normal currents which gives the offset of every line has a smaller variance; the conductance 1/rfit is 1/R on average, and rnorm_err^2 = rfit^4 * (variance of the conductance) + rload_err^2. At every bias point ites is on average the true current and ites_err its standard deviation. All results depend continuously on the readings, their errors and the load resistances, also the resistance and power wherever the current is not zero; so if the readings are averaged over more and more independent repetitions, all results approach, with probability one, those for the true readings, in particular ioff approaches b and rfit approaches R.", "quantifier": "for all data shapes, choices of normal points, lines, error sizes and all distributions of the errors", "why_tests_cant": "means, variances and limits over all error distributions; a test sees one draw", "anchors": ["qetpy/core/_iv.py:IV.calc_iv", "qetpy/core/_iv.py:_fitfunc"]}
{"id": "C149", "title": "Statistics of the IBIS analysis", "statement": "Let IBIS.analyze succeed, with or without superconducting points and with default or given offsets. All its results depend continuously on the readings, their errors and the shunt resistance. So if the readings are averaged over more and more independent repetitions, all results approach, with probability one, those for the true readings; where these follow the bias circuit on the normal and on the superconducting points, the offsets and resistances found approach the offsets of the circuit, its parasitic resistance and its normal resistance. If the errors of the readings have mean zero and the stated sizes, the slopes and intercepts of the normal line and of the superconducting line are right on average.", "quantifier": "for all data shapes, choices of points, offsets given or not, circuits and all distributions of the errors", "why_tests_cant": "limits and means over all error distributions; a test sees one draw", "anchors": ["qetpy/core/_ibis.py:IBIS.analyze", "qetpy/core/_ibis.py:IBIS._fitfunc"]}
{"id": "C150", "title": "With more recordings the spectra of a Noise object become those of the noise", "statement": "Let a Noise object be made from m independent recordings of several channels with one distribution of finite power. As m grows, with probability one and at every frequency: psd, real_psd and imag_psd tend to 2/(n fs) times the mean power, squared real and squared imaginary part of the transform; csd tends to the mean cross spectrum of a recording; corrcoeff tends to the correlation coefficient of the amplitudes of the two channels wherever these vary; and, if no combination of the channels is silent at any frequency, calculate_uncorr_noise succeeds from some m on, the uncorrelated noise of a channel tends to the smallest spectral density that can be reached by adding the other channels to it with any weights, and the correlated noise to the rest of its spectral density. If the channels are jointly stationary over the length of a recording, the limit of psd is twice the two-sided power spectral density, and the limit of csd is the cross spectral density, one-sided except at zero frequency and half the sampling rate, averaged over each frequency and its two neighbours with the weights 4/6, 1/6, 1/6, in which the constant part counts as zero.", "quantifier": "for all numbers of channels, lengths of at least one sample (three for the weights), sampling rates and all distributions of the noise with finite power", "why_tests_cant": "limits with probability one over all noise distributions; a test sees finitely many recordings of one distribution", "anchors": ["qetpy/core/_noise.py:Noise.calculate_psd", "qetpy/core/_noise.py:Noise.calculate_csd", "qetpy/core/_noise.py:Noise.calculate_corrcoeff", "qetpy/core/_noise.py:Noise.calculate_uncorr_noise"]}
{"id": "C151", "title": "First-order errors of the IV curve", "statement": "Let the user choose distinct normal points which lie on a line (offset b, total resistance R), let calc_iv succeed on the true readings, and let all bias voltages, currents and load resistances have random errors which are a fraction s of those stated in vb_err, dites_err and rload_err: mean zero, currents and voltages uncorrelated with each other and with the load resistance, whose error may be common to all bias points. Then for small s calc_iv succeeds, and to first order in s the current offset and normal resistance, and at every bias point not among the normal points the current, resistance and power, have no bias and have at least s times the stated error (ioff_err, rnorm_err, ites_err, r0_err, ptes_err) as standard deviation; exactly s times the stated error if vb_err is zero at the normal points. If it is not, the stated errors leave it out, and the variance of the offset may be twice the stated one. (At the normal points themselves the stated errors are wrong in either direction, see C148.)", "quantifier": "for all data shapes, choices of normal points, lines, readings, error sizes and all distributions of the errors", "why_tests_cant": "a derivative and a variance over all error distributions; a test sees one draw and one size of the errors", "anchors": ["qetpy/core/_iv.py:IV.calc_iv"]}
{"id": "C152", "title": "The uncertainties a pulse fit reports are standard deviations to first order in the noise", "statement": "Let a trace be a pulse of the fitted model plus s times stationary noise whose spectral density is the psd of the fit divided by errscale in every bin but the zero bin, where its power is at most the 1e40 the fit assumes. Let fit_falltimes (one pole with a given rise time, two, three or four poles; default bounds; an odd number of at least 61 samples) return the best point within its bounds and the derivatives there. If the parameters of the pulse are strictly within the bounds and its times differ (for three and four poles also: the pulse has a slope at its start, and the fit lists the fall times in increasing order), then as s goes to zero the errors of the parameters, divided by s, approach random variables D of mean zero; the returned covariance matrix and errors approach a matrix C with positive diagonal and the square roots of that diagonal; every linear combination of D has at most the variance which C states; and if the zero bin has the assumed power, C is exactly the covariance matrix of D. The same holds for fitmuontail (psd positive in all bins, an odd number of at least 3 samples, the noise with the stated density in all bins, the height and decay time positive and below the limits which the fit derives from the noise-free trace, for each choice of the sample closest to 1/e of the height), with C exactly the covariance matrix of D.", "quantifier": "for all psds positive outside the zero bin, sampling rates, error scales, guesses, pulses of the model, noise distributions with finite second moments, and all sequences of best fits", "why_tests_cant": "a test compares the spread of finitely many simulated fits with the reported numbers within sampling error; it cannot show that a covariance formula is the exact first-order one for every pulse, spectrum and noise distribution, nor find the one bin whose weight makes the statement an inequality", "anchors": ["qetpy/core/_fitting.py:OFnonlin.fit_falltimes", "qetpy/core/_fitting.py:OFnonlin.residuals", "qetpy/core/_fitting.py:OFnonlin.twopole", "qetpy/core/_fitting.py:OFnonlin.threepole", "qetpy/core/_fitting.py:OFnonlin.fourpole", "qetpy/core/_fitting.py:MuonTailFit.fitmuontail"]}
{"id": "C153", "title": "The uncertainties a dI/dV fit reports are standard deviations to first order in the noise", "statement": "Let the averaged dI/dV be, in every bin with drive, the response of a device with one, two or three poles (time constants and impedance parameters not zero) and a time shift, plus s times the spectrum of stationary noise divided by that of the drive, with the true standard deviations of real and imaginary part as error bars; let the first 3, 5 or 7 odd harmonics be among the bins below the cut-off, let there be noise in all driven bins below it, and let drive at a frequency imply drive at the opposite one. Let dofit end at a local minimum, with the derivatives there, and let its parameters approach the truth as s goes to zero. Then the errors of the parameters, divided by s, approach random variables of mean zero, the reported covariance matrix divided by s squared approaches a matrix with positive diagonal, and the latter should be the covariance matrix of the former. (Violated: the true covariance matrix is exactly twice the reported one.)", "quantifier": "for all numbers of bins, sampling and drive settings, cut-offs, devices, noise distributions with finite second moments, and all sequences of fits which approach the truth", "why_tests_cant": "a test would compare the spread of finitely many simulated fits with the reported errors; that the ratio is the square root of two for every device, spectrum and setting is an identity between two matrices of which only one can be computed from a fit", "anchors": ["qetpy/core/didv/_didv.py:DIDV._fitdidv", "qetpy/core/didv/_didv.py:DIDV.dofit", "qetpy/core/didv/_base_didv.py:_BaseDIDV.processtraces"]}
{"id": "C154", "title": "A fit with priors weighs the data and the priors by their uncertainties", "statement": "The average of processtraces at a frequency and that at the opposite one are complex conjugates with the same error bars, that is one measurement. The cost which DIDVPriors minimises is, up to a constant, the negative logarithm of the posterior probability of the parameters: half the squared distance to the priors plus half the squared distance of every measurement, each in units of its uncertainty.", "quantifier": "all traces, frequency cut-offs, priors, prior covariances and parameters, for one, two and three poles", "why_tests_cant": "A fit which counts its data twice still finds sensible parameters; only the balance between data and priors is wrong, which no comparison with reference values of the same code shows.", "anchors": ["qetpy/core/didv/_didv_priors.py:DIDVPriors._fitdidv", "qetpy/core/didv/_didv_priors.py:DIDVPriors.dofit", "qetpy/core/didv/_base_didv.py:_BaseDIDV.processtraces"]}
{"id": "C155", "title": "The uncertainties a dI/dV fit with priors reports are standard deviations to first order in the errors of data and priors", "statement": "Let the averaged dI/dV be, in every bin with drive, the response of a circuit with one, two or three poles (all parameters but the time shift positive, loop gain not one) plus s times the spectrum of stationary noise divided by that of the drive, with true error bars; let the first 3, 5 or 7 odd harmonics be among the driven bins below the cut-off, let there be noise in all driven bins below it, and let drive at a frequency imply drive at the opposite one. Let the priors (on the shunt resistance for one pole, on the three resistances for two and three, possibly on more) miss the truth by s times uncorrelated random errors of the stated standard deviations, uncorrelated with the noise. Let the fit with priors end at a local minimum of its cost with the inverse of the second derivatives as covariance, and let its parameters approach the truth as s goes to zero. Then the errors of the parameters, divided by s, approach random variables of mean zero, and the reported covariance matrix divided by s squared should approach their covariance matrix; no variance should be larger than reported. (Violated: with C the reported matrix, G the information in the data as counted by the fit and P that in the priors, C is the inverse of G + P and the true matrix is C (2 G + P) C: no variance is smaller than reported, and that of every parameter without prior is larger.)", "quantifier": "for all numbers of bins, sampling and drive settings, cut-offs, devices, prior standard deviations, distributions of noise and of prior errors with finite second moments, and all sequences of fits which approach the truth", "why_tests_cant": "a test would compare the spread of finitely many simulated fits with the reported errors, for one choice of priors; the ratio depends on the balance between data and priors, and that it exceeds one for every device and every prior is a statement about matrices of which only one can be computed from a fit", "anchors": ["qetpy/core/didv/_didv_priors.py:DIDVPriors._fitdidv", "qetpy/core/didv/_didv_priors.py:DIDVPriors.dofit", "qetpy/core/didv/_base_didv.py:_BaseDIDV.processtraces"]}
{"id": "C156", "title": "How often a search reports a wrong delay", "statement": "For ofamp_withdelay without interpolation on a pulse at one of the delays searched (and of the direction asked for, if any) plus stationary noise of mean zero whose power spectral density is the one given to the filter: a given wrong delay is reported with a probability of at most 4/D, where D is the chi-square between the pulse and the same pulse at that delay, plus, without a direction constraint, 4/D' where D' is the chi-square between the pulse and the upside-down pulse at that delay. The delay reported is the true one except for a probability of at most (energy_resolution/height)^2 plus the sum of these bounds over the other delays searched; for a template which differs from itself (and from its upside-down copy) at all these delays the probability goes to zero as the pulses grow. With noise made by gen_noise from the same spectrum the bounds are exp(-D/8), exp(-D'/8) and exp(-(height/energy_resolution)^2/2).", "quantifier": "all trace lengths, templates, spectra (with excluded bins), couplings, windows inside or outside, directions, pulse heights and delays, noise with these first and second moments (any distribution) or normal draws", "why_tests_cant": "wrong delays of high pulses are too rare to be counted in a test, and a simulation samples one spectrum, template and window, while the bounds hold for all of them", "anchors": ["qetpy/core/_fitting.py:OptimumFilter.ofamp_withdelay", "qetpy/core/_fitting.py:OptimumFilter.energy_resolution", "qetpy/core/_noise.py:gen_noise"]}
{"id": "C157", "title": "A filter made with a spectrum which is not exactly that of the noise", "statement": "For the no-delay amplitude of OptimumFilter on pulses with stationary noise of mean zero: whatever (symmetric, positive) PSD the filter was given, the amplitude is on average the true one, and its variance is at least the square of the energy_resolution of the filter made with the PSD of the noise. If, in the bins used, the PSD of the noise is between c and C times the one given, the variance is between c and C times the square of the energy_resolution which the filter reports; the mean of chi2_nopulse on noise is between c and C times the number of bins used, and the mean chi-square of the fit between c and C times one less. If the PSD given is finite everywhere, the variance is at most C/c times the best possible one.", "quantifier": "all trace lengths, templates, couplings, pulse heights and positions, noise ensembles with these first and second moments (any distribution), PSDs given to the filter (with excluded bins) and factors c, C", "why_tests_cant": "a test has one noise spectrum and one mismatch; how the resolution, the reported resolution and the chi-square react to a wrong or fluctuating PSD is a statement about means over noise for all pairs of spectra", "anchors": ["qetpy/core/_fitting.py:OptimumFilter.ofamp_nodelay", "qetpy/core/_fitting.py:OptimumFilter.energy_resolution", "qetpy/core/_fitting.py:OptimumFilter.chi2_nopulse"]}
{"id": "C158", "title": "A disturbance moves the pulse fits no further than its own size", "statement": "Let a trace be the sum of true pulses (on a constant baseline or with background templates) and a disturbance of any kind: noise, a further pulse, or the difference between the shape of the pulse and the template. Then, without interpolation, the chi-square of the fit of ofamp_nodelay, ofamp_withdelay, ofamp_baseline (unconstrained) and of_nsmb is at most the chi-square Q of the disturbance; the chi-square between the fitted and the true signal is at most 4Q for ofamp_withdelay, ofamp_pileup_iterative (with a first pulse on a sample; what it gets wrong counts as disturbance), ofamp_pileup_stationary (with the second pulse not at delay zero), ofamp_baseline (unconstrained) and of_nsmb, for any window, direction and delay which admit the true pulse. The amplitude of ofamp_nodelay is off by at most energy_resolution*sqrt(Q), so for a pulse of another shape its relative error is at most the size of the difference of the shapes relative to the size of the template; the height found by ofamp_withdelay is off by at most twice that. If no pulse at another delay searched, and not the absence of a pulse, comes within 4Q of the true pulse, ofamp_withdelay reports exactly the true delay, the right sign, and an amplitude off by at most energy_resolution*sqrt(Q).", "quantifier": "all trace lengths, templates, spectra, couplings, pulse heights and delays, windows, directions, numbers of backgrounds, and all disturbances", "why_tests_cant": "a test tries a few disturbances; the bounds hold for every disturbance, including the worst one, and for pulse shapes and pile-up the test author did not think of", "anchors": ["qetpy/core/_fitting.py:OptimumFilter.ofamp_nodelay", "qetpy/core/_fitting.py:OptimumFilter.ofamp_withdelay", "qetpy/core/_fitting.py:OptimumFilter.ofamp_pileup_iterative", "qetpy/core/_fitting.py:OptimumFilter.ofamp_pileup_stationary", "qetpy/core/_fitting.py:OptimumFilter.ofamp_baseline", "qetpy/core/_of_nsmb.py:of_nsmb"]}
{"id": "C159", "title": "What the first pulse given to the iterative pile-up fit does to the second", "statement": "Let a trace be two pulses and stationary noise of mean zero with the PSD given to OptimumFilter, and let ofamp_pileup_iterative fit the second pulse at its delay (a window of one bin, no direction constraint, no interpolation), with a first pulse on a sample. With r(i,j) the likeness of two delayed templates (their noise-weighted overlap over the norm): the second amplitude is on average A2 + A1*r(k1,k2) - a1*r(m1,k2), A1 at k1 being the true first pulse and a1 at m1 the given one; its standard deviation is energy_resolution; the mean chi-square is the number of bins used less one plus the chi-square of the error of the first pulse which the second cannot absorb. With the true first pulse the second amplitude is unbiased. If instead the first amplitude is that of ofamp_nodelay on the same trace, then on every trace it equals the first amplitude of ofamp_pileup_stationary plus r times the second, and the second amplitude of ofamp_pileup_iterative is 1-r^2 times that of ofamp_pileup_stationary: too small on average by the factor 1-r^2, with variance (1-r^2)*energy_resolution^2.", "quantifier": "all templates, symmetric positive spectra with or without excluded bins, amplitudes, delays of the window, first pulses on a sample, traces (two_steps) and noise ensembles with those second moments", "why_tests_cant": "A test on a few traces sees one overlap and one noise realisation; that fitting in two steps is biased by exactly the squared likeness, for all templates and delays, is an identity between two different fits.", "anchors": ["qetpy/core/_fitting.py:602-746", "qetpy/core/_fitting.py:748-870", "qetpy/core/_fitting.py:444-494"]}
{"id": "C160", "title": "Noise makes energy_absorbed too large by the heat it dissipates in the load", "statement": "For traces which are a fixed trace plus noise of mean zero, energy_absorbed (with fs) has the mean E0 + rload*I/(fs*e), E0 being its value without noise and I the trapezoidal sum of the variance of the noise, if the baseline is given; if the baseline is measured from the samples before indbasepre and from indbasepost on, I is reduced by the number of intervals times the variance of the mean noise of those samples. For noise of the same variance s at every sample, correlated or not, the mean is never below E0 and at most rload*s*duration/e above it; for uncorrelated noise the excess is that bound times 1 - 1/(number of baseline samples). So averaging more traces does not remove it, and it does not depend on the pulse.", "quantifier": "all traces of any length, biases, load and shunt resistances, sample rates, positive indbasepre, indbasepost, and noise with those first and second moments", "why_tests_cant": "The bias is second order in the noise and invisible in a test on one noise-free trace; that it is the same for every pulse, and bounded for every correlation of the noise, is a statement about all distributions.", "anchors": ["qetpy/utils/_utils.py:561-627", "qetpy/utils/_utils.py:522-558"]}
{"id": "C161", "title": "Which outliers iterstat can remove", "statement": "For a positive cut, iterstat never removes a point from data of at most cut**2 + 1 points, however far a point lies and whatever the precision: with the default cut of 3, ten points or fewer are always all kept. With more points, a single outlier among points which lie strictly within cut standard deviations of their own mean, their spread not zero, is removed, and only it, once it is far enough: a distance D from the mean of the k other points with D**2*(k - cut**2) >= cut**2*(k+1)*std**2 and D*(cut*sqrt(k) - 1) >= (k+1)*cut*std is enough, so for every cut of at least 1 and every such set of more than cut**2 points there is a distance beyond which the outlier is always the one point cut, and the mean and the standard deviation returned are exactly those of the other points. If the other points are all equal, the single outlier is never removed, however far it is and however many the others are. Outliers which sit together protect each other: equal points which make up more than one in 1 + cut**2 of all the points (with the default cut: more than a tenth) are never removed, wherever they are and whatever the other points are.", "quantifier": "all lists of real data, all cuts and precisions, all positions and sizes of the outlier; results of terminating runs (which exist for every non-negative precision)", "why_tests_cant": "A test checks a few data sets; the claim is a threshold on the number of points that holds for every data set, and a distance beyond which every outlier is cut.", "anchors": ["qetpy/cut/_cut.py:149-217"]}
{"id": "C162", "title": "slope is the maximum-likelihood slope, unbiased and of least variance", "statement": "Let y be a straight line in x plus noise. slope(x, y) with removemeans=True is on average the slope of the line for any integrable noise of mean zero, correlated or not. In white noise of variance v its variance is v/sum((x-<x>)**2), which on the time axis of n samples at rate fs is 12*fs**2*v/(n*(n**2-1)). No weighted sum of the data that is right on average for every line has a smaller variance in white noise, and one that does as well is slope itself. For independent normal errors of one variance it is, as the docstring says, the maximum-likelihood slope: no straight line makes the data more likely, and only lines of this slope make them as likely. Noise.remove_trace_slope on a trace which is a line plus white noise leaves, on average, n - 2 times the variance as the sum of squares around the mean, whatever the line.", "quantifier": "all x (time axes) with at least two different values, all lines, all probability spaces and noise on them with the stated moments, all weights", "why_tests_cant": "Means, variances and optimality over all estimators are statements about distributions and about every competing estimator; a test sees single draws.", "anchors": ["qetpy/utils/_utils.py:299-325", "qetpy/core/_noise.py:271-282"]}
{"id": "C163", "title": "How many events itercov needs to be able to cut one", "statement": "Let N be the number of events, d the number of variables, max_chi2 = d + nsigma*sqrt(2*d) and threshold the given or the default one, taken to be positive. If (N-1)**2/N is below both max_chi2 and threshold**2, itercov cuts no event, however far it lies from the others: it raises LinAlgError if the covariance matrix of the events is singular, and otherwise returns the mean and the covariance of all of them with every event selected, whatever maxiter and frac_err are. With two variables and the default settings this covers every data set of at most nine events. The chi-squares that the first pass compares with max_chi2 always add up to d*(N-1), so their average is below the d that max_chi2 is built around.", "quantifier": "all sets of at least two events of any number of variables, in both calling conventions, all settings", "why_tests_cant": "The threshold holds for every data set of a given size; a test tries some outliers in some data sets.", "anchors": ["qetpy/cut/_cut.py:219-332"]}
{"id": "C164", "title": "What a shift by a fraction of a bin does to a pulse and to noise", "statement": "Let arr hold the values of a function g at the bins, and let i - num lie within the array. Entry i of shift(arr, num) is g(i - num) up to M/2*f*(1-f), f being the fractional part of num and M a bound (per bin squared) on the second derivative of g between the two neighbouring bins, so at most M/8; kinks at the bins do no harm. If g only has slopes of at most L per bin, the error is at most 2*L*f*(1-f), so at most L/2. No entry ever leaves the range of the entries and the fill value. White noise of variance v comes out with the variance v*(1 - 2*f*(1-f)), half of it for half a bin. Shifting by f and then by 1 - f is not the shift by one bin: it adds f*(1-f) times the second difference of the array.", "quantifier": "all arrays, all functions and bounds as stated, all real shifts and fill values, all entries whose source lies within the array (for the range: all entries), all white noise", "why_tests_cant": "The error bounds hold for every function of a class and every real shift, and the variance is a statement about a distribution.", "anchors": ["qetpy/utils/_utils.py:26-68"]}
{"id": "C165", "title": "Which outliers removeoutliers can remove", "statement": "removeoutliers removes a single point which lies far enough from all others, on whichever side of them it lies, and then only it. More exactly, for finite data and a skewness target below (k-1)/sqrt(k), k being the number of the other points: there is a distance beyond which the point is always removed, for every number of iterations. No set of n points has a skewness above (n-2)/sqrt(n-1), so with a target as large as that nothing is removed, whatever the data; in particular nothing is ever removed from two points.", "quantifier": "all lists of finite real data, all positions of the outlier, all targets and numbers of iterations, both values scipy may give to the skewness of constant data", "why_tests_cant": "A test checks a few data sets; the claims are a bound on the skewness of every data set and a distance beyond which every outlier is removed, and the failures concern every outlier below and every smallest point, not a special case.", "anchors": ["qetpy/cut/_cut.py:18-50"]}
{"id": "C166", "title": "How much disturbance align_traces tolerates", "statement": "If a trace, once filtered, truncated and centred, is the first trace delayed by d bins up to a disturbance (noise, or samples which the delay moves out of the window), align_traces reports the shift -d as long as the overlap of the first trace with itself falls, at every other delay, by more than twice the square root of the energy of the first trace times the energy of the disturbance. With random disturbances the probability of any other shift is at most the mean energy of the disturbance times 4*energy/gap**2, gap being the smallest fall of the overlap. The shifts do not depend on the units and the zeros of the traces: each trace may be multiplied by a positive factor of its own and moved by an offset of its own.", "quantifier": "all traces, delays within the window, disturbances (deterministic or random with any distribution) and numbers of other traces; the first two statements for every filter, the last for every filter which commutes with factors and offsets, as the low-pass filter of the package is shown to do", "why_tests_cant": "A test aligns a few noisy traces; the claim is a level below which no disturbance whatever leads to a wrong shift, and a bound on a probability.", "anchors": ["qetpy/utils/_utils.py:388-461"]}
{"id": "C167", "title": "What gen_noise makes of a spectrum which is not symmetric", "statement": "gen_noise accepts any array as a PSD, also one which is not symmetric in frequency (such as a one-sided spectrum). In the mean, the PSD of the traces it then returns is, at each frequency, the square of the mean of the square roots of the entries at this frequency and at its opposite. So the PSD asked for comes out exactly if it is symmetric; the total power is never larger than asked for, and smaller unless the PSD is symmetric.", "quantifier": "all non-negative PSDs, lengths, sample rates, numbers of traces and uncorrelated unit-variance draws", "why_tests_cant": "Tests give symmetric spectra and compare random averages with a tolerance; the claim is an identity for every spectrum and says for which spectra the result is the one asked for.", "anchors": ["qetpy/core/_noise.py:127-156"]}
{"id": "C168", "title": "How the resolutions depend on the noise", "statement": "More noise at any frequency never improves energy_resolution or time_resolution. AC coupling never improves energy_resolution and leaves time_resolution unchanged. For two independent sources of noise, whose spectra add, the square of the resolution (of the energy, and of the time) is at least the sum of the squares of the resolutions for each source alone, with equality for spectra of the same shape: two sources together are never better than their quadratic sum, but can be worse.", "quantifier": "all templates, sample rates, lengths, amplitudes and positive spectra, with or without excluded bins, for which the resolution with all the noise is finite", "why_tests_cant": "Tests compute a resolution for one spectrum; the claims compare the resolutions for all pairs of spectra.", "anchors": ["qetpy/core/_fitting.py:OptimumFilter.energy_resolution", "qetpy/core/_fitting.py:OptimumFilter.time_resolution"]}
{"id": "C169", "title": "What the backgrounds of a multi-template fit cost", "statement": "The variances of the amplitudes fitted by of_nsmb at a given delay, which of_nsmb_getiP returns on the diagonal, never become smaller when backgrounds are added to the fit. The variance of the signal is never below the square of the energy_resolution of OptimumFilter for the signal template alone (and the same noise), and is equal to it exactly if the delayed signal template has no noise-weighted overlap with any background.", "quantifier": "all sets of independent templates and subsets of them, PSDs positive away from DC, sample rates and delays", "why_tests_cant": "A test compares two sets of backgrounds; the claim is an inequality for all of them, with the exact condition for equality.", "anchors": ["qetpy/core/_of_nsmb.py:of_nsmb_setup", "qetpy/core/_of_nsmb.py:of_nsmb_getiP", "qetpy/core/_fitting.py:OptimumFilter.energy_resolution"]}
{"id": "C170", "title": "A filter made with a smoothed PSD is too optimistic", "statement": "smooth_psd of a positive PSD which is symmetric in frequency gives numbers exactly if some bin lies below the one at zero frequency (otherwise every bin is nan); the result is symmetric, keeps the value at zero frequency and exceeds the PSD nowhere; if it is positive, smoothing it again changes nothing. Hence, if the result is positive and is given to OptimumFilter on traces whose noise has the original PSD: the energy_resolution it reports is at most that of the filter made with the original PSD, and that is at most the true standard deviation of its no-delay amplitudes; its time_resolution, too, is at most that of the filter made with the original PSD; chi2_nopulse on noise is on average at least the number of bins used, and the chi-square of the fit at least one less.", "quantifier": "all trace lengths, positive symmetric PSDs, templates, couplings, pulse heights and positions, and stationary noise of that PSD (any distribution)", "why_tests_cant": "an inequality for every spectrum, template and noise distribution, through an interpolation and the variance of the fitted amplitude", "anchors": ["qetpy/core/_noise.py:smooth_psd", "qetpy/utils/_utils.py:make_decreasing", "qetpy/core/_fitting.py:OptimumFilter.energy_resolution", "qetpy/core/_fitting.py:OptimumFilter.ofamp_nodelay"]}
