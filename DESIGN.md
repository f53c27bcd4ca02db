# Formal model of QETpy: design

## 1. Aim and trusted base

`/repo` is read as text. Nothing in it is executed. The Lean development under
`lean/Verif` contains, for each area of the code, a *model* file (definitions, each
citing file and lines in `/repo`), sometimes a *lemma* file, and a *property* file
(`...Props.lean`) with the theorems claimed in `MANIFEST.json` and an `example` beside
each that a concrete non-trivial case meets its hypotheses.

Trusted:

* Lean's kernel, and the axioms `propext`, `Classical.choice`, `Quot.sound`
  (no other axiom is used; no `sorry`, `native_decide`, `bv_decide`).
* The faithfulness of the hand translation Python -> Lean. Every definition cites its
  source lines; deviations are listed in section 5 and in the header
  comment of each model file.
* The documented meaning of the numpy/scipy primitives listed in section 3.

Not modelled at all: the look of plots (colours, fonts, titles; their content is modelled), image
files and pickling, printing and warnings, floating-point rounding, overflow and
NaN arithmetic (except where NaN is used by the code as an explicit "no result" value),
the inner workings of numerical optimisers (`scipy.optimize.least_squares`, `curve_fit`,
`fsolve`, `iminuit`), `scipy.signal.resample_poly`, and pseudo-random number generation
(random choices appear as arbitrary inputs, so theorems hold for every outcome).

## 2. Modelling conventions

* Numbers: Python floats are reals (`Real`), complex floats are `Complex`. Where only field
  and order operations are used the model is over `Real` or an arbitrary ordered field, so
  that it can be evaluated on rationals.
* Exceptions are values: functions that may raise return `Except Err a`, and the theorems
  cover the error branches. Division by a value that could be zero is guarded by hypotheses
  in the theorems (the code would produce `inf`/`nan` or raise), never silently used.
* 1-d arrays are `List a` where slicing matters, and `ZMod n -> Real`/`Complex` where
  the DFT is involved (index `k` of a length-`n` array is the residue `k`; numpy's negative
  indices and `np.roll` are then plain arithmetic).
* `np.fft.fft` is Mathlib's `ZMod.dft` (`sum_j exp(-2 pi i j k/n) x_j`), `np.fft.ifft` is its
  inverse with the factor `1/n`.
* A PSD bin is either a positive real or `inf`. The only way the code uses the PSD is by
  dividing by it, so the model stores the *weight* `1/psd` (`0` for `inf`).
* Stateful classes (`OptimumFilter`, `Noise`, `DIDV`) are `State`, `Op`, `step`; history
  properties are proved by induction over the list of operations.
* Loops with data-dependent exits are either structural recursion with an explicit
  iteration counter (when the code has a cap) or fuel-indexed (when the code has none; then
  the theorem is about every fuel for which the loop returns).

## 3. Assumed library semantics

The behaviour below is taken from the documentation and source of numpy and scipy. None of it is proved.

Arrays:

* Slices clip; a negative bound counts from the end. Basic slices and `reshape` of contiguous arrays are
  views, fancy and boolean indexing copy. An index out of range raises `IndexError`.
* Broadcasting of different lengths raises `ValueError`, except that length one stretches.
* `np.argmin`, `np.argmax` return the first extremum; of an empty array they raise `ValueError`; with a `nan`
  in the array they return the place of the first `nan`.
* `np.max`, `np.min` and Python's `max` of an empty sequence raise `ValueError`.
* `np.mean` and `np.std` of an empty selection are `nan` (with a warning); `np.std` divides by the number of
  entries; along an axis that does not exist they raise `AxisError`.
* `np.cov` divides by the number of events less one, so one event gives `nan`; `np.corrcoef` of a constant
  row is `nan`.
* `np.squeeze` of a length-one array is 0-dimensional and slicing it raises `IndexError`.
* `np.hstack` of one-dimensional arrays joins them, of others along the second axis; `np.ix_` takes
  one-dimensional sequences only.
* `np.trapz(y, x=None, dx, axis=-1)` is the trapezoidal sum; `x` of shape other than that of `y` is broadcast.
* `np.mod(x, 0.0)` is `nan`; Python's float division by zero raises `ZeroDivisionError`, numpy's gives an
  infinity or `nan`.
* `np.rint` and `round` round halves to even; `int()` truncates towards zero and raises for `nan`.
* `x ** y` of a negative numpy float is `nan` unless `y` is an integer.
* `np.sqrt` of a negative number is `nan`. The real square root of the model is then zero; where a spectrum is
  under the root (`gen_noise`, the error bars of `OFnonlin`) the theorems assume it non-negative or the model
  returns the error `nan`.
* `np.sort` sorts ascending; `np.histogram` bins are half open except the last.

Transforms and filters:

* `np.fft.fft`, `ifft`, `rfft`, `fftfreq`, `rfftfreq` by their formulas, with the factor `1/n` on the inverse.
* `scipy.signal.csd` for one full segment: mean removed (`detrend="constant"`), periodic Hann
  window, one-sided density scaling with the zero and (for even length) Nyquist bins not doubled.
* `scipy.signal.savgol_filter(x, 7, 3)` by its seven weights, ends continued by the nearest value.
* `scipy.ndimage.shift` with `order=1`: linear interpolation, constant fill outside.
* `scipy.signal.butter(2, w)` and `filtfilt` by the bilinear transform and the odd extension
  (`Lowpass`); in other places the filter is an arbitrary linear map as stated there.
* `scipy.signal.fftconvolve` by the formula of the full convolution. `resample_poly`: an arbitrary function of stated output length.

Interpolation and linear algebra:

* `np.interp` is piecewise linear with constant ends; `scipy.interpolate.interp1d(...,
  fill_value="extrapolate")` continues the end segments.
* `np.linalg.inv` returns the inverse and raises `LinAlgError` for a singular matrix.
* `np.linalg.pinv(A)` returns the matrix satisfying the Penrose equations (its cutoff `rcond` is not modelled).
* `np.polyfit` returns the least-squares polynomial (through three points: the interpolating parabola).

Optimisers, each an arbitrary function behind the checks it makes before it starts:

* `least_squares` raises `ValueError` unless the start lies inside the bounds, `x_scale` is positive and finite
  and the residuals at the start are finite; with bounds the result lies inside them.
* `curve_fit` of a straight line with weights returns the weighted least-squares minimiser, with
  `absolute_sigma` the inverse of the normal matrix as covariance. It raises `TypeError` for fewer points than
  parameters and `ValueError` for `nan` in the data.
* `fsolve` and `iminuit` return anything.

Random numbers (`np.random.choice`, `np.random.randn`) are arbitrary inputs, or random variables with stated
moments in the statements about noise.

## 4. Plan per property

| id | model | proof shape |
|----|-------|-------------|
| C01 | `shift` on lists, branch by branch | pointwise specification; composition law |
| C02 | `resample_factors` over prime factor lists | counterexample for the full claim; partial for prime reduced denominator |
| C03 | `make_decreasing` (scan + linear interpolation with extrapolation) | induction (running minimum); positivity refuted by witness |
| C04 | `slope` over finite sums | algebra, minimality |
| C05 | `fill_negatives` with `np.interp` | pointwise over the array |
| C06 | closed formulas | field identities |
| C07 | `energy_absorbed` with `trapz` | induction over the trace |
| C08 | `estimate_g`, derivatives | `HasDerivAt`; quadratic form |
| C09 | `calc_offset` | periodic sums |
| C10-C12 | loops of `removeoutliers`, `iterstat`, `itercov` | loop invariants |
| C13-C15 | cut pipeline | refinement to sequential filtering; negations for the two defects |
| C16 | `symmetrizedist` with an arbitrary selection oracle | counting |
| C17-C21 | PSD functions and `Noise` state machine | DFT algebra, invariants over histories |
| C22-C24 | `IV` | algebra, shape decision logic, derivative identities |
| C25-C27 | `_argmin_chi2`, direction mask | refinement to a set-builder window; minimality |
| C28-C32 | optimum filter core over `ZMod n` | quadratic forms in a weighted complex inner product |
| C33 | cache state machine | invariant over all histories |
| C34-C40 | remaining fits | normal equations, optimality, scaling |
| C41-C42 | `OFnonlin` | analysis / decision logic |
| C43-C50 | dIdV | algebra, round trips, index bounds, state machine |
| C51-C52 | `IBIS` | algebra, derivatives, shapes |
| C53-C56 | `TESnoise` | algebra |
| C57-C60 | `of_nsmb` | generalised least squares with a generalised inverse; witnesses |
| C61 | `OF` | decision logic of the interpolation |
| C62-C64 | `Noise` | least squares, Cauchy-Schwarz, DFT algebra |
| C65-C66 | `Cut` | loop invariants under affine maps; witness |
| C67-C68 | `Iv`, `Ibis` | decision logic, first-order error propagation |
| C69 | `Didv` | poles of a rational function |
| C70-C74 | `DidvObj*` | validation logic of the bounded fit with an arbitrary optimiser |
| C75-C76 | `Sim*` | algebra of the simulated spectra |
| C77-C81 | `Nsmb*` | refinement to the delay search in the time domain; witnesses |
| C82-C85 | `NonLin*` | integrals, decision logic, generalised inverse |
| C86-C87 | `Template*` | pointwise; witnesses |
| C88 | `Trunc*` | derivative of the log likelihood; witnesses |
| C89-C90 | `DidvPriors*` | quadratic forms of the pseudo-inverse; state machine over histories |
| C91 | `CutEffects*` | effects as extra results; witnesses |
| C92 | `DidvPlot*` | drawn points as lists; the phase that undoes a delay |
| C93-C94 | `DidvPlot*` | injectivity of the DFT; half-period antisymmetry is the absence of even harmonics |
| C95 | `NoiseCsd*` | conjugate symmetry of cross products; the filling of non-positive bins |
| C96 | `IvPlot*` | the loops as one flattened table; first entry of largest modulus |
| C97-C99 | `NoisePlot*`, `NoiseCorrPlot*` | panels and lines as lists; the smoothing filter as a weighted sum; witness traces by the inverse DFT |
| C100 | `SimPlot*` | the noise budget of `Sim` carried to the drawn points |
| C101 | `NonLinPlot*` | unfold the slices of the baseline and the zoom; the rest from the model of the fit |
| C102 | `Lowpass*` | steady state of the recursion for a cosine; transients decay geometrically |
| C103 | `NsmbPlot*` | each drawn row is a delayed template by the phase lemma of `Nsmb` |
| C104 | `CutCovSel*`, `CutCovUnit*` | follow the loop; explicit events for the units of one variable |
| C105 | `CutStage*` | the AC coupled filter ignores offsets and is homogeneous; then C65 |
| C106 | `Offset*` | averages over all draws by the product rule for sums over functions |
| C107 | `NoiseSave*` | strings as lists of characters |
| C108 | `IbisPlot*` | as C96, with the laws of C51 for the line |
| C109 | `IbisIv*` | the weighted line fit under an affine change of abscissa |
| C110 | `OFStat*` | Wiener-Khinchin and Parseval; Cauchy-Schwarz for optimality |
| C111 | `OFPsd*` | The bin-wise mean of the weighted power is one; sum over the bins |
| C112 | `NsmbOF*` | The two chi-squares have the same normalisation; optimality of both fits |
| C113 | `DidvFig*` | Case analysis on the methods; file names by their stems |
| C114 | `DidvProc*` | Unfold the stored record; sums over traces and bins exchanged; permutation of the list of traces |
| C115 | `DidvIdent*` | Clear denominators; a real polynomial with enough zeros on the imaginary axis vanishes; compare coefficients |
| C116 | `SimOF*` | trapezoidal rule on the uniform grid from zero to Nyquist = sum over all bins of an even function; `foldpsd` leaves the two end bins undoubled |
| C117 | `NonLinIdent*` | a sum of poles with n - 1 zeros vanishes (polynomial roots), so residues are determined; for two poles the squared magnitude at three bins gives the times, the phase at two bins the sign and start time; for more poles the start time follows as in C134 |
| C118 | `OFRec*` | the optimality theorems of C29, C36-C38, C57 bound the chi-square by zero; independence of shifted templates then identifies the parameters |
| C119 | `NsmbStat*` | covariance of inner products with the noise is the inner product (polarisation of the variance); pseudo-inverse of the Gram matrix; trace of a projection is its rank |
| C120 | `UtilsNd*` | arrays as shape and entries; slices, `hstack`, means and broadcasting written out; rows of every intermediate array are the rows of the one-trace computation |
| C121 | `NoiseNd*` | unfold; compare which factor two is applied to which index |
| C122 | `SimPriors*` | conjugate symmetry of the responses; value of the amplifier noise at minus the knee |
| C123 | `CutOrder*` | every statistic used is a function of the multiset of events, so every mask is `map keep` |
| C124 | `OFUnits*` | every attribute of the filter gets a power of the four factors; the arg-min is invariant under positive factors, the parabola through three points is equivariant; witness of two bins at zero delay |
| C125 | `NoiseResid*` | completing the square: the CSD matrix is a Gram matrix, the column of its inverse solves the normal equations; more unknowns than equations if traces are few |
| C126 | `NoiseSym*` | each change commutes with every method of the object, so with all sequences of calls; fill_negatives is homogeneous for positive factors only |
| C127 | `NsmbUnits*` | everything is a function of Gram matrices; the pseudo-inverse of a scaled and reordered matrix; masks and gradients follow the order |
| C128 | `NsmbSpan*` | least-squares residuals are unique (parallelogram law), so chi2 at every delay and the chosen delay agree |
| C129 | `IvUnits*` | the fit of affinely changed points is the changed fit (`curveFit_aff2`), chi-square unchanged, so the growing loop stops at the same point; sums do not depend on order |
| C130 | `IbisUnits*`, `IbisOrder*` | same for both lines; the crossing moves along; error formulas are homogeneous; two witnesses for the errors; sums over permuted lists |
| C131 | `DidvUnits*` | every formula is homogeneous; scaling commutes with each branch; the projection C·pinv(C) is diagonal, so scaling the covariance scales its pseudo-inverse |
| C132 | `NonLinUnits*` | scaling of poles, DFT and noise; EReal bounds scaled by positive factors; phase of a delay is a root of unity |
| C133 | `DidvShift*`, `DidvRecover*` | numerator/denominator polynomials in the harmonic number; difference operator on P(j)+w^j Q(j); zero residuals put the data on the returned model |
| C134 | `NonLinRec*` | zero residuals put the data on the returned model; sums of poles as rational functions of the bin number times a power of a phase (C133) determine the start time, C117 the rest; the default bounds are narrower than a trace |
| C135 | `OFSplit*` | the earliest minimiser over a set of bins is the earliest minimiser over every subset that contains it; the chi-square of every fit is quadratic in its amplitude (C29, C36, C38) |
| C136 | `CutFit*` | the filter with unit white noise and without the zero frequency minimises the variance of the residual, whose minimum over constants is the mean |
| C137 | `IntArr*` | the integer results are the float results truncated entry by entry; witnesses where the float result is not whole |
| C138 | `Device*` | fit parameters of the device have the signs of its branch; C133 returns them; the conversions invert each other (C43); the responses agree with the simulation (C54) |
| C139 | `DevicePriors*` | the true parameters have no cost, so the result has none; zero cost means the response goes through the data and the priors are met, and the response at the harmonics fixes the remaining parameters once the resistances are known |
| C140 | `DeviceNoise*` | the residual of the returned point is the chi-square (C72), the stored parameters reproduce the fitted response (C71); triangle inequality by Cauchy-Schwarz |
| C141 | `OFRate*` | the returned amplitude is that of one allowed delay and at least as large as at any other; the error at each delay has the variance of C110; Chebyshev and Chernoff bounds, union over delays |
| C142 | `OFLimit*` | strong law of large numbers for the power in a bin, whose mean is known (C110); the filter is a continuous function of the weights; finitely many delays |
| C143 | `OFSpread*` | fourth moments of normal draws from the moment generating function, polarised to pairs of bins; the fit removes one normalised linear combination |
| C144 | `OFLaw*`, `NsmbLawLemmas` | The filter and the residual are orthogonal projections of the normal draws; an orthonormal basis adapted to them turns the draws into independent normals |
| C145 | `DidvLimit*` | strong law of large numbers for the transformed noise in every bin (independence passes to the transforms); the standard errors from the strong law for squares; the fit through the triangle inequality of C140, since all error bars shrink |
| C146 | `DidvStableLemmas`, `DeviceLimit*` | impedances as fractions of polynomials in lowest terms; coefficient vectors normalised on a sphere, compactness along ultrafilters (so unbounded parameters are allowed), the exponential-polynomial lemma of C115 excludes every other limit; then C145 |
| C147 | `NonLinLimit*` | a chi2 not above that of the truth puts the returned spectrum near the true one; the bounds are compact, so near spectra mean near parameters (C134 gives uniqueness); the law of large numbers makes averages near |
| C148 | `LineLimit*`, `IvLimit*` | weights of the ordinates in the fit; variance of a linear combination; Gauss-Markov by completing the square; continuity of the normal equations; strong law |
| C149 | `IbisLimit*` | continuity of the line fits (C148) and of the formulas of the offsets; strong law; recovery of the circuit for exact readings |
| C150 | `NoiseLimit*` | strong law for functions of a recording; continuity of the matrix inverse; mean cross spectra as a Gram matrix; Hann window as three bins |
| C151 | `IvError*` | Offset and slope are exact linear combinations of the errors with weights which depend continuously on the voltages, so they have derivatives at zero errors; chain rule; variance of a combination of uncorrelated errors |
| C152 | `NonLinErr*` | delta method: the stationarity equation of the best point, divided by the size of the noise, has a limit because the inverse of the Gram matrix of the derivatives is continuous; the derivatives are independent (partial fractions with double poles), so the Gram matrix is invertible and the pseudo-inverse of the code is its inverse; the covariance of a filter applied to stationary noise is a sum over bins |
| C153 | `DidvErr*` | as C152, with local minima and a small additional weight on the bins without drive; independence of the derivatives from the first odd harmonics by comparing coefficients of polynomials in the frequency; the sum over bins counts every pair of conjugate bins twice, which gives the factor of two; minima near the truth exist because the response is locally injective |
| C154 | `DidvTwin*` | conjugation symmetry of transforms, drive and models; the sum over bins splits into pairs; witness with four samples |
| C155 | `DidvBelief*` | limit of minima of the cost in units of the errors; implicit first-order expansion; reported covariance from the second derivatives; information from priors and data is definite because the odd harmonics determine what the priors leave open |
| C156 | `OFDelay*` | a wrong delay needs noise along the difference of the two pulses; Chebyshev and sub-Gaussian tails of the inner product with the noise; union over the other delays |
| C157 | `OFOther*` | the variance is a mean of the ratio of the two spectra, weighted with the share of each bin in the norm of the template; optimality from Cauchy-Schwarz as in C110 |
| C158 | `OFRobust*` | the fit is at least as good as the truth, whose residual is the disturbance; parallelogram inequality bin by bin; Cauchy-Schwarz for the amplitudes |
| C159 | `OFLeak*` | pile-up fits at a given delay as linear functions of the trace; moments of inner products with the noise; two-step amplitudes against the joint solution |
| C160 | `Energy*` | the power is quadratic in the current; integrate the trapezoidal sum term by term; variance of a mean by Cauchy-Schwarz or by uncorrelatedness |
| C161 | `CutOut*` | Samuelson's inequality on the first pass; the equality case leaves equal points, whose second pass keeps nothing and falls back to everything; for a far outlier the statistics of the others are a fixed point of the loop; for equal points Samuelson's inequality counted with multiplicity is an invariant of the loop |
| C162 | `SlopeStat*` | The slope is a weighted sum of the data; second moments of weighted sums of white noise; Gauss-Markov by completing the square; the normal likelihood is a decreasing function of the residual of C04 |
| C163 | `CutCovOut*` | Samuelson's inequality for the projection of the events on the inverse covariance times one event; if the first pass keeps everything the statistics are a fixed point |
| C164 | `ShiftFrac*` | Both branches of shift are linear interpolation (C01); a function plus or minus half the bound times the square is convex, so it stays near its chord; second moments of weighted sums from C162 |
| C165 | `CutRo*` | third and second moments after inserting one point, limit of their ratio; largest skewness from Samuelson's inequality and a cubic with a double root; the mask of the first pass at both ends of the data |
| C166 | `AlignNoise*` | Cauchy-Schwarz on the disturbed part of the correlation, which is small at every delay; Markov inequality for random disturbances |
| C167 | `GenNoiseProps` | The real part of the inverse transform averages the transform with its mirror image; sums of squares |
| C168 | `OFRes*` | The inverse squares are sums of weights which decrease with the noise; 1/(p+q) <= t^2/p + (1-t)^2/q with the best t |
| C169 | `NsmbCost*` | The inverse of a part of a positive matrix against that part of its inverse; one non-negative quadratic form |
| C170 | `SmoothCost*` | The smoothed spectrum lies below the original (`make_decreasing`); then C168 and C157 |

## 5. What each model covers, and where it simplifies

| model | source | simplified or left out |
|---|---|---|
| `Utils`, `Offset` | `utils/_utils.py` | `calc_offset` of sets of traces (2-d input); other shapes are in `UtilsNd`. `resample_factors`: positive inputs only. `scipy.ndimage.shift` (order 1) is written out. `resample_poly` and the Butterworth filter are parameters |
| `Argmin` | `core/_fitting.py` 20-145 | one-dimensional chi2 |
| `OF` | `core/_fitting.py` 148-1008 | array length mismatches are excluded by the types; `templatefilt_td` (never read) left out; interpolation division by zero is the error `nan` |
| `OFFun` | `core/_fitting.py` 1010-1582 | as `OF` |
| `NonLin` | `core/_fitting.py` 1585-2561 | the optimiser is an arbitrary function behind its documented input checks; `make_strictly_feasible` and `errscale = 0` left out; `psd[0] = 1e40` is kept as the number it is |
| `Noise`, `NoiseCsd`, `NoiseSave` | `core/_noise.py` | plotting is in `NoisePlot`; the file system is a map from names to objects, the directory exists |
| `NoisePlot` | `plotting/_noise_plotting.py` 18-508, `core/_noise.py` 408-508 | a plot is the list of its panels and lines; printed messages, colours and limits are left out; `savgol_filter` written out for the window and order the code uses |
| `SimPlot` | `plotting/_noise_plotting.py` 514-869 | as above; a frequency at which a curve is not a number has no point |
| `NonLinPlot` | `plotting/_fitting_plotting.py` 10-222 | as above; points at non-positive heights on logarithmic axes are not drawn |
| `Lowpass` | `utils/_utils.py` 357-386 | default order only; `scipy.signal.butter` and `filtfilt` written out; one row |
| `NsmbPlot` | `plotting/_of_nsmb_plotting.py`, plotting branches of `core/_of_nsmb.py` | one signal template; the label before rounding; a figure is its curves, markers and file |
| `IvPlot` | `plotting/_iv_plotting.py`, `core/_iv.py` 304-406 | a plot is the list of its curves; colours, titles and axis limits are left out; a `nan` is not drawn |
| `IbisPlot` | `plotting/_ibis_plotting.py`, `core/_ibis.py` 692-839 | as `IvPlot` |
| `Cut`, `CutAuto` | `cut/_cut.py` | random choice, value of `skew` for constant data are arbitrary inputs |
| `LineFit`, `Iv`, `Ibis` | `core/_iv.py`, `core/_ibis.py` | `curve_fit` of a line is the weighted least-squares solution in closed form; degenerate data (zero error bar, equal abscissae) is the error `nan`. IBIS with zero channels always errors in the model |
| `Didv`, `DidvWave`, `DidvObj` | `core/didv/_base_didv.py`, `_didv.py`, `_didv_priors.py` 241-303 | `least_squares`, `fsolve` are arbitrary functions behind their input checks; an all-`nan` result of `processtraces` is the error `nan`; ragged flat ranges only as numpy floats; `make_strictly_feasible` left out |
| `DidvPriors` | `core/didv/_didv_priors.py` 96-238, 306-475 | `Minuit` is an arbitrary function of the cost and the start; its limits are part of it; `pinv` is the exact pseudo-inverse of a symmetric matrix |
| `DidvPlot` | `core/didv/_plot_didv.py` 10-127, 184-285, 296-402, 520-597 | a plot is the list of its points and its limits; colours, labels, titles and files are left out; a `nan` is not drawn |
| `DidvFig` | `core/didv/_plot_didv.py` 128-293, 405-606 (the public methods) | titles and labels left out; the directory of a saved figure exists; equal limits are not widened |
| `CutEffects` | `cut/_cut.py` 429-461, 721-764; `core/_noise.py` 149-157 | the array passed by the caller as an extra result; element type float or integer |
| `IntArr` | `utils/_utils.py` 50-67, 345-353; `core/_ibis.py` 253-256, 644-677 | the same functions for arrays of integers; the conversion inside `ndimage.shift` is any function; overflow of the integer type not represented |
| `UtilsNd` | `calc_offset`, `energy_absorbed` of arrays with any number of axes | `time` is a 1-d array |
| `NoiseNd` | `calc_psd` of arrays with three or more axes | — |
| `Template` | `utils/_utils.py` (`make_template`, `align_traces`) | `correlate` and `ndimage.shift` written out; the integer to which `nan` is converted is arbitrary |
| `Trunc` | `cut/_cut.py` 20-200 (`_UnbiasedEstimators`) | normal density and distribution function written out; the solver is arbitrary |
| `Sim` | `sim/_sim.py` | one frequency at a time; a negative number to a power which is not an integer is the error `nan`; numpy scalars in place of Python floats (division by zero gives `inf` there) not modelled |
| `SimPriors` | `loadfromdidv` of a `DIDVPriors` object | as `Sim` |
| `Nsmb`, `NsmbTtl`, `Pinv` | `core/_of_nsmb.py` | one signal template; psd and templates in the documented orientation; `rcond` of `pinv` not modelled; `np.arange(0,1,1/nbin)` has `nbin` elements (a float step can give one more); `polyfit` through a flat triple or fewer than three points is the error `nan`; zero PSD bins excluded by hypothesis |

Not modelled: the parts named above.

## 6. Disagreements between the code and the claimed properties

Each row is a machine-checked negation (a theorem ending in `_violated`); the properties concerned
have status `partial` in `MANIFEST.json` and a `_partial` theorem for the remaining cases.

| theorem | what the code does |
|---|---|
| `slopecut_violated` (CutAutoProps) | For the property one would expect the opposite: with four traces of slopes `-1, 0, 1, 10` and a cut of 1.5 standard deviations, the outlier algorithm rejects the last trace, but `slopecut` selects it. |
| `getMuonCut_violated` (CutAutoProps) | `get_muon_cut` raises for every non-empty set of traces (NameError, or ValueError when the first trace is empty); only for no traces does it return a mask. |
| `itercov_units_violated` (CutCovSelProps) | The units of a single variable do matter: the same sixteen events, with the second variable given in units a thousand times smaller, keep eight events instead of four. The tolerance on the covariance adds up the variances of all variables. |
| `pileup_inplace_violated` (CutEffectsProps) | C91, violated: with `removemeans` the traces of the caller lose their means: they are as before only if all means vanished, and afterwards all means vanish. |
| `integer_traces_violated` (CutEffectsProps) | C91, violated: with the traces of a digitiser the mean cannot be subtracted in place, so that `pileupcut` with `removemeans`, and `autocuts` for dIdV data with its second pileup cut, never return. |
| `genNoise_psd_violated` (CutEffectsProps) | C91, violated: a PSD with an infinite first bin (how the optimum filters ignore DC) comes back with a zero there, which means the opposite: no noise at DC. |
| `removeoutliers_empty_violated` (CutKeepProps) | The full claim is false: of `0, 0, 3` every point is rejected. |
| `removeoutliers_low_violated` (CutRoProps) | A single point far below the others is kept, and the further the surer: the loop is entered for a positive skewness only. Here the points of `removeoutliers_high_partial` with their signs changed. |
| `removeoutliers_smallest_violated` (CutRoProps) | With the outlier above, a point which is not an outlier goes as well: the smallest one always does. |
| `symmetrizedist_violated` (CutSymProps) | The full claim is false: for the values `1, 1, 1, -1` (three bins) one value is kept in the lower bin and three in its mirror bin, whatever the random outcome. |
| `prior_errors_violated` (DidvBeliefProps) | Contrary to C155 dI/dV fits with priors report too small errors: with correct error bars of the averages, correct standard deviations of the priors and a minimiser which does its work, some variances are larger than reported (those of the parameters without prior). The data enter twice, at positive and at negative frequencies, and the priors once, so that the result is not the best compromise either. |
| `reported_errors_violated` (DidvErrProps) | Contrary to C153 the reported errors of dI/dV fits are too small by the square root of two: with correct error bars of the averages, stationary noise and an optimiser which does its work, no parameter has a variance as small as the one reported. The fit uses the bins of negative frequencies, which are the complex conjugates of the others, as if they were further measurements. |
| `plot_path_violated` (DidvFigProps) | C113 is violated: for a directory without a slash at the end no figure is saved in it; the name of the directory becomes the beginning of the file name. |
| `offset_accumulates_violated` (DidvObjProps) | Contrary to C47, with `add180phase` every call shifts the offset by another half period. |
| `priors_offset_violated` (DidvObjProps) | Contrary to C50, with `add180phase` the helper object is off by half a period: the offset of the object was shifted when its traces were processed, and is shifted again. |
| `zero_offset_violated` (DidvObjProps) | Contrary to C70 a time offset of zero makes every fit fail: the scale of the parameters passed to the optimiser is the starting point, and zero scales are refused. |
| `single_trace_violated` (DidvObjProps) | Contrary to C74 a fit to a single trace always fails: the standard deviation over one trace is zero, so the residuals of every bin which is not flagged are not finite. |
| `other_fit_rotated_violated` (DidvPlotProps) | Full C92 is false: a fit which reproduces the data exactly is drawn away from them, in its real or in its imaginary part, when its time shift differs from that of the fit with the lowest cost by anything but a whole number of oscillations. |
| `bounds_collapse_violated` (DidvPlotProps) | The bounds are wrong with a time offset: with equal deviations `σ > 0` of both parts and an offset of an eighth of an oscillation the bounds of the real part coincide with the data, as if they had no error. |
| `abs_bounds_violated` (DidvPlotProps) | In the plot of the modulus both bounds can lie above the data. |
| `zoom_edge_violated` (DidvPlotProps) | Full C93 is false: if the duty cycle differs from one half by more than half of `zoom`, the edge is outside the range. |
| `flipped_duty_violated` (DidvPlotProps) | Full C94 is false: for every other duty cycle the flipped trace of a linear device does not lie on its averaged trace. |
| `nll_indefinite_violated` (DidvPriorsProps) | C89, violated: `priorscov` "describes the known entries in the covariance matrix", but known covariances without the variances give a form that is negative in some directions; there the cost is `nan`, although data and model are fine. |
| `falltimes_underdamped_violated` (DidvProps) | When the two eigenvalues of the response are complex the equations have no real solution: whatever the solver returns, neither of the two reported fall times is a fall time of the response, and nothing reports this. |
| `noise_free_traces_violated` (DidvRecoverProps) | Contrary to C133 traces without noise cannot be fitted: repeated measurements which agree have no spread, the error of every driven bin is zero and the residuals are not finite. However many traces, `dofit` fails. |
| `posterior_cost_violated` (DidvTwinProps) | Contrary to C154 the data count twice against the priors: of two sets of parameters the fit prefers one which the priors and the data together make less probable. |
| `correlated_priors_violated` (DidvUnitsProps) | Without the hypothesis the cost depends on the units: a prior which ties the shunt resistance to the inductance (fully correlated), one-pole model, no data. A shunt resistance off by one unit costs `1/8` with time in one unit and `1/50` with time in half that unit. |
| `unexcited_unflagged_violated` (DidvWaveProps) | Contrary to C46 the bins without drive of an exact response are not flagged: there the quotient is `0/0`, and the admittance reported is not a number. |
| `odd_length_violated` (DidvWaveProps) | Contrary to C46 an odd trace has no Nyquist bin, yet its element `n // 2`, which may be an excited harmonic, is flagged and not the admittance. |
| `normal_on_line_violated` (IbisPlotProps) | Full C108 is false: if the current offset is given by the user and differs from the fitted one, the readings of the normal branch are drawn off the line drawn as their fit. |
| `save_violated` (IbisPlotProps) | `plot_iv`, `plot_rv` and `plot_pv` of an IBIS object with `lgcsave=True` never return: the file is written, then TypeError is raised. |
| `ioffErr_violated` (IbisProps) | In general the error of `ioff` is not the propagated one: in the derivative of the ordinate of the crossing with respect to the slope of the normal line the code leaves out a factor. For `demo` the crossing is (1, 1); the variances of intercept and slope are 25/3 and 1/2 for the normal line and 1/3 and 1/2 for the superconducting line, and the reported error is not the first-order one. |
| `resistanceErr_violated` (IbisProps) | The errors of the fitted and of the parasitic resistance use the variance of the inverse slope where its standard deviation belongs. For `demo` (shunt 1 without error) the slopes are 1/2 and 1, both with variance 1/2; the reported errors 8 and 1/2 are not the propagated ones (`√8` and `√(1/2)`). |
| `offsetErr_nosc_violated` (IbisProps) | Without the superconducting fit the bias offset is the constant zero, yet it gets an error; the current offset is the intercept of the normal line, whose variance for `demo` is 25/3, but the error reported is `√(1/2)`. |
| `scalar_offset_violated` (IbisProps) | A scalar current or bias offset never works. |
| `scalar_rp_violated` (IbisProps) | Without the superconducting fit a scalar `rp_guess` is accepted at construction for data of one or two dimensions, and then `analyze` never works; likewise for a three-dimensional `rp_guess` with any data. |
| `default_chan_names_violated` (IbisProps) | The default `chan_names` is the empty string, which has no characters, so construction without channel names raises ValueError whenever there is a channel. |
| `bias_zero_violated` (IbisUnitsProps) | The errors of the offsets depend on where the zero of the bias current is: the correlation between slope and intercept of a line, which depends on it, is left out. For `demo` the variance of the bias offset is 116/3; with the bias currents counted from 4 it is 212/3. |
| `readout_zero_violated` (IbisUnitsProps) | Without the superconducting fit the errors of the offsets depend on the zero of the readout, too. For `demo` the variance assigned to the bias offset, which is the constant zero, is 106/3; with the readout shifted by 1 it is 154/3. |
| `shift_fill_violated` (IntArrProps) | A fill value which is not whole loses its fractional part. |
| `shift_violated` (IntArrProps) | A shift by half a bin: the samples between the bins are not integers, whatever way they are rounded. |
| `fillNegatives_violated` (IntArrProps) | Between 1 and 2 the missing value is 3/2, but 1 for integers. |
| `analyze_zero_violated` (IntArrProps) | Resistances below one unit (ohm) become zero. |
| `analyze_violated` (IntArrProps) | A measurement with integer readings, a shunt of 1/1000 and no superconducting fit: the resistance 1/1000 at the first bias point is reported as 0. |
| `analyze_raises_violated` (IntArrProps) | If the TES current vanishes at a bias point the integers' analysis raises, where the floats' returns. |
| `iv_current_violated` (IvLimitProps) | C148. The stated error of the TES current is not its standard deviation at the normal points themselves, where the errors of current and offset are correlated: its square may be five times too large at one point and less than three quarters of the variance at another. |
| `fitLine_padded_violated` (IvPlotProps) | Full C96 is false for padded data: with positive biases and a padded bias point the line ends at the smallest bias (the superconducting end), away from the normal points which it fits. |
| `fitLine_sides_violated` (IvPlotProps) | Biases of both signs: the line covers only the side which reaches farther. |
| `save_violated` (IvPlotProps) | `plot_iv`, `plot_rv` and `plot_pv` of an IV object with `lgcsave=True` never return: the file is written, then TypeError is raised. |
| `findnormalinds_violated` (IvProps) | Three bias points exactly on a line: only the first two are taken as normal. |
| `rload_violated` (IvProps) | The documented shape `(ntemps, nch, niters)` is accepted by the constructor, but `calc_iv` then never succeeds. |
| `rfitErr_violated` (IvProps) | For the object `demo` the variance of the slope (which is one, like the resistance) is `1/2`, so the error of the resistance is `√(1/2)`; `calc_iv` reports `1`. |
| `range_violated` (LowpassProps) | Contrary to C102 a cut-off above a quarter of the sampling rate can make the filter leave the range of the trace: a trace of zeros with one sample at `1` gets a negative sample. |
| `cutoff_violated` (LowpassProps) | Contrary to C102 (and the documentation) the amplitude at the cut-off is not reduced by 3 dB, a factor `√2`, but halved: the filter is applied twice. |
| `smooth_violated` (NoiseCorrPlotProps) | Full C98 is false with the default smoothing: for some traces a coefficient of 25/21 is drawn. |
| `compare_violated` (NoiseCorrPlotProps) | Full C99 is false: naming a channel that one of the objects has raises AttributeError, so nothing is ever compared. |
| `csd_imag_violated` (NoiseCsdProps) | Full C95 is false: if the imaginary part of the CSD of two channels takes both signs, the stored imaginary parts for both orders of the channels are positive at every frequency, although one is minus the other; at zero frequency, where the CSD is real, too. |
| `csd_real_violated` (NoiseCsdProps) | A negative real part is never stored when another bin is positive. |
| `csd_std_violated` (NoiseCsdProps) | The stored standard deviation of the imaginary part is positive at zero frequency, where this part vanishes for every trace, as soon as it varies at some other frequency. |
| `psd_channel_violated` (NoiseNdProps) | Two channels with the same unit impulse of eight samples, taken at 1 Hz: the first one has lost half of its power in between, the second one has twice the power at zero frequency. |
| `psd_stale_violated` (NoiseObjProps) | The PSD stays behind after removing slopes: here it is positive while the traces the object holds are zero. |
| `uncorr_stale_violated` (NoiseObjProps) | The uncorrelated noise stays behind even when recalculated: with a CSD stored before the slopes were removed, `calculate_uncorr_noise` reports `1/8` for traces that are all zero, whereas an object built from those traces raises LinAlgError. |
| `reim_save_violated` (NoisePlotProps) | Full C97 is false: the method `plot_reim_psd` never writes a file. |
| `csd_ten_violated` (NoisePlotProps) | The cross spectrum of a channel from number ten on cannot be drawn: every figure shows a pair of channels numbered below ten. |
| `csd_file_violated` (NoisePlotProps) | The file does not depend on the channels nor on the part: saving another pair, or the other part, of the same object overwrites it. |
| `noisePsd_violated` (NoiseProps) | Hence the claim fails for every set of traces that does not average to zero: the zero bin is doubled. |
| `smoothPsd_increasing_violated` (NoiseProps) | A one-sided input that never drops below its first value leaves nothing to interpolate: the result is not a number in every bin. |
| `save_distinct_violated` (NoiseSaveProps) | Full C107 is false: two names which differ by a space for an underscore share a file, and saving the second object destroys the first. |
| `save_default_violated` (NoiseSaveProps) | Full C107 is false for objects constructed without a name, the default: they cannot be saved. Nor can anything be saved in the current directory by giving an empty path. |
| `sign_violated` (NoiseSymProps) | Full C126 is false for a reversed sign: if the real part of the cross spectrum of two channels takes both signs, the stored real part stays positive at every frequency when one of the two is reversed, instead of being reversed. |
| `nonpositive_violated` (NonLinFitProps) | C42 is violated for negative pulses (and start times of zero): a guess with any entry that is not positive raises `ValueError` with every choice of bounds, because the guess is also used as the scale of the variables. |
| `polecount_violated` (NonLinFitProps) | C42 is violated: an unsupported number of poles is not rejected with `ValueError`; on a new object the fit fails with `TypeError`. |
| `polecount_stale_violated` (NonLinFitProps) | C42 is violated: on an object that has done a one-pole fit before, an unsupported number of poles silently repeats a one-pole fit with the old rise time. |
| `early_peak_violated` (NonLinFitProps) | C84 is violated: without a guess and a template, a trace of at least 14 samples whose maximum lies in the first seven raises `ValueError`, for every number of poles. |
| `muon_flat_violated` (NonLinFitProps) | C83 is violated: a constant trace raises `ValueError`. |
| `muon_dc_violated` (NonLinFitProps) | C83 is violated: with an AC-coupled psd (`psd[0] = 0`) every fit raises `ValueError`; unlike `OFnonlin`, the zero-frequency bin is not ignored. |
| `muon_first_violated` (NonLinFitProps) | C83 is violated: if the first sample is at `(max − min)/e` the fit raises `ValueError`, because the guessed decay time is zero. |
| `short_violated` (NonLinPlotProps) | Contrary to C101 the data of a trace of up to 9000 samples whose pulse starts within the first thousand are not drawn at all in the time panels: the baseline is the mean of an empty slice. |
| `tail_violated` (NonLinPlotProps) | Contrary to C101 in a longer trace whose pulse starts within the first thousand samples the baseline is taken from the tail of the pulse: data which are the fitted pulse on a constant baseline are drawn below the fit, all by the same positive amount. |
| `zoom_violated` (NonLinPlotProps) | Contrary to C101 the zoom is empty when the trace starts less than five rise times before the pulse (and ends that long after the window). |
| `twopole_swapped_violated` (NonLinProps) | C41 is violated with `scale_amplitude=True` and the rise time the longer one (the default bounds of the fit allow it): the time model has height `A`, the frequency model is *minus* its transform, which is never zero. |
| `chi2_units_violated` (NonLinUnitsProps) | C132 (violated). The reduced chi2 depends on the units wherever the trace and the model differ in the zero-frequency bin: with the same solution in both units it is different whenever the unit of the data, `s √τ`, is not the old one. |
| `default_guess_time_violated` (NonLinUnitsProps) | C132 (violated). The default start point does not follow the unit of time: whatever the unit, the first time constant is tried at `20·10⁻⁶` (two, three or four poles). |
| `few_backgrounds_violated` (NsmbChainProps) | Whatever the templates and the trace, one background or none make the setup or the fit raise. |
| `rate_violated` (NsmbPlotProps) | Contrary to C103 asking for the plot makes every fit fail at sampling rates up to 60 kHz: the plot filters the data with a cut-off of 30 kHz and raises. |
| `zero_violated` (NsmbPlotProps) | Contrary to C103 the number `0` saves no file. |
| `overwrite_violated` (NsmbPlotProps) | Contrary to C103 the constrained fit writes over the plot of the unconstrained one with the same number. |
| `setup_single_violated` (NsmbProps) | C77 is violated: with a single background template `of_nsmb_setup` always raises. |
| `no_background_violated` (NsmbProps) | C77 is violated: without backgrounds the setup succeeds but the fit always raises. |
| `window_mutated_violated` (NsmbProps) | C80 is violated: `of_nsmb` overwrites the caller's window. |
| `getPt_single_violated` (NsmbProps) | C59 is violated: every mask with exactly one active template raises `IndexError`. |
| `mb_single_violated` (NsmbProps) | C59 is violated for `of_mb`: if exactly one background amplitude of the unconstrained fit is allowed, the function raises `ValueError`. |
| `mb_polarity_violated` (NsmbProps) | C58 is violated for `of_mb`: four positive backgrounds, all constrained to be positive, and the returned amplitude of the second is `-1`. |
| `con_polarity_violated` (NsmbProps) | C58 is violated for `of_nsmb_con`: one free signal and four backgrounds constrained to be positive, and the returned amplitude of the last background is `-1`. |
| `con_zero_delay_violated` (NsmbProps) | C78 is violated: if the minimum is at delay index `0` (the pulse sits where the template says), `of_nsmb_con` raises `TypeError`, for every trace of at least three bins. |
| `interp_edge_violated` (NsmbProps) | C79 is violated when the window ends at a falling edge: the chi2 to the left of the window is lower, the parabola opens downwards and the "interpolated minimum" is larger than the chi2 of the chosen bin. |
| `window_single_violated` (NsmbProps) | C81 is violated: a further window of a single bin raises `IndexError`. |
| `ttl_fast_violated` (NsmbTtlProps) | C60 is violated: with at most half a bin between the pulses the call raises `ValueError`. |
| `ttl_notch_violated` (NsmbTtlProps) | C60 is violated: if the notch around the last pulse reaches the end of the trace, the call raises `IndexError` instead of leaving these bins out. |
| `ttl_nan_violated` (NsmbTtlProps) | The documented `nan` shifts of slope and constant are zeros: a caller cannot tell them from a pulse with zero delay. |
| `ofamp_emptyWindow_violated` (OFFunProps) | The two implementations disagree on an empty window: looking outside a window that covers the whole trace raises IndexError in `ofamp` and returns a null fit from the class. |
| `interpolate_lastbin_violated` (OFMiscProps) | The full claim of C61 fails: with the best delay in the last bin an interpolated fit raises IndexError although the fit without interpolation returns (white noise, one-bin template, trace `(0, 1, 0)`). |
| `pileup_fractional_violated` (OFPairProps) | The full claim of C36 fails when the first pulse is between samples, as it is after an interpolated fit: white noise, one-bin template, trace `(1, 0)`, first pulse of height `2/3` half a bin late. The reported chi-square is negative, so it is not the chi-square of any residual. |
| `stationary_zero_violated` (OFPairProps) | At delay zero the two amplitudes are not optimal: white noise, one-bin template, trace `(1, 0)` sampled at 2 Hz, second pulse forced to delay zero. The fit reports amplitudes `(1, 1)` and chi-square `1/2`, while `(1, 0)` (or `(1/2, 1/2)`) has chi-square zero. |
| `direction_interp_violated` (OFProps) | The full claim of C27 fails with interpolation: for white noise, a one-bin template and the trace `(1, 0, -3/2)`, a fit constrained to positive pulses returns a negative amplitude (the parabola is put through neighbours that the constraint excluded, so its vertex can be anywhere). |
| `stationary_units_violated` (OFUnitsProps) | Full C124 is false for that fit: with the trace `(1, 0)`, a one-bin template and white noise sampled at 2 Hz, and the second pulse forced to delay zero, the fit reports amplitudes `(1, 1)` and chi-square `1/2`; with the noise power in units twice as large it reports `(1/2, 1/2)` and chi-square zero. |
| `offset_std_violated` (OffsetProps) | C106 is false: the uncertainty is not an unbiased estimate of the error of the offset. If the traces of the population do not all have the same mean, the squared uncertainty is too small on average. |
| `offset_std_single_violated` (OffsetProps) | A single trace gets the uncertainty zero whatever it looks like. |
| `freqs_violated` (SimPlotProps) | Contrary to C100 a plot of type 'current' or 'power' changes the simulation object: its frequencies become those of the data without the first one. The other two leave it as it was. |
| `identity_violated` (SimPlotProps) | Contrary to C100 a documented type which is another string object (one built at run time) gives no figure, no file and no error; neither does an unknown type. |
| `squid_even_violated` (SimPriorsProps) | Contrary to C122 the amplifier noise with the default exponent one is not even: the knee is subtracted at negative frequencies, where the noise vanishes at minus the knee frequency. |
| `load_normal_violated` (SimProps) | Contrary to C55 the documented noise type 'normal' always raises ValueError, even with `rnormal`. |
| `load_identity_violated` (SimProps) | Contrary to C55 a noise type which equals a documented one but is another string object (for instance built at run time) raises ValueError. |
| `diffusive_equal_violated` (SimProps) | Contrary to C56 the diffusive factor is not defined for a bath at the transition temperature (where it tends to one): the constructor raises. |
| `twoSided_violated` (SimProps) | Contrary to C76 the estimate from the two-sided form of a spectral density is half of the estimate from its one-sided form. |
| `makeTemplate_swapped_violated` (TemplateProps) | C86, violated: with the fall time not longer than the rise time the pulse is never positive, so the normalisation divides by the zero before the pulse and no template comes back. |
| `makeTemplate_outside_violated` (TemplateProps) | C86, violated: an offset that moves the pulse out of the trace gives no template. |
| `align_arguments_violated` (TemplateProps) | C87, violated: the cut-off frequency and the sampling rate given by the caller have no effect; 5 kHz and 625 kHz are used. |
| `align_flat_violated` (TemplateProps) | C87, violated: a trace without variation is not left where it is. Whatever the other traces are, it is moved by the whole length of the window, so that at most the samples after the window remain. |
| `align_periodic_violated` (TemplateProps) | C87, violated: for periodic traces, the use the function is written for, the correlation does not wrap around and favours small shifts. Of two windows on the same periodic wave, five of twelve bins apart, the second is reported with a shift that is not `-5` modulo the period. |
| `align_integer_violated` (TemplateProps) | C87, violated for traces of integers: nothing is masked, and a trace which is moved gets invented samples (the integer which stands for `nan`) in the bins that should be masked. |
| `unbiased_mean_violated` (TruncProps) | C88, violated: away from the centre a solution of the two equations does not make the likelihood stationary in the mean, unless the standard deviation happens to be 1 in the caller's units: the truncation term of the first equation lacks the factor `std2`. |
| `unbiased_witness_violated` (TruncProps) | C88, violated, the concrete case: two points in `[-1, 2]` for which mean 0 and standard deviation 2 solve both equations exactly, although the likelihood is not stationary there. |
| `unbiased_units_violated` (TruncProps) | C88, violated: the estimates depend on the unit of the data. If `(mu, std)` solves the equations for some data, then for the same data in another unit (`c * x`) the converted pair does not solve them, unless `mu` is centred. |
| `energy_three_axes_violated` (UtilsNdProps) | Contrary to C120, a baseline from before and after the pulse cannot be used for arrays with more than two dimensions: with two or more entries along the second axis `energy_absorbed` always raises ValueError, although it works for every trace alone. |
| `energy_one_channel_violated` (UtilsNdProps) | With a single entry along the second axis the call returns two energies for each trace (when both windows have the same length), one for each of the two baselines. |
| `offset_shape_violated` (UtilsNdProps) | Contrary to C120 `calc_offset` never returns one offset for each trace: the shape of the result is not that of the input without its last axis, and a single trace raises IndexError. |
| `energy_two_times_violated` (UtilsProps) | Contrary to C07 two time stamps are accepted for a trace of any length: their difference is taken as the sampling interval. A user who gives the first and the last time gets, instead of a ValueError, the energy as if the duration of the trace were the time between two samples. |
| `energy_two_samples_violated` (UtilsProps) | Likewise two samples are accepted with any time stamps: the mean power is taken over their whole range. |

Further observations made while reading (each visible in the model, not claimed as a property):

* `fill_negatives` works in place, as documented.
* `iterstat` does not terminate for a negative `precision` on data with spread.
* `itercov` ignores further two-dimensional arguments after the first one.
* An unknown `outlieralgo` raises `NameError` in the cut functions.
* `DIDV.dofit(1)`: the documented parameters omit `tau0`.
* `Noise.calculate_psd` doubles the zero-frequency and Nyquist bins.
* `of_nsmb_setup` returns `psddnu` and `sbtemplatef` transposed with respect to what the fit functions
  document; the caller has to transpose them.
* The first column of the TTL template matrix is wrapped around, the other columns are zero-filled.

## 7. Mutation testing, and how to read its log

`seeded/LOG.jsonl` has one line per edit of a model definition, made and rebuilt in a scratch copy.
Limits of what it shows:

* A theorem listed under `failed` is one whose proof no longer builds, or which uses a lemma whose proof
  no longer builds. That does not show that its statement became false. The control CO2 replaces a
  definition by one with the same value, and proofs fail all the same, because they unfold it.
* A file is not built when a file it imports fails. Claims proved further along are then not tested by
  that edit, and the line names them only as far as they use a broken lemma.
* `claim` is the claim the edit was aimed at, chosen by hand. In some lines it is not among the claims
  of the theorems which failed; for those lines the log does not show that the claim notices the edit.
* The ids in `claim` of A1, K11, SQ2, NO5, NO6, NO7, OU1 and OU6 were corrected after the runs: they had
  been written from memory and named another property. Most of the reasons `none: ...` were also written
  after the edit had survived. The recorded failures were not changed.
* Edits which survived were run again after the theorems were tightened, so their ids occur more than
  once. The first lines of U25 and U29 were restored from the run log, as the results file had been
  overwritten by the second run.
* The lines NU10, CX43, TW44, SF2, R13 and HA8 have a `note`: the edited definition did not compile, so
  nothing was tested. Up to the commit before this remark the log counted them as noticed.
* The line of the first run of CW28 was removed. The claim it named was the wrong one, so no file using
  the edited definition was built. The line now in the log is the run with the claim corrected.
* A line with empty `failed` and no `note` is an edit that was not noticed. `tightened` names the theorems added or
  strengthened because of it; `none: ...` in `claim` gives the reason why no property is concerned.
