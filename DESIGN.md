# Formal model of chpolste/barotropic in Lean 4

## Layout

* `properties.jsonl` – the properties (C01 …), stated against the Python API.
* `lean/Verif/Model/*.lean` – the model: one definition per function/branch of `/repo/src/barotropic`, each with a
  comment giving file and lines. No theorems beyond what termination needs.
* `lean/Verif/Spec/*.lean` – small specifications that do not use the model (piecewise-linear interpolants,
  integrals, circular arcs, …).
* `lean/Verif/Lemmas/*.lean` – helper lemmas.
* `lean/Verif/Props/*.lean` – the property theorems (names start with the property id, e.g. `C13_…`), plus
  `example`s that show hypotheses are satisfiable. Negative results are named `…_refuted`, partial ones `…_partial`.
* `seeded/LOG.jsonl` – log of seeded-bug experiments.  `MANIFEST.json` – property → theorems.

## Modelling conventions

* Floating point is idealised: `float` is an exact real number (`ℝ`), or an element of an arbitrary linearly ordered
  field `K` where no transcendental function occurs (such definitions are computable over `ℚ`, and examples are
  evaluated there). Rounding error, overflow, float32 conversion in spharm are **not** modelled, with the exception of grid
  sizes, coordinates, times and filter widths (C101–C104, `Model/Binary64.lean`: rounding to 53 bits, ties to even, unlimited exponents), which
  say when the exact model of these quantities is faithful and when it is not, and of diffusion and time steps of single coefficients (C122, C123, `Model/Binary32.lean`: rounding to
  24 bits with gradual underflow; overflow and NaN are `none`). Where the code
  produces infinities/NaN on purpose (stationary wavenumber, waveguides) an explicit extended number type is used.
* A 2D array of shape (h,w) is `Fin h → Fin w → K`; where the code inspects shapes, an array is a structure that
  carries its own shape and the checks are modelled as branches.
* Python exceptions are values: functions that can raise return `Except PyErr α`.
* In-place mutation of fresh arrays is modelled by returning new values; object attributes that are mutated and
  observable (State caches, the `lru_cache`) are modelled as explicit state machines.
* Loops are folds / structural recursion; the `while` loop of `BarotropicModel.run` is modelled by a step function
  iterated with fuel, plus a theorem that enough fuel exists (termination) and the result does not depend on it.
* numpy/scipy primitives (linspace, roll, argmax, convolve with `reflect`/`wrap`, rfft/irfft, hilbert, interp,
  interp1d-linear, isclose, round) are modelled by their documented mathematical definition, cited in comments.
* `spharm` (Fortran SPHEREPACK) is external: the transforms are a parameter (`Spharm` structure). Linearity and
  the inversion laws used by a theorem are explicit hypotheses of that theorem (`Spharm.Lawful…`), never axioms,
  and two concrete instances satisfying them are constructed to show they are consistent
  (`Lemmas/SpharmZonal.lean`, `Lemmas/SpharmWave.lean`). Laws: real linearity; analysis/synthesis round trips; constant mode;
  wind ↔ vorticity/divergence; rotations about the axis by grid columns; resolved Coriolis field; for C96 also reflection at
  the equator (`Spharm.Mirrors`). C105 derives all of them from the definition of spherical harmonics (`Spec/Harmonics.lean`:
  Rodrigues' formula, synthesis = evaluation at the gridpoints, wind = derivatives of streamfunction and velocity potential) and
  constructs such an exact transform on every grid with truncation `T ≤ nlat - 2`. With the default
  `ntrunc = nlat - 1` the highest degree is aliased for odd orders (`C105_default_refuted`), theorems that need the round trip laws
  are then statements about the idealised transform; transforms that are exact up to degree `nlat - 2` exist there, too. None of the laws says what divergence or gradient of a product is; theorems about steps and
  runs are relative to `getvrtdivspec`.

## Trusted base

* Lean 4.33.0 kernel; Mathlib definitions used in statements (ℝ, ℂ, integrals, trigonometric functions, Finset sums).
* Axioms: at most `propext`, `Classical.choice`, `Quot.sound` . `Verif/Audit.lean` collects the axioms of every declaration and
  fails to build if there is another one. No `native_decide`; examples over `ℚ` use `decide +kernel`.
* The reading of the Python source embodied in `Verif/Model` and of the numpy/scipy/xarray/spharm semantics above.

## Per-property plan

(„R" = the property as stated is expected to be false of the code; the negation is proved with a concrete
witness, and the true part is proved as `_partial`.)

| id | model | proof idea |
|---|---|---|
| C01 | Grid constructor over an ordered floor field | arithmetic on linspace |
| C02 R | dlon/dlat vs linspace spacing | spacing = resolution iff 360/resolution (180/…) integral; witness 7° |
| C03 R | `__eq__` with isclose, `__hash__` on exact tuple | witnesses for asymmetry, non-transitivity, hash mismatch; reflexivity and shape/ntrunc part proved |
| C04 | coriolis/circumference over ℝ | monotonicity of sin on [-π/2,π/2] |
| C05–C09 | region indexer: filter on `List.range`, roll | list lemmas, sortedness of coordinates |
| C10 | gridpoint_area over ℝ | telescoping sum of sines, strict monotonicity of sin; R for irregular resolution |
| C11 | mean as weighted Finset sums | sums, weights positive |
| C12 R | shape-based dispatch in mean | witness: region wrapping over full globe; partial: region shape ≠ grid shape |
| C13, C14 | stencils as functions of row index | ring on polynomial coefficients, case split on row |
| C15 | sptrapz transcription; spec with interval integrals of interpolants | FTC per interval, case split on signs |
| C16–C18 | quad | from C15 / telescoping; R for irregular resolutions |
| C19 | equivalent_latitude | arcsin lemmas |
| C20–C23 | zonalize, interp1d linear | monotonicity of quad in domain; interpolation lemmas |
| C24–C27 | falwa, fawa | pointwise max(g,0) ≥ 1_A g inequality integrated / summed |
| C28–C31 | spectral operators on coefficient vectors, spharm parameter | modewise algebra; C31 R (NameError) |
| C32–C38 | State with caches as state machine | refinement to uncached evaluation; C36 R (tuple branch ignores self) |
| C39–C41 | StateList | list induction; empty-list case |
| C42–C45 | run loop over Time = number or datetime | induction on steps, Archimedean property; C43 R for t0 ≠ 0 |
| C46–C51 | model stepping on spectral vectors | invariants by induction over steps; C47 R without diffusion_bg |
| C52–C59 | RHS expression trees, lru_cache machine, orography | structural induction; invariant over call histories; C53 R, C58 partly R |
| C60 | init | algebra |
| C61, C62, C64 | zonal DFT on ZMod n (Mathlib) | DFT inversion; C61 R for odd nlon, C62 R (offset kmin) |
| C63 | filter_by_wavenumber | window sums, index bounds |
| C65, C66 | extended numbers, scan | list induction with invariant; C66 R (NaN when Ks jumps from −∞) |
| C67, C68 | windows and convolutions | reindexing of sums |
| C69–C73 | dataset as names → arrays with dims | list induction; C70 R (offset coordinates are accepted) |
| C74–C78 | plot helpers, formatting | integer/modular arithmetic; C74 partly R |
| C79–C82, C87, C88 | data that the plot functions hand to matplotlib (positions, ticks, levels, segments) | list lemmas, witnesses; C79, C80, C82 R |
| C83, C84 | attribute lookup protocol of StateList / State | evaluation of a small model of `__getattr__`; R |
| C85, C86 | `__repr__`/`_repr_latex_` strings, token grammar | unambiguous parsing by induction; C85 R |
| C89, C90 | zonalize, falwa | scaling of contours, levels and quadrature |
| C91 | interp_meridional, scipy's interp1d | monotone search, affine pieces; R for unsorted/duplicate coordinates |
| C92–C94 | dominant wavenumbers, phase-filtered wave activity, wavelets (pywt is a parameter) | Hann filter, Fourier lemmas; R |
| C95–C97, C99 | states and runs under rotation, reflection, time shift, change of units | one simulation lemma for the loop (`Lemmas/RunMap.lean`) with a map of states per symmetry |
| C98 | prefixes and restarts of runs | determinism of the loop; R |
| C100 | run against the discretised PDE (`Spec/Equation.lean`) | implicit step solved modewise, induction over steps |
| C101–C104 R | grid sizes, linspace, times and filter widths with rounding to 53 bits | rounding is monotone, fixes doubles, relative error 2^-53; witnesses computed over ℚ |
| C105 P | transforms from spherical harmonics | dual functionals by Lagrange interpolation in sin φ, Fourier coefficients of rows; R for the default truncation |
| C106 | spectral operators against derivatives on the sphere (`Spec/Sphere.lean`) | Legendre's differential equation from Rodrigues' formula |
| C107 | flux divergence without aliasing, Rossby-Haurwitz waves (`Spec/Waves.lean`) | a wind as complex function u - iv; products of scalar and vector harmonics span vector harmonics |
| C108 | convergence of integrations to the exact solution | error recursion of the discretised oscillation equation in the maximum norm |
| C109 | stability limit of the time step | Schur-Cohn form as Lyapunov function; explicit roots for instability |
| C110 | integrals over the sphere (`Spec/Conservation.lean`): energy, angular momentum, moments of PV | Gauss' theorem on the sphere from Mathlib's divergence theorem on rectangles; every rate is a divergence |
| C111 | samples of functions with 5 (3) continuous derivatives, explicit constants | Taylor's theorem with Lagrange remainder (`Lemmas/Taylor.lean`) for every point of the stencil |
| C112 | samples of functions with 2 continuous derivatives; Lebesgue integrals over meridian and sphere (`sphereIntegral`), explicit constants | error of linear interpolation, midpoint rule with weight, periodic trapezoidal rule (Mathlib), Fubini (`Lemmas/QuadError.lean`) |
| C113 | samples of profiles with 5 continuous derivatives; analytic wavenumber in Mercator coordinates (`Spec/Mercator.lean`); refuted next to the poles without PV | C111 applied to PV and to u cos φ; solid-body rotation as the counterexample on all fine grids |
| C114 | solution of the ordinary differential equation for the coefficients (`Spec/Galerkin.lean`), which is C100 without discretisation in time; sup norm | discrete Gronwall argument for the filtered leapfrog scheme with implicit dissipative part (`Lemmas/TimeStep.lean`), Picard-Lindelöf (Mathlib) |
| C115 | area-preserving rearrangement of a field on the sphere, defined with integrals (`Spec/Rearrange.lean`) without reference to the grid | both quadratures are integrals of the values at nearby gridpoints (`Lemmas/Recon.lean`), so areas are bracketed by those of shifted values; existence by inverting the areas, which decrease strictly and are left-continuous (`Lemmas/RearrangeExists.lean`) |
| C116 | local wave activity as integral over the displaced parts of a meridian (`Spec/WaveActivity.lean`), with the rearranged profile of C115 | integrands of code and specification differ by a 1-Lipschitz function of PV and contour value (`Lemmas/WaveActivity.lean`); density of contours where the profile increases |
| C117 | conservation of a field by a non-divergent wind (`Spec/Transport.lean`) | integrals of smooth functions of the field do not change (divergence theorem), areas as limits of smooth functions; C115 |
| C118 | absolute vorticity of the wind, zonal mean (`Spec/Transport.lean`) | Stokes' theorem for polar caps; excess over a contour value is conserved (C117); C116 |
| C119 | transforms with a truncation below the resolution (`Spec/Dealias.lean`); integrals of `Spec/Conservation.lean` | products of two fields of the truncation are resolved by a transform of twice the degree, whose extra coefficients are orthogonal to the retained ones (`Lemmas/Dealias.lean`, Parseval in `Lemmas/Parseval.lean`) |
| C120 | solutions as in C114, forcing of linear growth; invariants as in C119 | the flux does not change the sum of squares (C119), Gronwall bound, continuation of solutions (`Lemmas/GlobalOde.lean`), C114; continuity of the invariants |
| C121 | smooth streamfunction of time and Cartesian coordinates that satisfies the equation away from the poles (`Spec/SmoothSolution.lean`); mean square error | energy estimate for the difference (Gronwall, constants independent of the truncation: `Lemmas/Stability.lean`), polynomial approximation with all derivatives (Landau kernel: `Lemmas/Approx.lean`), polynomials on the sphere are sums of harmonics (`Lemmas/SpherePoly.lean`), operators in Cartesian coordinates (`Lemmas/Ambient.lean`), C120 |
| C122 R | nearest single precision number, exact diffusion factor (`Spec/Binary32.lean`) | rounding is monotone, fixes singles, relative error 2^-24 above the smallest normal number; products of error factors (`Lemmas/Binary32Error.lean`); R: powers of eigenvalues underflow for high orders |
| C123 R | exact step and filter; initial coefficient | the rounded filter is monotone and every number is within 10 units of fixed points of the filter on both sides (significands modulo 5, `Lemmas/Binary32Run.lean`); R: witness for the drift, small increments are rounded away |
| C124 R | columns and labels of maps, zonal means of what is shown, increasing levels (`Spec/Figures.lean`) | one bijection of columns per figure (C74), levels (C75, C82), diagnostics (C21, C24, C61, C64, C94), segments (C88); R: constant PV, odd numbers of longitudes |
| C125 R | the grid and state that were exported | computation of the created grid, C37; double precision: relative error of the recovered resolution, rounding commutes with doubling; R: planets other than the Earth, resolutions that do not divide 180, 84 latitudes |
| C126 | smooth solutions (`Spec/SmoothSolution.lean`) | both are limits of the same truncated solutions (C121); smooth functions without square integral or Laplacian are zero or constant |
| C127 | mean square difference of winds (`Spec/SmoothSolution.lean`), energy (`Spec/Conservation.lean`) | polynomial approximation of the streamfunction; for spectral fields wind is bounded by vorticity (Parseval); C121 |
| C128 R | memory before and after, contents given by the models without memory (`Spec/Memory.lean`) | reading after writing to views (`Lemmas/Memory.lean`), composition of programs that leave old buffers unchanged; induction over the loop of `run`; R: arrays that states and grids share with the caller |
| C129 | smooth solutions with forcing, accuracy of a gridded forcing in the mean square (`Spec/ForcedSolution.lean`) | as C121 and C127 with a Lipschitz forcing in the energy estimate; spherical harmonics are dense; uniqueness because the same runs converge to both solutions |
| C130 | error in the mean square, at points and of gradients (`Spec/Accuracy.lean`) | Sobolev norms of the spherical harmonic coefficients (`Lemmas/Sobolev.lean`) with the addition theorem (`Lemmas/Addition.lean`): coefficients of smooth functions decay faster than any power, sharp inequalities between values, gradients and mean squares of truncated fields; energy estimate of C121 for the difference to the truncated exact solution (`Lemmas/SpectralAccuracy.lean`) |
| C131 | properties of all states of runs close to a smooth solution (`Spec/RunDiagnostics.lean`), with the rearrangement of C115 and the wave activity of C116 | uniform closeness of PV and its gradient (C130) makes the states Lipschitz fields with a common constant; rearrangement and wave activity are continuous in the field (`Lemmas/RearrangeStable.lean`); uniform versions of C115 and C116 near a compact family of profiles; exact transport of PV by the solution (C117, C118) after a change of the time coordinate; zonal means by orthogonality of the roots of unity (`Lemmas/RunDiagnostics.lean`) |
| C132 | slices as sets of indices with their order, from the documentation of Python (`Spec/Sequence.lean`) | the computed indices are an arithmetic progression: sorted, with the members of the specification; induction over the loop of `index`; rebuilding a list from a slice is refuted with three grids whose radii differ by a few metres |
| C133 | saved steps as those that have reached the next save time (`Spec/Binary64Run.lean`); doubles as in C101 | within a binade both times are multiples of the last bit, so that differences and sums are exact; the step is rounded only where the time crosses a power of two, and these errors form a geometric series; the loop by induction |
| C134 | exact areas, sums over index ranges and the polygon through the knots (`Spec/Binary64Zonalize.lean`); doubles as in C101 | sums of non-negative terms in any order (`SumTree`) keep order and relative accuracy; every operation on the way to the latitudes is monotone; five rounded factors and a rounded sum in a cell of `np.interp`. Upper bound and monotonicity refuted by an overshoot, bounded by 3·2⁻⁵⁰ of the largest value |
| C135 | wave activity of a column as a plain sum (`Spec/Binary64Falwa.lean`) | every term of the integral over `pv >= q` is at least the term of the integral over `lat >= y`, and rounded sums in the same order keep order: no negative differences; interpolation to the pole loses this (refuted) |
| C136 | sums over index ranges | errors as numbers of roundings relative to the sizes of terms (`Lemmas/Binary64Sum.lean`); constants are not kept exactly (refuted) |
| C137 | the exact stencils of C13 and C111 | rounding errors of sums from left to right; rounding commutes with powers of two; order 4 does not annihilate constants (refuted) |
| C138 | exact quadrature of C15 and C24; accuracy of the library (`Spec/Binary64Trapz.lean`) | roundings counted relative to sizes of terms; reciprocals of numbers with relative errors; sine and cosine are Lipschitz |
| C139 | the formulas without rounding | rounding keeps signs and zeros; halving is exact; roundings counted relative to sizes of terms |
| C140 | A value that depends on a missing value is missing, stated as an equivalence with the set of values used (means, both quadratures), `HasMissing` for fields | A masked sum is `none` exactly if a selected term is; an interval of the trapezoidal rule that reaches into the domain is `none` exactly if one of its four values is. One missing value makes min/max and hence all automatic levels missing; comparisons with NaN are false, so areas are 0 and contours sit on the north pole. Stable sorting then puts the prescribed pole value 0 in front of them: `interp1d` sees only zeros (refuted). On fields without missing values every step equals that of the real model (`C140_present…`): masked sums are sums, `foldl min` is the infimum, insertion sort and merge sort agree because both are stable |
| C141 | `trueLatitude`, `northEdge`, `southEdge`, `bandArea` (real numbers), accuracy of sin and cos | Absolute errors propagated through every operation (`rnd_known`), sine is 1-Lipschitz; Jordan inequality bounds true areas below by r² dλ / (2 n²), which turns absolute into relative errors; telescoping sum; combined with C134 for contour areas |
| C142 | Derivative and integral of a smooth function (`deriv`, `sphereIntegral`); `f` with values up to `ε`, spacing up to relative `δ` | `quotient_error` adds truncation (stencil errors of C111), errors of values (weights of the stencil), error of the spacing and roundings (C137). Columns: linear interpolation error on the computed latitudes (`column_trunc`), Lipschitz bound for the shifted latitudes, gaps at the poles, C138. Refuted refinement: rounded stencil of a constant is a fixed non-zero number divided by the spacing |
| C143 | `UsedRow`: the rows on which a centred or offset difference depends; a value is missing exactly if one of these is, otherwise the value for any filling | Missing arithmetic is `none` exactly if an operand is; case distinction over the rows of the stencils; `ksSquared` is NaN only for NaN operands (threshold not negative). First NaN wins in `argmax`. Waveguides: the scan of two profiles that differ only in values not less than `k` (or NaN) behind an active gridpoint goes through the same states |
| C144 | The assertions of the tests, stated with arbitrary grids, time steps, windows and objects; regions and coordinates of the tests as concrete lists | Counting of saved states through the run specification of C22; symmetry of gridpoint areas for the meridional split; evaluation in the kernel for regions and coordinates; rotations by one column in both directions isolate the wavenumber of a wave, so that means and Nyquist components vanish; datasets by C70–C72 |
| C145 | `HasMissing`, `AllMissing`, `NoneMissing`; `Extends`: a model of missing values with the parameters and forcing of a model of numbers; `Report`: what a call tells about times and errors | Agreement with the model of numbers function by function; induction over the loop with the invariant that the new state is missing exactly if the current time is not before the onset; times do not depend on values |
| C146 | `FollowsForcing`: Lipschitz condition and error of a forcing with respect to the forcing of a smooth flow; `Accurate` of C130 | Residual of the truncated approximations of C130 compared with the forcing, stability estimate of C129; for relaxation and prescribed forcings the error of the forcing is that of the reference or field |
| C147 | `shiftEast`, `waveSpeed` of C107 (exact wave), damping factor `exp(-ω²tΔ/8)`, `secondOrder` (explicit bound) | The exact wave with damping satisfies the recurrence of the filtered scheme up to third order (Taylor bounds of `exp` in the left half-plane), discrete Gronwall; second-order accuracy refuted with the lower bound of the damping |
| C148 | `dampedOscillation` (discretised scalar equation), `stabilityMargin` (explicit polynomial), `RelaxesTo` | Induction over the steps gives the scalar equation for every mode; Schur–Cohn criterion for the roots of its characteristic polynomial, estimates of solutions of linear recurrences of second order |
| C149 | `RobustGuides`, `SimpleGuides` (intervals of a continuous profile, simple crossings), `stationaryReal`, `Midlatitude` (condition of the notebook) | A waveguide of the gridded profile contains a gridpoint, hence meets the core of one waveguide of the continuous profile, whose core lies in one of the gridded profile; ordered lists matched both ways agree. Compactness away from the edges, mean value theorem and convexity (interpolation error) near them |
| C150 | `Spec/LinearResponse.lean`: rate, step and scheme linearised about a given integration (`TangentScheme`), forcing that depends to first order on amplitude and PV (`ForcingExpands`) | expansions to first order are closed under sums, linear maps and products; the implicit step is a contraction, so each step of the scheme preserves them; the number of steps depends on times only |
| C151 | `Spec/StationaryResponse.lean`: `forcedOscillation` (discretised scalar equation), `impedance` (damping rates plus i times frequency), `WeaklyForced` | the linearised budget about a solid-body rotation is diagonal (half the difference of the fluxes of C107 for a wave and its negative, summed over degrees); the deviation from the steady state is the damped oscillation of C148; C150 for the nonlinear remainder |
| C152 | `fourierSeries`, `outside` (Spec/WavePacket) | the analytic signal of the band is linear in the field; one wave yields itself inside the band, at most its magnitude outside (at most one wavenumber of the band is an alias of it); sum over all waves |
| C153 | `Grid.spun`, `lead`, `SameFromSpace` (Spec/RotationRate) | the flux for the other angular velocity differs by the longitude derivative (advective form, then uniqueness of coefficients); product rule; uniqueness of solutions and convergence of runs (C120); total derivative for smooth solutions |
| C154 | `unitVec`, `Turned`, `BModel.Turns` (Spec/Isotropy) | harmonics as polynomials of Cartesian coordinates; Laplacian and triple product of the gradients under orthogonal matrices; a turned eigenfunction is an eigenfunction with the same eigenvalue, thus has the same degree; turned coefficients are a linear map that commutes with all steps of a run (RunMap) |
| C155 | Spec/MirrorDiag (OffGrid, Untied, FalwaUntied) | every interval of the trapezoidal rule and its mirror image with the complementary domain add up to the whole interval (Lemmas/MirrorQuad), so areas of the mirror image are complements and equivalent latitudes change their sign; interpolation between mirrored knots (Lemmas/MirrorInterp); both integrals of FALWA change by the same amount; refuted with a field that vanishes except at the poles |
| C156 | `BasicState`, `withWave`, `circleMean`, `pseudomomentum` (Spec/SmallAmplitude) | displaced deviations in coordinates scaled with the amplitude, dominated convergence along all four of amplitude, longitude, latitude and contour, uniform by compactness (Lemmas/SmallAmplitude); the area above a contour is the slope of the displaced deviations in the value of the contour, which gives the rearranged profile (Lemmas/SmallAmplitudeZonal); then C115 and C116 |
| C157 | `SineBrackets`, `NearProfile`, `GoodAsin`, `gridBoxes` (`Spec/ZonalizeTotal.lean`), `IsRearrangement`, `LipschitzField`, `bandArea` | the area of boxes above a contour is between areas of the field above slightly different contours (C115) and its rounded value close to it (C134, C141, C142); clamping and arc sine keep the error of the sine; a polygon between two levels is between the profiles of neighbouring latitudes |
| C158 | `degreePart`, `St.degreeEnergy` (Spec/Spectrum), `totalEnergy`, `totalEnstrophy` | energies by degree in terms of coefficients (Parseval), the flux is orthogonal to PV minus any solid-body rotation (C119), weights linear in l(l+1) |
| C159 | `degreePart`, `St.degreeEnergy` (Spec/Spectrum) | angular momentum (C119) about every axis by turning the sphere (C154) and changing the rate of rotation (C153); exchange between three fields changes its sign under every swap (Lemmas/Exchange), so the dipole has no exchange between degrees; Gronwall; RunMap with the projection on degree 1 |
| C160 | `eastWest`, `phaseDivergence` (Spec/Reversal) | reflection at a meridian plane is an orthogonal map with determinant -1 (C154, C153 for rotation); chain rule; uniqueness of solutions (C120); exchange (Lemmas/Exchange) between a mode, itself and any field vanishes |
| C161 | order of profiles, no separate definitions | stability of the sort at the poles and the two knots around a latitude (Lemmas/StableKnots); area is monotone in the field |
| C162 | `totalMomentum` (Spec/Conservation) | the flux of PV has no coefficient with m = 0, n = 1 (C159); invariant of pairs of consecutive states; Parseval |
| C163 | equatorialMomentum, tiltSq (integrals of r × wind), dampedOscillation | the flux of the dipole is that of the planet alone (C159), so the coefficient follows the scalar scheme; recurrence bounds of C148 and C147; Green and Parseval give the momentum |
| C164 | hannResponse (cosine bell times wave, summed) | Dirichlet kernels give the closed form; the roots of the Chebyshev polynomial U turn it into a product, which is monotone up to its first zero; Jordan inequality for the bound beyond |
| C165 | StationaryWave (balance of advection terms), waveOf, mercatorY | separation gives the oscillator equation; the product of amplitude and slope is monotone outside of waveguides; Sturm comparison with a sine inside; edges of guides from C149 |
| C166 | excessEnstrophy, relaxationTo, DiffusesTowards | budget of enstrophy relative to a solid-body rotation (C158), Young per mode and Gronwall; runs by convergence (C120) |
| C167 | LinearWave (linearised vorticity equation), normalMode, angularWind | Rayleigh equation for the two phases; fluxes of momentum and of squared amplitude vanish at the poles and have slopes of one sign unless the criteria hold; the code by C113 |
| C168 | `windowResponse`, `waveAlong`, `waveAcross` (Spec/FilterResponse) | waves extend to cosines on the integers in both boundary modes (uniqueness of the extensions); sines cancel by symmetry of the window; telescoping sum for the boxcar |
| C169 | `transferFunction` (Spec/FilterTransform) | shifts of sums over a period; weighted Cauchy–Schwarz inequality; sums of m consecutive values vanish, so the extension has periods m and N (2N), hence 1; converse by the removed wave of C168 |
| C170 | LinearWave, normalMode (Spec/NormalModes) | PV terms cancel in the energy budget of the mode; conversion term at most half the shear times the energy; a quantity that vanishes at both poles with slope of one sign vanishes |
| C171 | `windowResponse` (Spec/FilterResponse), sums of products | shift of sums over a period and reversal of the window; sums over the reflected period are twice the sums over the profile |

Not modelled at all: matplotlib drawing itself, the wavelet transform of pywt (a parameter of C94), float rounding beyond C101–C104, C122, C123 C133–C139, C141, C142 and C157,
installation of optional packages (import errors), `hn2016_falwa` and xarray internals beyond what `io.py` reads from a dataset.

## Modules of the model

| module | code |
|---|---|
| Grid, GridReal, Region, Mean | `grid.py`: Grid, GridRegion, gridpoint_area, mean |
| Derivative, Quad, Zonalize, Interp1d, Spectral | `grid.py`: derivative_meridional, quad, equivalent_latitude, zonalize, interp_meridional, spectral operators |
| State, StateList, Sequence, Protocol, World | `state.py`: values, caches, sequences, attribute lookup; World is the mutable version that C33, C51 and C56 compare with |
| Run, Rhs, Init | `model.py`, `rhs.py`, `init.py` |
| Falwa, Fourier, Hann, Filter, FloatX, Waveguide, Dominant, Wavelet | `diagnostics.py` |
| Io | `io.py` |
| Binary64, Binary64Run, Binary64Zonalize, Binary64Falwa, Binary64Mean, Binary64Derivative, Binary64Trapz, Binary64State, Binary64Geometry | rounded versions of grid sizes, coordinates, boxcounting, equivalent latitudes, interpolation, means, filters, meridional derivatives and quadrature (`grid.py`), wave activity (`diagnostics.py`), times (`model.py`), states, forcings and initial conditions (`state.py`, `rhs.py`, `init.py`) |
| Missing | quadrature, means, zonalization, interpolation and local wave activity of fields with NaN (`grid.py`, `diagnostics.py`) |
| MissingDiag | derivatives, stationary and dominant wavenumber, envelope of fields with NaN (`grid.py`, `diagnostics.py`) |
| MissingRun | states, forcing terms and runs with NaN (`state.py`, `model.py`, `rhs.py`) |
| Binary32, Binary32Run | rounded versions of `solve_diffusion_spectral` (`grid.py`) and of steps of `run` (`model.py`) with complex64 arrays |
| Figures | `summary`, `wave_activity`, `rwp_diagnostics`, `waveguides` of `plot.py`: the data handed over to matplotlib |
| Hn2016 | `State.from_hn2016` of `state.py` without a grid, `constants.py`, also in double precision |
| Memory | all places that write into arrays (`grid.py`, `diagnostics.py`, `model.py`), states and time steps with arrays as references to memory buffers |
| Plot, Repr | `plot.py`, `formatting.py`, string representations |
