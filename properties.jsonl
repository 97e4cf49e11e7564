{"id": "C01", "title": "Grid coordinates are a proper global lon-lat grid", "statement": "For every resolution that Grid accepts, lat has nlat entries that start at exactly 90, end at exactly -90 and decrease strictly and uniformly; lon has nlon entries that start at 0, increase strictly and uniformly and stay below 360, and closing the circle from the last longitude back to 360 takes exactly one more spacing (0 degrees is not repeated).", "quantifier": "all real resolutions > 0 that give at least the minimal grid", "why_tests_cant": "resolution is a real number; tests sample five of them", "anchors": ["src/barotropic/grid.py:Grid.__init__"]}
{"id": "C02", "title": "Declared grid spacing equals actual spacing", "statement": "grid.dlon / grid.dlat (and dlam / dphi) equal the difference between neighbouring longitudes / latitudes.", "quantifier": "all accepted resolutions", "why_tests_cant": "holds on every resolution the tests use (divisors of 180) and fails between them", "anchors": ["src/barotropic/grid.py:Grid.__init__"]}
{"id": "C03", "title": "Grid equality is an equivalence compatible with hash", "statement": "Grid equality is reflexive, symmetric and transitive, equal grids have equal hashes, and equal grids produce equal results from the spacing-dependent operators (quad, gridpoint_area, derivative_meridional).", "quantifier": "all pairs and triples of grids", "why_tests_cant": "isclose-based equality only misbehaves on near-identical parameters nobody writes in a test", "anchors": ["src/barotropic/grid.py:Grid.__eq__", "src/barotropic/grid.py:Grid.__hash__"]}
{"id": "C04", "title": "Coriolis parameter and circumference", "statement": "coriolis(lat) is odd in latitude, vanishes at the equator, is strictly increasing from -2*omega at the South Pole to 2*omega at the North Pole (omega>0); circumference(lat) is even, non-negative on [-90,90], zero at the poles and maximal (2*pi*r) at the equator.", "quantifier": "all latitudes, all omega>0 and rsphere>0", "why_tests_cant": "continuum of latitudes", "anchors": ["src/barotropic/grid.py:Grid.coriolis", "src/barotropic/grid.py:Grid.circumference"]}
{"id": "C05", "title": "Latitude selection is exactly the closed range", "statement": "grid.region[:,a:b] contains exactly the grid latitudes between min(a,b) and max(a,b) (both inclusive), each once and ordered north to south; an omitted bound is unbounded; swapping a and b changes nothing; 'N' and 'S' select the closed hemispheres.", "quantifier": "all grids, all real bounds or None", "why_tests_cant": "unbounded family of bounds and grids, boundary inclusivity", "anchors": ["src/barotropic/grid.py:GridRegionIndexer._get_lat_indices"]}
{"id": "C06", "title": "Longitude selection is exactly the (possibly wrapping) closed arc, in eastward order", "statement": "grid.region[a:b] contains exactly the grid longitudes in [a,b] if a<=b, and exactly those >=a or <=b if b<a, each once; in the wrapping case all longitudes >=a come first (increasing) followed by all longitudes <=b (increasing).", "quantifier": "all grids, all real bounds or None", "why_tests_cant": "every bound combination, including off-grid and out-of-range bounds", "anchors": ["src/barotropic/grid.py:GridRegionIndexer._get_lon_indices"]}
{"id": "C07", "title": "Region mask, shape, coordinates and extraction agree", "statement": "For every selection made through grid.region: the mask is True exactly at the selected latitude/longitude pairs, the number of True cells is the product of the region shape, extract(f)[i,j] is f at (region.lat[i], region.lon[j]), extract applied to lat2/lon2/lat/lon reproduces the region coordinates, and the sanity assertions of GridRegion never fail.", "quantifier": "all grids, selections and fields", "why_tests_cant": "all selections", "anchors": ["src/barotropic/grid.py:GridRegion.extract", "src/barotropic/grid.py:GridRegion.mask", "src/barotropic/grid.py:GridRegion.shape", "src/barotropic/grid.py:GridRegion._extract_one"]}
{"id": "C08", "title": "lon_mono is strictly increasing and equal to lon modulo 360", "statement": "For every selection made through grid.region, lon_mono never trips its assertion, is strictly increasing, spans less than 360 degrees and differs from lon elementwise by 0 or exactly 360 degrees; grid.lon is not modified.", "quantifier": "all grids and longitude selections", "why_tests_cant": "the single-jump assertion must hold for every selection", "anchors": ["src/barotropic/grid.py:GridRegion.lon_mono"]}
{"id": "C09", "title": "Scalar and malformed selections", "statement": "A numeric selection succeeds iff exactly one grid coordinate is within isclose tolerance and then yields exactly that one; every selection that is neither numeric, nor 'N'/'S' for latitude, nor a step-less slice with numeric-or-None bounds raises IndexError, as do selections with a number of dimensions other than one or two; no other selection raises.", "quantifier": "all selections", "why_tests_cant": "open-ended input domain of a dynamically typed API", "anchors": ["src/barotropic/grid.py:GridRegionIndexer.__getitem__", "src/barotropic/grid.py:GridRegionIndexer._get_lat_indices", "src/barotropic/grid.py:GridRegionIndexer._get_lon_indices"]}
{"id": "C10", "title": "Gridpoint areas tile the sphere", "statement": "gridpoint_area is positive at every latitude, symmetric about the equator, and nlon * sum(gridpoint_area) = 4*pi*r^2.", "quantifier": "all grids", "why_tests_cant": "true for the tested resolutions; the general identity needs the telescoping argument and fails when dlon is not the true spacing", "anchors": ["src/barotropic/grid.py:Grid.gridpoint_area"]}
{"id": "C11", "title": "Area-weighted mean is a mean", "statement": "Grid.mean is linear, reproduces constants, lies between the minimum and maximum of the (region of the) field, is unchanged by zonal rotation of the field, and the global mean equals the area-weighted mean of the zonal means as well as the zonal mean of the meridional means.", "quantifier": "all grids, fields and non-empty regions", "why_tests_cant": "all fields", "anchors": ["src/barotropic/grid.py:Grid.mean", "src/barotropic/grid.py:GridRegion.mean"]}
{"id": "C12", "title": "Regional mean accepts extracted and unextracted fields alike", "statement": "For every region, mean(field, axis, region) gives the same result whether field is given on the full grid or was already extracted with region.extract.", "quantifier": "all regions, fields and axis arguments", "why_tests_cant": "only regions that wrap and cover the full grid expose the ambiguity", "anchors": ["src/barotropic/grid.py:Grid.mean"]}
{"id": "C13", "title": "Meridional derivative is exact on low-degree polynomials", "statement": "derivative_meridional(order=2) is exact for every polynomial in latitude of degree <=2 and order=4 for degree <=4, at every interior latitude and, for 2D input, at the poles too (on grids whose dphi is the true spacing).", "quantifier": "all polynomials of the given degree, all grid sizes", "why_tests_cant": "stencil coefficients must be right in every row; tests check one linear function", "anchors": ["src/barotropic/grid.py:Grid.derivative_meridional"]}
{"id": "C14", "title": "Meridional derivative: structure and errors", "statement": "The derivative is linear, acts on each meridian independently, changes sign when the field is flipped north-south, vanishes for constants, is zero at the poles for 1D input; orders other than 2, 4 (or None, meaning 4) raise NotImplementedError, too few latitudes or more than two dimensions raise AssertionError.", "quantifier": "all fields and grid sizes", "why_tests_cant": "all fields", "anchors": ["src/barotropic/grid.py:Grid.derivative_meridional"]}
{"id": "C15", "title": "sptrapz quadrature is the exact integral of the linear interpolants", "statement": "quad_meridional(y, z, 'sptrapz') equals, on each meridian, r times the integral over the latitudes where the piecewise-linear interpolant of z is >= 0 of the piecewise-linear interpolant of y times cos(phi).", "quantifier": "all fields y, z on all grids", "why_tests_cant": "infinitely many fields; sign-change handling has many cases", "anchors": ["src/barotropic/grid.py:Grid.quad_meridional"]}
{"id": "C16", "title": "Quadrature of one is the area of the sphere", "statement": "quad(ones) = 4*pi*r^2 for both methods.", "quantifier": "all grids", "why_tests_cant": "tests sample five resolutions, all of which divide 180", "anchors": ["src/barotropic/grid.py:Grid.quad", "src/barotropic/grid.py:Grid.quad_meridional"]}
{"id": "C17", "title": "Quadrature is linear, positive and monotone in the domain", "statement": "For both methods quad is linear in y; if y>=0 the result is >=0 and does not decrease when z increases; z=None is the same as any everywhere non-negative z; if no z-value is exactly zero, the integrals over z>=0 and -z>=0 add up to the full integral.", "quantifier": "all fields", "why_tests_cant": "all sign patterns", "anchors": ["src/barotropic/grid.py:Grid.quad", "src/barotropic/grid.py:Grid.quad_meridional"]}
{"id": "C18", "title": "Quadrature input checking", "statement": "quad_meridional raises AssertionError for non-2D input or a wrong number of latitudes, ValueError for an unknown method, and otherwise returns one value per column, each depending only on that column.", "quantifier": "all shapes and method strings", "why_tests_cant": "all shapes", "anchors": ["src/barotropic/grid.py:Grid.quad_meridional"]}
{"id": "C19", "title": "Equivalent latitude inverts the polar cap area", "statement": "equivalent_latitude maps the area 2*pi*r^2*(1-sin(phi)) back to phi, is decreasing in area, always in [-90,90], and saturates at the poles for areas <=0 and >=4*pi*r^2.", "quantifier": "all areas and radii", "why_tests_cant": "continuum", "anchors": ["src/barotropic/grid.py:Grid.equivalent_latitude"]}
{"id": "C20", "title": "Zonalization contours are ordered", "statement": "In the non-interpolated output (q, y) of zonalize, larger contour values never have smaller equivalent latitude, all y lie in [-90,90], a contour at or below the minimum maps to the South Pole and one above the maximum to the North Pole (on grids whose dlon is the true spacing).", "quantifier": "all fields, contour values and both quadratures", "why_tests_cant": "all fields", "anchors": ["src/barotropic/grid.py:Grid.zonalize", "src/barotropic/grid.py:Grid.equivalent_latitude", "src/barotropic/grid.py:Grid.quad"]}
{"id": "C21", "title": "Interpolated zonalization is monotone and bounded", "statement": "The interpolated zonalized profile decreases (weakly) from north to south, lies between the minimum and maximum of the field, and starts with the maximum and ends with the minimum.", "quantifier": "all fields and level numbers", "why_tests_cant": "all fields", "anchors": ["src/barotropic/grid.py:Grid.zonalize", "src/barotropic/grid.py:Grid.interpolate_meridional"]}
{"id": "C22", "title": "Zonalization ignores where along a latitude circle the values are", "statement": "Permuting the longitudes of the field (in particular a zonal rotation) does not change the zonalized profile; duplicating a sector does not change it either.", "quantifier": "all fields and permutations", "why_tests_cant": "all fields", "anchors": ["src/barotropic/grid.py:Grid.zonalize"]}
{"id": "C23", "title": "Zonalization reproduces zonally symmetric, northward-increasing profiles", "statement": "If the field is independent of longitude and strictly decreasing from the North to the South Pole then with sptrapz every contour's equivalent latitude is the latitude where the linearly interpolated profile takes the contour value.", "quantifier": "all such profiles and contour values", "why_tests_cant": "all profiles", "anchors": ["src/barotropic/grid.py:Grid.zonalize"]}
{"id": "C24", "title": "FALWA is non-negative", "statement": "falwa is >= 0 at every gridpoint for every PV field, for both quadratures, with and without interpolation.", "quantifier": "all PV fields and levels", "why_tests_cant": "an inequality over all fields", "anchors": ["src/barotropic/diagnostics.py:falwa"]}
{"id": "C25", "title": "FALWA vanishes for undisturbed flow", "statement": "If PV is zonally symmetric and strictly decreasing from north to south, falwa (sptrapz) is zero everywhere.", "quantifier": "all such PV profiles", "why_tests_cant": "all profiles", "anchors": ["src/barotropic/diagnostics.py:falwa"]}
{"id": "C26", "title": "FAWA is the zonal mean of FALWA however it is obtained", "statement": "State.fawa, diagnostics.fawa(state) and the zonal mean of diagnostics.falwa(state) agree, interpolated or not; FAWA is non-negative.", "quantifier": "all states", "why_tests_cant": "relies on interpolation commuting with zonal averaging for every field", "anchors": ["src/barotropic/diagnostics.py:fawa", "src/barotropic/diagnostics.py:falwa", "src/barotropic/state.py:State.fawa"]}
{"id": "C27", "title": "FALWA commutes with zonal rotation", "statement": "Rotating the PV field in longitude rotates falwa by the same amount and leaves fawa unchanged.", "quantifier": "all PV fields and rotations", "why_tests_cant": "all fields", "anchors": ["src/barotropic/diagnostics.py:falwa", "src/barotropic/diagnostics.py:fawa"]}
{"id": "C28", "title": "Poisson solver inverts the Laplacian", "statement": "solve_poisson_spectral(rhs, a) returns f with zero global mean and (laplace - a) f = rhs in every non-constant mode (a >= 0); laplace_spectral(solve_poisson_spectral(g)) = g for every g without constant mode and solve_poisson_spectral(laplace_spectral(f)) recovers f up to its mean.", "quantifier": "all spectral fields, all a>=0", "why_tests_cant": "all fields, all truncations", "anchors": ["src/barotropic/grid.py:Grid.laplace_spectral", "src/barotropic/grid.py:Grid.solve_poisson_spectral"]}
{"id": "C29", "title": "Diffusion step is an unconditionally stable implicit Euler step", "statement": "solve_diffusion_spectral returns f' with f' = f + dt * coeff * (-1)^(order+1) laplace^order f' in every mode, never amplifies any mode for any dt, coeff >= 0, damps smaller scales at least as strongly, and for order>=1 leaves the global mean unchanged.", "quantifier": "all fields, dt, coefficients and orders", "why_tests_cant": "stability for every time step", "anchors": ["src/barotropic/grid.py:Grid.solve_diffusion_spectral"]}
{"id": "C30", "title": "Gridded operators are consistent with the spectral ones", "statement": "laplace, solve_poisson, solve_diffusion, vorticity, divergence on grids equal transform-operate-transform back, are linear, and (given a transform that round-trips) successive application composes without loss; solve_poisson(laplace(f)) = f - mean mode.", "quantifier": "all fields; every linear transform pair with the round-trip law", "why_tests_cant": "all fields", "anchors": ["src/barotropic/grid.py:Grid.laplace", "src/barotropic/grid.py:Grid.solve_poisson", "src/barotropic/grid.py:Grid.solve_diffusion", "src/barotropic/grid.py:Grid.vorticity", "src/barotropic/grid.py:Grid.divergence"]}
{"id": "C31", "title": "vorticity_divergence returns both fields", "statement": "Grid.vorticity_divergence(u,v) returns (vorticity(u,v), divergence(u,v)).", "quantifier": "all u, v", "why_tests_cant": "the method is never called by a test", "anchors": ["src/barotropic/grid.py:Grid.vorticity_divergence"]}
{"id": "C32", "title": "State construction is idempotent and representation-consistent", "statement": "A State built from pv, from pv_spectral, or from another state's pv has mutually consistent pv and pv_spectral: State(grid,t,pv=s.pv) has the same pv, pv_spectral, u, v, streamfunction as s; giving both pv and pv_spectral raises AssertionError.", "quantifier": "all fields", "why_tests_cant": "all fields", "anchors": ["src/barotropic/state.py:State.__init__", "src/barotropic/state.py:State.pv", "src/barotropic/state.py:State.pv_spectral"]}
{"id": "C33", "title": "Lazily cached properties are transparent", "statement": "Whatever properties of a State are read, in whatever order and how often, every read returns the value that a fresh uncached evaluation returns.", "quantifier": "all finite sequences of property reads", "why_tests_cant": "all access histories", "anchors": ["src/barotropic/state.py:State.pv", "src/barotropic/state.py:State.u", "src/barotropic/state.py:State.v", "src/barotropic/state.py:State.streamfunction", "src/barotropic/state.py:_cached_property"]}
{"id": "C34", "title": "Constructors agree", "statement": "For the (band-limited) flow of any state s: from_wind(grid,t,s.u,s.v), from_vorticity(grid,t,s.vorticity) and State(grid,t,pv=s.pv) all give a state with the PV, vorticity and wind of s.", "quantifier": "all states", "why_tests_cant": "tests check three fields", "anchors": ["src/barotropic/state.py:State.from_wind", "src/barotropic/state.py:State.from_vorticity"]}
{"id": "C35", "title": "Vorticity addition", "statement": "s1.add_vorticity(s2) has relative vorticity s1.vorticity+s2.vorticity (planetary vorticity counted once), time of s1, is commutative up to time, associative, and the motionless state is neutral; with an array argument the array is added; different grid objects or shapes raise AssertionError.", "quantifier": "all states and arrays", "why_tests_cant": "all states", "anchors": ["src/barotropic/state.py:State.add_vorticity"]}
{"id": "C36", "title": "Wind addition", "statement": "s.add_wind(other) is a state whose wind is the sum of the wind of s and the other wind, for a State argument as well as for a (u,v) tuple.", "quantifier": "all states, all wind tuples", "why_tests_cant": "add_wind is not covered by tests", "anchors": ["src/barotropic/state.py:State.add_wind"]}
{"id": "C37", "title": "falwa/hn2016 conversion round-trips", "statement": "from_hn2016(grid, t, s.as_hn2016()) has the PV of s, and the exported field's latitudes run south to north with matching rows; mismatching dimensions raise AssertionError.", "quantifier": "all states", "why_tests_cant": "optional dependency, never tested", "anchors": ["src/barotropic/state.py:State.as_hn2016", "src/barotropic/state.py:State.from_hn2016"]}
{"id": "C38", "title": "Energy and enstrophy diagnostics", "statement": "energy, enstrophy and eddy_enstrophy are non-negative; eddy_enstrophy is zero iff PV is zonally symmetric; the zonal mean of eddy_enstrophy equals zonal-mean enstrophy minus half the squared zonal-mean PV.", "quantifier": "all states", "why_tests_cant": "all fields", "anchors": ["src/barotropic/state.py:State.enstrophy", "src/barotropic/state.py:State.eddy_enstrophy", "src/barotropic/state.py:State.energy"]}
{"id": "C39", "title": "StateList construction invariant", "statement": "StateList(xs) succeeds iff all elements are States and every grid equals the first one's; a non-State raises TypeError, a grid mismatch AssertionError (whichever comes first); on success it has the same elements in the same order, and every StateList obtained by construction, concatenation, run or map satisfies the invariant.", "quantifier": "all sequences and all construction histories", "why_tests_cant": "all sequences", "anchors": ["src/barotropic/state.py:StateList.__init__", "src/barotropic/state.py:StateList.__add__"]}
{"id": "C40", "title": "StateList broadcasting preserves order and length", "statement": "Attribute access, method access and map on a StateList return one result per state in state order, equal to applying the accessor to each state; the container is an ndarray iff all results are arrays or all numbers, a StateList iff all are States, a list otherwise.", "quantifier": "all StateLists and accessors", "why_tests_cant": "all sequences incl. the empty one", "anchors": ["src/barotropic/state.py:StateList.__getattr__", "src/barotropic/state.py:StateList.map", "src/barotropic/state.py:_convert_sequence"]}
{"id": "C41", "title": "StateList.run is pointwise", "statement": "StateList.run returns the final states in order and the list of simulation outputs in order, each equal to running the model on that state alone.", "quantifier": "all StateLists and models", "why_tests_cant": "all lists", "anchors": ["src/barotropic/state.py:StateList.run", "src/barotropic/model.py:BarotropicModel.run"]}
{"id": "C42", "title": "run terminates and stops at the first step at or beyond tend", "statement": "For dt>0, run terminates; the final state's time is t0+n*dt for the least n>=0 with t0+n*dt >= tend; if tend < t0 the initial state is returned unchanged.", "quantifier": "all t0, tend and dt", "why_tests_cant": "loop termination for every real input", "anchors": ["src/barotropic/model.py:BarotropicModel.run"]}
{"id": "C43", "title": "Intermediate states are saved once per save interval", "statement": "The saved states start with the initial state, are in strictly increasing time order, are states of the integration, with save_every<=0 contain nothing else, and with save_every>=dt contain exactly the first state at or after each multiple of save_every after the initial time that is reached.", "quantifier": "all t0, tend, dt, save_every", "why_tests_cant": "depends on relation of t0, dt and save_every", "anchors": ["src/barotropic/model.py:BarotropicModel.run"]}
{"id": "C44", "title": "Every step advances time by exactly dt", "statement": "All states visited by run are exactly dt apart; euler and leapfrog produce states on the grid of their input.", "quantifier": "all runs", "why_tests_cant": "all step counts", "anchors": ["src/barotropic/model.py:BarotropicModel.euler", "src/barotropic/model.py:BarotropicModel.leapfrog"]}
{"id": "C45", "title": "Numeric and datetime time axes are interchangeable", "statement": "Running with datetime times and a timedelta step produces the same sequence of fields as running with times in seconds and a numeric step; mixing them raises TypeError.", "quantifier": "all start times, steps and end times", "why_tests_cant": "all combinations", "anchors": ["src/barotropic/model.py:BarotropicModel.run", "src/barotropic/model.py:_to_seconds"]}
{"id": "C46", "title": "Global mean PV is conserved without forcing", "statement": "In an unforced model (rhs None) with diffusion order>=1 and any coefficient, the constant spectral mode of every state of a run (initial, saved, final) is that of the initial state, with or without diffusion background.", "quantifier": "all initial states and run lengths", "why_tests_cant": "all histories", "anchors": ["src/barotropic/model.py:BarotropicModel.run"]}
{"id": "C47", "title": "A resting atmosphere stays at rest", "statement": "Running the unforced model from init.motionless yields zero wind at all times.", "quantifier": "all grids, run lengths and diffusion settings", "why_tests_cant": "depends on diffusion settings; default run is never checked for drift", "anchors": ["src/barotropic/model.py:BarotropicModel.run", "src/barotropic/init.py:motionless"]}
{"id": "C48", "title": "The model preserves zonal symmetry", "statement": "If the initial PV is zonally symmetric and the forcing is None or zonally symmetric, every state of the run is zonally symmetric.", "quantifier": "all zonally symmetric states, all run lengths", "why_tests_cant": "all histories", "anchors": ["src/barotropic/model.py:BarotropicModel.run"]}
{"id": "C49", "title": "Diffusion background is a fixed point", "statement": "With diffusion_bg, the diffusion step leaves the background field itself unchanged and contracts the anomaly from the background in every mode; diffusion_bg=None equals a zero background.", "quantifier": "all fields, dt, coefficients", "why_tests_cant": "all fields", "anchors": ["src/barotropic/model.py:BarotropicModel._apply_diffusion"]}
{"id": "C50", "title": "Robert-Asselin filter", "statement": "leapfrog's filtered current state is a weighted mean (weights sum to one) of old, current and new state; it leaves the current state unchanged iff the three states are collinear in time, damps the 2dt computational mode by the factor 1-4*filter_parameter and filter_parameter=0 disables it; the new state does not depend on the filter parameter.", "quantifier": "all states and filter parameters", "why_tests_cant": "all states", "anchors": ["src/barotropic/model.py:BarotropicModel.leapfrog"]}
{"id": "C51", "title": "Models and states are not modified by running", "statement": "Runs are repeatable: for any sequence of runs, property reads and forcing evaluations with shared models, states, grids and forcing objects, every run returns the fields it would return in isolation.", "quantifier": "all interleavings of operations", "why_tests_cant": "all histories", "anchors": ["src/barotropic/model.py:BarotropicModel", "src/barotropic/state.py:State", "src/barotropic/rhs.py:Orography._orography_gradient"]}
{"id": "C52", "title": "RHS terms combine pointwise", "statement": "(a+b)(state) = a(state)+b(state), (a*b)(state) = a(state)*b(state) for all nested sums and products of terms; addition and multiplication are commutative, associative and distributive in effect on the model.", "quantifier": "all RHS expression trees and states", "why_tests_cant": "all expression trees", "anchors": ["src/barotropic/rhs.py:RHS", "src/barotropic/rhs.py:_RHSSum", "src/barotropic/rhs.py:_RHSProduct"]}
{"id": "C53", "title": "RHS terms can be scaled by numbers", "statement": "number*term and term*number evaluate to the scaled forcing.", "quantifier": "all numbers and terms", "why_tests_cant": "the operators accept numbers at construction, the failure is at evaluation", "anchors": ["src/barotropic/rhs.py:RHS.__rmul__", "src/barotropic/rhs.py:_RHSProduct"]}
{"id": "C54", "title": "TimedOffSwitch", "statement": "switch*forcing equals the forcing at all times <= tend and is zero at all later times; once off it stays off, and a model step after switch-off equals that of the unforced model.", "quantifier": "all times", "why_tests_cant": "continuum of times", "anchors": ["src/barotropic/rhs.py:TimedOffSwitch"]}
{"id": "C55", "title": "LinearRelaxation", "statement": "The relaxation forcing is zero iff pv equals the reference (rate != 0), always points towards the reference, and an Euler step with 0<=rate*dt<=1 never increases the distance to the reference at any gridpoint.", "quantifier": "all PV fields, rates and steps", "why_tests_cant": "all fields", "anchors": ["src/barotropic/rhs.py:LinearRelaxation"]}
{"id": "C56", "title": "Orography gradient cache is transparent", "statement": "For any sequence of evaluations of any number of orographic forcing terms on any number of grids, the cached orography gradient equals the gradient that would be computed afresh for that term and grid.", "quantifier": "all evaluation histories", "why_tests_cant": "cache eviction and cross-instance sharing, equality-based keys", "anchors": ["src/barotropic/rhs.py:Orography._orography_gradient", "src/barotropic/grid.py:Grid.__eq__", "src/barotropic/grid.py:Grid.__hash__"]}
{"id": "C57", "title": "Gridded orography interpolation", "statement": "Orography.orography(grid) is bounded by the minimum and maximum of the given orography, reproduces it exactly at coinciding gridpoints, preserves constants, and is independent of the order in which dimensions are interpolated.", "quantifier": "all orographies with increasing lon and decreasing lat, all grids", "why_tests_cant": "all inputs", "anchors": ["src/barotropic/rhs.py:Orography.orography"]}
{"id": "C58", "title": "Analytic mountains", "statement": "GaussianMountain and ZonalSineMountains heights lie in [0,height], the maximum is attained at the centre, the sine mountains are periodic in longitude, and mountains are invariant under shifting the centre longitude by 360 degrees.", "quantifier": "all parameters", "why_tests_cant": "continuum; default centre is away from 0E", "anchors": ["src/barotropic/rhs.py:GaussianMountain.orography", "src/barotropic/rhs.py:ZonalSineMountains.orography"]}
{"id": "C59", "title": "Orographic forcing", "statement": "The forcing is -f/H u.grad(h) with the selected wind option: linear in orography and in the wind factor, zero for flat orography and at rest ('act','zon'), state-independent for 'sbr'; unknown wind options raise ValueError.", "quantifier": "all states, orographies and options", "why_tests_cant": "all states", "anchors": ["src/barotropic/rhs.py:Orography.__call__", "src/barotropic/rhs.py:Orography.__init__"]}
{"id": "C60", "title": "Initial conditions", "statement": "gaussian_jet, held_1985 and solid_body_rotation prescribe a zonally symmetric zonal wind that vanishes at both poles and no meridional wind; zonally_symmetric replicates the profile along every latitude circle; exactly one of u and pv must be given (else ValueError) and a wrong size raises AssertionError.", "quantifier": "all grids and parameters", "why_tests_cant": "all parameters", "anchors": ["src/barotropic/init.py:zonally_symmetric", "src/barotropic/init.py:gaussian_jet", "src/barotropic/init.py:held_1985", "src/barotropic/init.py:solid_body_rotation", "src/barotropic/init.py:motionless"]}
{"id": "C61", "title": "Zonal Fourier band-pass is a projection", "statement": "Restricting the zonal spectrum to kmin..kmax preserves the field shape, is linear, idempotent, commutes with zonal rotation, leaves waves inside the band unchanged and removes waves outside.", "quantifier": "all fields and bands", "why_tests_cant": "all fields", "anchors": ["src/barotropic/diagnostics.py:_restrict_fourier_zonal"]}
{"id": "C62", "title": "dominant_wavenumber_fourier finds the wavenumber of a pure wave", "statement": "For a field A*cos(k*lambda - phase) with k inside wavenumber_range, dominant_wavenumber_fourier (smooth=None) returns k at every latitude; in general it returns the wavenumber in the range with maximal power.", "quantifier": "all waves, ranges, fields", "why_tests_cant": "the tests never call it", "anchors": ["src/barotropic/diagnostics.py:dominant_wavenumber_fourier"]}
{"id": "C63", "title": "Wavenumber-dependent Hann filter", "statement": "filter_by_wavenumber is linear, reproduces constants, its output lies between the zonal minimum and maximum, commutes with zonal rotation of field and wavenumber, preserves the zonal mean for 1D wavenumbers, and every window index is in range for every wavenumber (including zero, negative and huge ones).", "quantifier": "all fields and wavenumber fields", "why_tests_cant": "index arithmetic for every wavenumber", "anchors": ["src/barotropic/diagnostics.py:filter_by_wavenumber"]}
{"id": "C64", "title": "Hilbert envelope", "statement": "envelope_hilbert is non-negative, at least the magnitude of the band-passed field, commutes with zonal rotation, and equals |A| everywhere for a pure wave A*cos(k*lambda - phase) with k in the band (and not 0 or Nyquist).", "quantifier": "all fields and bands", "why_tests_cant": "all fields", "anchors": ["src/barotropic/diagnostics.py:envelope_hilbert"]}
{"id": "C65", "title": "Stationary wavenumber variants are consistent", "statement": "The 'real' variant is the signed square root of the 'squared' variant (order preserving, sign preserving) and equals Re-Im of the 'complex' variant; where |u| <= min_u the result is +-infinity with the sign of the PV gradient (or 0 if that is 0), elsewhere finite with sign of gradient/u; invalid kind raises ValueError.", "quantifier": "all profiles", "why_tests_cant": "infinities and signs", "anchors": ["src/barotropic/diagnostics.py:stationary_wavenumber"]}
{"id": "C66", "title": "Waveguide extraction is sound and complete on the grid", "statement": "extract_ks_waveguides returns intervals ordered from north to south, disjoint, within [-90,90], with start >= end, that contain every grid latitude with Ks > k and no grid latitude with Ks < k; boundaries are the linear-interpolation crossing points; with infinite Ks values boundaries are still numbers.", "quantifier": "all Ks profiles incl. infinite values, all k", "why_tests_cant": "scan with state and infinities", "anchors": ["src/barotropic/diagnostics.py:extract_ks_waveguides"]}
{"id": "C67", "title": "Filter windows are odd and normalized", "statement": "get_filter_window always yields an odd number of points, at least one, namely the rounded number of gridpoints or the next larger odd number, and the weights sum to 1.", "quantifier": "all widths >= 0 and windows with non-zero sum", "why_tests_cant": "rounding", "anchors": ["src/barotropic/grid.py:Grid.get_filter_window"]}
{"id": "C68", "title": "Meridional and zonal filtering", "statement": "With a normalized window, filtering is linear, reproduces constants, for non-negative windows stays between min and max; zonal filtering preserves the zonal mean and commutes with rotation; meridional filtering with a symmetric window preserves the meridional sum and commutes with north-south reflection, even if the window is longer than the field; wrong sizes raise AssertionError and other dimensionalities ValueError.", "quantifier": "all fields and windows", "why_tests_cant": "boundary handling for every window length", "anchors": ["src/barotropic/grid.py:Grid.filter_meridional", "src/barotropic/grid.py:Grid.filter_zonal"]}
{"id": "C69", "title": "as_dataset labels every dimension correctly", "statement": "Every exported field has the concat dimension first and carries latitude/longitude labels that match the lengths of its axes; fields with other shapes raise NotImplementedError; an empty collection gives an empty dataset; a single state is exported like a one-element list; concat_dim falls back to 0..n-1.", "quantifier": "all StateLists and field selections", "why_tests_cant": "dimension inference for every shape", "anchors": ["src/barotropic/io.py:as_dataset"]}
{"id": "C70", "title": "from_dataset only accepts global regular grids that match the constructed Grid", "statement": "If from_dataset accepts the coordinates then the Grid it creates has the dataset's number of longitudes and latitudes and its coordinates (up to tolerance); decreasing/irregular/partial coordinates raise.", "quantifier": "all coordinate arrays", "why_tests_cant": "acceptance logic over all coordinate arrays", "anchors": ["src/barotropic/io.py:from_dataset", "src/barotropic/grid.py:Grid.__init__"]}
{"id": "C71", "title": "from_dataset picks variables by documented priority", "statement": "Wind is used if both components are present, else relative vorticity, else absolute vorticity, else ValueError; explicit names override detection; among detected names the first in the documented list wins.", "quantifier": "all sets of variable names and overrides", "why_tests_cant": "all subsets", "anchors": ["src/barotropic/io.py:from_dataset", "src/barotropic/io.py:_select_var"]}
{"id": "C72", "title": "from_dataset enumerates all fields once, in order, with the right time", "statement": "The StateList contains exactly one state per combination of the non-lat/lon coordinates, in row-major order, each built from the matching u and v (or vo/avo) slice and carrying its time coordinate or time_fill.", "quantifier": "all shapes of leading dimensions", "why_tests_cant": "all dimensions", "anchors": ["src/barotropic/io.py:from_dataset"]}
{"id": "C73", "title": "Dataset round-trip", "statement": "from_dataset(as_dataset(states)) gives states with the same fields and times in the same order.", "quantifier": "all non-empty StateLists on regular grids", "why_tests_cant": "all lists", "anchors": ["src/barotropic/io.py:as_dataset", "src/barotropic/io.py:from_dataset"]}
{"id": "C74", "title": "roll_lon centres and labels consistently", "statement": "After applying the roll, the column shown at the middle is the grid meridian closest to the requested centre (on the circle), and the label of every column is the true longitude of the data shown there modulo 360.", "quantifier": "all grids and centre longitudes", "why_tests_cant": "modular arithmetic over all centres", "anchors": ["src/barotropic/plot.py:roll_lon", "src/barotropic/plot.py:configure_lon_x"]}
{"id": "C75", "title": "symmetric_levels", "statement": "The levels are strictly increasing, symmetric around zero, there are n of them, and without override they cover the whole range of the field.", "quantifier": "all fields and n", "why_tests_cant": "all fields", "anchors": ["src/barotropic/plot.py:symmetric_levels"]}
{"id": "C76", "title": "reduce_vectors keeps approximately ny rows", "statement": "reduce_vectors applies the same slice to all four arrays, keeps at least min(ny, nlat) and fewer than 2*ny+1 rows... and the kept points are evenly spaced.", "quantifier": "all grid sizes and ny>=1", "why_tests_cant": "all sizes", "anchors": ["src/barotropic/plot.py:reduce_vectors"]}
{"id": "C77", "title": "hovmoellerify orientation", "statement": "For zonal profiles the result has shape (ntime,nlon) with row i the profile of state i; for meridional profiles shape (nlat,ntime) with column i the profile of state i; no states or other sizes raise ValueError.", "quantifier": "all state lists and reductions", "why_tests_cant": "all lists", "anchors": ["src/barotropic/plot.py:hovmoellerify"]}
{"id": "C78", "title": "Time formatting picks a unit without changing the time", "statement": "The formatted number times the unit length is the given time, and for non-negative times the number shown never exceeds 240 unless the unit is days.", "quantifier": "all numeric times", "why_tests_cant": "continuum", "anchors": ["src/barotropic/formatting.py:format_time"]}
{"id": "C79", "title": "Wind vectors of the summary plot are drawn where they belong", "statement": "In the PV panel of plot.summary the PV field and the wind vectors are labelled with the longitudes of the gridpoints they come from, for every center_lon.", "quantifier": "all grids, states, hemispheres and centre longitudes", "why_tests_cant": "figures are compared by eye with the default centre only", "anchors": ["src/barotropic/plot.py:summary", "src/barotropic/plot.py:roll_lon", "src/barotropic/plot.py:reduce_vectors"]}
{"id": "C80", "title": "Ticks of the wavenumber axis", "statement": "The ticks of the wavenumber axis in plot.waveguides are at most 10 equidistant integers inside the axis limits, and 0 is ticked whenever it is inside the limits (comment in the code: guarantee that 0 is ticked).", "quantifier": "all axis limits and klim_bounds", "why_tests_cant": "continuum of limits", "anchors": ["src/barotropic/plot.py:waveguides"]}
{"id": "C81", "title": "Map of a region", "statement": "The map in repr(region) has 9 rows of 20 degrees of latitude and 36 columns of 10 degrees of longitude, a box is marked if and only if it contains a gridpoint of the region, and the header shows the southernmost and northernmost latitude and the first and last longitude.", "quantifier": "all grids and regions", "why_tests_cant": "all regions of all grids", "anchors": ["src/barotropic/formatting.py:grid_region_repr"]}
{"id": "C82", "title": "Contour levels of wave activity and wave packet figures", "statement": "The contour levels handed to matplotlib are strictly increasing (as matplotlib requires) and span the range of the plotted fields, for every state.", "quantifier": "all fields", "why_tests_cant": "all fields, including states at rest", "anchors": ["src/barotropic/plot.py:wave_activity", "src/barotropic/plot.py:rwp_diagnostics"]}
{"id": "C83", "title": "A StateList can be copied, deep-copied and pickled", "statement": "copy.copy, copy.deepcopy and the reconstruction step of pickle give a StateList with the same states.", "quantifier": "all state lists, all recursion limits", "why_tests_cant": "the failure comes from the attribute protocol of a half-built instance; no test copies a list", "anchors": ["src/barotropic/state.py:StateList.__getattr__"]}
{"id": "C84", "title": "Attributes that states do not have are reported as missing", "statement": "hasattr(state_list, name) is false if (and only if) some state of the list lacks the attribute; the access raises AttributeError.", "quantifier": "all state lists and attribute names", "why_tests_cant": "all names and lists, including the empty list", "anchors": ["src/barotropic/state.py:StateList.__getattr__"]}
{"id": "C85", "title": "The equation shown for a model is the one it integrates", "statement": "The diffusion term in repr(model) is the one whose implicit Euler step the model performs, for every order and coefficient; numbers in super- and subscript read as the number.", "quantifier": "all orders, coefficients, time steps and fields", "why_tests_cant": "all orders", "anchors": ["src/barotropic/formatting.py:barotropic_model_repr", "src/barotropic/formatting.py:sup", "src/barotropic/formatting.py:sub"]}
{"id": "C86", "title": "Displayed forcing expressions are unambiguous", "statement": "Two combinations of forcing terms (sums and products) with the same repr are the same expression tree.", "quantifier": "all expression trees", "why_tests_cant": "infinitely many trees", "anchors": ["src/barotropic/rhs.py:_RHSSum.__repr__", "src/barotropic/rhs.py:_RHSProduct.__repr__"]}
{"id": "C87", "title": "Latitude axis shows exactly the requested hemisphere", "statement": "The limits of the latitude axis contain a latitude iff it belongs to the requested hemisphere (both hemispheres for other arguments); the limits are increasing and within the poles.", "quantifier": "all latitudes and hemisphere arguments", "why_tests_cant": "continuum of latitudes", "anchors": ["src/barotropic/plot.py:configure_lat_y"]}
{"id": "C88", "title": "Waveguides are drawn as separate segments", "statement": "The line drawn for the waveguides consists of exactly the segments between the boundaries of each waveguide; no line connects different waveguides.", "quantifier": "all lists of waveguides", "why_tests_cant": "all numbers and positions of waveguides", "anchors": ["src/barotropic/plot.py:waveguides"]}
{"id": "C89", "title": "Units and offsets of the field in zonalization and wave activity", "statement": "Zonalization of a*f+b (a>0, contours transformed accordingly) is a times the zonalization of f plus b, with the same equivalent latitudes; FALWA and FAWA of a*pv+b are a times those of pv, for both quadratures, contoured and interpolated.", "quantifier": "all grids, fields, a>0, b, levels, methods", "why_tests_cant": "all affine changes of all fields", "anchors": ["src/barotropic/grid.py:Grid.zonalize", "src/barotropic/diagnostics.py:falwa", "src/barotropic/diagnostics.py:fawa"]}
{"id": "C90", "title": "Radius of the planet in zonalization and wave activity", "statement": "On a planet with c times the radius the zonalization of a field is the same and FALWA and FAWA are c times as large.", "quantifier": "all grids, fields, c, levels, methods", "why_tests_cant": "all radii", "anchors": ["src/barotropic/grid.py:Grid.quad_meridional", "src/barotropic/grid.py:Grid.equivalent_latitude", "src/barotropic/diagnostics.py:falwa"]}
{"id": "C91", "title": "Meridional interpolation", "statement": "interp1d_meridional is the piecewise linear interpolation through the given points (in any order) and the pole values, defined exactly between the poles; a profile or field on the latitudes of the grid is returned as it is.", "quantifier": "all profiles and fields, positions and pole values", "why_tests_cant": "continuum of positions and values; duplicates at the poles only occur for special input latitudes", "anchors": ["src/barotropic/grid.py:Grid.interp1d_meridional", "src/barotropic/grid.py:Grid.interpolate_meridional"]}
{"id": "C92", "title": "Dominant wavenumber profile", "statement": "dominant_wavenumber_fourier returns for every latitude a wavenumber inside of wavenumber_range (also after smoothing), namely that of the wave if the field is a wave; it does not depend on the amplitude and phase of the field.", "quantifier": "all fields, ranges, windows and grids", "why_tests_cant": "continuum of fields; the usual range (1, 20) makes an offset of 1 easy to miss", "anchors": ["src/barotropic/diagnostics.py:dominant_wavenumber_fourier", "src/barotropic/grid.py:Grid.filter_meridional"]}
{"id": "C93", "title": "Phase filter of wave activity", "statement": "falwa_filtered is not negative, has zonal mean FAWA, commutes with zonal rotation and removes the signal with twice the dominant wavenumber of the meridional wind.", "quantifier": "all PV and wind fields on valid grids", "why_tests_cant": "continuum of fields, NaN rows, all wavenumbers", "anchors": ["src/barotropic/state.py:State.falwa_filtered", "src/barotropic/diagnostics.py:dominant_wavenumber_fourier", "src/barotropic/diagnostics.py:filter_by_wavenumber", "src/barotropic/diagnostics.py:falwa"]}
{"id": "C94", "title": "Dominant wavenumber field from wavelets", "statement": "dominant_wavenumber_wavelet returns a field of the shape of its input whose values are wavenumbers between 0 and 20 (the field is truncated there), commutes with zonal rotation and does not depend on the amplitude.", "quantifier": "all fields, wavelets, smoothing windows and grids", "why_tests_cant": "continuum of fields; all wavelets and sizes of grids", "anchors": ["src/barotropic/diagnostics.py:dominant_wavenumber_wavelet", "src/barotropic/diagnostics.py:_restrict_fourier_zonal"]}
{"id": "C95", "title": "Rotation about the axis of the planet", "statement": "Rotating a state by whole grid columns rotates all its fields, FALWA, filtered FALWA and envelopes, leaves zonal means, zonalized PV, FAWA, stationary wavenumbers and waveguides unchanged; a run of the rotated model from the rotated state is the rotated run, so that flows that are periodic in longitude (e.g. over sine mountains) stay periodic.", "quantifier": "all grids, states, rotations, models, time steps, save intervals, lawful transforms", "why_tests_cant": "all rotations of all flows and all forcings", "anchors": ["src/barotropic/state.py:State", "src/barotropic/model.py:BarotropicModel.run", "src/barotropic/rhs.py", "src/barotropic/diagnostics.py"]}
{"id": "C96", "title": "Reflection at the equator", "statement": "The mirror image of a state has reflected u, energy, enstrophy and stationary wavenumbers and reflected v, PV, vorticity and streamfunction of opposite sign; a run of the mirrored model from the mirrored state is the mirrored run, so that flows with symmetric hemispheres stay symmetric; mountains at opposite latitudes are mirror images.", "quantifier": "all grids, states, models, time steps, save intervals, lawful and reflection symmetric transforms", "why_tests_cant": "all flows and all forcings", "anchors": ["src/barotropic/state.py:State", "src/barotropic/model.py:BarotropicModel.run", "src/barotropic/rhs.py", "src/barotropic/diagnostics.py:stationary_wavenumber"]}
{"id": "C97", "title": "Origin of the time axis", "statement": "A run from a later time of a model whose forcing is later by the same amount gives the same states at later times.", "quantifier": "all models, states, shifts of number or datetime times, time steps, end times, save intervals", "why_tests_cant": "all shifts; the misbehaviour only occurs for runs that do not start at time 0", "anchors": ["src/barotropic/model.py:BarotropicModel.run", "src/barotropic/rhs.py:TimedOffSwitch"]}
{"id": "C98", "title": "Longer runs and restarts", "statement": "The output of a shorter run is the beginning of the output of a longer one, and a run continued from its final state arrives at the state of the uninterrupted run.", "quantifier": "all models, states, time steps, pairs of end times, save intervals", "why_tests_cant": "all pairs of end times and all models", "anchors": ["src/barotropic/model.py:BarotropicModel.run", "src/barotropic/model.py:BarotropicModel.leapfrog"]}
{"id": "C99", "title": "Units of time and length", "statement": "Expressing planet, state, forcing, time step and diffusion in other units of time and length gives the same run expressed in these units: every field, diagnostic and saved state scales with the power of the units that its dimension demands.", "quantifier": "all scale factors of time and length, grids, states, models, forcing terms, lawful transforms", "why_tests_cant": "all unit systems; tests use metres and seconds only", "anchors": ["src/barotropic/state.py:State", "src/barotropic/model.py:BarotropicModel.run", "src/barotropic/rhs.py", "src/barotropic/diagnostics.py:stationary_wavenumber"]}
{"id": "C100", "title": "The equation that is solved", "statement": "Steps solve ∂q/∂t + ∇·(q u) = F - ν(-∇²)^order (q - q_bg) discretised with a forward (Euler) or centered (leapfrog with Robert-Asselin filter) step for advection and forcing and a backward step for diffusion; a run returns filtered states of such a sequence and stops at the first step not before the end time.", "quantifier": "all models, states, time steps, end times, save intervals, linear transforms", "why_tests_cant": "all flows, forcings and number of steps; equivalence, not only an implication", "anchors": ["src/barotropic/model.py:BarotropicModel.euler", "src/barotropic/model.py:BarotropicModel.leapfrog", "src/barotropic/model.py:BarotropicModel._apply_diffusion", "src/barotropic/model.py:BarotropicModel.run"]}
{"id": "C101", "title": "Number of gridpoints in double precision", "statement": "Grid(resolution=180/n) has n+1 latitudes and 2n longitudes, also if division and truncation are carried out with floating point numbers.", "quantifier": "all resolutions, all n up to 2^51", "why_tests_cant": "depends on the rounding of particular quotients; fails for 54 of the first 2000 n and none of the usual resolutions", "anchors": ["src/barotropic/grid.py:Grid.__init__", "src/barotropic/io.py:from_dataset"]}
{"id": "C102", "title": "Coordinates in double precision", "statement": "Computed latitudes and longitudes are sorted, in range, at the poles where they should, accurate, symmetric about the equator and contain the equator if there is an odd number of latitudes.", "quantifier": "all grid sizes up to 2^49", "why_tests_cant": "depends on the rounding of particular products; all grid sizes", "anchors": ["src/barotropic/grid.py:Grid.__init__", "src/barotropic/grid.py:GridRegionIndexer._get_lat_indices"]}
{"id": "C103", "title": "Times in double precision", "statement": "Every step advances time by dt and run stops after the number of steps that exact arithmetic demands, also if times are floating point numbers.", "quantifier": "all initial times, time steps, numbers of steps", "why_tests_cant": "accumulated rounding; depends on particular time steps", "anchors": ["src/barotropic/model.py:BarotropicModel.run", "src/barotropic/model.py:BarotropicModel.leapfrog"]}
{"id": "C104", "title": "Width of the phase filter in double precision", "statement": "If the dominant wavenumber is the same everywhere, smoothing it with a boxcar window does not change the width of the Hann window that filters waves of twice that wavenumber, also with floating point numbers.", "quantifier": "all window widths up to 1024, all wavenumbers up to nlon/4, nlon up to 2^20", "why_tests_cant": "depends on the rounding of particular sums, wavenumbers and grids", "anchors": ["src/barotropic/diagnostics.py:filter_by_wavenumber", "src/barotropic/diagnostics.py:dominant_wavenumber_fourier", "src/barotropic/grid.py:Grid.filter_meridional"]}
{"id": "C105", "title": "Exact spherical harmonics satisfy the assumed laws", "statement": "On every grid there is a spherical harmonic transform (associated Legendre functions, sampled at the gridpoints) for which analysis inverts synthesis up to the truncation, wind and vorticity/divergence are inverse, and which satisfies every law that other theorems assume of spharm.", "quantifier": "all grids, all truncations, all normalisations", "why_tests_cant": "the laws are hypotheses of many theorems; tests only see one transform in finite precision", "anchors": ["src/barotropic/grid.py:Grid.__init__", "src/barotropic/grid.py:Grid.to_spectral", "src/barotropic/grid.py:Grid.to_grid"]}
{"id": "C106", "title": "Spectral operators are the differential operators on the sphere", "statement": "laplace, solve_poisson, gradient, wind, vorticity and divergence compute the Laplacian, gradient, streamfunction, curl and divergence (as derivatives in longitude and latitude on a sphere of radius rsphere) of the function on the sphere that the spectral coefficients represent; the wind of a state is a non-divergent flow whose absolute vorticity is PV.", "quantifier": "all grids, all spectral coefficients, all states", "why_tests_cant": "derivatives of functions between the gridpoints; all coefficients", "anchors": ["src/barotropic/grid.py:Grid.laplace_spectral", "src/barotropic/grid.py:Grid.solve_poisson_spectral", "src/barotropic/grid.py:Grid.gradient", "src/barotropic/grid.py:Grid.wind", "src/barotropic/state.py:State._invert_pv", "src/barotropic/state.py:State.streamfunction"]}
{"id": "C107", "title": "PV advection is exact for resolved states, in particular for Rossby-Haurwitz waves", "statement": "If PV has no degrees above half of the truncation, the spectral coefficients of the PV flux divergence are those of the divergence of q u on the sphere (no aliasing). For a wave of a single degree n on a solid-body rotation the tendency is that of a rotation of the wave with angular speed (W - Ω) - 2W/(n(n+1)), which is an exact solution of the barotropic vorticity equation, and integrations without forcing and diffusion keep the shape: every mode follows the discretised oscillation equation.", "quantifier": "all grids, all such states, all time steps, any number of steps", "why_tests_cant": "statement about derivatives between gridpoints, all states and arbitrarily long integrations", "anchors": ["src/barotropic/state.py:State.pv_flux_spectral", "src/barotropic/model.py:BarotropicModel._pv_tendency_spectral", "src/barotropic/model.py:BarotropicModel.leapfrog"]}
{"id": "C108", "title": "Integrations of Rossby-Haurwitz waves converge to the exact solution", "statement": "The error of all states returned by run (without forcing and diffusion, initial state a wave of a single degree on a solid-body rotation) is bounded by a constant times the time step; PV converges to that of a solution of the barotropic vorticity equation when the time step goes to zero.", "quantifier": "all grids, waves, end times, save intervals; all time steps", "why_tests_cant": "limit of vanishing time step, arbitrarily many steps", "anchors": ["src/barotropic/model.py:BarotropicModel.run", "src/barotropic/model.py:BarotropicModel.euler", "src/barotropic/model.py:BarotropicModel.leapfrog"]}
{"id": "C109", "title": "Stability limit of the time step", "statement": "Integrations of Rossby-Haurwitz waves (without forcing and diffusion) have bounded amplitudes for any number of steps if (ω Δt)² < 2/3 for the frequencies of all modes, and amplitudes grow beyond all bounds if (ω Δt)² > 2/3 for one of them.", "quantifier": "all grids, waves, time steps; any number of steps", "why_tests_cant": "boundedness for all numbers of steps", "anchors": ["src/barotropic/model.py:BarotropicModel.leapfrog"]}
{"id": "C110", "title": "Advection conserves energy, angular momentum and all moments of PV", "statement": "For states whose PV is limited to half of the resolved degrees and exact transforms: the divergence of the PV flux computed by State.pv_flux_spectral has zero product (integrated over the sphere) with every power of PV and with the streamfunction, and carries no angular momentum. An unforced Euler step without diffusion conserves mean PV and angular momentum and increases enstrophy and energy exactly by dt^2 times enstrophy and energy of the flux; a leapfrog step conserves mean PV, angular momentum and the products of PV and of the winds of consecutive states. State.enstrophy and State.energy are values of the densities of the two integrals.", "quantifier": "for all valid grids, all transforms exact up to degree B, all states limited to degree D with 2D <= min(T, B), all powers, all nonnegative time steps and all filter parameters", "why_tests_cant": "Integrals over the sphere and all moments of all resolved states; tests check single flows with quadrature errors", "anchors": ["src/barotropic/state.py:State.pv_flux_spectral", "src/barotropic/state.py:State.enstrophy", "src/barotropic/state.py:State.energy", "src/barotropic/model.py:BarotropicModel.euler", "src/barotropic/model.py:BarotropicModel.leapfrog"]}
{"id": "C111", "title": "Order of accuracy of the meridional derivative", "statement": "For grid values of a function that is five times continuously differentiable in latitude, derivative_meridional of order 4 differs from the derivative by at most e*M*h^4 (M a bound of the fifth derivative, h the grid distance in radians; e = 17/3 at the poles, 19/60 beside them, 1/18 elsewhere). With order 2 and a function with three derivatives the difference is at most e*M*h^2 (e = 1 at the poles, 1/6 elsewhere). The same holds for profiles between the poles, where the code sets their derivative to zero.", "quantifier": "for all grids whose resolution divides 180 degrees, all functions with the stated number of continuous derivatives, all grid points, both orders", "why_tests_cant": "Error bounds for all smooth functions and all resolutions; tests compare single functions on a single grid", "anchors": ["src/barotropic/grid.py:Grid.derivative_meridional"]}
{"id": "C112", "title": "Quadrature and means converge to integrals over the sphere", "statement": "For grid values of a function with two continuous derivatives: quad_meridional differs from r times the integral of F cos(phi) over latitude by at most r*M2*h^2/4 (sptrapz) or r*(2*M1+M2)*pi*h^2/24 (boxcount), where M1, M2 bound the derivatives in latitude and h is the distance of latitudes. quad differs from the integral over the sphere by these errors times 2*pi*r plus r^2*pi*L*d^2/3 (L bounds the second derivative in longitude, d is the distance of longitudes), and mean from the mean over the sphere accordingly. Errors of quad are at most C*r^2*resolution^2 with a constant C that depends only on the function.", "quantifier": "for all valid grids (for quad: whose resolution divides 360 degrees), both schemes, all functions of longitude and latitude with two continuous derivatives and period 360 degrees", "why_tests_cant": "Convergence is a statement about all resolutions and all functions; tests integrate few functions on few grids", "anchors": ["src/barotropic/grid.py:Grid.quad_meridional", "src/barotropic/grid.py:Grid.quad", "src/barotropic/grid.py:Grid.mean", "src/barotropic/grid.py:Grid.gridpoint_area"]}
{"id": "C113", "title": "Accuracy of the stationary wavenumber", "statement": "For smooth zonal flows the square of the stationary wavenumber computed by stationary_wavenumber converges to the analytic value r^2 β_M / u_M in Mercator coordinates as the grid is refined, with explicit error constants in terms of the fifth derivatives of PV and of u cos φ, both when PV is given and when it is computed from the wind.", "quantifier": "all grids whose resolution divides 180 degrees, all 5 times continuously differentiable profiles of PV and wind (given as profiles or as zonal means of fields), all latitudes between the poles with |u| > min_u, order None or 4", "why_tests_cant": "Compares grid output with the derivative of an arbitrary smooth function for every resolution; a test samples a few flows at one resolution and usually avoids the rows next to the poles, where the property fails when PV is computed from the wind.", "anchors": ["src/barotropic/diagnostics.py:stationary_wavenumber"]}
{"id": "C114", "title": "Convergence of the time integration", "statement": "For every initial state the barotropic PV equation, truncated to the spectral coefficients of the grid, with implicit diffusion and Lipschitz continuous forcing, has exactly one solution for some time, and the final and saved states returned by run differ from it by at most a constant times the time step, for all sufficiently small time steps: the Euler start, leapfrog steps, Robert-Asselin filter, implicit diffusion and its background, and the assignment of times to states are consistent and stable together.", "quantifier": "all grids, linear transforms, initial states, diffusion orders, coefficients ≥ 0 and backgrounds, all forcings that are Lipschitz continuous in time and PV (in particular LinearRelaxation, Orography and sums of these), all numeric or datetime time axes, end times and save intervals", "why_tests_cant": "A statement about the limit of arbitrarily small time steps for nonlinear flows whose solution is not known in closed form; tests compare single runs with each other.", "anchors": ["src/barotropic/model.py:BarotropicModel.run", "src/barotropic/model.py:BarotropicModel.euler", "src/barotropic/model.py:BarotropicModel.leapfrog", "src/barotropic/model.py:BarotropicModel._apply_diffusion", "src/barotropic/rhs.py:LinearRelaxation", "src/barotropic/rhs.py:Orography"]}
{"id": "C115", "title": "Zonalization converges to the equivalent-latitude rearrangement", "statement": "For every Lipschitz continuous field on the sphere there is exactly one continuous profile that increases northward and exceeds every value in an area of the same size as the field. Every contour returned by zonalize with interpolate=False lies on this profile up to half a gridstep times the Lipschitz constants, and the profile returned by zonalize deviates from it at every latitude by at most this plus the largest distance of the contour levels, so it converges linearly in the resolution of the grid, for both quadratures and automatic levels.", "quantifier": "all grids of full longitude coverage, Lipschitz fields, both quadrature methods, explicit contours inside the range of the field, any number of automatic contours", "why_tests_cant": "The exact rearrangement is not known for general fields and the statement is about the limit of arbitrarily fine grids; tests use zonally symmetric fields or compare quadratures with each other.", "anchors": ["src/barotropic/grid.py:Grid.zonalize", "src/barotropic/grid.py:Grid.quad", "src/barotropic/grid.py:Grid.quad_meridional"]}
{"id": "C116", "title": "FALWA and FAWA converge to the wave activity of Huang and Nakamura", "statement": "For every Lipschitz continuous PV field on the sphere, FALWA on equivalent latitudes deviates from the exact local wave activity (deviation of PV from the contour value integrated over the parts of the meridian that were displaced across the equivalent latitude, times radius over cosine of latitude) by at most radius over cosine times a multiple of the distances of gridpoints and contours. FALWA and FAWA interpolated to the grid therefore converge to the exact values, uniformly on all latitudes away from the poles, when the resolution of the grid increases.", "quantifier": "all Lipschitz fields, all grids of full longitude coverage, both quadratures, all numbers of contours, all latitude bands excluding the poles", "why_tests_cant": "The exact wave activity of general fields is not known in closed form and the statement is about the limit of arbitrarily fine grids; the repository's tests compare only against a reference implementation at one resolution.", "anchors": ["src/barotropic/diagnostics.py:falwa", "src/barotropic/diagnostics.py:fawa", "src/barotropic/state.py:State.falwa", "src/barotropic/state.py:State.fawa"]}
{"id": "C117", "title": "Zonalized PV is a constant of conservative motion", "statement": "If PV is conserved by a non-divergent wind, its rearranged profile of equivalent latitude is the same at all times. The result of zonalizing PV sampled on a grid at two times therefore differs by at most a constant times the resolution of the grid.", "quantifier": "all smooth conservative flows on the sphere, all pairs of times, all grids of full longitude coverage, both quadratures", "why_tests_cant": "Exact solutions with non-trivial stirring are not available for tests, and the statement is about all flows and all resolutions.", "anchors": ["src/barotropic/grid.py:Grid.zonalize", "src/barotropic/state.py:State.pv_zonalized"]}
{"id": "C118", "title": "Non-acceleration theorem for FAWA", "statement": "For conservative flows whose PV is the absolute vorticity of the wind, the sum of finite-amplitude wave activity and zonal-mean zonal wind does not change in time at any latitude. The same sum computed on a grid from FAWA and the mean of the wind changes only by an error that vanishes as the resolution increases, uniformly away from the poles.", "quantifier": "all smooth conservative flows, planetary vorticity profiles, pairs of times and latitudes; grids of full longitude coverage; boxcounting, or the default quadrature if the rearranged PV increases strictly", "why_tests_cant": "A conservation law that holds exactly only in the limit of infinite resolution for all solutions of a partial differential equation.", "anchors": ["src/barotropic/diagnostics.py:fawa", "src/barotropic/state.py:State.fawa"]}
{"id": "C119", "title": "Truncated advection is an orthogonal projection and conserves enstrophy, energy and angular momentum", "statement": "With transforms that do not alias quadratic products (more than twice as many latitudes as degrees in the truncation), pv_flux_spectral holds the orthogonal projection of the exact divergence of the PV flux on the retained harmonics, for every state of the model and not only for states in half of the truncation. The flux therefore changes neither mean PV nor enstrophy, kinetic energy and angular momentum. In solutions of the truncated equation these quantities change through forcing and diffusion only; they are constant without both, and diffusion of PV (of relative vorticity) never increases enstrophy (energy).", "quantifier": "all states, all grids with 2 ntrunc + 2 <= nlat, all forcings, orders and coefficients of diffusion", "why_tests_cant": "Exact identities of integrals over the sphere for all states of a nonlinear equation in continuous time; tests can only observe time-discretised runs.", "anchors": ["src/barotropic/state.py:State.pv_flux_spectral", "src/barotropic/model.py:BarotropicModel._pv_tendency_spectral", "src/barotropic/grid.py:Grid.vorticity_divergence_spectral"]}
{"id": "C120", "title": "Solutions exist for all times and runs approximate them and their invariants on every interval", "statement": "With transforms that do not alias quadratic products and forcing that grows at most linearly with PV (true for relaxation, orography and their sums) the truncated equation has exactly one solution for all times for every initial state. The states returned by run converge to it on every interval of time as the time step decreases. Without forcing and diffusion, mean PV, enstrophy, energy and angular momentum of all returned states are as close to the initial values as desired for sufficiently small time steps; with diffusion of PV (of relative vorticity) enstrophy (energy) never exceeds the initial value by more than desired.", "quantifier": "all initial states, intervals of time, tolerances, forcings of linear growth, non-negative coefficients of diffusion; time steps below a bound that depends on the tolerance", "why_tests_cant": "A limit statement for all initial states on arbitrarily long intervals.", "anchors": ["src/barotropic/model.py:BarotropicModel.run"]}
{"id": "C121", "title": "Runs converge to smooth solutions of the barotropic vorticity equation", "statement": "Let a smooth flow on the rotating sphere satisfy the barotropic vorticity equation, without or with diffusion (of any order) of PV or relative vorticity. For every tolerance there is a truncation from which on the states returned by run approximate its absolute vorticity in the mean square within the tolerance at all times of the interval, on every grid that resolves quadratic products, if the initial state is sufficiently accurate and the time step sufficiently small. The solution of the truncated equation differs from any other differentiable curve of coefficients only by as much as that curve differs initially and fails to satisfy the equation, with a bound that does not depend on the truncation.", "quantifier": "all smooth solutions, radii, rotation rates, orders and non-negative coefficients of diffusion, intervals of time and tolerances; all sufficiently large truncations and small time steps", "why_tests_cant": "Convergence of a scheme for a nonlinear partial differential equation: a limit over infinitely many grids, truncations and time steps, uniformly over all smooth solutions.", "anchors": ["src/barotropic/model.py:BarotropicModel.run", "src/barotropic/state.py:State.pv_flux_spectral", "src/barotropic/grid.py:Grid.solve_diffusion_spectral"]}
{"id": "C122", "title": "Diffusion steps in single precision", "statement": "Spectral coefficients and eigenvalues are complex64 arrays. With every operation of solve_diffusion_spectral rounded to single precision (24 bits, gradual underflow, overflow), a diffusion step never amplifies a coefficient or changes its sign, damps higher degrees at least as strongly as lower ones, leaves the global mean exactly unchanged, and agrees with the exact factor 1/(1 + dt κ (n(n+1)/r²)^order) up to a few units in the last place for orders 1 and 2 (default) on Earth. It does not for higher orders: with order 5 or more powers of eigenvalues underflow, and all coefficients of the default grid are either unchanged or NaN, whatever the diffusion coefficient; with order 4 a step removes at most half of a coefficient.", "quantifier": "All radii, degrees, coefficients, time steps, orders of diffusion and orders of multiplication in the power; NaN results modelled as none.", "why_tests_cant": "Tests use orders 1 and 2 with a few coefficients and loose tolerances; underflow needs higher orders and rounding properties have to hold for all numbers.", "anchors": ["src/barotropic/grid.py:Grid.solve_diffusion_spectral", "src/barotropic/grid.py:Grid.__init__"]}
{"id": "C123", "title": "Time steps of spectral coefficients in single precision", "statement": "Runs advance complex64 coefficients. With every operation rounded to single precision, the forward step and the Robert-Asselin filter (default parameter 0.2) are accurate to a few units in the last place, and the global mean coefficient (degree 0, no tendency, any diffusion) stays within 10 units in the last place of its initial value in runs of any length, although the rounded filter weights add up to 1 + 2^-25. The mean is not conserved exactly, and runs do not converge as the time step goes to zero with a fixed precision: below a certain step size changes are lost and a coefficient with constant tendency hardly changes, whatever the number of steps.", "quantifier": "All coefficients (normal numbers), tendencies, time steps, diffusion orders and coefficients, and any number of steps.", "why_tests_cant": "Tests integrate for a limited number of steps and compare with tolerances much larger than a unit in the last place; drift and stagnation are statements about arbitrarily many steps.", "anchors": ["src/barotropic/model.py:BarotropicModel.leapfrog", "src/barotropic/model.py:BarotropicModel.euler", "src/barotropic/model.py:BarotropicModel.run"]}
{"id": "C124", "title": "The predefined figures show consistent data at the labelled places", "statement": "For every state of a valid grid the figures summary, wave_activity, rwp_diagnostics and waveguides are created; in all maps of a figure column k shows the meridian on its label; the lines next to a map are the zonal means of what the map shows (potential = planetary + relative vorticity; mean minus equivalent latitude PV = mean deviation; FAWA = mean FALWA); fields sharing a colorbar have common levels covering both; all contour levels handed to matplotlib are increasing; the Ks curve c satisfies c|c| = Ks^2 and one set of segments is drawn per requested wavenumber.", "quantifier": "all valid grids, states, hemispheres, centre longitudes, non-negative overrides, wavelets", "why_tests_cant": "Panels combine about ten diagnostics with rolls, scalings and special cases (constant fields, NaN, odd numbers of longitudes); tests only look at whether an image is produced for one state", "anchors": ["src/barotropic/plot.py:summary", "src/barotropic/plot.py:wave_activity", "src/barotropic/plot.py:rwp_diagnostics", "src/barotropic/plot.py:waveguides"]}
{"id": "C125", "title": "Conversion from hn2016_falwa without a grid rebuilds the grid of the field", "statement": "from_hn2016(as_hn2016(s)) with grid=None creates a grid with the numbers of latitudes and longitudes of the field and returns the state s on it, with the same PV and hence the same relative vorticity, in exact arithmetic and in double precision.", "quantifier": "all grids, states, times; all numbers of latitudes; all approximations of pi in double precision", "why_tests_cant": "The resolution is recovered as rad2deg(pi/(nlat-1)) and truncated by int(); planet constants are not part of the field; wrong results need particular numbers of latitudes or non-default planets", "anchors": ["src/barotropic/state.py:State.from_hn2016", "src/barotropic/state.py:State.as_hn2016", "src/barotropic/constants.py:EARTH_RADIUS", "src/barotropic/grid.py:Grid.__init__"]}
{"id": "C126", "title": "Smooth solutions of the simulated equation are determined by the initial PV", "statement": "Two smooth solutions of the barotropic vorticity equation with the diffusion of the model (streamfunctions that are smooth functions of time and position) whose absolute vorticity agrees at the initial time have the same absolute vorticity and wind at all later times; their streamfunctions differ by a constant at each time. Hence the limit of runs (C121, C127) does not depend on the choice of a solution.", "quantifier": "all smooth solutions, radii, rotation rates, non-negative diffusion coefficients, diffusion orders, intervals of time", "why_tests_cant": "Uniqueness for a partial differential equation; no finite computation shows it", "anchors": ["src/barotropic/model.py:BarotropicModel.run", "src/barotropic/model.py:BarotropicModel._pv_tendency_spectral", "src/barotropic/state.py:State._invert_pv"]}
{"id": "C127", "title": "Wind and energy of runs converge to those of the exact solution", "statement": "For every smooth solution of the barotropic vorticity equation and every tolerance there is a truncation from which on all states returned and saved by run have, in the mean square, PV and wind within the tolerance of the solution's at their times, and total kinetic energy within the tolerance, provided the initial state is sufficiently accurate and the time step sufficiently small. The gridded u and v of a state are the values of that wind.", "quantifier": "all smooth solutions, tolerances, dealiased grids above the truncation, time steps below a bound, end times, save intervals", "why_tests_cant": "Convergence for all sufficiently fine grids and time steps, against an exact solution that is not known in closed form", "anchors": ["src/barotropic/model.py:BarotropicModel.run", "src/barotropic/state.py:State.u", "src/barotropic/state.py:State.v", "src/barotropic/state.py:State.energy", "src/barotropic/grid.py:Grid.wind"]}
{"id": "C128", "title": "Functions never write into arrays they were given, and runs never overwrite states; arrays handed out are shared only where documented as immutable", "statement": "With arrays modelled as references to memory buffers (slices are views, item and augmented assignments write into the buffer), every function of the package that assigns into arrays - equivalent_latitude, gridpoint_area, derivative_meridional (both orders), the spherical trapezoidal rule, solve_poisson_spectral, the zonal Fourier restriction, stationary_wavenumber, GridRegion.lon_mono and mask, the PV tendency - leaves all arrays that existed before the call unchanged, returns a new array, and this array contains what the model without memory says. Reading fields of states leaves all arrays unchanged and gives the fields that belong to spectral PV; States created from gridded PV or wind own their arrays; Euler and leapfrog steps and whole runs return states with arrays of their own whose contents at the end are those computed without memory. A caller cannot change a State or a Grid through arrays that were passed in or handed out. (False: State(pv_spectral=a) keeps a itself; pv, u, v, streamfunction hand out the arrays that are kept, writing into them makes the state inconsistent; as_hn2016 hands the longitude array of the grid itself and views of latitude and PV to falwa; zonalize without interpolation returns the given array of levels.)", "quantifier": "for all grids, transforms, memory contents, arrays (including arrays that are views of each other), forcings that do not modify existing arrays, time steps, numbers of steps", "why_tests_cant": "Aliasing bugs only show when the same array is used again later, e.g. a missing .copy() in the trapezoidal rule corrupts the latitudes of the grid on the first call and falsifies all later calls; tests that create a new grid per test do not see it.", "anchors": ["src/barotropic/grid.py:Grid.quad_meridional", "src/barotropic/grid.py:GridRegion.lon_mono", "src/barotropic/grid.py:Grid.equivalent_latitude", "src/barotropic/grid.py:Grid.gridpoint_area", "src/barotropic/grid.py:Grid.derivative_meridional", "src/barotropic/diagnostics.py:stationary_wavenumber", "src/barotropic/state.py:State.__init__", "src/barotropic/state.py:State.as_hn2016", "src/barotropic/model.py:BarotropicModel.leapfrog"]}
{"id": "C129", "title": "Runs with forcing converge to smooth solutions of the forced equation; relaxation determines the solution", "statement": "Let a smooth flow on the rotating sphere satisfy the barotropic vorticity equation with diffusion and a forcing. For every tolerance there is a truncation from which on the states returned and saved by run approximate absolute vorticity and wind in the mean square, and total kinetic energy, within the tolerance at all times, if forcing and initial state are represented sufficiently accurately and the time step is sufficiently small. This applies to LinearRelaxation with any rate towards any reference whose transform is sufficiently accurate, and to forcings that do not depend on the state such as Orography with the wind of a solid-body rotation; in general to every forcing whose mean square change is bounded by that of PV. Smooth solutions with relaxation towards a smooth reference are determined by their initial vorticity.", "quantifier": "all smooth solutions, forcings, rates, references, radii, rotation rates, diffusion coefficients >= 0 and orders, tolerances, dealiased grids above the truncation, time steps below a bound, end times, save intervals", "why_tests_cant": "Convergence of a scheme for a nonlinear partial differential equation: a limit over infinitely many grids, truncations and time steps, uniformly over all smooth solutions", "anchors": ["src/barotropic/model.py:BarotropicModel.run", "src/barotropic/model.py:BarotropicModel._pv_tendency_spectral", "src/barotropic/rhs.py:LinearRelaxation.__call__", "src/barotropic/rhs.py:Orography.__call__"]}
{"id": "C130", "title": "Spectral accuracy: runs approximate smooth solutions faster than any power of the truncation, uniformly and with gradients", "statement": "Let a smooth flow on the rotating sphere satisfy the barotropic vorticity equation with diffusion. For every exponent j there is a constant such that for every truncation T and sufficiently small time steps, the mean square error of absolute vorticity in all states returned and saved by run is within the constant times (initial mean square error + (T+1)^-j), the squared error at every single point within (T+1)^2 times that, and the squared error of the gradient at every single point within (T+1)^4 times that; initial states with an error of (T+1)^-j exist. Hence PV and its gradient converge uniformly on the sphere if the initial mean square error decreases faster than T^-4.", "quantifier": "all smooth solutions, radii, rotation rates, diffusion coefficients >= 0 and orders, exponents, truncations, dealiased grids, transforms, initial states, time steps below a bound, end times, save intervals", "why_tests_cant": "A rate of convergence for all exponents, uniform over infinitely many truncations and all points of the sphere", "anchors": ["src/barotropic/model.py:BarotropicModel.run", "src/barotropic/model.py:BarotropicModel._pv_tendency_spectral", "src/barotropic/state.py:State.pv"]}
{"id": "C131", "title": "Zonalized PV, wave activity and zonal-mean wind of runs converge to those of smooth solutions", "statement": "Let a smooth flow on the rotating sphere satisfy the barotropic vorticity equation with diffusion. For every tolerance, if the truncation is high enough, the initial state close enough and the time step small enough, in the initial, final and all saved states of a run: pv_zonalized (either quadrature) is within the tolerance of the exact PV rearranged into a monotonic profile; FAWA is within the tolerance of the exact finite-amplitude wave activity and the mean of u over the gridpoints of each latitude within the tolerance of the exact zonal mean, up to any given distance from the poles (FAWA with boxcounting, or if the profiles increase strictly). Without diffusion, zonalized PV of any two states of the run agree within the tolerance and changes of FAWA and of zonal-mean wind cancel within the tolerance. Rearrangement does not increase the largest difference of two fields.", "quantifier": "all smooth solutions, radii, rotation rates, diffusion coefficients >= 0 and orders, tolerances, distances from the poles, truncations above a bound, dealiased grids, transforms, initial states, time steps below a bound, end times, save intervals", "why_tests_cant": "Limit of infinitely many resolutions and time steps; combines the errors of the transform, of time stepping, of the quadratures and of interpolation", "anchors": ["src/barotropic/model.py:BarotropicModel.run", "src/barotropic/state.py:State.pv_zonalized", "src/barotropic/state.py:State.fawa", "src/barotropic/state.py:State.u", "src/barotropic/grid.py:Grid.zonalize", "src/barotropic/diagnostics.py:fawa"]}
{"id": "C132", "title": "StateList is a sequence of its states and parts of it are StateLists again", "statement": "For a StateList with n states: len is n; self[i] is the state with index i for 0 <= i < n, the state -i places before the end for -n <= i < 0, and IndexError otherwise; self[a:b:d] selects exactly the indices from a up to and without b in steps of d with the conventions of Python for negative, omitted and too large bounds, in order, and never fails except for d = 0 (ValueError); reversed, in, count and index(x, start, stop) agree with indexing. The selected states can be made into a StateList again.", "quantifier": "all lists of states, all integers, slices with all combinations of bounds and steps, all objects searched for", "why_tests_cant": "Infinitely many lengths, bounds and steps; grids that are close to each other do not appear in tests", "anchors": ["src/barotropic/state.py:StateList.__getitem__", "src/barotropic/state.py:StateList.__len__", "src/barotropic/state.py:StateList.__repr__", "src/barotropic/state.py:StateList.__init__"]}
{"id": "C133", "title": "End and saved states of runs in double precision", "statement": "With times that are double precision numbers (initial time >= 0, dt > 0): times never decrease; every time step is dt up to three units in the last place of the time, however many steps were made; the time after k steps is t0 + k dt up to 3 k units in the last place; the run ends and the number of iterations is that of exact arithmetic up to one as long as 6 n (t0 + n dt) <= 2^52 dt; saved are exactly the states that have reached the next save time, and save times are the multiples of save_every up to rounding. For times with few binary digits all is as in exact arithmetic: in particular every save_every a state is saved.", "quantifier": "all double precision initial times >= 0, all time steps > 0, end times, save intervals and numbers of steps", "why_tests_cant": "Rounding errors depend on all bits of the numbers and on the number of steps; most combinations of dt and save_every behave well by chance", "anchors": ["src/barotropic/model.py:BarotropicModel.run", "src/barotropic/model.py:BarotropicModel.euler", "src/barotropic/model.py:BarotropicModel.leapfrog"]}
{"id": "C134", "title": "Contour areas, equivalent latitudes and zonalized profiles in double precision", "statement": "With every operation rounded and sums taken in any order: (a) a point belongs to the domain of a contour iff its value is not below the threshold; (b) boxcounted contour areas are accurate up to the number of roundings, never negative and never grow with the threshold; (c) equivalent latitudes stay within [-90, 90], do not grow with the area and their sines are accurate; (d) the interpolated profile is exact at poles and contours, never below the minimum of the field, and not above its maximum nor decreasing towards the north.", "quantifier": "all fields, thresholds, levels, grid sizes, orders of summation, monotone arcsin and sine implementations, and latitudes", "why_tests_cant": "Rounding effects occur only for special combinations of values and depend on the summation order chosen by numpy for a shape and a machine; a test sees one order on one machine.", "anchors": ["src/barotropic/grid.py:471-484", "src/barotropic/grid.py:514-522", "src/barotropic/grid.py:576-597", "src/barotropic/grid.py:599-662", "src/barotropic/grid.py:666-697"]}
{"id": "C135", "title": "Wave activity with boxcounting in double precision", "statement": "With every operation rounded and sums taken in any fixed order: FALWA and FAWA from boxcounting are never negative and are accurate relative to the size of the integrated values; interpolated to the latitudes of the grid they are non-negative and zero at the poles.", "quantifier": "all fields, contours, latitudes, grid sizes, orders of summation", "why_tests_cant": "FALWA is a difference of two almost equal rounded integrals; whether it can become negative depends on the rounding of every single term, which a test samples at a few fields.", "anchors": ["src/barotropic/diagnostics.py:32-96", "src/barotropic/grid.py:516-522", "src/barotropic/grid.py:666-697"]}
{"id": "C136", "title": "Means and filters in double precision", "statement": "With every operation rounded and sums taken in any order: means over all, meridional and zonal axes never decrease where the field increases and are accurate relative to the mean size of the values; means of constant fields are that constant; windows have weights that add up to 1; filters with non-negative windows keep order and sign, are accurate, and keep constants.", "quantifier": "all fields, areas, windows, sizes and orders of summation", "why_tests_cant": "The result depends on the summation order that numpy selects for shape and machine; rounding-related violations occur for special values only.", "anchors": ["src/barotropic/grid.py:457-465", "src/barotropic/grid.py:701-774"]}
{"id": "C137", "title": "Meridional derivative in double precision", "statement": "Computed in double precision (ignoring overflow and underflow), derivative_meridional differs from its exact counterpart by no more than 7 (order 4) or 5 (order 2) roundings of the largest possible sum of its terms, and less between the poles; it commutes exactly with a change of sign and with a change of units by a power of two; a constant field has an exactly zero derivative of order 2 between the poles, but with the default order 4 it need not: a constant field of 0.1 has a negative derivative in every interior row.", "quantifier": "all fields, all grid sizes, all latitude spacings, all rows, with and without the pole rows", "why_tests_cant": "The error bound is for all fields and spacings; tests compare with tolerances and cannot tell that the residual of a constant depends on the digits of the constant.", "anchors": ["src/barotropic/grid.py:316-343"]}
{"id": "C138", "title": "Spherical trapezoidal quadrature and wave activity with it in double precision", "statement": "Computed in double precision (ignoring overflow and underflow) with library functions sin and cos that are correct to 2^-53, quad_meridional, quad and falwa with the default method sptrapz differ from their exact counterparts by no more than an explicit bound that is proportional to the unit roundoff, the size of the values, the number of latitudes and the inverse of the latitude spacing. The bound is valid for every order of summation and every domain of integration, however close the domain field is to zero. For areas (integrals of one) the error of an interval does not grow with resolution. Wave activity is not negative except for such errors.", "quantifier": "all fields, all domain fields, all contour values and latitudes, all grids with at least three latitudes, all orders of summation, all library functions with the stated accuracy", "why_tests_cant": "The domain boundary is obtained by a division by a difference that can be arbitrarily small and slopes are divided by the grid spacing; tests sample fields and cannot exclude amplification of errors.", "anchors": ["src/barotropic/grid.py:484", "src/barotropic/grid.py:524-570", "src/barotropic/diagnostics.py:86-90"]}
{"id": "C139", "title": "Values of states, forcings and initial conditions in double precision", "statement": "Computed in double precision (ignoring overflow and underflow): a state at rest has exactly zero vorticity; vorticity is recovered from the PV made of it up to a rounding error of the size of PV, and exactly; enstrophy and energy are never negative, zero exactly for zero PV or wind and have relative errors of one and two roundings; eddy enstrophy of zonally symmetric PV is zero; relaxation vanishes exactly at the reference and points towards it everywhere else; orographic forcing vanishes exactly over flat terrain, without wind and without rotation, and changes sign with rotation, wind and slope; a Gaussian jet vanishes at the poles up to five roundings, and exactly. (Exact recovery of vorticity, symmetric addition of vorticity, zero eddy enstrophy of symmetric PV and exactly vanishing wind at the poles are false and refuted.)", "quantifier": "all values, all rates, heights, scale heights and latitudes", "why_tests_cant": "Signs and zeros have to hold for every double, including neighbours of the reference; tests use tolerances.", "anchors": ["src/barotropic/state.py:92", "src/barotropic/state.py:132", "src/barotropic/state.py:198", "src/barotropic/state.py:213-225", "src/barotropic/rhs.py:91", "src/barotropic/rhs.py:177-186", "src/barotropic/init.py:82-86"]}
{"id": "C140", "title": "Missing values are never turned into plausible numbers", "statement": "A value computed from a missing value (NaN) is missing, and other values are not affected: means are missing exactly if one of the averaged values is; integrals exactly if the integrand is missing in the domain (boxcounting) or the integrand or the domain-defining field is missing at an end of an interval that reaches into the domain (trapezoidal rule); zonalized profiles and local wave activity (per contour and on the grid, both methods) of a field with a missing value are missing everywhere with automatic contour levels.", "quantifier": "for all grids, fields of any number of columns, positions and numbers of missing values, numbers of levels and both quadrature methods", "why_tests_cant": "NaN fields are not part of the tests, and a result of plausible zeros is not noticed", "anchors": ["grid.py:440-465", "grid.py:471-573", "grid.py:576-664", "grid.py:667-697", "diagnostics.py:30-96"]}
{"id": "C141", "title": "Grid geometry in double precision", "statement": "With every operation rounded to double precision and a library sine and cosine of error at most 2^-53: latitudes in radians have an error of at most 2^-49 and the poles are at the double closest to half of np.pi; Coriolis parameter and circumference have errors below 2^-48 of their largest value and the Coriolis parameter has the sign of the hemisphere; gridpoint areas have an error of at most 2^-46 r^2 dlam, a relative error of at most (nlat-1)^2 2^-45 (also at the poles, where sines cancel), are positive, and sum up to the area of the sector; the boxcounted area above any contour is the true area of the gridboxes up to that and the rounding of the sums.", "quantifier": "for all numbers of latitudes up to 2^49 (signs up to 2^40, positive areas up to 2^22), radii, rotation rates, zonal spacings, fields, contours and orders of summation", "why_tests_cant": "rounding is compared with tolerances at a few resolutions only", "anchors": ["grid.py:54-66", "grid.py:101-122", "grid.py:415-432"]}
{"id": "C142", "title": "Total error of derivatives and integrals of smooth fields in double precision", "statement": "For a field whose stored values are those of a smooth function up to a given error, derivative_meridional, quad_meridional and quad as computed in double precision differ from the true derivative of the function and from its true integral over the sphere by no more than the truncation error of the method (fourth or second order in the grid spacing), the errors of the values, of the spacing and of the stored latitudes, and a rounding error that is proportional to the unit roundoff and grows with the number of latitudes. The spacing of a grid with resolution 180/n is off by a relative 2^-50 at most. Finer grids give better derivatives.", "quantifier": "all smooth functions, all fields close to them, all numbers of latitudes (at least 5 or 3, for integrals up to 2^40) and longitudes, all orders of summation, all library functions with the stated accuracy", "why_tests_cant": "Tests compare with analytic results on a few grids with ad-hoc tolerances, where either truncation or rounding dominates; they cannot show that the sum of both is bounded on all grids nor that refinement eventually makes derivatives worse.", "anchors": ["src/barotropic/grid.py:57-66", "src/barotropic/grid.py:316-343", "src/barotropic/grid.py:484", "src/barotropic/grid.py:524-570"]}
{"id": "C143", "title": "Missing values in derivatives, stationary and dominant wavenumber, wave envelope and waveguides", "statement": "Values of meridional derivatives, zonal means, stationary wavenumber (with given PV or PV from wind) and wave envelope are missing (NaN) if and only if an input value is missing on which they depend; all other values are those of the field with any numbers in place of the missing ones. A dominant wavenumber computed from a row with missing values is missing, and waveguides do not extend over latitudes where the stationary wavenumber is missing.", "quantifier": "all grids, all fields and profiles with any pattern of missing values, both orders, all ranges of wavenumbers, all numbers in place of missing values", "why_tests_cant": "Tests use complete fields; with NaN, numpy's comparisons and argmax return ordinary values without warning, so that missing data are turned into plausible results which no finite-value test can reveal.", "anchors": ["src/barotropic/grid.py:316-342", "src/barotropic/diagnostics.py:20-29", "src/barotropic/diagnostics.py:114-121", "src/barotropic/diagnostics.py:245-248", "src/barotropic/diagnostics.py:285-312", "src/barotropic/diagnostics.py:338-360"]}
{"id": "C144", "title": "Assertions of the repository's own tests", "statement": "The grid, region, filter, mean, derivative, list and import assertions of the repository's tests and the README run hold, with arbitrary grids, spheres, time steps and objects where the tests use a few: half of the globe has mean 1/2 on every grid, meridional derivatives of the latitude are constant except at the poles, a run of b saving intervals saves b+1 states at the multiples of the interval and ends at the given time, waves of PV, vorticity or wind on any profile survive conversions between wind, vorticity and PV, a dataset on a regular grid with any leading dimensions gives one state per index with the fields and the time at this index, lists with non-states or with states on other grids and irregular coordinates, other orders of dimensions, wind components with different dimensions and datasets without fields or coordinates are refused.", "quantifier": "all grids, time steps and intervals (b, a arbitrary), windows, states and objects; the concrete regions and coordinates of the tests", "why_tests_cant": "The tests check single resolutions, single runs and tolerances; that they hold on every grid and for every interval is not a consequence of a few runs.", "anchors": ["tests/test_grid.py:36-107", "tests/test_grid.py:125-200", "tests/test_examples.py:6-17", "tests/test_state.py:73-79", "tests/test_state.py:111-118", "tests/test_io.py:132-146", "tests/test_state.py:11-68", "tests/test_io.py:89-162"]}
{"id": "C145", "title": "Missing values in states, forcings and model runs", "statement": "A state created from PV with a missing value has no values at all; runs from such states, with a diffusion background or with forcings that contain missing values return only missing values from then on (and the values before are those of complete inputs), and missing values are reported; a forcing that is switched off has no influence.", "quantifier": "all grids and transforms, all fields with any pattern of missing values, all forcings, time steps and intervals; onset of missing values in the forcing at any time", "why_tests_cant": "Tests run complete fields. A NaN produces no exception, and which saved states are still complete depends on the time filter (which uses the next state) and on the order of steps.", "anchors": ["src/barotropic/state.py:48-59", "src/barotropic/state.py:141-225", "src/barotropic/model.py:73-89", "src/barotropic/model.py:101-175", "src/barotropic/rhs.py:35-91", "src/barotropic/rhs.py:168-186", "src/barotropic/grid.py:198-294"]}
{"id": "C146", "title": "Spectral accuracy of runs with forcing", "statement": "If a smooth solution of the forced barotropic vorticity equation exists, runs of the model with a forcing that follows the forcing of the equation (a Lipschitz condition in the mean square and an error eps) approximate its PV, with a squared error within a multiple of the initial squared error plus eps plus (T+1)^-j for every exponent j, in the mean square, and at every point (times (T+1)^2), with gradients (times (T+1)^4). The constant depends neither on the truncation nor on the grid. In particular this holds for LinearRelaxation with any rate, with the error of the reference PV as error of the forcing, and for forcings that depend neither on time nor on the state (Orography with the wind of a solid-body rotation). PV and its gradient converge uniformly on the sphere.", "quantifier": "for all smooth solutions of the forced equation, exponents, grids with dealiased truncation, transforms with exact harmonics, rates (of either sign), references, initial states, and sufficiently small time steps", "why_tests_cant": "Convergence rates for all exponents and uniformly in the truncation cannot be observed in finitely many runs; exact solutions with forcing are not available in tests.", "anchors": ["src/barotropic/model.py:73-89", "src/barotropic/model.py:101-175", "src/barotropic/rhs.py:35-91", "src/barotropic/rhs.py:168-186", "src/barotropic/state.py:141-225"]}
{"id": "C147", "title": "Order of the time integration and damping of the Robert-Asselin filter", "statement": "Integrations are second-order accurate in time: the error of computed Rossby-Haurwitz waves is bounded by a multiple of the squared time step. (False: the Robert-Asselin filter with parameter 0.2 damps every mode of frequency w by exp(-w^2 t dt / 8), an error of first order. The computed mode is the exact one times this damping up to errors of second order; phases are second-order accurate.)", "quantifier": "for all waves of a single degree on any solid-body rotation, all time steps, durations, grids and transforms with exact harmonics, and every mode of every state that run returns", "why_tests_cant": "Tests compare with fixed tolerances at a single time step; they cannot separate orders of convergence or exclude a second-order bound.", "anchors": ["src/barotropic/model.py:44-110", "src/barotropic/model.py:111-151"]}
{"id": "C148", "title": "Stability of integrations with relaxation and diffusion", "statement": "Waves of a single degree on a solid-body rotation, with LinearRelaxation and diffusion towards that rotation, keep their shape in integrations; every mode follows the discretised equation of a damped oscillation. Modes decay exponentially, and PV converges to the reference at all gridpoints, where an explicit polynomial in time step, frequency, relaxation and diffusion rate is positive; modes grow beyond all bounds where it is negative (unless the initial value lies in the decaying mode of the scheme, without diffusion only for rate*dt = 3/2). In particular relaxation of zonal flows is stable for rate*dt < 1/3 + (diffusion rate)*dt and unstable above, and 11 rate*dt + 3 ((rate*dt)^2 + (w*dt)^2) <= 2 suffices for all modes.", "quantifier": "for all relaxation rates, diffusion coefficients and orders, time steps, waves of a single degree, solid-body rotations, run lengths, grids and transforms with exact harmonics", "why_tests_cant": "Convergence for arbitrarily long runs and growth beyond all bounds cannot be observed; tests use a single rate and time step.", "anchors": ["src/barotropic/model.py:44-175", "src/barotropic/rhs.py:73-91"]}
{"id": "C149", "title": "Extracted waveguides are those of the continuous stationary wavenumber", "statement": "Waveguides extracted from a gridded profile contain all latitudes where the continuous profile exceeds the wavenumber by more than the error of values and interpolation, and none where it is lower by more than that. If the continuous profile is smooth where it passes through the wavenumber, with nonzero slope, then on all sufficiently fine grids there are exactly as many waveguides as in the continuous profile, in the same order, with edges accurate to second order in the resolution (for second-order accurate values). This holds for the stationary wavenumber computed from smooth zonal-mean PV and wind with extract_ks_waveguides. Solid-body rotation has exactly one waveguide, symmetric about the equator, and on no grid of 10 degrees or finer is it recognized as a waveguide in midlatitudes by the condition of the waveguidability notebook, as the notebook states.", "quantifier": "for all profiles with simple crossings, wavenumbers, resolutions below a threshold, smooth zonal flows without zero wind; all grids of at most 10 degrees and all wavenumbers for the statement of the notebook", "why_tests_cant": "Convergence under refinement and the number of waveguides for all profiles cannot be established from samples; spurious waveguides appear only for particular combinations of profile and grid.", "anchors": ["src/barotropic/diagnostics.py:251-360", "examples/waveguidability-wirth-2020.ipynb"]}
{"id": "C150", "title": "The response to weak perturbations is linear", "statement": "If the forcing or the initial PV is changed in proportion to a small amplitude, then every state returned by run changes in proportion to the amplitude, with an error of second order in the amplitude: the change is that of an integration linearised about the unperturbed run (same Euler and leapfrog steps, filter and implicit diffusion; PV advected by the perturbation wind and the perturbation of PV by the unperturbed wind). Responses divided by their amplitudes agree with each other up to first order in the amplitudes. This includes orography with small mountains in every kind of wind together with relaxation and diffusion.", "quantifier": "for all grids, forcing terms that depend to first order on amplitude and PV, initial states, time steps, end times, diffusion settings; amplitudes up to one", "why_tests_cant": "Tests compare single runs; that the quotient converges as the amplitude goes to zero, for every setup, is a statement about limits.", "anchors": ["src/barotropic/model.py:60-180", "src/barotropic/rhs.py:75-250", "examples/waveguidability-wirth-2020.ipynb"]}
{"id": "C151", "title": "Weak forcing of a solid-body rotation produces stationary waves", "statement": "In runs that start from a solid-body rotation and have a weak, time-independent forcing (prescribed or orographic), with or without relaxation and diffusion towards that rotation, every mode of PV follows the equation of a forced, damped oscillation with the phase speed of Rossby waves, as discretised by the Euler and leapfrog steps with filter, up to second order in the amplitude of the forcing. If the time step is stable for the forced modes, PV approaches that of the stationary wave, which is the forcing divided by the sum of the damping rates and i times the frequency. An undamped mode with zero frequency grows in proportion to time (resonance). The frequency vanishes where the total wavenumber equals the stationary wavenumber of the flow at the equator.", "quantifier": "for all grids with exact transforms up to the band limit, forcings without mean and without modes above half of the truncation, rates, diffusion settings, angular velocities, stable time steps, end times", "why_tests_cant": "The long-time limit and the dependence on all modes and parameters cannot be sampled; no test integrates a forced model to a stationary state.", "anchors": ["src/barotropic/model.py:60-180", "src/barotropic/rhs.py:75-250", "src/barotropic/state.py:279-284", "examples/waveguidability-wirth-2020.ipynb"]}
{"id": "C152", "title": "Envelope recovers the amplitude of wave packets", "statement": "If the field along a latitude circle is the real part of a complex Fourier series, the zonal envelope is the absolute value of that series when its wavenumbers all lie in the range, and differs from it by at most twice the summed magnitude of the coefficients outside of the range otherwise (aliasing included). A carrier wave with an amplitude varying with longitude therefore yields that amplitude. The dominant wavenumber is the largest coefficient's when it exceeds the others by more than twice the magnitude outside.", "quantifier": "all rows and columns, absolutely summable coefficients, ranges with 1 <= kmin, 2*kmax < number of longitudes, even number of longitudes (for the envelope)", "why_tests_cant": "Tests only use pure waves; packets, leakage out of the range and aliasing of unresolved wavenumbers need a statement over all Fourier series.", "anchors": ["src/barotropic/diagnostics.py:20-40", "src/barotropic/diagnostics.py:99-121", "src/barotropic/diagnostics.py:232-251"]}
{"id": "C153", "title": "Angular velocity of the planet only changes the frame of reference", "statement": "The angular velocity of the planet and a solid-body rotation of the atmosphere are interchangeable: with the same initial PV, the same (as seen from space) forcing and diffusion towards the same zonally symmetric PV, solutions on a planet with another angular velocity have the same PV, rotated by the angle that one planet is ahead of the other; the wind differs by the velocity of the surface. Runs on both planets approach this when the time step decreases. Smooth solutions of the exact equation have the same property.", "quantifier": "all valid grids with alias-free truncation, all PV fields, angular velocities, intervals of time, forcings that are Lipschitz continuous with at most linear growth", "why_tests_cant": "A relation between two runs on different planets, for all states and in the limit of small time steps; the code's Coriolis term must enter wind and PV consistently.", "anchors": ["src/barotropic/grid.py:44-80", "src/barotropic/grid.py:116-122", "src/barotropic/model.py:60-180", "src/barotropic/state.py:110-190"]}
{"id": "C154", "title": "The truncated equations have no preferred direction", "statement": "The triangular truncation is isotropic: a field with truncation T, carried along by any rotation or reflection of the sphere, is a field with truncation T, and every total wavenumber is turned on its own. On a planet without rotation, the PV tendency and the streamfunction of a turned flow are the turned ones, and a complete run from a turned initial state is the turned run, exactly and for every time step (including start step, leapfrog, filter, diffusion and turned forcings). On a rotating planet the same holds for rotations about the axis by any angle and reflections that exchange the poles, and the Coriolis parameter excludes all others.", "quantifier": "all valid grids with alias-free truncation, all orthogonal 3x3 matrices that respect the Coriolis parameter, all PV fields, models, time steps, end times and intervals of saved states", "why_tests_cant": "A relation between runs whose fields are turned by arbitrary angles between gridpoints; a wrong degree dependence or sign in Laplacian, inversion, truncation or diffusion singles out the poles.", "anchors": ["src/barotropic/grid.py:44-122", "src/barotropic/grid.py:124-240", "src/barotropic/model.py:60-180", "src/barotropic/state.py:110-190"]}
{"id": "C155", "title": "Zonalization and wave activity of the mirror image", "statement": "Reflecting PV at the equator and changing its sign reflects the zonalized PV (with the changed sign) and the local and zonally averaged wave activity; in particular PV that is antisymmetric about the equator has an antisymmetric zonalized profile and symmetric wave activity. This holds with both quadrature schemes if no contour runs along the grid (no gridpoint, or no two meridionally adjacent ones for the trapezoidal rule, has exactly the value of a contour) and no two contours are assigned the same latitude where the profile is evaluated. Otherwise it is false: points with the value of the contour belong to the northern side only.", "quantifier": "all valid grids that span the globe, all fields, both schemes, automatic contours in any number", "why_tests_cant": "An asymmetry between the hemispheres appears only for fields with plateaus at a contour value (homogenised PV) or with tied contours and looks like a small physical difference; tests with smooth random fields never meet it, and equality for all fields cannot be sampled.", "anchors": ["src/barotropic/grid.py:511-573", "src/barotropic/grid.py:577-597", "src/barotropic/grid.py:599-665", "src/barotropic/grid.py:666-700", "src/barotropic/diagnostics.py:49-96", "src/barotropic/state.py:229-253"]}
{"id": "C156", "title": "Diagnostics of waves of small amplitude", "statement": "For a wave of amplitude ε on a zonally symmetric basic state with northward gradient, the zonalized profile that the code computes is the zonal mean up to o(ε), local wave activity (falwa) is the pseudomomentum density of linear theory, ε² times half the squared eddy divided by the gradient, up to o(ε²), and fawa its zonal mean, uniformly in longitude and between any two latitudes, on all grids that are fine enough for the amplitude and with both quadrature schemes. The profile increases strictly, as the trapezoidal scheme needs, if the wave does not overturn contours, which small waves do not.", "quantifier": "all basic states with continuous positive gradient between the poles, all Lipschitz waves, all radii, all fine enough grids that span the globe, both schemes", "why_tests_cant": "A limit of two parameters, amplitude and resolution, where the amplitude must be small before the resolution is chosen; at any affordable resolution the signal of order ε² is below the discretisation error.", "anchors": ["src/barotropic/grid.py:577-597", "src/barotropic/grid.py:599-665", "src/barotropic/grid.py:675-692", "src/barotropic/diagnostics.py:49-96", "src/barotropic/state.py:229-253"]}
{"id": "C157", "title": "Zonalization in double precision returns the rearrangement of the field", "statement": "A Lipschitz field is sampled on the grid and rounded to double precision; gridbox areas, contour areas, equivalent latitudes and the interpolated profile are then all computed in double precision (boxcount quadrature, given levels). At every latitude of the grid the result is a value of the exact monotone rearrangement of the field near that latitude: it exceeds no value further north and is below no value further south by more than half a gridbox of variation of the field, the largest distance of two levels and 2^-48 times the largest value, outside of a strip whose width in sine of latitude is (n+1)/2^45 + 2^-49 + m/2^49 + 2^-48 with n+1 latitudes and m roundings on the way from the gridboxes to the sine. Contours that pass through the field are never placed at a pole as long as the smallest gridbox is larger than these rounding errors.", "quantifier": "all grids whose resolution divides 180 degrees with up to 2^22 latitudes, all Lipschitz fields and rearrangements, all orders of summation, all sine functions accurate to 2^-53 and arc sine functions accurate to 2^-52, all ascending lists of levels above the minimum and not above the maximum", "why_tests_cant": "Tests compare the output with the output of the same routine or with one analytic field and a loose tolerance; none separates discretization from rounding or bounds both for every field, grid and order of summation.", "anchors": ["src/barotropic/grid.py:416-432", "src/barotropic/grid.py:511-573", "src/barotropic/grid.py:576-697"]}
{"id": "C158", "title": "The energy spectrum of the truncated equation obeys Fjørtoft's theorem", "statement": "With alias-free transforms, no forcing and no diffusion, both the sum of the energies of all degrees l and their sum with weights l(l+1) are constant in time (the first is the kinetic energy, the second the relative enstrophy). Energy that starts in one degree L therefore cannot move to smaller scales alone: the gain at l > L weighted with l(l+1)-L(L+1) equals the gain at l < L weighted with L(L+1)-l(l+1). The energy from degree k on stays below the initial sum of l(l+1) E_l divided by k(k+1), with or without diffusion of relative vorticity. The distance in PV from every solid-body rotation is constant, so solid-body rotation is stable to perturbations of any size.", "quantifier": "all valid grids with 2T+1 <= nlat, all alias-free transforms, all normalizations without zeros, all solutions of the semi-discrete equation on any time interval, all degrees", "why_tests_cant": "A test integrates one initial state for a finite number of steps and sees the invariants only up to time-stepping errors; it cannot exclude a one-sided cascade for other states or times.", "anchors": ["src/barotropic/state.py:183-189", "src/barotropic/state.py:213-227", "src/barotropic/model.py:BarotropicModel._pv_tendency_spectral", "src/barotropic/state.py:State.pv_flux_spectral"]}
{"id": "C159", "title": "The dipole of vorticity is independent of all other scales", "statement": "With alias-free transforms, the degree-1 coefficients of pv_flux_spectral are -iΩm times those of PV in every state: advection by the nonlinear flow never changes the dipole (the angular momentum vector), it only precesses with the rotation of the planet. In solutions the dipole feels nothing but its own forcing and diffusion, and without forcing it is given by a formula; its kinetic energy is constant or decays exponentially. In runs without forcing the dipole of all saved states depends on the dipole of the initial state only, for every time step. A dipole together with one other degree never generates further degrees, and the energies of degrees above 2 with weights l(l+1)-6 have a constant sum, so disturbances of flows of degrees 1 and 2 cannot grow.", "quantifier": "all valid grids with 2T+1 <= nlat, all alias-free transforms and normalizations without zeros, all states, all solutions of the semi-discrete equation, all runs without forcing (every time step, end and save interval)", "why_tests_cant": "A test can only sample initial states; the statement is about the absence of interactions for every combination of scales and every planet.", "anchors": ["src/barotropic/state.py:190-194", "src/barotropic/model.py:BarotropicModel._pv_tendency_spectral", "src/barotropic/model.py:BarotropicModel.run"]}
{"id": "C160", "title": "The dynamics are reversible and preserve volume in phase space", "statement": "Exchanging east and west (conjugating all coefficients) turns pv_flux_spectral into minus itself. Hence without forcing and diffusion a solution that is run backwards with east and west exchanged is again a solution, and integrating from the mirrored final state returns to the mirrored initial state. No spectral coefficient influences its own flux, so the tendency has zero divergence in the phase space of all coefficients (Liouville), also with a forcing that does not depend on PV; diffusion adds the constant -2 Σ ν(l(l+1)/r²)^order, which is negative for a positive coefficient.", "quantifier": "all valid grids with 2T+1 <= nlat, all alias-free transforms and normalizations without zeros, all states with real zonal coefficients, all solutions of the semi-discrete equation, all diffusion orders and coefficients, all forcings given as functions of time", "why_tests_cant": "Reversibility of individual runs is hidden by time stepping errors, and a divergence in a space of thousands of dimensions cannot be tested pointwise.", "anchors": ["src/barotropic/state.py:190-194", "src/barotropic/model.py:BarotropicModel._pv_tendency_spectral"]}
{"id": "C161", "title": "Zonalization with given contours preserves the order of fields", "statement": "With given contour values in ascending order, zonalize of a field that is nowhere smaller returns a profile that is nowhere smaller, for both quadratures and including contours outside of the range of the field and contours with equal equivalent latitude. If two fields differ by at most c, the equivalent latitude of a contour q in one lies between those of q-c and q+c in the other. Away from the north pole the profile stays in the range of the field. (Not so with automatic contours, which depend on the extremes of the field: larger fields can have smaller profiles; and a contour above all values becomes the value at the north pole.)", "quantifier": "all valid grids whose longitudes cover 360 degrees, all pairs of fields with 1..nlon columns, all non-empty ascending lists of contours, both quadratures", "why_tests_cant": "Order must hold for all pairs of fields; the cases at the poles and with repeated equivalent latitudes depend on how the sort in interp1d treats ties.", "anchors": ["src/barotropic/grid.py:599-662", "src/barotropic/grid.py:666-697"]}
{"id": "C162", "title": "Angular momentum of runs is exact for every time step", "statement": "With alias-free transforms, the coefficient of PV with m=0, n=1 (and with it the angular momentum about the axis) of all states returned by run is that of the initial state if there is no torque and no diffusion: neither start step, leapfrog nor filter change it, whatever the time step and however inaccurate the rest of the flow is. A forcing with constant coefficient c changes it by exactly c times the elapsed time. With diffusion the deviation from the background is multiplied by a number between 0 and 1, so diffusion of relative vorticity never accelerates or reverses the planet's mean rotation.", "quantifier": "all valid grids with 2T+1 <= nlat, all alias-free transforms and normalizations without zeros, all initial states, all non-negative time steps, ends and save intervals, all forcings without (or with constant) axial coefficient, all diffusion orders, coefficients and backgrounds", "why_tests_cant": "An exact conservation law of a time stepping scheme for all flows and time steps; tests see it only up to rounding in a few runs.", "anchors": ["src/barotropic/model.py:BarotropicModel.run", "src/barotropic/model.py:BarotropicModel.leapfrog", "src/barotropic/state.py:190-194"]}
{"id": "C163", "title": "Angular momentum about equatorial axes in runs", "statement": "With alias-free transforms, the angular momentum about axes in the equatorial plane (the PV coefficient m=n=1) of all states returned by run obeys the discretised equation of a damped oscillation with the planet's angular velocity, whatever the rest of the flow is: relaxation and diffusion enter with their own rates only. Without forcing and diffusion it decays to zero exponentially if 3 (Omega dt)^2 < 2, although angular momentum about the planet's axis is conserved exactly; the loss is exp(-Omega^2 t dt / 8) up to errors of second order and caused by the Robert-Asselin filter. It grows beyond all bounds if 3 (Omega dt)^2 > 2, for every initial state with such momentum. The magnitude of the angular momentum vector is therefore never conserved on a rotating planet.", "quantifier": "all valid grids with 2T+1 <= nlat, all alias-free transforms and normalizations without zeros, all initial states, all time steps, ends and save intervals, all relaxation rates and diffusion coefficients and orders", "why_tests_cant": "The decay is slow (e-folding about a month for a 10-minute step on Earth) and hidden by the rest of the flow; a test sees one flow and one time step.", "anchors": ["src/barotropic/model.py:BarotropicModel.leapfrog", "src/barotropic/model.py:BarotropicModel.run", "src/barotropic/state.py:190-194", "src/barotropic/rhs.py:73-91"]}
{"id": "C164", "title": "Frequency response of the wavenumber-dependent Hann filter", "statement": "filter_by_wavenumber multiplies every zonal wave by a real factor that depends only on the wave's wavenumber p and the local window (half-width n = floor(nlon/k)): amplitudes change, phases do not. The factor is 1 for the zonal mean and never exceeds 1 in magnitude. It decreases strictly with p from 1 to 0 until p n = nlon, is exactly 1/2 at 2 p n = nlon, and vanishes exactly where 2 p n is a multiple of nlon, at least twice nlon. Hence waves with p <= k/2 keep at least half of their amplitude, waves with p <= k are not reversed, and waves with p >= 2k keep at most a twelfth, for every nlon and k (also if k does not divide nlon). Between, shorter waves may be reversed in sign.", "quantifier": "all fields with one wave plus zonal means per latitude, all amplitudes, phases and wavenumbers p <= nlon/2, all nlon >= 2, all wavenumber profiles and fields (k in [1, nlon/2] for the bands)", "why_tests_cant": "The response is a property of all windows and all waves; tests filter one field, and sidelobes with reversed sign are small.", "anchors": ["src/barotropic/diagnostics.py:filter_by_wavenumber", "src/barotropic/diagnostics.py:202-229"]}
{"id": "C165", "title": "Waveguides are where stationary waves oscillate", "statement": "For every zonal flow without zeros of the wind, a wave of zonal wavenumber k is stationary (to first order in amplitude) iff its meridional structure obeys the equation of an oscillator in the Mercator projection with squared meridional wavenumber Ks^2 - k^2, where Ks is the stationary wavenumber of the code in the limit of fine grids. Consequently between two latitudes where a stationary wave vanishes (or a pole) there is a part of a waveguide of wavenumber k as extracted by extract_ks_waveguides, without waveguides there are no stationary waves at all, and inside of a waveguide stationary waves vanish somewhere in every interval of Mercator width pi/m if Ks^2 - k^2 >= m^2. On solid-body rotations the stationary spherical harmonics are such waves.", "quantifier": "all zonal flows U with PV Q and without zeros of U away from the poles, all wavenumbers k > 0, all twice continuously differentiable meridional structures, all pairs of latitudes; for the extracted waveguides all flows with simple crossings and all sufficiently fine grids", "why_tests_cant": "The interpretation of Ks as a refractive index is a statement about all waves and all flows; tests compare Ks with numbers.", "anchors": ["src/barotropic/diagnostics.py:stationary_wavenumber", "src/barotropic/diagnostics.py:extract_ks_waveguides"]}
{"id": "C166", "title": "Relaxation keeps every flow bounded", "statement": "With LinearRelaxation as the only forcing, for any reference PV, the enstrophy of the difference of PV from any solid-body rotation towards which diffusion acts (any at all without diffusion) never exceeds the weighted mean of its values in the initial state and in the (truncated) reference, where the weight of the initial state is exp(-rate t). If the reference is a solid-body rotation, every initial state, of whatever amplitude, approaches it: the enstrophy of the difference is at most exp(-2 rate t) times the initial one, and exactly that without diffusion. The difference from rest bounds kinetic energy. The states that run returns obey all bounds up to any tolerance if the time step is sufficiently small.", "quantifier": "all grids and truncations for which products are not aliased, all references, rates >= 0, orders and coefficients of diffusion, initial states, times and tolerances", "why_tests_cant": "Boundedness for all times and all amplitudes, including turbulent flows, is not observable in finite runs.", "anchors": ["src/barotropic/rhs.py:LinearRelaxation", "src/barotropic/model.py:BarotropicModel.run"]}
{"id": "C167", "title": "Growing waves need a change of sign of the PV gradient, and the stationary wavenumber shows where waves can grow", "statement": "A wave of zonal wavenumber k > 0 that grows or decays exponentially while it moves at constant angular velocity on a zonal flow (a normal mode of the linearised equation of the model) obeys Rayleigh's equation. If such a wave exists, the meridional PV gradient of the flow has both signs (Rayleigh, Kuo), and for every angular velocity w0 there is a latitude, where the amplitude of the wave is not zero, with PV gradient and angular velocity of the flow relative to w0 of equal sign (Fjortoft). In particular the square of the stationary wavenumber is positive somewhere, and stationary_wavenumber shows that on every sufficiently fine grid: where it finds no real stationary wavenumber, no wave grows. Solid-body rotations have no growing waves.", "quantifier": "all zonal flows, all wavenumbers k > 0, all growth rates other than 0, all speeds, all twice continuously differentiable meridional structures; for the code all flows with PV five times continuously differentiable, all sufficiently fine grids and small thresholds min_u", "why_tests_cant": "The criteria are statements about all waves on all flows; a run that shows no growth says nothing about other waves.", "anchors": ["src/barotropic/diagnostics.py:stationary_wavenumber", "src/barotropic/model.py:BarotropicModel._pv_tendency_spectral"]}
{"id": "C168", "title": "Filters multiply waves", "statement": "For a symmetric window with an odd number of points, filter_zonal multiplies every wave around a latitude circle by the cosine transform of the window, without shifting its phase, and filter_meridional does so with every wave that is symmetric about the ends of the meridian. Normalized windows keep the mean; no wave is amplified if the weights are not negative. With the boxcar window the factor is a Dirichlet kernel, and a wave is removed if and only if the window covers a whole number of its periods. A smoothed wave never has the opposite sign of the wave (false: the boxcar window reverses short waves).", "quantifier": "all grids, symmetric windows of odd length (also longer than the field), widths, wavenumbers and phases", "why_tests_cant": "the response of a filter is a statement about all waves and windows", "anchors": ["src/barotropic/grid.py:Grid.filter_zonal", "src/barotropic/grid.py:Grid.filter_meridional", "src/barotropic/grid.py:Grid.get_filter_window"]}
{"id": "C169", "title": "Filters in wavenumber space", "statement": "filter_zonal with any window multiplies every Fourier coefficient by the transfer function of the window, which is real for symmetric windows of odd length; it can be interchanged with the selection of wavenumbers by _restrict_fourier_zonal. Filtering with normalized non-negative weights does not increase the sum of squares. filter_zonal and filter_meridional with the boxcar window lose no information if and only if the number of points of the window and the number of gridpoints have no divisor in common.", "quantifier": "all grids, fields, windows and wavenumbers", "why_tests_cant": "whether two different fields are filtered to the same field is a statement about all pairs of fields", "anchors": ["src/barotropic/grid.py:Grid.filter_zonal", "src/barotropic/grid.py:Grid.filter_meridional"]}
{"id": "C170", "title": "The shear bounds the growth of waves", "statement": "On a zonal flow with differentiable angular velocity, a wave that obeys the linearised equation of the model and grows or decays exponentially does so at most at half the rate of the strongest shear cos(phi) |d omega/d phi|, whatever the PV of the flow. Amplitudes hence never exceed exp(S t/2) times the initial one, and waves do not grow on flows without shear.", "quantifier": "all zonal flows with differentiable angular velocity, PV profiles, wavenumbers and structures of class C^2", "why_tests_cant": "growth rates of all waves on all flows", "anchors": ["src/barotropic/model.py:BarotropicModel._pv_tendency_spectral"]}
{"id": "C171", "title": "Filters are self-adjoint", "statement": "filter_zonal and filter_meridional with a symmetric window of odd length are self-adjoint: the scalar product of a filtered profile with another one is that of the profile with the other one filtered, also with windows longer than the profile. filter_meridional hence multiplies every coefficient of the cosine transform of a profile by the response of the window.", "quantifier": "all grids, profiles and symmetric windows of odd length", "why_tests_cant": "statement about all pairs of profiles", "anchors": ["src/barotropic/grid.py:Grid.filter_zonal", "src/barotropic/grid.py:Grid.filter_meridional"]}
