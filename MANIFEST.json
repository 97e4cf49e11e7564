{
 "claims": [
  {
   "property": "C01",
   "status": "proved",
   "theorems": [
    "Barotropic.C01_accepts",
    "Barotropic.C01_grid_coordinates"
   ],
   "note": ""
  },
  {
   "property": "C02",
   "status": "partial",
   "theorems": [
    "Barotropic.C02_spacing_partial",
    "Barotropic.C02_spacing_refuted"
   ],
   "note": "Declared spacing equals coordinate spacing only when the resolution divides 180/360; refuted in general."
  },
  {
   "property": "C03",
   "status": "partial",
   "theorems": [
    "Barotropic.C03_equality_partial",
    "Barotropic.C03_equality_refuted"
   ],
   "note": "Equality is reflexive; symmetry, transitivity and hash consistency are refuted."
  },
  {
   "property": "C04",
   "status": "proved",
   "theorems": [
    "Barotropic.C04_coriolis",
    "Barotropic.C04_circumference"
   ],
   "note": ""
  },
  {
   "property": "C05",
   "status": "proved",
   "theorems": [
    "Barotropic.C05_latitude_slice",
    "Barotropic.C05_swap",
    "Barotropic.C05_hemispheres"
   ],
   "note": ""
  },
  {
   "property": "C06",
   "status": "proved",
   "theorems": [
    "Barotropic.C06_longitude_slice"
   ],
   "note": ""
  },
  {
   "property": "C07",
   "status": "proved",
   "theorems": [
    "Barotropic.C07_no_assertion",
    "Barotropic.C07_mask",
    "Barotropic.C07_extract_2d",
    "Barotropic.C07_extract_1d",
    "Barotropic.C07_extract_coordinates",
    "Barotropic.C07_extract_errors"
   ],
   "note": ""
  },
  {
   "property": "C08",
   "status": "proved",
   "theorems": [
    "Barotropic.C08_lon_mono"
   ],
   "note": "Non-modification of grid.lon: the model has value semantics; fancy indexing copies (numpy fact, trusted)."
  },
  {
   "property": "C09",
   "status": "proved",
   "theorems": [
    "Barotropic.C09_selection_errors",
    "Barotropic.C09_scalar"
   ],
   "note": ""
  },
  {
   "property": "C10",
   "status": "partial",
   "theorems": [
    "Barotropic.C10_area_positive_symmetric",
    "Barotropic.C10_total_partial",
    "Barotropic.C10_total_refuted"
   ],
   "note": "Positivity and symmetry proved; the total is 4*pi*r^2 iff resolution*nlon = 360, refuted otherwise."
  },
  {
   "property": "C100",
   "status": "proved",
   "theorems": [
    "Barotropic.C100_euler",
    "Barotropic.C100_leapfrog",
    "Barotropic.C100_run"
   ],
   "note": "Relative to the transforms' divergence operator; linear transforms."
  },
  {
   "property": "C101",
   "status": "partial",
   "theorems": [
    "Barotropic.C101_rounding",
    "Barotropic.C101_bracket",
    "Barotropic.C101_exact_lon",
    "Barotropic.C101_exact_lat",
    "Barotropic.C101_near",
    "Barotropic.C101_refuted"
   ],
   "note": "Holds if the resolution divides the circle exactly. False for e.g. 180/255, whose grid has one latitude and one longitude too few; such a grid also does not survive export and import of a dataset. The true number is missed by at most one."
  },
  {
   "property": "C102",
   "status": "partial",
   "theorems": [
    "Barotropic.C102_exact_lon",
    "Barotropic.C102_exact_lat",
    "Barotropic.C102_close_lon",
    "Barotropic.C102_close_lat",
    "Barotropic.C102_sorted_lon",
    "Barotropic.C102_sorted_lat",
    "Barotropic.C102_symmetry_refuted"
   ],
   "note": "Order, range, end points and accuracy hold for all grids, exactness for dyadic spacings. False: equator at 0 and symmetry, e.g. for 79 latitudes."
  },
  {
   "property": "C103",
   "status": "partial",
   "theorems": [
    "Barotropic.C103_exact",
    "Barotropic.C103_refuted"
   ],
   "note": "Holds for integers and other dyadic times. False in general: three steps of 0.3 s do not reach 0.9 s and the time step changes."
  },
  {
   "property": "C104",
   "status": "partial",
   "theorems": [
    "Barotropic.C104_width",
    "Barotropic.C104_refuted"
   ],
   "note": "Holds unless the wavelength of twice the wavenumber is a whole number of gridpoints; then the window can be one gridpoint narrower on each side. This happens for wavenumber 6 on the default grid of 2.5 degrees."
  },
  {
   "property": "C105",
   "status": "partial",
   "theorems": [
    "Barotropic.C105_exists",
    "Barotropic.C105_lawful",
    "Barotropic.C105_default_refuted"
   ],
   "note": "Holds for truncations up to nlat - 2. For the default truncation nlat - 1 no transform inverts all harmonics, because those of order 1 cannot be told apart on the grid; a transform that is exact up to degree nlat - 2 exists."
  },
  {
   "property": "C106",
   "status": "proved",
   "theorems": [
    "Barotropic.C106_operators",
    "Barotropic.C106_wind",
    "Barotropic.C106_state"
   ],
   "note": "For exact transforms (C105)."
  },
  {
   "property": "C107",
   "status": "proved",
   "theorems": [
    "Barotropic.C107_flux",
    "Barotropic.C107_solution",
    "Barotropic.C107_wave",
    "Barotropic.C107_run"
   ],
   "note": "For transforms that are exact up to twice the degree of the state (C105)."
  },
  {
   "property": "C108",
   "status": "proved",
   "theorems": [
    "Barotropic.C108_error",
    "Barotropic.C108_converges"
   ],
   "note": "In exact arithmetic, for transforms that are exact up to twice the degree of the wave (C105)."
  },
  {
   "property": "C109",
   "status": "proved",
   "theorems": [
    "Barotropic.C109_stable",
    "Barotropic.C109_unstable",
    "Barotropic.C109_decay",
    "Barotropic.C109_marginal"
   ],
   "note": "In exact arithmetic, for transforms that are exact up to twice the degree of the wave (C105). Below the limit waves decay exponentially (C109_decay), at the limit they stay bounded (C109_marginal)."
  },
  {
   "property": "C11",
   "status": "proved",
   "theorems": [
    "Barotropic.C11_mean_value",
    "Barotropic.C11_mean_is_mean",
    "Barotropic.C11_meridional",
    "Barotropic.C11_zonal",
    "Barotropic.C11_rotation",
    "Barotropic.C11_iterated",
    "Barotropic.C11_errors",
    "Barotropic.C11_region_mean"
   ],
   "note": ""
  },
  {
   "property": "C110",
   "status": "proved",
   "theorems": [
    "Barotropic.C110_diagnostics",
    "Barotropic.C110_rates",
    "Barotropic.C110_euler",
    "Barotropic.C110_leapfrog"
   ],
   "note": "Integrals are over the sphere (Lebesgue), of the functions whose grid values the code returns; Gauss' theorem is proved from the divergence theorem of Mathlib. The transform is exact up to degree B; D is at most half of B and of the truncation, so that products are resolved."
  },
  {
   "property": "C111",
   "status": "proved",
   "theorems": [
    "Barotropic.C111_order4_2d",
    "Barotropic.C111_order4_1d",
    "Barotropic.C111_order2_2d",
    "Barotropic.C111_order2_1d"
   ],
   "note": "In exact arithmetic, for grids whose resolution divides 180 degrees (on others the code divides by a distance that is not the distance of its latitudes)."
  },
  {
   "property": "C112",
   "status": "proved",
   "theorems": [
    "Barotropic.C112_meridional",
    "Barotropic.C112_quad",
    "Barotropic.C112_mean",
    "Barotropic.C112_converges"
   ],
   "note": "In exact arithmetic and without a domain field z. quad is correct on grids whose resolution divides 360 degrees (on others it integrates over a part of the circle, C16); mean needs no such condition."
  },
  {
   "property": "C113",
   "status": "partial",
   "theorems": [
    "Barotropic.C113_given",
    "Barotropic.C113_wind_partial",
    "Barotropic.C113_pole",
    "Barotropic.C113_wind_refuted",
    "Barotropic.C113_stationary_wave"
   ],
   "note": "Fourth order for given PV. When PV is computed from the wind it is third order at latitudes whose formulas do not reach the poles, and false next to the poles: PV at the pole is planetary vorticity only, so that for solid-body rotation Ks^2 is off by about 1/2 on every grid (C113_pole, C113_wind_refuted). C113_stationary_wave relates the analytic value to the waves of C109."
  },
  {
   "property": "C114",
   "status": "proved",
   "theorems": [
    "Barotropic.C114_error",
    "Barotropic.C114_unique",
    "Barotropic.C114_exists",
    "Barotropic.C114_converges",
    "Barotropic.C114_forcing"
   ],
   "note": "In exact arithmetic and for linear transforms, with the sup norm of the spectral coefficients and of gridded PV. Existence is local in time (aliasing can make the truncated equation blow up; no bound of the lifetime is claimed). TimedOffSwitch is not Lipschitz continuous in time and not covered."
  },
  {
   "property": "C115",
   "status": "proved",
   "theorems": [
    "Barotropic.C115_contours",
    "Barotropic.C115_profile",
    "Barotropic.C115_uniform",
    "Barotropic.C115_converges",
    "Barotropic.C115_exists",
    "Barotropic.C115_unique"
   ],
   "note": "In exact arithmetic, for grids whose longitudes cover the circle (resolution * nlon = 360). Linear convergence for Lipschitz fields; no claim of a higher order for smoother fields."
  },
  {
   "property": "C116",
   "status": "partial",
   "theorems": [
    "Barotropic.C116_contoured",
    "Barotropic.C116_stable",
    "Barotropic.C116_fawa_stable",
    "Barotropic.C116_converges",
    "Barotropic.C116_fawa",
    "Barotropic.C116_plateau_refuted"
   ],
   "note": "In exact arithmetic. Interpolated FALWA with the default quadrature (sptrapz) converges if the rearranged PV increases strictly. Where it is constant there are no contours and FALWA is interpolated linearly: refuted there (field positive in one hemisphere only, 45 degrees S, error does not vanish). No further condition for boxcounting or on equivalent latitudes (PV not constant)."
  },
  {
   "property": "C117",
   "status": "proved",
   "theorems": [
    "Barotropic.C117_background",
    "Barotropic.C117_zonalize"
   ],
   "note": "For exact solutions sampled on a grid, in exact arithmetic (numerical solutions conserve PV only approximately, see C114)."
  },
  {
   "property": "C118",
   "status": "proved",
   "theorems": [
    "Barotropic.C118_nonacceleration",
    "Barotropic.C118_converges"
   ],
   "note": "For exact solutions sampled on a grid, in exact arithmetic. With the default quadrature only for strictly increasing rearranged PV (see C116_plateau_refuted)."
  },
  {
   "property": "C119",
   "status": "proved",
   "theorems": [
    "Barotropic.C119_exists",
    "Barotropic.C119_projection",
    "Barotropic.C119_rates",
    "Barotropic.C119_budget",
    "Barotropic.C119_conserved",
    "Barotropic.C119_dissipation"
   ],
   "note": "For transforms that are the truncation of a transform exact up to twice the truncation (exists if 2 ntrunc + 2 <= nlat). Exact arithmetic. Budgets are those of the equation in continuous time; runs: C120."
  },
  {
   "property": "C12",
   "status": "partial",
   "theorems": [
    "Barotropic.C12_extracted_partial",
    "Barotropic.C12_extracted_refuted"
   ],
   "note": "Fails for meridional means over wrapping full-globe regions; proved in all other cases."
  },
  {
   "property": "C120",
   "status": "proved",
   "theorems": [
    "Barotropic.C120_exists",
    "Barotropic.C120_converges",
    "Barotropic.C120_conserved",
    "Barotropic.C120_dissipation",
    "Barotropic.C114_forcing"
   ],
   "note": "Transforms as in C119, exact arithmetic. The bound on the time step depends on the tolerance, the interval and the initial state."
  },
  {
   "property": "C121",
   "status": "proved",
   "theorems": [
    "Barotropic.C121_stability",
    "Barotropic.C121_truncation",
    "Barotropic.C121_converges",
    "Barotropic.C121_grids"
   ],
   "note": "Transforms as in C119 (grids with 2 ntrunc + 1 <= nlat), no forcing, exact arithmetic. The bound on the time step depends on truncation and initial state. Initial states are close to the initial vorticity in the mean square; such states exist for every sufficiently large truncation (part of the theorems)."
  },
  {
   "property": "C122",
   "status": "partial",
   "theorems": [
    "Barotropic.C122_rounding",
    "Barotropic.C122_order",
    "Barotropic.C122_damping",
    "Barotropic.C122_mean",
    "Barotropic.C122_accuracy_partial",
    "Barotropic.C122_numpy_partial",
    "Barotropic.C122_earth",
    "Barotropic.C122_refuted",
    "Barotropic.C122_order4_refuted"
   ],
   "note": "Damping, sign, monotonicity in degree and conservation of the mean hold for all orders and rounding errors. The accuracy theorems need powers of eigenvalues that do not underflow; orders 1 and 2 on Earth are covered completely. False for orders from 5 on (C122_refuted) and practically also for order 4 (C122_order4_refuted)."
  },
  {
   "property": "C123",
   "status": "partial",
   "theorems": [
    "Barotropic.C123_advance",
    "Barotropic.C123_filter",
    "Barotropic.C123_mean",
    "Barotropic.C123_refuted",
    "Barotropic.C123_stagnation_refuted"
   ],
   "note": "One coefficient with given tendencies. Accuracy of the step and of the filter and the bound on the drift of the mean are proved for all numbers of steps; exact conservation (C123_refuted) and convergence for dt -> 0 (C123_stagnation_refuted) are false in single precision."
  },
  {
   "property": "C124",
   "status": "partial",
   "theorems": [
    "Barotropic.C124_summary",
    "Barotropic.C124_wave_activity_partial",
    "Barotropic.C124_rwp_partial",
    "Barotropic.C124_waveguides",
    "Barotropic.C124_wavenumbers",
    "Barotropic.C124_packet_nan",
    "Barotropic.C124_constant_refuted",
    "Barotropic.C124_rwp_odd_refuted"
   ],
   "note": "Holds for the summary and waveguides figures. wave_activity hands equal levels to matplotlib if PV is constant; rwp_diagnostics raises AssertionError for every state of a grid with an odd number of longitudes."
  },
  {
   "property": "C125",
   "status": "partial",
   "theorems": [
    "Barotropic.C125_grid",
    "Barotropic.C125_given",
    "Barotropic.C125_roundtrip_partial",
    "Barotropic.C125_planet_refuted",
    "Barotropic.C125_resolution_refuted",
    "Barotropic.C125_double",
    "Barotropic.C125_usual",
    "Barotropic.C125_double_refuted"
   ],
   "note": "Holds for grids of the Earth with default truncation whose resolution divides 180 degrees. Refuted for other planets (relative vorticity changes), for other resolutions (AssertionError) and, in double precision, for some numbers of latitudes such as 84 (the created grid lacks one latitude and one longitude); no other outcome is possible in double precision."
  },
  {
   "property": "C126",
   "status": "proved",
   "theorems": [
    "Barotropic.C126_vorticity",
    "Barotropic.C126_unique"
   ],
   "note": "For diffusion of PV or of relative vorticity, as in the model."
  },
  {
   "property": "C127",
   "status": "proved",
   "theorems": [
    "Barotropic.C127_converges",
    "Barotropic.C127_samples"
   ],
   "note": "For transforms without aliasing (C119) and runs without forcing."
  },
  {
   "property": "C128",
   "status": "partial",
   "theorems": [
    "Barotropic.C128_equivalent_latitude",
    "Barotropic.C128_area",
    "Barotropic.C128_derivative2",
    "Barotropic.C128_derivative4",
    "Barotropic.C128_sptrapz",
    "Barotropic.C128_poisson",
    "Barotropic.C128_fourier",
    "Barotropic.C128_wavenumber",
    "Barotropic.C128_lon_mono",
    "Barotropic.C128_mask",
    "Barotropic.C128_extract",
    "Barotropic.C128_of_pv",
    "Barotropic.C128_of_wind",
    "Barotropic.C128_pv",
    "Barotropic.C128_u",
    "Barotropic.C128_v",
    "Barotropic.C128_streamfunction",
    "Barotropic.C128_tendency",
    "Barotropic.C128_euler",
    "Barotropic.C128_leapfrog",
    "Barotropic.C128_run",
    "Barotropic.C128_independent",
    "Barotropic.C128_shared_refuted",
    "Barotropic.C128_handed_out_refuted",
    "Barotropic.C128_falwa_refuted",
    "Barotropic.C128_levels_refuted"
   ],
   "note": "Proved for every function that writes into arrays, for reading fields, time steps and whole runs: nothing that existed before is modified and the results are those of the models without memory. Partial because the code shares arrays with the caller: states created with spectral PV use the caller's array, fields handed out are the arrays that are kept, as_hn2016 hands out the grid's longitudes and views, zonalize returns the given levels (refuted). Transforms of spharm and numpy functions are taken to create new arrays and not to write into their arguments."
  },
  {
   "property": "C129",
   "status": "proved",
   "theorems": [
    "Barotropic.C129_stability",
    "Barotropic.C129_truncation",
    "Barotropic.C129_converges",
    "Barotropic.C129_relaxation",
    "Barotropic.C129_prescribed",
    "Barotropic.C129_orography",
    "Barotropic.C129_unique"
   ],
   "note": "Transforms as in C119 (grids with 2 ntrunc + 1 <= nlat), exact arithmetic. The accuracy of the forcing is a hypothesis on the transform of the gridded reference or forcing. Orographic forcing with the actual or zonal-mean wind is covered by the general theorem only if its discretisation is bounded and accurate; this is not proved. TimedOffSwitch is not continuous in time and excluded."
  },
  {
   "property": "C13",
   "status": "proved",
   "theorems": [
    "Barotropic.C13_exact_2d",
    "Barotropic.C13_exact_1d"
   ],
   "note": "For grids whose dlat is the true latitude spacing (resolution divides 180)."
  },
  {
   "property": "C130",
   "status": "proved",
   "theorems": [
    "Barotropic.C130_inverse",
    "Barotropic.C130_accuracy",
    "Barotropic.C130_run",
    "Barotropic.C130_uniform"
   ],
   "note": "Transforms as in C119 (grids with 2 ntrunc + 1 <= nlat), exact arithmetic, no forcing. The bound on the time step depends on the truncation. Errors at points are stated away from the poles, where longitude and latitude are coordinates."
  },
  {
   "property": "C131",
   "status": "proved",
   "theorems": [
    "Barotropic.C131_rearrangement",
    "Barotropic.C131_background",
    "Barotropic.C131_zonalize",
    "Barotropic.C131_solution",
    "Barotropic.C131_conserved",
    "Barotropic.C131_fawa",
    "Barotropic.C131_wind",
    "Barotropic.C131_nonacceleration"
   ],
   "note": "Transforms as in C119 (grids with 2 ntrunc + 1 <= nlat and resolution * nlon = 360), exact arithmetic, no forcing. The bound on the time step depends on the truncation. FAWA with the default quadrature requires that the rearranged PV increases strictly (see C116)."
  },
  {
   "property": "C132",
   "status": "partial",
   "theorems": [
    "Barotropic.C132_int",
    "Barotropic.C132_indices",
    "Barotropic.C132_slice",
    "Barotropic.C132_range",
    "Barotropic.C132_split",
    "Barotropic.C132_reversed",
    "Barotropic.C132_contains",
    "Barotropic.C132_index",
    "Barotropic.C132_length",
    "Barotropic.C132_rebuild_partial",
    "Barotropic.C132_rebuild_refuted"
   ],
   "note": "Indexing, slicing and searching hold for all lists. Slices are tuples; making them into a StateList again works if equality of the grids in the list is symmetric and transitive (e.g. one grid object), and raises AssertionError in general (C132_rebuild_refuted) because equality of grids is not transitive."
  },
  {
   "property": "C133",
   "status": "partial",
   "theorems": [
    "Barotropic.C133_step",
    "Barotropic.C133_times",
    "Barotropic.C133_count",
    "Barotropic.C133_saved",
    "Barotropic.C133_save_times",
    "Barotropic.C133_exact",
    "Barotropic.C133_stuck_refuted",
    "Barotropic.C133_saved_refuted"
   ],
   "note": "Numbers as times; overflow and underflow are not modelled. Times, steps, number of iterations and save times are right up to the stated rounding errors. False: saved states are not evenly spaced in general (C133_saved_refuted: dt = 0.7, save_every = 1.4), and steps that are too small for the size of the time never end (C133_stuck_refuted)."
  },
  {
   "property": "C134",
   "status": "partial",
   "theorems": [
    "Barotropic.C134_domain",
    "Barotropic.C134_sum",
    "Barotropic.C134_area",
    "Barotropic.C134_area_monotone",
    "Barotropic.C134_sine",
    "Barotropic.C134_sine_monotone",
    "Barotropic.C134_latitude",
    "Barotropic.C134_contours",
    "Barotropic.C134_levels",
    "Barotropic.C134_cell",
    "Barotropic.C134_polygon",
    "Barotropic.C134_monotone",
    "Barotropic.C134_zonalize",
    "Barotropic.C134_overshoot_refuted"
   ],
   "note": "(a)-(c) and exactness at poles and contours and the lower bound proved. The upper bound and monotonicity of (d) are refuted (overshoot just below a knot) and hold up to 3*2^-50 times the largest value. The gridpoint areas are given doubles (see C141 for their accuracy); exponent range unlimited; np.arcsin and np.sin are any monotone functions; see C138 for the sptrapz quadrature in double precision."
  },
  {
   "property": "C135",
   "status": "partial",
   "theorems": [
    "Barotropic.C135_falwa_nonneg",
    "Barotropic.C135_fawa_nonneg",
    "Barotropic.C135_falwa",
    "Barotropic.C135_interpolated",
    "Barotropic.C135_pole_refuted"
   ],
   "note": "Proved before interpolation. After interpolation sign and zero at the North Pole are refuted (C135_pole_refuted: 3.75 degree grid) and hold up to 2*2^-50 of the largest value; the zero at the South Pole is exact. Gridpoint areas and cosines are given positive numbers (see C141 for their accuracy); exponent range unlimited; see C138 for the sptrapz quadrature in double precision."
  },
  {
   "property": "C136",
   "status": "partial",
   "theorems": [
    "Barotropic.C136_monotone",
    "Barotropic.C136_mean",
    "Barotropic.C136_meridional",
    "Barotropic.C136_zonal",
    "Barotropic.C136_constant",
    "Barotropic.C136_constant_refuted",
    "Barotropic.C136_window",
    "Barotropic.C136_filter",
    "Barotropic.C136_filter_refuted"
   ],
   "note": "Exact preservation of constants is refuted for means (0.1 three times) and filters (boxcar of 3 points and 7); it holds up to the stated number of roundings. Everything else proved. scipy skips weights below 2^-52, which is not modelled."
  },
  {
   "property": "C137",
   "status": "partial",
   "theorems": [
    "Barotropic.C137_order4",
    "Barotropic.C137_order2",
    "Barotropic.C137_symmetry",
    "Barotropic.C137_constant",
    "Barotropic.C137_constant_refuted"
   ],
   "note": "Rounding error bounds relative to the exact stencils, exact sign and power-of-two scaling symmetry, and exact zero for constants at order 2 are proved. The corresponding statement for constants at order 4 is false and refuted."
  },
  {
   "property": "C138",
   "status": "proved",
   "theorems": [
    "Barotropic.C138_interval",
    "Barotropic.C138_column",
    "Barotropic.C138_quad",
    "Barotropic.C138_area",
    "Barotropic.C138_quad_area",
    "Barotropic.C138_sine",
    "Barotropic.C138_falwa",
    "Barotropic.C138_falwa_nonneg"
   ],
   "note": "The library functions sin and cos are parameters with an absolute error of at most 2^-53. Overflow and underflow are not modelled."
  },
  {
   "property": "C139",
   "status": "partial",
   "theorems": [
    "Barotropic.C139_vorticity",
    "Barotropic.C139_eddy",
    "Barotropic.C139_vorticity_refuted",
    "Barotropic.C139_energy",
    "Barotropic.C139_eddy_refuted",
    "Barotropic.C139_relaxation",
    "Barotropic.C139_orographic",
    "Barotropic.C139_bell",
    "Barotropic.C139_levelled",
    "Barotropic.C139_jet_poles",
    "Barotropic.C139_jet_poles_refuted"
   ],
   "note": "Exact recovery and symmetric addition of vorticity, exactly zero eddy enstrophy of symmetric PV and exactly vanishing wind of the jet at the poles are false in double precision and refuted; everything else is proved."
  },
  {
   "property": "C14",
   "status": "proved",
   "theorems": [
    "Barotropic.C14_structure_2d",
    "Barotropic.C14_structure_1d",
    "Barotropic.C14_errors"
   ],
   "note": ""
  },
  {
   "property": "C140",
   "status": "partial",
   "theorems": [
    "Barotropic.C140_mean",
    "Barotropic.C140_mean_meridional",
    "Barotropic.C140_mean_zonal",
    "Barotropic.C140_boxcount",
    "Barotropic.C140_boxcount_excludes",
    "Barotropic.C140_trapz",
    "Barotropic.C140_quad",
    "Barotropic.C140_area_boxcount",
    "Barotropic.C140_area_boxcount_present",
    "Barotropic.C140_area_trapz",
    "Barotropic.C140_levels",
    "Barotropic.C140_contours",
    "Barotropic.C140_zonalize",
    "Barotropic.C140_falwa",
    "Barotropic.C140_falwa_boxcount",
    "Barotropic.C140_falwa_refuted",
    "Barotropic.C140_falwa_grid_refuted",
    "Barotropic.C140_present_column",
    "Barotropic.C140_present_quad",
    "Barotropic.C140_present_mean",
    "Barotropic.C140_present_levels",
    "Barotropic.C140_present_contours",
    "Barotropic.C140_present_zonalize",
    "Barotropic.C140_present_falwaContours",
    "Barotropic.C140_present_falwaAt",
    "Barotropic.C140_present"
   ],
   "note": "Without missing values the model is that of C24-C27 (C140_present and the theorems before it). False for gridded local wave activity with the default trapezoidal rule: one missing value makes the result exactly zero everywhere (C140_falwa_refuted). Contour areas for given levels silently drop missing values (C140_area_boxcount, C140_area_trapz), and automatic contours are reported at the north pole (C140_contours). The rest is proved as stated."
  },
  {
   "property": "C141",
   "status": "proved",
   "theorems": [
    "Barotropic.C141_deg2rad",
    "Barotropic.C141_poles",
    "Barotropic.C141_phi",
    "Barotropic.C141_coriolis",
    "Barotropic.C141_coriolis_sign",
    "Barotropic.C141_circumference",
    "Barotropic.C141_area",
    "Barotropic.C141_area_relative",
    "Barotropic.C141_area_pos",
    "Barotropic.C141_area_total",
    "Barotropic.C141_boxcount"
   ],
   "note": "The library functions sin and cos are parameters with an absolute error of at most 2^-53. dlam is a given double. Overflow and underflow are not modelled."
  },
  {
   "property": "C142",
   "status": "partial",
   "theorems": [
    "Barotropic.C142_order4",
    "Barotropic.C142_order2",
    "Barotropic.C142_spacing",
    "Barotropic.C142_field",
    "Barotropic.C142_column",
    "Barotropic.C142_quad",
    "Barotropic.C142_refine_refuted"
   ],
   "note": "Error bounds proved. Refuted: finer grids give better derivatives; the computed derivative of the constant field 0.1 exceeds every bound on sufficiently fine grids (C142_refine_refuted). Overflow and underflow are not modelled; the bounds for integrals are worst cases (rounding grows with the square of the number of latitudes); domains (z) other than the whole sphere are covered by C138 only."
  },
  {
   "property": "C143",
   "status": "partial",
   "theorems": [
    "Barotropic.C143_derivative",
    "Barotropic.C143_field",
    "Barotropic.C143_profile",
    "Barotropic.C143_row",
    "Barotropic.C143_stationary",
    "Barotropic.C143_stationary_present",
    "Barotropic.C143_stationary_wind",
    "Barotropic.C143_wind_present",
    "Barotropic.C143_envelope",
    "Barotropic.C143_envelope_present",
    "Barotropic.C143_dominant_present",
    "Barotropic.C143_dominant_refuted",
    "Barotropic.C143_boundary",
    "Barotropic.C143_waveguide_refuted",
    "Barotropic.C143_waveguide_all_refuted"
   ],
   "note": "Proved for derivatives, means, stationary wavenumber and envelope. Refuted: the dominant wavenumber of a row with a missing value is 0 (C143_dominant_refuted); waveguides extend over missing values up to the South Pole (C143_waveguide_refuted) and are silently absent from a missing profile (C143_waveguide_all_refuted). Infinite values and smoothing windows are not modelled with missing values."
  },
  {
   "property": "C144",
   "status": "proved",
   "theorems": [
    "Barotropic.C144_run",
    "Barotropic.C144_readme",
    "Barotropic.C144_regions",
    "Barotropic.C144_windows",
    "Barotropic.C144_derivative",
    "Barotropic.C144_east_west",
    "Barotropic.C144_north_south",
    "Barotropic.C144_lists",
    "Barotropic.C144_irregular",
    "Barotropic.C144_motionless",
    "Barotropic.C144_conversions",
    "Barotropic.C144_wind_conversions",
    "Barotropic.C144_import",
    "Barotropic.C144_import_rest",
    "Barotropic.C144_dims_order",
    "Barotropic.C144_mismatch",
    "Barotropic.C144_no_coordinate"
   ],
   "note": "Exact arithmetic and a transform that satisfies the laws of spharm. The tests of the area of the sphere are C10 and C16, those of exported datasets C69; shapes of State properties are fixed by types in the model. In C144_wind_conversions the vorticity coefficients of the given wind have to survive a synthesis."
  },
  {
   "property": "C145",
   "status": "partial",
   "theorems": [
    "Barotropic.C145_complete",
    "Barotropic.C145_fields_complete",
    "Barotropic.C145_terms_complete",
    "Barotropic.C145_state",
    "Barotropic.C145_truncation_zero_refuted",
    "Barotropic.C145_run",
    "Barotropic.C145_report",
    "Barotropic.C145_unnoticed_refuted",
    "Barotropic.C145_onset",
    "Barotropic.C145_background",
    "Barotropic.C145_terms",
    "Barotropic.C145_switch_refuted",
    "Barotropic.C145_switch_complete",
    "Barotropic.C145_relaxation",
    "Barotropic.C145_orography"
   ],
   "note": "Propagation proved for all runs, assuming that the transforms of spharm return NaN everywhere if one input is NaN. Refuted: runs from states without any value end normally (C145_unnoticed_refuted); a forcing with missing values destroys the run after it has been switched off, because 0 * NaN is NaN (C145_switch_refuted); the streamfunction with truncation 0 is complete (C145_truncation_zero_refuted). The state at the time when missing values set in is lost as well (C145_onset), because of the time filter."
  },
  {
   "property": "C146",
   "status": "proved",
   "theorems": [
    "Barotropic.C146_accuracy",
    "Barotropic.C146_run",
    "Barotropic.C146_uniform",
    "Barotropic.C146_relaxation",
    "Barotropic.C146_prescribed"
   ],
   "note": "Combines the truncated approximations of C130 with the stability estimate with forcing of C129. The transforms are exact spherical harmonics with dealiased truncation, arithmetic is exact, and the existence of a smooth solution of the forced equation is assumed."
  },
  {
   "property": "C147",
   "status": "partial",
   "theorems": [
    "Barotropic.C147_mode",
    "Barotropic.C147_wave",
    "Barotropic.C147_amplitude",
    "Barotropic.C147_phase",
    "Barotropic.C147_damping",
    "Barotropic.C147_second_order_refuted"
   ],
   "note": "Second-order accuracy is false (C147_second_order_refuted: for every moving wave and arbitrarily small time steps the error exceeds any multiple of the squared time step). Proved instead: the computed mode is the exact mode, damped by exp(-w^2 t dt / 8), up to an error of second order with explicit constants; amplitude and phase separately. For waves of a single degree on solid-body rotation without forcing and diffusion, exact transforms and arithmetic."
  },
  {
   "property": "C148",
   "status": "proved",
   "theorems": [
    "Barotropic.C148_run",
    "Barotropic.C148_decay",
    "Barotropic.C148_converges",
    "Barotropic.C148_unstable",
    "Barotropic.C148_sufficient",
    "Barotropic.C148_zonal_stable",
    "Barotropic.C148_zonal_unstable",
    "Barotropic.C148_relaxation",
    "Barotropic.C148_exceptional"
   ],
   "note": "Criterion of Schur and Cohn for the characteristic polynomial of the filtered leapfrog scheme with implicit diffusion. The unstable direction needs that the growing mode is excited; the exception rate*dt = 3/2 is C148_exceptional. Exact transforms and arithmetic; the reference and the background of the diffusion are the PV of the solid-body rotation of the initial state."
  },
  {
   "property": "C149",
   "status": "proved",
   "theorems": [
    "Barotropic.C149_robust",
    "Barotropic.C149_guides",
    "Barotropic.C149_converges",
    "Barotropic.C149_stationary",
    "Barotropic.C149_solid_rotation",
    "Barotropic.C149_not_midlatitude"
   ],
   "note": "Builds on C66 (extraction from finite profiles) and C113 (accuracy of the squared stationary wavenumber). Real arithmetic. The wind must exceed the threshold min_u at all gridpoints other than the poles, so that the profile is finite."
  },
  {
   "property": "C15",
   "status": "proved",
   "theorems": [
    "Barotropic.C15_exact_integral",
    "Barotropic.C15_exact_integral_all"
   ],
   "note": "Exact real arithmetic; both the masked and the unmasked integral, for every width not larger than the grid."
  },
  {
   "property": "C150",
   "status": "proved",
   "theorems": [
    "Barotropic.C150_linear_response",
    "Barotropic.C150_amplitudes",
    "Barotropic.C150_weak",
    "Barotropic.C150_sum",
    "Barotropic.C150_relaxation",
    "Barotropic.C150_orography",
    "Barotropic.C150_mountains"
   ],
   "note": "Real arithmetic, linear transforms. Diffusion parameters are the same for all amplitudes. The constant of the error depends on the run, not on the amplitude. The expansion of the forcing is proved for relaxation, for Lipschitz continuous terms with small factor, for mountains with small height and for sums."
  },
  {
   "property": "C151",
   "status": "proved",
   "theorems": [
    "Barotropic.C151_modes",
    "Barotropic.C151_response",
    "Barotropic.C151_stationary",
    "Barotropic.C151_resonance",
    "Barotropic.C151_wavenumber"
   ],
   "note": "Real arithmetic, exact transforms (C105). The order of limits is amplitude first, then time: the constant of the second-order error may depend on the length of the run. Covers every kind of wind of orographic forcing through the forcing of the unperturbed state."
  },
  {
   "property": "C152",
   "status": "proved",
   "theorems": [
    "Barotropic.C152_envelope",
    "Barotropic.C152_exact",
    "Barotropic.C152_packet",
    "Barotropic.C152_coefficients",
    "Barotropic.C152_dominant",
    "Barotropic.C152_state"
   ],
   "note": "the envelope of the real part of a complex Fourier series is the absolute value of the series up to twice the magnitude outside of the range; wave packets; dominant wavenumber"
  },
  {
   "property": "C153",
   "status": "proved",
   "theorems": [
    "Barotropic.C153_flux",
    "Barotropic.C153_wind",
    "Barotropic.C153_solution",
    "Barotropic.C153_runs",
    "Barotropic.C153_unforced",
    "Barotropic.C153_smooth"
   ],
   "note": "PV is the same as seen from space on planets with different angular velocities: tendency, solutions of the truncated equation, runs in the limit of small time steps, smooth solutions of the exact equation"
  },
  {
   "property": "C154",
   "status": "proved",
   "theorems": [
    "Barotropic.C154_truncation",
    "Barotropic.C154_flux",
    "Barotropic.C154_run",
    "Barotropic.C154_planet"
   ],
   "note": "all rotations and reflections of the sphere, through Cartesian polynomials; runs exactly and for all time steps. Forcings are required to be turned as well (BModel.Turns)"
  },
  {
   "property": "C155",
   "status": "partial",
   "theorems": [
    "Barotropic.C155_zonalize",
    "Barotropic.C155_falwa",
    "Barotropic.C155_state",
    "Barotropic.C155_antisymmetric",
    "Barotropic.C155_increasing",
    "Barotropic.C155_plateau_refuted"
   ],
   "note": "Proved under conditions that exclude contours along the grid and tied contours; both hold for zonally symmetric PV that increases northward. Without them the statement is false: C155_plateau_refuted gives an antisymmetric field on every grid whose zonalized profile is not antisymmetric."
  },
  {
   "property": "C156",
   "status": "proved",
   "theorems": [
    "Barotropic.C156_zonalize",
    "Barotropic.C156_falwa",
    "Barotropic.C156_fawa",
    "Barotropic.C156_strict",
    "Barotropic.C156_not_overturned"
   ],
   "note": "limits in exact arithmetic on top of C115/C116: first the amplitude, then the resolution. The trapezoidal scheme needs a strictly increasing profile (as in C116), which C156_strict and C156_not_overturned provide"
  },
  {
   "property": "C157",
   "status": "proved",
   "theorems": [
    "Barotropic.C157_sine",
    "Barotropic.C157_contour",
    "Barotropic.C157_zonalize",
    "Barotropic.C157_poles",
    "Barotropic.C157_rounded"
   ],
   "note": "boxcount quadrature and given levels; the order of summation is arbitrary, np.sin and np.arcsin are any functions accurate to 2^-53 and 2^-52 (arcsin also monotone and a right angle at +-1); range of exponents unbounded"
  },
  {
   "property": "C158",
   "status": "proved",
   "theorems": [
    "Barotropic.C158_spectrum",
    "Barotropic.C158_enstrophy",
    "Barotropic.C158_conserved",
    "Barotropic.C158_fjortoft",
    "Barotropic.C158_tail",
    "Barotropic.C158_solid"
   ],
   "note": "solutions of the equation that is continuous in time, truncated as in the code, with transforms free of aliasing (as C119); the effect of time steps is the subject of C114 and C129"
  },
  {
   "property": "C159",
   "status": "proved",
   "theorems": [
    "Barotropic.C159_dipole",
    "Barotropic.C159_precession",
    "Barotropic.C159_formula",
    "Barotropic.C159_energy",
    "Barotropic.C159_low",
    "Barotropic.C159_pair",
    "Barotropic.C159_closed",
    "Barotropic.C159_run",
    "Barotropic.C159_instances"
   ],
   "note": "transforms free of aliasing as in C119; C159_precession to C159_closed are about solutions in continuous time, C159_dipole and C159_pair about every state of the model, C159_run about runs as coded (start step, leapfrog, filter, diffusion)"
  },
  {
   "property": "C16",
   "status": "partial",
   "theorems": [
    "Barotropic.C16_sphere_area_partial",
    "Barotropic.C16_sphere_area_refuted"
   ],
   "note": "Holds exactly when resolution*nlon = 360; the value in general and a 7 degree counterexample are given."
  },
  {
   "property": "C160",
   "status": "proved",
   "theorems": [
    "Barotropic.C160_eastWest",
    "Barotropic.C160_flux",
    "Barotropic.C160_reversible",
    "Barotropic.C160_return",
    "Barotropic.C160_self",
    "Barotropic.C160_liouville",
    "Barotropic.C160_contraction",
    "Barotropic.C160_instances"
   ],
   "note": "transforms free of aliasing as in C119; C160_reversible and C160_return are about solutions in continuous time, C160_flux, C160_self and C160_liouville about the tendency of every state"
  },
  {
   "property": "C161",
   "status": "proved",
   "theorems": [
    "Barotropic.C161_contours",
    "Barotropic.C161_order",
    "Barotropic.C161_range",
    "Barotropic.C161_automatic_refuted",
    "Barotropic.C161_pole_refuted"
   ],
   "note": "given contours in ascending order; C161_automatic_refuted and C161_pole_refuted show where the statement ends: automatic contours, and the value at the north pole if a contour exceeds all values of the field"
  },
  {
   "property": "C162",
   "status": "proved",
   "theorems": [
    "Barotropic.C162_axial",
    "Barotropic.C162_torque",
    "Barotropic.C162_momentum",
    "Barotropic.C162_instances"
   ],
   "note": "transforms free of aliasing as in C119; runs as coded, in real arithmetic"
  },
  {
   "property": "C163",
   "status": "proved",
   "theorems": [
    "Barotropic.C163_scheme",
    "Barotropic.C163_decay",
    "Barotropic.C163_lost",
    "Barotropic.C163_unstable",
    "Barotropic.C163_filter",
    "Barotropic.C163_momentum",
    "Barotropic.C163_tilt",
    "Barotropic.C163_conserved_refuted",
    "Barotropic.C163_instances"
   ],
   "note": "C163_scheme covers relaxation (relaxesTilt_linear) and runs without forcing (relaxesTilt_none), with diffusion towards fields without this coefficient. C163_conserved_refuted: the magnitude of the angular momentum vector is not conserved."
  },
  {
   "property": "C164",
   "status": "proved",
   "theorems": [
    "Barotropic.C164_wave",
    "Barotropic.C164_closed",
    "Barotropic.C164_mean",
    "Barotropic.C164_half",
    "Barotropic.C164_mainlobe",
    "Barotropic.C164_sidelobes",
    "Barotropic.C164_zeros",
    "Barotropic.C164_bands",
    "Barotropic.C164_sign_refuted"
   ],
   "note": "one wave per latitude; sums of waves follow with C63_linear. C164_sign_refuted: short waves can be reversed."
  },
  {
   "property": "C165",
   "status": "proved",
   "theorems": [
    "Barotropic.C165_equation",
    "Barotropic.C165_zeros",
    "Barotropic.C165_oscillates",
    "Barotropic.C165_guides",
    "Barotropic.C165_none",
    "Barotropic.C165_extracted",
    "Barotropic.C165_harmonic"
   ],
   "note": "linear waves in exact arithmetic; C165_extracted uses the limit of fine grids of C149 (simple crossings)"
  },
  {
   "property": "C166",
   "status": "proved",
   "theorems": [
    "Barotropic.C166_forcing",
    "Barotropic.C166_bound",
    "Barotropic.C166_decay",
    "Barotropic.C166_energy",
    "Barotropic.C166_runs"
   ],
   "note": "truncated equation without aliasing, exact arithmetic; the size of a sufficiently small time step depends on state, end time and tolerance"
  },
  {
   "property": "C167",
   "status": "proved",
   "theorems": [
    "Barotropic.C167_equation",
    "Barotropic.C167_fjortoft",
    "Barotropic.C167_rayleigh",
    "Barotropic.C167_stationary",
    "Barotropic.C167_code",
    "Barotropic.C167_solid"
   ],
   "note": "linear waves in continuous time and space, exact arithmetic; the criteria are necessary, not sufficient. The example has a growing wave for a choice of PV and wind that do not belong to each other; growth on a flow with its own PV is not shown."
  },
  {
   "property": "C168",
   "status": "partial",
   "theorems": [
    "Barotropic.C168_zonal",
    "Barotropic.C168_meridional",
    "Barotropic.C168_bounded",
    "Barotropic.C168_dirichlet",
    "Barotropic.C168_removed",
    "Barotropic.C168_boxcar",
    "Barotropic.C168_reversal_refuted"
   ],
   "note": "response of waves to filter_zonal and filter_meridional for all symmetric odd windows; the boxcar window given by get_filter_window has the Dirichlet kernel as response; that filtering never reverses a wave is refuted (three gridpoints, shortest wave)"
  },
  {
   "property": "C169",
   "status": "proved",
   "theorems": [
    "Barotropic.C169_transform",
    "Barotropic.C169_real",
    "Barotropic.C169_band",
    "Barotropic.C169_variance",
    "Barotropic.C169_invertible_zonal",
    "Barotropic.C169_invertible_meridional"
   ],
   "note": "convolution theorem for filter_zonal with the dft of diagnostics.py; exact criterion for the invertibility of boxcar filters with both boundary conditions; variance in the meridional direction for symmetric windows of odd length"
  },
  {
   "property": "C17",
   "status": "proved",
   "theorems": [
    "Barotropic.C17_quadrature"
   ],
   "note": "Both quadratures; the complement law needs a domain field without zeros on the grid points."
  },
  {
   "property": "C170",
   "status": "proved",
   "theorems": [
    "Barotropic.C170_growth",
    "Barotropic.C170_amplitude",
    "Barotropic.C170_shearless"
   ],
   "note": "spherical counterpart of the bound on growth rates by half the shear, for the linearised equation of C167; the angular velocity of the flow has to be differentiable including the poles"
  },
  {
   "property": "C171",
   "status": "proved",
   "theorems": [
    "Barotropic.C171_adjoint",
    "Barotropic.C171_cosine"
   ],
   "note": "for both boundary conditions and all symmetric windows of odd length; the cosine transform is the meridional counterpart of C169_transform"
  },
  {
   "property": "C18",
   "status": "proved",
   "theorems": [
    "Barotropic.C18_errors",
    "Barotropic.C18_columns"
   ],
   "note": ""
  },
  {
   "property": "C19",
   "status": "partial",
   "theorems": [
    "Barotropic.C19_equivalent_latitude_partial",
    "Barotropic.C19_number_refuted"
   ],
   "note": "Proved for arrays of areas; a plain number, which the documentation allows, raises TypeError."
  },
  {
   "property": "C20",
   "status": "proved",
   "theorems": [
    "Barotropic.C20_contours",
    "Barotropic.C20_auto_contours"
   ],
   "note": ""
  },
  {
   "property": "C21",
   "status": "proved",
   "theorems": [
    "Barotropic.C21_profile"
   ],
   "note": "For automatically chosen contours (levels None or a positive integer)."
  },
  {
   "property": "C22",
   "status": "proved",
   "theorems": [
    "Barotropic.C22_permutation",
    "Barotropic.C22_duplication"
   ],
   "note": ""
  },
  {
   "property": "C23",
   "status": "proved",
   "theorems": [
    "Barotropic.C23_symmetric"
   ],
   "note": "On grids whose declared longitude spacing is the true one."
  },
  {
   "property": "C24",
   "status": "partial",
   "theorems": [
    "Barotropic.C24_nonneg_partial",
    "Barotropic.C24_constant_refuted"
   ],
   "note": "Non-negative wherever it is a number; NaN-free for boxcount or contours inside of the range of PV. Constant PV gives NaN at the South Pole in exact arithmetic."
  },
  {
   "property": "C25",
   "status": "proved",
   "theorems": [
    "Barotropic.C25_undisturbed"
   ],
   "note": "For contours inside of the range of PV, on grids whose declared longitude spacing is the true one."
  },
  {
   "property": "C26",
   "status": "partial",
   "theorems": [
    "Barotropic.C26_fawa_partial",
    "Barotropic.C26_constant_refuted"
   ],
   "note": "Fails for constant PV (exact arithmetic); proved for boxcount, and for sptrapz with contours inside of the range of PV on grids with true spacing."
  },
  {
   "property": "C27",
   "status": "proved",
   "theorems": [
    "Barotropic.C27_rotation"
   ],
   "note": ""
  },
  {
   "property": "C28",
   "status": "proved",
   "theorems": [
    "Barotropic.C28_poisson",
    "Barotropic.C28_inverse",
    "Barotropic.C28_storage"
   ],
   "note": ""
  },
  {
   "property": "C29",
   "status": "proved",
   "theorems": [
    "Barotropic.C29_implicit",
    "Barotropic.C29_stable",
    "Barotropic.C29_modes"
   ],
   "note": ""
  },
  {
   "property": "C30",
   "status": "proved",
   "theorems": [
    "Barotropic.C30_linear",
    "Barotropic.C30_compose",
    "Barotropic.C30_poisson_laplace",
    "Barotropic.C30_wind"
   ],
   "note": "Under the stated laws of the spherical harmonic transform (Spharm.Lawful), which an explicit model satisfies."
  },
  {
   "property": "C31",
   "status": "partial",
   "theorems": [
    "Barotropic.C31_refuted",
    "Barotropic.C31_components_partial"
   ],
   "note": "Refuted for the code: the combined gridded method raises NameError. The single-field methods satisfy the equation."
  },
  {
   "property": "C32",
   "status": "proved",
   "theorems": [
    "Barotropic.C32_init",
    "Barotropic.C32_idempotent",
    "Barotropic.C32_spectral"
   ],
   "note": ""
  },
  {
   "property": "C33",
   "status": "proved",
   "theorems": [
    "Barotropic.C33_cache_transparent",
    "Barotropic.C33_cache_transparent_pv",
    "Barotropic.C33_history_independent",
    "Barotropic.C33_no_pv"
   ],
   "note": ""
  },
  {
   "property": "C34",
   "status": "partial",
   "theorems": [
    "Barotropic.C34_constructors_partial",
    "Barotropic.C34_mean_refuted"
   ],
   "note": "Holds up to the mean of the vorticity; from_vorticity keeps a non-zero mean which from_wind cannot see (refuted without that hypothesis)."
  },
  {
   "property": "C35",
   "status": "proved",
   "theorems": [
    "Barotropic.C35_sum",
    "Barotropic.C35_comm_assoc",
    "Barotropic.C35_neutral",
    "Barotropic.C35_array_and_errors"
   ],
   "note": ""
  },
  {
   "property": "C36",
   "status": "partial",
   "theorems": [
    "Barotropic.C36_add_wind_state_partial",
    "Barotropic.C36_errors",
    "Barotropic.C36_tuple_ignores_self",
    "Barotropic.C36_tuple_refuted"
   ],
   "note": "Refuted for the code if wind is given as a tuple: the state's own wind is dropped. The State argument case is proved."
  },
  {
   "property": "C37",
   "status": "proved",
   "theorems": [
    "Barotropic.C37_roundtrip",
    "Barotropic.C37_orientation",
    "Barotropic.C37_mismatch"
   ],
   "note": "from_hn2016 with grid=None is not modelled."
  },
  {
   "property": "C38",
   "status": "proved",
   "theorems": [
    "Barotropic.C38_nonneg",
    "Barotropic.C38_energy",
    "Barotropic.C38_eddy_zero_iff",
    "Barotropic.C38_eddy_mean"
   ],
   "note": ""
  },
  {
   "property": "C39",
   "status": "proved",
   "theorems": [
    "Barotropic.C39_success",
    "Barotropic.C39_errors",
    "Barotropic.C39_invariant",
    "Barotropic.C39_add"
   ],
   "note": ""
  },
  {
   "property": "C40",
   "status": "partial",
   "theorems": [
    "Barotropic.C40_elements",
    "Barotropic.C40_container_partial",
    "Barotropic.C40_empty_refuted",
    "Barotropic.C40_getattr",
    "Barotropic.C40_exception"
   ],
   "note": "Length, order and values proved for all lists. The kind of container is as stated for non-empty lists; for the empty list it is refuted (an array is returned where a StateList is expected)."
  },
  {
   "property": "C41",
   "status": "proved",
   "theorems": [
    "Barotropic.C41_pointwise",
    "Barotropic.C41_succeeds",
    "Barotropic.C41_barotropic"
   ],
   "note": ""
  },
  {
   "property": "C42",
   "status": "proved",
   "theorems": [
    "Barotropic.C42_terminates",
    "Barotropic.C42_final_time",
    "Barotropic.C42_returns",
    "Barotropic.C42_early",
    "Barotropic.C42_deterministic",
    "Barotropic.C42_nonpositive_dt_diverges"
   ],
   "note": ""
  },
  {
   "property": "C43",
   "status": "partial",
   "theorems": [
    "Barotropic.C43_saved",
    "Barotropic.C43_exact_partial",
    "Barotropic.C43_small_steps",
    "Barotropic.C43_large_steps",
    "Barotropic.C43_offset_refuted"
   ],
   "note": "As stated for initial times in [0, save_every) (C43_exact_partial); refuted for initial times beyond save_every. What is saved is described completely for all initial times and time steps."
  },
  {
   "property": "C44",
   "status": "proved",
   "theorems": [
    "Barotropic.C44_times",
    "Barotropic.C44_steps"
   ],
   "note": ""
  },
  {
   "property": "C45",
   "status": "proved",
   "theorems": [
    "Barotropic.C45_interchangeable",
    "Barotropic.C45_unforced",
    "Barotropic.C45_mixed",
    "Barotropic.C45_save_every_datetime"
   ],
   "note": ""
  },
  {
   "property": "C46",
   "status": "proved",
   "theorems": [
    "Barotropic.C46_mean_conserved",
    "Barotropic.C46_forced",
    "Barotropic.C46_order_zero"
   ],
   "note": ""
  },
  {
   "property": "C47",
   "status": "partial",
   "theorems": [
    "Barotropic.C47_rest_partial",
    "Barotropic.C47_default_refuted"
   ],
   "note": "Refuted for the default diffusion settings (planetary vorticity is diffused); proved with diffusion_bg=fcor2 or zero coefficient."
  },
  {
   "property": "C48",
   "status": "proved",
   "theorems": [
    "Barotropic.C48_symmetric",
    "Barotropic.C48_steady"
   ],
   "note": "The diffusion background must be None or zonally symmetric as well."
  },
  {
   "property": "C49",
   "status": "proved",
   "theorems": [
    "Barotropic.C49_fixed_point",
    "Barotropic.C49_contracts",
    "Barotropic.C49_none"
   ],
   "note": ""
  },
  {
   "property": "C50",
   "status": "proved",
   "theorems": [
    "Barotropic.C50_weights",
    "Barotropic.C50_unchanged_iff",
    "Barotropic.C50_computational_mode",
    "Barotropic.C50_disable"
   ],
   "note": ""
  },
  {
   "property": "C51",
   "status": "proved",
   "theorems": [
    "Barotropic.C51_states",
    "Barotropic.C51_run",
    "Barotropic.C51_steps",
    "Barotropic.C51_repeatable"
   ],
   "note": "For all programs that create states, read properties, evaluate forcing terms (all classes of rhs.py, user functions that read the state), step and run, with the state caches and the class-wide gradient cache. Same hypothesis on hash collisions as C56. Assignment to attributes or in-place changes of arrays by the user, and user functions with a state of their own, are not modelled."
  },
  {
   "property": "C52",
   "status": "proved",
   "theorems": [
    "Barotropic.C52_operands",
    "Barotropic.C52_construct",
    "Barotropic.C52_pointwise",
    "Barotropic.C52_error",
    "Barotropic.C52_accepted",
    "Barotropic.C52_effect",
    "Barotropic.C52_laws"
   ],
   "note": ""
  },
  {
   "property": "C53",
   "status": "partial",
   "theorems": [
    "Barotropic.C53_numbers_refuted",
    "Barotropic.C53_scaling_partial"
   ],
   "note": "Refuted for the code: multiplication with a number is accepted at construction but evaluating the product raises TypeError. Scaling by a wrapped constant function is proved."
  },
  {
   "property": "C54",
   "status": "proved",
   "theorems": [
    "Barotropic.C54_switch",
    "Barotropic.C54_stays_off",
    "Barotropic.C54_mixed",
    "Barotropic.C54_step",
    "Barotropic.C54_run"
   ],
   "note": ""
  },
  {
   "property": "C55",
   "status": "proved",
   "theorems": [
    "Barotropic.C55_relaxation",
    "Barotropic.C55_euler_pointwise",
    "Barotropic.C55_euler_model"
   ],
   "note": ""
  },
  {
   "property": "C56",
   "status": "proved",
   "theorems": [
    "Barotropic.C56_transparent",
    "Barotropic.C56_any_hash",
    "Barotropic.C56_hit",
    "Barotropic.C56_retained",
    "Barotropic.C56_collision"
   ],
   "note": "Under the hypothesis that grids which compare equal (np.isclose on radius and rotation rate) but have different hash keys do not collide in the 64 bit hash; C56_collision shows the hypothesis is needed, C56_any_hash what holds without it."
  },
  {
   "property": "C57",
   "status": "proved",
   "theorems": [
    "Barotropic.C57_shapes",
    "Barotropic.C57_bounds",
    "Barotropic.C57_const",
    "Barotropic.C57_exact",
    "Barotropic.C57_bilinear",
    "Barotropic.C57_outside",
    "Barotropic.C57_order"
   ],
   "note": ""
  },
  {
   "property": "C58",
   "status": "partial",
   "theorems": [
    "Barotropic.C58_gaussian",
    "Barotropic.C58_sine",
    "Barotropic.C58_sine_periodic",
    "Barotropic.C58_sine_rotation",
    "Barotropic.C58_stdev",
    "Barotropic.C58_gaussian_shift_refuted",
    "Barotropic.C58_gaussian_asymmetric_refuted"
   ],
   "note": "Bounds, maxima and periodicity of the sine mountains proved. Refuted: the Gaussian mountain is not invariant under shifting its centre by 360 degrees."
  },
  {
   "property": "C59",
   "status": "proved",
   "theorems": [
    "Barotropic.C59_formula",
    "Barotropic.C59_raises",
    "Barotropic.C59_linear_orography",
    "Barotropic.C59_linear_kinds",
    "Barotropic.C59_linear_wind",
    "Barotropic.C59_flat",
    "Barotropic.C59_rest",
    "Barotropic.C59_sbr",
    "Barotropic.C59_options"
   ],
   "note": "C59_flat uses the stated laws of the spherical harmonic transform."
  },
  {
   "property": "C60",
   "status": "proved",
   "theorems": [
    "Barotropic.C60_prescribed",
    "Barotropic.C60_profiles",
    "Barotropic.C60_states",
    "Barotropic.C60_motionless",
    "Barotropic.C60_zonally_symmetric",
    "Barotropic.C60_errors"
   ],
   "note": ""
  },
  {
   "property": "C61",
   "status": "partial",
   "theorems": [
    "Barotropic.C61_shape_even_partial",
    "Barotropic.C61_shape_odd_refuted",
    "Barotropic.C61_linear",
    "Barotropic.C61_idempotent",
    "Barotropic.C61_rotation",
    "Barotropic.C61_waves",
    "Barotropic.C61_full_band",
    "Barotropic.C61_decomposition"
   ],
   "note": "Refuted for an odd number of longitudes: the result has one column less. Everything else proved, rotation and waves for an even number of longitudes."
  },
  {
   "property": "C62",
   "status": "partial",
   "theorems": [
    "Barotropic.C62_maximum_partial",
    "Barotropic.C62_errors",
    "Barotropic.C62_wave_refuted",
    "Barotropic.C62_wave_partial"
   ],
   "note": "Refuted: the returned number is the index in the range, i.e. too small by kmin (default 1). kmin plus the returned number is proved to be the first wavenumber with maximal power in the range."
  },
  {
   "property": "C63",
   "status": "proved",
   "theorems": [
    "Barotropic.C63_windows",
    "Barotropic.C63_formula",
    "Barotropic.C63_errors",
    "Barotropic.C63_linear",
    "Barotropic.C63_bounds",
    "Barotropic.C63_const",
    "Barotropic.C63_rotation",
    "Barotropic.C63_zonal_mean"
   ],
   "note": "For fields with at least 2 columns (grids have at least 4)."
  },
  {
   "property": "C64",
   "status": "proved",
   "theorems": [
    "Barotropic.C64_bounds",
    "Barotropic.C64_errors",
    "Barotropic.C64_rotation",
    "Barotropic.C64_wave",
    "Barotropic.C64_state"
   ],
   "note": ""
  },
  {
   "property": "C65",
   "status": "proved",
   "theorems": [
    "Barotropic.C65_variants",
    "Barotropic.C65_order",
    "Barotropic.C65_kind",
    "Barotropic.C65_values",
    "Barotropic.C65_no_nan",
    "Barotropic.C65_pv_from_wind",
    "Barotropic.C65_zonal_mean",
    "Barotropic.C65_rest",
    "Barotropic.C65_state"
   ],
   "note": "Real arithmetic with infinities and NaN; min_u >= 0."
  },
  {
   "property": "C66",
   "status": "partial",
   "theorems": [
    "Barotropic.C66_finite_partial",
    "Barotropic.C66_infinite_partial",
    "Barotropic.C66_empty",
    "Barotropic.C66_start_nan_refuted",
    "Barotropic.C66_closed_refuted",
    "Barotropic.C66_touching_refuted"
   ],
   "note": "Holds for all finite profiles; with infinities proved without closedness and without jumps from -inf to finite Ks > k, where the code returns NaN boundaries (refuted). Grids whose resolution divides 180."
  },
  {
   "property": "C67",
   "status": "proved",
   "theorems": [
    "Barotropic.C67_round",
    "Barotropic.C67_length",
    "Barotropic.C67_window",
    "Barotropic.C67_normalized",
    "Barotropic.C67_negative"
   ],
   "note": ""
  },
  {
   "property": "C68",
   "status": "partial",
   "theorems": [
    "Barotropic.C68_window_errors",
    "Barotropic.C68_meridional_shapes",
    "Barotropic.C68_zonal_shapes",
    "Barotropic.C68_columns",
    "Barotropic.C68_rows",
    "Barotropic.C68_linear",
    "Barotropic.C68_const",
    "Barotropic.C68_bounds",
    "Barotropic.C68_zonal_rotation",
    "Barotropic.C68_zonal_mean",
    "Barotropic.C68_meridional_sum_partial",
    "Barotropic.C68_reflection_partial",
    "Barotropic.C68_even_refuted"
   ],
   "note": "Refuted for user-supplied symmetric windows with an even number of points (sum and reflection); proved for odd windows, which includes all windows of get_filter_window."
  },
  {
   "property": "C69",
   "status": "partial",
   "theorems": [
    "Barotropic.C69_labels",
    "Barotropic.C69_coords",
    "Barotropic.C69_empty_single",
    "Barotropic.C69_unambiguous",
    "Barotropic.C69_not_implemented",
    "Barotropic.C69_errors",
    "Barotropic.C69_coordinate_errors",
    "Barotropic.C69_replaced",
    "Barotropic.C69_iterator_refuted",
    "Barotropic.C69_three_dimensional_refuted",
    "Barotropic.C69_latitude_refuted"
   ],
   "note": "Labels, sizes, entries, coordinates and exceptions for every collection and field selection. Deviations from the statement are proved: an empty iterator raises AttributeError, three-dimensional arrays of other sizes raise ValueError instead of NotImplementedError, concat_dim=latitude (longitude) replaces the latitudes of the grid by 0..n-1 without an exception (labels are proved for other values of concat_dim)."
  },
  {
   "property": "C70",
   "status": "partial",
   "theorems": [
    "Barotropic.C70_accepts",
    "Barotropic.C70_rejects",
    "Barotropic.C70_shape_partial",
    "Barotropic.C70_coords_partial",
    "Barotropic.C70_own_grid",
    "Barotropic.C70_shape_refuted",
    "Barotropic.C70_offset_refuted",
    "Barotropic.C70_odd_refuted"
   ],
   "note": "Acceptance is characterised exactly. Shape and coordinates agree only under additional hypotheses; the counterexamples (shape off by one, offset of longitudes, odd number of longitudes) are proved."
  },
  {
   "property": "C71",
   "status": "proved",
   "theorems": [
    "Barotropic.C71_detection",
    "Barotropic.C71_priority",
    "Barotropic.C71_unknown_name",
    "Barotropic.C71_missing",
    "Barotropic.C71_select_var_override"
   ],
   "note": "All names, overrides and datasets."
  },
  {
   "property": "C72",
   "status": "partial",
   "theorems": [
    "Barotropic.C72_fields",
    "Barotropic.C72_order",
    "Barotropic.C72_time",
    "Barotropic.C72_label_time",
    "Barotropic.C72_success",
    "Barotropic.C72_duplicates_refuted",
    "Barotropic.C72_duplicate_error",
    "Barotropic.C72_shape_error"
   ],
   "note": "Everything that is returned is right, for all leading shapes. Success needs different labels along each leading dimension; repeated labels raise (proved)."
  },
  {
   "property": "C73",
   "status": "partial",
   "theorems": [
    "Barotropic.C73_wind_partial",
    "Barotropic.C73_vorticity_partial",
    "Barotropic.C73_same_states",
    "Barotropic.C73_equal_times_refuted"
   ],
   "note": "Round trip for wind, vo, avo and pv on regular grids with an even number of longitudes, states on one grid object and different times. Equal times cannot be imported again (proved)."
  },
  {
   "property": "C74",
   "status": "partial",
   "theorems": [
    "Barotropic.C74_labels",
    "Barotropic.C74_cyclic",
    "Barotropic.C74_center_partial",
    "Barotropic.C74_center_refuted",
    "Barotropic.C74_center_bound",
    "Barotropic.C74_ticks"
   ],
   "note": "Labels are right for all centres. The middle column is the nearest meridian iff the centre is not within half a spacing west of Greenwich (C74_center_partial, C74_center_refuted); always less than one spacing away."
  },
  {
   "property": "C75",
   "status": "partial",
   "theorems": [
    "Barotropic.C75_levels_partial",
    "Barotropic.C75_override_partial",
    "Barotropic.C75_zero_refuted",
    "Barotropic.C75_single_refuted",
    "Barotropic.C75_negative_refuted",
    "Barotropic.C75_empty"
   ],
   "note": "Proved for n >= 2, nonzero field or positive override; the number of levels is wrong for zero fields, a single level is not symmetric, a negative override gives decreasing levels."
  },
  {
   "property": "C76",
   "status": "proved",
   "theorems": [
    "Barotropic.C76_slices",
    "Barotropic.C76_rows",
    "Barotropic.C76_zero"
   ],
   "note": "ny >= 1; ny = 0 raises ZeroDivisionError."
  },
  {
   "property": "C77",
   "status": "partial",
   "theorems": [
    "Barotropic.C77_zonal",
    "Barotropic.C77_meridional",
    "Barotropic.C77_errors",
    "Barotropic.C77_function_error",
    "Barotropic.C77_shape_refuted"
   ],
   "note": "For one-dimensional results; arrays of other rank with nlon entries are not rejected (C77_shape_refuted)."
  },
  {
   "property": "C78",
   "status": "proved",
   "theorems": [
    "Barotropic.C78_value",
    "Barotropic.C78_range",
    "Barotropic.C78_shown",
    "Barotropic.C78_datetime",
    "Barotropic.C78_negative_refuted",
    "Barotropic.C78_array_refuted"
   ],
   "note": "All numeric times. Additionally: negative times stay in seconds; zero-dimensional arrays cannot be formatted."
  },
  {
   "property": "C79",
   "status": "partial",
   "theorems": [
    "Barotropic.C79_default",
    "Barotropic.C79_refuted"
   ],
   "note": "True for centre 180 (the default), false for every centre that moves the map: vectors are not rolled."
  },
  {
   "property": "C80",
   "status": "partial",
   "theorems": [
    "Barotropic.C80_ticks",
    "Barotropic.C80_zero_iff",
    "Barotropic.C80_zero_partial",
    "Barotropic.C80_zero_refuted"
   ],
   "note": "0 is ticked iff the step divides twice the lower limit; true for ranges up to 20 wavenumbers (default bounds), false in general."
  },
  {
   "property": "C81",
   "status": "partial",
   "theorems": [
    "Barotropic.C81_map",
    "Barotropic.C81_bounds",
    "Barotropic.C81_empty_refuted"
   ],
   "note": "Regions without gridpoints raise IndexError."
  },
  {
   "property": "C82",
   "status": "partial",
   "theorems": [
    "Barotropic.C82_pv_levels",
    "Barotropic.C82_pv_constant_refuted",
    "Barotropic.C82_rwp_levels",
    "Barotropic.C82_rwp_zero_refuted"
   ],
   "note": "True unless PV is constant or (wave packets) envelope and filtered FALWA are zero, where all levels coincide."
  },
  {
   "property": "C83",
   "status": "partial",
   "theorems": [
    "Barotropic.C83_copy_refuted",
    "Barotropic.C83_deepcopy_refuted",
    "Barotropic.C83_deepcopy_empty_refuted"
   ],
   "note": "False for the code: __getattr__ iterates over an instance without _states (RecursionError); the empty list fails with TypeError."
  },
  {
   "property": "C84",
   "status": "partial",
   "theorems": [
    "Barotropic.C84_getattr",
    "Barotropic.C84_missing_partial",
    "Barotropic.C84_sound",
    "Barotropic.C84_empty_refuted"
   ],
   "note": "True for non-empty lists; the empty list has every attribute."
  },
  {
   "property": "C85",
   "status": "partial",
   "theorems": [
    "Barotropic.C85_sup",
    "Barotropic.C85_sub",
    "Barotropic.C85_exponent",
    "Barotropic.C85_equation_partial",
    "Barotropic.C85_odd_refuted"
   ],
   "note": "True for even orders (default 2); for odd orders the sign shown is wrong."
  },
  {
   "property": "C86",
   "status": "proved",
   "theorems": [
    "Barotropic.C86_unambiguous"
   ],
   "note": "Names of elementary terms are single tokens, as in the code."
  },
  {
   "property": "C87",
   "status": "proved",
   "theorems": [
    "Barotropic.C87_hemisphere",
    "Barotropic.C87_limits"
   ],
   "note": ""
  },
  {
   "property": "C88",
   "status": "proved",
   "theorems": [
    "Barotropic.C88_segments"
   ],
   "note": ""
  },
  {
   "property": "C89",
   "status": "proved",
   "theorems": [
    "Barotropic.C89_zonalize",
    "Barotropic.C89_falwa"
   ],
   "note": "Unconditional, including NaN and errors."
  },
  {
   "property": "C90",
   "status": "proved",
   "theorems": [
    "Barotropic.C90_radius"
   ],
   "note": ""
  },
  {
   "property": "C91",
   "status": "partial",
   "theorems": [
    "Barotropic.C91_profile",
    "Barotropic.C91_field",
    "Barotropic.C91_unique",
    "Barotropic.C91_hit",
    "Barotropic.C91_bounds",
    "Barotropic.C91_own",
    "Barotropic.C91_own_field_refuted",
    "Barotropic.C91_zonalize"
   ],
   "note": "True for distinct latitudes strictly between the poles and for profiles on the grid; false for 2D fields on latitudes that include the poles (NaN at the South Pole)."
  },
  {
   "property": "C92",
   "status": "partial",
   "theorems": [
    "Barotropic.C92_errors",
    "Barotropic.C92_bounds",
    "Barotropic.C92_invariant",
    "Barotropic.C92_wave_partial",
    "Barotropic.C92_range_refuted",
    "Barotropic.C92_default"
   ],
   "note": "False for the range: argmax is taken relative to the lower end of the range, so a wave of wavenumber k gives k - kmin. Invariance, errors and bounds hold."
  },
  {
   "property": "C93",
   "status": "partial",
   "theorems": [
    "Barotropic.C93_rows",
    "Barotropic.C93_mean",
    "Barotropic.C93_profile",
    "Barotropic.C93_rotation",
    "Barotropic.C93_removal",
    "Barotropic.C93_phase_refuted",
    "Barotropic.C93_residual"
   ],
   "note": "Mean, sign and rotation proved; removal of the phase proved for a window with a wavenumber that divides the number of longitudes and refuted for the wavenumber that the code uses (offset of 1, see C92). C93_residual: at most a twelfth of the phase signal remains for wavenumbers k with 2k(k-1) <= nlon."
  },
  {
   "property": "C94",
   "status": "partial",
   "theorems": [
    "Barotropic.C94_range_partial",
    "Barotropic.C94_odd_refuted",
    "Barotropic.C94_rotation",
    "Barotropic.C94_amplitude",
    "Barotropic.C94_no_waves_refuted"
   ],
   "note": "Sampled wavelet functions are a parameter. False for odd numbers of longitudes (shape) and where there are no waves (wavenumbers above 20)."
  },
  {
   "property": "C95",
   "status": "proved",
   "theorems": [
    "Barotropic.C95_fields",
    "Barotropic.C95_diagnostics",
    "Barotropic.C95_run",
    "Barotropic.C95_periodic",
    "Barotropic.C95_forcing",
    "Barotropic.C95_sine"
   ],
   "note": "Rotation by whole grid columns; the Hilbert envelope only for even numbers of longitudes."
  },
  {
   "property": "C96",
   "status": "proved",
   "theorems": [
    "Barotropic.C96_fields",
    "Barotropic.C96_wavenumber",
    "Barotropic.C96_run",
    "Barotropic.C96_symmetric",
    "Barotropic.C96_forcing",
    "Barotropic.C96_mountains"
   ],
   "note": "For transforms that respect reflection (Spharm.Mirrors). Zonalization and wave activity are not part of the claim."
  },
  {
   "property": "C97",
   "status": "partial",
   "theorems": [
    "Barotropic.C97_run_partial",
    "Barotropic.C97_final",
    "Barotropic.C97_forcing",
    "Barotropic.C97_saved_refuted"
   ],
   "note": "Holds for final states and for runs without intermediate output. False for intermediate output, which is scheduled from time 0 instead of the initial time."
  },
  {
   "property": "C98",
   "status": "partial",
   "theorems": [
    "Barotropic.C98_prefix",
    "Barotropic.C98_visited",
    "Barotropic.C98_restart_refuted"
   ],
   "note": "Prefix property holds. Restarting is not equivalent to an uninterrupted run: the restart begins with an Euler step."
  },
  {
   "property": "C99",
   "status": "partial",
   "theorems": [
    "Barotropic.C99_fields",
    "Barotropic.C99_wavenumber",
    "Barotropic.C99_run",
    "Barotropic.C99_forcing",
    "Barotropic.C99_mountains",
    "Barotropic.C99_min_u_refuted"
   ],
   "note": "Holds for grids, states, forcings, diagnostics and runs in all units of time and length. False for stationary wavenumbers with default min_u, which is a fixed number that presumes metres per second; they are covariant if min_u is converted too (C99_wavenumber)."
  }
 ]
}