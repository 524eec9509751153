{"claims": [
{"property": "C01", "status": "proved", "theorems": ["Verif.Props.C01_gbs_parity", "Verif.Props.C01_gbs_parity_any_state"], "note": "exact reals"},
{"property": "C02", "status": "proved", "theorems": ["Verif.Props.C02_cnd_accuracy", "Verif.Props.C02_price_accuracy"], "note": "sharp constant 7.5e-8 over the whole real line; exact value is the discounted lognormal expectation"},
{"property": "C03", "status": "proved", "theorems": ["Verif.Props.C03_delta", "Verif.Props.C03_gamma", "Verif.Props.C03_vega", "Verif.Props.C03_theta", "Verif.Props.C03_rho", "Verif.Props.C03_rho_futures", "Verif.Props.C03_c_of_c"], "note": "HasDerivAt of the exact price; gamma and vega exact"},
{"property": "C04", "status": "proved", "theorems": ["Verif.Props.C04_delta", "Verif.Props.C04_theta", "Verif.Props.C04_rho", "Verif.Props.C04_rho_futures", "Verif.Props.C04_c_of_c", "Verif.Props.C04_lambda"], "note": "exact reals, prices with the approximate CDF"},
{"property": "C05", "status": "proved", "theorems": ["Verif.Props.C05_homogeneous", "Verif.Props.C05_delta_homogeneous", "Verif.Props.C05_duality"], "note": "exact reals"},
{"property": "C06", "status": "proved", "theorems": ["Verif.Props.C06_delta_bounds", "Verif.Props.C06_gamma_vega_pos", "Verif.Props.C06_price_upper"], "note": "strict bounds for the approximate CDF"},
{"property": "C07", "status": "proved", "theorems": ["Verif.Props.C07_scalar", "Verif.Props.C07_none_refused", "Verif.Props.C07_missing_sigma", "Verif.Props.C07_stale_example"], "note": "all closed-form methods of the three vanilla classes, any state"},
{"property": "C08", "status": "proved", "theorems": ["Verif.Props.C08_coherent", "Verif.Props.C08_tree_attrs", "Verif.Props.C08_recovers", "Verif.Props.C08_example"], "note": "all 16 classes, any set_param history; prices of tree and American classes are covered as functions of attributes the constructor always assigns"},
{"property": "C09", "status": "partial", "theorems": ["Verif.Props.C09_not_atomic_ms", "Verif.Props.C09_failed_set_param_partial", "Verif.Props.C09_arrays_refused", "Verif.Props.C09_not_atomic_gbs", "Verif.Props.C09_not_atomic_tree3d"], "note": "holds for unknown names (all classes) and for every failure in the 7 classes that only store parameters; false for classes with derived attributes, proved as C09_not_atomic_gbs and C09_not_atomic_tree3d; MiltersenSchwartz likewise (C09_not_atomic_ms)"},
{"property": "C10", "status": "proved", "theorems": ["Verif.Props.C10_two_asset", "Verif.Props.C10_ms", "Verif.Props.C10_american_vega", "Verif.Props.C10_option_price", "Verif.Props.C10_fdm_greeks", "Verif.Props.C10_prices_respect", "Verif.Props.C10_example"], "note": "differentiation rule is an arbitrary adaptive procedure; heap of objects modelled"},
{"property": "C11", "status": "partial", "theorems": ["Verif.Props.C11_is_gbs", "Verif.Props.C11_carry_zero", "Verif.Props.C11_set_b", "Verif.Props.C11_fdm_partial", "Verif.Props.C11_fdm_delta_raises", "Verif.Props.C11_example"], "note": "carry, set_param('b') and prices proved; finite-difference delta, gamma and lambda always raise, proved as C11_fdm_delta_raises"},
{"property": "C12", "status": "partial", "theorems": ["Verif.Props.C12_repr_partial", "Verif.Props.C12_tian_name", "Verif.Props.C12_spread_name", "Verif.Props.C12_black76_extra", "Verif.Props.C12_allTypes_order", "Verif.Props.C12_example"], "note": "holds for 12 of 16 classes; false for TIAN, BionomialSpreadOption, BionomialSpreadAllTypes and Black76, each proved"},
{"property": "C13", "status": "proved", "theorems": ["Verif.Props.C13_reprices", "Verif.Props.C13_negative_sigma", "Verif.Props.C13_bracket", "Verif.Props.C13_unique_call", "Verif.Props.C13_unique_put", "Verif.Props.C13_in_bracket", "Verif.Props.C13_attainable", "Verif.Props.C13_example", "Verif.Props.C13_solver_example"], "note": "root finder is an arbitrary adaptive rule; existence of a volatility is for the exact law, and for the coded price up to the CND accuracy (CND has a jump of about 1e-9 at 0, so an exact root of the coded price need not exist)"},
{"property": "C14", "status": "partial", "theorems": ["Verif.Props.C14_elementwise_partial", "Verif.Props.C14_rho_array_raises", "Verif.Props.C14_example"], "note": "all prices and greeks elementwise, except rho with an array b, which raises (C14_rho_array_raises)"},
{"property": "C15", "status": "proved", "theorems": ["Verif.Props.C15_solver_choice", "Verif.Props.C15_example"], "note": ""},
{"property": "C16", "status": "proved", "theorems": ["Verif.Props.C16_parity", "Verif.Props.C16_price", "Verif.Props.C16_black76", "Verif.Props.C16_example"], "note": "numeric parameters; array arguments of MiltersenSchwartzOption not treated here"},
{"property": "C17", "status": "proved", "theorems": ["Verif.Props.C17_integrals", "Verif.Props.C17_example"], "note": ""},
{"property": "C18", "status": "proved", "theorems": ["Verif.Props.C18_crr", "Verif.Props.C18_jr", "Verif.Props.C18_tian"], "note": "in-place loops refined to the binomial sum for each class's own u, d, p, Df"},
{"property": "C19", "status": "proved", "theorems": ["Verif.Props.C19_parity", "Verif.Props.C19_jr_forward", "Verif.Props.C19_jr_violates", "Verif.Props.C19_trinomial_parity"], "note": "CRR, TIAN, trinomial exact; JR proved to violate parity strictly (finding)"},
{"property": "C20", "status": "proved", "theorems": ["Verif.Props.C20_tree_european", "Verif.Props.C20_tree_american"], "note": "matrix entries for every index; both exercise styles"},
{"property": "C21", "status": "proved", "theorems": ["Verif.Props.C21_american_dominates", "Verif.Props.C21_nodes", "Verif.Props.C21_trinomial", "Verif.Props.C21_trinomial_nodes"], "note": "binomial and trinomial, at every node and at the price; probability range stated through C24"},
{"property": "C22", "status": "proved", "theorems": ["Verif.Props.C22_no_early_exercise", "Verif.Props.C22_jr_fails", "Verif.Props.C22_trinomial"], "note": "also proved: JR trees lack the property (finding)"},
{"property": "C23", "status": "proved", "theorems": ["Verif.Props.C23_nonneg", "Verif.Props.C23_strike_mono", "Verif.Props.C23_strike_slope", "Verif.Props.C23_spot_mono", "Verif.Props.C23_convex", "Verif.Props.C23_homogeneous", "Verif.Props.C23_trinomial_strike", "Verif.Props.C23_trinomial_spot", "Verif.Props.C23_trinomial_convex", "Verif.Props.C23_trinomial_homogeneous", "Verif.Props.C23_trinomial_example"], "note": "all three binomial classes and the trinomial class, both exercise styles; slope bound needs r >= 0"},
{"property": "C24", "status": "proved", "theorems": ["Verif.Props.C24_tian", "Verif.Props.C24_crr_iff", "Verif.Props.C24_crr_negative_weight", "Verif.Props.C24_trinomial"], "note": "iff conditions for CRR and trinomial; TIAN unconditional"},
{"property": "C25", "status": "proved", "theorems": ["Verif.Props.C25_trinomial_eq_crr", "Verif.Props.C25_trinomial_american_le"], "note": "European equality, American inequality"},
{"property": "C26", "status": "partial", "theorems": ["Verif.Props.C26_binomial_refuses_partial", "Verif.Props.C26_trinomial_accepts", "Verif.Props.C26_zero_steps", "Verif.Props.C26_tree3d_accepts"], "note": "binomial classes refuse; trinomial returns the lowest terminal payoff instead of raising, proved as C26_trinomial_accepts, and the 3D tree prices any unknown type as European (C26_tree3d_accepts), so the full statement is false of the code"},
{"property": "C27", "status": "proved", "theorems": ["Verif.Props.C27_plot_european", "Verif.Props.C27_plot_american"], "note": "display rounding not modelled"},
{"property": "C28", "status": "proved", "theorems": ["Verif.Props.C28_tree_european", "Verif.Props.C28_tree_american"], "note": "display rounding not modelled"},
{"property": "C29", "status": "proved", "theorems": ["Verif.Props.C29_expectation"], "note": "plain average over all pairs of up-move sets; in-place triple loop refined"},
{"property": "C30", "status": "proved", "theorems": ["Verif.Props.C30_american_dominates"], "note": "price and every matrix cell"},
{"property": "C31", "status": "partial", "theorems": ["Verif.Props.C31_payoffs_partial", "Verif.Props.C31_outperformance_wrong", "Verif.Props.C31_exchange_put", "Verif.Props.C31_missing_strike", "Verif.Props.C31_named_classes", "Verif.Props.C31_named_example"], "note": "seven of nine option numbers (and the exchange call) match; number 8 and the exchange put do not match the documentation, proved as C31_outperformance_wrong and C31_exchange_put"},
{"property": "C32", "status": "proved", "theorems": ["Verif.Props.C32_parity", "Verif.Props.C32_drift_factor"], "note": "exact lattice forward with cosh factors, bounded by the usual forward growth"},
{"property": "C33", "status": "proved", "theorems": ["Verif.Props.C33_matrix"], "note": "every cell, border zero"},
{"property": "C34", "status": "proved", "theorems": ["Verif.Props.C34_max_plus_min", "Verif.Props.C34_max_ge_min"], "note": "first leg identified with the JR tree call"},
{"property": "C35", "status": "partial", "theorems": ["Verif.Props.C35_search", "Verif.Props.C35_bracket_partial", "Verif.Props.C35_error", "Verif.Props.C35_zero_spot_diverges", "Verif.Props.C35_no_sign_change", "Verif.Props.C35_call_total", "Verif.Props.C35_example"], "note": "The loops end for every positive spot with a unique outcome, characterised exactly (C35_search, C35_call_total); the bracket is a sign change if D <= K and S*2^n never hits 1e8 (C35_bracket_partial). As worded the claim fails: C35_zero_spot_diverges (S = 0 loops forever), C35_no_sign_change (D > K), and hi = 1e8 in C35_search."},
{"property": "C36", "status": "proved", "theorems": ["Verif.Props.C36_european", "Verif.Props.C36_accuracy", "Verif.Props.C36_example"], "note": ""},
{"property": "C37", "status": "partial", "theorems": ["Verif.Props.C37_total", "Verif.Props.C37_depth_sharp", "Verif.Props.C37_symmetric", "Verif.Props.C37_complement_partial", "Verif.Props.C37_complement_unit_partial", "Verif.Props.C37_complement_fails", "Verif.Props.C37_example", "Verif.Props.C37_complement_error"], "note": "Totality (three nested calls suffice, and are needed) and symmetry hold for all arguments; the complement law holds exactly off the set b = rho*a (C37_complement_partial, C37_complement_unit_partial) and fails there by the quadrature error (C37_complement_fails), which is at most 7.3e-6 (C37_complement_error)."},
{"property": "C38", "status": "proved", "theorems": ["Verif.Props.C38_call_european", "Verif.Props.C38_critical_unique", "Verif.Props.C38_call", "Verif.Props.C38_put", "Verif.Props.C38_call_example", "Verif.Props.C38_put_example"], "note": "Runs of the Newton loop that stop at a positive price; the put's premium is non-negative for b <= r and, for every b, if e^{-rt} <= 1 - 1e-6, and never below -1e-6*K. r > 0 (the code computes nan for r = 0)."},
{"property": "C39", "status": "proved", "theorems": ["Verif.Props.C39_value_matching", "Verif.Props.C39_call", "Verif.Props.C39_put_is_call", "Verif.Props.C39_call_european", "Verif.Props.C39_put_european", "Verif.Props.C39_example"], "note": "Value matching for positive triggers."},
{"property": "C40", "status": "partial", "theorems": ["Verif.Props.C40_trigger_partial", "Verif.Props.C40_exercise_partial", "Verif.Props.C40_negative_price", "Verif.Props.C40_iff", "Verif.Props.C40_example"], "note": "Holds exactly when b*T + 2*sigma*sqrt(T) >= 0 (C40_iff; C40_trigger_partial, C40_exercise_partial); otherwise call() returns S - K < 0 for spots between trigger and strike (C40_iff; C40_negative_price has trigger < 0 and price -1)."},
{"property": "C41", "status": "proved", "theorems": ["Verif.Props.C41_construct", "Verif.Props.C41_set_param", "Verif.Props.C41_example"], "note": ""},
{"property": "C42", "status": "proved", "theorems": ["Verif.Props.C42_parity", "Verif.Props.C42_variance", "Verif.Props.C42_is_gbs", "Verif.Props.C42_one_asset", "Verif.Props.C42_exchange", "Verif.Props.C42_example"], "note": "the short side must be nonzero (else the code divides by zero)"},
{"property": "C43", "status": "proved", "theorems": ["Verif.Props.C43_averages", "Verif.Props.C43_infinite", "Verif.Props.C43_price", "Verif.Props.C43_new"], "note": "Generic simulation loop and, for the library's path and payoff classes, the closed form of each entry."},
{"property": "C44", "status": "proved", "theorems": ["Verif.Props.C44_antithetic", "Verif.Props.C44_standardized", "Verif.Props.C44_both", "Verif.Props.C44_example"], "note": ""},
{"property": "C45", "status": "proved", "theorems": ["Verif.Props.C45_parity", "Verif.Props.C45_bounds", "Verif.Props.C45_example"], "note": ""},
{"property": "C46", "status": "proved", "theorems": ["Verif.Props.C46_path", "Verif.Props.C46_order", "Verif.Props.C46_last", "Verif.Props.C46_one_step", "Verif.Props.C46_average", "Verif.Props.C46_increment"], "note": ""},
{"property": "C47", "status": "partial", "theorems": ["Verif.Props.C47_lines_partial", "Verif.Props.C47_wrong", "Verif.Props.C47_last_partial"], "note": "The code divides the sum of ALL loops by i+1. Proved: shape of the lines, exactly when a line is right (the later loops sum to zero), last line right; C47_wrong is a counterexample to the full claim."},
{"property": "C48", "status": "partial", "theorems": ["Verif.Props.C48_no_infinity_partial", "Verif.Props.C48_minus_infinity", "Verif.Props.C48_unscrambled", "Verif.Props.C48_unscrambled_finite", "Verif.Props.C48_eps", "Verif.Props.C48_example"], "note": "The loop tests only the largest entry, so -inf passes: C48_minus_infinity. Proved: no +inf, at least one finite entry, the first acceptable draw is returned, unscrambled rows are points 1..mc_paths, and are finite if those points are inside the cube."},
{"property": "C49", "status": "proved", "theorems": ["Verif.Props.C49_generating", "Verif.Props.C49_lines", "Verif.Props.C49_martingale", "Verif.Props.C49_risk_neutral", "Verif.Props.C49_integrand"], "note": "For every complex argument under positivity of the code's own denominators (the condition for the expectation to exist); unconditional on the two lines the pricing uses. Arithmetic over C, complex log principal branch."},
{"property": "C50", "status": "proved", "theorems": ["Verif.Props.C50_parity", "Verif.Props.C50_integrands"], "note": "For any quadrature result."},
{"property": "C51", "status": "partial", "theorems": ["Verif.Props.C51_roundtrip_partial", "Verif.Props.C51_resimulate", "Verif.Props.C51_likelihood", "Verif.Props.C51_warmup_fails"], "note": "Proved without warm-up, in both directions and through the transformed parameters of the likelihood. False after a discarded warm-up (C51_warmup_fails): the filter restarts at the stationary variance."},
{"property": "C52", "status": "proved", "theorems": ["Verif.Props.C52_filter", "Verif.Props.C52_sim", "Verif.Props.C52_nonstationary"], "note": "Also shown: without stationarity the first variance is negative (C52_nonstationary); nothing in the fit enforces stationarity."},
{"property": "C53", "status": "partial", "theorems": ["Verif.Props.C53_flag_ignored", "Verif.Props.C53_fails", "Verif.Props.C53_report_partial", "Verif.Props.C53_report_fails"], "note": "Violated: `~symmetric` is truthy for both booleans, so the flag is ignored by the likelihood (C53_flag_ignored, C53_fails) and with symmetric=True the reported gamma=0 is not the model of the returned h and z (C53_report_fails). Holds when the flag is False or the optimizer returns gamma=0."},
{"property": "C54", "status": "partial", "theorems": ["Verif.Props.C54_length_partial", "Verif.Props.C54_causal", "Verif.Props.C54_longer", "Verif.Props.C54_start_ignored", "Verif.Props.C54_shorter"], "note": "Holds for innovation arrays of the requested lengths. Violated for longer arrays and for inno_start with n_start=0: raw innovations are returned as points (C54_longer, C54_start_ignored); shorter arrays raise IndexError."},
{"property": "C55", "status": "proved", "theorems": ["Verif.Props.C55_returns", "Verif.Props.C55_report", "Verif.Props.C55_start"], "note": "Optimizer is an arbitrary oracle."},
{"property": "C56", "status": "proved", "theorems": ["Verif.Props.C56_scheme", "Verif.Props.C56_gbs", "Verif.Props.C56_example"], "note": "generic over any parity-satisfying pair of price functions; instantiated for GBSOption"},
{"property": "C57", "status": "proved", "theorems": ["Verif.Props.C57_two_asset", "Verif.Props.C57_ms", "Verif.Props.C57_american", "Verif.Props.C57_two_asset_example", "Verif.Props.C57_gbs_greeks", "Verif.Props.C57_fdm_greeks", "Verif.Props.C57_example"], "note": "analytic and finite-difference dictionaries, all classes (Miltersen-Schwartz, two-asset and American approximations in Props/Greeks2)"},
{"property": "C58", "status": "proved", "theorems": ["Verif.Props.C58_average", "Verif.Props.C58_nodes", "Verif.Props.C58_small", "Verif.Props.C58_nonneg", "Verif.Props.C58_frames"], "note": "Discounted average over the lattice with product trinomial weights, for every n >= 2; n = 1 raises IndexError, n = 0 ZeroDivisionError."},
{"property": "C59", "status": "proved", "theorems": ["Verif.Props.C59_put_trigger", "Verif.Props.C59_put_boundary", "Verif.Props.C59_put_reported"], "note": ""},
{"property": "C60", "status": "proved", "theorems": ["Verif.Props.C60_homogeneous", "Verif.Props.C60_call", "Verif.Props.C60_put", "Verif.Props.C60_example"], "note": ""},
{"property": "C61", "status": "proved", "theorems": ["Verif.Props.C61_unbiased", "Verif.Props.C61_asian_parity"], "note": "Expectation over arbitrary probability spaces; standardization excluded (it changes the law)."},
{"property": "C62", "status": "proved", "theorems": ["Verif.Props.C62_consistent", "Verif.Props.C62_example"], "note": ""},
{"property": "C63", "status": "proved", "theorems": ["Verif.Props.C63_call", "Verif.Props.C63_put"], "note": "quad is taken to be the exact integral over (0,inf)."},
{"property": "C64", "status": "proved", "theorems": ["Verif.Props.C64_exact", "Verif.Props.C64_value"], "note": "quad is taken to be the exact integral over (0,inf)."},
{"property": "C65", "status": "partial", "theorems": ["Verif.Props.C65_likelihood", "Verif.Props.C65_minimum_fails"], "note": "Objective: proved. The reported 'minimum' is not the log-likelihood: it is off by len(x)*sqrt(2*pi) (C65_minimum_fails)."},
{"property": "C66", "status": "proved", "theorems": ["Verif.Props.C66_density", "Verif.Props.C66_example"], "note": "Numbers are reals; n_start = 0."},
{"property": "C67", "status": "partial", "theorems": ["Verif.Props.C67_mean_fails", "Verif.Props.C67_variance_fails", "Verif.Props.C67_correlation_partial", "Verif.Props.C67_discount_fails"], "note": "Violated by the code. Proved: both means are 0, variances tend to 4 sigma^2 t, total discount is exp(n b - r t). Proved part: the limiting correlation is rho."},
{"property": "C68", "status": "proved", "theorems": ["Verif.Props.C68_binomial", "Verif.Props.C68_trinomial", "Verif.Props.C68_agrees_gbs"], "note": "Limit proved through weak convergence of the lattice log returns and uniform integrability; no rate is claimed."},
{"property": "C69", "status": "proved", "theorems": ["Verif.Props.C69_limit", "Verif.Props.C69_documented"], "note": "Options 8 and the put of 7 are not evaluated as documented (C31); for them C69_limit applies with the coded payoff."},
{"property": "C70", "status": "proved", "theorems": ["Verif.Props.C70_margrabe", "Verif.Props.C70_kirk_is_limit"], "note": ""},
{"property": "C71", "status": "proved", "theorems": ["Verif.Props.C71_crr", "Verif.Props.C71_trinomial"], "note": "No condition on the weights is needed."},
{"property": "C72", "status": "partial", "theorems": ["Verif.Props.C72_crr", "Verif.Props.C72_trinomial", "Verif.Props.C72_tian_partial", "Verif.Props.C72_tian_fails", "Verif.Props.C72_jr_fails"], "note": "True of CRR and the trinomial tree. False for JR and for TIAN once exp(sigma^2 dt) > 3/2 (C72_jr_fails, C72_tian_fails); C72_tian_partial covers TIAN below that bound."},
{"property": "C73", "status": "proved", "theorems": ["Verif.Props.C73_binomial", "Verif.Props.C73_trinomial"], "note": ""},
{"property": "C74", "status": "proved", "theorems": ["Verif.Props.C74_bivariate", "Verif.Props.C74_bivariate_strict", "Verif.Props.C74_quadrature", "Verif.Props.C74_spec_independent", "Verif.Props.C74_spec_comonotone", "Verif.Props.C74_example"], "note": "error of the five-point quadrature bounded by a certified polynomial majorant (kernel-checked integer arithmetic), integrated over the second variable; reduction identities exact by rotation invariance"},
{"property": "C75", "status": "proved", "theorems": ["Verif.Props.C75_spec_bounds", "Verif.Props.C75_european", "Verif.Props.C75_exercise", "Verif.Props.C75_example"], "note": "hypotheses D <= K and S*2^n != 1e8 are part of the statement; C35 shows what happens without them"},
{"property": "C76", "status": "proved", "theorems": ["Verif.Props.C76_spec_exists", "Verif.Props.C76_spec_unique", "Verif.Props.C76_below", "Verif.Props.C76_call", "Verif.Props.C76_put", "Verif.Props.C76_put_level", "Verif.Props.C76_bounds", "Verif.Props.C76_example"], "note": "the condition b T + 2 sigma sqrt T >= 0 keeps the trigger at or above the strike; C40 shows what happens without it"},
{"property": "C77", "status": "proved", "theorems": ["Verif.Props.C77_put_spec", "Verif.Props.C77_call_spec", "Verif.Props.C77_call", "Verif.Props.C77_put", "Verif.Props.C77_example"], "note": "about runs of the search that stop at a positive price; the run relation and its exit condition are the hypothesis"},
{"property": "C78", "status": "partial", "theorems": ["Verif.Props.C78_rhs", "Verif.Props.C78_slope_call_partial", "Verif.Props.C78_slope_put_partial", "Verif.Props.C78_slope_wrong", "Verif.Props.C78_step_call", "Verif.Props.C78_step_put", "Verif.Props.C78_seed_call", "Verif.Props.C78_seed_put", "Verif.Props.C78_example"], "note": "negation proved for every parameter set (C78_slope_wrong): bi has the distribution function where the derivative has the density; C78_slope_*_partial give bi exactly up to that replacement and the CND error; step and seed are proved, with the seed outside the bracket when b t + 2 sigma sqrt t < 0 (put: b t > 2 sigma sqrt t)"},
{"property": "C79", "status": "proved", "theorems": ["Verif.Props.C79_delta", "Verif.Props.C79_delta_trinomial", "Verif.Props.C79_gamma_zero", "Verif.Props.C79_kinks_finite", "Verif.Props.C79_gamma_fails", "Verif.Props.C79_gamma_trinomial", "Verif.Props.C79_example"], "note": "second derivatives off the finitely many kinks only; at a kink the price has no derivative"},
{"property": "C80", "status": "proved", "theorems": ["Verif.Props.C80_premium", "Verif.Props.C80_parity", "Verif.Props.C80_jr", "Verif.Props.C80_trinomial", "Verif.Props.C80_sharp", "Verif.Props.C80_example"], "note": ""},
{"property": "C81", "status": "proved", "theorems": ["Verif.Props.C81_positive", "Verif.Props.C81_accuracy", "Verif.Props.C81_example"], "note": "the external root finder is any rule whose result is within the tolerance"},
{"property": "C82", "status": "partial", "theorems": ["Verif.Props.C82_delta_partial", "Verif.Props.C82_vega_partial", "Verif.Props.C82_theta_partial", "Verif.Props.C82_rho_gap", "Verif.Props.C82_jump", "Verif.Props.C82_fdm_partial", "Verif.Props.C82_accurate_example", "Verif.Props.C82_example"], "note": "delta, theta and vega agree off d1 = 0, d2 = 0 (C82_fdm_partial); the claim is false for rho with b != 0 (C82_rho_gap) and at d1 = 0 (C82_jump)"},
{"property": "C83", "status": "proved", "theorems": ["Verif.Props.C83_antithetic", "Verif.Props.C83_variance", "Verif.Props.C83_bound", "Verif.Props.C83_error", "Verif.Props.C83_example"], "note": "exact reals; innovations independent standard normal, loops may depend on each other"},
{"property": "C84", "status": "proved", "theorems": ["Verif.Props.C84_consistent", "Verif.Props.C84_single_path", "Verif.Props.C84_biased", "Verif.Props.C84_example"], "note": "consistency for every flag combination; the bias is proved for a single path"},
{"property": "C85", "status": "proved", "theorems": ["Verif.Props.C85_exact", "Verif.Props.C85_binomial", "Verif.Props.C85_trinomial", "Verif.Props.C85_jr", "Verif.Props.C85_crr", "Verif.Props.C85_jr_example", "Verif.Props.C85_crr_example", "Verif.Props.C85_exact_trinomial", "Verif.Props.C85_trinomial_params", "Verif.Props.C85_tian", "Verif.Props.C85_limit_jr", "Verif.Props.C85_limit_crr", "Verif.Props.C85_limit_tian", "Verif.Props.C85_limit_trinomial", "Verif.Props.C85_limit_example"], "note": "Standard model of rounding (relative error of every operation, no overflow or underflow). From the parameters to the price for all four classes: C85_jr, C85_crr, C85_tian, C85_trinomial_params; limits C85_limit_*."},
{"property": "C86", "status": "proved", "theorems": ["Verif.Props.C86_moments", "Verif.Props.C86_white_noise", "Verif.Props.C86_fit", "Verif.Props.C86_example"], "note": "For innovations that are independent and standard normal (numpy's generator itself is not modelled)."},
{"property": "C87", "status": "proved", "theorems": ["Verif.Props.C87_bounds", "Verif.Props.C87_strike", "Verif.Props.C87_spot", "Verif.Props.C87_quadrature", "Verif.Props.C87_greeks_quadrature", "Verif.Props.C87_example"], "note": "quad is an oracle: its promised tolerance is a hypothesis."},
{"property": "C88", "status": "proved", "theorems": ["Verif.Props.C88_black_scholes", "Verif.Props.C88_gbs", "Verif.Props.C88_example"], "note": "quad is an oracle: its promised tolerance is a hypothesis."},
{"property": "C89", "status": "partial", "theorems": ["Verif.Props.C89_price_iff", "Verif.Props.C89_values_partial", "Verif.Props.C89_float_raises", "Verif.Props.C89_model_unused", "Verif.Props.C89_expired", "Verif.Props.C89_example"], "note": "False as worded: every float maturity raises TypeError (C89_float_raises), model is ignored (C89_model_unused), t = 0 is priced like one day and exceeds the payoff (C89_expired). Proved: exactly which objects have a price (C89_price_iff) and that their methods then return the modelled numbers (C89_values_partial)."},
{"property": "C90", "status": "partial", "theorems": ["Verif.Props.C90_kirk", "Verif.Props.C90_ms_gamma", "Verif.Props.C90_ms_vega_call", "Verif.Props.C90_ms_vega_gap", "Verif.Props.C90_ms_vega_fails", "Verif.Props.C90_tree", "Verif.Props.C90_jr_vega_fails", "Verif.Props.C90_spread_vega_fails", "Verif.Props.C90_spread_gamma", "Verif.Props.C90_max_vega_fails", "Verif.Props.C90_bs93_put_vega", "Verif.Props.C90_bs93_vega_fails", "Verif.Props.C90_example", "Verif.Props.C90_ms_example", "Verif.Props.C90_baw_critical", "Verif.Props.C90_baw_put_vega", "Verif.Props.C90_baw_put_gamma", "Verif.Props.C90_baw_vega_fails", "Verif.Props.C90_american_vega_fails", "Verif.Props.C90_american_example"], "note": "Proved: Kirk (C90_kirk), Miltersen-Schwartz gamma, European CRR/TIAN trees, two-asset spread gamma. False: Miltersen-Schwartz vega (C90_ms_vega_gap, C90_ms_vega_fails), JR trees and two-asset spread vega (lattice forward depends on the volatility), maximum options (C90_max_vega_fails), Bjerksund-Stensland and Barone-Adesi-Whaley puts in the exercise region (C90_bs93_vega_fails, C90_baw_vega_fails; C90_baw_critical bounds the critical price from below), American CRR trees where the put is exercised at once (C90_american_vega_fails, one step)."},
{"property": "C91", "status": "partial", "theorems": ["Verif.Props.C91_call_partial", "Verif.Props.C91_call_fails", "Verif.Props.C91_call_fails_carry", "Verif.Props.C91_put_partial", "Verif.Props.C91_call_rate_zero", "Verif.Props.C91_put_rate_zero", "Verif.Props.C91_put_rate_negative", "Verif.Props.C91_example", "Verif.Props.C91_run_example", "Verif.Props.C91_put_fails_carry", "Verif.Props.C91_put_carry_partial", "Verif.Props.C91_put_fails_carry_example", "Verif.Props.C91_put_carry_example"], "note": "Proved for r > 0: calls with exp(-(bt+2σ√t)(q-1)) ≤ q (C91_call_partial) and puts with b ≤ r (C91_put_partial); the iterates stay positive. False otherwise: the call is S - K for every spot when the seed is negative (C91_call_fails, iff for the returned value; C91_call_fails_carry), nan or exercise value for r = 0 (C91_call_rate_zero, C91_put_rate_zero), K - S for negative rates without real root (C91_put_rate_negative). Puts with b > r: a number if (e^{(b-r)t}-1)(1+y)σ√t ≤ e^{(b-r)t} (C91_put_carry_partial), but nan for every spot with bt = 2, σ√t = 3, rt ≤ 0.001 (C91_put_fails_carry); not characterised in between."},
{"property": "C92", "status": "proved", "theorems": ["Verif.Props.C92_search_call_carry", "Verif.Props.C92_call_carry", "Verif.Props.C92_call_carry_example", "Verif.Props.C92_search_put_carry", "Verif.Props.C92_put_carry", "Verif.Props.C92_carry_example", "Verif.Props.C92_search_call", "Verif.Props.C92_search_put", "Verif.Props.C92_call", "Verif.Props.C92_put", "Verif.Props.C92_example"], "note": "Termination proved for the stated parameter ranges; nothing is claimed outside them (calls with b t < -2 sigma sqrt(t), puts with b > r). C92_search_put_carry / C92_put_carry treat puts with positive carry, C92_search_call_carry / C92_call_carry calls with negative carry."},
{"property": "C93", "status": "partial", "theorems": ["Verif.Props.C93_meaning_partial", "Verif.Props.C93_never_now", "Verif.Props.C93_fails", "Verif.Props.C93_example"], "note": "False as documented: at a positive rate exercising now is never optimal (C93_never_now), and the method answers True at the library's own example, an out-of-the-money option (C93_fails). Proved instead (C93_meaning_partial): True exactly when some ex-dividend price makes exercising on the dividend date better than keeping, equivalently when the right to exercise on that date adds value to the European call for every price today."},
{"property": "C94", "status": "proved", "theorems": ["Verif.Props.C94_american_call_trinomial", "Verif.Props.C94_crr", "Verif.Props.C94_trinomial", "Verif.Props.C94_tian", "Verif.Props.C94_jr_put", "Verif.Props.C94_jr_call", "Verif.Props.C94_enough_steps", "Verif.Props.C94_american_call", "Verif.Props.C94_american_call_tian", "Verif.Props.C94_gbs"], "note": ""},
{"property": "C95", "status": "proved", "theorems": ["Verif.Props.C95_jr_put", "Verif.Props.C95_crr_put", "Verif.Props.C95_crr_call", "Verif.Props.C95_crr_call_carry", "Verif.Props.C95_tian_put", "Verif.Props.C95_trinomial_put", "Verif.Props.C95_trinomial_call", "Verif.Props.C95_limit_put", "Verif.Props.C95_limit_trinomial", "Verif.Props.C95_limit_call", "Verif.Props.C95_classes_agree", "Verif.Props.C95_value", "Verif.Props.C95_premium", "Verif.Props.C95_jr_call", "Verif.Props.C95_tian_call", "Verif.Props.C95_limit_call_classes", "Verif.Props.C95_limit_trinomial_call", "Verif.Props.C95_classes_agree_call"], "note": "Puts and calls for all four classes; the rate n^(-1/4) comes from grouping steps and is not claimed to be sharp. JR calls with r < b are covered in the limit (C95_limit_call_classes; trinomial calls: C95_limit_trinomial_call), where the carry eventually outweighs the drift the lattice loses."},
{"property": "C96", "status": "partial", "theorems": ["Verif.Props.C96_text_partial", "Verif.Props.C96_printer", "Verif.Props.C96_fresh", "Verif.Props.C96_stale", "Verif.Props.C96_rgw", "Verif.Props.C96_rgw_flag", "Verif.Props.C96_rgw_raises", "Verif.Props.C96_bs93", "Verif.Props.C96_repr_lossy", "Verif.Props.C96_repr_exact", "Verif.Props.C96_title", "Verif.Props.C96_example"], "note": "C96_text_partial, C96_fresh, C96_printer, C96_bs93, C96_rgw, C96_rgw_flag and C96_repr_exact prove what holds; the code violates the rest: C96_stale (text mixes a refused strike with old prices), C96_rgw_raises (summary raises for K=None), C96_repr_lossy (long arrays are rounded and elided), C96_title (TIAN prints CRR's title). Digits of single values (str of a float, array2string) are not modelled."},
{"property": "C97", "status": "proved", "theorems": ["Verif.Props.C97_level_call", "Verif.Props.C97_level_put", "Verif.Props.C97_call", "Verif.Props.C97_put", "Verif.Props.C97_call_carry", "Verif.Props.C97_trees_put", "Verif.Props.C97_trees_call", "Verif.Props.C97_example", "Verif.Props.C97_trees_call_classes", "Verif.Props.C97_trees_put_trinomial", "Verif.Props.C97_trees_example"], "note": "bs93Err is the explicit accumulated error of the ten values of CND in the formula; the condition on b, sigma and T is the one of C40/C76 under which the trigger is at least the strike (the code violates it otherwise, see C40)."},
{"property": "C98", "status": "proved", "theorems": ["Verif.Props.C98_overwrites", "Verif.Props.C98_short", "Verif.Props.C98_never_returns", "Verif.Props.C98_data_unused", "Verif.Props.C98_example"], "note": "The statement describes the behaviour of the code, which is a defect: a likelihood should be returned and the series left alone."},
{"property": "C99", "status": "proved", "theorems": ["Verif.Props.C99_constructor", "Verif.Props.C99_complete", "Verif.Props.C99_missing", "Verif.Props.C99_unknown_keywords", "Verif.Props.C99_example"], "note": "That unknown keywords are swallowed silently is recorded as a finding."},
{"property": "C100", "status": "proved", "theorems": ["Verif.Props.C100_exact", "Verif.Props.C100_cnd", "Verif.Props.C100_price", "Verif.Props.C100_double", "Verif.Props.C100_example"], "note": "Overflow and underflow are not modelled; the relative error model of each operation is a hypothesis (RoundedT)."},
{"property": "C101", "status": "partial", "theorems": ["Verif.Props.C101_european", "Verif.Props.C101_reprices", "Verif.Props.C101_upper_end", "Verif.Props.C101_raises", "Verif.Props.C101_example", "Verif.Props.C101_reprices_example"], "note": "Violated by the code: C101_raises (every price, every bracketing solver), through C101_upper_end. Proved: what is returned by a sound solver reprices (C101_reprices); if early exercise cannot pay, the search is that of GBSOption on the stock without the dividend (C101_european), covered by C13 and C81."},
{"property": "C102", "status": "partial", "theorems": ["Verif.Props.C102_accuracy", "Verif.Props.C102_bisection", "Verif.Props.C102_price_partial", "Verif.Props.C102_price_tol_fails", "Verif.Props.C102_example"], "note": "`tol` does not bound the error of the price (C102_price_tol_fails); what it does bound is proved in C102_accuracy and C102_price_partial, and C102_bisection gives a solver for which the method always succeeds."},
{"property": "C103", "status": "partial", "theorems": ["Verif.Props.C103_price_partial", "Verif.Props.C103_at_the_money_fails", "Verif.Props.C103_delta_vega", "Verif.Props.C103_gamma_theta_fails", "Verif.Props.C103_lamb_fails", "Verif.Props.C103_spot_zero", "Verif.Props.C103_expired", "Verif.Props.C103_example", "Verif.Props.C103_regular"], "note": "Proved off the forward (C103_price_partial, C103_delta_vega) and for S = 0; refuted at the forward (C103_at_the_money_fails), for gamma and theta (C103_gamma_theta_fails), lambda of worthless options (C103_lamb_fails) and negative maturities (C103_expired). In the regular region the functions agree with the real model (C103_regular)."},
{"property": "C104", "status": "partial", "theorems": ["Verif.Props.C104_in_range", "Verif.Props.C104_european_fails", "Verif.Props.C104_american_fails", "Verif.Props.C104_jr_partial", "Verif.Props.C104_jr_american_partial", "Verif.Props.C104_expired", "Verif.Props.C104_in_range3", "Verif.Props.C104_trinomial_fails", "Verif.Props.C104_example"], "note": "Proved for Jarrow-Rudd (C104_jr_partial, C104_jr_american_partial) and refinement in range (C104_in_range, C104_in_range3); refuted for the other trees (C104_european_fails, C104_american_fails, C104_trinomial_fails) and for negative maturities (C104_expired)."},
{"property": "C105", "status": "partial", "theorems": ["Verif.Props.C105_unknown_european_fails", "Verif.Props.C105_unknown_american", "Verif.Props.C105_correlation_fails", "Verif.Props.C105_in_range", "Verif.Props.C105_example"], "note": "The natural claim (bad arguments are refused) is false: C105_unknown_european_fails, C105_correlation_fails. American options with an unknown number do raise (C105_unknown_american); the in-range refinement is proved (C105_in_range)."},
{"property": "C106", "status": "partial", "theorems": ["Verif.Props.C106_accuracy_second", "Verif.Props.C106_second_example", "Verif.Props.C106_accuracy", "Verif.Props.C106_strike_fails", "Verif.Props.C106_strike_partial", "Verif.Props.C106_homogeneous", "Verif.Props.C106_example"], "note": "Monotonicity in the strike is refuted (C106_strike_fails) and proved under a condition on the correlation (C106_strike_partial). Both accuracy bounds (C106_accuracy, first order in the smaller short leg; C106_accuracy_second, second order in the volatility of the second asset) hold for all parameters of the claim; no lower bound on the error is proved."},
{"property": "C107", "status": "partial", "theorems": ["Verif.Props.C107_in_range", "Verif.Props.C107_uncorrelated_fails", "Verif.Props.C107_uncorrelated_partial", "Verif.Props.C107_correlation_fails", "Verif.Props.C107_expired_fails", "Verif.Props.C107_limit", "Verif.Props.C107_example"], "note": "Proved in range (C107_in_range) and for uncorrelated assets with the second more volatile (C107_uncorrelated_partial); refuted for uncorrelated assets with the first at least as volatile (C107_uncorrelated_fails, with C107_limit), impossible correlations (C107_correlation_fails) and negative maturities (C107_expired_fails)."},
{"property": "C108", "status": "proved", "theorems": ["Verif.Props.C108_value", "Verif.Props.C108_bond", "Verif.Props.C108_moments", "Verif.Props.C108_market", "Verif.Props.C108_example"], "note": "Spec/StochasticDiscount states the market with two independent standard normals; C108_moments shows that it has the variance and covariance of the model, C108_market that the futures price is a martingale, C108_bond that every Pt > 0 occurs, C108_value the price. Zero variance is excluded."},
{"property": "C109", "status": "partial", "theorems": ["Verif.Props.C109_geometric", "Verif.Props.C109_volatility", "Verif.Props.C109_vanilla_partial", "Verif.Props.C109_vanilla_fails", "Verif.Props.C109_example"], "note": "Enclosure (C109_geometric) and volatility (C109_volatility) are proved for all parameters. The comparison with the vanilla option holds by sign of the carry (C109_vanilla_partial) and is refuted for the other sign (C109_vanilla_fails)."},
{"property": "C110", "status": "partial", "theorems": ["Verif.Props.C110_exponent", "Verif.Props.C110_call", "Verif.Props.C110_put", "Verif.Props.C110_limit_call", "Verif.Props.C110_limit_put", "Verif.Props.C110_trees_put", "Verif.Props.C110_trees_call", "Verif.Props.C110_bs93_call_partial", "Verif.Props.C110_bs93_put_partial", "Verif.Props.C110_bs93_call_fails", "Verif.Props.C110_bs93_put_fails", "Verif.Props.C110_example", "Verif.Props.C110_fails_example", "Verif.Props.C110_quad_limit", "Verif.Props.C110_baw_call_partial", "Verif.Props.C110_baw_put", "Verif.Props.C110_baw_call_fails", "Verif.Props.C110_baw_returns", "Verif.Props.C110_baw_example", "Verif.Props.C110_trinomial_put", "Verif.Props.C110_trinomial_call", "Verif.Props.C110_trinomial_example"], "note": "Bounds and limit of the American value (C110_call, C110_put, C110_limit_call, C110_limit_put) and the lattice brackets (C110_trees_call, C110_trees_put, C110_trinomial_call, C110_trinomial_put) are proved in full. The limit of the BSAmericanApproxOption price is proved for 0 <= b < r (calls) and b <= 0 < r (puts) and refuted for the other sign of b (C110_bs93_call_fails, C110_bs93_put_fails). BAWAmericanApproxOption: C110_quad_limit, C110_baw_call_partial (0 <= b < r), C110_baw_put; refuted for calls with b < 0 (C110_baw_call_fails)."},
{"property": "C111", "status": "proved", "theorems": ["Verif.Props.C111_crr", "Verif.Props.C111_jr", "Verif.Props.C111_tian", "Verif.Props.C111_crr_european", "Verif.Props.C111_trinomial", "Verif.Props.C111_two_asset", "Verif.Props.C111_jr_european", "Verif.Props.C111_tian_european", "Verif.Props.C111_trinomial_european", "Verif.Props.C111_two_asset_european", "Verif.Props.C111_two_asset_example"], "note": "All five lattices (C111_crr, C111_jr, C111_tian, C111_trinomial, C111_two_asset); paths, stopping times and means are defined in Spec/Stopping without reference to backward induction. The mean at the last date is proved for each class (C111_crr_european, C111_jr_european, C111_tian_european, C111_trinomial_european, C111_two_asset_european)."},
{"property": "C112", "status": "proved", "theorems": ["Verif.Props.C112_crr", "Verif.Props.C112_tian", "Verif.Props.C112_crr_european", "Verif.Props.C112_tian_european", "Verif.Props.C112_jr_fails"], "note": "CRR and TIAN proved for American (least covering capital) and European (unique replicating capital) options. The JR clause is C112_jr_fails: the European call and put price with the same terms are never both replication costs."},
{"property": "C113", "status": "proved", "theorems": ["Verif.Props.C113_put", "Verif.Props.C113_call", "Verif.Props.C113_time", "Verif.Props.C113_tree_put", "Verif.Props.C113_tree_call", "Verif.Props.C113_trinomial_put", "Verif.Props.C113_trinomial_call", "Verif.Props.C113_threshold", "Verif.Props.C113_put_negative_rate", "Verif.Props.C113_call_high_carry"], "note": "Binomial classes: C113_put, C113_call, C113_time, C113_tree_put, C113_tree_call, C113_threshold; trinomial: C113_trinomial_put, C113_trinomial_call. C113_put_negative_rate and C113_call_high_carry show that the sign conditions cannot be dropped."},
{"property": "C114", "status": "partial", "theorems": ["Verif.Props.C114_exercised", "Verif.Props.C114_fails_call", "Verif.Props.C114_fails_put", "Verif.Props.C114_code_fails", "Verif.Props.C114_shortfall", "Verif.Props.C114_call_partial", "Verif.Props.C114_put_partial", "Verif.Props.C114_example"], "note": "The claim is false for the code (C114_fails_call, C114_fails_put, C114_code_fails). Proved: the shortfall against the European value is at most its size at the trigger (C114_shortfall), hence at most K (b+ T + 0.4 sigma sqrt T) (C114_call_partial, C114_put_partial)."},
{"property": "C115", "status": "proved", "theorems": ["Verif.Props.C115_call", "Verif.Props.C115_put", "Verif.Props.C115_example"], "note": "C115_call, C115_put; for calls with b >= r the code returns the European price (C38_call_european)."},
{"property": "C116", "status": "partial", "theorems": ["Verif.Props.C116_warning", "Verif.Props.C116_value", "Verif.Props.C116_verbose", "Verif.Props.C116_flag_ignored", "Verif.Props.C116_array_options", "Verif.Props.C116_failure_unreported", "Verif.Props.C116_example"], "note": "Warning, verbose and the returned value are proved for all runs. The code violates two parts: C116_flag_ignored/C116_failure_unreported show that failures of the solver are not reported, C116_array_options that tol and maxiter have no effect for arrays."},
{"property": "C117", "status": "partial", "theorems": ["Verif.Props.C117_put_overflow", "Verif.Props.C117_put_overflow_region", "Verif.Props.C117_put_partial", "Verif.Props.C117_example"], "note": "holds while the exponential stays below 2^1024 (C117_put_partial, b <= r); false beyond: C117_put_overflow shows put() = K - S for every spot, C117_example a five-year put at 1% volatility priced at -20. Only the overflow of this exponential is modelled, no rounding."},
{"property": "C118", "status": "partial", "theorems": ["Verif.Props.C118_first", "Verif.Props.C118_correlation", "Verif.Props.C118_second_partial", "Verif.Props.C118_second_fails", "Verif.Props.C118_example", "Verif.Props.C118_second_example"], "note": "Proved for the first leg and the correlation (C118_first, C118_correlation) and, under a condition on the correlation, for the second leg (C118_second_partial); refuted for the second leg in general (C118_second_fails)."},
{"property": "C119", "status": "proved", "theorems": ["Verif.Props.C119_bounds", "Verif.Props.C119_spot", "Verif.Props.C119_strike", "Verif.Props.C119_dividend", "Verif.Props.C119_volatility", "Verif.Props.C119_example"], "note": "whenever call() returns a number; C35 and C75 say when it raises ValueError instead"},
{"property": "C120", "status": "proved", "theorems": ["Verif.Props.C120_call", "Verif.Props.C120_put", "Verif.Props.C120_call_convex", "Verif.Props.C120_put_convex", "Verif.Props.C120_example"], "note": "Calls for b < r and puts for b <= r; a call with b >= r is the European price. Conditional on the search stopping at a positive price, which C78 and C92 treat."},
{"property": "C121", "status": "partial", "theorems": ["Verif.Props.C121_fails_call", "Verif.Props.C121_fails_put", "Verif.Props.C121_call_partial", "Verif.Props.C121_put_partial", "Verif.Props.C121_example"], "note": "the code violates the claim (C121_fails_call, C121_fails_put); the shortfall is bounded by C121_call_partial and C121_put_partial"},
{"property": "C122", "status": "proved", "theorems": ["Verif.Props.C122_call_spot", "Verif.Props.C122_call_strike", "Verif.Props.C122_put_strike", "Verif.Props.C122_put_spot", "Verif.Props.C122_example"], "note": ""},
{"property": "C123", "status": "proved", "theorems": ["Verif.Props.C123_call_homogeneous", "Verif.Props.C123_put_homogeneous", "Verif.Props.C123_critical_call", "Verif.Props.C123_critical_put", "Verif.Props.C123_call", "Verif.Props.C123_put", "Verif.Props.C123_example"], "note": ""},
{"property": "C124", "status": "proved", "theorems": ["Verif.Props.C124_step_exists_unique", "Verif.Props.C124_price", "Verif.Props.C124_trinomial", "Verif.Props.C124_jr_mean", "Verif.Props.C124_example"], "note": "States the lattices by the moments they reproduce (Spec/TreeStep), not by the model's factors."},
{"property": "C125", "status": "partial", "theorems": ["Verif.Props.C125_stationary", "Verif.Props.C125_not_stationary", "Verif.Props.C125_number_iff", "Verif.Props.C125_sim", "Verif.Props.C125_sim_stationary", "Verif.Props.C125_default_start_partial", "Verif.Props.C125_default_start_fails", "Verif.Props.C125_default_start_example", "Verif.Props.C125_report_partial", "Verif.Props.C125_report_fails"], "note": "Likelihood and simulation: proved. Violated twice: the default start is nan for every series with sample variance above one, e.g. returns in per cent (C125_default_start_fails; exact condition in C125_default_start_partial), and with symmetric=True the fit can report a stationary model next to innovations that are all nan (C125_report_fails; holds with symmetric=False, C125_report_partial)."},
{"property": "C126", "status": "proved", "theorems": ["Verif.Props.C126_strike", "Verif.Props.C126_scale", "Verif.Props.C126_first", "Verif.Props.C126_second", "Verif.Props.C126_convex", "Verif.Props.C126_example"], "note": ""},
{"property": "C127", "status": "partial", "theorems": ["Verif.Props.C127_swap_partial", "Verif.Props.C127_fails"], "note": "Proved for correlation 0, 1 and -1 (C127_swap_partial). False in general: the lattice builds the second asset from the moves of the first, so a one-step product option with correlation 3/5 has two different prices (C127_fails)."},
{"property": "C128", "status": "proved", "theorems": ["Verif.Props.C128_moments", "Verif.Props.C128_growth"], "note": ""},
{"property": "C129", "status": "partial", "theorems": ["Verif.Props.C129_limit_partial", "Verif.Props.C129_positive_carry", "Verif.Props.C129_negative_carry", "Verif.Props.C129_fails", "Verif.Props.C129_witness"], "note": "The code violates the claim. Proved: without carry the prices converge to the value for twice the volatilities, the right correlation and forwards S exp(2 sigma^2 t) (C129_limit_partial); with negative carry they tend to zero while the value is positive; with positive carry and |rho| < 1 they tend to infinity; without carry they eventually exceed the discounted forward of the first asset, which bounds the value, for an explicit set of parameters (C129_fails, C129_witness)."},
{"property": "C130", "status": "proved", "theorems": ["Verif.Props.C130_monotone", "Verif.Props.C130_strike", "Verif.Props.C130_scale", "Verif.Props.C130_subadditive", "Verif.Props.C130_convex"], "note": ""},
{"property": "C131", "status": "partial", "theorems": ["Verif.Props.C131_short_fails", "Verif.Props.C131_expired", "Verif.Props.C131_correlation", "Verif.Props.C131_price_partial", "Verif.Props.C131_at_the_money_fails", "Verif.Props.C131_agrees", "Verif.Props.C131_nan_iff", "Verif.Props.C131_example"], "note": "The code violates the property: without randomness and with both sides worth the same the price is nan instead of 0 (C131_at_the_money_fails), and it is nan whenever the second asset and the strike together are not worth a positive amount, e.g. a strike below -Q2*S2 (C131_short_fails). Proved: the payoff everywhere else without randomness (C131_price_partial), nan after expiry and for a negative variance rate, which needs |rho| > 1 (C131_expired, C131_correlation), agreement with the class model inside (C131_agrees), and the exact set of arguments giving nan (C131_nan_iff)."},
{"property": "C132", "status": "partial", "theorems": ["Verif.Props.C132_price_partial", "Verif.Props.C132_last_day_partial", "Verif.Props.C132_at_the_money_fails", "Verif.Props.C132_negative_variance", "Verif.Props.C132_negative_futures", "Verif.Props.C132_worthless", "Verif.Props.C132_no_reversion_fails", "Verif.Props.C132_agrees", "Verif.Props.C132_nan_iff", "Verif.Props.C132_example"], "note": "The code violates the property: without variance and with the corrected futures price at the strike the price is nan instead of 0 (C132_at_the_money_fails), and KappaE = 0, KappaF = 0 or K = 0 raises ZeroDivisionError although the model is well defined (C132_no_reversion_fails). Proved: the payoff everywhere else without variance and on the last day (C132_price_partial, C132_last_day_partial), the prices at a worthless futures (C132_worthless), nan for negative variances and futures prices (C132_negative_variance, C132_negative_futures), agreement with the class model inside (C132_agrees) and the exact set of arguments giving nan (C132_nan_iff)."},
{"property": "C133", "status": "partial", "theorems": ["Verif.Props.C133_agrees", "Verif.Props.C133_last_day_fails", "Verif.Props.C133_last_day_partial", "Verif.Props.C133_last_day_put_fails", "Verif.Props.C133_expired", "Verif.Props.C133_no_volatility_fails", "Verif.Props.C133_worthless_fails", "Verif.Props.C133_worthless_put_fails", "Verif.Props.C133_nan_iff", "Verif.Props.C133_example"], "note": "The code violates the property: with b < r the call price on the last day is nan for every spot below max(K, rK/(r-b)), in the money or not, and the put mirrored (C133_last_day_fails, C133_last_day_put_fails); sigma = 0 raises ZeroDivisionError (C133_no_volatility_fails); the call on a worthless underlying is nan or -K (C133_worthless_fails) and the put raises ZeroDivisionError (C133_worthless_put_fails). Proved: the payoff on the remaining part of the last day and for b >= r (C133_last_day_partial), nan after expiry (C133_expired), agreement with the real-valued model for positive arguments and all rates (C133_agrees), and the exact set of arguments giving nan (C133_nan_iff)."},
{"property": "C134", "status": "partial", "theorems": ["Verif.Props.C134_agrees", "Verif.Props.C134_outside_fails", "Verif.Props.C134_number_iff", "Verif.Props.C134_after_expiry_fails", "Verif.Props.C134_today_fails", "Verif.Props.C134_past_fails", "Verif.Props.C134_large_dividend_fails", "Verif.Props.C134_european", "Verif.Props.C134_example"], "note": "C134_agrees, C134_number_iff and C134_european prove what holds and exactly where; the code violates the rest: C134_after_expiry_fails, C134_today_fails, C134_past_fails, C134_large_dividend_fails, C134_outside_fails. Rounding and overflow are not modelled."},
{"property": "C135", "status": "proved", "theorems": ["Verif.Props.C135_bounds", "Verif.Props.C135_strike", "Verif.Props.C135_futures", "Verif.Props.C135_convex", "Verif.Props.C135_bond", "Verif.Props.C135_homogeneous", "Verif.Props.C135_correlation", "Verif.Props.C135_volatility", "Verif.Props.C135_volatility_fails", "Verif.Props.C135_example"], "note": "C135_volatility_fails shows that the condition of C135_volatility cannot be dropped, which is a fact about the model and not an error of the code."},
{"property": "C136", "status": "partial", "theorems": ["Verif.Props.C136_reported", "Verif.Props.C136_agrees", "Verif.Props.C136_empty_fails", "Verif.Props.C136_late_fails", "Verif.Props.C136_constant_fails", "Verif.Props.C136_standardised_infinite_fails", "Verif.Props.C136_opposite_fails", "Verif.Props.C136_infinite_call", "Verif.Props.C136_put_array", "Verif.Props.C136_today", "Verif.Props.C136_flat", "Verif.Props.C136_example"], "note": "Refuted: nan averages are returned like prices (C136_late_fails, C136_constant_fails, C136_standardised_infinite_fails, C136_opposite_fails, C136_empty_fails). What is reported is characterised for all inputs (C136_reported), the agreement with the real model inside the domain is C136_agrees."},
{"property": "C137", "status": "partial", "theorems": ["Verif.Props.C137_accepted_fails", "Verif.Props.C137_diverges_fails", "Verif.Props.C137_unit_root", "Verif.Props.C137_stationary", "Verif.Props.C137_example"], "note": "The code violates the claim above persistence one (C137_accepted_fails, C137_diverges_fails); the divergence is proved for one day. Proved: refusal at exactly one (C137_unit_root), convergence below one for all maturities (C137_stationary)."},
{"property": "C138", "status": "proved", "theorems": ["Verif.Props.C138_exact", "Verif.Props.C138_price", "Verif.Props.C138_standardized", "Verif.Props.C138_antithetic", "Verif.Props.C138_double", "Verif.Props.C138_double_standardized", "Verif.Props.C138_example", "Verif.Props.C138_standardized_example"], "note": "Overflow and underflow are not modelled; the relative error of each operation is a hypothesis (Rounded)."},
{"property": "C139", "status": "proved", "theorems": ["Verif.Props.C139_exact", "Verif.Props.C139_price", "Verif.Props.C139_double", "Verif.Props.C139_example"], "note": "Rounding analysis of both Kirk prices against the exact exchange-option value; overflow and underflow are excluded by the relative error model. The bound needs |rho| < 1: at rho = 1 the variance may cancel entirely."},
{"property": "C140", "status": "proved", "theorems": ["Verif.Props.C140_exact", "Verif.Props.C140_price", "Verif.Props.C140_european", "Verif.Props.C140_double", "Verif.Props.C140_example"], "note": "Rounding analysis of all nine payoffs with both exercise types, by backward induction on the loop's array. |rho| = 1 is excluded, overflow and underflow are excluded by the relative error model."},
{"property": "C141", "status": "proved", "theorems": ["Verif.Props.C141_exact", "Verif.Props.C141_delta", "Verif.Props.C141_gamma", "Verif.Props.C141_vega", "Verif.Props.C141_theta", "Verif.Props.C141_rho", "Verif.Props.C141_c_of_c", "Verif.Props.C141_rho_futures", "Verif.Props.C141_lamb", "Verif.Props.C141_double", "Verif.Props.C141_example"], "note": "GreeksFl evaluates the formulas over an abstract rounded arithmetic; overflow and underflow not modelled."},
{"property": "C142", "status": "proved", "theorems": ["Verif.Props.C142_exact", "Verif.Props.C142_price", "Verif.Props.C142_double", "Verif.Props.C142_example"], "note": "rounded arithmetic against the exact integrals of the model; condition numbers explicit"},
{"property": "C143", "status": "proved", "theorems": ["Verif.Props.C143_exact", "Verif.Props.C143_price", "Verif.Props.C143_double", "Verif.Props.C143_example"], "note": "rounded arithmetic against the real-number lattice; condition numbers explicit"},
{"property": "C144", "status": "proved", "theorems": ["Verif.Props.C144_exact", "Verif.Props.C144_trigger", "Verif.Props.C144_decision", "Verif.Props.C144_double", "Verif.Props.C144_example"], "note": "trigger and exercise decision of the shared helper as functions of its arguments (put() passes r-b and -b)"},
{"property": "C145", "status": "proved", "theorems": ["Verif.Props.C145_exact", "Verif.Props.C145_below", "Verif.Props.C145_price", "Verif.Props.C145_every_spot", "Verif.Props.C145_double", "Verif.Props.C145_example", "Verif.Props.C145_every_spot_example"], "note": "rounded arithmetic against the formula with the normal distribution function; in the band of the trigger one of the two values of the branch"},
{"property": "C146", "status": "proved", "theorems": ["Verif.Props.C146_exact", "Verif.Props.C146_held", "Verif.Props.C146_held_exact_rate", "Verif.Props.C146_exercised", "Verif.Props.C146_european", "Verif.Props.C146_gap", "Verif.Props.C146_example", "Verif.Props.C146_example_branches"], "note": "mixed forward-backward bound: the error of r - b is a perturbation of the rate, everything after it is bounded forward; strikes within the band of the trigger are left out"}
]}
