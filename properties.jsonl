{"id": "C01", "title": "GBS put-call parity", "statement": "For every GBSOption / BlackScholesOption / Black76Option with volatility set, call() - put() = S*exp((b-r)*t) - K*exp(-r*t), although the normal CDF used is only a polynomial approximation.", "quantifier": "all positive S, K, t, sigma and all real r, b", "why_tests_cant": "a test checks finitely many parameter tuples; parity must hold identically in six real parameters, including where d1 or d2 is exactly zero", "anchors": ["src/finoptions/vanillaoptions.py:GBSOption.call", "src/finoptions/vanillaoptions.py:GBSOption.put", "src/finoptions/base.py:_Base._CND"]}
{"id": "C02", "title": "GBS prices are close to the true Black-Scholes price", "statement": "call() and put() differ from the exact generalized Black-Scholes value (with the exact Gaussian integral) by at most a fixed tiny constant times (S*exp((b-r)t)+K*exp(-rt)).", "quantifier": "all positive S, K, t, sigma and all real r, b", "why_tests_cant": "an error bound for a polynomial approximation of the Gaussian integral quantifies over the whole real line", "anchors": ["src/finoptions/base.py:_Base._CND", "src/finoptions/vanillaoptions.py:GBSOption.call", "src/finoptions/vanillaoptions.py:GBSOption.put"]}
{"id": "C03", "title": "Analytic greeks are derivatives of the price", "statement": "delta, gamma, vega, theta, rho and c_of_c returned with the analytic method are the partial derivatives of the exact Black-Scholes price up to the CDF approximation error (rho: total derivative with b moving with r when b != 0, and with b fixed when b = 0; theta: minus the time derivative).", "quantifier": "all positive S, K, t, sigma and all real r, b, calls and puts", "why_tests_cant": "derivative identities over a six dimensional continuum; finite difference tests only sample", "anchors": ["src/finoptions/vanillaoptions.py:GBSOption.delta", "src/finoptions/vanillaoptions.py:GBSOption.theta", "src/finoptions/vanillaoptions.py:GBSOption.vega", "src/finoptions/vanillaoptions.py:GBSOption.rho", "src/finoptions/vanillaoptions.py:GBSOption.gamma", "src/finoptions/vanillaoptions.py:GBSOption.c_of_c"]}
{"id": "C04", "title": "Call and put greeks are consistent", "statement": "delta(call)-delta(put)=exp((b-r)t); theta, rho and c_of_c of call and put differ by the corresponding derivative of the parity line; lamb = delta*S/price for both.", "quantifier": "all positive S, K, t, sigma, all real r, b", "why_tests_cant": "identities over a continuum", "anchors": ["src/finoptions/vanillaoptions.py:GBSOption.delta", "src/finoptions/vanillaoptions.py:GBSOption.theta", "src/finoptions/vanillaoptions.py:GBSOption.rho", "src/finoptions/vanillaoptions.py:GBSOption.lamb", "src/finoptions/vanillaoptions.py:GBSOption.c_of_c"]}
{"id": "C05", "title": "GBS scaling and put-call duality", "statement": "Scaling S and K by the same positive factor scales call() and put() by it and leaves delta unchanged; the put on (S,K,r,b) equals the call on (K,S,r-b,-b).", "quantifier": "all positive S, K, t, sigma, scale factors, all real r, b", "why_tests_cant": "identities over a continuum", "anchors": ["src/finoptions/vanillaoptions.py:GBSOption.call", "src/finoptions/vanillaoptions.py:GBSOption.put", "src/finoptions/vanillaoptions.py:GBSOption.delta"]}
{"id": "C06", "title": "GBS delta and price bounds", "statement": "0 < call delta < exp((b-r)t), put delta lies in (-exp((b-r)t),0), gamma and vega are positive, call() < S*exp((b-r)t) and put() < K*exp(-rt).", "quantifier": "all positive S, K, t, sigma, all real r, b", "why_tests_cant": "requires the CDF approximation to stay strictly inside (0,1) everywhere on the real line", "anchors": ["src/finoptions/base.py:_Base._CND", "src/finoptions/vanillaoptions.py:GBSOption"]}
{"id": "C07", "title": "Missing volatility is refused, never mispriced", "statement": "While sigma is None, call, put and every greek of a GBSOption raise ValueError, whatever sequence of set_param calls led there, even if the object cached d1, d2 for an earlier sigma.", "quantifier": "all histories of set_param calls ending with sigma None", "why_tests_cant": "quantifies over all histories; stale cached state only shows after specific sequences", "anchors": ["src/finoptions/vanillaoptions.py:GBSOption.__init__", "src/finoptions/vanillaoptions.py:GBSOption._check_sigma", "src/finoptions/base.py:Option.set_param"]}
{"id": "C08", "title": "set_param keeps objects coherent", "statement": "After any sequence of set_param calls none of which raised, the prices and get_params() of the object equal those of a freshly constructed object with the same parameters (GBSOption, Black76Option, MiltersenSchwartzOption, SpreadApproxOption, tree and 3D tree options).", "quantifier": "all finite histories of set_param calls with arbitrary names and values", "why_tests_cant": "all histories; derived attributes are cached at construction and may become stale", "anchors": ["src/finoptions/base.py:Option.set_param", "src/finoptions/vanillaoptions.py:GBSOption.__init__", "src/finoptions/vanillaoptions.py:Black76Option.set_param", "src/finoptions/spread_options/bitree3d.py:BionomialSpreadAllTypes.__init__", "src/finoptions/spread_options/spreadapprox.py:SpreadApproxOption.__init__"]}
{"id": "C09", "title": "A failed set_param leaves the option usable", "statement": "If set_param raises, get_params() and prices of the option are unchanged.", "quantifier": "all parameter names and values, all prior histories", "why_tests_cant": "failure atomicity has to hold at each possible failing point", "anchors": ["src/finoptions/base.py:Option.set_param", "src/finoptions/vanillaoptions.py:GBSOption.__init__", "src/finoptions/basic_american_options/__init__.py:BAWAmericanApproxOption.__init__"]}
{"id": "C10", "title": "Finite-difference greeks do not disturb the option", "statement": "Computing any FDM greek evaluates prices of copies only: it leaves the parameters and later prices of the option unchanged, and the function differentiated is exactly the price of a freshly built option with that one parameter replaced.", "quantifier": "all option states, any differentiation rule that samples the price at any finite sequence of points", "why_tests_cant": "the numerical differentiator chooses arbitrary evaluation points and order", "anchors": ["src/finoptions/base.py:GreeksFDM._make_partial_der", "src/finoptions/base.py:Derivative.copy", "src/finoptions/base.py:Option.set_param"]}
{"id": "C11", "title": "Black76Option is the b = 0 model", "statement": "Black76Option always has cost of carry 0, set_param('b', v) changes nothing, its prices are those of GBSOption with b=0, and its finite-difference greeks are available.", "quantifier": "all parameter values and histories", "why_tests_cant": "histories and a continuum of parameters", "anchors": ["src/finoptions/vanillaoptions.py:Black76Option.__init__", "src/finoptions/vanillaoptions.py:Black76Option.set_param", "src/finoptions/vanillaoptions.py:Black76Option.get_params", "src/finoptions/base.py:GreeksFDM.delta"]}
{"id": "C12", "title": "repr names the class and lists constructor arguments", "statement": "repr(option) shows the class of the option and its parameters in the order in which the constructor takes them, so constructing that class positionally from the list gives an option with the same parameters.", "quantifier": "all classes and all parameter values", "why_tests_cant": "must hold for every class and value", "anchors": ["src/finoptions/base.py:Option.__repr__", "src/finoptions/binomial_tree_options/__init__.py:TIANBinomialTreeOption", "src/finoptions/spread_options/bitree3d.py:BionomialSpreadOption", "src/finoptions/spread_options/bitree3d.py:BionomialSpreadAllTypes.get_params"]}
{"id": "C13", "title": "Implied volatility reprices and is unique", "statement": "Whatever volatility(price) returns from a solver that only returns points where its target is within tol reprices the option within tol (and the exact Black-Scholes value within tol plus the CND accuracy); call(-sigma) = -put(sigma), so the bracket [-10,10] shows a sign change for every price strictly between -put(10) and call(10); under the exact normal law a price has a positive volatility exactly when it lies strictly between discounted intrinsic value and the discounted forward (puts: strike), and that volatility is unique; the code attains every such price up to the CND accuracy.", "quantifier": "all option parameters, all target prices, any bracketing root finder", "why_tests_cant": "quantifies over every root finder trace and every target price", "anchors": ["src/finoptions/base.py:Option._volatility", "src/finoptions/base.py:Option._func", "src/finoptions/vanillaoptions.py:GBSOption.volatility"]}
{"id": "C14", "title": "Array arguments are elementwise", "statement": "Passing numpy arrays of equal length (or scalars mixed with arrays) to the vanilla options gives, at each index, the price and greek that scalar construction would give with the parameters at that index.", "quantifier": "all array lengths, contents and all mixes of scalars and arrays", "why_tests_cant": "arbitrary lengths and mixes", "anchors": ["src/finoptions/vanillaoptions.py:GBSOption", "src/finoptions/vanillaoptions.py:MiltersenSchwartzOption", "src/finoptions/base.py:Option._check_array"]}
{"id": "C15", "title": "Choice of solver for implied volatility", "statement": "volatility() uses the vector solver exactly when one of price or the parameters is an array with more than one element, and starts it from a vector of ones whose length is that of the longest array passed.", "quantifier": "all lists of scalar and array arguments", "why_tests_cant": "all argument combinations", "anchors": ["src/finoptions/base.py:Option._check_array", "src/finoptions/base.py:Option._max_array", "src/finoptions/base.py:Option._volatility"]}
{"id": "C16", "title": "Miltersen-Schwartz parity and degenerate case", "statement": "call()-put() = Pt*(FT*exp(-vxz)-K); with zero convenience-yield and interest volatility and Pt=exp(-rt) the price is the Black-76 price.", "quantifier": "all parameters with positive FT, K, t, nonzero kappas", "why_tests_cant": "continuum in thirteen parameters", "anchors": ["src/finoptions/vanillaoptions.py:MiltersenSchwartzOption.__init__", "src/finoptions/vanillaoptions.py:MiltersenSchwartzOption.call", "src/finoptions/vanillaoptions.py:MiltersenSchwartzOption.put"]}
{"id": "C17", "title": "Miltersen-Schwartz variance is an integrated variance", "statement": "The variance and covariance adjustments that feed the price equal the integrals over the option's life of the instantaneous variance and covariance of the futures price, hence the square root is of a nonnegative number whenever the correlation matrix is positive semidefinite.", "quantifier": "all volatilities, positive semidefinite correlations, positive mean reversions, t <= T", "why_tests_cant": "a page-long closed formula over a continuum; one numeric test cannot localise a misplaced sign", "anchors": ["src/finoptions/vanillaoptions.py:MiltersenSchwartzOption.__init__"]}
{"id": "C18", "title": "Binomial European price is the discounted binomial expectation", "statement": "For CRR, JR and TIAN trees of every depth, the price computed by overwriting one array in place equals Df^n * sum_k C(n,k) p^k (1-p)^(n-k) payoff(S u^k d^(n-k)).", "quantifier": "every n >= 1, all parameters, calls and puts", "why_tests_cant": "all tree depths and parameters; in-place update order must never read an overwritten cell", "anchors": ["src/finoptions/binomial_tree_options/__init__.py:CRRBinomialTreeOption._calc_price", "src/finoptions/binomial_tree_options/__init__.py:CRRBinomialTreeOption._euro", "src/finoptions/binomial_tree_options/__init__.py:JRBinomialTreeOption._calc_price", "src/finoptions/binomial_tree_options/__init__.py:TIANBinomialTreeOption._calc_price"]}
{"id": "C19", "title": "Tree put-call parity", "statement": "European call() - put() on CRR, TIAN and trinomial trees equals S*exp((b-r)t) - K*exp(-rt) for every number of steps.", "quantifier": "every n >= 1 and all valid parameters", "why_tests_cant": "all depths and a continuum of parameters", "anchors": ["src/finoptions/binomial_tree_options/__init__.py:CRRBinomialTreeOption", "src/finoptions/binomial_tree_options/__init__.py:TIANBinomialTreeOption", "src/finoptions/binomial_tree_options/__init__.py:TrinomialTreeOption", "src/finoptions/binomial_tree_options/__init__.py:JRBinomialTreeOption"]}
{"id": "C20", "title": "Tree matrix layout", "statement": "call(tree=True)/put(tree=True) on binomial trees returns an (n+1)x(n+1) matrix with the price at [0,0], column j holding the j+1 option values at step j with the highest underlying first, terminal payoffs in the last column and zeros below the diagonal.", "quantifier": "every n >= 1, european and american", "why_tests_cant": "index arithmetic over all depths", "anchors": ["src/finoptions/binomial_tree_options/__init__.py:CRRBinomialTreeOption._euro", "src/finoptions/binomial_tree_options/__init__.py:CRRBinomialTreeOption._amer"]}
{"id": "C21", "title": "American tree values dominate", "statement": "For every node the American value is at least the immediate exercise value and at least the European value; the price solves V_j = max(exercise, discounted expectation).", "quantifier": "every n, all parameters with probabilities in [0,1]", "why_tests_cant": "all depths, all nodes", "anchors": ["src/finoptions/binomial_tree_options/__init__.py:CRRBinomialTreeOption._amer", "src/finoptions/binomial_tree_options/__init__.py:TrinomialTreeOption._amer"]}
{"id": "C22", "title": "No early exercise of calls when carry is at least the rate", "statement": "American and European call() agree on CRR, TIAN and trinomial trees whenever b >= r and r >= 0.", "quantifier": "every n and all parameters with b >= r >= 0", "why_tests_cant": "all depths and parameters", "anchors": ["src/finoptions/binomial_tree_options/__init__.py:CRRBinomialTreeOption._amer", "src/finoptions/binomial_tree_options/__init__.py:TrinomialTreeOption._calc_price"]}
{"id": "C23", "title": "Tree prices are monotone and convex in the strike, scale with the underlying and are nonnegative", "statement": "call() is nonincreasing and put() nondecreasing in K with slope at most 1, convex in K, homogeneous in (S,K), and nonnegative.", "quantifier": "every n, all strikes, european and american", "why_tests_cant": "orderings over all pairs of strikes and depths", "anchors": ["src/finoptions/binomial_tree_options/__init__.py:CRRBinomialTreeOption._calc_price"]}
{"id": "C24", "title": "Risk-neutral probabilities", "statement": "TIAN tree probabilities always lie strictly between 0 and 1; the CRR and trinomial ones do exactly when the carry drift lies between the up and down moves, otherwise the tree silently prices with negative weights.", "quantifier": "all positive sigma, dt and real b", "why_tests_cant": "continuum", "anchors": ["src/finoptions/binomial_tree_options/__init__.py:TIANBinomialTreeOption._calc_price", "src/finoptions/binomial_tree_options/__init__.py:CRRBinomialTreeOption._calc_price", "src/finoptions/binomial_tree_options/__init__.py:TrinomialTreeOption._calc_price"]}
{"id": "C25", "title": "Trinomial tree equals the CRR tree with twice the steps", "statement": "For European options TrinomialTreeOption with n steps gives exactly the price of CRRBinomialTreeOption with 2n steps; for American options at most that price.", "quantifier": "every n >= 1 and all valid parameters", "why_tests_cant": "all depths", "anchors": ["src/finoptions/binomial_tree_options/__init__.py:TrinomialTreeOption._calc_price", "src/finoptions/binomial_tree_options/__init__.py:CRRBinomialTreeOption._calc_price"]}
{"id": "C26", "title": "Unknown exercise type is refused", "statement": "Tree options constructed with a type that is neither 'european' nor 'american' raise instead of returning a number.", "quantifier": "all type strings", "why_tests_cant": "all strings", "anchors": ["src/finoptions/binomial_tree_options/__init__.py:CRRBinomialTreeOption._calc_price", "src/finoptions/binomial_tree_options/__init__.py:TrinomialTreeOption._calc_price", "src/finoptions/spread_options/bitree3d.py:BionomialSpreadAllTypes._calc_price"]}
{"id": "C27", "title": "Binomial plot labels the right nodes", "statement": "plot() labels each lattice node (step x, net ups y) with the option value at that node, never reads outside the tree, and covers every node.", "quantifier": "every tree depth and every node", "why_tests_cant": "index arithmetic over all depths", "anchors": ["src/finoptions/binomial_tree_options/__init__.py:BiTreePlotter.plot", "src/finoptions/binomial_tree_options/__init__.py:BiTreePlotter._convert_to_index"]}
{"id": "C28", "title": "Trinomial tree matrix and plot layout", "statement": "call(tree=True) on a trinomial tree is a (2n+1)x(n+1) matrix whose column i holds the 2i+1 values of step i centred on the middle row, highest first, zeros elsewhere, price at [n,0]; plot() reads those cells.", "quantifier": "every n >= 1", "why_tests_cant": "index arithmetic over all depths", "anchors": ["src/finoptions/binomial_tree_options/__init__.py:TrinomialTreeOption._reshape", "src/finoptions/binomial_tree_options/__init__.py:TriTreePlotter"]}
{"id": "C29", "title": "3D binomial European price is the discounted expectation over the two-asset lattice", "statement": "The price computed by the in-place triple loop equals exp(-rt) times the average over all 4^n two-asset moves of the payoff.", "quantifier": "every n >= 1, all parameters, all payoff types", "why_tests_cant": "all depths; in-place update order", "anchors": ["src/finoptions/spread_options/bitree3d.py:BionomialSpreadAllTypes._calc_price"]}
{"id": "C30", "title": "3D American values dominate", "statement": "otype='american' gives at least the European price and at least the immediate payoff at inception, at all nodes.", "quantifier": "every n, all payoffs", "why_tests_cant": "all depths and nodes", "anchors": ["src/finoptions/spread_options/bitree3d.py:BionomialSpreadAllTypes._calc_price"]}
{"id": "C31", "title": "Two-asset payoffs match their documentation", "statement": "For each of the nine option codes, the payoff equals the documented formula for calls and puts.", "quantifier": "all prices, weights and strikes", "why_tests_cant": "continuum of arguments for eighteen formulas", "anchors": ["src/finoptions/spread_options/bitree3d.py:BionomialSpreadAllTypes._payoff"]}
{"id": "C32", "title": "Spread put-call parity on the 3D tree", "statement": "European spread call - put equals the discounted tree forward of Q1*S1-Q2*S2-K for each n (and the usual parity with exp((b-r)t) up to the lattice drift factor).", "quantifier": "every n and all parameters", "why_tests_cant": "all depths", "anchors": ["src/finoptions/spread_options/bitree3d.py:BionomialSpreadOption"]}
{"id": "C33", "title": "3D tree matrix", "statement": "call(tree=True) is (n+2)x(n+2); entry [j,i] holds the option value of node (j,i) at step max(j,i), price at [0,0].", "quantifier": "every n, all nodes", "why_tests_cant": "index arithmetic over all depths", "anchors": ["src/finoptions/spread_options/bitree3d.py:BionomialSpreadAllTypes._calc_price"]}
{"id": "C34", "title": "Max and min options are consistent", "statement": "On the same lattice the European call on the max plus the call on the min equals the sum of single-asset calls; max call dominates min call.", "quantifier": "every n and all parameters", "why_tests_cant": "all depths", "anchors": ["src/finoptions/spread_options/bitree3d.py:BionomialMaxOption", "src/finoptions/spread_options/bitree3d.py:BionomialMinOption"]}
{"id": "C35", "title": "Roll-Geske-Whaley critical price search terminates with a bracketed answer", "statement": "For positive S the search loops of call() always stop; either ValueError is raised or the critical price found satisfies the exercise equation within 1e-5 or lies in a sign-change bracket no wider than 1e-5.", "quantifier": "all positive S, any European call pricing function, all D, K", "why_tests_cant": "termination and loop invariants over all inputs", "anchors": ["src/finoptions/basic_american_options/__init__.py:RollGeskeWhaleyOption.call"]}
{"id": "C36", "title": "RGW without profitable early exercise is the European price", "statement": "When the dividend is at most K*(1-exp(-r(t-td))), is_call_optimal() is False and call() is the GBS call on the dividend-adjusted price.", "quantifier": "all parameters", "why_tests_cant": "continuum", "anchors": ["src/finoptions/basic_american_options/__init__.py:RollGeskeWhaleyOption.call", "src/finoptions/basic_american_options/__init__.py:RollGeskeWhaleyOption.is_call_optimal"]}
{"id": "C37", "title": "Bivariate normal is total and lawful", "statement": "The bivariate normal function used by RGW always returns a number after boundedly many recursive calls, is symmetric in its limits, and satisfies N2(a,b,rho)+N2(a,-b,-rho)=N(a).", "quantifier": "all real a, b and all |rho| <= 1", "why_tests_cant": "recursion with overlapping guards over a continuum; fall-through would return None", "anchors": ["src/finoptions/base.py:_Base._CBND"]}
{"id": "C38", "title": "Barone-Adesi-Whaley call and put", "statement": "With b >= r the American call equals the European one; otherwise if the critical price search stops, the price is exercise value beyond the critical price, at least the European price before it (for a put with b > r and e^{-rt} > 1 - 1e-6: at least the European price less 1e-6*K), and jumps by at most 1e-6*K at it.", "quantifier": "all parameters, all Newton traces that stop", "why_tests_cant": "continuum and loop traces", "anchors": ["src/finoptions/basic_american_options/__init__.py:BAWAmericanApproxOption.call", "src/finoptions/basic_american_options/__init__.py:BAWAmericanApproxOption.put", "src/finoptions/basic_american_options/__init__.py:BAWAmericanApproxOption._bawKc", "src/finoptions/basic_american_options/__init__.py:BAWAmericanApproxOption._bawKp"]}
{"id": "C39", "title": "Bjerksund-Stensland value matching and duality", "statement": "The price before the trigger meets the exercise value exactly at the trigger; put(S,K,r,b)=call(K,S,r-b,-b); with b >= r the call is European; with r <= 0 the put is European.", "quantifier": "all parameters", "why_tests_cant": "continuum", "anchors": ["src/finoptions/basic_american_options/__init__.py:BSAmericanApproxOption._BSAmericanCallApprox", "src/finoptions/basic_american_options/__init__.py:BSAmericanApproxOption.put", "src/finoptions/basic_american_options/__init__.py:BSAmericanApproxOption._bsPhi"]}
{"id": "C40", "title": "Bjerksund-Stensland trigger is above the strike", "statement": "TriggerPrice of the call is at least the strike so an exercised call is never worth a negative amount.", "quantifier": "all parameters with r > b", "why_tests_cant": "continuum; fails only in a parameter region a test would not sample", "anchors": ["src/finoptions/basic_american_options/__init__.py:BSAmericanApproxOption._BSAmericanCallApprox"]}
{"id": "C41", "title": "Array arguments are refused by the American approximations", "statement": "RollGeskeWhaley, BAW and BS American options raise TypeError on construction or set_param with an array of more than one element and keep their old parameters.", "quantifier": "all argument lists", "why_tests_cant": "all combinations", "anchors": ["src/finoptions/basic_american_options/__init__.py:RollGeskeWhaleyOption.__init__", "src/finoptions/basic_american_options/__init__.py:BAWAmericanApproxOption.__init__", "src/finoptions/basic_american_options/__init__.py:BSAmericanApproxOption.__init__", "src/finoptions/base.py:Option._check_array"]}
{"id": "C42", "title": "Kirk spread approximation parity and degenerate cases", "statement": "call()-put() = Q1*S1*exp((b1-r)t) - Q2*S2*exp((b2-r)t) - K*exp(-rt); with Q2*S2 = 0 the price is the GBS price on Q1*S1; the effective variance is nonnegative for |rho|<=1.", "quantifier": "all parameters", "why_tests_cant": "continuum in twelve parameters", "anchors": ["src/finoptions/spread_options/spreadapprox.py:SpreadApproxOption.__init__", "src/finoptions/spread_options/spreadapprox.py:SpreadApproxOption.call", "src/finoptions/spread_options/spreadapprox.py:SpreadApproxOption.put"]}
{"id": "C43", "title": "Monte Carlo shape and loops", "statement": "call()/put() return one average per loop, in loop order, each computed from its own innovations, unless a loop's average is infinite, in which case the first such loop's data are returned.", "quantifier": "all loop counts, innovation streams, payoffs", "why_tests_cant": "all streams and loop counts", "anchors": ["src/finoptions/monte_carlo_options/__init__.py:MonteCarloOption._sim_mc"]}
{"id": "C44", "title": "Antithetic and standardised innovations", "statement": "With antithetic=True each loop uses twice the paths and innovations summing to zero; with standardization=True innovations have mean 0 and population standard deviation 1 (when not constant); both combine.", "quantifier": "all innovation matrices", "why_tests_cant": "all matrices", "anchors": ["src/finoptions/monte_carlo_options/__init__.py:MonteCarloOption._sim_mc"]}
{"id": "C45", "title": "Monte Carlo payoffs: parity, bounds", "statement": "On the same innovations call-put per loop equals exp(-rt)*(mean terminal or average price - K); payoffs are nonnegative, call nonincreasing in K.", "quantifier": "all innovation matrices and parameters", "why_tests_cant": "all matrices", "anchors": ["src/finoptions/monte_carlo_options/mc_payoffs.py:PlainVanillaPayoff", "src/finoptions/monte_carlo_options/mc_payoffs.py:ArithmeticAsianPayoff"]}
{"id": "C46", "title": "Wiener path drift", "statement": "The vanilla terminal price is S*exp((b-sigma^2/2)t + sigma*sqrt(t/path_length)*sum(eps)) for each path, independent of the order of its innovations; the Asian average lies between the smallest and largest path price and with a one-step path equals the vanilla payoff.", "quantifier": "all path lengths and innovations", "why_tests_cant": "all path lengths", "anchors": ["src/finoptions/monte_carlo_options/mc_paths.py:WienerPath", "src/finoptions/monte_carlo_options/mc_payoffs.py"]}
{"id": "C47", "title": "Trace shows cumulative averages", "statement": "With trace=True line i prints loop i's average and the average of loops 0..i.", "quantifier": "all loop counts and results", "why_tests_cant": "all lengths", "anchors": ["src/finoptions/monte_carlo_options/__init__.py:MonteCarloOption._print_trace"]}
{"id": "C48", "title": "Sobol innovations contain no infinities", "statement": "sample_innovation never returns infinite values and, unscrambled, skips the all-zero first point while still returning mc_paths rows.", "quantifier": "all generator outputs", "why_tests_cant": "depends on all outputs of the generator", "anchors": ["src/finoptions/monte_carlo_options/mc_innovations.py:NormalSobolInnovations"]}
{"id": "C49", "title": "Heston-Nandi recursion is the GARCH generating function", "statement": "The coefficients iterated over t days give the conditional moment generating function of the log price under the risk-neutral GARCH(1,1) recursion; at argument 1 it is S*exp(r*t).", "quantifier": "all numbers of days, all parameters where the expectations exist", "why_tests_cant": "all horizons; identity of Gaussian integrals", "anchors": ["src/finoptions/heston_nandi_options/__init__.py:_fHN"]}
{"id": "C50", "title": "Heston-Nandi parity and delta", "statement": "call()-put()=S-K*exp(-rt), delta(call)-delta(put)=1 and the delta and gamma integrands are the S-derivatives of the price integrand.", "quantifier": "all parameters and integration outcomes", "why_tests_cant": "holds for each quadrature result", "anchors": ["src/finoptions/heston_nandi_options/__init__.py:HestonNandiOption.put", "src/finoptions/heston_nandi_options/__init__.py:HestonNandiOption.delta", "src/finoptions/heston_nandi_options/__init__.py:_fdeltaHN", "src/finoptions/heston_nandi_options/__init__.py:_fgammaHN"]}
{"id": "C51", "title": "GARCH simulation and filter are inverse", "statement": "Filtering a series produced by hngarch_sim with the same parameters recovers exactly the innovations and variances that generated it.", "quantifier": "all lengths, innovations and stationary parameters", "why_tests_cant": "all lengths and series", "anchors": ["src/finoptions/heston_nandi_options/__init__.py:hngarch_sim", "src/finoptions/heston_nandi_options/__init__.py:_llhHNGarch"]}
{"id": "C52", "title": "GARCH variances stay positive", "statement": "With positive omega, nonnegative alpha, beta and stationarity, all conditional variances are at least omega, so no square root of a negative number occurs.", "quantifier": "all lengths and innovations", "why_tests_cant": "all series", "anchors": ["src/finoptions/heston_nandi_options/__init__.py:hngarch_sim", "src/finoptions/heston_nandi_options/__init__.py:_llhHNGarch"]}
{"id": "C53", "title": "symmetric=True removes gamma", "statement": "With symmetric=True the likelihood does not depend on gamma and the reported fit (gamma 0) is the model for which the returned variances were computed.", "quantifier": "all parameter vectors and series", "why_tests_cant": "all inputs", "anchors": ["src/finoptions/heston_nandi_options/__init__.py:_llhHNGarch", "src/finoptions/heston_nandi_options/__init__.py:hngarch_fit"]}
{"id": "C54", "title": "hngarch_sim returns n points after discarding the warm-up", "statement": "The result has n entries, entry i depending on innovations up to n_start+i only.", "quantifier": "all n, n_start, innovation arrays", "why_tests_cant": "all lengths", "anchors": ["src/finoptions/heston_nandi_options/__init__.py:hngarch_sim"]}
{"id": "C55", "title": "Fit reports admissible parameters", "statement": "Whatever the optimizer returns, reported omega, alpha, beta lie strictly in (0,1), the start values are mapped back to themselves, and sigma2 = (omega+alpha)/(1-persistence).", "quantifier": "all optimizer outcomes", "why_tests_cant": "any optimizer result", "anchors": ["src/finoptions/heston_nandi_options/__init__.py:hngarch_fit"]}
{"id": "C56", "title": "FDM greeks of European options agree between call and put where the code assumes so", "statement": "vega() and gamma() computed from the call are valid for the put for every linear differentiation rule exact on affine functions, and delta(call)-delta(put)=exp((b-r)t), for parity-satisfying European models.", "quantifier": "all such models, rules and parameters", "why_tests_cant": "all differentiation rules", "anchors": ["src/finoptions/base.py:GreeksFDM.vega", "src/finoptions/base.py:GreeksFDM.gamma", "src/finoptions/base.py:GreeksFDM.delta"]}
{"id": "C57", "title": "greeks() agrees with the individual methods", "statement": "Each entry of the greeks() dictionary equals the corresponding method's result, with the documented keys, and it raises iff one of them does; computing it changes no option object.", "quantifier": "all option states", "why_tests_cant": "all states", "anchors": ["src/finoptions/vanillaoptions.py:GBSOption.greeks", "src/finoptions/base.py:GreeksFDM.greeks", "src/finoptions/vanillaoptions.py:MiltersenSchwartzOption.greeks", "src/finoptions/spread_options/spreadapprox.py:SpreadApproxOption.greeks", "src/finoptions/spread_options/bitree3d.py:BionomialSpreadAllTypes.greeks", "src/finoptions/basic_american_options/__init__.py:BAWAmericanApproxOption.greeks", "src/finoptions/basic_american_options/__init__.py:BSAmericanApproxOption.greeks"]}
{"id": "C58", "title": "Trinomial spread lattice", "statement": "TrinomialSpreadOption prices are a discounted average with weights summing to one over the 2D trinomial lattice for each n >= 2; n = 1 raises.", "quantifier": "every n", "why_tests_cant": "all depths", "anchors": ["src/finoptions/spread_options/tree_spread.py:TrinomialSpreadOption"]}
{"id": "C59", "title": "Bjerksund-Stensland put: exercise boundary and reported trigger", "statement": "put() exercises exactly when S <= K/kappa, kappa being the trigger of the transformed call per unit strike; the TriggerPrice it reports is kappa*S, so it moves with the spot and is not the stock price at which the put is exercised; if b*t <= 2*sigma*sqrt(t), kappa >= 1.", "quantifier": "all S > 0, all K, t, r > 0, b, sigma with positive kappa", "why_tests_cant": "The equivalence over all spots and strikes needs the proportionality of the trigger to the strike, not sampled pairs.", "anchors": ["src/finoptions/basic_american_options/__init__.py:799-855"]}
{"id": "C60", "title": "Bjerksund-Stensland price is homogeneous", "statement": "Multiplying spot and strike by any l > 0 multiplies option price and trigger price by l.", "quantifier": "all S > 0, l > 0, all X, T, r, b, sigma with positive trigger", "why_tests_cant": "Holds for every real scale and every branch of the code; floats only sample it.", "anchors": ["src/finoptions/basic_american_options/__init__.py:823-876"]}
{"id": "C61", "title": "Monte Carlo estimates are unbiased", "statement": "If the innovations of each path are independent standard normals, every entry returned by call()/put() (with or without antithetic paths) has expectation exactly the generalized Black-Scholes value for the vanilla payoff, and exactly the discounted expectation of the discretely averaged Asian payoff, for every number of time steps; expected Asian call minus put is the discounted expected average less strike.", "quantifier": "all probability spaces, innovations, parameters, loop/path/step counts", "why_tests_cant": "a statement about expectations over all innovations", "anchors": ["src/finoptions/monte_carlo_options/__init__.py:MonteCarloOption._sim_mc", "src/finoptions/monte_carlo_options/mc_paths.py:WienerPath", "src/finoptions/monte_carlo_options/mc_payoffs.py"]}
{"id": "C62", "title": "Monte Carlo estimates are consistent", "statement": "If in addition the paths are independent, the result of a loop converges almost surely to the exact value as mc_paths grows, with or without antithetic paths.", "quantifier": "all parameters, almost all infinite innovation streams", "why_tests_cant": "a limit over unboundedly many paths", "anchors": ["src/finoptions/monte_carlo_options/__init__.py:MonteCarloOption._sim_mc"]}
{"id": "C63", "title": "Heston-Nandi prices are risk-neutral expectations", "statement": "With the integrals evaluated exactly, call() and put() equal the discounted expectation of the payoff under the risk-neutral Heston-Nandi GARCH process started at the stationary variance (Fourier inversion, including convergence of the integrals).", "quantifier": "all spots, strikes, rates, numbers of days >= 1, stationary parameters", "why_tests_cant": "convergence of an infinite oscillating integral and an expectation over all paths", "anchors": ["src/finoptions/heston_nandi_options/__init__.py:HestonNandiOption.call", "src/finoptions/heston_nandi_options/__init__.py:HestonNandiOption.put", "src/finoptions/heston_nandi_options/__init__.py:_fHN"]}
{"id": "C64", "title": "Heston-Nandi delta and gamma are derivatives of the price", "statement": "With exact integrals, delta() is the spot derivative of call()/put() and gamma() the derivative of delta(), hence derivatives of the risk-neutral expectation.", "quantifier": "all stationary parameters, spots, strikes, days >= 1", "why_tests_cant": "differentiation under an infinite integral", "anchors": ["src/finoptions/heston_nandi_options/__init__.py:HestonNandiOption.delta", "src/finoptions/heston_nandi_options/__init__.py:HestonNandiOption.gamma"]}
{"id": "C65", "title": "Likelihood objective and reported log-likelihood", "statement": "The objective of hngarch_fit is minus the sum of the log conditional normal densities of the observations, and the reported 'minimum' is the log-likelihood at the estimate.", "quantifier": "all series and stationary parameter vectors", "why_tests_cant": "all series", "anchors": ["src/finoptions/heston_nandi_options/__init__.py:_llhHNGarch", "src/finoptions/heston_nandi_options/__init__.py:hngarch_fit"]}
{"id": "C66", "title": "Fit objective is minus the log density of the simulator", "statement": "If hngarch_sim is fed independent standard normal innovations, the joint law of the returned points has density exp(-objective), the objective being the one minimised by hngarch_fit.", "quantifier": "all lengths, all stationary parameter vectors", "why_tests_cant": "equality of measures on R^n", "anchors": ["src/finoptions/heston_nandi_options/__init__.py:_llhHNGarch", "src/finoptions/heston_nandi_options/__init__.py:hngarch_sim"]}
{"id": "C67", "title": "Trinomial spread lattice matches the lognormal moments", "statement": "As n grows the log returns of the two assets on the lattice of TrinomialSpreadOption have means (b - sigma^2/2) t, variances sigma^2 t and correlation rho, and the total discount factor does not depend on n.", "quantifier": "all valid parameters, limit n to infinity", "why_tests_cant": "limit over all depths", "anchors": ["src/finoptions/spread_options/tree_spread.py:TrinomialSpreadOption._calc_price", "src/finoptions/spread_options/tree_spread.py:TrinomialSpreadOption._get_gauss"]}
{"id": "C68", "title": "Tree prices converge to Black-Scholes", "statement": "For fixed contract data with t, sigma > 0 the European prices returned by the CRR, JR, TIAN and trinomial trees with n steps exist for every n >= 1 and tend to the Black-Scholes value as n grows; so they eventually agree with GBSOption up to its normal-approximation error plus any epsilon.", "quantifier": "all real S, K, r, b, all t, sigma > 0, limit n to infinity", "why_tests_cant": "limit over all numbers of steps; trees oscillate around the limit, so finite samples say little", "anchors": ["src/finoptions/binomial_tree_options/__init__.py:CRRBinomialTreeOption._calc_price", "src/finoptions/binomial_tree_options/__init__.py:JRBinomialTreeOption._calc_price", "src/finoptions/binomial_tree_options/__init__.py:TIANBinomialTreeOption._calc_price", "src/finoptions/binomial_tree_options/__init__.py:TrinomialTreeOption._calc_price"]}
{"id": "C69", "title": "Two-asset lattice converges to the lognormal value", "statement": "For every two-asset option whose payoff is evaluated as documented, the European prices of the 3D binomial lattice with n steps exist for all n >= 1 and tend to the discounted expectation of the payoff of two correlated lognormal prices.", "quantifier": "all parameters with t >= 0, all documented payoffs, both call and put, limit n to infinity", "why_tests_cant": "limit over all numbers of steps", "anchors": ["src/finoptions/spread_options/bitree3d.py:BionomialSpreadAllTypes._calc_price", "src/finoptions/spread_options/bitree3d.py:BionomialSpreadAllTypes._payoff"]}
{"id": "C70", "title": "Lattice and Kirk agree on exchange options", "statement": "With strike zero the call on the 3D lattice converges to Margrabe's value, and the price of SpreadApproxOption with strike zero is within the normal-approximation error of that limit.", "quantifier": "all positive positions, |rho| <= 1, nonzero ratio volatility, limit n to infinity", "why_tests_cant": "relates two independent algorithms in a limit", "anchors": ["src/finoptions/spread_options/bitree3d.py:BionomialSpreadAllTypes._calc_price", "src/finoptions/spread_options/spreadapprox.py:SpreadApproxOption.call"]}
{"id": "C71", "title": "Put-call symmetry of CRR and trinomial lattices", "statement": "A call on spot S struck at K with rates r, b has exactly the price of a put on spot K struck at S with rates r-b, -b, European and American, for the CRR and the trinomial tree.", "quantifier": "all real S, K, r, b, all t, sigma > 0, all n >= 1, both styles and flags", "why_tests_cant": "an exact identity between two runs for every number of steps", "anchors": ["src/finoptions/binomial_tree_options/__init__.py:CRRBinomialTreeOption._calc_price", "src/finoptions/binomial_tree_options/__init__.py:TrinomialTreeOption._calc_price"]}
{"id": "C72", "title": "Tree prices increase with volatility", "statement": "With admissible weights the tree price of every call or put, European or American, is nondecreasing in sigma.", "quantifier": "all contract data, all pairs sigma <= sigma', all n >= 1, four lattices", "why_tests_cant": "order relation over a continuum of volatilities and all step counts", "anchors": ["src/finoptions/binomial_tree_options/__init__.py:CRRBinomialTreeOption._calc_price", "src/finoptions/binomial_tree_options/__init__.py:JRBinomialTreeOption._calc_price", "src/finoptions/binomial_tree_options/__init__.py:TIANBinomialTreeOption._calc_price", "src/finoptions/binomial_tree_options/__init__.py:TrinomialTreeOption._calc_price"]}
{"id": "C73", "title": "American tree prices increase with maturity", "statement": "Adding m periods of the same length to an American option never lowers its tree price.", "quantifier": "all contract data with admissible weights, all n >= 1, all m, four lattices", "why_tests_cant": "order relation between lattices of different sizes for all sizes", "anchors": ["src/finoptions/binomial_tree_options/__init__.py:CRRBinomialTreeOption._calc_price", "src/finoptions/binomial_tree_options/__init__.py:JRBinomialTreeOption._calc_price", "src/finoptions/binomial_tree_options/__init__.py:TIANBinomialTreeOption._calc_price", "src/finoptions/binomial_tree_options/__init__.py:TrinomialTreeOption._calc_price"]}
{"id": "C74", "title": "Accuracy of the bivariate normal approximation", "statement": "_CBND(a, b, rho) returns a number within 3.6e-6 of the exact bivariate standard normal probability P(X <= a, Y <= b) with correlation rho (3.25e-6 when |rho| < 1).", "quantifier": "all real a, b and all rho in [-1, 1], on every branch of the recursion", "why_tests_cant": "the bound is uniform over three unbounded real arguments; it needs an error bound for the five-point quadrature and the exactness of the reduction identities", "anchors": ["src/finoptions/base.py:_Base._CBND"]}
{"id": "C75", "title": "Accuracy of the Roll-Geske-Whaley price", "statement": "When early exercise cannot pay, call() is within 7.5e-8 (Sx + K e^{-rt}) of the discounted expectation of the better of exercising and keeping at the ex-dividend date. When it can pay, D <= K and no doubling of S hits 1e8 exactly, call() raises ValueError or returns a number within e^{-r td} (1e-5 + 7.5e-8 (I + 1e-5 + K e^{-r(t-td)})) + 3.325e-6 Sx + 3.25e-6 K e^{-rt} + 7.5e-8 (K-D) e^{-r td} of it, where Sx = S - D e^{-r td} and I is the critical price found.", "quantifier": "all S, K, t, td, r, D, sigma with Sx, K, sigma > 0, 0 < td < t", "why_tests_cant": "continuum of parameters; combines loop invariants, optimal stopping and the error of two approximations", "anchors": ["src/finoptions/basic_american_options/__init__.py:RollGeskeWhaleyOption.call", "src/finoptions/base.py:_Base._CBND", "src/finoptions/base.py:_Base._CND"]}
{"id": "C76", "title": "The Bjerksund-Stensland price is the value of exercising at the trigger", "statement": "The number BSAmericanApproxOption.call() returns below its trigger I is, up to the error of the normal distribution approximation, the unique continuous solution of the Black-Scholes equation below I that equals the exercise value at I and at expiry; at or above I it is exactly S-K. put() is the same for exercise when the spot falls to S*K/I, a level that does not depend on S.", "quantifier": "all S, K, T, sigma > 0, all r, b with b < r (put: r > 0) and b T + 2 sigma sqrt T >= 0 (put: -b T + ...)", "why_tests_cant": "the price is compared with the solution of a partial differential equation over a continuum of inputs; uniqueness needs a maximum principle", "anchors": ["src/finoptions/basic_american_options/__init__.py:BSAmericanApproxOption.call", "src/finoptions/basic_american_options/__init__.py:BSAmericanApproxOption.put", "src/finoptions/basic_american_options/__init__.py:BSAmericanApproxOption._bsPhi"]}
{"id": "C77", "title": "Accuracy of the Barone-Adesi-Whaley critical price and price", "statement": "The quadratic approximation (premium A (S/S*)^q solving the approximate equation, joined smoothly to the exercise value at S*) exists and is unique. When the code's search stops at Sk > 0, Sk differs from S* by at most (1e-6 K + evaluation error)/c with an explicit c > 0, and the returned price differs from the exact value of the approximation by an explicit multiple of that, at every spot.", "quantifier": "all S, K, t, sigma, r > 0, call b < r, put b <= r, every terminating run", "why_tests_cant": "existence, uniqueness and distance to an exact root over a continuum of parameters and any number of Newton steps", "anchors": ["src/finoptions/basic_american_options/__init__.py:BAWAmericanApproxOption._bawKc", "src/finoptions/basic_american_options/__init__.py:BAWAmericanApproxOption._bawKp", "src/finoptions/basic_american_options/__init__.py:BAWAmericanApproxOption.call", "src/finoptions/basic_american_options/__init__.py:BAWAmericanApproxOption.put"]}
{"id": "C78", "title": "Seed, slope and step of the Barone-Adesi-Whaley search", "statement": "bi is the derivative of RHS with respect to Si. Each step goes to the zero of the line through RHS with slope bi, without division by zero, and the search starts strictly between the strike and the critical price of the perpetual option.", "quantifier": "all K, t, sigma, r > 0, b < r (put: all b <= r), all prices Si > 0", "why_tests_cant": "a derivative and a bracket over a continuum of parameters; the wrong slope does not change the value the search stops at, so price tests do not see it", "anchors": ["src/finoptions/basic_american_options/__init__.py:BAWAmericanApproxOption._bawKc", "src/finoptions/basic_american_options/__init__.py:BAWAmericanApproxOption._bawKp"]}
{"id": "C79", "title": "Spot sensitivities of European tree prices", "statement": "As the number of steps grows, the difference quotients in the spot (and the derivative, where it exists) of the European prices of the CRR, JR, TIAN and trinomial trees converge to the Black-Scholes delta. The price is affine in the spot off finitely many spots, so its second derivative is 0 there for every number of steps and does not approach the (positive) Black-Scholes gamma.", "quantifier": "all S, K, t, sigma > 0, all r, b, calls and puts, all n from some N on, all increments up to some eta", "why_tests_cant": "a limit in the number of steps, uniform in the increment; a statement about all spots off a countable set", "anchors": ["src/finoptions/binomial_tree_options/__init__.py:CRRBinomialTreeOption", "src/finoptions/binomial_tree_options/__init__.py:TIANBinomialTreeOption", "src/finoptions/binomial_tree_options/__init__.py:TrinomialTreeOption", "src/finoptions/binomial_tree_options/__init__.py:JRBinomialTreeOption"]}
{"id": "C80", "title": "Bounds on the early exercise premium and American put-call parity on trees", "statement": "With r >= 0 and b <= r the American price exceeds the European price of the same lattice by at most S(1-e^{(b-r)t}) for a call and K(1-e^{-rt}) for a put; hence S e^{(b-r)t} - K <= C - P <= S - K e^{-rt} for American prices. On JR lattices the same holds with S (e^{(b-sigma^2/2-r)dt} cosh(sigma sqrt(dt)))^n, the lattice's own forward, in place of S e^{(b-r)t}.", "quantifier": "all contracts with admissible weights, all numbers of steps; CRR, TIAN, JR and trinomial", "why_tests_cant": "induction over the number of steps and a continuum of contracts", "anchors": ["src/finoptions/binomial_tree_options/__init__.py:CRRBinomialTreeOption", "src/finoptions/binomial_tree_options/__init__.py:TIANBinomialTreeOption", "src/finoptions/binomial_tree_options/__init__.py:TrinomialTreeOption", "src/finoptions/binomial_tree_options/__init__.py:JRBinomialTreeOption"]}
{"id": "C81", "title": "Sign and accuracy of the implied volatility", "statement": "volatility() searches the symmetric bracket [-10, 10]. If the price asked for exceeds the solver tolerance plus the accuracy of the normal approximation, a nonzero volatility it returns is positive. If it and the exact implied volatility lie in [lo, hi], lo > 0, they differ by at most that sum divided by the smallest vega on the range.", "quantifier": "all contracts, all prices, every solver that returns approximate roots, every state of the heap", "why_tests_cant": "the solver is an unknown external program and the bound holds over a continuum of contracts and prices", "anchors": ["src/finoptions/base.py:Option._volatility", "src/finoptions/base.py:Option._func", "src/finoptions/vanillaoptions.py:GBSOption.volatility"]}
{"id": "C82", "title": "Analytic and finite-difference greeks of GBSOption agree", "statement": "The finite-difference greeks inherited from base.Option and the closed-form overrides of GBSOption describe the same sensitivities: away from d1 = 0 and d2 = 0 the coded price is differentiable and its derivatives in spot, time and volatility are within explicit multiples of 2.6e-6 of delta, theta and vega, and a differentiation rule accurate to eps gives greeks within eps plus that. Full claim: the same for rho and at every spot; false: the finite-difference rho holds b fixed and misses c_of_c when b != 0, and at d1 = 0 the coded price jumps, so central differences diverge.", "quantifier": "all S, K, t, sigma > 0, all r, b, calls and puts, every heap, every differentiation rule", "why_tests_cant": "continuum of contracts, unknown differentiation rule; the jump is 1e-9 wide and invisible at the default increment", "anchors": ["src/finoptions/base.py:Option.delta", "src/finoptions/base.py:Option.rho", "src/finoptions/vanillaoptions.py:GBSOption.delta", "src/finoptions/vanillaoptions.py:GBSOption.rho", "src/finoptions/base.py:_Base._CND"]}
{"id": "C83", "title": "Variance and error probability of Monte Carlo estimates", "statement": "If the paths of a loop are independent with independent standard normal innovations, the variance of the loop's result is the variance of one path's contribution divided by mc_paths. Averaging a path with its mirror image at least halves that variance, so antithetic=True never loses accuracy for the same number of payoffs. The variance is at most (K e^{-rt}/2)^2 for puts and the discounted second moment of the simulated price for calls, so the probability of an error of c or more is at most that over mc_paths*c^2 (half of it with antithetic paths).", "quantifier": "all contracts with S, K, t >= 0, all r, b, sigma, calls and puts, vanilla and Asian, all numbers of paths, steps and loops", "why_tests_cant": "a statement about a distribution; sampling can only estimate the variance", "anchors": ["src/finoptions/monte_carlo_options/__init__.py:MonteCarloOption._sim_mc", "src/finoptions/monte_carlo_options/mc_payoffs.py:PlainVanillaPayoff", "src/finoptions/monte_carlo_options/mc_payoffs.py:ArithmeticAsianPayoff"]}
{"id": "C84", "title": "Monte Carlo with standardised innovations", "statement": "With standardization=True (with or without antithetic paths) the result of a loop still converges almost surely to the exact value as mc_paths grows. It is not unbiased: with a single path the vanilla result is always the discounted payoff at the median price, below the Black-Scholes call for every contract.", "quantifier": "all contracts with t >= 0, vanilla and Asian, all path lengths, almost all innovations", "why_tests_cant": "a limit holding with probability one; a statement about all innovations", "anchors": ["src/finoptions/monte_carlo_options/__init__.py:MonteCarloOption._sim_mc", "src/finoptions/monte_carlo_options/mc_payoffs.py:PlainVanillaPayoff", "src/finoptions/monte_carlo_options/mc_payoffs.py:ArithmeticAsianPayoff"]}
{"id": "C85", "title": "Rounding errors of tree prices", "statement": "If every arithmetic operation (including exp, sqrt and powers) of the tree code has relative error at most e, the computed price of a European or American option differs from the exactly computed one by at most (exp(Theta)-1) M^n (S+K), where Theta = (8+4n) log(1+e) (6 instead of 8 for the trinomial tree) plus n times the relative errors of the factors handed to the loops, and M bounds one step's discounted growth. From the parameters to the price: for JR the whole error is exp((8+6n) log(1+e) + ((1+e)^6-1)((|b|+sigma^2/2+|r|)t + sigma sqrt(n t)))-1 times exp(max(0,b-r,-r) t)(S+K); for CRR, TIAN and trinomial trees the cancellations in the weights (and for TIAN in the down move) multiply the relative error by their condition numbers. As e tends to zero the computed price tends to the exact one, uniformly over all arithmetics with error e.", "quantifier": "all spots, strikes, rates, maturities, volatilities, numbers of steps and all arithmetics with relative error e", "why_tests_cant": "a bound over all inputs, numbers of steps and rounding behaviours", "anchors": ["src/finoptions/binomial_tree_options/__init__.py:CRRBinomialTreeOption._calc_price", "src/finoptions/binomial_tree_options/__init__.py:JRBinomialTreeOption._calc_price", "src/finoptions/binomial_tree_options/__init__.py:TrinomialTreeOption._calc_price"]}
{"id": "C86", "title": "Second-order law of simulated Heston-Nandi series", "statement": "With independent standard normal innovations and any warm-up, every point returned by hngarch_sim has mean rf + lambda*sigma2, variance sigma2 + lambda^2*Var(h_d), and two points i<j have covariance persistence^(j-i-1)*(lambda^2*persistence*Var(h_i) - 2*lambda*alpha*gamma*sigma2), where sigma2 = (omega+alpha)/(1-persistence), persistence = beta + alpha*gamma^2 and Var(h_d) = alpha^2(2+4 gamma^2 sigma2)(1-persistence^(2d))/(1-persistence^2). The persistence and sigma2 reported by hngarch_fit are these numbers for the reported model.", "quantifier": "all stationary parameters, warm-up lengths, series lengths, fits with persistence below one", "why_tests_cant": "moments are integrals over all innovations; a simulation only estimates them for one parameter set", "anchors": ["src/finoptions/heston_nandi_options/__init__.py:hngarch_sim", "src/finoptions/heston_nandi_options/__init__.py:hngarch_fit"]}
{"id": "C87", "title": "Bounds, shape and quadrature error of Heston-Nandi prices", "statement": "With exact integrals the Heston-Nandi call lies between max(S-K e^{-rt},0) and S, the put between max(K e^{-rt}-S,0) and K e^{-rt}; the call falls with the strike no faster than the discounted strike rises and is convex in strike and in spot; delta is in [0,1] for calls and [-1,0] for puts, gamma is nonnegative. If quad meets its tolerance eps (absolute or relative), call and put are within eps*(max(e^{-rt},S/2)+K e^{-rt}) of the risk-neutral expectation, and delta and gamma within eps*(1+K)*e^{-rt} of its derivatives.", "quantifier": "all stationary parameters, spots, strikes, days, rates, tolerances and quadrature oracles meeting them", "why_tests_cant": "bounds over all parameters and all quadratures within tolerance", "anchors": ["src/finoptions/heston_nandi_options/__init__.py:HestonNandiOption.call", "src/finoptions/heston_nandi_options/__init__.py:HestonNandiOption.put", "src/finoptions/heston_nandi_options/__init__.py:HestonNandiOption.delta", "src/finoptions/heston_nandi_options/__init__.py:HestonNandiOption.gamma"]}
{"id": "C88", "title": "Heston-Nandi without ARCH effect is Black-Scholes", "statement": "If alpha = 0, the exact Heston-Nandi call and put equal the Black-Scholes values with variance omega/(1-beta) per day, maturity in days and carry r; the computed Heston-Nandi prices and those of GBSOption with these parameters differ by at most the quadrature error plus 7.5e-8(S+K e^{-rt}).", "quantifier": "all stationary parameters with alpha = 0, all lambda and gamma, spots, strikes, days, rates", "why_tests_cant": "equality of a characteristic function inversion and a closed formula for all inputs", "anchors": ["src/finoptions/heston_nandi_options/__init__.py:HestonNandiOption.call", "src/finoptions/vanillaoptions.py:GBSOption.call"]}
{"id": "C89", "title": "Heston-Nandi options accept their documented arguments", "statement": "A HestonNandiOption built with stationary parameters, given separately or as model, and a maturity in days (documented as float) has call, put, delta and gamma, and at t = 0 the price is the payoff.", "quantifier": "all stationary parameters, spots, strikes, rates, maturities, quadrature oracles", "why_tests_cant": "an exact characterisation of the accepted arguments, and an inequality for all parameters", "anchors": ["src/finoptions/heston_nandi_options/__init__.py:HestonNandiOption.__init__", "src/finoptions/heston_nandi_options/__init__.py:_fHN"]}
{"id": "C90", "title": "Greeks without a call/put flag hold for both", "statement": "vega() and gamma() take no call argument and differentiate the call, with the comment 'same for both call and put options'. For every class this number is also the derivative of the put.", "quantifier": "all classes, parameters and differentiation schemes exact on affine functions", "why_tests_cant": "the comment is about all parameters; tests compare stored numbers for one option and only for calls", "anchors": ["src/finoptions/vanillaoptions.py:MiltersenSchwartzOption.vega", "src/finoptions/vanillaoptions.py:MiltersenSchwartzOption.gamma", "src/finoptions/spread_options/spreadapprox.py:SpreadApproxOption.vega", "src/finoptions/spread_options/bitree3d.py:vega", "src/finoptions/basic_american_options/__init__.py:BSAmericanApproxOption.vega", "src/finoptions/base.py:GreeksFDM.vega"]}
{"id": "C91", "title": "Barone-Adesi-Whaley never passes off a nan as a price", "statement": "Computing with nan and infinities as numpy does, BAWAmericanApproxOption.call() and put() return a number near the quadratic approximation for every positive spot, strike, maturity and volatility, whatever the rates.", "quantifier": "all option parameters, all runs of the Newton search, including runs through nan", "why_tests_cant": "tests use rates for which the seed of the search is positive; the failing region is a half-space of parameters and fails silently", "anchors": ["src/finoptions/basic_american_options/__init__.py:BAWAmericanApproxOption._bawKc", "src/finoptions/basic_american_options/__init__.py:BAWAmericanApproxOption._bawKp", "src/finoptions/basic_american_options/__init__.py:BAWAmericanApproxOption.call", "src/finoptions/basic_american_options/__init__.py:BAWAmericanApproxOption.put"]}
{"id": "C92", "title": "The Barone-Adesi-Whaley search for the critical price ends", "statement": "For calls with 0 <= b < r, for calls with b <= 0, r t <= 10, 0.0125 <= sigma sqrt(t) <= 2 and -2 sigma sqrt(t) <= b t, and for puts with b <= 0 and d1 at the strike at most 0.2, with a volatility that is not tiny (1 + r t <= 1e8 sigma^2 t for the call with b >= 0, 3e6 for the put), and for puts with b <= r, r t <= 30, 0.005 <= sigma sqrt(t) <= 4 and -1.75 sigma sqrt(t) <= b t <= 2 sigma sqrt(t), the while loop in _bawKc / _bawKp ends after finitely many iterations at a price on the right side of the strike (within one percent of it), and call() / put() return for every spot a number near the quadratic approximation.", "quantifier": "all strikes, maturities, rates, volatilities meeting the stated inequalities, all spots; the loop has no iteration limit", "why_tests_cant": "the loop has no iteration cap and its slope is not the derivative, so neither Newton's theory nor any number of sampled runs shows that it ends; the convergence is linear and takes thousands of iterations for short maturities", "anchors": ["src/finoptions/basic_american_options/__init__.py:BAWAmericanApproxOption._bawKc", "src/finoptions/basic_american_options/__init__.py:BAWAmericanApproxOption._bawKp"]}
{"id": "C93", "title": "is_call_optimal says whether to exercise now", "statement": "RollGeskeWhaleyOption.is_call_optimal() returns True exactly when it is currently optimal to exercise the call, as its docstring says.", "quantifier": "all options with positive adjusted spot, strike, volatility and dividend date before maturity", "why_tests_cant": "optimality compares the exercise value with the value of keeping the option, an expectation, for every parameter", "anchors": ["src/finoptions/basic_american_options/__init__.py:RollGeskeWhaleyOption.is_call_optimal", "src/finoptions/basic_american_options/__init__.py:RollGeskeWhaleyOption.summary"]}
{"id": "C94", "title": "Explicit error bound for European tree prices at every number of steps", "statement": "For every valid contract and every number n of steps, the European price of CRRBinomialTreeOption is within K e^{-rt} sigma sqrt(t/n) (4 + 17 theta sqrt(t)(1 + sigma sqrt(t))), theta = (|b| + sigma^2/2)/sigma, of the Black-Scholes value as soon as theta sqrt(t/n) <= 1 (calls and puts); TrinomialTreeOption satisfies the same bound with 2n in place of n; TIANBinomialTreeOption is within K e^{-rt} sigma sqrt(t/n) (11 + 77 sigma sqrt(t) + 72 sigma^2 t) when sigma^2 t/n <= 1/5; JRBinomialTreeOption puts are within K e^{-rt} sigma sqrt(t/n) (3 + (sigma sqrt(t))^3) for every n, its calls within that plus S e^{(b-r)t} sigma^4 t^2/(4n). Consequently n >= t (K e^{-rt} sigma C/eps)^2 steps guarantee accuracy eps, American CRR, TIAN and trinomial calls with 0 <= r <= b satisfy the same bounds, and CRR and GBSOption prices differ by at most the CRR bound plus the error of CND.", "quantifier": "all S, K, t, sigma > 0, all real r, b, all n >= 1 (with the stated step condition), calls and puts", "why_tests_cant": "A test compares a few contracts at a few n with a fixed tolerance; a slowly wrong lattice (a drift off by O(dt), a volatility off by a few percent for small dt) passes it. The bound holds uniformly in the contract and in n.", "anchors": ["src/finoptions/binomial_tree_options/__init__.py:CRRBinomialTreeOption._calc_price", "src/finoptions/binomial_tree_options/__init__.py:JRBinomialTreeOption._calc_price", "src/finoptions/binomial_tree_options/__init__.py:TIANBinomialTreeOption._calc_price", "src/finoptions/binomial_tree_options/__init__.py:TrinomialTreeOption._calc_price"]}
{"id": "C95", "title": "American tree prices converge to the value of the American option, with an explicit rate", "statement": "Let A be the value of the American option on a lognormal price, defined as the supremum over n of the Bermudan values with n equidistant exercise dates (Gaussian expectation, discounting, maximum with exercise). For r >= 0, any carry rate and any n >= 1 meeting the class's step condition, the American put of JRBinomialTreeOption, CRRBinomialTreeOption, TIANBinomialTreeOption and TrinomialTreeOption is within K(2 C sigma sqrt(t) n^(-1/4) + 2 w(2 t n^(-1/4))) of A, where w(D) = exp(max(b-r,0) D) - exp(-r D) and C is 9/2 (JR), 15 + 31 theta sqrt(t)(1 + sigma sqrt(t)) (CRR, trinomial), 94 + 279 sigma sqrt(t) + 18 sigma^2 t (TIAN). Calls with b <= r of all four classes satisfy the same with spot and strike exchanged and (r, b) replaced by (r - b, -b), C being 12 + 5 sigma sqrt(t) + 5/4 sigma^2 t for JR and 185 + 138 sigma sqrt(t) + 12 sigma^2 t for TIAN; calls with 0 <= r <= b converge to the European call, which is then the American value. Hence all tree classes converge to the same number, and that number can exceed the European value.", "quantifier": "all S, K, t, sigma > 0, r >= 0 (puts), b <= r or 0 <= r (calls), all real b, all n >= 1 with the step condition; limits as n tends to infinity", "why_tests_cant": "There is no closed formula for an American put, so tests compare with numbers printed by another implementation of the same tree; the statement bounds the distance to the mathematical value for every n and every contract.", "anchors": ["src/finoptions/binomial_tree_options/__init__.py:CRRBinomialTreeOption._calc_price", "src/finoptions/binomial_tree_options/__init__.py:JRBinomialTreeOption._calc_price", "src/finoptions/binomial_tree_options/__init__.py:TIANBinomialTreeOption._calc_price", "src/finoptions/binomial_tree_options/__init__.py:TrinomialTreeOption._calc_price"]}
{"id": "C96", "title": "summary(), str() and repr() report the object's parameters and prices faithfully", "statement": "For every option class, every constructed object and every history of set_param calls, summary(printer=False) and str(option) return a text that opens with the class title, lists every entry of get_params() once and in order, and shows call and put prices exactly when both methods return numbers (rounded) or arrays; printer=True prints the same text and returns None; after successful set_param calls the text is the one of a fresh option with the listed parameters; repr determines the parameters when arrays have at most six entries. Violations: after a failed set_param the GBS text combines the refused parameter with prices of the old one; Roll-Geske-Whaley's summary raises whenever is_call_optimal does (e.g. K=None) because that line is outside the try; arrays of more than six entries are rounded to two decimals and elided, so that different options have the same repr; TIAN trees print the CRR title.", "quantifier": "all 16 classes, all keyword arguments accepted by the constructor, all finite histories of set_param with arbitrary names and values, all outcomes (values or exceptions) of call() and put(), all rounding functions", "why_tests_cant": "the report depends on the whole history of the object and on every possible exception of the pricing methods, which the bare except hides", "anchors": ["src/finoptions/base.py:418-477", "src/finoptions/binomial_tree_options/__init__.py:241-272", "src/finoptions/spread_options/bitree3d.py:379-410", "src/finoptions/basic_american_options/__init__.py:91-103", "src/finoptions/basic_american_options/__init__.py:189-217", "src/finoptions/basic_american_options/__init__.py:878-904"]}
{"id": "C97", "title": "The Bjerksund-Stensland price never exceeds the American option value", "statement": "Let A be the value of the American option (supremum over n of the Bermudan values with n equidistant exercise dates). For b < r and bT + 2 sigma sqrt(T) >= 0 the price returned by BSAmericanApproxOption.call() is at most A plus the error of the normal distribution approximation, and at most A itself when the spot has reached the trigger; for r > 0 and -bT + 2 sigma sqrt(T) >= 0 the same holds for put(). For 0 <= r <= b the call price is A up to that error. Consequently, for any tolerance, American CRR, JR, TIAN and trinomial lattices (calls and puts) with enough steps lie above the price minus that error and the tolerance. More generally every call exercised at a fixed level at or above the strike, and every put exercised at a fixed level at or below it, is worth at most A.", "quantifier": "all S, K, T, sigma > 0, all r, b with b < r (calls), r > 0 (puts) or 0 <= r <= b, with the stated condition under which the trigger is at or beyond the strike; limits as the number of steps tends to infinity", "why_tests_cant": "The American value has no closed form; tests compare the approximation with a few published numbers and cannot tell on which side of the true value it lies for every contract.", "anchors": ["src/finoptions/basic_american_options/__init__.py:BSAmericanApproxOption.call", "src/finoptions/basic_american_options/__init__.py:BSAmericanApproxOption.put", "src/finoptions/basic_american_options/__init__.py:BSAmericanApproxOption._BSAmericanCallApprox"]}
{"id": "C98", "title": "The earlier likelihood in hnGARCH.py never returns and overwrites the series it is given", "statement": "_llhHNGarch of hnGARCH.py raises for every input: IndexError if the series has fewer than two entries (nothing is changed), otherwise TypeError from ParamFit() after the caller's array has been overwritten. Since h, Z and x are one array, its final contents are the iterates of one map at the first entry: no other entry of the series is used, and symmetric has no influence.", "quantifier": "all series, all parameters, every arithmetic that does not raise (floating point with nan and infinities, integer arrays with truncating assignment)", "why_tests_cant": "The module is imported by nothing and has no test; that no input whatever makes it return, and which entries influence the outcome, are statements about all series and all lengths.", "anchors": ["src/finoptions/heston_nandi_options/hnGARCH.py:_llhHNGarch", "src/finoptions/heston_nandi_options/hnGARCH.py:ParamFit"]}
{"id": "C99", "title": "Monte Carlo options with missing or unknown arguments", "statement": "MonteCarloOption(...) raises ZeroDivisionError exactly if path_length is 0 and TypeError exactly if path_length is not 0 and Innovation is missing; otherwise an object is built even if sigma, Path or Payoff are missing. Without one of these, call() and put() raise TypeError if there is at least one loop and return an empty array if there is none. With all of them the result is the array of averages of the pricing model (C43). Keyword arguments the constructor does not know change neither whether it succeeds nor any price.", "quantifier": "all arguments, all sources of innovations, all sets of unknown keyword arguments", "why_tests_cant": "Tests pass complete argument lists; that no unknown keyword (for instance a misspelt one) is ever noticed is a statement about all keywords and all later calls.", "anchors": ["src/finoptions/monte_carlo_options/__init__.py:MonteCarloOption.__init__", "src/finoptions/monte_carlo_options/__init__.py:MonteCarloOption._sim_mc", "src/finoptions/monte_carlo_options/mc_paths.py:WienerPath.generate_path"]}
{"id": "C100", "title": "GBS prices in floating-point arithmetic", "statement": "When every operation of GBSOption's construction, call/put, _CND and _NDF (including the conversion of the decimal coefficients) returns the exact result up to a relative error e, the computed call and put differ from the exact Black-Scholes value by at most priceErr(e, S, K, t, r, b, sigma) times S e^{(b-r)t} + K e^{-rt}, where priceErr combines the 7.5e-8 of the polynomial approximation with rounding terms proportional to e and to the conditioning of d1 and d2. In double precision the total stays below 7.6e-8 unless the conditioning exceeds 1e5 or (|b|+|r|)t exceeds 1000.", "quantifier": "all positive S, K, t, sigma, all r and b, both option kinds, every arithmetic satisfying the standard model of rounding with 0 <= e < 1", "why_tests_cant": "Rounding errors depend on the bit pattern of every intermediate result; tests compare a few parameter sets with tolerances and cannot show that the argument-dependent errors of exp, log and of the cancellation in d1 and d2 never accumulate beyond the documented accuracy.", "anchors": ["src/finoptions/base.py:36", "src/finoptions/base.py:57-70", "src/finoptions/vanillaoptions.py:70-75", "src/finoptions/vanillaoptions.py:103-111", "src/finoptions/vanillaoptions.py:132-140"]}
{"id": "C101", "title": "Implied volatility of the Roll-Geske-Whaley option", "statement": "RollGeskeWhaleyOption.volatility(price) returns a volatility that reprices the option whenever the price is attainable. (Violated: the search evaluates call() at a volatility of 10, where the doubling loop passes 1e8 and raises ValueError, for every contract with a quarter of a year or more between dividend and expiry, a dividend that makes early exercise possible but at most a tenth of the strike, and a strike that is not tiny.)", "quantifier": "all contracts, all prices, all solvers that evaluate the ends of the bracket [-10, 10]", "why_tests_cant": "The tests never call this method, and an example with a short time between dividend and expiry works; that longer contracts fail for every price is a statement about all prices and spots.", "anchors": ["src/finoptions/basic_american_options/__init__.py:317-347", "src/finoptions/basic_american_options/__init__.py:123-139", "src/finoptions/base.py:503-577"]}
{"id": "C102", "title": "The tolerance of the implied volatility bounds the volatility, not the price", "statement": "`tol` is documented as the max tolerance to fit the price to. It is handed to scipy as `xtol`: the solver encloses a sign change of its target up to `tol` in the volatility. Under that contract whatever `volatility(P)` of a GBSOption returns is within tol plus (accuracy of the normal approximation)/(smallest vega) of the exact implied volatility, wherever the returned number lies (negative volatilities included), and, for tol below the lower bound of the volatility, the price at the result misses P by at most 0.4 S e^{(b-r)t} sqrt(t) times that plus the accuracy of the prices. The documented meaning fails: for every tol in [1e-5, 0.1] there is a solver keeping its contract whose result misses the price by more than 30 tol. With bisection in the solver's place the method returns for every attainable price and converges.", "quantifier": "all solvers that enclose a sign change up to delta, all numeric parameters with S, K, t > 0, all prices above the accuracy of the normal approximation, all object graphs, calls and puts", "why_tests_cant": "The solver is external and its answer is only fixed up to its tolerance; a test sees one solver on a few prices with the default tolerance.", "anchors": ["src/finoptions/base.py:490-577", "src/finoptions/vanillaoptions.py:493-540"]}
{"id": "C103", "title": "Prices and greeks of the generalized Black-Scholes option on its last day and without volatility", "statement": "For t = 0 or sigma = 0 (where d1 divides by zero and numpy continues with infinities) the price of a GBSOption is the discounted payoff of the forward, delta is its slope and vega is zero, whenever the forward differs from the strike; S = 0 prices correctly for t, sigma > 0. It fails at the forward S e^{bt} = K, where price and all greeks are nan; gamma is nan for every spot at t = 0 or sigma = 0, theta is nan for every spot at t = 0, and lambda is nan whenever the option is worthless. Negative maturities are not refused: every price is nan. For S, K, t, sigma > 0 nothing of this happens: prices and greeks are those of the real formulas.", "quantifier": "all S >= 0, K > 0, r, b, all t with t = 0 or sigma = 0 (t >= 0), all negative t, calls and puts", "why_tests_cant": "The failing set of the price is a single spot for every strike, rate and maturity; tests at t = 0 hit it only by chance, and nan compares unequal to everything.", "anchors": ["src/finoptions/vanillaoptions.py:84-140", "src/finoptions/vanillaoptions.py:142-412"]}
{"id": "C104", "title": "Tree options on their last day and without volatility", "statement": "The trees price an option without randomness (t = 0 or sigma = 0) at its exact value. True for the Jarrow-Rudd tree: European price = discounted payoff of the forward, American price at t = 0 = payoff. False for the others: Cox-Ross-Rubinstein and Tian give nan for European options and the unfloored exercise value S - K (or K - S), negative out of the money, for American options, because builtin max(a, nan) keeps a; the trinomial tree gives nan for both, because np.maximum propagates nan. Negative maturities are not refused: European nan, American the unfloored exercise value, trinomial nan. In the usual range the prices with nan semantics are those of the exact model.", "quantifier": "all S, K, r, b, all n >= 1, all t and sigma with t = 0 or sigma = 0 and all t < 0, European and American, calls and puts", "why_tests_cant": "The negative price needs an American option out of the money exactly at t = 0 or sigma = 0; existing tests use one interior parameter set.", "anchors": ["src/finoptions/binomial_tree_options/__init__.py:270-420", "src/finoptions/binomial_tree_options/__init__.py:423-530", "src/finoptions/binomial_tree_options/__init__.py:560-655"]}
{"id": "C105", "title": "Two-asset trees refuse unknown option numbers, impossible correlations and negative maturities", "statement": "BionomialSpreadAllTypes has no argument checks. An option number outside 1..9 gives the price nan for European options (None stored in a float array) and a TypeError in the middle of the rollback for American ones; a correlation above one in absolute value or a negative maturity gives nan for every option number, type and flag. Inside the range (t >= 0, |rho| <= 1) the prices with nan semantics are those of the exact model, exceptions included.", "quantifier": "all real parameters, all integer option numbers, all n >= 1, European and American, calls and puts", "why_tests_cant": "Tests use valid numbers; the failure is silent (nan) and differs between European and American options.", "anchors": ["src/finoptions/spread_options/bitree3d.py:116-224"]}
{"id": "C106", "title": "Kirk's spread price against the value of the spread option, and its dependence on the strike", "statement": "With P1, P2, PK the present values of the two legs and of the strike, the coded call and put of SpreadApproxOption differ from the discounted expectations of the two payoffs under two correlated lognormal assets by at most min(P2,PK)(1 + 0.4 sigma2 sqrt(t)) + 7.5e-8 (P1+P2+PK), and also by at most P2 PK/(P2+PK) sigma2^2 t exp(sigma2^2 t/2) + 7.5e-8 (P1+P2+PK). Prices are homogeneous in (S1, S2, K). A call should fall as the strike rises: this holds, apart from the error of the coded normal distribution, when rho*sigma1 <= sigma2*P2/(P2+PK) at the higher strike, and is false in general: for two identical legs with correlation one the contract is worthless at every strike, yet the coded call is positive and grows from less than 2% of a leg to more than 10% of a leg as the strike rises from 1% to 100% of a leg.", "quantifier": "all positive legs and strikes, all maturities t > 0, rates, carries, volatilities and correlations in [-1,1] with nonzero effective variance; the failure for all legs, rates, carries, maturities with sigma*sqrt(t) = 2", "why_tests_cant": "The true value is a two-dimensional integral without closed form; the increase with the strike needs high correlation and is not visible at the one tabulated parameter set.", "anchors": ["src/finoptions/spread_options/spreadapprox.py:SpreadApproxOption.__init__", "src/finoptions/spread_options/spreadapprox.py:SpreadApproxOption.call", "src/finoptions/spread_options/spreadapprox.py:SpreadApproxOption.put"]}
{"id": "C107", "title": "Trinomial spread lattice with uncorrelated assets, impossible correlations and negative maturities", "statement": "TrinomialSpreadOption.call() prices every contract with |rho| <= 1 and t >= 0 and refuses others. True when rho*sigma1*sigma2 != 0: no nan occurs and the price (or the exception for n < 2) is that of the model on real numbers. False for uncorrelated assets (rho = 0 or a zero volatility): the rotation angle is arctan of a division by zero; if sigma2^2 <= sigma1^2 it is 0/0 and the price is nan although, for sigma1 > sigma2 > 0, the prices for rho != 0 converge as rho -> 0; if sigma1^2 < sigma2^2 the quotient is infinite and the price is the discounted mean over the lattice with a right angle. |rho| > 1 and t < 0 are not refused and give nan.", "quantifier": "all real parameters, all n", "why_tests_cant": "nan appears only on the measure-zero set rho = 0 and depends on the order of the two volatilities; the module has no tests.", "anchors": ["src/finoptions/spread_options/tree_spread.py:37-76", "src/finoptions/spread_options/tree_spread.py:112-128"]}
{"id": "C108", "title": "Miltersen-Schwartz price is the mean of the randomly discounted payoff", "statement": "In a market where the logarithm of the futures price and the integral of the short rate are jointly normal, with the integrated variance and covariance of the Miltersen-Schwartz model, the futures price a martingale and Pt the price of the zero bond, MiltersenSchwartzOption.call() and put() equal E[exp(-integral of r) * payoff] up to 7.5e-8*Pt*(FT*exp(-vxz)+K), whatever the mean of the integrated short rate and its part independent of the futures price.", "quantifier": "all numeric parameters with FT, K > 0, KappaE, KappaF, KappaE + KappaF not zero and positive variance; all means and independent parts of the short rate; call and put", "why_tests_cant": "The claim equates a closed form with an expectation over two continuous random variables, for every short rate with the given bond price; the tests compare two numbers with a book.", "anchors": ["src/finoptions/vanillaoptions.py:670-704", "src/finoptions/vanillaoptions.py:733", "src/finoptions/vanillaoptions.py:761"]}
{"id": "C109", "title": "Bounds and shape of the simulated Asian option", "statement": "For independent standard normal innovations and every number of time steps, the expected result of an ArithmeticAsian Monte Carlo option lies between two closed forms: the Black-Scholes value of the option on the geometric average (volatility sigma*sqrt(t(n+1)(2n+1)/(6n^2))) and that value shifted by the discounted difference of the mean averages; it increases with the volatility; and it is at most the value of the vanilla option. The last part holds for calls with b >= 0 and puts with b <= 0 and fails otherwise: for every contract with n >= 2 there are strikes at which the Asian call with b < 0 (put with b > 0) is dearer than the vanilla option.", "quantifier": "all n >= 1, all S > 0, K, t >= 0, r, b, sigma >= 0, all numbers of paths and loops, with and without antithetic paths", "why_tests_cant": "The expectation over all paths is not observable by running the simulation; inequalities between expectations can only be sampled with noise.", "anchors": ["src/finoptions/monte_carlo_options/mc_payoffs.py:36-45", "src/finoptions/monte_carlo_options/mc_paths.py:33-36", "src/finoptions/monte_carlo_options/__init__.py"]}
{"id": "C110", "title": "Long-dated American options and the perpetual option", "statement": "For b < r the American call (b carry, r rate) is worth at most the perpetual call (K-level B = beta/(beta-1)*K, beta > 1 the root of the stationary equation), equals S - K from B on, and misses the perpetual value by at most (B-K)(S/B)exp(-(r-b)t); the same for puts with r > 0. Hence the lattice prices of CRR, JR, TIAN and trinomial trees with enough steps lie in that bracket, and the closed-form approximations should tend to the perpetual price as t grows. BAWAmericanApproxOption: for 0 <= b < r the call, and for b < r, r > 0 the put, come within the tolerance of the search (3e-6 of the level, 3e-6*K) of the perpetual price, and the exact quadratic approximation tends to it; for b < 0 < r call() returns S - K at every spot. BSAmericanApproxOption: beta and BInfinity in the code are beta and B; the price tends to the perpetual price for calls with 0 <= b < r and puts with b <= 0 < r. For b < 0 (puts: b > 0) it does not: the trigger price tends to minus infinity and call() returns S - K, for every spot, however far out of the money.", "quantifier": "all S, K, sigma > 0, all r, b with b < r (calls) or r > 0 (puts), all maturities", "why_tests_cant": "The statement concerns the limit of infinite maturity and an optimal stopping value; tests use maturities up to a year.", "anchors": ["src/finoptions/basic_american_options/__init__.py:801-876", "src/finoptions/basic_american_options/__init__.py:400-650", "src/finoptions/binomial_tree_options/__init__.py"]}
{"id": "C111", "title": "American lattice prices are optimal stopping values", "statement": "The American price returned by the CRR, JR, TIAN and trinomial trees and by the two-asset tree is the largest mean of the discounted payoff over all stopping times of the lattice's random moves: no rule that decides to exercise from the moves seen so far earns more, and some rule earns exactly the price. A European price is the mean at the last date.", "quantifier": "all strikes, spots, rates, carries, volatilities, maturities and step counts for which the lattice probabilities lie in [0,1]; all stopping times of the n moves (functions on the 2^n, 3^n or 4^n paths that do not look ahead); calls and puts; all two-asset payoffs", "why_tests_cant": "The number of stopping times is doubly exponential in the number of steps, so not even one tree of moderate size can be compared with all exercise rules by enumeration; the claim is over all of them and over a continuum of parameters.", "anchors": ["src/finoptions/binomial_tree_options/__init__.py:CRRBinomialTreeOption._amer", "src/finoptions/binomial_tree_options/__init__.py:TrinomialTreeOption._calc_price", "src/finoptions/spread_options/bitree3d.py:BionomialSpreadAllTypes._calc_price"]}
{"id": "C112", "title": "CRR and TIAN prices are costs of hedging in the lattice's market", "statement": "In the market where the stock moves by the tree's factors u or d each period, pays the yield r-b and cash earns r, the American CRR or TIAN price is the least capital from which some trading strategy covers the payoff whenever the holder exercises, and the European price is the only capital from which the payoff can be replicated exactly. On a JR tree the call and the put price with the same terms are never both replication costs.", "quantifier": "all spots, strikes, rates, carries, volatilities, maturities and step counts (CRR American prices: |b| sqrt(t/n) <= sigma); all trading strategies, i.e. functions from histories of moves to real holdings; all histories of at most n moves", "why_tests_cant": "Strategies are functions with 2^n real arguments; minimality is a statement about all of them and cannot be sampled.", "anchors": ["src/finoptions/binomial_tree_options/__init__.py:CRRBinomialTreeOption._amer", "src/finoptions/binomial_tree_options/__init__.py:CRRBinomialTreeOption._euro", "src/finoptions/binomial_tree_options/__init__.py:TIANBinomialTreeOption._calc_price", "src/finoptions/binomial_tree_options/__init__.py:JRBinomialTreeOption._calc_price"]}
{"id": "C113", "title": "Early-exercise regions of American tree options", "statement": "For a non-negative rate, if the American tree price of a put is its exercise value K-S then it is the exercise value at every lower spot; for a carry not above the rate, if the American tree price of a call is S-K then it is so at every higher spot. In the matrix returned by tree=True the exercised entries of each column therefore lie at and below (put) or at and above (call) one row. An option worth exercising with more periods left is worth exercising now, and on CRR and TIAN trees only when the spot is on the proper side of K(1-e^{-r dt})/(1-e^{(b-r)dt}).", "quantifier": "all CRR, JR, TIAN and trinomial trees with probabilities in [0,1], all spots, strikes, volatilities, maturities and step counts; puts: r >= 0 and any carry; calls: b <= r; all columns and rows of the matrix", "why_tests_cant": "The claim compares the price at every pair of spots; the boundary is a real number that no finite grid of spots locates, and trees violate such monotonicity only in isolated parameter regions (as they do for negative rates, where the claim is refuted here).", "anchors": ["src/finoptions/binomial_tree_options/__init__.py:CRRBinomialTreeOption._amer", "src/finoptions/binomial_tree_options/__init__.py:TrinomialTreeOption._calc_price"]}
{"id": "C114", "title": "The Bjerksund–Stensland price is at least the European price", "statement": "The price returned by BSAmericanApproxOption is not below the Black-Scholes value of the corresponding European option. This fails: for every strike, expiry and volatility and every low enough positive rate there is a spot at which an American futures call (put) is priced below the European one, and in an explicit case the American price is 300 while GBSOption itself returns more than 303. What holds: the shortfall is at most the largest excess of the European value over the exercise value at the trigger, hence at most K (max(b,0) T + 0.4 sigma sqrt T), up to the error of the normal distribution.", "quantifier": "all S, K, T, sigma > 0, all r >= 0 and b < r with b T + 2 sigma sqrt T >= 0 (calls; dual for puts); failures: all K, T, sigma > 0 and all r in some interval (0, r0)", "why_tests_cant": "The failure occurs on a whole region of parameters that ordinary examples (short expiry, moderate volatility) miss, and the bound on the shortfall needs the maximum principle for the Black-Scholes equation.", "anchors": ["src/finoptions/basic_american_options/__init__.py:776-876 BSAmericanApproxOption.call, put, _BSAmericanCallApprox, _bsPhi"]}
{"id": "C115", "title": "Barone-Adesi-Whaley prices are at least the European value and the exercise value", "statement": "Whenever the search for the critical price stops at a positive price, the price returned by BAWAmericanApproxOption (exercised or not) is at least the Black-Scholes value of the European option and at least the value of immediate exercise, and a call costs at most the spot, a put at most the strike, up to 1e-6 K (tolerance of the search) + 1.5e-7 (S e^{(b-r)t} + K e^{-rt}) (error of the normal distribution). Calls with b < r; puts with b <= r, and for every b if e^{-rt} <= 1 - 1e-6.", "quantifier": "all S, K, t, sigma, r > 0 and all b as stated, every terminating run of the search", "why_tests_cant": "The bound holds at every spot on both sides of a critical price found by an iterative search; it rests on the slope of the premium cancelling the slope of the European price, not on sampled values.", "anchors": ["src/finoptions/basic_american_options/__init__.py:401-612"]}
{"id": "C116", "title": "Options of volatility(): verbose, tol, maxiter, the warning, and failed searches", "statement": "volatility() warns exactly when the object already has a volatility; verbose=True returns the solver's result object and verbose=False the value in that object, with the same side effects and exceptions; tol and maxiter reach the solver; a search that fails is reported. (The last two fail: for arrays tol and maxiter are not passed on, and without verbose the success flag is dropped, so a failed search returns a number.)", "quantifier": "for all option classes, heaps, prices, root finders (arbitrary adaptive procedures with an arbitrary success flag), tolerances and iteration limits", "why_tests_cant": "the claims range over all behaviours of the external solver, including failures that a test cannot provoke at will", "anchors": ["src/finoptions/base.py:514-577", "src/finoptions/vanillaoptions.py:493-527"]}
{"id": "C117", "title": "Overflow in the Barone-Adesi-Whaley put search does not reach the price", "statement": "With the exponential in the seed of the search overflowing to infinity as doubles do, BAWAmericanApproxOption.put() returns a number near the quadratic approximation (in particular not a negative one) for every positive spot, strike, maturity, volatility and rate.", "quantifier": "all option parameters, all runs of the Newton search, including runs through infinity", "why_tests_cant": "the failing region (low volatility, long maturity, positive carry) is open-ended and fails silently: the comparison with nan ends the search", "anchors": ["src/finoptions/basic_american_options/__init__.py:464-525", "src/finoptions/basic_american_options/__init__.py:574-612"]}
{"id": "C118", "title": "Direction in which Kirk's spread price moves with the two legs and the correlation", "statement": "A call on the spread Q1*S1 - Q2*S2 gains when the first asset becomes dearer, loses when the second becomes dearer, and loses when the correlation rises; a put moves the other way in the two prices and the same way in the correlation. SpreadApproxOption follows these directions for the first asset (call and put) and for the correlation (call and put), apart from the error of the coded normal distribution (1.5e-7 times the present values of the legs). For the second asset it does so for calls when sigma2*w' <= rho*sigma1 at the higher price and for puts when rho*sigma1 <= sigma2*w at the lower price, w being the share of the second leg in the short side. In general it is false: the coded call can more than double when the second asset becomes dearer although the contract is worth less.", "quantifier": "all positive legs, strikes with a positive short side, maturities t > 0, rates, carries, nonnegative volatilities and all correlations with positive effective variance; the failure for all strikes, maturities, rates, carries, all correlations in (-1,1), sigma1*sqrt(t) <= 0.05 and sigma2*sqrt(t) = 2", "why_tests_cant": "Monotonicity is a statement about all pairs of contracts; the violation needs a second leg of small share whose weight in the effective volatility grows faster than its cost", "anchors": ["src/finoptions/spread_options/spreadapprox.py:78-123", "src/finoptions/spread_options/spreadapprox.py:125-174"]}
{"id": "C119", "title": "Bounds on the Roll-Geske-Whaley price and its dependence on spot, strike, dividend and volatility", "statement": "A price returned by call() is, apart from the error bound of C75, at least the European call on the stock without the dividend, at least the European call that expires on the dividend date with the strike reduced by the dividend (the two candidates of Black's approximation), at least S - K when the rate is not negative, and at most the European call plus the discounted excess of the dividend over the interest on the strike. Apart from the same error bounds it does not fall and rises by at most the difference when the spot rises, does not rise when the strike or the dividend rises, and does not fall when the volatility rises.", "quantifier": "all spots, strikes, rates, volatilities and dates 0 < td < t with a positive spot without the dividend, a dividend of at most the strike, and a spot whose doublings miss 1e8; all pairs of such contracts differing in one parameter", "why_tests_cant": "inequalities between prices of arbitrary pairs of contracts and against unobserved exact values; the search for the critical price and the bivariate normal sum enter both sides", "anchors": ["src/finoptions/basic_american_options/__init__.py:91-176"]}
{"id": "C120", "title": "Barone-Adesi-Whaley prices are monotone, non-expansive and convex in the spot", "statement": "For positive spot, strike, maturity, volatility and rate, a carry below the rate for calls and at most the rate for puts, and a search that stops at a positive critical price: for spots S <= S' the call price rises and the put price falls, by at most S' - S, and at any mixture of the two spots the price is at most the same mixture of the two prices. All three hold up to 4e-6 of the strike plus 3e-7 of the larger spot, the tolerance of the search and of the normal distribution.", "quantifier": "all K, t, sigma, r > 0, all b < r (call) or b <= r (put), all spots 0 < S <= S', all weights in [0,1], all runs of the search that stop at a positive price, also when the two spots lie on different sides of the critical price", "why_tests_cant": "The price is defined by two different formulas on the two sides of a price found by an unbounded search; a test compares finitely many spots and cannot exclude a jump or a kink of the wrong sign at the critical price for other parameters.", "anchors": ["src/finoptions/basic_american_options/__init__.py:527-612 BAWAmericanApproxOption.call/put", "src/finoptions/basic_american_options/__init__.py:400-525 critical price searches"]}
{"id": "C121", "title": "The Bjerksund–Stensland price and the exercise value", "statement": "An American option is worth at least its exercise value. The code's Bjerksund–Stensland price violates this: with rate 6.48 %, carry 4.5 %, volatility 30 % and one year to expiry the call at a spot of 47/11 strikes is priced below S - K by at least a thousandth of the strike, whatever the strike; likewise a put with rate 1.98 % and carry -4.5 %. For non-negative rates the shortfall is at most K T (max(-b,0) + max(r, r-b)(bT + 2 sigma sqrt T)) plus the error of CND, and from the trigger on the price is the exercise value.", "quantifier": "all strikes (violation); all S, K, T, sigma > 0, r >= 0, b < r with bT + 2 sigma sqrt T >= 0 (bound)", "why_tests_cant": "The violation is a fraction of a percent of the strike in a region of spots between the optimal and the approximate boundary; tests compare a few prices with published ones. The bound on the shortfall is a statement about all parameters and needs a comparison principle for the Black–Scholes equation.", "anchors": ["src/finoptions/basic_american_options/__init__.py:776-876 BSAmericanApproxOption.call, put, _BSAmericanCallApprox, _bsPhi"]}
{"id": "C122", "title": "The Bjerksund–Stensland price as a function of spot and strike", "statement": "For non-negative rates the Bjerksund–Stensland call price does not fall when the spot rises and does not rise when the strike rises; the put does the opposite. Across a change of spot or strike the price changes by at most that change plus the cost T max((r-b) I - r K, 0) of waiting for the trigger (the shortfall of C121). Both up to the error of CND in the two prices. This includes pairs of spots or strikes on both sides of the trigger, where the code switches formulas.", "quantifier": "all S <= S', K <= K', T, sigma > 0, r >= 0, b < r with bT + 2 sigma sqrt T >= 0 (dual conditions for puts)", "why_tests_cant": "Monotonicity concerns all pairs of spots and strikes, across the switch between two formulas; the formula is a sum of six terms of both signs none of which is monotone.", "anchors": ["src/finoptions/basic_american_options/__init__.py:776-876 BSAmericanApproxOption.call, put, _BSAmericanCallApprox, _bsPhi"]}
{"id": "C123", "title": "Barone-Adesi–Whaley prices under a change of unit and as functions of the strike", "statement": "Multiplying spot and strike by l > 0 multiplies the critical price and the price by exactly l; the search stops in the one case iff it stops in the other, and errors are the same. The critical price is therefore a fixed multiple of the strike. A call with a larger strike is cheaper and a put dearer, by at most the difference of the strikes, up to 1e-5 of the larger strike plus 1e-6 of the spot.", "quantifier": "all l > 0, all parameters including a missing volatility (change of unit); all S, K <= K', t, sigma, r > 0, b < r (call) or b <= r (put) and searches that stop at a positive price (strike)", "why_tests_cant": "The price depends on the strike through a Newton search of unbounded length; equality of all iterates up to a factor and monotonicity over all pairs of strikes are statements about every run.", "anchors": ["src/finoptions/basic_american_options/__init__.py:403-612 BAWAmericanApproxOption._bawKc, _bawKp, call, put"]}
{"id": "C124", "title": "The step of each tree reproduces the lognormal move it is named for", "statement": "Over a time step the underlying is multiplied by exp(sigma sqrt(dt) Z + (b - sigma^2/2) dt). The Cox-Ross-Rubinstein step (up and down cancel, log move is one standard deviation, mean right), the Jarrow-Rudd step (equal probabilities, mean and variance of the logarithm right) and the Tian step (first three moments right) each exist and are unique, and the code's price and matrix of node values are the European or American lattice values on that step, discounted at r. A trinomial step is two Cox-Ross-Rubinstein steps of half the length. The Jarrow-Rudd step has a mean below the forward.", "quantifier": "all valid t, sigma > 0, n >= 1, all real S, K, r, b, both exercise types, calls and puts", "why_tests_cant": "the conditions are identities and a uniqueness statement in continuous parameters for every number of steps", "anchors": ["src/finoptions/binomial_tree_options/__init__.py:CRRBinomialTreeOption._calc_price", "src/finoptions/binomial_tree_options/__init__.py:JRBinomialTreeOption._calc_price", "src/finoptions/binomial_tree_options/__init__.py:TIANBinomialTreeOption._calc_price", "src/finoptions/binomial_tree_options/__init__.py:TrinomialTreeOption._calc_price"]}
{"id": "C125", "title": "The GARCH likelihood, simulation and fit never pass off nan as a result", "statement": "The likelihood of hngarch_fit is a number exactly when the transformed parameters are stationary (beta + alpha gamma^2 < 1), and then it, the variances and the innovations are those of the exact model; otherwise the likelihood, all innovations and all variances but the first are nan for every series, and simulated points are all nan (ZeroDivisionError on the boundary). The default start of the fit gives a number for every series that is not constant, and a fit whose reported persistence is below one reports variances and innovations that are numbers.", "quantifier": "all non-empty series, all optimizer vectors and optimizer outcomes, all innovations", "why_tests_cant": "which parameter vectors the optimizer visits is not known in advance; the claims hold or fail on whole regions of parameters and for series of any length", "anchors": ["src/finoptions/heston_nandi_options/__init__.py:_llhHNGarch", "src/finoptions/heston_nandi_options/__init__.py:hngarch_fit", "src/finoptions/heston_nandi_options/__init__.py:hngarch_sim"]}
{"id": "C126", "title": "Two-asset lattice prices move with strike, unit and spots as the payoffs do", "statement": "For every two-asset lattice option whose payoff is evaluated as documented (every number except 8, and 7 for calls), European or American, with any number of steps: (a) for the one-strike contracts (1, 2, 3, 6, 9) a higher strike makes a call no dearer and a put no cheaper, by at most the strike difference times exp(-rt) (European) or max(1, exp(-rt)) (American), and the price is convex in the strike; (b) multiplying both spots and the strikes by l > 0 multiplies the price by l (for the product option: first spot and strike only); (c) with nonnegative positions a higher first spot raises every call but the exchange call, lowers every put and the exchange call; a higher second spot lowers spread and reverse dual-strike calls and raises the others, and conversely for puts; (d) for spread, portfolio, dual, reverse dual, exchange, maximum calls and minimum puts the price is convex in the two spots jointly.", "quantifier": "all option parameters, all step numbers n >= 1, calls and puts, European and American, all pairs of strikes, spots and all weights in [0,1]", "why_tests_cant": "Tests price a handful of contracts at one set of parameters; monotonicity, Lipschitz bounds, convexity and homogeneity relate pairs and triples of prices over the whole parameter space and every number of steps.", "anchors": ["src/finoptions/spread_options/bitree3d.py:161-224"]}
{"id": "C127", "title": "Naming the two assets in the other order gives the same lattice price", "statement": "For the two-asset contracts that treat both assets alike (maximum, minimum, dual strike with its strikes exchanged, portfolio, product) the lattice price does not depend on which asset is passed as S1 (with its b1, sigma1, Q1) and which as S2.", "quantifier": "all option parameters, all n >= 1, calls and puts, European and American", "why_tests_cant": "The tests never exchange the assets; the difference depends on the correlation and vanishes for correlation 0, 1 and -1 for every n, so no sample of uncorrelated contracts shows it.", "anchors": ["src/finoptions/spread_options/bitree3d.py:161-199"]}
{"id": "C128", "title": "A step of the two-asset lattice has exactly the log moments of the two correlated diffusions", "statement": "At every node of the two-asset lattice the four equally likely moves give log S1 and log S2 the means (b - sigma^2/2)dt, the variances sigma^2 dt and the covariance rho sigma1 sigma2 dt exactly; the average of the prices themselves is strictly less than exp(b dt) times the current price.", "quantifier": "all parameters with |rho| <= 1, nonzero spots and t >= 0 (growth: positive spots, t > 0, nonzero volatilities), all n, all nodes of all steps", "why_tests_cant": "Moments of the transition at every node for all parameters are not observable from prices of a few contracts.", "anchors": ["src/finoptions/spread_options/bitree3d.py:152-182"]}
{"id": "C129", "title": "Trinomial spread prices converge to the lognormal value", "statement": "As the number of steps grows, the price returned by TrinomialSpreadOption converges to the discounted expectation of max(S1_T - S2_T - K, 0) for two lognormal assets with the given volatilities, correlation and carry.", "quantifier": "all valid parameters (positive spots, volatilities and maturity, 0 < rho^2 <= 1), limit over all numbers of steps", "why_tests_cant": "A limit over infinitely many lattices, and the divergence for nonzero carry, are invisible in prices with one fixed number of steps.", "anchors": ["src/finoptions/spread_options/tree_spread.py:37-128"]}
{"id": "C130", "title": "Trinomial spread prices are monotone, homogeneous and jointly convex in spots and strike", "statement": "The price of TrinomialSpreadOption does not fall when S1 rises, S2 falls or K falls; a fall of K by d raises it by at most exp(n b - r t) d; scaling spots and strike by c >= 0 scales it by c; it is subadditive and jointly convex in (S1, S2, K).", "quantifier": "all parameters, all real spots and strikes, all n >= 2", "why_tests_cant": "Monotonicity, homogeneity and convexity relate prices of all triples of contracts.", "anchors": ["src/finoptions/spread_options/tree_spread.py:37-128"]}
{"id": "C131", "title": "Kirk's spread price on the last day, without volatility and for unusual arguments", "statement": "Computed with numpy's nan and infinities, SpreadApproxOption returns the discounted payoff of the forwards when no randomness is left (t = 0, or a vanishing variance rate of the ratio of the two sides) and a number whenever the contract has a value.", "quantifier": "all real arguments with a positive amount of the first asset, calls and puts", "why_tests_cant": "The set of arguments for which the price is nan is a boundary of measure zero plus a half space that example tests do not visit; the characterisation covers all arguments.", "anchors": ["src/finoptions/spread_options/spreadapprox.py:106-121", "src/finoptions/spread_options/spreadapprox.py:144-146", "src/finoptions/spread_options/spreadapprox.py:169-171"]}
{"id": "C132", "title": "Miltersen-Schwartz prices on the last day, without volatility, for zero and negative futures prices and without mean reversion", "statement": "Computed with numpy's nan and infinities, MiltersenSchwartzOption returns Pt times the payoff at the covariance-corrected futures price when no variance is left, is worth 0 (call) and Pt*K (put) at a futures price of zero, and returns a number for every admissible model, including those without mean reversion.", "quantifier": "all real arguments, calls and puts", "why_tests_cant": "The set of arguments for which the price is nan or raises is a boundary that example tests do not visit; the characterisation covers all arguments.", "anchors": ["src/finoptions/vanillaoptions.py:678-704", "src/finoptions/vanillaoptions.py:735", "src/finoptions/vanillaoptions.py:761"]}
{"id": "C133", "title": "Bjerksund-Stensland prices on the last day, after expiry, without volatility and for a worthless underlying", "statement": "Computed with numpy's nan and infinities, BSAmericanApproxOption returns the payoff on the last day, 0 for the call and K for the put on a worthless underlying, and a number for every option that has a value.", "quantifier": "all positive strikes, all rates and carries, all spots, maturities and volatilities named in each theorem, calls and puts", "why_tests_cant": "The last day and the zero spot are boundary sets that example tests do not visit; the characterisation of the arguments giving nan covers all rates, carries, strikes and spots.", "anchors": ["src/finoptions/basic_american_options/__init__.py:823-855", "src/finoptions/basic_american_options/__init__.py:857-876", "src/finoptions/basic_american_options/__init__.py:799-821"]}
{"id": "C134", "title": "Roll-Geske-Whaley prices on the edge of their domain", "statement": "RollGeskeWhaleyOption.call() returns a number whenever the option has a value: for a dividend paid before expiry it computes what the real-number model describes, and for a dividend paid today, in the past or after expiry, or worth more than the spot, it returns the price of the option that remains. Violations: where early exercise is in question (D > K(1-exp(-r(t-td)))), call() returns a number if and only if 0 < td <= t and D*exp(-r*td) < S (unless the search gives up with ValueError). A dividend after expiry gives nan or TypeError (the exact condition is proved), although the option is a plain European call; a dividend paid today gives nan, or TypeError if S - D is the critical price; a dividend of the past and a dividend worth at least the spot raise TypeError. Without early exercise the price is the European one, zero if the dividend takes all of the spot and nan if it takes more.", "quantifier": "all positive spots, strikes, maturities and volatilities, all real dividend dates, dividends and rates", "why_tests_cant": "The outcome depends on which of five branches of a recursive function comparisons with nan and infinities select; tests use a handful of dividends before expiry, where no nan appears.", "anchors": ["src/finoptions/basic_american_options/__init__.py:105-176", "src/finoptions/base.py:72-128"]}
{"id": "C135", "title": "Bounds and shape of the Miltersen-Schwartz price", "statement": "With F = FT*exp(-vxz): MiltersenSchwartzOption.call() lies between max(Pt*(F-K),0) and Pt*F, put() between max(Pt*(K-F),0) and Pt*K. A higher strike lowers the call and raises the put by at most Pt times the difference; a higher futures price does the opposite, by at most Pt*exp(-vxz) times the difference; in (FT, K) jointly both prices are convex. A higher correlation of spot and convenience yield raises neither price. All up to the error of the coded normal distribution, 7.5e-8*Pt*(F+K) per price. Exactly: the prices are proportional to Pt, and multiplying FT and K by l multiplies them by l. With deterministic rates (sigmaF = 0) the prices do not fall when the spot volatility rises, provided rho_SE*sigmaE times the integrated mean reversion over the life of the future is at most the lower spot volatility; without this condition they can fall, from more than 33% to less than 20% of Pt*FT.", "quantifier": "all Pt >= 0, FT, K > 0, all mean reversions with KappaE, KappaF, KappaE + KappaF not zero, all volatilities, correlations and maturities with positive variance (0 <= t <= T and nonnegative spot and convenience volatilities where the correlation or the spot volatility varies); exact parts: all numeric parameters with K, l not zero", "why_tests_cant": "A test compares a price with a stored number; monotonicity, convexity and bounds relate prices for all pairs of strikes, futures prices and correlations.", "anchors": ["src/finoptions/vanillaoptions.py:670-704", "src/finoptions/vanillaoptions.py:733", "src/finoptions/vanillaoptions.py:761"]}
{"id": "C136", "title": "Monte Carlo results that are not numbers are reported", "statement": "call() and put() of MonteCarloOption should report every loop whose average is not a number. For finite innovations, at least one path, t >= 0 and (with standardization) innovations that are not all equal, every average is a number, the one of the model over the reals; at t = 0 it is the exercise value, for sigma = 0 (plain payoff) the discounted payoff at the forward price. A loop whose payoffs contain +inf and no nan is reported: the innovations and payoffs of the first such loop are returned; this happens for a call with an innovation +inf and never for a put with S >= 0. A loop whose payoffs contain nan, or that has no path, is not reported: its entry in the result is nan. So the claim is false: the whole result is nan, without exception or warning, for t < 0, for standardization of equal innovations (one path of one step), for standardization with an infinite innovation, for a path with innovations +inf and -inf, and for no paths.", "quantifier": "all contracts, both payoff classes, all numbers of loops, paths and steps, all innovations including infinities and nan", "why_tests_cant": "Tests use Sobol points of ordinary contracts; which inputs lead to nan, and that none of them is noticed, is a statement about all inputs.", "anchors": ["src/finoptions/monte_carlo_options/__init__.py:MonteCarloOption._sim_mc", "src/finoptions/monte_carlo_options/mc_paths.py:WienerPath.generate_path", "src/finoptions/monte_carlo_options/mc_payoffs.py:PlainVanillaPayoff", "src/finoptions/monte_carlo_options/mc_payoffs.py:ArithmeticAsianPayoff"]}
{"id": "C137", "title": "Nonstationary Heston-Nandi parameters are refused", "statement": "HestonNandiOption should refuse parameters for which its formula has no value. The code sets the initial variance to (omega + alpha) / (1 - beta - alpha (gamma + lamb + 1/2)^2). If the persistence beta + alpha (gamma + lamb + 1/2)^2 equals one, every method raises ZeroDivisionError. If it is below one (and beta >= 0), both integrands are absolutely integrable for every number of days. The claim is false above one: the variance is then negative, every method still returns a number whatever quad returns, although for one day and for every spot, strike and rate at least one of the two integrals in the price is not integrable and has no improper value either. Such parameters can be stationary for the returns themselves (beta + alpha gamma^2 < 1).", "quantifier": "all parameters with omega > 0 and alpha >= 0, all spots, strikes, rates and values of quad", "why_tests_cant": "A numerical quadrature over a finite range returns a finite number for a divergent integral, so a test has nothing to compare with; divergence is a statement about the limit.", "anchors": ["src/finoptions/heston_nandi_options/__init__.py:_fHN", "src/finoptions/heston_nandi_options/__init__.py:HestonNandiOption.call"]}
{"id": "C138", "title": "Monte Carlo prices in floating-point arithmetic", "statement": "When every operation of MonteCarloOption, WienerPath and the two payoff classes returns the exact result up to a relative error e, and numpy adds in any order with any brackets, every average returned by call() or put() differs from the one in exact arithmetic (the model over the reals) by at most exp(L) - 1 times the discounted sum of average price and strike, where L = (exp(z) (1+e)^(6+d) - 1) M + e |r| t + (6 + d') log(1+e) for the plain payoff (and the same with d replaced by the number of steps in the first term and d + 1 more roundings for the Asian payoff). Here d and d' are the depths of the sums along a path and over the payoffs, M bounds the sum of the sizes of the steps of a path, and z = 0 without standardization; with standardization, for innovations that are not all equal, z is the explicit level of (x - mean)/std, which depends on e, the depth of the sums over all innovations and 4 (1 + mean^2/variance). In double precision the factor is below 1e-7 (1e-5 with standardization if the mean is at most the standard deviation, as it is with antithetic paths) for depths and step numbers up to a million, M up to 100 and |r| t up to 1000.", "quantifier": "all nonnegative S, K, t, sigma, all r and b, all numbers of loops, paths and steps, all innovations, all orders of summation, with and without antithetic paths and standardization, both payoffs, every arithmetic satisfying the standard model of rounding with 0 <= e <= 1", "why_tests_cant": "Tests see one order of summation on one machine; the bound is about every order numpy may choose and every arithmetic with the given relative error.", "anchors": ["src/finoptions/monte_carlo_options/__init__.py:MonteCarloOption._sim_mc", "src/finoptions/monte_carlo_options/mc_paths.py:WienerPath.generate_path", "src/finoptions/monte_carlo_options/mc_payoffs.py:PlainVanillaPayoff", "src/finoptions/monte_carlo_options/mc_payoffs.py:ArithmeticAsianPayoff"]}
{"id": "C139", "title": "Spread approximation in floating-point arithmetic", "statement": "Let every arithmetic operation, square root, exponential and logarithm in SpreadApproxOption's constructor, call() and put() carry a relative error of at most e, with |rho| < 1, sigma1 > 0, t > 0, a positive first leg and non-negative second leg and strike (not both zero). Then both prices differ from the exact value of the option to exchange the short side D = Q2*S2*exp((b2-r)t) + K*exp(-rt) for the long side N = Q1*S1*exp((b1-r)t) at Kirk's volatility by at most an explicit multiple of N + D, as long as the rounding error times the condition number (1+|rho|)/(1-|rho|) of the variance is below one. In double precision, with |rho| <= 0.98, (|b1|+|b2|+|r|)t <= 10 and a condition of d1, d2 up to 100, the multiple is at most 8e-8, where 7.5e-8 is the error of the polynomial normal distribution. In exact arithmetic the modelled functions are those of the class.", "quantifier": "for all rounding functions with relative error e, all contract parameters and both flavours", "why_tests_cant": "a test observes the rounding of a few inputs on one platform; the bound covers every input and every library whose functions meet the error bound, including the cancellation in the variance", "anchors": ["src/finoptions/spread_options/spreadapprox.py:106-121", "src/finoptions/spread_options/spreadapprox.py:144-146", "src/finoptions/spread_options/spreadapprox.py:169-171", "src/finoptions/base.py:57-70"]}
{"id": "C140", "title": "Two-asset lattice in floating-point arithmetic", "statement": "Let every arithmetic operation, power, square root and exponential in BionomialSpreadAllTypes (constructor, node values, payoffs, rollback) carry a relative error of at most e, with |rho| < 1 and t >= 0. Then for each of the nine payoffs, calls and puts, European and American, and any number of steps, the price differs from the price in exact arithmetic by at most an explicit factor times the value, in the same lattice, of the claim that pays the sum of the absolute values of the terms of the payoff; the factor grows linearly in the number of steps and depends on the correlation through (1+rho^2)/(1-rho^2). For European options without a product the value of that claim is at most |Q1| S1 exp((b1-r)t) + |Q2| S2 exp((b2-r)t) + (|K|+|K2|) exp(-rt). In double precision with at most 10000 steps, |rho| <= 0.98, exponents of total size at most 1000 and |r| t <= 10 the factor is at most 1e-9. In exact arithmetic the modelled functions are those of the class.", "quantifier": "for all rounding functions with relative error e, all parameters, payoffs, step numbers and both exercise types", "why_tests_cant": "a test sees the rounding of one platform at a few parameters; the accumulation over the n^3/3 node updates and the early-exercise decisions is bounded here for every input", "anchors": ["src/finoptions/spread_options/bitree3d.py:152-157", "src/finoptions/spread_options/bitree3d.py:161-199", "src/finoptions/spread_options/bitree3d.py:201-224"]}
{"id": "C141", "title": "Rounding does not spoil the analytic greeks", "statement": "Evaluated with every arithmetic operation, elementary function and decimal literal rounded to relative error e, in the order of the code, each analytic greek of GBSOption differs from the corresponding derivative of the exact Black-Scholes price by at most greekErr times the scale of that greek: delta, theta, rho (both branches), c_of_c with the 7.5e-8 of the distribution function included, gamma and vega with rounding alone, and lambda relative to the elasticity whenever the error of the price is smaller than the price. In double precision greekErr is at most 3e-9 above the approximation error unless the parameters are extreme (condition of d1 above 1e5 or (|b|+|r|)t above 1000).", "quantifier": "every arithmetic with relative error e < 1 per operation, every S, K, t, sigma > 0, every r and b, calls and puts", "why_tests_cant": "A test fixes one platform's libm and a handful of parameters; the bound is for every conforming arithmetic and all parameters.", "anchors": ["src/finoptions/vanillaoptions.py:142-451", "src/finoptions/base.py:17-70"]}
{"id": "C142", "title": "Rounding does not spoil the Miltersen-Schwartz prices", "statement": "Evaluated with every arithmetic operation and elementary function rounded to relative error e, in the order of the code, call() and put() of MiltersenSchwartzOption differ from the exact value of the model (the discounted Black formula with the variance and covariance integrals of the model) by at most msErr times Pt (FT exp(-cov) + K), provided the variance is not lost in the cancellation of its closed form. msErr is explicit: it contains the 7.5e-8 of the distribution function, the condition of d1 and d2, and the sum of the sizes of the terms of the two closed forms over their value. In double precision it is at most 1e-7 when (|KappaE|+|KappaF|)(|t|+|T|) is at most 10, at most two digits of the variance cancel, and the condition of d1, d2 is at most 50.", "quantifier": "every arithmetic with relative error e < 1 per operation, every FT, K > 0, every Pt, t, T, volatilities, correlations and non-zero mean reversions with positive variance, calls and puts", "why_tests_cant": "A test fixes one platform's libm and a handful of parameters; the bound is for every conforming arithmetic and all parameters, and shows how fast digits are lost as the mean reversions tend to zero.", "anchors": ["src/finoptions/vanillaoptions.py:660-763", "src/finoptions/base.py:17-70"]}
{"id": "C143", "title": "Rounding does not spoil the trinomial spread lattice", "statement": "Evaluated with every arithmetic operation and elementary function rounded to relative error e, in the order of the code and with each nine-term sum added in any order, call() of TrinomialSpreadOption returns a number whenever the exact code does, and the two differ by at most exp(priceLevel) - 1 times the discounted lattice mean of |S1_T| + |S2_T| + |K|. priceLevel is explicit: it contains n, the size of the exponents of a step, and three condition numbers for the digits cancelled in the gap of the eigenvalues, in the smaller eigenvalue and in the angle. In double precision the factor is at most 5e-7 when each of the three is at most 100, n is at most 10000, the exponents of the n steps add up to at most 100 and the exponent of a discount factor is at most 1.", "quantifier": "every arithmetic with relative error e < 1 per operation, every order of summation, every n >= 2, every S1, S2, K, t >= 0, r, b, every sigma1, sigma2, rho with rho sigma1 sigma2 non-zero and rho^2 < 1 whose cancellations leave a digit", "why_tests_cant": "The rollback runs through n^2 windows of nine terms whose order of summation numpy chooses; a test sees one platform, one n and one set of volatilities, the bound holds for every conforming arithmetic and shows how it degrades for correlations near one and near zero.", "anchors": ["src/finoptions/spread_options/tree_spread.py:37-128"]}
{"id": "C144", "title": "Rounding does not spoil the Bjerksund-Stensland trigger price or the decision to exercise", "statement": "Evaluated with every arithmetic operation and elementary function rounded to relative error e, in the order of the code, the trigger price of _BSAmericanCallApprox differs from the exact one by at most band, an explicit number made of e, three condition numbers (digits cancelled under the root of Beta, in Beta - 1, and in BInfinity - B0) and the size of the exponent ht. For every spot outside the band around the trigger price, the rounded program exercises exactly when the exact one does, and then returns S - X up to one rounding. In double precision the band is at most 1e-7 of the terms of the trigger price when none of the four numbers exceeds 20.", "quantifier": "every arithmetic with relative error e < 1 per operation, every strike X > 0, sigma > 0, every rate r of either sign, every cost of carry b < r, every time, every spot", "why_tests_cant": "Tests run on one libm; whether a comparison S >= I flips under rounding can only be seen at spots no test hits, and the bound shows for which rates and volatilities the digits of the trigger are lost.", "anchors": ["src/finoptions/basic_american_options/__init__.py:823-855"]}
{"id": "C145", "title": "Rounding does not spoil the Bjerksund-Stensland price of an option that is held", "statement": "Evaluated with every arithmetic operation, elementary function and power rounded to relative error e, in the order of the code and with the rounded trigger price and Beta, the price of _BSAmericanCallApprox for a spot below the band of C144 differs from the value of the strategy of holding to the trigger (the formula with the normal distribution function) by at most exp(heldLevel) - 1 times the sum of the sizes of its terms. heldLevel is explicit: the 7.5e-8 of the distribution function, the levels of trigger and Beta, and the sizes of the exponents and arguments in _bsPhi. In double precision the factor is at most 4e-7 when the condition numbers of the trigger are at most 4, the terms of every exponent add up to at most 12 and those of the arguments to at most 30, for every spot below (1 - 1e-9) times the trigger. For spots inside the band a price is returned as well, and it is either the exercise value up to one rounding or within the same bound of the value of holding.", "quantifier": "every arithmetic with relative error e < 1 per operation, every spot and strike > 0, T > 0, sigma > 0, every rate r of either sign and every cost of carry b < r with a positive trigger price whose digits are not all lost", "why_tests_cant": "The formula raises spot and trigger to the power Beta and subtracts six terms that nearly cancel; a test sees the digits lost at one point on one platform, the bound covers every conforming arithmetic and all parameters.", "anchors": ["src/finoptions/basic_american_options/__init__.py:823-876", "src/finoptions/base.py:17-70"]}
{"id": "C146", "title": "Rounding of r - b does not spoil the Bjerksund-Stensland put", "statement": "BSAmericanApproxOption.put() evaluates the call approximation with strike and spot exchanged, rate r - b and cost of carry -b. With every operation rounded to relative error e: (1) if r > e|r - b| and the transformed call is held with moderate condition numbers at every rate within e|r - b| of r, the price exists and there is a rate r' with |r' - r| <= e|r - b| such that the price is within 4e-7 times the sum of the sizes of the terms of the exact value (normal distribution function) of holding the put at rate r'; if r - b is computed exactly, r' = r. (2) If the strike is above the band of the trigger at all these rates, the price is K - S up to one rounding. (3) If r <= -e|r - b| the put is priced as a European one, as in exact arithmetic. (4) The gap between the conditions of (1) and (3) is real: an arithmetic with error 2^-53 prices the put as European at r = 1e-20, b = -0.1, where the exact code does not.", "quantifier": "every arithmetic with relative error e <= 2^-53 per operation ((2) and (3): every e < 1), every spot, strike, T and sigma > 0, every rate and cost of carry meeting the stated conditions", "why_tests_cant": "The rate of the transformed call is itself a rounded number, so the branch on b >= r, the trigger and the price all depend on an input that differs by platform; tests see one value of it.", "anchors": ["src/finoptions/basic_american_options/__init__.py:799-876"]}
