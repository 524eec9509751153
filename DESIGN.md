# Formal model of finoptions-dev — design

Subject: `/repo/src/finoptions` (read as text; never run). Properties: `properties.jsonl` (C01…).
Proofs: Lean 4 + Mathlib in `lean/`, modules under `lean/Verif/`.

## Trusted base

* Lean's kernel and the three standard axioms `propext`, `Classical.choice`, `Quot.sound`
  (the only ones any theorem depends on; `vcheck` / `#print axioms` confirm). No extra axioms, no
  `sorry`, no `native_decide`, no `bv_decide`.
* The transcription from Python to Lean. Every model definition cites its file and lines.
* **Floats are real numbers.** Python/numpy floating point is idealised as exact real arithmetic
  (`ℝ`, `Real.exp`, `Real.log`, `Real.sqrt`). Rounding, overflow, NaN and signed zero are not modelled,
  except where a property is about them: C85 and C100 (rounding after every operation in the trees and in GBS), C91, C103,
  C104, C105, C107, C125, C131–C134, C136 (`nan` and infinities), C117 (overflow), and the `inf` checks in the Monte Carlo and Sobol code. Lean's conventions `x/0 = 0`, `log 0 = 0`, `sqrt(-x) = 0` are
  never relied on: theorems carry hypotheses (S>0, K>0, t>0, sigma>0, …) under which Python computes
  ordinary numbers.
* **Lattice loops are generic** over a linear ordered field, with the exponentials that define
  `u, d, p, Df` as parameters, then instantiated with the real formulas of each class.
* **External oracles** (universally quantified, never assumed correct beyond what a theorem states):
  `numdifftools.Derivative`, `scipy.optimize.root_scalar/fsolve/minimize`, `scipy.integrate.quad`,
  random/Sobol generators.

## Model layout (`lean/Verif/`)

* `Model/…` — transcription of the code. `Spec/…` — independent specifications (no use of the model's
  helpers). `Props/…` — theorems, one file per group, with a concrete witness (`example`) next to each.

| module | code |
|---|---|
| `Model/Py` | exceptions, Python values |
| `Model/Normal` | `base.py` `_NDF`, `_CND`, `_CBND` |
| `Model/GBS` | `vanillaoptions.py` closed forms of GBS/BlackScholes/Black76 |
| `Model/Expr` | arithmetic on scalars, `None` and arrays, attribute reads and writes |
| `Model/Classes` | constructors, `get_params`, `set_param`, `copy`, `repr`, prices and analytic greeks of the option classes, Miltersen–Schwartz and Kirk included (deep embedding) |
| `Model/FDM`, `Model/FDM2` | `GreeksFDM`, object heap; the greeks of the classes with their own wrappers (Miltersen–Schwartz, Kirk, 3D trees, BAW, Bjerksund–Stensland) |
| `Model/Vol` | `volatility`, `_check_array`, solver choice |
| `Model/MCFl` | the Monte Carlo loop, paths and payoffs on numbers that include `nan` and the infinities |
| `Model/MCRound` | Monte Carlo prices over an abstract (rounded) arithmetic, any order of summation |
| `Model/Tree` | CRR/JR/TIAN/Trinomial loops, `_reshape`, plotters |
| `Model/TreeFl` | the tree pricers over an abstract (rounded) arithmetic |
| `Model/GBSFl` | `_NDF`, `_CND` and the prices of `GBSOption` over an abstract (rounded) arithmetic |
| `Model/GreeksFl` | the analytic greeks of `GBSOption` over an abstract (rounded) arithmetic |
| `Model/KirkFl` | the prices of `SpreadApproxOption` over an abstract (rounded) arithmetic |
| `Model/MSFl` | the prices of `MiltersenSchwartzOption` over an abstract (rounded) arithmetic |
| `Model/SpreadLatticeFl` | `TrinomialSpreadOption` over an abstract (rounded) arithmetic and an arbitrary summation of the nine terms |
| `Model/BSFl` | trigger price and exercise decision of `BSAmericanApproxOption` over an abstract (rounded) arithmetic |
| `Model/BSPriceFl` | `_bsPhi` and the price below the trigger over an abstract (rounded) arithmetic |
| `Model/BSPutFl` | `BSAmericanApproxOption.put` over an abstract (rounded) arithmetic |
| `Model/Tree3dFl` | the prices of `BionomialSpreadAllTypes` over an abstract (rounded) arithmetic |
| `Model/Tree3d` | `bitree3d.py` |
| `Model/American` | RGW, BAW, BS1993, `while` loops |
| `Model/RGWVol` | `RollGeskeWhaleyOption.volatility` |
| `Model/BAWFloat` | BAW on numbers with `nan` and infinities |
| `Model/BAWOverflow` | the BAW put with an overflowing exponential in its seed |
| `Model/Edge` | GBS greeks, the trees and the 3D tree on numbers with `nan` and infinities; unknown option numbers of the 3D tree |
| `Model/TreeSpread`, `Model/TreeSpreadFl` | `tree_spread.py`, on reals and on numbers with `nan` and infinities |
| `Model/SpreadEdge` | Kirk and Miltersen–Schwartz prices on numbers with `nan` and infinities |
| `Model/BSEdge` | Bjerksund–Stensland prices on numbers with `nan` and infinities |
| `Model/RGWEdge` | Roll–Geske–Whaley call and `_CBND` on numbers with `nan` and infinities |
| `Model/Summary` | `summary`, `__str__`, `__repr__` with shortened arrays |
| `Model/MC`, `Model/MCObj` | Monte Carlo package; option objects with missing and unknown arguments |
| `Model/HN`, `Model/HNObj` | Heston–Nandi package: prices, simulation, filter, fit; option objects with missing arguments |
| `Model/GarchFl` | simulation, filter, likelihood and fit on numbers with `nan` and infinities |
| `Model/HNLegacy` | `hnGARCH.py` |

Not modelled:

* plotting back-ends and display rounding (the index arithmetic of the plotters is modelled);
* the characters of a single value inside `summary` and `repr` (`str` of a float, `np.array2string`); `round` is an
  arbitrary function there;
* `base_test.py` (an old copy of `base.py`, not imported by the package);
* float rounding, overflow and NaN outside the modules that say so (`GBSFl`, `TreeFl`, `BAWFloat`, `BAWOverflow`, `Edge`, `TreeSpreadFl`, `GarchFl`, `SpreadEdge`, `BSEdge`, `RGWEdge`, `MCFl`, `MCRound`, `KirkFl`, `Tree3dFl`, `GreeksFl`, `MSFl`, `SpreadLatticeFl`, `BSFl`, `BSPriceFl`, `BSPutFl`), signed zeros; the int/float distinction; numpy dtypes and 0-dimensional arrays;
  scalars given by the caller are plain Python numbers;
* RGW with `K = 0`;
* string arithmetic, which is a `TypeError` in the model;
* the fields of scipy's result objects other than value and success flag;
* convergence of iterative solvers beyond what is stated.

## Per property: model and proof method

* C01 parity: algebra from `CND x + CND (-x) = 1` (the code's polynomial, case split on sign).
* C02 accuracy: `CND - Φ` has derivative `φ(x)·R(k)`, R a degree-6 polynomial; sign and sup bounds on R,
  integrate against φ. Spec Φ is Mathlib's Gaussian measure.
* C03 greeks: `HasDerivAt` of the exact Black–Scholes value; the code's greek is the same expression with
  CND for Φ, so the gap is bounded by C02.
* C04, C05: algebra on the code's formulas.
* C06: `R < 1` ⇒ CND strictly increasing, limits 0 and 1.
* C07–C12: small-step object model: attributes, kwargs binding, partial mutation on exceptions; induction
  on histories. Negative findings proved as counterexamples (see below).
* C13: intermediate value theorem + strict monotonicity of the exact price in sigma; any bracketing
  root-finder abstracted by its contract.
* C14, C15: elementwise semantics of array expressions (induction on expressions), decision logic.
* C16, C17: algebra; the fundamental theorem of calculus for the two integrals.
* C18–C28: the in-place loops as folds over a mutable array, invariant by induction ⇒ refinement to
  backward induction ⇒ binomial sums; American by monotonicity; index arithmetic by `omega`.
* C29–C34: same for the two-asset lattice (functions ℕ→ℕ→ℝ updated in place).
* C35–C41: loop invariants/termination measure; algebra; case analysis on `_CBND`'s recursion.
* C42: algebra. C43–C48: list folds over arbitrary innovation matrices.
* C49: Gaussian integral (Mathlib) + induction on days. C50–C55: algebra, induction over series.
* C56, C57: linear functionals; definitional equality of dict entries through independent spec.
* C58: induction on lattice levels. C59, C60: algebra on the trigger formulas.
* C61, C62: Gaussian law of the terminal log price, Fubini; strong law of large numbers.
* C63, C64: inversion formula (Dirichlet integral) for the two-sided generating function; differentiation under the
  integral sign.
* C65, C66: product of conditional Gaussian densities; the simulator is a triangular change of variables, induction on
  the length.
* C67: moments of the trinomial weights by induction; spectral identities of the 2x2 covariance matrix; limits.
* C68, C69: laws of the log returns as finite discrete measures; characteristic functions and Levy continuity give weak
  convergence, boundedness of second moments of the payoff gives convergence of expectations (Lemmas/WeakLimit,
  TreeLimit, TwoAssetLimit). C70: Gaussian tilting (Lemmas/Margrabe).
* C71: induction on levels with the spot as numeraire. C72, C73: a price is an iterate of a one-period operator; order of
  operators on convex functions (Lemmas/TreeOrder).
* C74: the error `G` of the five-point quadrature for the Gaussian tail has an elementary derivative; polynomial
  majorants checked by kernel computation over the integers bound it on `[0, 1.9]`, monotonicity beyond (Lemmas/ExpTaylor,
  Quad5, Quad5Bound). Integrating over the other variable gives the base quadrant (Lemmas/CBNDError); reflection, exchange
  and Drezner's reduction are exact by rotation invariance of the Gaussian (Lemmas/Normal2, CBNDAll).
* C75: the value is a discounted expectation of the better of exercising and keeping (Spec/RollGeskeWhaley); a threshold
  policy has the code's closed form with exact distribution functions, and a threshold with a small gain is nearly
  optimal (Lemmas/RGWValue).
* C76: the specification is a boundary value problem (Spec/BSEquation, Spec/BarrierCall). Existence: reflected powers cut
  by a normal distribution solve the equation (Lemmas/BSEquation, BarrierValue, BarrierCallValue); uniqueness: maximum
  principle on a strip with corner (Lemmas/BSUnique); put by inversion of the spot (Lemmas/BarrierDual).
* C77, C78: the gap between exercise value and approximation has positive slope bounded away from zero, so a small gap
  means a near root; the value is Lipschitz in the critical price (Lemmas/QuadApprox).
* C79: difference quotients of convex functions are monotone, so pointwise convergence of prices (C68) squeezes them
  between quotients of the limit; the terminal payoffs are affine off the kinks. C80: induction over the steps with an
  affine supersolution. C81: mean value theorem for the exact price, with the smallest vega on the range.
* C82: derivative of the rational approximation compared with the density on a grid of polynomial certificates
  (Lemmas/CNDDeriv); the density terms cancel up to that error, so the derivative of the coded price is the coded greek.
  The differentiation rule is any rule accurate to `eps` at the point (`AccurateAt`).
* C83: variance of a sum of independent terms; for antithetic paths an increasing and a decreasing function of
  independent variables are negatively correlated (Lemmas/Harris, induction on the number of variables); Chebyshev's
  inequality. C84: strong law for mean, mean square and an exponential dominating function; the payoff moves by at most
  `delta` times that function when the innovations move by `delta (1 + |z|)`.
* C85: the loops once more over an abstract arithmetic (`Model/TreeFl`, equal to `Model/Tree` for exact arithmetic,
  `C85_exact`); forward error analysis with a predicate `Err` whose levels add up along a computation (Lemmas/Rounding).
  The TIAN and trinomial factors involve cancellation; `Props/TreeRoundingFactors` bounds their relative error with the
  condition numbers of the subtractions, and `Props/TreeRoundingLimit` lets the unit roundoff tend to 0 for all four lattices.
* C86: one innovation is split off the product measure (`measurePreserving_piFinSuccAbove`), so a function of the other innovations factors out; normal moments up to order four by integration by parts; induction over days for mean and variance of the conditional variance and for covariances.
* C87: through C63 the exact price is an expectation of a convex payoff of a random variable with known mean; the two integrals are half the expectation of a sign, which bounds them and so the relative tolerance. `QuadOK` states what `scipy.integrate.quad` is asked for; it is a hypothesis.
* C88: with `alpha = 0` the variance recursion is constant at its fixed point, the return is a sum of independent normals (`map_std_sum`), then C63 and C02.
* C89: case analysis on the arguments; the price at `t = 0` from the empty loop (same coefficients as one day), C63 for one day, strict monotonicity in the volatility.
* C90: linear differentiation schemes applied to the parity relation (Kirk, Miltersen–Schwartz gamma); derivative of `call - put` in the volatility (covariance affine in the spot volatility; `tanh x < x` for lattice forwards); continuity of the exercise condition for the American put; a lower bound on the Barone-Adesi–Whaley critical price from the stopping rule of the search.
* C91: transfer of `Fl` computations to reals while all arguments are in range, invariant `0 < s` of the Newton iterates (numerator of the step is `K(1 - e^{-rt}N(d2)) + …`); `nan` propagation and false comparisons otherwise; sign of the seed from `q - exp(-(bt+2σ√t)(q-1))`.
* C92: the code's `CND` is replaced by a continuous function within 1e-8 (`Lemmas/CNDCont`); the slope the step uses is at least the slope of the compared difference on the side from which the critical price is approached (density at most 0.39895 against a distribution function of at least 0.42, resp. 1/2), so a step from that side passes the critical price by less than the tolerance; on the other side each step moves by a minimum amount inside a bounded interval (`loop_ends`). For puts with positive carry (`Props/BAWPutTerm`) the iterates may cross; crossings are excluded by comparing the growth of the difference on one side with the slope used (`loop_ends_cross`). Calls with negative carry (`Props/BAWCallTerm`) are the mirror image (`loop_ends_cross_up`); the downward jump of the code at d1 = 0 helps there.
* C93: limit of the put value at high prices, strict positivity of the integral of the exercise gain on a half line, bounds of C75.
* C94: Lindeberg telescoping. `Lemmas/SmoothPut` differentiates the Gaussian-smoothed put four times with explicit bounds on the derivatives; `Lemmas/Lindeberg` replaces one lattice step after another by a Gaussian step and sums the one-step errors along the tree recursion; `Lemmas/LatticeRate` computes the moments of the JR and CRR steps and sums over the steps; `Lemmas/TianRate` uses a Taylor expansion in the ratio e^x - 1 because the TIAN lattice matches three lognormal moments rather than moments of the logarithm. Calls by parity (C19), the trinomial class by C25, American calls by C22, `GBSOption` by C02.
* C95: the American value (`Spec/American`) is the supremum of Bermudan values. One-step operators on functions that are bounded by 1 and 1-Lipschitz in the logarithm of the price (`Lemmas/Stopping`) cover both the lattice and the Gaussian step. Grouping k steps and forbidding exercise inside a group costs at most the interest over a group, once and not per group (`StepOp.dp_wait`); inside a group the lattice and the Gaussian step differ by the Lindeberg error for Lipschitz functions (`Lemmas/SmoothLip`, `AmericanRate`, `AmericanBlocks`), which is added once per group. `Lemmas/AmericanValue` combines both, `Lemmas/AmericanCall` has the put-call symmetry of Bermudan values, calls that are never exercised, and the trinomial lattice as a binomial one exercised at every other step. k = n^(3/4) gives the rate. JR and TIAN calls (`Lemmas/AmericanDual`): dividing the lattice values by the spot gives a put lattice with weights p u/m and (1-p) d/m; for JR its discount factor is off by cosh(h) exp(-h²/2) per step, which is of order h⁴.
* C96: the text is a list of words and displayed values; the specification reads values and words off separately (`valuesOf`, `wordsOf`, `Displays`, `PricesShown`). Prices enter as arbitrary outcomes, so the bare `except` is covered for every exception.
* C97: comparison without any theory of stopping times. The American value is lower semicontinuous and dominates its own discounted Gaussian average over any time step (`Lemmas/AmericanSuper`); therefore a smooth function touching it from below satisfies the Black-Scholes inequality at the point of contact (`Lemmas/Viscosity`, Taylor expansion to second order with a quartic remainder). If the value of the barrier claim exceeded the American value somewhere, a perturbation of it would touch at an interior point and contradict this (`Lemmas/AmericanCompare`). The explicit barrier value is twice continuously differentiable (`Lemmas/BarrierSmooth`), which with uniqueness (C76) covers every solution of the specification (`Lemmas/BarrierAmerican`); calls follow by put-call symmetry.
* C98: arrays in a store, the three names as references to one address, arithmetic abstract; induction on the loop with the invariant that the entries up to i are the iterates.
* C99: the constructor and the loop with exceptions, statement by statement; refinement to `Model/MC` by induction over the loops.
* C100: every operation of the price is an operation of a record `ArithT`; multiplicative errors (`Rel`, closed under products, quotients, roots, powers and sums of nonnegative terms) and absolute errors (`Err`) are tracked through the code. The error of `exp(-x*x/2)` stays bounded because `w e^{-w} ≤ 1`; the errors of `d1` and `d2` enter through the Lipschitz constant of the exact distribution function (the code's own has a jump at zero).
* C101: `call()` being a relation (loops), the solver is an adaptive procedure run against it. At volatility 10 the loss from exercising, `h(1-CND d1) + K' CND d2`, is turned by the density identity into `K'(φ(d2) poly(k(d1)) + CND d2)` and bounded by 0.88 K for every price below 1e8 in three ranges of d1.
* C102: under the contract of a bracketing solver (a sign change within `δ` of the returned point) both ends of the sign change are located by monotonicity of the exact price in the volatility, the antisymmetry of the coded price at negative volatilities and the uniform accuracy of CND; bisection is given as a concrete interaction tree, proved to keep the contract and to return.
* C103: the formulas on `Fl` (numbers, infinities, `nan`); the sign of `log(S/K) + bt` decides which infinity `d1` is, and CND of an infinity is 0 or 1; the discounted payoff is compared with the specification `bsPrice` and its derivative.
* C104: the in-place loops on `Fl` compute a backward recursion (`rollback_val`); downward induction over levels shows which entries are `nan`; where the factors are numbers the recursion is the one of `Spec/Lattice`, and the binomial theorem gives the Jarrow–Rudd value.
* C105: loop invariants for the triple loop (all used entries `nan`); in range a simulation `foldlM g (φ s) = (foldlM f s).map φ` relates the array of floats to the array of reals.
* C106: the exact Black-Scholes value is Lipschitz in the strike (constant 1) and in the volatility (vega bound 0.4); the spread value lies between the exchange value (Margrabe) minus the strike and the exchange value, and between the one-asset value minus the second leg and the one-asset value; the ratio volatility is a norm, hence 1-Lipschitz. The second-order bound: Kirk's exact price is the exchange value against a second asset worth `P2 + PK` with the share `w` of the volatility; the payoffs differ by `(P2 + PK) |w E_s + (1 - w) - E_ws|` in lognormal martingales `E`, whose mean square is the series `sum x^k/k! (w - w^k)^2`.
* C107: the lattice on floats with `nan`; matrices of numbers are a homomorphic image of the real model (`List.foldl_hom`), matrices of `nan` by a loop invariant; the limit in `rho` by `lam1 - sigma1^2 = (rho sigma1 sigma2)^2/(lam1 - sigma2^2)`.
* C108: change of measure in the Gaussian plane (`gauss_tilt2`): discounting by `e^{-X}` shifts the normal that drives the futures price by `-c/v`, which multiplies the futures price by `e^{-c}`; then C16_price.
* C109: linear forms of independent normals are normal (`integral_lin`), so the geometric average is lognormal; arithmetic and geometric means by convexity of exp; a larger volatility is the smaller one plus an independent part (`measurePreserving_mix`), Jensen conditionally on the first part; undiscounted vanilla values grow with maturity by the same argument; dear strikes from parity and `(x-K)^+ <= x^2/(4K)`.
* C110: the power S^gamma of the stationary exponent, discounted, is a martingale; it dominates the exercise value, hence every Bermudan and the American value; the lower bound is the barrier call at the perpetual level (exercise at the first hit) and convexity of the American put; calls by the put-call symmetry of American values. BS93: phi terms tend to 0, the trigger tends to BInfinity for b >= 0 and to minus infinity for b < 0. BAW: exponents and critical price of the exact approximation converge (C110_quad_limit), the code's distance from it is C91. Trinomial trees (`Props/PerpetualTrinomial`) through the limits of C95.
* C111: paths are functions `Fin n → α` of moves; `IsStopping` says that the decision depends on earlier moves only. By induction on `n` the value function of backward induction dominates the mean of every stopping time (condition on the first move: the rest of a stopping time that does not stop at once is a stopping time on the remaining moves) and the rule 'stop when the payoff is at least the continuation value' attains it. The in-place loops are linked to the value function by the lemmas behind C20, C24 and C30.
* C112: `Spec/Hedging` defines wealth along a history for an arbitrary strategy. One step: the discounted mean of the wealth is the wealth (`Market.fair`), and the ratio `(F(su) - F(sd)) / (Y s (u-d))` leaves the same surplus over `F` after either move (`Market.hedge`). Induction over the number of moves gives minimality, covering and completeness. For JR the replication costs satisfy parity, which JR prices violate (C19).
* C113: the value function of backward induction is convex (C72) and for a put equals `K` at spot 0 when discounting does not exceed 1, so it lies below the chord between 0 and an exercised spot. For a call every step keeps slopes at most 1 when the discounted mean factor is at most 1. Time: C73. Threshold: the continuation value is at least the discounted forward. One-step witnesses show the need of the sign conditions.
* C114: the European call is a difference of two cut powers, so it solves the Black–Scholes equation; the maximum principle up to the horizon compares it with the barrier value of C76. The failures use 1 - e^h ≤ -h, which bounds the trigger by B0 (1 + bT + 2σ√T).
* C115: a supporting line of the European price (any exercise rule bounds the call from below) and Bernoulli's inequality for the premium; beyond the critical price by the slope bound (calls) or by convexity from spot zero (puts, any cost of carry).
* C116: the run splits into reading the parameters and running the solver; forgetting the flag of a finder commutes with running it (induction on the finder).
* C117: the seed of the put's search written as `s + d*exp(h)`; overflow makes it infinite, the right side of the search is then `inf*0 = nan`, the loop test is false, and the exercise branch is taken for every spot. Region of parameters from `log 2 < 0.6932` and a lower bound on the root of the perpetual put.
* C118: the coded price is a Black-Scholes exchange value of present values (C42) up to the error of the coded normal distribution; monotone in spot, strike and volatility; the effective volatility is monotone in the correlation and, on either side of `rho sigma1 = sigma2 w`, in the share `w`. The failure combines the upper bound of C106 with an exact evaluation at an effective volatility of at least 0.95.
* C119: the value of the contract (`Spec/RollGeskeWhaley`) is an expectation of a convex, monotone, 1-Lipschitz function of the ex-dividend price; volatility by the convex order of lognormal prices with equal mean (`terminal_convex_order`, Jensen conditionally on the part explained by the smaller volatility); a higher dividend contracts the cum-dividend price towards its mean (`dividendCall_dividend`). C75 carries everything over to the code.
* C120: shape of the Barone-Adesi-Whaley prices in the spot (`Props/BAWShape.lean`). The critical price does not depend on the spot; the continuation formula is convex, and its tangent at the critical price is within the tolerance of the exercise value, so the price is near one convex function with slope between 0 and 1 (call) or -1 and 0 (put).
* C121: Bjerksund–Stensland price against the exercise value (`Props/BS93Exercise.lean`); the price can lie below it, the shortfall is bounded. Uses the comparison lemmas of `Lemmas/BarrierCompare.lean` (sub- and supersolutions of the Black–Scholes equation below the trigger).
* C122: monotonicity and growth of Bjerksund–Stensland prices in spot and strike (`Props/BS93Shape.lean`), by comparison of the value at scaled spots; puts by the symmetry of the code.
* C123: a change of the monetary unit transports every iterate of the search (`Props/BAWStrike.lean`), so the Barone-Adesi–Whaley price is homogeneous; with C115 and C120 this gives monotonicity and growth in the strike.
* C124: `Spec/TreeStep.lean` lists what a step of each tree must reproduce of the lognormal move; `Props/TreeStep.lean` shows that each list has exactly one solution and that prices and node values are those of the lattice of that solution (for the trinomial tree: two half steps).
* C125: `Model/GarchFl.lean` repeats filter, likelihood, simulation and fit on numbers with `nan` and infinities. The loops are tables of two sequences: from a first innovation that is `nan` everything is `nan` (induction), from a positive first variance everything is a number and equals `Model/HN`.
* C126: two-asset lattice prices: monotone, Lipschitz and convex in the strike; homogeneous; monotone in each spot with the documented sign; jointly convex in the spots for the convex payoffs (`Props/TwoAssetShape.lean`).
* C127: order of the two assets: same price for correlation 0, 1 and -1; different in general, with witness (`Props/TwoAssetShape.lean`).
* C128: exact log means, variances and covariance of a two-asset lattice step; the prices grow strictly slower than the cost of carry (`Props/TwoAssetMoments.lean`).
* C129: the limit of trinomial spread prices, by a central limit theorem for the two-dimensional trinomial walk (`Lemmas/TrinomialLimit`): characteristic functions for weak convergence, exponential moments for uniform integrability; specification `Spec.Assets.value`.
* C130: shape of trinomial spread prices in spots and strike, from the average representation C58.
* C131: `Model/SpreadEdge` (`KirkEdge`) is `SpreadApproxOption` in `Fl` arithmetic. The price is `nan` exactly if the short side is not positive, the maturity or the variance rate of the ratio is negative, or there is no randomness and both sides are worth the same; otherwise it is a number, the payoff of the forwards where there is no randomness, and that of the class model elsewhere.
* C132: `Model/SpreadEdge` (`MSEdge`) is `MiltersenSchwartzOption` in `Fl` arithmetic from the square root on; the variance and covariance are the values of the class body (`vzExpr`, `vxzExpr`). For positive futures price and strike the price is `nan` exactly if the variance is negative, or zero with the corrected futures price at the strike.
* C133: `Model/BSEdge` is `_BSAmericanCallApprox` and `_bsPhi` in `Fl` arithmetic, with the `ZeroDivisionError`s of Python's division. For positive spot, strike and volatility and all rates the call price is `nan` exactly after expiry, on the last day below `max(K, rK/(r-b))` if `b < r`, and on the last day at the strike if `b >= r`.
* C134: `_CBND` and `RollGeskeWhaleyOption.call` over `Fl` (`Model/RGWEdge`, `Lemmas/CBNDEdge`, `Props/RGWEdge`): agreement with the real model for `0 < td < t` and a dividend below the spot, and the exact set of dividend dates and dividends for which the price is a number.
* C135: `C16_price` reduces both prices to `Pt` times an undiscounted Black–Scholes value; shape of that value in spot, strike and volatility; the dependence of variance and covariance on `rho_SE` and `sigmaS` from the integral form (C17); the counterexample computes the variance at maturity `log 2`.
* C136: numbers with nan and infinities; sums and means classified by what the list contains, the loop by C43's lemmas; the real model is recovered by pushing `num` through every operation.
* C137: for one day the integrands are `A exp(c u^2) sin(m u) / u` with `c = -sigma2/2`; for `c > 0` the integrals over the half periods stay above a positive constant, below one convergence is a step of C63; the two frequencies `m` differ by `sigma2`, so they are not both zero.
* C138: forward error analysis with the calculus of C85 (`Err`); sums by induction over the tree of additions, permutations of the entries lifted to the triples of computed value, exact value and bound. Standardization: the variance has condition number at most `4 (1 + mean^2/variance)` by the Cauchy–Schwarz inequality, then relative errors of root and quotient.
* C139: the Kirk spread prices in rounded arithmetic (`Model/KirkFl`). The only cancellation is in the variance, whose condition number is at most (1+|rho|)/(1-|rho|); the result is compared with the exact exchange-option value.
* C140: the two-asset lattice in rounded arithmetic (`Model/Tree3dFl`). The in-place loops are shown to compute a backward induction with rounded operations, whose error is bounded by the value of the gross payoff in the same lattice.
* C141: the analytic greeks of `GBSOption` in rounded arithmetic against the derivatives of the exact price.
* C142: the Miltersen-Schwartz prices in rounded arithmetic (`Model/MSFl`), compared with the integrals of the model. The closed forms cancel for small mean reversion; `varGross / variance` measures it and enters the bound.
* C143: the trinomial spread lattice in rounded arithmetic (`Model/SpreadLatticeFl`), against the real-number lattice of `Model/TreeSpread`. The gap of the eigenvalues, the smaller eigenvalue and the angle are differences; `condGap`, `condLow` and `condAngle` measure their cancellation and enter the bound. The exponentials turn the relative error of the exponents into `expSize` times `n`.
* C144: the trigger price of `BSAmericanApproxOption` and the comparison with the spot in rounded arithmetic (`Model/BSFl`). Relative errors while nothing cancels; at the three differences the error is measured against the sum of the sizes and turned back into a relative one through a condition number. The decision follows from the distance to the trigger.
* C145: `_bsPhi` and the price below the trigger in rounded arithmetic (`Model/BSPriceFl`), compared with the formula in the normal distribution function. Logarithms turn relative errors of trigger and Beta into absolute ones, exponentials and powers turn them back, multiplied by the size of the exponent; the six terms are added by their sizes.
* C146: the put as the transformed call (`Model/BSPutFl`). The rounding of `r - b` becomes a perturbed rate, at which C144 and C145 apply; the branch `-b >= r - b` is settled outside the rounding error of `r - b`, with a witness that it is not settled inside.

## Findings (behaviour contradicting the natural property)

Each one is proved as a theorem (negation with a witness, or the exact behaviour); the part that does hold is proved
beside it.

| theorem | behaviour |
|---|---|
| `C09_not_atomic_gbs`, `C09_not_atomic_tree3d`, `C09_not_atomic_ms` | a `set_param` that raises leaves new parameters beside old derived attributes |
| `C11_fdm_delta_raises` | finite-difference delta, gamma, lambda of `Black76Option` always raise (the spot is stored as `FT`, `S` is not an argument) |
| `C12_tian_name`, `C12_spread_name`, `C12_black76_extra`, `C12_allTypes_order` | `repr` of four classes shows another class name or other arguments than the constructor takes |
| `C14_rho_array_raises` | `rho` with an array `b` raises (truth value of an array) |
| `C19_jr_violates`, `C22_jr_fails` | JR trees violate put-call parity; early exercise of a call without carry advantage can be valued |
| `C24_crr_negative_weight` | CRR accepts parameters with a probability outside [0,1] |
| `C26_trinomial_accepts`, `C26_tree3d_accepts` | unknown exercise types are not refused: trinomial returns the lowest terminal payoff, the 3D tree prices a European option |
| `C31_outperformance_wrong`, `C31_exchange_put`, `C31_missing_strike` | 3D payoffs 8 and exchange put differ from their documentation; missing strikes accepted |
| `C35_zero_spot_diverges`, `C35_no_sign_change` | RGW: `S = 0` loops forever; for `D > K` the search ends without a root |
| `C37_complement_fails` | the bivariate normal violates `M(a,b,rho) + M(a,-b,-rho) = N(a)` where `b = rho a` |
| `C40_negative_price` | Bjerksund–Stensland trigger can be negative, price −1 |
| `C78_slope_wrong`, `C78_seed_call`, `C78_seed_put` | BAW: the slope `bi` uses `CND(d1)` where the derivative has the density; the seed lies on the wrong side of the strike when `b t + 2 sigma sqrt t < 0` (put: `b t > 2 sigma sqrt t`) |
| `C82_rho_gap`, `C82_jump` | GBS: rho by finite differences holds `b` fixed and so differs from the analytic rho by `c_of_c` whenever `b != 0`; at `d1 = 0` the coded price jumps and small central differences diverge |
| `C79_gamma_zero`, `C79_gamma_fails` | trees: the price is piecewise affine in the spot, so gamma by small differences is 0 however many steps are used |
| `C59_put_trigger` | the put's reported trigger price is `kappa*S`: it moves with the spot and is not the exercise boundary |
| `C47_wrong` | Monte Carlo trace divides the sum of all loops by `i+1` |
| `C84_single_path`, `C84_biased` | standardised innovations of a single path sum to zero, so the vanilla result is the payoff at the median price, below the Black-Scholes call |
| `C48_minus_infinity` | Sobol guard tests only the maximum, `-inf` passes |
| `C51_warmup_fails` | the GARCH filter restarts at the stationary variance, so a series after warm-up is not recovered |
| `C52_nonstationary` | without stationarity the first variance is negative; the fit does not enforce it |
| `C53_flag_ignored`, `C53_fails`, `C53_report_fails` | `~symmetric` is truthy for both booleans: the flag is ignored, the reported gamma 0 is not the one used |
| `C54_longer`, `C54_start_ignored` | `hngarch_sim` returns raw innovations for entries it does not overwrite |
| `C89_float_raises`, `C89_model_unused`, `C89_expired` | `HestonNandiOption`: every float maturity (the documented type) raises `TypeError`, `model` is ignored, an expired option is priced like one with a day to go |
| `C137_accepted_fails`, `C137_diverges_fails` | `HestonNandiOption` accepts a risk-neutral persistence above one (negative variance) and returns a number, although for one day one of its two integrals diverges |
| `C90_ms_vega_fails`, `C90_jr_vega_fails`, `C90_spread_vega_fails`, `C90_max_vega_fails`, `C90_bs93_vega_fails`, `C90_baw_vega_fails`, `C90_american_vega_fails` | `vega()` has no call/put flag ("same for both"), but call and put vega differ for Miltersen–Schwartz, JR trees, two-asset trees and American puts in the exercise region |
| `C91_call_fails`, `C91_call_fails_carry`, `C91_call_rate_zero`, `C91_put_rate_zero`, `C91_put_rate_negative`, `C91_put_fails_carry` | `BAWAmericanApproxOption.call` returns `S - K` for every spot when the carry is very negative (`b t + 2σ√t ≤ -1` suffices): the seed of the search is negative, its logarithm `nan`, and comparisons with `nan` are false. With `r = 0` prices are `nan` or the exercise value; some negative rates give `K - S`. With `b > r` the slope used by the put's search can be negative; the next iterate is then negative and `put()` returns `nan` for every spot |
| `C93_never_now`, `C93_fails` | `RollGeskeWhaleyOption.is_call_optimal` (also printed by `summary`) is documented as "currently optimal to exercise". At a positive rate exercising now is never optimal; the method answers whether some price on the dividend date could make it so. |
| `C96_stale` | after a refused `set_param("K", 0)` the summary of a `GBSOption` lists `K = 0` beside a price computed with the `d1` of the old strike; no option with the listed parameters exists |
| `C96_rgw_raises` | `RollGeskeWhaleyOption.summary` evaluates `is_call_optimal()` outside its `try`: `str(option)` raises `TypeError` for `K=None` |
| `C96_repr_lossy` | `repr` and `summary` round arrays of more than six entries to two decimals and elide them: different options have the same `repr` |
| `C96_title` | `TIANBinomialTreeOption` prints the title "CRR Binomial Tree Model" |
| `C65_minimum_fails` | reported `minimum` is off by `n*sqrt(2*pi)` (the constant should be `n*log(2*pi)/2`) |
| `C67_mean_fails`, `C67_variance_fails`, `C67_discount_fails` | 2D trinomial lattice: mean log return 0, variance `4 sigma^2 t`, discount `exp(n b - r t)` |
| `C98_never_returns`, `C98_overwrites` | `hnGARCH.py` `_llhHNGarch` raises for every input, after overwriting the caller's series with numbers that depend on its first entry only |
| `C99_unknown_keywords` | `MonteCarloOption` accepts any misspelt keyword silently and ignores it |
| `C101_raises` | `RollGeskeWhaleyOption.volatility` raises `ValueError` for every price when there is a quarter of a year or more between dividend and expiry: the bracket makes it evaluate `call()` at a volatility of 10, where the search passes 1e8 |
| `C102_price_tol_fails` | `tol` of `volatility` is documented as the tolerance of the fit to the price but is the solver's tolerance in the volatility: the price may be missed by more than 30 `tol` (and for arrays `tol` and `maxiter` are not used at all) |
| `C103_at_the_money_fails`, `C103_gamma_theta_fails`, `C103_lamb_fails` | at expiry or without volatility the price is `nan` exactly at the forward; gamma and theta are `nan` for every spot, lambda for every worthless option |
| `C104_european_fails`, `C104_american_fails`, `C104_trinomial_fails`, `C104_expired` | at `t = 0` or `sigma = 0` the CRR and Tian trees give `nan` for European and *negative* prices for out-of-the-money American options (`max(a, nan)` keeps `a`); the trinomial tree gives `nan` |
| `C105_unknown_european_fails`, `C105_correlation_fails` | the 3D tree accepts unknown option numbers, correlations above one and negative maturities and returns `nan` |
| `C136_late_fails`, `C136_constant_fails`, `C136_standardised_infinite_fails`, `C136_opposite_fails`, `C136_empty_fails` | Monte Carlo: averages that are `nan` (negative maturity, standardised equal or infinite innovations, opposite infinities, no paths) are returned like prices; only `+inf` is checked |
| `C106_strike_fails` | Kirk's call is positive and rises with the strike where the spread is identically zero (correlation one, equal legs) |
| `C107_uncorrelated_fails`, `C107_correlation_fails`, `C107_expired_fails` | the trinomial spread option returns `nan` for uncorrelated assets with `sigma1 >= sigma2`, for correlations above one and for negative maturities |
| `C109_vanilla_fails` | an Asian call with negative carry (put with positive carry) is dearer than the vanilla option at some strikes: a property of the contract, not a fault of the code |
| `C110_bs93_call_fails`, `C110_bs93_put_fails`, `C110_baw_call_fails` | for long maturities `BSAmericanApproxOption.call` with `b < 0` (put with `b > 0`) and `BAWAmericanApproxOption.call` with `b < 0` return the exercise value `S - K` at every spot, negative out of the money; the American value is larger by a fixed amount |
| `C112_jr_fails` | the prices of `JRBinomialTreeOption` are not hedging costs in the lattice market: its probability ½ is not the risk-neutral one |
| `C114_fails_call`, `C114_fails_put`, `C114_code_fails` | `BSAmericanApproxOption` prices options below the European price; with S=400, K=100, T=2.25, r=2 %, b=0, σ=100 % it returns 300 and `GBSOption` more than 303 |
| `C121_fails_call`, `C121_fails_put` | `BSAmericanApproxOption` prices options below their exercise value; with S=47, K=11, T=1, r=6.48 %, b=4.5 %, σ=30 % the call is worth less than 35.99 though exercise pays 36 |
| `C116_flag_ignored`, `C116_failure_unreported`, `C116_array_options` | `volatility()` returns whatever number the solver stopped at, also when the solver reports failure (only `verbose=True` shows it); for arrays `tol` and `maxiter` have no effect |
| `C117_put_overflow`, `C117_put_overflow_region` | when `(b t - 2σ√t)·2b/σ² ≥ 710` (low volatility, long maturity) the seed of the BAW put search is infinite, the search ends at once and `put()` returns `K - S`, negative above the strike |
| `C118_second_fails` | Kirk's call more than doubles when the second (short) asset becomes dearer, although the contract is worth less (first leg at the strike, `σ1√t ≤ 0.05`, `σ2√t = 2`) |
| `C127_fails` | two-asset lattice prices of symmetric contracts depend on which asset is passed first (one-step product option, correlation 3/5) |
| `C129_fails`, `C129_witness`, `C129_negative_carry`, `C129_positive_carry` | prices of the trinomial spread lattice do not converge to the value of the spread option: without carry they are those of assets with twice the volatility and forwards `S exp(2σ²t)`, with negative carry they vanish, with positive carry they grow without bound |
| `C131_at_the_money_fails`, `C131_short_fails` | Kirk's spread price is `nan` on the last day (or without volatility) if the spread equals the strike, and for every strike at or below minus the forward value of the second asset |
| `C132_at_the_money_fails`, `C132_no_reversion_fails` | the Miltersen–Schwartz price is `nan` without variance at the money; without mean reversion (`KappaE = 0` or `KappaF = 0`) the constructor raises `ZeroDivisionError` |
| `C133_last_day_fails`, `C133_last_day_put_fails`, `C133_no_volatility_fails`, `C133_worthless_fails`, `C133_worthless_put_fails` | the Bjerksund–Stensland call with `b < r` is `nan` on the last day for every spot below `max(K, rK/(r-b))` (the documented example struck at 8 is `nan` at 10 where it pays 2); `sigma = 0` raises `ZeroDivisionError`; on a worthless underlying the call is `nan` or `-K` and the put raises |
| `C134_after_expiry_fails`, `C134_today_fails`, `C134_past_fails`, `C134_large_dividend_fails` | the Roll–Geske–Whaley call is never a number for a dividend paid today, in the past or after expiry or worth at least the spot when early exercise is in question: `nan`, or `TypeError` because `_CBND` returns `None` (e.g. `S=100, K=50, t=1, td=4, r=0, D=50`, where the option is a plain European call) |
| `C125_default_start_fails`, `C125_report_fails` | `hngarch_fit` with its defaults starts at `nan` when the sample variance exceeds one (returns in per cent); with `symmetric=True` it can report persistence 1/2 next to innovations that are all `nan` |
| `C72_jr_fails`, `C72_tian_fails` | JR and TIAN prices can fall when volatility rises (JR through its low mean, TIAN once `exp(sigma^2 dt) > 3/2`) |

Observed while reading, not stated as theorems: the Heston–Nandi docstring passes arguments the constructor does not have; `TrinomialSpreadOption` ignores `type` and has no put; `hnGARCH._llhHNGarch` aliases
`h`, `Z` and `x` and calls `ParamFit()` without its required arguments.
