import Verif.Model.Expr

/-!
The option classes of the library as data: signatures, constructor bodies, `get_params`, and the
closed-form methods.  Every definition cites the source it transcribes.

`self._greeks = GreeksFDM(self)` (last statement of every constructor) only creates a helper that
points back to the object; it is not represented.
-/
namespace Verif
open Expr

/-- `self.x = x` for each parameter. -/
def assignParams (ps : List (String × String)) : List Stmt :=
  ps.map (fun p => .assign p.1 (.arg p.2))

/-- base.py:355-361 `Option.__init__`. -/
def optionInit : List Stmt := assignParams
  [("_S", "S"), ("_K", "K"), ("_t", "t"), ("_r", "r"), ("_b", "b"), ("_sigma", "sigma")]

/-- base.py:363-371 `Option.get_params`. -/
def optionFields : List (String × String) :=
  [("S", "_S"), ("K", "_K"), ("t", "_t"), ("r", "_r"), ("b", "_b"), ("sigma", "_sigma")]

/-- A required parameter. -/
def req (x : String) : String × Option Val := (x, Option.none)
/-- A parameter with a default. -/
def dflt (x : String) (v : Val) : String × Option Val := (x, some v)

namespace GBSClass
/-- `self._S` etc. -/
abbrev S : Expr := .attr "_S"
@[inherit_doc S] abbrev K : Expr := .attr "_K"
@[inherit_doc S] abbrev t : Expr := .attr "_t"
@[inherit_doc S] abbrev r : Expr := .attr "_r"
@[inherit_doc S] abbrev b : Expr := .attr "_b"
@[inherit_doc S] abbrev sigma : Expr := .attr "_sigma"
@[inherit_doc S] abbrev d1 : Expr := .attr "_d1"
@[inherit_doc S] abbrev d2 : Expr := .attr "_d2"

/-- vanillaoptions.py:69-76, the statements under `if sigma is not None`. -/
noncomputable def initD : List Stmt :=
  [.assignIf "sigma" "_d1" ((log (S ⊘ K) + (b + sigma * sigma / 2) * t) / (sigma * sqrt t)),
   .assignIf "sigma" "_d2" (d1 - sigma * sqrt t)]

/-- vanillaoptions.py:105-109 `call`. -/
noncomputable def call : Meth := ⟨["_sigma"],
  S * exp ((b - r) * t) * cnd d1 - K * exp (-r * t) * cnd d2⟩
/-- vanillaoptions.py:134-138 `put`. -/
noncomputable def put : Meth := ⟨["_sigma"],
  K * exp (-r * t) * cnd (-d2) - S * exp ((b - r) * t) * cnd (-d1)⟩
/-- vanillaoptions.py:167-173 `delta(call=True)`. -/
noncomputable def deltaC : Meth := ⟨["_sigma"], exp ((b - r) * t) * cnd d1⟩
/-- vanillaoptions.py:167-173 `delta(call=False)`. -/
noncomputable def deltaP : Meth := ⟨["_sigma"], exp ((b - r) * t) * (cnd d1 - 1)⟩
/-- vanillaoptions.py:206-212 `Theta1`. -/
noncomputable def theta1 : Expr := -(S * exp ((b - r) * t) * ndf d1 * sigma) / (2 * sqrt t)
/-- vanillaoptions.py:204-236 `theta(call=True)`. -/
noncomputable def thetaC : Meth := ⟨["_sigma"], theta1 - (b - r) * S * exp ((b - r) * t) * cnd d1
  - r * K * exp (-r * t) * cnd d2⟩
/-- vanillaoptions.py:204-236 `theta(call=False)`. -/
noncomputable def thetaP : Meth := ⟨["_sigma"], theta1 + (b - r) * S * exp ((b - r) * t) * cnd (-d1)
  + r * K * exp (-r * t) * cnd (-d2)⟩
/-- vanillaoptions.py:262-270 `vega()`. -/
noncomputable def vega : Meth := ⟨["_sigma"], S * exp ((b - r) * t) * ndf d1 * sqrt t⟩
/-- vanillaoptions.py:300-324 `rho(call=True)`. (The call price, computed before the branch, is used
only in the second branch; it raises nothing the branch condition would mask.) -/
noncomputable def rhoC : Meth := ⟨["_sigma"], .ite b (t * K * exp (-r * t) * cnd d2) (-t * call.body)⟩
/-- vanillaoptions.py:300-324 `rho(call=False)`. -/
noncomputable def rhoP : Meth :=
  ⟨["_sigma"], .ite b (-t * K * exp (-r * t) * cnd (-d2)) (-t * put.body)⟩
/-- vanillaoptions.py:357-377 `lamb(call=True)`. -/
noncomputable def lambC : Meth := ⟨["_sigma"], exp ((b - r) * t) * cnd d1 * S / call.body⟩
/-- vanillaoptions.py:357-377 `lamb(call=False)`. -/
noncomputable def lambP : Meth := ⟨["_sigma"], exp ((b - r) * t) * (cnd d1 - 1) * S / put.body⟩
/-- vanillaoptions.py:403-410 `gamma()`. -/
noncomputable def gamma : Meth := ⟨["_sigma"], exp ((b - r) * t) * ndf d1 / (S * sigma * sqrt t)⟩
/-- vanillaoptions.py:437-451 `c_of_c(call=True)`. -/
noncomputable def cOfCC : Meth := ⟨["_sigma"], t * S * exp ((b - r) * t) * cnd d1⟩
/-- vanillaoptions.py:437-451 `c_of_c(call=False)`. -/
noncomputable def cOfCP : Meth := ⟨["_sigma"], -t * S * exp ((b - r) * t) * cnd (-d1)⟩

/-- All price and analytic greek methods. -/
noncomputable def methods : List Meth :=
  [call, put, deltaC, deltaP, thetaC, thetaP, vega, rhoC, rhoP, lambC, lambP, gamma, cOfCC, cOfCP]
end GBSClass

/-- vanillaoptions.py:10-78 `GBSOption`. -/
noncomputable def gbsCls : Cls where
  pyName := "GBSOption"
  name := "GBSOption"
  sig := [req "S", req "K", req "t", req "r", req "b", dflt "sigma" .none]
  body := optionInit ++ GBSClass.initD
  fields := optionFields
  drop := []

/-- vanillaoptions.py:530-532 `BlackScholesOption(GBSOption)`. -/
noncomputable def bsCls : Cls :=
  { gbsCls with pyName := "BlackScholesOption", name := "BlackScholesOption" }

/-- vanillaoptions.py:535-595 `Black76Option(GBSOption)`: the constructor calls
`GBSOption.__init__(FT, K, t, r, b=0, sigma=sigma)`. -/
noncomputable def black76Cls : Cls where
  pyName := "Black76Option"
  name := "Black76Option"
  sig := [req "FT", req "K", req "t", req "r", dflt "sigma" .none]
  body := assignParams [("_S", "FT"), ("_K", "K"), ("_t", "t"), ("_r", "r")]
    ++ [.assign "_b" (.lit 0), .assign "_sigma" (.arg "sigma")] ++ GBSClass.initD
  fields := [("FT", "_S"), ("K", "_K"), ("t", "_t"), ("r", "_r"), ("b", "_b"), ("sigma", "_sigma")]
  drop := ["b"]

namespace MSClass
/-- `self._Pt` etc. -/
abbrev Pt : Expr := .attr "_Pt"
@[inherit_doc Pt] abbrev FT : Expr := .attr "_FT"
@[inherit_doc Pt] abbrev K : Expr := .attr "_K"
@[inherit_doc Pt] abbrev t : Expr := .attr "_t"
@[inherit_doc Pt] abbrev T : Expr := .attr "_T"
@[inherit_doc Pt] abbrev sS : Expr := .attr "_sigmaS"
@[inherit_doc Pt] abbrev sE : Expr := .attr "_sigmaE"
@[inherit_doc Pt] abbrev sF : Expr := .attr "_sigmaF"
@[inherit_doc Pt] abbrev rSE : Expr := .attr "_rhoSE"
@[inherit_doc Pt] abbrev rSF : Expr := .attr "_rhoSF"
@[inherit_doc Pt] abbrev rEF : Expr := .attr "_rhoEF"
@[inherit_doc Pt] abbrev kE : Expr := .attr "_KappaE"
@[inherit_doc Pt] abbrev kF : Expr := .attr "_KappaF"
@[inherit_doc Pt] abbrev vz : Expr := .attr "_vz"
@[inherit_doc Pt] abbrev vxz : Expr := .attr "_vxz"
@[inherit_doc Pt] abbrev d1 : Expr := .attr "_d1"
@[inherit_doc Pt] abbrev d2 : Expr := .attr "_d2"

/-- vanillaoptions.py:677-690, the first assignment to `self._vz` (a variance). -/
noncomputable def vzExpr : Expr :=
  sq sS*t+2*sS*(sF*rSF*1⊘kF*(t-1⊘kF*
  exp (-kF*T)*(exp (kF*t)-1))-sE*rSE*1⊘kE*
  (t-1⊘kE*exp (-kE*T)*(exp (kE*t)-1)))+sq sE*
  1⊘sq kE*(t+1⊘(2*kE)*exp (-2*kE*T)*(exp (2*kE*t)-
  1)-2*1⊘kE*exp (-kE*T)*(exp (kE*t)-1))+sq sF*
  1⊘sq kF*(t+1⊘(2*kF)*exp (-2*kF*T)*(exp (2*kF*t)-
  1)-2*1⊘kF*exp (-kF*T)*(exp (kF*t)-1))-2*sE*
  sF*rEF*1⊘kE*1⊘kF*(t-1⊘kE*exp (-kE*T)*
  (exp (kE*t)-1)-1⊘kF*exp (-kF*T)*(exp (kF*t)-
  1)+1⊘(kE+kF)*exp (-(kE+kF)*T)*(exp ((kE+kF)*
  t)-1))

/-- vanillaoptions.py:691-699, `self._vxz`. -/
noncomputable def vxzExpr : Expr :=
  sF*1⊘kF*(sS*rSF*(t-1⊘kF*(1-exp (-kF*
  t)))+sF*1⊘kF*(t-1⊘kF*exp (-kF*T)*(exp (kF*
  t)-1)-1⊘kF*(1-exp (-kF*t))+1⊘(2*kF)*exp (-kF*
  T)*(exp (kF*t)-exp (-kF*t)))-sE*rEF*1⊘kE*
  (t-1⊘kE*exp (-kE*T)*(exp (kE*t)-1)-1⊘kF*(1-
  exp (-kF*t))+1⊘(kE+kF)*exp (-kE*T)*
  (exp (kE*t)-exp (-kF*t))))

/-- vanillaoptions.py:735 `call`. -/
noncomputable def call : Meth := ⟨[], Pt*(FT*exp (-vxz)*cnd d1-K*cnd d2)⟩
/-- vanillaoptions.py:761 `put`. -/
noncomputable def put : Meth := ⟨[], Pt*(K*cnd (-d2)-FT*exp (-vxz)*cnd (-d1))⟩
end MSClass

open MSClass in
/-- vanillaoptions.py:598-782 `MiltersenSchwartzOption`. -/
noncomputable def msCls : Cls where
  pyName := "MiltersenSchwartzOption"
  name := "MiltersenSchwartzOption"
  sig := [req "Pt", req "FT", req "K", req "t", req "T", req "sigmaS", req "sigmaE", req "sigmaF",
    req "rhoSE", req "rhoSF", req "rhoEF", req "KappaE", req "KappaF"]
  body := assignParams [("_Pt", "Pt"), ("_FT", "FT"), ("_K", "K"), ("_t", "t"), ("_T", "T"),
      ("_sigmaS", "sigmaS"), ("_sigmaE", "sigmaE"), ("_sigmaF", "sigmaF"), ("_rhoSE", "rhoSE"),
      ("_rhoSF", "rhoSF"), ("_rhoEF", "rhoEF"), ("_KappaE", "KappaE"), ("_KappaF", "KappaF")]
    ++ [.assign "_vz" vzExpr, .assign "_vxz" vxzExpr, .assign "_vz" (sqrt vz),
        .assign "_d1" ((log (FT ⊘ K) - vxz + sq vz / 2) / vz),
        .assign "_d2" ((log (FT ⊘ K) - vxz - sq vz / 2) / vz)]
  fields := [("Pt", "_Pt"), ("FT", "_FT"), ("K", "_K"), ("t", "_t"), ("T", "_T"),
    ("sigmaS", "_sigmaS"), ("sigmaE", "_sigmaE"), ("sigmaF", "_sigmaF"), ("rhoSE", "_rhoSE"),
    ("rhoSF", "_rhoSF"), ("rhoEF", "_rhoEF"), ("KappaE", "_KappaE"), ("KappaF", "_KappaF")]
  drop := []

namespace KirkClass
/-- The parameter `S1` etc. (the constructor uses its parameters, not the attributes). -/
abbrev a (x : String) : Expr := .arg x
/-- `self.x`. -/
abbrev s (x : String) : Expr := .attr x

/-- spreadapprox.py:111 the local `F`. -/
noncomputable def F : Expr :=
  (a "Q2" * a "S2" * s "_e2") / (a "Q2" * a "S2" * s "_e2" + a "K" * exp (-(a "r") * a "t"))

/-- spreadapprox.py:106-121. -/
noncomputable def initD : List Stmt :=
  [.assign "_e1" (exp ((a "b1" - a "r") * a "t")),
   .assign "_e2" (exp ((a "b2" - a "r") * a "t")),
   .assign "_S" ((a "Q1" * a "S1" * s "_e1")
      / (a "Q2" * a "S2" * s "_e2" + a "K" * exp (-(a "r") * a "t"))),
   .assign "_sigma" (sqrt (sq (a "sigma1") + sq (a "sigma2" * F)
      - 2 * a "rho" * a "sigma1" * a "sigma2" * F)),
   .assign "_d1" ((log (s "_S") + .lit 0.5 * sq (s "_sigma") * a "t") / (s "_sigma" * sqrt (a "t"))),
   .assign "_d2" (s "_d1" - s "_sigma" * sqrt (a "t"))]

/-- spreadapprox.py:144-146 `call`. -/
noncomputable def call : Meth := ⟨[],
  (s "_Q2" * s "_S2" * s "_e2" + s "_K" * exp (-(s "_r") * s "_t"))
    * (s "_S" * cnd (s "_d1") - cnd (s "_d2"))⟩
/-- spreadapprox.py:169-171 `put`. -/
noncomputable def put : Meth := ⟨[],
  (s "_Q2" * s "_S2" * s "_e2" + s "_K" * exp (-(s "_r") * s "_t"))
    * (-(s "_S") * cnd (-(s "_d1")) + cnd (-(s "_d2")))⟩
end KirkClass

/-- spreadapprox.py:78-123, 250-264 `SpreadApproxOption`. -/
noncomputable def kirkCls : Cls where
  pyName := "SpreadApproxOption"
  name := "SpreadApproxOption"
  sig := [req "S1", req "S2", req "K", req "t", req "r", req "b1", req "b2", req "sigma1",
    req "sigma2", req "rho", dflt "Q1" (.num 1), dflt "Q2" (.num 1)]
  body := assignParams [("_S1", "S1"), ("_S2", "S2"), ("_Q1", "Q1"), ("_Q2", "Q2"), ("_K", "K"),
      ("_t", "t"), ("_r", "r"), ("_b1", "b1"), ("_b2", "b2"), ("_sigma1", "sigma1"),
      ("_sigma2", "sigma2"), ("_rho", "rho")] ++ KirkClass.initD
  fields := [("S1", "_S1"), ("S2", "_S2"), ("K", "_K"), ("t", "_t"), ("r", "_r"), ("b1", "_b1"),
    ("b2", "_b2"), ("sigma1", "_sigma1"), ("sigma2", "_sigma2"), ("rho", "_rho"), ("Q1", "_Q1"),
    ("Q2", "_Q2")]
  drop := []

/-- binomial_tree_options/__init__.py:149-181 `CRRBinomialTreeOption`. -/
def crrCls : Cls where
  pyName := "CRRBinomialTreeOption"
  name := "CRRBinomialTreeOption"
  sig := [req "S", req "K", req "t", req "r", req "b", req "sigma", dflt "type" (.str "european"),
    dflt "n" (.num 5)]
  body := assignParams [("_S", "S"), ("_K", "K"), ("_t", "t"), ("_r", "r"), ("_b", "b"),
    ("_sigma", "sigma"), ("_n", "n"), ("_type", "type")]
  fields := [("S", "_S"), ("K", "_K"), ("t", "_t"), ("r", "_r"), ("b", "_b"), ("sigma", "_sigma"),
    ("type", "_type"), ("n", "_n")]
  drop := []

/-- binomial_tree_options/__init__.py:394, 438 `JRBinomialTreeOption(CRRBinomialTreeOption)`. -/
def jrCls : Cls :=
  { crrCls with pyName := "JRBinomialTreeOption", name := "JRBinomialTreeOption" }
/-- binomial_tree_options/__init__.py:464 `TIANBinomialTreeOption(CRRBinomialTreeOption)`; it does not
override `__name__`. -/
def tianCls : Cls := { crrCls with pyName := "TIANBinomialTreeOption" }
/-- binomial_tree_options/__init__.py:532, 578 `TrinomialTreeOption(CRRBinomialTreeOption)`. -/
def trinomialCls : Cls :=
  { crrCls with pyName := "TrinomialTreeOption", name := "TrinomialTreeOption" }

namespace Tree3dClass
/-- `self.x`. -/
abbrev s (x : String) : Expr := .attr x
/-- bitree3d.py:153-158. -/
noncomputable def initD : List Stmt :=
  [.assign "_dt" (s "_t" ⊘ s "_n"),
   .assign "_mu1" (s "_b1" - .lit 0.5 * s "_sigma1" * s "_sigma1"),
   .assign "_mu2" (s "_b2" - .lit 0.5 * s "_sigma2" * s "_sigma2"),
   .assign "_u" (exp (s "_mu1" * s "_dt" + s "_sigma1" * sqrt (s "_dt"))),
   .assign "_d" (exp (s "_mu1" * s "_dt" - s "_sigma1" * sqrt (s "_dt")))]
end Tree3dClass

/-- bitree3d.py:113-160, 359-377 `BionomialSpreadAllTypes`. -/
noncomputable def allTypesCls : Cls where
  pyName := "BionomialSpreadAllTypes"
  name := "BionomialSpreadOption"
  sig := [req "S1", req "S2", req "t", req "r", req "b1", req "b2", req "sigma1", req "sigma2",
    req "rho", dflt "K" .none, dflt "K2" .none, dflt "Q1" (.num 1), dflt "Q2" (.num 1),
    dflt "option" (.num 1), dflt "otype" (.str "european"), dflt "n" (.num 5)]
  body := assignParams [("_S1", "S1"), ("_S2", "S2"), ("_Q1", "Q1"), ("_Q2", "Q2"), ("_K", "K"),
      ("_K2", "K2"), ("_t", "t"), ("_r", "r"), ("_b1", "b1"), ("_b2", "b2"), ("_sigma1", "sigma1"),
      ("_sigma2", "sigma2"), ("_rho", "rho"), ("_option", "option"), ("_n", "n"),
      ("_otype", "otype")] ++ Tree3dClass.initD
  fields := [("S1", "_S1"), ("S2", "_S2"), ("K", "_K"), ("K2", "_K2"), ("t", "_t"), ("r", "_r"),
    ("b1", "_b1"), ("b2", "_b2"), ("sigma1", "_sigma1"), ("sigma2", "_sigma2"), ("rho", "_rho"),
    ("Q1", "_Q1"), ("Q2", "_Q2"), ("option", "_option"), ("otype", "_otype"), ("n", "_n")]
  drop := []

/-- bitree3d.py:484-545, 618-679, 751-812: the constructors of `BionomialMaxOption` (payoff code 2),
`BionomialMinOption` (code 3) and `BionomialSpreadOption` (code 1), identical up to the code. -/
noncomputable def tree3dSub (pyName name : String) (code : ℝ) : Cls where
  pyName := pyName
  name := name
  sig := [req "S1", req "S2", req "K", req "t", req "r", req "b1", req "b2", req "sigma1",
    req "sigma2", req "rho", dflt "Q1" (.num 1), dflt "Q2" (.num 1), dflt "otype" (.str "european"),
    dflt "n" (.num 5)]
  body := assignParams [("_S1", "S1"), ("_S2", "S2"), ("_Q1", "Q1"), ("_Q2", "Q2"), ("_K", "K")]
    ++ [.assign "_K2" .noneLit] ++ assignParams
      [("_t", "t"), ("_r", "r"), ("_b1", "b1"), ("_b2", "b2"), ("_sigma1", "sigma1"),
      ("_sigma2", "sigma2"), ("_rho", "rho")] ++ [.assign "_option" (.lit code)]
    ++ assignParams [("_n", "n"), ("_otype", "otype")] ++ Tree3dClass.initD
  fields := [("S1", "_S1"), ("S2", "_S2"), ("K", "_K"), ("t", "_t"), ("r", "_r"),
    ("b1", "_b1"), ("b2", "_b2"), ("sigma1", "_sigma1"), ("sigma2", "_sigma2"), ("rho", "_rho"),
    ("Q1", "_Q1"), ("Q2", "_Q2"), ("otype", "_otype"), ("n", "_n")]
  drop := []

/-- bitree3d.py:413-545 `BionomialMaxOption`. -/
noncomputable def maxCls : Cls := tree3dSub "BionomialMaxOption" "BionomialMaxOption" 2
/-- bitree3d.py:547-679 `BionomialMinOption`. -/
noncomputable def minCls : Cls := tree3dSub "BionomialMinOption" "BionomialMinOption" 3
/-- bitree3d.py:681-812 `BionomialSpreadOption`, whose `__name__` (line 748) is that of another class. -/
noncomputable def spreadCls : Cls := tree3dSub "BionomialSpreadOption" "BionomialMinOption" 1

/-- basic_american_options/__init__.py:64-88, 178-187 `RollGeskeWhaleyOption`. -/
def rgwCls : Cls where
  pyName := "RollGeskeWhaleyOption"
  name := "RollGeskeWhaleyOption"
  sig := [req "S", req "K", req "t", req "td", req "r", req "D", dflt "sigma" .none]
  body := .noArrays ["S", "K", "t", "td", "r", "D", "sigma"] :: (assignParams [("_S", "S"),
    ("_K", "K"), ("_t", "t"), ("_td", "td"), ("_r", "r"), ("_D", "D"), ("_sigma", "sigma")]
    ++ [.assign "_big" (.lit 100000000), .assign "_eps" (.lit 1.0e-5)])
  fields := [("S", "_S"), ("K", "_K"), ("t", "_t"), ("td", "_td"), ("r", "_r"), ("D", "_D"),
    ("sigma", "_sigma")]
  drop := []

/-- basic_american_options/__init__.py:389-401 `BAWAmericanApproxOption`. -/
def bawCls : Cls where
  pyName := "BAWAmericanApproxOption"
  name := "BAWAmericanApproxOption"
  sig := [req "S", req "K", req "t", req "r", req "b", dflt "sigma" .none]
  body := .noArrays ["S", "K", "t", "r", "b", "sigma"] :: optionInit
  fields := optionFields
  drop := []

/-- basic_american_options/__init__.py:697-711 `BSAmericanApproxOption`. -/
def bsAmericanCls : Cls :=
  { bawCls with pyName := "BSAmericanApproxOption", name := "BSAmericanApproxOption" }

/-- All classes of the library that inherit `Option.set_param`. -/
noncomputable def classes : List Cls :=
  [gbsCls, bsCls, black76Cls, msCls, kirkCls, crrCls, jrCls, tianCls, trinomialCls, allTypesCls,
   maxCls, minCls, spreadCls, rgwCls, bawCls, bsAmericanCls]

end Verif
