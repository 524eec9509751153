import Verif.Model.Classes

/-!
`summary`, `__str__` and the shortening of arrays: the text is a list of pieces, literal strings and displayed values.
How one value is turned into characters (`str`, `np.array2string`) and how numbers are rounded (`round`, `ndarray.round`)
are parameters, respectively left abstract.
-/
namespace Verif.Summary
open Verif Expr

/-- A displayed value: as it is, or an array shortened by `np.array2string(_, threshold=6)`. -/
inductive Shown where
  | exact (v : Val)
  | elided (xs : List ℝ)

/-- A piece of text. -/
inductive Piece where
  | txt (s : String)
  | val (v : Shown)

abbrev Text := List Piece

variable (rnd : ℕ → ℝ → ℝ)

/-- base.py:467-477 `_check_string`: arrays with more than six entries are rounded to two decimals and shortened. -/
def checkString : Val → Shown
  | .arr xs => if xs.length > 6 then .elided (xs.map (rnd 2)) else .exact (.arr xs)
  | v => .exact v

/-- base.py:427 the heading. -/
def heading (title : String) : Text := [.txt ("Title: " ++ title ++ " Valuation\n\nParameters:\n\n")]

/-- base.py:431-432, one line per entry of `get_params()`; `shown` is `_check_string` or (RGW, BS93) nothing. -/
def paramLines (shown : Val → Shown) (d : Dict) : Text :=
  d.flatMap fun p => [.txt ("  " ++ p.1 ++ " = "), .val (shown p.2), .txt "\n"]

/-- Built-in `round(x, k)`; arrays and `None` do not support it. -/
def pyRound (k : ℕ) : Val → Except PyErr Val
  | .num x => .ok (.num (rnd k x))
  | _ => .error .typeError

/-- `x.round(2)`. -/
def npRound : Val → Except PyErr Val
  | .num x => .ok (.num (rnd 2 x))
  | .arr xs => .ok (.arr (xs.map (rnd 2)))
  | _ => .error .attributeError

def Val.isArray : Val → Bool
  | .arr _ => true
  | _ => false

/-- base.py:436-441 (and binomial_tree_options/__init__.py:259-264, bitree3d.py:397-402, where `-{type}` follows the
words call and put): the section with the prices. -/
def priceSection (suffix : String) (call put : Except PyErr Val) : Except PyErr Text := do
  if Val.isArray (← call) then
    let c ← npRound rnd (← call)
    let p ← npRound rnd (← put)
    return [.txt ("\nOption Price:\n\n  call" ++ suffix ++ ": "), .val (checkString rnd c),
      .txt ("\n  put" ++ suffix ++ ": "), .val (checkString rnd p)]
  else
    let c ← pyRound rnd 6 (← call)
    let p ← pyRound rnd 6 (← put)
    return [.txt ("\nOption Price:\n\n  call" ++ suffix ++ ": "), .val (.exact c),
      .txt ("\n  put" ++ suffix ++ ": "), .val (.exact p)]

/-- `try: out += price; except: pass`. -/
def orNothing : Except PyErr Text → Text
  | .ok t => t
  | .error _ => []

/-- What a call of `summary` does: the texts printed and the value returned. -/
structure Outcome where
  printed : List Text
  returned : Option Text

/-- base.py:446-449 `if printer == True: print(out) else: return out`. -/
def deliver (printer : Bool) (out : Text) : Outcome :=
  if printer then ⟨[out], none⟩ else ⟨[], some out⟩

/-- base.py:418-449 `Option.summary`; trees and 3D trees (binomial_tree_options/__init__.py:241-272, bitree3d.py:379-410)
with their suffix. -/
def summary (title suffix : String) (params : Except PyErr Dict) (call put : Except PyErr Val) (printer : Bool) :
    Except PyErr Outcome := do
  let d ← params
  return deliver printer (heading title ++ paramLines (checkString rnd) d
    ++ orNothing (priceSection rnd suffix call put))

/-- base.py:451-452 `__str__`. -/
def str (title suffix : String) (params : Except PyErr Dict) (call put : Except PyErr Val) :
    Except PyErr (Option Text) := do
  return (← summary rnd title suffix params call put false).returned

/-- basic_american_options/__init__.py:878-904 `BSAmericanApproxOption.summary`: `call` and `put` return a price and a
trigger. -/
def summaryBS93 (title : String) (params : Except PyErr Dict) (call put : Except PyErr (Val × Val)) (printer : Bool) :
    Except PyErr Outcome := do
  let d ← params
  let price : Except PyErr Text := do
    let c ← pyRound rnd 6 (← call).1
    let ct ← pyRound rnd 6 (← call).2
    let p ← pyRound rnd 6 (← put).1
    let pt ← pyRound rnd 6 (← put).2
    return [.txt "\nOption Price:\n\n  call: ", .val (.exact c), .txt ", trigger: ", .val (.exact ct),
      .txt "\n  put: ", .val (.exact p), .txt ", trigger: ", .val (.exact pt)]
  return deliver printer (heading title ++ paramLines .exact d ++ orNothing price)

/-- The boolean of a comparison of scalars (arrays of size one included). -/
def toScalar : Val → Except PyErr ℝ
  | .num x => .ok x
  | .arr [x] => .ok x
  | .arr _ => .error .valueError
  | _ => .error .typeError

open Classical in
/-- basic_american_options/__init__.py:91-103 `is_call_optimal` on the object. -/
noncomputable def rgwOptimal (a : Attrs) : Except PyErr Bool := do
  let D ← Expr.eval Attrs.empty a (.attr "_D")
  let rhs ← Expr.eval Attrs.empty a
    (.attr "_K" * (1 - Expr.exp (-(.attr "_r") * (.attr "_t" - .attr "_td"))))
  let x ← toScalar D
  let y ← toScalar rhs
  return !(decide (x ≤ y))

/-- basic_american_options/__init__.py:189-217 `RollGeskeWhaleyOption.summary`; the last line is outside the `try`. -/
def summaryRGW (title : String) (params : Except PyErr Dict) (call : Except PyErr Val) (optimal : Except PyErr Bool)
    (printer : Bool) : Except PyErr Outcome := do
  let d ← params
  let price : Except PyErr Text := do
    let c ← pyRound rnd 6 (← call)
    return [.txt "\nOption Price:\n\n  call: ", .val (.exact c), .txt "\n"]
  let opt ← optimal
  return deliver printer (heading title ++ paramLines .exact d ++ orNothing price
    ++ [.txt ("  Optimal to Exercise Call Option: " ++ if opt then "True" else "False")])

/-- base.py:454-465 `__repr__` with the shortening of arrays. -/
def repr (c : Cls) (a : Attrs) : Except PyErr (String × List Shown) := do
  return (c.name, (← c.getParams a).map fun kv => checkString rnd kv.2)

/-- The `__title__` a class shows (its own or inherited): vanillaoptions.py:58, 532, 558, 645, spreadapprox.py:76,
binomial_tree_options/__init__.py:147, 439, 579 (TIAN inherits CRR's), bitree3d.py:114, 482, 616, 749,
basic_american_options/__init__.py:62, 390, 698. -/
def titles : List (String × String) :=
  [("GBSOption", "Black Scholes Option"), ("BlackScholesOption", "Black Scholes Option"),
   ("Black76Option", "Black 1977 Option"), ("MiltersenSchwartzOption", "Miltersen Schwartz Option"),
   ("SpreadApproxOption", "Spread-Option Approximation Model"),
   ("CRRBinomialTreeOption", "CRR Binomial Tree Model"), ("JRBinomialTreeOption", "JR Binomial Tree Model"),
   ("TIANBinomialTreeOption", "CRR Binomial Tree Model"), ("TrinomialTreeOption", "Trinomial Tree Model"),
   ("BionomialSpreadAllTypes", "Rubinstein Binomial Tree Spread Option Model"),
   ("BionomialMaxOption", "Binomial Tree Maximum Spread Option Model"),
   ("BionomialMinOption", "Binomial Tree Minimum Spread Option Model"),
   ("BionomialSpreadOption", "Binomial Tree Spread Option Model"),
   ("RollGeskeWhaleyOption", "Roll-Geske-Whaley Calls on Dividend Paying Stocks"),
   ("BAWAmericanApproxOption", "Barone-Adesi and Whaley Approximation"),
   ("BSAmericanApproxOption", "The Bjerksund and Stensland (1993) American Approximation Option")]

end Verif.Summary
