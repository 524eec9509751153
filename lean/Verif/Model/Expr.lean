import Mathlib.Data.Real.Basic
import Mathlib.Analysis.Real.Sqrt
import Mathlib.Analysis.SpecialFunctions.Log.Basic
import Verif.Model.Py
import Verif.Model.Normal

/-!
Python values, instance attributes and the arithmetic expressions of the option classes.

The bodies of the constructors and pricing methods of the closed-form classes are straight-line
arithmetic over `self._x` attributes.  They are represented as syntax trees (`Expr`, `Stmt`), so that
the evaluation rules of Python/numpy (missing attributes, `None` operands, broadcasting, division by
zero) are stated once, in `Expr.eval` and `exec`, and the source text of every class is data
(`Model/Classes.lean`).
-/
namespace Verif
open Real

/-- The Python values that can be stored in an option: `None`, a Python number, a string, or a
one-dimensional float `ndarray`. Python ints and floats are not distinguished. -/
inductive Val where
  | none
  | num (x : ℝ)
  | str (s : String)
  | arr (xs : List ℝ)

/-- Attribute store of an instance (`o.__dict__`), also used for the bound arguments of a call. -/
abbrev Attrs := String → Option Val

/-- `o.x = v`. -/
def Attrs.set (a : Attrs) (x : String) (v : Val) : Attrs := Function.update a x (some v)

/-- A fresh object has no attribute. -/
def Attrs.empty : Attrs := fun _ => Option.none

/-- Arithmetic expressions over arguments (`x`) and attributes (`self._x`). -/
inductive Expr where
  /-- a local parameter of the method -/
  | arg (x : String)
  /-- `self.x` -/
  | attr (x : String)
  /-- a literal -/
  | lit (x : ℝ)
  /-- the literal `None` -/
  | noneLit
  /-- an elementwise function (`np.exp`, unary minus, `self._CND`, …) -/
  | un (f : ℝ → ℝ) (e : Expr)
  /-- an elementwise binary operation that does not raise on numbers -/
  | bin (f : ℝ → ℝ → ℝ) (e₁ e₂ : Expr)
  /-- `e₁ / e₂` where both operands may be Python numbers: raises `ZeroDivisionError` on `x / 0` -/
  | pdiv (e₁ e₂ : Expr)
  /-- `e₁ if c != 0 else e₂` (an array condition with more than one element raises `ValueError`) -/
  | ite (c e₁ e₂ : Expr)

namespace Expr
instance : Add Expr := ⟨bin (· + ·)⟩
instance : Sub Expr := ⟨bin (· - ·)⟩
instance : Mul Expr := ⟨bin (· * ·)⟩
/-- numpy division: at least one operand is a numpy scalar or array (or the divisor is a nonzero
literal), so that division by zero does not raise. -/
noncomputable instance : Div Expr := ⟨bin (· / ·)⟩
instance : Neg Expr := ⟨un (- ·)⟩
instance (n : ℕ) [OfNat ℝ n] : OfNat Expr n := ⟨lit (OfNat.ofNat n)⟩
/-- `np.exp`. -/
noncomputable def exp (e : Expr) : Expr := un Real.exp e
/-- `np.log`. -/
noncomputable def log (e : Expr) : Expr := un Real.log e
/-- `np.sqrt`. -/
noncomputable def sqrt (e : Expr) : Expr := un Real.sqrt e
/-- `e ** 2`. -/
noncomputable def sq (e : Expr) : Expr := un (fun x => x ^ 2) e
/-- `self._CND(e)`. -/
noncomputable def cnd (e : Expr) : Expr := un CND e
/-- `self._NDF(e)`. -/
noncomputable def ndf (e : Expr) : Expr := un NDF e
/-- `a ⊘ b`: Python division of possibly plain numbers. -/
scoped infixl:70 " ⊘ " => Expr.pdiv

/-- Attributes an expression reads. -/
def reads : Expr → List String
  | arg _ => []
  | attr x => [x]
  | lit _ => []
  | noneLit => []
  | un _ e => e.reads
  | bin _ e₁ e₂ => e₁.reads ++ e₂.reads
  | pdiv e₁ e₂ => e₁.reads ++ e₂.reads
  | ite c e₁ e₂ => c.reads ++ (e₁.reads ++ e₂.reads)
end Expr

/-- An elementwise function applied to a value; `None` and strings raise `TypeError`. -/
def Val.map (f : ℝ → ℝ) : Val → Except PyErr Val
  | .num x => .ok (.num (f x))
  | .arr xs => .ok (.arr (xs.map f))
  | .none => .error .typeError
  | .str _ => .error .typeError

/-- numpy broadcasting of two one-dimensional arrays: equal lengths, or one of length one. -/
def broadcast (f : ℝ → ℝ → ℝ) (xs ys : List ℝ) : Except PyErr Val :=
  if xs.length = ys.length then .ok (.arr (List.zipWith f xs ys))
  else match xs, ys with
    | [x], ys => .ok (.arr (ys.map (f x)))
    | xs, [y] => .ok (.arr (xs.map (f · y)))
    | _, _ => .error .valueError

/-- An elementwise binary operation with broadcasting. -/
def Val.map₂ (f : ℝ → ℝ → ℝ) : Val → Val → Except PyErr Val
  | .num x, .num y => .ok (.num (f x y))
  | .num x, .arr ys => .ok (.arr (ys.map (f x)))
  | .arr xs, .num y => .ok (.arr (xs.map (f · y)))
  | .arr xs, .arr ys => broadcast f xs ys
  | _, _ => .error .typeError

open Classical in
/-- Python's `/` on plain numbers raises on a zero divisor; as soon as an array is involved it is
numpy's. -/
noncomputable def Val.pdiv : Val → Val → Except PyErr Val
  | .num x, .num y => if y = 0 then .error .zeroDivision else .ok (.num (x / y))
  | v, w => Val.map₂ (· / ·) v w

open Classical in
/-- Truth of `v != 0`: arrays with other than one element raise `ValueError`
(the truth value of an array with more than one element is ambiguous). -/
noncomputable def Val.nonzero : Val → Except PyErr Bool
  | .num x => .ok (decide (x ≠ 0))
  | .arr [x] => .ok (decide (x ≠ 0))
  | .arr _ => .error .valueError
  | .none => .ok true
  | .str _ => .ok true

/-- Evaluation, left to right. -/
noncomputable def Expr.eval (args a : Attrs) : Expr → Except PyErr Val
  | .arg x => match args x with | some v => .ok v | .none => .error .unboundLocal
  | .attr x => match a x with | some v => .ok v | .none => .error .attributeError
  | .lit x => .ok (.num x)
  | .noneLit => .ok .none
  | .un f e => do (← e.eval args a).map f
  | .bin f e₁ e₂ => do
      let v ← e₁.eval args a
      let w ← e₂.eval args a
      Val.map₂ f v w
  | .pdiv e₁ e₂ => do
      let v ← e₁.eval args a
      let w ← e₂.eval args a
      Val.pdiv v w
  | .ite c e₁ e₂ => do
      if ← (← c.eval args a).nonzero then e₁.eval args a else e₂.eval args a

/-- Statements of constructor bodies. -/
inductive Stmt where
  /-- `self.x = e` -/
  | assign (x : String) (e : Expr)
  /-- `if p is not None: self.x = e` for a parameter `p` of the constructor -/
  | assignIf (p x : String) (e : Expr)
  /-- `if self._check_array(*ps) == True: raise TypeError` (base.py:479-488: an ndarray of size > 1) -/
  | noArrays (ps : List String)

/-- base.py:479-488 `_check_array` on one argument. -/
def Val.isBigArray : Val → Bool
  | .arr xs => decide (1 < xs.length)
  | _ => false

/-- Whether a bound argument (or attribute) is `None`. -/
def isNoneArg (args : Attrs) (p : String) : Bool :=
  match args p with
  | some .none => true
  | _ => false

/-- Run a constructor body on an object; if a statement raises, the assignments made before remain
(Python does not roll back). -/
noncomputable def exec (args : Attrs) : List Stmt → Attrs → Attrs × Option PyErr
  | [], a => (a, Option.none)
  | .assign x e :: l, a =>
    match e.eval args a with
    | .ok v => exec args l (a.set x v)
    | .error err => (a, some err)
  | .assignIf p x e :: l, a =>
    if isNoneArg args p then exec args l a
    else match e.eval args a with
      | .ok v => exec args l (a.set x v)
      | .error err => (a, some err)
  | .noArrays ps :: l, a =>
    if ps.any (fun p => match args p with | some v => v.isBigArray | .none => false) then
      (a, some .typeError)
    else exec args l a

/-! ### Keyword arguments and dictionaries -/

/-- A Python dictionary in insertion order. -/
abbrev Dict := List (String × Val)

/-- `d[x] = v`: overwrite in place, or append. -/
def Dict.insert (d : Dict) (x : String) (v : Val) : Dict :=
  if d.any (fun kv => kv.1 == x) then d.map (fun kv => if kv.1 == x then (x, v) else kv)
  else d ++ [(x, v)]

/-- `del d[x]`. -/
def Dict.del (d : Dict) (x : String) : Dict := d.filter (fun kv => kv.1 != x)

/-- An option class: its Python name, its `__name__` attribute, the constructor signature (names in
order, with defaults), the body of `__init__`, the dictionary built by `get_params` (keys with the
attribute read), and the keys `set_param` deletes before calling `__init__`. -/
structure Cls where
  pyName : String
  name : String
  sig : List (String × Option Val)
  body : List Stmt
  fields : List (String × String)
  drop : List String

/-- Binding keyword arguments to the signature: an unexpected or missing keyword raises `TypeError`
before the body runs. -/
def bindArgs (sig : List (String × Option Val)) (kw : Dict) : Except PyErr Attrs :=
  if kw.any (fun kv => !(sig.map (·.1)).contains kv.1) then .error .typeError
  else if sig.any (fun p => (kw.lookup p.1).isNone && p.2.isNone) then .error .typeError
  else .ok (fun s => match sig.lookup s with
    | Option.none => Option.none
    | some d => (kw.lookup s).orElse (fun _ => d))

/-- `__init__(**kw)` on an existing object. -/
noncomputable def Cls.init (c : Cls) (kw : Dict) (a : Attrs) : Attrs × Option PyErr :=
  match bindArgs c.sig kw with
  | .error e => (a, some e)
  | .ok args => exec args c.body a

/-- `cls(**kw)`: `__init__` on a blank object. -/
noncomputable def Cls.construct (c : Cls) (kw : Dict) : Attrs × Option PyErr := c.init kw Attrs.empty

/-- `get_params()`. -/
def Cls.getParams (c : Cls) (a : Attrs) : Except PyErr Dict :=
  c.fields.mapM (fun f => match a f.2 with
    | some v => .ok (f.1, v)
    | Option.none => .error .attributeError)

/-- base.py:373-392 `Option.set_param` (and vanillaoptions.py:574-595 for `Black76Option`, which
deletes `b`): `tmp = self.get_params(); tmp[x] = value; [del tmp["b"];] self.__init__(**tmp)`.
Returns the object state and the exception raised, if any. -/
noncomputable def Cls.setParam (c : Cls) (x : String) (v : Val) (a : Attrs) : Attrs × Option PyErr :=
  match c.getParams a with
  | .error e => (a, some e)
  | .ok tmp => c.init (c.drop.foldl Dict.del (Dict.insert tmp x v)) a

/-- base.py:454-465 `__repr__`, as the class name printed and the values printed in order
(the rendering of one value by `str` is not modelled). -/
def Cls.repr (c : Cls) (a : Attrs) : Except PyErr (String × List Val) := do
  return (c.name, (← c.getParams a).map (·.2))

/-- A method whose body first refuses some attributes being `None` (`_check_sigma`, ValueError) and
then evaluates an expression. -/
structure Meth where
  needs : List String
  body : Expr

/-- Run a method. -/
noncomputable def Meth.run (m : Meth) (a : Attrs) : Except PyErr Val :=
  if m.needs.any (isNoneArg a) then
    .error .valueError
  else m.body.eval Attrs.empty a

end Verif
