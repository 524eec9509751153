import Verif.Model.Tree

/-! The tree pricers over an arbitrary arithmetic.

Same functions as in `Model/Tree`, but every arithmetic operation of the code is an operation of a
record `Arith` (to be instantiated with exact or with rounded arithmetic). `abs`, `max`, unary minus
and comparison are exact on floats and are taken over from the reals; overflow and underflow are not
modelled. -/
namespace Verif

/-- The arithmetic used by the tree code: the operators and the numpy functions it calls. -/
structure Arith where
  add : ℝ → ℝ → ℝ
  sub : ℝ → ℝ → ℝ
  mul : ℝ → ℝ → ℝ
  div : ℝ → ℝ → ℝ
  pow : ℝ → ℕ → ℝ
  sqrt : ℝ → ℝ
  exp : ℝ → ℝ

/-- Exact arithmetic. -/
noncomputable def Arith.exact : Arith :=
  ⟨(· + ·), (· - ·), (· * ·), (· / ·), (· ^ ·), Real.sqrt, Real.exp⟩

namespace TreeFl
open Py _root_.Verif.Tree

variable (A : Arith)

/-- `__init__.py:310-311, 343, 448-451, 516-519`: `z * (S * u**i * d**j - K)`. -/
def exercise (S K u d z : ℝ) (i j : ℕ) : ℝ :=
  A.mul z (A.sub (A.mul (A.mul S (A.pow u i)) (A.pow d j)) K)

/-- `__init__.py:310-311`: the terminal values, `(abs(x) + x) / 2`. -/
def terminal (S K u d z : ℝ) (n : ℕ) : List ℝ :=
  (List.range (n + 1)).map fun i =>
    A.div (A.add |exercise A S K u d z i (n - i)| (exercise A S K u d z i (n - i))) 2

/-- `__init__.py:328, 345`: `(p*OptionValue[i+1] + (1-p)*OptionValue[i]) * Df`. -/
def cont (Df p hi lo : ℝ) : ℝ := A.mul (A.add (A.mul p hi) (A.mul (A.sub 1 p) lo)) Df

/-- `__init__.py:323-335` `_euro`; the list `tr` is not kept. -/
def euro (ov : List ℝ) (n : ℕ) (Df p : ℝ) : Except PyErr (List ℝ) :=
  (List.range n).reverse.foldlM (init := ov) fun ov j =>
    (List.range (j + 1)).foldlM (init := ov) fun ov i => do
      let hi ← getI ov (i + 1)
      let lo ← getI ov i
      setI ov i (cont A Df p hi lo)

/-- `__init__.py:337-351` `_amer`; the list `tr` is not kept. -/
noncomputable def amer (ov : List ℝ) (n : ℕ) (Df p K d S u z : ℝ) : Except PyErr (List ℝ) :=
  (List.range n).reverse.foldlM (init := ov) fun ov j =>
    (List.range (j + 1)).foldlM (init := ov) fun ov i => do
      let hi ← getI ov (i + 1)
      let lo ← getI ov i
      setI ov i (max (exercise A S K u d z i (absDiff i j)) (cont A Df p hi lo))

/-- `__init__.py:313-316`: dispatch on the exercise type. -/
noncomputable def roll (S K u d p Df z : ℝ) (n : ℕ) (type : String) : Except PyErr (List ℝ) :=
  let ov := terminal A S K u d z n
  if type = "european" then euro A ov n Df p
  else if type = "american" then amer A ov n Df p K d S u z
  else .error .unboundLocal

/-- `__init__.py:310-319` once `u, d, p, Df` are known. -/
noncomputable def calcPrice (S K u d p Df z : ℝ) (n : ℕ) (type : String) : Except PyErr ℝ := do
  let out ← roll A S K u d p Df z n type
  getI out 0

/-- `__init__.py:608-618`. -/
noncomputable def terminal3 (S K u d z : ℝ) (n : ℕ) : List ℝ :=
  (List.range (2 * n + 1)).map fun i => max 0 (exercise A S K u d z (i - n) (2 * n - n - i))

/-- `__init__.py:641, 648`: `(pu*OptionValue[i+2] + pm*OptionValue[i+1] + pd*OptionValue[i]) * Df`. -/
def cont3 (Df pu pd pm h2 h1 h0 : ℝ) : ℝ :=
  A.mul (A.add (A.add (A.mul pu h2) (A.mul pm h1)) (A.mul pd h0)) Df

/-- `__init__.py:639-652`: the new value of entry `i` at step `j`; an unknown type leaves the entry. -/
noncomputable def cell3 (S K u d pu pd pm Df z : ℝ) (type : String) (j i : ℕ) (ov : List ℝ) :
    Except PyErr ℝ :=
  if type = "european" then do
    let h2 ← getI ov (i + 2)
    let h1 ← getI ov (i + 1)
    let h0 ← getI ov i
    return cont3 A Df pu pd pm h2 h1 h0
  else if type = "american" then do
    let h2 ← getI ov (i + 2)
    let h1 ← getI ov (i + 1)
    let h0 ← getI ov i
    return max (exercise A S K u d z (i - j) (j - i)) (cont3 A Df pu pd pm h2 h1 h0)
  else getI ov i

/-- `__init__.py:620-631`: the rollback loop; the list `tr` is not kept. -/
noncomputable def roll3 (S K u d pu pd pm Df z : ℝ) (n : ℕ) (type : String) : Except PyErr (List ℝ) :=
  (List.range n).reverse.foldlM (init := terminal3 A S K u d z n) fun ov j =>
    (List.range (j * 2 + 1)).foldlM (init := ov) fun ov i => do
      let v ← cell3 A S K u d pu pd pm Df z type j i ov
      setI ov i v

/-- `__init__.py:581-637` with `tree=False`, once the factors are known. -/
noncomputable def calcPrice3 (S K u d pu pd pm Df z : ℝ) (n : ℕ) (type : String) : Except PyErr ℝ := do
  let out ← roll3 A S K u d pu pd pm Df z n type
  getI out 0

/-- The factors of the three binomial classes (CRR: `__init__.py:304-308`; JR: 442-446; TIAN: 508-514).
`1 / 2` in JR is a constant that floats represent exactly. -/
noncomputable def factors (c : Cls) (o : Opt) : Factors :=
  let dt := A.div o.t o.n
  match c with
  | .crr =>
    let u := A.exp (A.mul o.sigma (A.sqrt dt))
    let d := A.div 1 u
    ⟨u, d, A.div (A.sub (A.exp (A.mul o.b dt)) d) (A.sub u d), A.exp (A.mul (-o.r) dt)⟩
  | .jr =>
    let m := A.mul (A.sub o.b (A.div (A.pow o.sigma 2) 2)) dt
    let s := A.mul o.sigma (A.sqrt dt)
    ⟨A.exp (A.add m s), A.exp (A.sub m s), 1 / 2, A.exp (A.mul (-o.r) dt)⟩
  | .tian =>
    let M := A.exp (A.mul o.b dt)
    let V := A.exp (A.mul (A.pow o.sigma 2) dt)
    let w := A.sqrt (A.sub (A.add (A.mul V V) (A.mul 2 V)) 3)
    let u := A.mul (A.div (A.mul M V) 2) (A.add (A.add V 1) w)
    let d := A.mul (A.div (A.mul M V) 2) (A.sub (A.add V 1) w)
    ⟨u, d, A.div (A.sub M d) (A.sub u d), A.exp (A.mul (-o.r) dt)⟩

/-- The factors of the trinomial class (`__init__.py:583-606`). -/
noncomputable def factors3 (o : Opt) : Factors3 :=
  let dt := A.div o.t o.n
  let m := A.exp (A.div (A.mul o.b dt) 2)
  let dn := A.exp (A.mul (-o.sigma) (A.sqrt (A.div dt 2)))
  let up := A.exp (A.mul o.sigma (A.sqrt (A.div dt 2)))
  let pu := A.pow (A.div (A.sub m dn) (A.sub up dn)) 2
  let pd := A.pow (A.div (A.sub up m) (A.sub up dn)) 2
  ⟨A.exp (A.mul o.sigma (A.sqrt (A.mul 2 dt))), A.exp (A.mul (-o.sigma) (A.sqrt (A.mul 2 dt))),
    pu, pd, A.sub (A.sub 1 pu) pd, A.exp (A.mul (-o.r) dt)⟩

/-- `call(tree=False)` / `put(tree=False)` of the binomial classes. -/
noncomputable def price (c : Cls) (o : Opt) (isCall : Bool) : Except PyErr ℝ :=
  if o.n = 0 then .error .zeroDivision else
  let f := factors A c o
  calcPrice A o.S o.K f.u f.d f.p f.Df (zOf isCall) o.n o.type

/-- `call(tree=False)` / `put(tree=False)` of the trinomial class. -/
noncomputable def price3 (o : Opt) (isCall : Bool) : Except PyErr ℝ :=
  if o.n = 0 then .error .zeroDivision else
  let f := factors3 A o
  calcPrice3 A o.S o.K f.u f.d f.pu f.pd f.pm f.Df (zOf isCall) o.n o.type

end TreeFl
end Verif
