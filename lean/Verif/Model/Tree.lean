import Verif.Model.Py
import Mathlib.Algebra.Order.Field.Basic
import Mathlib.Algebra.Order.Group.Abs
import Mathlib.Analysis.SpecialFunctions.Exp
import Mathlib.Analysis.SpecialFunctions.Pow.Real

/-!
Model of the lattice options (`/repo/src/finoptions/binomial_tree_options/__init__.py`).

The rollback loops are written over an arbitrary ordered field `R` so that they can also be evaluated on
rationals; the option classes instantiate `R = ℝ`.  A numpy vector is a `List R`; an in-place assignment
`a[i] = v` replaces the list; reading or writing out of range raises `IndexError`.
-/
namespace Verif

namespace Py
variable {R : Type}

/-- `a[i]` for a nonnegative index. -/
def getI (a : List R) (i : ℕ) : Except PyErr R :=
  match a[i]? with
  | some x => .ok x
  | none => .error .indexError

/-- `a[i] = v` for a nonnegative index. -/
def setI (a : List R) (i : ℕ) (v : R) : Except PyErr (List R) :=
  if i < a.length then .ok (a.set i v) else .error .indexError

/-- A two-dimensional array: shape and entries (meaningful for indices within the shape). -/
structure Mat (R : Type) where
  rows : ℕ
  cols : ℕ
  entry : ℕ → ℕ → R

/-- `m[i, j]` (equivalently `m[i][j]`) for nonnegative indices. -/
def Mat.get (m : Mat R) (i j : ℕ) : Except PyErr R :=
  if i < m.rows ∧ j < m.cols then .ok (m.entry i j) else .error .indexError

end Py

namespace Tree
open Py

variable {R : Type} [Field R] [LinearOrder R]

/-! ### Binomial trees -/

/-- `__init__.py:310-311` (also 448-451, 516-519): terminal values
`z*(S*u**arange(0,n+1)*d**arange(n,-1,-1)-K)`, then `(abs(x)+x)/2`. -/
def terminal (S K u d z : R) (n : ℕ) : List R :=
  (List.range (n + 1)).map fun i =>
    let x := z * (S * u ^ i * d ^ (n - i) - K)
    (|x| + x) / 2

/-- `__init__.py:323-335` `_euro`, the two nested loops; returns the overwritten `OptionValue` and the
accumulated `tr`. The `tree` flag only selects which of the two is used (see `calcPrice`, `calcTree`). -/
def euro (ov : List R) (n : ℕ) (Df p : R) : Except PyErr (List R × List R) :=
  (List.range n).reverse.foldlM (init := (ov, ov)) fun st j =>
    (List.range (j + 1)).foldlM (init := (st.1, st.2 ++ List.replicate (n - j) 0)) fun st i => do
      let hi ← getI st.1 (i + 1)
      let lo ← getI st.1 i
      let ov' ← setI st.1 i ((p * hi + (1 - p) * lo) * Df)
      let x ← getI ov' i
      return (ov', st.2 ++ [x])

/-- `abs(i - j)` on integers as a natural exponent (`__init__.py:343`). -/
def absDiff (i j : ℕ) : ℕ := (i - j) + (j - i)

/-- `__init__.py:337-351` `_amer`. -/
def amer (ov : List R) (n : ℕ) (Df p K d S u z : R) : Except PyErr (List R × List R) :=
  (List.range n).reverse.foldlM (init := (ov, ov)) fun st j =>
    (List.range (j + 1)).foldlM (init := (st.1, st.2 ++ List.replicate (n - j) 0)) fun st i => do
      let hi ← getI st.1 (i + 1)
      let lo ← getI st.1 i
      let ov' ← setI st.1 i
        (max (z * (S * u ^ i * d ^ (absDiff i j) - K)) ((p * hi + (1 - p) * lo) * Df))
      let x ← getI ov' i
      return (ov', st.2 ++ [x])

/-- `__init__.py:313-316` (453-456, 521-524): dispatch on the exercise type; any other string leaves the
local variable `out` unbound. -/
def roll (S K u d p Df z : R) (n : ℕ) (type : String) : Except PyErr (List R × List R) :=
  let ov := terminal S K u d z n
  if type = "european" then euro ov n Df p
  else if type = "american" then amer ov n Df p K d S u z
  else .error .unboundLocal

/-- `__init__.py:303-319`: `_calc_price(..., tree=False)` returns `OptionValue[0]`. -/
def calcPrice (S K u d p Df z : R) (n : ℕ) (type : String) : Except PyErr R := do
  let out ← roll S K u d p Df z n type
  getI out.1 0

/-- `__init__.py:332, 348`: `np.reshape(tr[::-1], (n+1, n+1)).T`; numpy raises `ValueError` when the
sizes differ. -/
def reshapeT (tr : List R) (n : ℕ) : Except PyErr (Mat R) :=
  if tr.length = (n + 1) * (n + 1) then
    .ok ⟨n + 1, n + 1, fun a b => tr.reverse.getD (b * (n + 1) + a) 0⟩
  else .error .valueError

/-- `__init__.py:303-321`: `_calc_price(..., tree=True)`. -/
def calcTree (S K u d p Df z : R) (n : ℕ) (type : String) : Except PyErr (Mat R) := do
  let out ← roll S K u d p Df z n type
  reshapeT out.2 n

/-! ### Trinomial tree -/

/-- `__init__.py:608-618`: the terminal values (`OptionValue[i] = maximum(0, z*(...))`). -/
def terminal3 (S K u d z : R) (n : ℕ) : List R :=
  (List.range (2 * n + 1)).map fun i =>
    max 0 (z * (S * u ^ (i - n) * d ^ (2 * n - n - i) - K))

/-- `__init__.py:639-643` `_euro` of the trinomial class. -/
def euro3 (i : ℕ) (ov : List R) (Df pu pd pm : R) : Except PyErr R := do
  let h2 ← getI ov (i + 2)
  let h1 ← getI ov (i + 1)
  let h0 ← getI ov i
  return (pu * h2 + pm * h1 + pd * h0) * Df

/-- `__init__.py:645-652` `_amer` of the trinomial class. -/
def amer3 (i j : ℕ) (ov : List R) (Df pu pd pm K d S u z : R) : Except PyErr R := do
  let a := z * (S * u ^ (i - j) * d ^ (j - i) - K)
  let h2 ← getI ov (i + 2)
  let h1 ← getI ov (i + 1)
  let h0 ← getI ov i
  return max a ((pu * h2 + pm * h1 + pd * h0) * Df)

/-- `__init__.py:620-631`: the rollback loop. A type other than the two known ones skips the assignment. -/
def roll3 (S K u d pu pd pm Df z : R) (n : ℕ) (type : String) : Except PyErr (List R × List R) :=
  let ov := terminal3 S K u d z n
  (List.range n).reverse.foldlM (init := (ov, ov)) fun st j =>
    (List.range (j * 2 + 1)).foldlM (init := st) fun st i => do
      let ov' ←
        if type = "european" then do
          let v ← euro3 i st.1 Df pu pd pm
          setI st.1 i v
        else if type = "american" then do
          let v ← amer3 i j st.1 Df pu pd pm K d S u z
          setI st.1 i v
        else pure st.1
      let x ← getI ov' i
      return (ov', st.2 ++ [x])

/-- `__init__.py:581-637` with `tree=False`. -/
def calcPrice3 (S K u d pu pd pm Df z : R) (n : ℕ) (type : String) : Except PyErr R := do
  let out ← roll3 S K u d pu pd pm Df z n type
  getI out.1 0

/-- `__init__.py:682-690` `_reshape(tr, n)` (called with `n + 1`): column `i` receives a slice of the
reversed `tr`; numpy raises `ValueError` if a slice is shorter than its target. Entries never assigned
stay zero. -/
def reshape3 (tr : List R) (n : ℕ) : Except PyErr (Mat R) :=
  if ∀ i < n, i ^ 2 + 2 * i + 1 ≤ tr.length then
    .ok ⟨2 * n - 1, n, fun a i =>
      if n - i - 1 ≤ a ∧ a < n + i then tr.reverse.getD (i ^ 2 + (a - (n - i - 1))) 0 else 0⟩
  else .error .valueError

/-- `__init__.py:581-637` with `tree=True`. -/
def calcTree3 (S K u d pu pd pm Df z : R) (n : ℕ) (type : String) : Except PyErr (Mat R) := do
  let out ← roll3 S K u d pu pd pm Df z n type
  reshape3 out.2 (n + 1)

/-! ### The option classes -/

/-- Attributes set by `CRRBinomialTreeOption.__init__` (`__init__.py:147-166`). -/
structure Opt where
  S : ℝ
  K : ℝ
  t : ℝ
  r : ℝ
  b : ℝ
  sigma : ℝ
  type : String
  n : ℕ

/-- Which class. -/
inductive Cls | crr | jr | tian
  deriving DecidableEq

/-- The locals `u, d, p, Df` of the three binomial `_calc_price` methods. -/
structure Factors where
  u : ℝ
  d : ℝ
  p : ℝ
  Df : ℝ

open Real in
/-- CRR: `__init__.py:304-308`; JR: 442-446; TIAN: 508-514. -/
noncomputable def factors (c : Cls) (o : Opt) : Factors :=
  let dt := o.t / o.n
  match c with
  | .crr =>
    let u := exp (o.sigma * √dt)
    let d := 1 / u
    ⟨u, d, (exp (o.b * dt) - d) / (u - d), exp (-o.r * dt)⟩
  | .jr =>
    ⟨exp ((o.b - o.sigma ^ 2 / 2) * dt + o.sigma * √dt),
     exp ((o.b - o.sigma ^ 2 / 2) * dt - o.sigma * √dt), 1 / 2, exp (-o.r * dt)⟩
  | .tian =>
    let M := exp (o.b * dt)
    let V := exp (o.sigma ^ 2 * dt)
    let u := (M * V / 2) * (V + 1 + √(V * V + 2 * V - 3))
    let d := (M * V / 2) * (V + 1 - √(V * V + 2 * V - 3))
    ⟨u, d, (M - d) / (u - d), exp (-o.r * dt)⟩

/-- `z` as set by `call` (`__init__.py:203`) and `put` (`__init__.py:231`). -/
def zOf {R : Type} [Field R] (isCall : Bool) : R := if isCall then 1 else -1

/-- `call(tree=False)` / `put(tree=False)` of the binomial classes; `t / n` with `n = 0` raises. -/
noncomputable def price (c : Cls) (o : Opt) (isCall : Bool) : Except PyErr ℝ :=
  if o.n = 0 then .error .zeroDivision else
  let f := factors c o
  calcPrice o.S o.K f.u f.d f.p f.Df (zOf isCall) o.n o.type

/-- `call(tree=True)` / `put(tree=True)` of the binomial classes. -/
noncomputable def priceTree (c : Cls) (o : Opt) (isCall : Bool) : Except PyErr (Mat ℝ) :=
  if o.n = 0 then .error .zeroDivision else
  let f := factors c o
  calcTree o.S o.K f.u f.d f.p f.Df (zOf isCall) o.n o.type

/-- The locals of the trinomial `_calc_price`. -/
structure Factors3 where
  u : ℝ
  d : ℝ
  pu : ℝ
  pd : ℝ
  pm : ℝ
  Df : ℝ

open Real in
/-- `__init__.py:583-606`. -/
noncomputable def factors3 (o : Opt) : Factors3 :=
  let dt := o.t / o.n
  let pu := ((exp (o.b * dt / 2) - exp (-o.sigma * √(dt / 2)))
    / (exp (o.sigma * √(dt / 2)) - exp (-o.sigma * √(dt / 2)))) ^ 2
  let pd := ((exp (o.sigma * √(dt / 2)) - exp (o.b * dt / 2))
    / (exp (o.sigma * √(dt / 2)) - exp (-o.sigma * √(dt / 2)))) ^ 2
  ⟨exp (o.sigma * √(2 * dt)), exp (-o.sigma * √(2 * dt)), pu, pd, 1 - pu - pd, exp (-o.r * dt)⟩

/-- `TrinomialTreeOption.call/put(tree=False)`. -/
noncomputable def price3 (o : Opt) (isCall : Bool) : Except PyErr ℝ :=
  if o.n = 0 then .error .zeroDivision else
  let f := factors3 o
  calcPrice3 o.S o.K f.u f.d f.pu f.pd f.pm f.Df (zOf isCall) o.n o.type

/-- `TrinomialTreeOption.call/put(tree=True)`. -/
noncomputable def priceTree3 (o : Opt) (isCall : Bool) : Except PyErr (Mat ℝ) :=
  if o.n = 0 then .error .zeroDivision else
  let f := factors3 o
  calcTree3 o.S o.K f.u f.d f.pu f.pd f.pm f.Df (zOf isCall) o.n o.type

/-! ### Plotters -/

/-- `__init__.py:40-48` `_convert_to_index`: position of `y` in `arange(x, -x-2, -2)`;
`np.where(...)[0]` of an absent value is an empty array, on which `int()` raises `TypeError`. -/
def convertToIndex (x : ℕ) (y : ℤ) : Except PyErr ℕ :=
  if 0 < x then
    let a := (List.range (x + 1)).map fun k : ℕ => (x : ℤ) - 2 * k
    match (List.range a.length).filter (fun k => a[k]? = some y) with
    | [k] => .ok k
    | _ => .error .typeError
  else .ok 0

/-- `__init__.py:20-29`: the points drawn in iteration `i`: `x = [1,0,1,0,1,…]+i`,
`y = arange(-(i+1), i+2)[::-1]`. -/
def biPoints (i : ℕ) : List (ℕ × ℤ) :=
  let xs := ([1, 0, 1] ++ (List.range i).flatMap fun _ => [0, 1]).map (· + i)
  let ys := (List.range (2 * i + 3)).map fun k : ℕ => (i : ℤ) + 1 - k
  xs.zip ys

/-- `__init__.py:16-33`: all annotations `(point, value)` drawn by `BiTreePlotter.plot`, rounding omitted. -/
def biLabels {R : Type} (m : Mat R) : Except PyErr (List ((ℕ × ℤ) × R)) :=
  (List.range (m.cols - 1)).foldlM (init := []) fun acc i =>
    (biPoints i).foldlM (init := acc) fun acc p => do
      let k ← convertToIndex p.1 p.2
      let v ← m.get k p.1
      return acc ++ [(p, v)]

/-- `m[k][j]` where the row index may be negative (numpy counts from the end). -/
def getRow {R : Type} (m : Mat R) (k : ℤ) (j : ℕ) : Except PyErr R :=
  if 0 ≤ k then m.get k.toNat j
  else if 0 ≤ k + m.rows then m.get (k + m.rows).toNat j
  else .error .indexError

/-- `__init__.py:73-87` `_plot_node(i, j)`: three annotations at `(i+1, j+c)`. `i` may be `-1` in the
caller's loop only for an empty inner range. -/
def triNode {R : Type} (m : Mat R) (i : ℕ) (j : ℤ) (acc : List ((ℕ × ℤ) × R)) :
    Except PyErr (List ((ℕ × ℤ) × R)) :=
  [-1, 0, 1].foldlM (init := acc) fun acc (c : ℤ) => do
    let v ← getRow m (-(j + c) + ((m.cols - 1 : ℕ) : ℤ)) (i + 1)
    return acc ++ [((i + 1, j + c), v)]

/-- `__init__.py:55-66` `TriTreePlotter.plot`: `for i in range(n+1): for j in range(-i+1, i)` nodes
`(i-1, j)`, then the root annotation. -/
def triLabels {R : Type} (m : Mat R) : Except PyErr (List ((ℕ × ℤ) × R)) := do
  let n := m.cols - 1
  let acc ← (List.range (n + 1)).foldlM (init := []) fun acc i =>
    ((List.range (2 * i - 1)).map fun k : ℕ => -(i : ℤ) + 1 + k).foldlM (init := acc) fun acc j =>
      triNode m (i - 1) j acc
  let v ← m.get n 0
  return acc ++ [((0, 0), v)]

end Tree
end Verif
