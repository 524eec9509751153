import Verif.Model.FDM

/-!
Finite-difference greeks of the classes that override `GreeksFDM`'s wrappers:
`MiltersenSchwartzOption` (`/repo/src/finoptions/vanillaoptions.py:782-881`), `SpreadApproxOption`
(`/repo/src/finoptions/spread_options/spreadapprox.py:173-248`), the 3D trees (the same methods,
`/repo/src/finoptions/spread_options/bitree3d.py:282-357`) and the American approximations
(`/repo/src/finoptions/basic_american_options/__init__.py:614-656,713-775`).
-/
namespace Verif

/-- A class with its `call` and `put`, an object address and the differentiation procedure. -/
structure FdmCtx where
  D : Diff
  cls : Cls
  call : Attrs → Except PyErr Val
  put : Attrs → Except PyErr Val
  addr : ℕ

namespace FdmCtx
variable (x : FdmCtx)

/-- `self._greeks._make_partial_der(wrt, call, self, n=n)(self._attr) * 1`. -/
noncomputable def der (wrt attr : String) (isCall : Bool) (n : ℕ) : HeapM Val :=
  partialAt x.D x.cls x.call x.put x.addr wrt attr isCall n none 1
end FdmCtx

/-- The methods of a `MiltersenSchwartzOption`. -/
noncomputable def msCtx (D : Diff) (i : ℕ) : FdmCtx := ⟨D, msCls, MSClass.call.run, MSClass.put.run, i⟩

/-- vanillaoptions.py:782-797 `MiltersenSchwartzOption.delta`. -/
noncomputable def msDelta (D : Diff) (i : ℕ) (isCall : Bool) : HeapM Val :=
  (msCtx D i).der "FT" "_FT" isCall 1

/-- vanillaoptions.py:803-835 `MiltersenSchwartzOption.vega`: the three entries of the result. The first derivative is
computed once more for the array check at the end (a transposition, which leaves three scalars alone). -/
noncomputable def msVega (D : Diff) (i : ℕ) : HeapM (List Val) := do
  let s ← (msCtx D i).der "sigmaS" "_sigmaS" true 1
  let e ← (msCtx D i).der "sigmaE" "_sigmaE" true 1
  let f ← (msCtx D i).der "sigmaF" "_sigmaF" true 1
  let _ ← (msCtx D i).der "sigmaS" "_sigmaS" true 1
  return [s, e, f]

/-- vanillaoptions.py:867-881 `MiltersenSchwartzOption.gamma` (always of the call). -/
noncomputable def msGamma (D : Diff) (i : ℕ) : HeapM Val := (msCtx D i).der "FT" "_FT" true 2

/-- Values in a `greeks()` dictionary: a number or array, a dictionary per asset, or the three vegas. -/
inductive GVal where
  | val (v : Val)
  | dict (d : Dict)
  | vec (l : List Val)

/-- `d[x]`. -/
def Dict.get (d : Dict) (x : String) : Except PyErr Val :=
  match d.lookup x with | some v => .ok v | none => .error .keyError

/-! #### `MiltersenSchwartzOption` -/

/-- vanillaoptions.py:799-801 `theta`: that of `GreeksFDM`. -/
noncomputable def msTheta (D : Diff) (i : ℕ) (isCall : Bool) : HeapM Val :=
  fdmTheta D msCls MSClass.call.run MSClass.put.run i isCall

/-- vanillaoptions.py:849-865 `lamb`. -/
noncomputable def msLamb (D : Diff) (i : ℕ) (isCall : Bool) : HeapM Val := do
  let price ← HeapM.method (if isCall then MSClass.call.run else MSClass.put.run) i
  let d ← msDelta D i isCall
  let s ← HeapM.getAttr i "_FT"
  let ds ← HeapM.lift (Val.map₂ (· * ·) d s)
  HeapM.lift (Val.map₂ (· / ·) ds price)

/-- vanillaoptions.py:837-847 `greeks`: no rho. -/
noncomputable def msGreeks (D : Diff) (i : ℕ) (isCall : Bool) : HeapM (List (String × GVal)) := do
  let d ← msDelta D i isCall
  let th ← msTheta D i isCall
  let v ← msVega D i
  let l ← msLamb D i isCall
  let g ← msGamma D i
  return [("delta", .val d), ("theta", .val th), ("vega", .vec v), ("lambda", .val l), ("gamma", .val g)]

/-! #### Options on two assets: `SpreadApproxOption` and the 3D trees -/

namespace FdmCtx
variable (x : FdmCtx)

/-- spreadapprox.py:173-186, bitree3d.py:282-295 `delta`. -/
noncomputable def pairDelta (isCall : Bool) : HeapM Dict := do
  let d1 ← x.der "S1" "_S1" isCall 1
  let d2 ← x.der "S2" "_S2" isCall 1
  return [("S1", d1), ("S2", d2)]

/-- spreadapprox.py:188-190, bitree3d.py:297-299 `theta`. -/
noncomputable def pairTheta (isCall : Bool) : HeapM Val := fdmTheta x.D x.cls x.call x.put x.addr isCall

/-- spreadapprox.py:192-205, bitree3d.py:301-314 `vega` (always of the call). -/
noncomputable def pairVega : HeapM Dict := do
  let v1 ← x.der "sigma1" "_sigma1" true 1
  let v2 ← x.der "sigma2" "_sigma2" true 1
  return [("sigma1", v1), ("sigma2", v2)]

/-- spreadapprox.py:207-209, bitree3d.py:316-318 `rho`. -/
noncomputable def pairRho (isCall : Bool) : HeapM Val := fdmRho x.D x.cls x.call x.put x.addr isCall

/-- spreadapprox.py:211-222, bitree3d.py:320-331 `lamb`: `delta` is computed once for each asset. -/
noncomputable def pairLamb (isCall : Bool) : HeapM Dict := do
  let price ← HeapM.method (if isCall then x.call else x.put) x.addr
  let da ← x.pairDelta isCall
  let d1 ← HeapM.lift (da.get "S1")
  let s1 ← HeapM.getAttr x.addr "_S1"
  let e1 ← HeapM.lift (Val.map₂ (· * ·) d1 s1)
  let l1 ← HeapM.lift (Val.map₂ (· / ·) e1 price)
  let db ← x.pairDelta isCall
  let d2 ← HeapM.lift (db.get "S2")
  let s2 ← HeapM.getAttr x.addr "_S2"
  let e2 ← HeapM.lift (Val.map₂ (· * ·) d2 s2)
  let l2 ← HeapM.lift (Val.map₂ (· / ·) e2 price)
  return [("S1", l1), ("S2", l2)]

/-- spreadapprox.py:224-235, bitree3d.py:333-344 `gamma` (always of the call). -/
noncomputable def pairGamma : HeapM Dict := do
  let g1 ← x.der "S1" "_S1" true 2
  let g2 ← x.der "S2" "_S2" true 2
  return [("S1", g1), ("S2", g2)]

/-- spreadapprox.py:237-248, bitree3d.py:346-357 `greeks`. -/
noncomputable def pairGreeks (isCall : Bool) : HeapM (List (String × GVal)) := do
  let d ← x.pairDelta isCall
  let th ← x.pairTheta isCall
  let v ← x.pairVega
  let rh ← x.pairRho isCall
  let l ← x.pairLamb isCall
  let g ← x.pairGamma
  return [("delta", .dict d), ("theta", .val th), ("vega", .dict v), ("rho", .val rh), ("lambda", .dict l),
    ("gamma", .dict g)]

/-! #### American approximations -/

/-- `float(v)`: one number, or an array with one element. -/
def pyFloat : Val → Except PyErr Val
  | .num y => .ok (.num y)
  | .arr [y] => .ok (.num y)
  | _ => .error .typeError

/-- `_make_partial_der("sigma", True, self, n=1, step=self._sigma / 10)(self._sigma)`. -/
noncomputable def vegaStep : HeapM Val := do
  let s ← HeapM.getAttr x.addr "_sigma"
  let w ← HeapM.lift (match s with | .num y => .ok (y / 10) | _ => .error .typeError)
  (x.D 1 (some w) s).run (fdmFunc x.cls x.call x.put "sigma" true x.addr)

/-- basic_american_options/__init__.py:648-656 `BAWAmericanApproxOption.vega`. -/
noncomputable def bawVega : HeapM Val := do
  let v ← x.vegaStep
  HeapM.lift (pyFloat v)

/-- basic_american_options/__init__.py:770-775 `BSAmericanApproxOption.vega`. -/
noncomputable def bsaVega : HeapM Val := do
  let v ← x.vegaStep
  HeapM.lift (scale 1 v)

/-- The dictionary of basic_american_options/__init__.py:634-646 (BAW) and 748-760 (Bjerksund–Stensland) with the
class's own `vega`. -/
noncomputable def americanGreeks (vega : HeapM Val) (isCall : Bool) : HeapM Dict := do
  let d ← fdmDelta x.D x.cls x.call x.put x.addr isCall
  let th ← fdmTheta x.D x.cls x.call x.put x.addr isCall
  let v ← vega
  let rh ← fdmRho x.D x.cls x.call x.put x.addr isCall
  let l ← fdmLamb x.D x.cls x.call x.put x.addr isCall
  let g ← fdmGamma x.D x.cls x.call x.put x.addr
  return [("delta", d), ("theta", th), ("vega", v), ("rho", rh), ("lambda", l), ("gamma", g)]

end FdmCtx

/-- The methods of a `SpreadApproxOption`. -/
noncomputable def kirkCtx (D : Diff) (i : ℕ) : FdmCtx :=
  ⟨D, kirkCls, KirkClass.call.run, KirkClass.put.run, i⟩

/-- spreadapprox.py:173-186 `SpreadApproxOption.delta`. -/
noncomputable def kirkDelta (D : Diff) (i : ℕ) (isCall : Bool) : HeapM Dict := (kirkCtx D i).pairDelta isCall

/-- spreadapprox.py:192-205 `SpreadApproxOption.vega`. -/
noncomputable def kirkVega (D : Diff) (i : ℕ) : HeapM Dict := (kirkCtx D i).pairVega

/-- spreadapprox.py:224-235 `SpreadApproxOption.gamma`. -/
noncomputable def kirkGamma (D : Diff) (i : ℕ) : HeapM Dict := (kirkCtx D i).pairGamma

/-- basic_american_options/__init__.py:713-730: `call`/`put` of `BSAmericanApproxOption` return dictionaries, its
`_make_partial_der` and `lamb` take the entry `OptionPrice`. -/
def optionPrice (m : Attrs → Except PyErr Dict) (a : Attrs) : Except PyErr Val := do
  let d ← m a
  d.get "OptionPrice"

end Verif
