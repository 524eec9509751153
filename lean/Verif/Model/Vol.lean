import Verif.Model.FDM

/-!
Implied volatility: `/repo/src/finoptions/base.py:479-577` (`_check_array`, `_max_array`, `_func`,
`_volatility`).  scipy's `root_scalar` and `root` are external: each is an arbitrary adaptive procedure
(`Rule`) that queries the target function and returns.  The warning printed when `_sigma` is already set
and the options `tol`, `maxiter` and `verbose` are added in `Model/VolFull`.
-/
namespace Verif

/-- base.py:479-488 `_check_array`. -/
def checkArray (args : List Val) : Bool := args.any Val.isBigArray

/-- base.py:490-501 `_max_array`: the loop keeps the first largest array. -/
def maxArray (args : List Val) : List ℝ :=
  args.foldl (fun m a => match a with
    | .arr xs => if m.length < xs.length then xs else m
    | _ => m) [0]

/-- base.py:503-512 `_func`. -/
noncomputable def volFunc (c : Cls) (cl pt : Attrs → Except PyErr Val) (i : ℕ) (call : Bool)
    (price σ : Val) : HeapM Val := do
  let temp ← HeapM.copy i
  HeapM.setParam c temp "sigma" σ
  let v ← if call then HeapM.method cl temp else HeapM.method pt temp
  HeapM.lift (Val.map₂ (· - ·) price v)

/-- base.py:514-577 `_volatility`; `scalar lo hi` is `root_scalar(_func, bracket=[lo, hi])`, `vec x0` is
`root(_func, x0=x0)`. -/
noncomputable def volatility (scalar : ℝ → ℝ → Rule) (vec : List ℝ → Rule) (c : Cls)
    (cl pt : Attrs → Except PyErr Val) (i : ℕ) (price : Val) (call : Bool) : HeapM Val := do
  let a ← HeapM.load i
  let d ← HeapM.lift (c.getParams a)
  let args := price :: d.map (·.2)
  if checkArray args then
    (vec (List.replicate (maxArray args).length 1)).run (volFunc c cl pt i call price)
  else
    (scalar (-10) 10).run (volFunc c cl pt i call price)

end Verif
