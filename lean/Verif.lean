import Verif.Model.American
import Verif.Model.BAWFloat
import Verif.Model.BAWOverflow
import Verif.Model.BSEdge
import Verif.Model.BSFl
import Verif.Model.BSPriceFl
import Verif.Model.BSPutFl
import Verif.Model.Classes
import Verif.Model.Edge
import Verif.Model.Expr
import Verif.Model.FDM
import Verif.Model.FDM2
import Verif.Model.GBS
import Verif.Model.GBSFl
import Verif.Model.GarchFl
import Verif.Model.GreeksFl
import Verif.Model.HN
import Verif.Model.HNLegacy
import Verif.Model.HNObj
import Verif.Model.KirkFl
import Verif.Model.MC
import Verif.Model.MCFl
import Verif.Model.MCObj
import Verif.Model.MCRound
import Verif.Model.MSFl
import Verif.Model.Normal
import Verif.Model.Py
import Verif.Model.RGWEdge
import Verif.Model.RGWVol
import Verif.Model.SpreadEdge
import Verif.Model.SpreadLatticeFl
import Verif.Model.Summary
import Verif.Model.Tree
import Verif.Model.Tree3d
import Verif.Model.Tree3dFl
import Verif.Model.TreeFl
import Verif.Model.TreeSpread
import Verif.Model.TreeSpreadFl
import Verif.Model.Vol
import Verif.Model.VolFull
import Verif.Spec.American
import Verif.Spec.Asian
import Verif.Spec.BSEquation
import Verif.Spec.BSPriceRounding
import Verif.Spec.BSPutRounding
import Verif.Spec.BSRounding
import Verif.Spec.BarrierCall
import Verif.Spec.BlackScholes
import Verif.Spec.GreeksRounding
import Verif.Spec.Hedging
import Verif.Spec.HestonNandi
import Verif.Spec.Lattice
import Verif.Spec.MSRounding
import Verif.Spec.MiltersenSchwartz
import Verif.Spec.MonteCarlo
import Verif.Spec.Normal
import Verif.Spec.Normal2
import Verif.Spec.Perpetual
import Verif.Spec.QuadraticApprox
import Verif.Spec.RollGeskeWhaley
import Verif.Spec.Rounding
import Verif.Spec.RoundingT
import Verif.Spec.Solver
import Verif.Spec.SpreadLatticeRounding
import Verif.Spec.StochasticDiscount
import Verif.Spec.Stopping
import Verif.Spec.TreeStep
import Verif.Spec.Trinomial
import Verif.Spec.TwoAsset
import Verif.Spec.TwoAssetValue
import Verif.Lemmas.AmericanBlocks
import Verif.Lemmas.AmericanCall
import Verif.Lemmas.AmericanCompare
import Verif.Lemmas.AmericanDual
import Verif.Lemmas.AmericanRate
import Verif.Lemmas.AmericanSuper
import Verif.Lemmas.AmericanValue
import Verif.Lemmas.Asian
import Verif.Lemmas.BSDeriv
import Verif.Lemmas.BSEquation
import Verif.Lemmas.BSUnique
import Verif.Lemmas.BarrierAmerican
import Verif.Lemmas.BarrierCallValue
import Verif.Lemmas.BarrierCompare
import Verif.Lemmas.BarrierDual
import Verif.Lemmas.BarrierSmooth
import Verif.Lemmas.BarrierValue
import Verif.Lemmas.CBND
import Verif.Lemmas.CBNDAll
import Verif.Lemmas.CBNDEdge
import Verif.Lemmas.CBNDError
import Verif.Lemmas.CND
import Verif.Lemmas.CNDCont
import Verif.Lemmas.CNDDeriv
import Verif.Lemmas.CNDError
import Verif.Lemmas.Dirichlet
import Verif.Lemmas.EuropeanPDE
import Verif.Lemmas.ExpTaylor
import Verif.Lemmas.ExprEval
import Verif.Lemmas.Fl
import Verif.Lemmas.GBSObj
import Verif.Lemmas.GBSRounding
import Verif.Lemmas.Garch
import Verif.Lemmas.GarchFl
import Verif.Lemmas.GarchLaw
import Verif.Lemmas.GarchMoments
import Verif.Lemmas.GreeksRounding
import Verif.Lemmas.HN
import Verif.Lemmas.HNPrice
import Verif.Lemmas.Harris
import Verif.Lemmas.LatticeRate
import Verif.Lemmas.Lindeberg
import Verif.Lemmas.Loop
import Verif.Lemmas.MC
import Verif.Lemmas.MCFl
import Verif.Lemmas.MCLaw
import Verif.Lemmas.MS
import Verif.Lemmas.MSRounding
import Verif.Lemmas.Margrabe
import Verif.Lemmas.Normal2
import Verif.Lemmas.Obj
import Verif.Lemmas.ObjState
import Verif.Lemmas.OptimalStopping
import Verif.Lemmas.Perpetual
import Verif.Lemmas.Phi
import Verif.Lemmas.PolyCheck
import Verif.Lemmas.Quad5
import Verif.Lemmas.Quad5Bound
import Verif.Lemmas.QuadApprox
import Verif.Lemmas.RGWShape
import Verif.Lemmas.RGWValue
import Verif.Lemmas.RelErr
import Verif.Lemmas.Rounding
import Verif.Lemmas.Slice
import Verif.Lemmas.SmoothLip
import Verif.Lemmas.SmoothPut
import Verif.Lemmas.Stopping
import Verif.Lemmas.Sweep
import Verif.Lemmas.TianRate
import Verif.Lemmas.Tree
import Verif.Lemmas.Tree3d
import Verif.Lemmas.Tree3dFl
import Verif.Lemmas.TreeLimit
import Verif.Lemmas.TreeOrder
import Verif.Lemmas.TreePlot
import Verif.Lemmas.TreeReal
import Verif.Lemmas.TreeVal
import Verif.Lemmas.Trinomial
import Verif.Lemmas.TrinomialLimit
import Verif.Lemmas.TrinomialMoments
import Verif.Lemmas.TwoAssetLimit
import Verif.Lemmas.Viscosity
import Verif.Lemmas.WeakLimit
import Verif.Props.AmericanArrays
import Verif.Props.AmericanLimit
import Verif.Props.AmericanLimitCall
import Verif.Props.Arrays
import Verif.Props.Asian
import Verif.Props.BAW
import Verif.Props.BAWAccuracy
import Verif.Props.BAWBounds
import Verif.Props.BAWCallTerm
import Verif.Props.BAWFloat
import Verif.Props.BAWOverflow
import Verif.Props.BAWPutCarry
import Verif.Props.BAWPutTerm
import Verif.Props.BAWShape
import Verif.Props.BAWStrike
import Verif.Props.BAWTerm
import Verif.Props.BS93
import Verif.Props.BS93American
import Verif.Props.BS93European
import Verif.Props.BS93Exercise
import Verif.Props.BS93Scale
import Verif.Props.BS93Shape
import Verif.Props.BS93Value
import Verif.Props.BSEdge
import Verif.Props.BSPriceRounding
import Verif.Props.BSPutRounding
import Verif.Props.BSRounding
import Verif.Props.CBND
import Verif.Props.CBNDAccuracy
import Verif.Props.ExerciseRegion
import Verif.Props.Expiry
import Verif.Props.FdmAnalytic
import Verif.Props.GBSAccuracy
import Verif.Props.GBSAlgebra
import Verif.Props.GBSRounding
import Verif.Props.Garch
import Verif.Props.GarchLaw
import Verif.Props.GarchMoments
import Verif.Props.GarchNan
import Verif.Props.Greeks2
import Verif.Props.GreeksRounding
import Verif.Props.HN
import Verif.Props.HNLegacy
import Verif.Props.HNNonstationary
import Verif.Props.HNObj
import Verif.Props.HNShape
import Verif.Props.Hedging
import Verif.Props.ImpliedVol
import Verif.Props.ImpliedVolAccuracy
import Verif.Props.ImpliedVolBrent
import Verif.Props.Kirk
import Verif.Props.KirkEdge
import Verif.Props.KirkMono
import Verif.Props.KirkRounding
import Verif.Props.KirkSecondOrder
import Verif.Props.KirkShape
import Verif.Props.LimitClasses
import Verif.Props.MC
import Verif.Props.MCEdge
import Verif.Props.MCExpect
import Verif.Props.MCObj
import Verif.Props.MCRounding
import Verif.Props.MCStandard
import Verif.Props.MCVariance
import Verif.Props.MS
import Verif.Props.MSEdge
import Verif.Props.MSRounding
import Verif.Props.MSShape
import Verif.Props.MSValue
import Verif.Props.MissingSigma
import Verif.Props.Obj
import Verif.Props.ObjGreeks
import Verif.Props.Perpetual
import Verif.Props.PerpetualBAW
import Verif.Props.PerpetualTrinomial
import Verif.Props.RGW
import Verif.Props.RGWAccuracy
import Verif.Props.RGWEdge
import Verif.Props.RGWOptimal
import Verif.Props.RGWShape
import Verif.Props.RGWVol
import Verif.Props.SameGreeks
import Verif.Props.SameGreeksBAW
import Verif.Props.SameGreeksTree
import Verif.Props.SpreadLatticeRounding
import Verif.Props.Stopping
import Verif.Props.StoppingLast
import Verif.Props.Summary
import Verif.Props.Tree
import Verif.Props.Tree3d
import Verif.Props.Tree3dEdge
import Verif.Props.Tree3dRounding
import Verif.Props.Tree3dSub
import Verif.Props.TreeExpiry
import Verif.Props.TreeGreeks
import Verif.Props.TreeLimit
import Verif.Props.TreeOrder
import Verif.Props.TreePremium
import Verif.Props.TreeRate
import Verif.Props.TreeRounding
import Verif.Props.TreeRoundingFactors
import Verif.Props.TreeRoundingLimit
import Verif.Props.TreeSpread
import Verif.Props.TreeSpreadEdge
import Verif.Props.TreeSpreadTrace
import Verif.Props.TreeStep
import Verif.Props.TrinomialShape
import Verif.Props.TrinomialSpreadLimit
import Verif.Props.TrinomialSpreadShape
import Verif.Props.TwoAssetLimit
import Verif.Props.TwoAssetMoments
import Verif.Props.TwoAssetShape
import Verif.Props.VolOptions
