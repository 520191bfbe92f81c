import Verif.Props.Fourier
import Verif.Props.HarmonicMisc
import Verif.Props.Jenkins
import Verif.Props.Hysteresis
import Verif.Props.VectorJenkins
import Verif.Props.Iwan
import Verif.Props.ElasticDryFriction
import Verif.Props.VectorIwan
import Verif.Props.Solvers
import Verif.Props.SolverOMP
import Verif.Props.ForceLaws
import Verif.Props.AFT
import Verif.Props.System
import Verif.Props.Residual
import Verif.Props.LinearFrf
import Verif.Props.AmpControl
import Verif.Props.Epmc
import Verif.Props.SetDamping
import Verif.Props.Shooting
import Verif.Props.Vprnm
import Verif.Props.Continuation
import Verif.Props.ContinuationUtils
import Verif.Props.Interp
import Verif.Props.Hermite
import Verif.Props.EpmcRomDisp
import Verif.Props.ContinuationMore
import Verif.Model.RoughContact
import Verif.Spec.RoughContact
import Verif.Lemmas.RoughContact
import Verif.Props.RoughContact
import Verif.Lemmas.RoughStatic
import Verif.Props.RoughStatic
import Verif.Model.SystemForces
import Verif.Props.SystemForces
import Verif.Lemmas.SliderGradient
import Verif.Props.SliderGradient
import Verif.Lemmas.OdeSens
import Verif.Lemmas.PeriodicExt
import Verif.Lemmas.ShootSens
import Verif.Model.Shooting
import Verif.Spec.Motion
import Verif.Lemmas.ShootBridge
import Verif.Props.ShootingRes
import Verif.Lemmas.ShootFail
import Verif.Props.ShootingFail
import Verif.Lemmas.FixedPoint
import Verif.Lemmas.ReturnMap
import Verif.Props.Stability
import Verif.Model.Predict
import Verif.Lemmas.Predict
import Verif.Props.Predict
import Verif.Model.Printing
import Verif.Props.Printing
import Verif.Lemmas.Energy
import Verif.Props.Energy
import Verif.Model.LocalForces
import Verif.Props.LocalForces
import Verif.Model.JaxVectorJenkins
import Verif.Lemmas.JaxVectorJenkins
import Verif.Props.JaxVectorJenkins
import Verif.Model.VprnmRom
import Verif.Spec.VprnmRom
import Verif.Lemmas.VprnmRom
import Verif.Lemmas.VprnmRomParts
import Verif.Lemmas.VprnmRomOk
import Verif.Props.VprnmRom
import Verif.Props.VprnmRomPeak
import Verif.Props.VprnmRomReturns
import Verif.Props.VprnmRomExample
import Verif.Lemmas.VprnmRomExtra
import Verif.Props.VprnmRomExtra
import Verif.Model.MifContact
import Verif.Lemmas.MifContact
import Verif.Props.MifContact
import Verif.Props.MifStatic
import Verif.Lemmas.HystLocal
import Verif.Props.HystJacobian
import Verif.Props.HystContinuity
import Verif.Model.JaxGrad
import Verif.Lemmas.JaxGrad
import Verif.Lemmas.JaxGradAft
import Verif.Lemmas.JaxGradRest
import Verif.Props.JaxGrad
import Verif.Props.JaxHarmonics
import Verif.Model.RoughGrad
import Verif.Lemmas.RoughGrad
import Verif.Lemmas.RoughGradVal
import Verif.Lemmas.RoughGradAsp
import Verif.Lemmas.RoughGradStatic
import Verif.Props.RoughGrad
import Verif.Lemmas.RoughGradAft
import Verif.Props.RoughGradAft
import Verif.Model.JaxVectorGrad
import Verif.Lemmas.JaxVectorGrad
import Verif.Props.JaxVectorGrad
import Verif.Model.MifGrad
import Verif.Lemmas.MifGrad
import Verif.Lemmas.MifGradStep
import Verif.Lemmas.MifGradStatic
import Verif.Props.MifGrad
import Verif.Lemmas.MifGradAft
import Verif.Props.MifGradAft
import Verif.Lemmas.Memory
import Verif.Props.Memory
import Verif.Lemmas.Shift
import Verif.Props.Shift
import Verif.Lemmas.Alias
import Verif.Props.Alias
import Verif.Lemmas.SliderDelay
import Verif.Props.FrictionShift
import Verif.Props.HalfWave
import Verif.Props.HarmonicList
import Verif.Props.BaseSolver
import Verif.Props.Coordinates
import Verif.Props.Folds
import Verif.Props.ContinuationUnits
import Verif.Props.Action
import Verif.Props.FrfLaws
import Verif.Props.Block
import Verif.Model.FrfBase
import Verif.Props.FrfBase
import Verif.Model.FrfNan
import Verif.Props.FrfRigid
import Verif.Props.EpmcLinear
import Verif.Props.Units
import Verif.Props.UnitsRough
import Verif.Props.UnitsHyst
import Verif.Lemmas.LinearOde
import Verif.Props.ShootingComplete
import Verif.Props.HbmShooting
import Verif.Lemmas.Newton
import Verif.Props.SolverConverges
import Verif.Props.SolverLinear
import Verif.Model.ContinuationOMP
import Verif.Props.ContinuationProgress
import Verif.Model.SolverIeee
import Verif.Props.QuasiNewton
import Verif.Lemmas.Tube
import Verif.Lemmas.ContCond
import Verif.Lemmas.SolutionTube
import Verif.Props.ContinuationRun
import Verif.Props.SystemState
import Verif.Props.FrictionEnergy
import Verif.Props.FrictionPower
import Verif.Props.IwanLimit
import Verif.Lemmas.FourierLimit
import Verif.Props.HarmonicLimit
import Verif.Props.DampingSign
import Verif.Props.ContinuationReach
import Verif.Props.LinearSweep
import Verif.Lemmas.Equilibrium
import Verif.Props.StaticUnique
import Verif.Props.SamplingPower
import Verif.Lemmas.DashpotEnergy
import Verif.Lemmas.DashpotSystem
import Verif.Lemmas.DashpotExists
import Verif.Lemmas.DashpotForce
import Verif.Props.DashpotSweep
import Verif.Lemmas.SmoothForces
import Verif.Lemmas.TameForces
import Verif.Lemmas.BoundedSystem
import Verif.Props.BoundedResponse
import Verif.Props.SolverRestart
import Verif.Props.Duffing
import Verif.Lemmas.DampedMotion
import Verif.Props.EquilibriumStability
import Verif.Lemmas.FlowOpen
import Verif.Spec.Contracting
import Verif.Props.ShootingNear
import Verif.Lemmas.FlowDeriv
import Verif.Props.ShootingSolve
import Verif.Props.ShootingLinear
import Verif.Props.ShootingSweep
import Verif.Model.IwanStatic
import Verif.Props.StaticSlope
import Verif.Props.SolverErrors
import Verif.Props.LoadSweep
import Verif.Props.AmpLinear
import Verif.Props.DefaultTol
import Verif.Props.ErrorBound
import Verif.Props.StaticSolverBound
import Verif.Lemmas.BaseDampers
import Verif.Props.BaseDampers
import Verif.Props.BaseSweep
import Verif.Props.BaseResidual
import Verif.Props.SweepError
import Verif.Props.ResponseSolver
import Verif.Props.ResponseNewton
import Verif.Props.BaseSweepError
import Verif.Props.NewtonUnits
import Verif.Props.BaseNewton
import Verif.Props.BaseResponse
import Verif.Props.RigidBase
import Verif.Props.ActionPoly
import Verif.Props.ReducedJacobian
import Verif.Props.StaticEnergy
import Verif.Props.ReducedStatic
