import Verif.Core.TimeStepping
import Verif.Core.Coarsen
import Verif.Props.TimeStepping
import Verif.Props.Coarsen
import Verif.Core.ODESolver
import Verif.Core.RK8
import Verif.Core.RK8Table
import Verif.Core.OrderConditions
import Verif.Props.RungeKutta
import Verif.Props.OrderConditions
import Verif.Props.OptimalOrder
import Verif.Core.Solution
import Verif.Props.Solution
import Verif.Core.Mesh
import Verif.Props.Mesh
import Verif.Core.Py
import Verif.Core.Boundary
import Verif.Props.Boundary
import Verif.Core.ODEExcept
import Verif.Core.FV
import Verif.Props.FV
import Verif.Core.Scalar
import Verif.Core.SSP
import Verif.Core.ScalarLemmas
import Verif.Props.Scalar
import Verif.Core.SWE
import Verif.Core.SWELemmas
import Verif.Core.SWEMcl
import Verif.Core.SWEConserve
import Verif.Props.SWEBasic
import Verif.Props.SWEPositivity
import Verif.Props.SWEConservation
import Verif.Props.SWELake
import Verif.Core.SWEReduced
import Verif.Props.SWEReduced
import Verif.Core.Quadrature
import Verif.Core.Legendre
import Verif.Core.GolubWelsch
import Verif.Props.Quadrature
import Verif.Core.Interpolate
import Verif.Core.InterpolateLemmas
import Verif.Props.Interpolate
import Verif.Core.Commands
import Verif.Props.Commands
import Verif.Core.Utilities
import Verif.Props.Utilities
import Verif.Core.FEIndex
import Verif.Props.FEIndex
import Verif.Core.FESystem
import Verif.Core.FELemmas
import Verif.Props.FESpace
import Verif.Core.FEMatrix
import Verif.Core.NewtonCotes
import Verif.Core.FESolver
import Verif.Core.FESolverLemmas
import Verif.Props.FEMatrices
import Verif.Props.FELow
import Verif.Core.FEMCLLemmas
import Verif.Props.FEMCL
import Verif.Core.Benchmark
import Verif.Core.BenchmarkLemmas
import Verif.Props.Benchmarks
import Verif.Props.DamBreak
import Verif.Core.BenchmarkSWE
import Verif.Props.Oscillations
import Verif.Props.SteadyStates
import Verif.Props.FECG
import Verif.Core.Symmetry
import Verif.Props.Symmetry
import Verif.Core.Translation
import Verif.Props.Translation
import Verif.Props.Variation
import Verif.Props.Energy
import Verif.Props.Butcher
import Verif.Core.Solver
import Verif.Core.SolverLemmas
import Verif.Props.Solver
import Verif.Props.EndToEnd
import Verif.Core.Present
import Verif.Props.Present
import Verif.Core.Series
import Verif.Props.Series
import Verif.Props.Subgrid
import Verif.Core.Training
import Verif.Props.Training
import Verif.Core.Registry
import Verif.Props.Registry
import Verif.Core.ErrorTable
import Verif.Props.Convergence
import Verif.Props.ConvergenceRate
import Verif.Props.EOC
import Verif.Core.Majorize
import Verif.Props.Contraction
import Verif.Core.CoarseSolver
import Verif.Props.CoarseSolver
import Verif.Core.Perturb
import Verif.Core.PerturbSolve
import Verif.Props.ReducedError
import Verif.Core.Network
import Verif.Core.SWELipschitz
import Verif.Props.Network
import Verif.Props.ReducedLLF
import Verif.Core.SystemObject
import Verif.Props.SystemObject
import Verif.Core.BurgersWave
import Verif.Props.BurgersConvergence
import Verif.Core.FELinear
import Verif.Core.FERuns
import Verif.Props.SolverChecked
import Verif.Props.FERuns
import Verif.Props.FELowFV
import Verif.Props.FELowError
import Verif.Props.FELowRuns
import Verif.Props.SWERuns
import Verif.Core.Eoc
import Verif.Props.EocCommand
import Verif.Core.Cli
import Verif.Props.Cli
import Verif.Core.Options
import Verif.Props.Options
import Verif.Core.CGEnergy
import Verif.Props.CGAdvection
import Verif.Core.CGModes
import Verif.Props.CGConvergence
import Verif.Props.CentralScheme
import Verif.Props.BurgersNegative
import Verif.Core.Calculate
import Verif.Props.Calculate
import Verif.Props.SWEUniform
import Verif.Core.CalculateSWE
import Verif.Props.CalculateSWE
import Verif.Core.Argv
import Verif.Props.Argv
import Verif.Props.ArgvCommands
import Verif.Props.ArgvPrograms
import Verif.Props.ArgvCalculate
import Verif.Props.CalculateFE
import Verif.Props.CalculateBurgers
import Verif.Props.Sheet
import Verif.Props.TimeSteppingFl
import Verif.Props.FVFl
import Verif.Props.FVFlError
import Verif.Props.ArgvManual
import Verif.Props.BurgersFl
import Verif.Props.BurgersFlError
import Verif.Props.PyNumber
import Verif.Props.PyNumberCommands
import Verif.Props.Files
import Verif.Props.FilesTests
import Verif.Core.WeakForm
import Verif.Props.EntropyRuns
import Verif.Props.EntropyLimit
import Verif.Props.EntropyExact
import Verif.Props.ArgvErrors
import Verif.Core.Kernel
import Verif.Props.Doubling
import Verif.Props.DoublingCompare
import Verif.Props.EntropyRegular
import Verif.Props.EntropyScheme
import Verif.Props.EntropyConvergence
import Verif.Props.ElementFlux
import Verif.Props.ElementConvergence
import Verif.Props.EndTime
import Verif.Props.EndConvergence
import Verif.Props.WeakLimit
import Verif.Props.WeakRuns
import Verif.Props.WeakSchemes
import Verif.Props.LaxWendroff
import Verif.Props.ShockSpeed
import Verif.Props.WeakInside
import Verif.Props.InsideLimit
import Verif.Props.Inside
import Verif.Core.Script
import Verif.Props.ScriptCases
import Verif.Props.Script
import Verif.Props.ElementForm
import Verif.Props.ElementPieces
import Verif.Props.WeakElements
import Verif.Props.WaterEnergy
import Verif.Core.CalculateLW
import Verif.Props.CalculateLW
import Verif.Core.CalculateAD
import Verif.Props.CalculateAD
import Verif.Props.CalculateScheme
import Verif.Core.CalculateCoarse
import Verif.Props.CalculateCoarse
