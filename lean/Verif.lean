import Verif.Model.Base
import Verif.Model.Time
import Verif.Model.Containers
import Verif.Model.Ast
import Verif.Model.ExpandTime
import Verif.Props.Time
import Verif.Props.Containers
import Verif.Props.ExpandTime
import Verif.Model.Printer
import Verif.Props.Printer
import Verif.Model.Sym
import Verif.Props.Sym
import Verif.Props.Flatten
import Verif.Props.DiffTime
import Verif.Model.ToSympy
import Verif.Model.Block
import Verif.Props.ToBlock
import Verif.Props.Calibration
import Verif.Props.Lagrangian
import Verif.Model.SimplifyBlock
import Verif.Props.Solve
import Verif.Props.DeepFoc
import Verif.Props.SimplifyBlock
import Verif.Model.Validate
import Verif.Props.Validate
import Verif.Model.Loader
import Verif.Props.Loader
import Verif.Props.Primitives
import Verif.Props.Closure
import Verif.Props.Closure2
import Verif.Model.ParserMisc
import Verif.Props.ParserMisc
import Verif.Model.PerfectForesight
import Verif.Model.SparseRoot
import Verif.Props.PerfectForesight
import Verif.Props.SparseRoot
import Verif.Props.SparseRoot2
import Verif.Model.ClosedForm
import Verif.Props.ClosedForm
import Verif.Props.ClosedForm2
import Verif.Model.Simplification
import Verif.Props.Simplification
import Verif.Props.Timing
import Verif.Model.LinearSolve
import Verif.Props.LinearSolve
import Verif.Model.Simulate
import Verif.Props.Simulate
import Verif.Props.Containers2
import Verif.Model.Statistics
import Verif.Model.Perturbation
import Verif.Props.Statistics
import Verif.Props.Perturbation
import Verif.Props.BlockValidate
import Verif.Props.Gensys
import Verif.Props.GensysCore
import Verif.Props.GensysModel
import Verif.Props.GensysSolution
import Verif.Props.BKCheck
import Verif.Props.GensysExample
import Verif.Model.SteadyState
import Verif.Model.Build
import Verif.Props.SteadyState
import Verif.Props.Build
import Verif.Model.SSDriver
import Verif.Props.SSDriver
import Verif.Props.SSDriver2
import Verif.Props.SSDriver3
import Verif.Model.StateSpace
import Verif.Props.StateSpace
import Verif.Props.ObsEq
import Verif.Props.Configure
import Verif.Props.StateSpace3
import Verif.Model.Diagnostics
import Verif.Model.Cache
import Verif.Props.ResidualNorms
import Verif.Props.SolveModel
import Verif.Props.Solvability
import Verif.Props.Sampling
import Verif.Props.Cache
import Verif.Model.Tensor
import Verif.Props.Tensor
import Verif.Props.Tensor2
import Verif.Props.BlockFn
import Verif.Props.Solvability2
import Verif.Model.RealEig
import Verif.Props.RealEig
import Verif.Props.BKSymbolic
import Verif.Props.BKSymbolic2
import Verif.Props.BKSymbolic3
import Verif.Model.Dynare
import Verif.Model.DynareGrammar
import Verif.Props.Dynare
import Verif.Props.Dynare2
import Verif.Props.Dynare3
import Verif.Props.DynareNames
import Verif.Props.DynareFile
import Verif.Props.DynareBlocks
import Verif.Props.DynareSteady
import Verif.Model.Lexer
import Verif.Model.GcnSpec
import Verif.Model.Grammar
import Verif.Model.GrammarSpec
import Verif.Props.Lexer
import Verif.Props.GrammarExpr
import Verif.Props.GrammarStmt
import Verif.Props.GrammarDist
import Verif.Props.Grammar
import Verif.Model.PrintText
import Verif.Model.PrintSpec
import Verif.Props.PrintText
import Verif.Model.ErrorText
import Verif.Model.ErrorSpec
import Verif.Props.ErrorText
import Verif.Props.PrintModel
import Verif.Props.PrintFile
import Verif.Model.Pipeline
import Verif.Model.PipelineSpec
import Verif.Props.Pipeline
import Verif.Props.Stationary
import Verif.Props.StationaryDefs
import Verif.Model.Plotting
import Verif.Props.Plotting
import Verif.Model.StateSpaceBuild
import Verif.Model.GensysParts
import Verif.Model.ForwardVars
import Verif.Props.StateSpaceBuild
import Verif.Props.GensysParts
import Verif.Props.ForwardVars
import Verif.Model.CalibrationSpec
import Verif.Model.ToDistribution
import Verif.Props.FileCalibration
import Verif.Model.PFCompile
import Verif.Props.PFCompile
import Verif.Model.PFSolve
import Verif.Props.PFSolve
import Verif.Model.SSGraphs
import Verif.Props.SSGraphs
import Verif.Props.ParseDists
import Verif.Model.Report
import Verif.Props.Report
import Verif.Model.DataFromPrior
import Verif.Props.DataFromPrior
import Verif.Model.LoadSimplified
import Verif.Props.LoadSimplified
import Verif.Model.ValidationText
import Verif.Props.ValidationText
import Verif.Model.DirectConvert
import Verif.Props.DirectConvert
import Verif.Model.FigAcf
import Verif.Props.FigAcf
import Verif.Model.Figures
import Verif.Props.Figures
import Verif.Model.Responses
import Verif.Props.Responses
import Verif.Model.ContainerValues
import Verif.Props.ContainerValues
import Verif.Props.Details
import Verif.Props.SteadyWritten
import Verif.Model.SolverReuse
import Verif.Props.SolverReuse
import Verif.Props.DynareWritten
import Verif.Model.StateSpaceSolve
import Verif.Props.StateSpaceWritten
import Verif.Props.BKRoots
import Verif.Props.PFJacobian
import Verif.Props.RationalExpectations
import Verif.Model.BKReport
import Verif.Props.BKReport
import Verif.Props.WritingOrder
import Verif.Props.Units
import Verif.Props.Flags
import Verif.Props.Moments
import Verif.Props.AtRest
import Verif.Props.Structural
import Verif.Props.ExpressionErrors
import Verif.Props.LinearModels
import Verif.Model.NodeText
import Verif.Props.NodeText
import Verif.Model.RewriteSpec
import Verif.Props.Rewrite
import Verif.Props.RewriteSolution
import Verif.Props.RewriteDefault
import Verif.Props.RewritePriors
import Verif.Model.PrintLoadSpec
import Verif.Props.PrintLoad
