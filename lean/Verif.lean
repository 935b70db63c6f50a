import Verif.Autodiff.AdjointLemmas
import Verif.Autodiff.ApiLemmas
import Verif.Autodiff.ApiModel
import Verif.Autodiff.ApiOps
import Verif.Autodiff.ApiProps
import Verif.Autodiff.ApiSpec
import Verif.Autodiff.ApiWitness
import Verif.Autodiff.AutodiffModel
import Verif.Autodiff.BuildLemmas
import Verif.Autodiff.DerivLemmas
import Verif.Autodiff.DirectLemmas
import Verif.Autodiff.DirectSpec
import Verif.Autodiff.DirectStepLemmas
import Verif.Autodiff.ExprModel
import Verif.Autodiff.GradLemmas
import Verif.Autodiff.GradTreeLemmas
import Verif.Autodiff.GraphLemmas
import Verif.Autodiff.GraphModel
import Verif.Autodiff.GraphProps
import Verif.Autodiff.HeapLemmas
import Verif.Autodiff.JacLemmas
import Verif.Autodiff.JacObjLemmas
import Verif.Autodiff.LineLemmas
import Verif.Autodiff.ObsLemmas
import Verif.Autodiff.RealOps
import Verif.Autodiff.SignedZeroWitness
import Verif.Autodiff.SmoothModel
import Verif.Autodiff.StepLemmas
import Verif.Autodiff.TermLemmas
import Verif.Autodiff.TermSpec
import Verif.Autodiff.TreeLemmas
import Verif.Autodiff.TypeLemmas
import Verif.Matrix.ArithProps
import Verif.Matrix.ArithSpec
import Verif.Matrix.AssembleProps
import Verif.Matrix.BlockChain
import Verif.Matrix.BlockLemmas
import Verif.Matrix.BlockModel
import Verif.Matrix.BlockProps
import Verif.Matrix.BlockSpec
import Verif.Matrix.ConstraintModel
import Verif.Matrix.ConstraintProps
import Verif.Matrix.ExpProps
import Verif.Matrix.LuLemmas
import Verif.Matrix.LuModel
import Verif.Matrix.LuProps
import Verif.Matrix.MakeModel
import Verif.Matrix.MakeProps
import Verif.Matrix.MatModel
import Verif.Matrix.PadeLemmas
import Verif.Matrix.QrLemmas
import Verif.Matrix.QrModel
import Verif.Matrix.QrProps
import Verif.Matrix.SliceModel
import Verif.Matrix.SliceProps
import Verif.Matrix.SliceSingleProps
import Verif.Matrix.SliceSpec
import Verif.Matrix.SolveLemmas
import Verif.Matrix.SolveProps
import Verif.Matrix.ViewProps
import Verif.Memory.PoolModel
import Verif.Memory.PoolProps
import Verif.Memory.RefLemmas
import Verif.Memory.RefModel
import Verif.Memory.RefProps
import Verif.Memory.RefSpec
import Verif.Memory.RefStep
import Verif.Memory.ThreadModel
import Verif.Memory.ThreadProps
import Verif.Problem.AccuracyLemmas
import Verif.Problem.AgainProps
import Verif.Problem.CallbackOrderProps
import Verif.Problem.CallbackProps
import Verif.Problem.ClockProps
import Verif.Problem.ConvexExample
import Verif.Problem.ConvexProps
import Verif.Problem.DeclareProps
import Verif.Problem.FalseAlarmProps
import Verif.Problem.FiniteProps
import Verif.Problem.FlowLemmas
import Verif.Problem.FormulaProps
import Verif.Problem.InfeasibleProps
import Verif.Problem.MultistartModel
import Verif.Problem.MultistartProps
import Verif.Problem.OcpAccuracyProps
import Verif.Problem.OcpLemmas
import Verif.Problem.OcpModel
import Verif.Problem.OcpProps
import Verif.Problem.OdeLemmas
import Verif.Problem.OffsetProblemProps
import Verif.Problem.OneStepLemmas
import Verif.Problem.ProblemModel
import Verif.Problem.ReportModel
import Verif.Problem.ReportProps
import Verif.Problem.RequestLemmas
import Verif.Problem.RequestOkLemmas
import Verif.Problem.RestartProps
import Verif.Problem.RkLemmas
import Verif.Problem.SeenProps
import Verif.Problem.SetupLemmas
import Verif.Problem.SetupModel
import Verif.Problem.SetupNlpProps
import Verif.Problem.SetupProps
import Verif.Problem.SetupSpec
import Verif.Problem.ShownProps
import Verif.Problem.SliceLemmas
import Verif.Problem.SolveExample
import Verif.Problem.SolveProps
import Verif.Problem.StationaryProps
import Verif.Problem.StatusProps
import Verif.Problem.UnusedProps
import Verif.Problem.ValueProps
import Verif.Python.PyCallbackModel
import Verif.Python.PyCallbackProps
import Verif.Python.PyFuncLemmas
import Verif.Python.PyFuncProps
import Verif.Python.PyIndexLemmas
import Verif.Python.PyIndexModel
import Verif.Python.PyIndexProps
import Verif.Python.PyIndexSpec
import Verif.Python.PyOcpProps
import Verif.Python.PyOpsLemmas
import Verif.Python.PyOpsModel
import Verif.Python.PyOpsProps
import Verif.Python.PyOpsSpec
import Verif.Python.PyProblemLemmas
import Verif.Python.PyProblemModel
import Verif.Python.PyProblemProps
import Verif.Python.PyProblemSpec
import Verif.Python.PySolveModel
import Verif.Python.PySolveProps
import Verif.Python.PyViewLemmas
import Verif.Python.PyViewModel
import Verif.Python.PyViewProps
import Verif.Python.PyViewRefine
import Verif.Python.PyViewSpec
import Verif.Rounding.BinaryModel
import Verif.Rounding.DirectProps
import Verif.Rounding.FactorLemmas
import Verif.Rounding.FloatAccLemmas
import Verif.Rounding.FloatBuildLemmas
import Verif.Rounding.FloatCalmLemmas
import Verif.Rounding.FloatConvLemmas
import Verif.Rounding.FloatConvProps
import Verif.Rounding.FloatConvSpec
import Verif.Rounding.FloatGradLemmas
import Verif.Rounding.FloatJacLemmas
import Verif.Rounding.FloatLocalLemmas
import Verif.Rounding.FloatModel
import Verif.Rounding.FloatNearLemmas
import Verif.Rounding.FloatOpLemmas
import Verif.Rounding.FloatProps
import Verif.Rounding.FloatSpec
import Verif.Rounding.FloatStepLemmas
import Verif.Rounding.FloatSuccessProps
import Verif.Rounding.FloatSuccessSpec
import Verif.Rounding.FloatTermLemmas
import Verif.Rounding.FloatUnifLemmas
import Verif.Rounding.KktRoundModel
import Verif.Rounding.KktRoundProps
import Verif.Rounding.KktRoundSqpProps
import Verif.Rounding.RoundLemmas
import Verif.Rounding.RoundModel
import Verif.Rounding.RoundProps
import Verif.Solver.AffineCase
import Verif.Solver.AffineLemmas
import Verif.Solver.AffineProps
import Verif.Solver.AffineRateProps
import Verif.Solver.AffineRateSpec
import Verif.Solver.AffineSpec
import Verif.Solver.AffineStartProps
import Verif.Solver.AffineStartSpec
import Verif.Solver.AgreeLemmas
import Verif.Solver.BarrierProps
import Verif.Solver.BoundaryModel
import Verif.Solver.BoundaryProps
import Verif.Solver.BoundsModel
import Verif.Solver.BoundsProps
import Verif.Solver.ClockFreeLemmas
import Verif.Solver.ClockFreeProps
import Verif.Solver.ClockLemmas
import Verif.Solver.DescentCase
import Verif.Solver.DescentLemmas
import Verif.Solver.DescentProps
import Verif.Solver.DescentRateProps
import Verif.Solver.DescentSpec
import Verif.Solver.ElasticLemmas
import Verif.Solver.ElasticProps
import Verif.Solver.EntryProps
import Verif.Solver.ErrorProps
import Verif.Solver.ExactModel
import Verif.Solver.FeasibleProps
import Verif.Solver.FeasibleWitness
import Verif.Solver.FilterModel
import Verif.Solver.FilterProps
import Verif.Solver.Fl
import Verif.Solver.HistoryLemmas
import Verif.Solver.IpmLemmas
import Verif.Solver.IpmModel
import Verif.Solver.IpmProps
import Verif.Solver.IterationProps
import Verif.Solver.KktLemmas
import Verif.Solver.KktModel
import Verif.Solver.KktProps
import Verif.Solver.LdltLemmas
import Verif.Solver.LdltModel
import Verif.Solver.LdltProps
import Verif.Solver.LimitLemmas
import Verif.Solver.LimitProps
import Verif.Solver.LineSearchLemmas
import Verif.Solver.LineSearchProps
import Verif.Solver.LinearCase
import Verif.Solver.LinearProps
import Verif.Solver.LinearSpec
import Verif.Solver.LoopLemmas
import Verif.Solver.LoopModel
import Verif.Solver.LoopRules
import Verif.Solver.LoopStepLemmas
import Verif.Solver.LoopStepProps
import Verif.Solver.MultiplierModel
import Verif.Solver.MultiplierProps
import Verif.Solver.NewtonModel
import Verif.Solver.NewtonProps
import Verif.Solver.OffsetLemmas
import Verif.Solver.OffsetNewton
import Verif.Solver.OffsetProps
import Verif.Solver.OffsetSqp
import Verif.Solver.PatternLemmas
import Verif.Solver.PatternModel
import Verif.Solver.PatternProps
import Verif.Solver.PivotProps
import Verif.Solver.PositiveLemmas
import Verif.Solver.ProgressLemmas
import Verif.Solver.ProgressProps
import Verif.Solver.QuadraticProps
import Verif.Solver.QuadraticSpec
import Verif.Solver.RegularLemmas
import Verif.Solver.RegularProps
import Verif.Solver.RestartProps
import Verif.Solver.RestoreExitLemmas
import Verif.Solver.RestoreExitProps
import Verif.Solver.RestoreInitModel
import Verif.Solver.RestoreInitProps
import Verif.Solver.RestoreLoopModel
import Verif.Solver.RestoreModel
import Verif.Solver.RestoreProblemProps
import Verif.Solver.RestoreProps
import Verif.Solver.RunExamples
import Verif.Solver.SeenLemmas
import Verif.Solver.ShownLemmas
import Verif.Solver.SilentLemmas
import Verif.Solver.SilentProps
import Verif.Solver.SparseLemmas
import Verif.Solver.SparseModel
import Verif.Solver.SparseProps
import Verif.Solver.SqpModel
import Verif.Solver.SqpProgressProps
import Verif.Solver.SqpProps
import Verif.Solver.SqpRegularProps
import Verif.Solver.SqpSearchProps
import Verif.Solver.SqpStepProps
import Verif.Solver.StepModel
import Verif.Solver.StepProps
import Verif.Solver.StopWitness
import Verif.Solver.TimeoutWitness
import Verif.Solver.ToleranceLemmas
import Verif.Solver.ToleranceProps
import Verif.Solver.UnusedProps
import Verif.Util.DiagModel
import Verif.Util.DiagProps
import Verif.Util.FunctionRefModel
import Verif.Util.FunctionRefProps
import Verif.Util.FunctionRefSpec
import Verif.Util.ScopeModel
import Verif.Util.ScopeProps
import Verif.Util.SpyModel
import Verif.Util.SpyProps
import Verif.Util.TableModel
import Verif.Util.TableProps
