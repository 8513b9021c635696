import Verif.Basis.Props
import Verif.Param.Props
import Verif.Param.EndProps
import Verif.Sampling.Props
import Verif.Sampling.SampleProps
import Verif.Poly.Props
import Verif.Poly.FitProps
import Verif.Poly.Setup
import Verif.Stats.Props
import Verif.Stats.MomentProps
import Verif.Stats.CondProps
import Verif.Stats.ExactProps
import Verif.Basis.FirstProps
import Verif.Solver.CGProps
import Verif.Solver.LinProps
import Verif.Solver.MinNormProps
import Verif.Solver.ConvexProps
import Verif.Solver.BPProps
import Verif.Solver.CVProps
import Verif.Solver.RvmProps
import Verif.Tree.PruneProps
import Verif.Tree.CandProps
import Verif.Opt.Props
import Verif.Opt.RadiusProps
import Verif.Opt.RepeatProps
import Verif.Opt.DirProps
import Verif.Opt.ConsProps
import Verif.Sub.Model
import Verif.Sub.ZonoProps
import Verif.Sub.ZonoComplete
import Verif.Sub.HitProps
import Verif.Sub.HitDemo
import Verif.Sub.ActiveProps
import Verif.Sub.DistProps
import Verif.Sub.VPProps
import Verif.Data.Model
import Verif.Data.Props
import Verif.Weight.Model
import Verif.Weight.Props
import Verif.Corr.Model
import Verif.Corr.GramProps
import Verif.Corr.LawProps
import Verif.Net.Model
import Verif.Net.Props
import Verif.Dist.Model
import Verif.Dist.Spec
import Verif.Dist.MomentLemmas
import Verif.Dist.MomentProps
import Verif.Dist.KurtosisProps
import Verif.Dist.DensityProps
import Verif.Dist.AffineLemmas
import Verif.Dist.GridProps
import Verif.Dist.ConstructProps
import Verif.Opt.PoisedProps
import Verif.Opt.Omorf
import Verif.Opt.OmorfProps
import Verif.Opt.PivotProps
import Verif.Opt.OmorfDirs
import Verif.Opt.OmorfLinear
import Verif.Opt.Kwargs
import Verif.Basis.Combination
import Verif.Poly.Sparse
import Verif.Poly.SparseLemmas
import Verif.Poly.SparseProps
import Verif.Poly.Band
import Verif.Poly.BandProps
import Verif.Sampling.InducedModel
import Verif.Sampling.InducedAlg
import Verif.Sampling.InducedStep
import Verif.Sampling.InducedSpec
import Verif.Sampling.Markov
import Verif.Sampling.InducedLemmas
import Verif.Sampling.InducedProps
import Verif.Sampling.BiasLemmas
import Verif.Sampling.BiasProps
import Verif.Sampling.NewtonModel
import Verif.Sampling.NewtonLemmas
import Verif.Sampling.NewtonProps
import Verif.Sub.FitModel
import Verif.Sub.FitLemmas
import Verif.Sub.FitProj
import Verif.Sub.FitProps
import Verif.Sub.FitNewton
import Verif.Sub.FitDemo
import Verif.Sampling.MonteModel
import Verif.Sampling.MonteProps
import Verif.Sub.RidgeModel
import Verif.Sub.RidgeLemmas
import Verif.Sub.RidgeProps
import Verif.Sub.RidgeDemo
import Verif.Sub.BootProps
import Verif.Poly.EndGrid
import Verif.Opt.Surrogate
import Verif.Opt.SurrogateProps
import Verif.Opt.NewPoint
import Verif.Opt.Interp
import Verif.Opt.RandDirs
import Verif.Opt.RandProps
import Verif.Corr.DensityProps
import Verif.Param.UniqueProps
import Verif.Corr.Nataf
import Verif.Corr.NatafProps
import Verif.Param.SampledProps
import Verif.Poly.SampledFit
import Verif.Corr.NatafFit
import Verif.Dist.AnalyticalProps
import Verif.Poly.EvalModel
import Verif.Data.Generators
import Verif.Param.EigenvectorProps
import Verif.Poly.Arguments
import Verif.Poly.Summary
import Verif.Stats.AnovaProps
import Verif.Param.ClassicalProps
import Verif.Tree.GraphProps
import Verif.Stats.GridProps
import Verif.Basis.NestProps
import Verif.Poly.BoxFit
import Verif.Poly.EquivFit
import Verif.Stats.ScaleProps
import Verif.Stats.InertProps
import Verif.Stats.RelabelProps
import Verif.Sampling.JacobiProps
import Verif.Sampling.ChoiceProps
import Verif.Poly.CallableProps
import Verif.Stats.MeanLemmas
import Verif.Stats.DensityLemmas
import Verif.Stats.IndexLemmas
import Verif.Stats.ConvergeLemmas
import Verif.Stats.ConvergeProps
import Verif.Stats.OrderProps
import Verif.Poly.UnitsProps
import Verif.Stats.StructureProps
import Verif.Stats.NoiseProps
import Verif.Dist.ProbLemmas
import Verif.Dist.QueryProps
import Verif.Tree.UnitsProps
import Verif.Opt.ShiftProps
import Verif.Stats.ModelProps
import Verif.Sampling.InterlaceProps
import Verif.Sub.UnitsProps
import Verif.Tree.FitModel
import Verif.Tree.InputProps
import Verif.Tree.OutputProps
import Verif.Tree.OrderProps
import Verif.Poly.UnitsGrad
import Verif.Net.TrainProps
import Verif.Stats.BestProps
import Verif.Data.ScoreProps
import Verif.Poly.R2Props
import Verif.Opt.ScaleProps
import Verif.Opt.OmorfScale
import Verif.Stats.RateProps
import Verif.Poly.BandUnits
import Verif.Solver.ElasticProps
import Verif.Solver.RobustProps
import Verif.Stats.SpaceProps
import Verif.Stats.SparseBest
import Verif.Stats.SparseNoise
import Verif.Stats.SparseRate
import Verif.Poly.PivotProps
import Verif.Poly.PivotBounds
import Verif.Poly.GaussMarkov
import Verif.Stats.HermiteLemmas
import Verif.Stats.GaussError
import Verif.Stats.SobolError
import Verif.Solver.RvmSym
import Verif.Net.RateProps
import Verif.Opt.GainProps
import Verif.Opt.GainOmorf
import Verif.Dist.Describe
import Verif.Solver.BPNewton
import Verif.Sampling.NewtonStep
import Verif.Solver.CVFolds
import Verif.Tree.DepthProps
import Verif.Tree.PruneAgain
import Verif.Tree.SmoothProps
import Verif.Net.TurnProps
import Verif.Net.RidgeProps
import Verif.Stats.InfluenceProps
import Verif.Param.NestedProps
import Verif.Poly.BandSize
import Verif.Tree.ArgProps
import Verif.Stats.AddProps
import Verif.Tree.ExactProps
import Verif.Sub.ArgProps
import Verif.Data.ScaleProps
import Verif.Solver.TurnProps
import Verif.Solver.GradTurn
import Verif.Data.SplitProps
import Verif.Solver.OutlierProps
import Verif.Data.ErrorProps
import Verif.Sub.VectorTurn
import Verif.Solver.GroupProps
import Verif.Solver.MinNormTurn
