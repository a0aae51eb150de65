import Verif.Base.Vec
import Verif.Base.XR
import Verif.Basis.ArnoldiBreak
import Verif.Basis.ArnoldiDeriv
import Verif.Basis.ArnoldiLemmas
import Verif.Basis.ArnoldiModel
import Verif.Basis.ArnoldiOrder
import Verif.Basis.ArnoldiProps
import Verif.Basis.ArnoldiSpan
import Verif.Basis.DtypeModel
import Verif.Basis.DtypeProps
import Verif.Basis.FamilyModel
import Verif.Basis.FamilyProps
import Verif.Basis.IndexModel
import Verif.Basis.IndexProps
import Verif.Basis.RoundCheb
import Verif.Basis.RoundLeg
import Verif.Basis.RoundModel
import Verif.Basis.RoundProps
import Verif.Basis.TensorModel
import Verif.Basis.TensorProps
import Verif.Demo.Examples
import Verif.Demo.ExpLemmas
import Verif.Demo.ExpModel
import Verif.Demo.ExpProps
import Verif.Demo.GearModel
import Verif.Demo.GearProps
import Verif.Demo.Grad
import Verif.Demo.NozzleLayer
import Verif.Demo.NozzleModel
import Verif.Demo.NozzleProps
import Verif.Demo.NozzleShip
import Verif.Demo.NozzleWitness
import Verif.Demo.OtlModel
import Verif.Demo.OtlProps
import Verif.Demo.PistonModel
import Verif.Demo.PistonProps
import Verif.Demo.PolyModel
import Verif.Demo.PolyProps
import Verif.Demo.RunArgs
import Verif.Demo.RunArgsModel
import Verif.Demo.RunModel
import Verif.Demo.RunProps
import Verif.Demo.RunTasks
import Verif.Demo.WingModel
import Verif.Demo.WingProps
import Verif.Domain.BoundaryModel
import Verif.Domain.BoundaryProps
import Verif.Domain.ChebModel
import Verif.Domain.ChebProps
import Verif.Domain.ChordLaw
import Verif.Domain.ClassModel
import Verif.Domain.ClassProps
import Verif.Domain.ClosestProps
import Verif.Domain.ClosestTotal
import Verif.Domain.ConsModel
import Verif.Domain.ConsProps
import Verif.Domain.CornerIntProps
import Verif.Domain.CtorModel
import Verif.Domain.CtorProps
import Verif.Domain.DimHull
import Verif.Domain.DimModel
import Verif.Domain.DimProps
import Verif.Domain.Exact
import Verif.Domain.ExtentLemmas
import Verif.Domain.ExtentModel
import Verif.Domain.ExtentProps
import Verif.Domain.GridProps
import Verif.Domain.HitForget
import Verif.Domain.HitForgetProps
import Verif.Domain.HitLaw
import Verif.Domain.HitRunModel
import Verif.Domain.HitRunProps
import Verif.Domain.HitUniform
import Verif.Domain.HullExists
import Verif.Domain.HullModel
import Verif.Domain.HullProps
import Verif.Domain.Lemmas
import Verif.Domain.LogNormalModel
import Verif.Domain.LogNormalProps
import Verif.Domain.MembershipProps
import Verif.Domain.MemoProps
import Verif.Domain.Model
import Verif.Domain.MomentLaw
import Verif.Domain.MomentProps
import Verif.Domain.NamesModel
import Verif.Domain.NamesProps
import Verif.Domain.NormExact
import Verif.Domain.NormLemmas
import Verif.Domain.NormModel
import Verif.Domain.NormProps
import Verif.Domain.PdfModel
import Verif.Domain.PdfNorm
import Verif.Domain.PdfProps
import Verif.Domain.PdfSample
import Verif.Domain.PointQueryProps
import Verif.Domain.QueryModel
import Verif.Domain.QueryProps
import Verif.Domain.RootProps
import Verif.Domain.RoundExists
import Verif.Domain.RoundExtent
import Verif.Domain.RoundExtentModel
import Verif.Domain.RoundGridModel
import Verif.Domain.RoundGridProps
import Verif.Domain.RoundLemmas
import Verif.Domain.RoundModel
import Verif.Domain.RoundNorm
import Verif.Domain.RoundProps
import Verif.Domain.SampleModel
import Verif.Domain.SampleProps
import Verif.Domain.SolverLemmas
import Verif.Domain.SolverModel
import Verif.Domain.SolverProps
import Verif.Domain.Spec
import Verif.Domain.SupportProps
import Verif.Domain.SweepModel
import Verif.Domain.SweepProps
import Verif.Domain.TensorLemmas
import Verif.Domain.VolumeModel
import Verif.Domain.VolumeProps
import Verif.Func.AffineLimit
import Verif.Func.AffineProps
import Verif.Func.AltModel
import Verif.Func.AltProps
import Verif.Func.AltWitness
import Verif.Func.ApproxBasis
import Verif.Func.ApproxFit
import Verif.Func.ApproxModel
import Verif.Func.ApproxProps
import Verif.Func.AsyncModel
import Verif.Func.AsyncProps
import Verif.Func.BaseModel
import Verif.Func.BaseProps
import Verif.Func.DegreeProps
import Verif.Func.FinishProps
import Verif.Func.FitLimit
import Verif.Func.FunctionFd
import Verif.Func.FunctionGrad
import Verif.Func.FunctionModel
import Verif.Func.FunctionProps
import Verif.Func.MergeModel
import Verif.Func.MergeProps
import Verif.Func.PolyModel
import Verif.Func.PolyProps
import Verif.Func.RecoverProps
import Verif.Func.RefitModel
import Verif.Func.RefitProps
import Verif.Func.RidgeProps
import Verif.Func.RoundFdModel
import Verif.Func.RoundFdProps
import Verif.Func.SmallProps
import Verif.Func.StartModel
import Verif.Func.StartProps
import Verif.Func.TensorPoly
import Verif.Func.TensorSpan
import Verif.Func.UphillProps
import Verif.Func.VarproDeriv
import Verif.Func.VarproModel
import Verif.Func.VarproProps
import Verif.Func.VarproRun
import Verif.Func.VecModel
import Verif.Func.VecProps
import Verif.GP.ConvProps
import Verif.GP.FitModel
import Verif.GP.FitProps
import Verif.GP.Kernel
import Verif.GP.LikModel
import Verif.GP.LikProps
import Verif.GP.Model
import Verif.GP.Props
import Verif.GP.StepModel
import Verif.GP.StepProps
import Verif.GP.VarProps
import Verif.Geometry.FillLimit
import Verif.Geometry.GeoModel
import Verif.Geometry.GeoProps
import Verif.Geometry.LawProps
import Verif.Geometry.MiniballModel
import Verif.Geometry.MiniballProps
import Verif.Geometry.OrderProps
import Verif.Geometry.TensorLaw
import Verif.Geometry.VertexModel
import Verif.Geometry.VertexProps
import Verif.Geometry.VsampleModel
import Verif.Geometry.VsampleProps
import Verif.Geometry.VsampleRandom
import Verif.Lipschitz.ApproxModel
import Verif.Lipschitz.ApproxProps
import Verif.Lipschitz.BoundModel
import Verif.Lipschitz.BoundProps
import Verif.Lipschitz.ConstProps
import Verif.Lipschitz.CoordModel
import Verif.Lipschitz.CoordProps
import Verif.Lipschitz.DescentModel
import Verif.Lipschitz.DescentProps
import Verif.Lipschitz.DistModel
import Verif.Lipschitz.DistProps
import Verif.Lipschitz.FitExists
import Verif.Lipschitz.FitModel
import Verif.Lipschitz.FitProps
import Verif.Lipschitz.LimitProps
import Verif.Lipschitz.OptProps
import Verif.Lipschitz.OrderProps
import Verif.Lipschitz.ParamModel
import Verif.Lipschitz.ParamProps
import Verif.Lipschitz.PartialModel
import Verif.Lipschitz.PartialProps
import Verif.Lipschitz.ProjModel
import Verif.Lipschitz.ProjProps
import Verif.Lipschitz.RidgeWidthProps
import Verif.Lipschitz.RoundConstModel
import Verif.Lipschitz.RoundConstProps
import Verif.Lipschitz.RoundModel
import Verif.Lipschitz.RoundProps
import Verif.Lipschitz.SignProps
import Verif.Misc.ActiveExact
import Verif.Misc.ActiveLimit
import Verif.Misc.ActiveModel
import Verif.Misc.ActiveOpt
import Verif.Misc.ActivePerturb
import Verif.Misc.ActiveProps
import Verif.Misc.ActiveQuad
import Verif.Misc.ActiveRidge
import Verif.Misc.ActiveSym
import Verif.Misc.AngleProps
import Verif.Misc.ChanceModel
import Verif.Misc.ChanceProps
import Verif.Misc.CheckModel
import Verif.Misc.CheckProps
import Verif.Misc.ContourModel
import Verif.Misc.ContourProps
import Verif.Misc.DensityModel
import Verif.Misc.DensityProps
import Verif.Misc.FdSubspace
import Verif.Misc.GaussModel
import Verif.Misc.GaussNodes
import Verif.Misc.GaussProps
import Verif.Misc.LipActive
import Verif.Misc.LocalModel
import Verif.Misc.LocalOrder
import Verif.Misc.LocalProps
import Verif.Misc.LocalRate
import Verif.Misc.LstsqExists
import Verif.Misc.NonlinModel
import Verif.Misc.NonlinProps
import Verif.Misc.OpgModel
import Verif.Misc.OpgProps
import Verif.Misc.PerplexityModel
import Verif.Misc.PerplexityOk
import Verif.Misc.PerplexityProps
import Verif.Misc.PgfModel
import Verif.Misc.PgfProps
import Verif.Misc.PlotModel
import Verif.Misc.PlotProps
import Verif.Misc.QuadLemmas
import Verif.Misc.QuadLimit
import Verif.Misc.QuadLin
import Verif.Misc.QuadModel
import Verif.Misc.QuadProps
import Verif.Misc.ShadowModel
import Verif.Misc.ShadowProps
import Verif.Misc.ShareGetProps
import Verif.Misc.ShareModel
import Verif.Misc.ShareProps
import Verif.Misc.StudyModel
import Verif.Misc.StudyProps
import Verif.Misc.SvdExists
import Verif.Opt.GNModel
import Verif.Opt.GNProps
import Verif.Opt.GNQuad
import Verif.Opt.GNRate
import Verif.Opt.KktModel
import Verif.Opt.KktProps
import Verif.Opt.MinimaxModel
import Verif.Opt.MinimaxProps
import Verif.Opt.MinimaxRate
import Verif.Opt.SeqLPModel
import Verif.Opt.SeqLPProps
import Verif.Opt.SeqLPRate
import Verif.Opt.UncertModel
import Verif.Opt.UncertProps
import Verif.Sample.BisectModel
import Verif.Sample.BisectProps
import Verif.Sample.BlockModel
import Verif.Sample.BlockProps
import Verif.Sample.ClusterModel
import Verif.Sample.ClusterProps
import Verif.Sample.CoffeeNet
import Verif.Sample.CoverModel
import Verif.Sample.CoverProps
import Verif.Sample.DesignFill
import Verif.Sample.DesignModel
import Verif.Sample.DesignProps
import Verif.Sample.DtypeModel
import Verif.Sample.DtypeProps
import Verif.Sample.Examples
import Verif.Sample.GreedyModel
import Verif.Sample.GreedyProps
import Verif.Sample.InitialModel
import Verif.Sample.InitialProps
import Verif.Sample.LatinMeanProps
import Verif.Sample.LatinModel
import Verif.Sample.LatinProps
import Verif.Sample.LatinSwap
import Verif.Sample.LloydModel
import Verif.Sample.LloydProps
import Verif.Sample.LowRankModel
import Verif.Sample.LowRankProps
import Verif.Sample.OneDModel
import Verif.Sample.OneDProps
import Verif.Sample.PoissonGridEnds
import Verif.Sample.PoissonModel
import Verif.Sample.PoissonProps
import Verif.Sample.ProjSampleFit
import Verif.Sample.ProjSampleModel
import Verif.Sample.ProjSampleProps
import Verif.Sample.ProjectionFit
import Verif.Sample.ProjectionModel
import Verif.Sample.ProjectionProps
import Verif.Sample.ProjectionWitness
import Verif.Sample.PsoModel
import Verif.Sample.PsoProps
import Verif.Sample.SamplerModel
import Verif.Sample.SamplerProps
import Verif.Sample.SatModel
import Verif.Sample.SatProps
import Verif.Sample.ScaleModel
import Verif.Sample.ScaleProps
import Verif.Sample.ScaleWorse
import Verif.Sample.SeqModel
import Verif.Sample.SeqOrder
import Verif.Sample.SeqProps
import Verif.Sample.SmallProps
import Verif.Sample.SobolModel
import Verif.Sample.SobolProps
import Verif.Sample.StopProps
import Verif.Sample.StretchModel
import Verif.Sample.StretchProps
import Verif.Sample.VorModel
import Verif.Sample.VorProps
import Verif.Sample.WidthProps
