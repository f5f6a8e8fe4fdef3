import Verif.Pie.StatusProps
import Verif.Pie.ProperLemmas
import Verif.Pie.StepProps
import Verif.Pie.GridProps
import Verif.Pie.HTrans
import Verif.Pie.UnboundedProps
import Verif.Pie.SnapshotProps
import Verif.Pie.VaryProps
import Verif.Pie.AnnounceProps
import Verif.Pie.ScoreProps
import Verif.Pie.NamesProps
import Verif.Grid.MaxListProps
import Verif.Grid.IntervalProps
import Verif.Grid.PeakProps
import Verif.Grid.RefineLemmas
import Verif.Grid.QuadProps
import Verif.Grid.FillProps
import Verif.Grid.GridQuadProps
import Verif.Grid.HpdProps
import Verif.Utils.StepperProps
import Verif.Utils.NumUtilsProps
import Verif.Utils.FileProps
import Verif.Utils.NrMinProps
import Verif.MC.TablesProps
import Verif.MC.SubsetProps
import Verif.MC.PopProps
import Verif.MC.SampfordProps
import Verif.MC.Pps5Lemmas
import Verif.MC.Pps5Props
import Verif.MC.PWProps
import Verif.Count.OnOffProps
import Verif.Count.MargProps
import Verif.Count.GammlnProps
import Verif.Gauss.VbaProps
import Verif.Gauss.BAProps
import Verif.Gauss.BAObjProps
import Verif.Integrate.Cub2DProps
import Verif.Integrate.NormalProps
import Verif.Integrate.AdaptProps
import Verif.Integrate.AdaptVecProps
import Verif.Deriv.ObsInfoProps
import Verif.Integrate.SymProps
import Verif.MC.Pop1DProps
import Verif.Grid.PointProps
import Verif.Grid.CritProps
import Verif.Deriv.ObsRun
import Verif.Deriv.ObsRunLemmas
import Verif.Pie.Posterior
import Verif.Pie.PosteriorProps
import Verif.MC.TwisterProps
import Verif.Integrate.DcuhreProps
import Verif.Integrate.DrlProps
import Verif.Integrate.DrlExactProps
import Verif.Integrate.DrlNearProps
import Verif.Pie.SetDataProps
import Verif.Signals.KeplerProps
import Verif.Pie.ListenProps
import Verif.Point.Periodic
import Verif.Point.PeriodicLemmas
import Verif.Point.PeriodicInt
import Verif.Point.PeriodicTrap
import Verif.Point.PeriodicProps
import Verif.Point.PCModel
import Verif.Point.PCModelLemmas
import Verif.Point.PCModelProps
import Verif.Point.RateProps
import Verif.Point.Rayleigh
import Verif.Point.Bessel
import Verif.Point.BesselLemmas
import Verif.Point.BesselInt
import Verif.Point.RayleighProps
import Verif.Bha.Bha
import Verif.Bha.BhaLemmas
import Verif.Bha.BhaProps
import Verif.Bha.Series
import Verif.Bha.SeriesProps
import Verif.Bha.VarLemmas
import Verif.Bha.VarProps
import Verif.Regress.Spec
import Verif.Regress.Regress
import Verif.Regress.RegressLemmas
import Verif.Regress.RegressDeriv
import Verif.Regress.SixLemmas
import Verif.Regress.SixProps
import Verif.Regress.BcesLemmas
import Verif.Regress.BcesProps
import Verif.Regress.WlssProps
import Verif.Drxn.Spec
import Verif.Drxn.SphereLemmas
import Verif.Drxn.Drxn
import Verif.Drxn.DrxnLemmas
import Verif.Drxn.DrxnProps
import Verif.Drxn.SigProps
import Verif.Km.Spec
import Verif.Km.Km
import Verif.Km.KmLemmas
import Verif.Km.CoreLemmas
import Verif.Km.UpperLemmas
import Verif.Km.BinLemmas
import Verif.Km.StepLemmas
import Verif.Km.KmProps
import Verif.Km.PopProps
import Verif.Quad.Ccf
import Verif.Quad.TrigLemmas
import Verif.Quad.CcLemmas
import Verif.Quad.FejerLemmas
import Verif.Quad.CcfProps
import Verif.Quad.Composite
import Verif.Quad.MapLemmas
import Verif.Quad.MapProps
import Verif.Quad.CompositeProps
import Verif.Fsm.Fsm
import Verif.Fsm.FsmProps
import Verif.Count.GammlnReal
import Verif.Mvnt.Mvnt
import Verif.Mvnt.CholLemmas
import Verif.Mvnt.SampLemmas
import Verif.Mvnt.LawLemmas
import Verif.Mvnt.MvnProps
import Verif.Mvnt.GjLemmas
import Verif.Mvnt.HgammaProps
import Verif.Mvnt.MvtLemmas
import Verif.Mvnt.MvtProps
import Verif.Mvnt.KdeProps
import Verif.Cosmo.Romberg
import Verif.Cosmo.TrapLemmas
import Verif.Cosmo.QrombLemmas
import Verif.Cosmo.RombergProps
import Verif.Cosmo.Cosmo
import Verif.Cosmo.CosmoProps
import Verif.Cosmo.NewtonLemmas
import Verif.Cosmo.FluxProps
import Verif.Tno.Tno
import Verif.Tno.EtaProps
import Verif.Tno.SigmaProps
import Verif.Tno.NExpLemmas
import Verif.Tno.NExpProps
import Verif.Tno.LikeProps
import Verif.Tno.ThetaLemmas
import Verif.Tno.KsProps
import Verif.Burst.Burst
import Verif.Burst.BurstProps
import Verif.Odiag.Burg
import Verif.Odiag.BurgProps
import Verif.Odiag.Odiag
import Verif.Odiag.OdiagProps
import Verif.Odiag.OdiagEx
import Verif.Odiag.Spec
import Verif.Odiag.SpecProps
import Verif.Odiag.Moments
import Verif.Odiag.MomentProps
import Verif.Odiag.CorrProps
import Verif.Spatial.Spatial
import Verif.Spatial.RangeProps
import Verif.Spatial.RateProps
import Verif.Candle.Candle
import Verif.Candle.CandleProps
import Verif.Lk.Lk
import Verif.Lk.GridProps
import Verif.Lk.LikeProps
import Verif.Agrid.Agrid
import Verif.Agrid.AgridProps
import Verif.Agrid.Nhess
import Verif.Agrid.NhessProps
import Verif.MC.Fill
import Verif.MC.FillProps
import Verif.Grid.Sigma
import Verif.Grid.SigmaProps
import Verif.Pie.CheckProps
import Verif.Signals.PhaseCurve
import Verif.Signals.PhaseCurveProps
import Verif.Integrate.Maps
import Verif.Integrate.MapsProps
import Verif.Integrate.RuleMaker
import Verif.Integrate.RuleMakerProps
import Verif.Drxn.Rep
import Verif.Drxn.RepProps
import Verif.Utils.PlotBivar
import Verif.Utils.PlotBivarProps
import Verif.Pie.ListenStep
import Verif.Pie.ListenStepProps
import Verif.Pie.Registry
import Verif.Pie.RegistryProps
import Verif.Pie.PredCopy
import Verif.Pie.PredCopyProps
import Verif.MC.SamplerMem
import Verif.MC.SamplerMemLemmas
import Verif.MC.SamplerMemProps
import Verif.Count.Wrap
import Verif.Count.WrapProps
import Verif.Pie.Container
import Verif.Pie.ContainerProps
import Verif.MC.Device
import Verif.MC.DeviceProps
import Verif.MC.IntWidth
import Verif.MC.IntWidthProps
import Verif.Gauss.CovarMem
import Verif.Gauss.CovarMemProps
import Verif.Grid.QgtSlow
import Verif.Grid.QgtSlowProps
import Verif.MC.FiveTable
import Verif.MC.FiveTableProps
import Verif.MC.FiveTableBinomProps
import Verif.MC.HyperTable
import Verif.MC.HyperTableProps
import Verif.MC.PoissTable
import Verif.MC.PoissTableProps
import Verif.MC.ChiSq
import Verif.MC.ChiSqProps
import Verif.MC.PhiSeries
import Verif.MC.PhiSeriesProps
import Verif.MC.Dtest
import Verif.MC.DtestProps
import Verif.Deriv.QdInfo
import Verif.Deriv.QdInfoProps
import Verif.Deriv.InfoScale
import Verif.Deriv.InfoScaleProps
import Verif.Deriv.Ockham
import Verif.Deriv.OckhamProps
import Verif.Deriv.LogDet
import Verif.Deriv.LogDetProps
import Verif.Cosmo.Rombint
import Verif.Cosmo.RombintProps
import Verif.Quad.Fcc
import Verif.Quad.FccProps
