import Verif.Config.AskModel
import Verif.Config.AskProps
import Verif.Config.BlockModel
import Verif.Config.BlockProps
import Verif.Config.BuiltProps
import Verif.Config.DocLemmas
import Verif.Config.ErrModel
import Verif.Config.ErrProps
import Verif.Config.HeapLemmas
import Verif.Config.HeapModel
import Verif.Config.HeapProps
import Verif.Config.HeapViewProps
import Verif.Config.IncludeProps
import Verif.Config.InterpLemmas
import Verif.Config.InterpModel
import Verif.Config.InterpProps
import Verif.Config.InterpSpec
import Verif.Config.LexAuto
import Verif.Config.LexKinds
import Verif.Config.LexLemmas
import Verif.Config.LexModel
import Verif.Config.LexPosModel
import Verif.Config.LexPosProps
import Verif.Config.LexProps
import Verif.Config.LexRender
import Verif.Config.LexSpec
import Verif.Config.LoadMemModel
import Verif.Config.LoadMemProps
import Verif.Config.LoadModel
import Verif.Config.LoadProps
import Verif.Config.LongestProps
import Verif.Config.MergeLemmas
import Verif.Config.MergeModel
import Verif.Config.OverwriteProps
import Verif.Config.PtrModel
import Verif.Config.PtrProps
import Verif.Config.SFileSettingModel
import Verif.Config.SFileSettingProps
import Verif.Config.SettingLemmas
import Verif.Config.SettingMemModel
import Verif.Config.SettingMemProps
import Verif.Config.SettingModel
import Verif.Config.SettingProps
import Verif.Config.TreeLemmas
import Verif.Config.UbLemmas
import Verif.Config.WholeProps
import Verif.Dist.BesselProps
import Verif.Dist.CodeFileModel
import Verif.Dist.CodeFileProps
import Verif.Dist.CodeMemModel
import Verif.Dist.CodeMemProps
import Verif.Dist.CodeModel
import Verif.Dist.CodeProps
import Verif.Dist.CubicModel
import Verif.Dist.CubicProps
import Verif.Dist.CyclicProps
import Verif.Dist.DeprModel
import Verif.Dist.DeprProps
import Verif.Dist.DreamNameModel
import Verif.Dist.DreamNameProps
import Verif.Dist.EvalProps
import Verif.Dist.FileEvalProps
import Verif.Dist.FormulaProps
import Verif.Dist.FormulaRoundModel
import Verif.Dist.FormulaRoundProps
import Verif.Dist.GoFileModel
import Verif.Dist.GoFileProps
import Verif.Dist.GoModeProps
import Verif.Dist.InsertProps
import Verif.Dist.LegRoundModel
import Verif.Dist.LegRoundProps
import Verif.Dist.LegendreProps
import Verif.Dist.LinearModel
import Verif.Dist.LinearProps
import Verif.Dist.LinearRoundModel
import Verif.Dist.LinearRoundProps
import Verif.Dist.LoadExactProps
import Verif.Dist.LoadModel
import Verif.Dist.LoadProps
import Verif.Dist.LogModel
import Verif.Dist.LogProps
import Verif.Dist.LukeModel
import Verif.Dist.LukeProps
import Verif.Dist.ModeExactProps
import Verif.Dist.ModeModel
import Verif.Dist.ModeProps
import Verif.Dist.MomentumModel
import Verif.Dist.MomentumProps
import Verif.Dist.NumberProps
import Verif.Dist.NumericModel
import Verif.Dist.OrthoProps
import Verif.Dist.ParModel
import Verif.Dist.ParProps
import Verif.Dist.PeriodicProps
import Verif.Dist.PositiveProps
import Verif.Dist.ProfileModel
import Verif.Dist.ProfileProps
import Verif.Dist.ProfileRoundModel
import Verif.Dist.ProfileRoundProps
import Verif.Dist.ReaderMemModel
import Verif.Dist.ReaderMemProps
import Verif.Dist.SearchProps
import Verif.Dist.SuperposeProps
import Verif.Dist.TableMemModel
import Verif.Dist.TableMemProps
import Verif.General.ElemModel
import Verif.General.ElemProps
import Verif.General.FormatModel
import Verif.General.FormatProps
import Verif.General.MatRoundModel
import Verif.General.MatRoundProps
import Verif.General.MulAssignProps
import Verif.General.ProgressModel
import Verif.General.ProgressProps
import Verif.General.RoundEval
import Verif.General.RoundModel
import Verif.General.RoundProps
import Verif.General.SpecialModel
import Verif.General.SpecialProps
import Verif.General.TimeOverflowModel
import Verif.General.TimeOverflowProps
import Verif.General.TimeTextModel
import Verif.General.TimeTextProps
import Verif.General.TimerProps
import Verif.General.VecRoundModel
import Verif.General.VecRoundProps
import Verif.General.VectorModel
import Verif.General.VectorProps
import Verif.General.WithinProps
import Verif.Image.ImageModel
import Verif.Image.ImageProps
import Verif.Image.SaveModel
import Verif.Image.SaveProps
import Verif.Integration.GoldenRoundModel
import Verif.Integration.GoldenRoundProps
import Verif.Integration.PeakedModel
import Verif.Integration.PeakedProps
import Verif.Integration.PeakedRoundModel
import Verif.Integration.PeakedRoundProps
import Verif.Integrator.ControlModel
import Verif.Integrator.ControlProps
import Verif.Integrator.ConvergeProps
import Verif.Integrator.CopyModel
import Verif.Integrator.CopyProps
import Verif.Integrator.DenseErrorProps
import Verif.Integrator.DenseRoundProps
import Verif.Integrator.ErrorModel
import Verif.Integrator.ErrorProps
import Verif.Integrator.EstimateRoundModel
import Verif.Integrator.EstimateRoundProps
import Verif.Integrator.ExactProps
import Verif.Integrator.HandleModel
import Verif.Integrator.HandleProps
import Verif.Integrator.OrderModel
import Verif.Integrator.OrderProps
import Verif.Integrator.RKModel
import Verif.Integrator.ReachProps
import Verif.Integrator.StabilityProps
import Verif.Integrator.StageRoundModel
import Verif.Integrator.StageRoundProps
import Verif.Integrator.StepProps
import Verif.Integrator.StepRoundModel
import Verif.Integrator.StepRoundProps
import Verif.Integrator.StoreProps
import Verif.Integrator.TableauModel
import Verif.Integrator.TableauProps
import Verif.Integrator.UnitProps
import Verif.Magnetic.AccessModel
import Verif.Magnetic.AccessProps
import Verif.Magnetic.AlarmProps
import Verif.Magnetic.AnalyticModel
import Verif.Magnetic.AnalyticProps
import Verif.Magnetic.AnalyticRoundModel
import Verif.Magnetic.AnalyticRoundProps
import Verif.Magnetic.BicubicLineProps
import Verif.Magnetic.BicubicModel
import Verif.Magnetic.BicubicProps
import Verif.Magnetic.BicubicSplineProps
import Verif.Magnetic.ConvertModel
import Verif.Magnetic.ConvertProps
import Verif.Magnetic.CurrentProps
import Verif.Magnetic.DirectionProps
import Verif.Magnetic.DomainModel
import Verif.Magnetic.DomainProps
import Verif.Magnetic.DomainRoundModel
import Verif.Magnetic.DomainRoundProps
import Verif.Magnetic.EscapeProps
import Verif.Magnetic.FieldMemModel
import Verif.Magnetic.FieldMemProps
import Verif.Magnetic.FluxProps
import Verif.Magnetic.GslModel
import Verif.Magnetic.GslProps
import Verif.Magnetic.LukeModel
import Verif.Magnetic.LukeProps
import Verif.Magnetic.MirrorProps
import Verif.Magnetic.NumericFileProps
import Verif.Magnetic.NumericModel
import Verif.Magnetic.NumericProps
import Verif.Magnetic.NumericRoundModel
import Verif.Magnetic.NumericRoundProps
import Verif.Magnetic.OwnershipModel
import Verif.Magnetic.OwnershipProps
import Verif.Magnetic.PlasmaProps
import Verif.Magnetic.QueryModel
import Verif.Magnetic.QueryProps
import Verif.Magnetic.RadiiModel
import Verif.Magnetic.RadiiProps
import Verif.Magnetic.ResultModel
import Verif.Magnetic.ResultProps
import Verif.Magnetic.ShapeProps
import Verif.Magnetic.SimilarProps
import Verif.Magnetic.StepProps
import Verif.Magnetic.SymmetryProps
import Verif.Magnetic.TurnProps
import Verif.Magnetic.WallRoundModel
import Verif.Magnetic.WallRoundProps
import Verif.SFile.FileTypeProps
import Verif.SFile.HdfFrameProps
import Verif.SFile.HdfIntModel
import Verif.SFile.HdfIntProps
import Verif.SFile.HdfLemmas
import Verif.SFile.HdfModel
import Verif.SFile.HdfProps
import Verif.SFile.LifeModel
import Verif.SFile.LifeProps
import Verif.SFile.MatHeaderModel
import Verif.SFile.MatProps
import Verif.SFile.MultiArrayProps
import Verif.SFile.SdtIntModel
import Verif.SFile.SdtIntProps
import Verif.SFile.SdtLemmas
import Verif.SFile.SdtMemModel
import Verif.SFile.SdtMemProps
import Verif.SFile.SdtModel
import Verif.SFile.SdtNumLemmas
import Verif.SFile.SdtNumModel
import Verif.SFile.SdtNumProps
import Verif.SFile.SdtProps
import Verif.SFile.SdtReadsProps
import Verif.SFile.SdtTextLemmas
