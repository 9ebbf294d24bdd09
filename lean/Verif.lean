import Verif.Util
import Verif.MatrixModel
import Verif.MatrixLemmas
import Verif.MatrixSolveLemmas
import Verif.MatrixProps
import Verif.LoadModel
import Verif.LoadLemmas
import Verif.LoadProps
import Verif.Axioms
import Verif.SolveModel
import Verif.SolveProps
import Verif.SimDataModel
import Verif.SimDataProps
import Verif.IntegModel
import Verif.IntegProps
import Verif.TransInv
import Verif.TransLemmas
import Verif.TransModel
import Verif.TransProps
import Verif.InterpModel
import Verif.InterpProps
import Verif.LimitModel
import Verif.LimitProps
import Verif.LogicModel
import Verif.LogicProps
import Verif.ScanModel
import Verif.ScanProps
import Verif.WmatchModel
import Verif.WmatchProps
import Verif.DispatchModel
import Verif.DispatchProps
import Verif.LinesModel
import Verif.LinesProps
import Verif.SweepModel
import Verif.SweepProps
import Verif.SourceModel
import Verif.SourceProps
import Verif.TranSetModel
import Verif.TranSetProps
import Verif.MeasureModel
import Verif.MeasureProps
import Verif.SplineModel
import Verif.SplineProps
import Verif.NumModel
import Verif.FtosProps
import Verif.NumProps
import Verif.BaseModel
import Verif.BaseProps
import Verif.ExprDump
import Verif.ExprFuel
import Verif.ExprLemmas
import Verif.ExprModel
import Verif.ExprProps
import Verif.ExprShape
import Verif.ReduceLemmas
import Verif.ReduceModel
import Verif.ReducePartial
import Verif.ReduceProps
import Verif.ReduceSound
import Verif.ReduceWrong
import Verif.ParamModel
import Verif.ParamProps
import Verif.ParamWrong
import Verif.FftModel
import Verif.FftProps
import Verif.FourierProps
import Verif.SwitchModel
import Verif.SwitchProps
import Verif.ProbeModel
import Verif.ProbeProps
import Verif.RefModel
import Verif.RefProps
import Verif.RefUse
import Verif.ElemModel
import Verif.ElemProps
import Verif.ZProbe
import Verif.CoilModel
import Verif.CoilProps
import Verif.TangentModel
import Verif.TangentProps
import Verif.BehavModel
import Verif.BehavProps
import Verif.CondModel
import Verif.CondProps
import Verif.SubcktModel
import Verif.SubcktProps
import Verif.SubcktThms
import Verif.NameModel
import Verif.NameProps
import Verif.NameThms
import Verif.ListModel
import Verif.ListProps
import Verif.ParCmdModel
import Verif.ParCmdProps
import Verif.StorModel
import Verif.StorProps
import Verif.TlineModel
import Verif.TlineProps
import Verif.DiodeModel
import Verif.DiodeProps
import Verif.MosModel
import Verif.MosProps
import Verif.BjtModel
import Verif.BjtProps
import Verif.MeyerModel
import Verif.MeyerProps
import Verif.FaultModel
import Verif.FaultProps
import Verif.SpiceModel
import Verif.SpiceProps
import Verif.OptModel
import Verif.OptNames
import Verif.OptProps
import Verif.OptRound
import Verif.XProbeModel
import Verif.XProbeProps
import Verif.VlogModel
import Verif.VlogProps
import Verif.OptValues
import Verif.SpectreForms
import Verif.SpectreModel
import Verif.SpectreProps
import Verif.OutModel
import Verif.OutProps
import Verif.FtosWidth
import Verif.TableModel
import Verif.TableProps
import Verif.PlotModel
import Verif.PlotProps
import Verif.CmdModel
import Verif.CmdProps
import Verif.MultModel
import Verif.MultProps
import Verif.PrbCmdModel
import Verif.PrbCmdProps
import Verif.GenModel
import Verif.GenProps
import Verif.FindModel
import Verif.FindProps
import Verif.SemiModel
import Verif.SemiProps
import Verif.AnaCmdModel
import Verif.AnaCmdProps
import Verif.AnaCmdMore
import Verif.TranCmdModel
import Verif.TranCmdProps
import Verif.Mos6Model
import Verif.Mos6Props
import Verif.Mos3Model
import Verif.Mos3Props
import Verif.Mos3Fwd
import Verif.Mos3Vmax
import Verif.Mos4Model
import Verif.Mos4Props
import Verif.SpiceWrapModel
import Verif.SpiceWrapProps
import Verif.FilesModel
import Verif.FilesProps
import Verif.SessModel
import Verif.SessProps
import Verif.PlugModel
import Verif.PlugProps
import Verif.Mos2Model
import Verif.Mos2Props
import Verif.Mos2More
import Verif.Mos2Baum
import Verif.MeasCmdModel
import Verif.MeasCmdProps
import Verif.MeasCmdMore
import Verif.Mos5Model
import Verif.Mos5Props
import Verif.MosProcModel
import Verif.MosProcProps
import Verif.BjtBaseModel
import Verif.BjtBaseProps
import Verif.BsimSizeModel
import Verif.BsimSizeProps
import Verif.LogfModel
import Verif.LogfProps
import Verif.PolyGModel
import Verif.PolyGProps
import Verif.TimerModel
import Verif.TimerProps
import Verif.DcLifeModel
import Verif.DcLifeProps
import Verif.ModelLineModel
import Verif.ModelLineProps
import Verif.ModelTypeModel
import Verif.ModelTypeProps
