import Verif.Base
import Verif.Pcu.BufferProps
import Verif.Pcu.AAProps
import Verif.Pcu.OrderProps
import Verif.Pcu.CollProps
import Verif.Pcu.PhaseProps
import Verif.Pcu.ApiProps
import Verif.Pcu.RecvModel
import Verif.Pcu.RecvLemmas
import Verif.Pcu.RecvStreams
import Verif.Pcu.RecvProps
import Verif.Agi.ResidenceProps
import Verif.Agi.ValidProps
import Verif.Agi.PlanProps
import Verif.Agi.MigWitness
import Verif.Io.BytesProps
import Verif.Agi.TagProps
import Verif.Agi.TagValueProps
import Verif.Agi.RemoveProps
import Verif.Agi.TimersProps
import Verif.Agi.StatsModel
import Verif.Agi.StatsProps
import Verif.Agi.WMigProps
import Verif.Part.SlopeProps
import Verif.Part.MetricsProps
import Verif.Part.BalancerProps
import Verif.Part.SidesProps
import Verif.Part.TargetProps
import Verif.Agi.ResetProps
import Verif.Part.TrimProps
import Verif.Part.SortProps
import Verif.Part.QueueProps
import Verif.Part.SelectProps
import Verif.Part.WSelProps
import Verif.Part.CompProps
import Verif.Io.BinGraphProps
import Verif.Part.ParmetisProps
import Verif.Part.ParmetisGen
import Verif.Part.ParmetisTrad
import Verif.Part.ParmetisSym
import Verif.Part.ParmetisAny
import Verif.Part.AfterProps
import Verif.Part.SecondProps
import Verif.Io.FileProps
import Verif.Io.FileWitness
import Verif.Part.ZoltanProps
import Verif.Part.DiffuseProps
import Verif.Part.DiffuseWitness
import Verif.Part.DiffuseLimits
import Verif.Part.SplitProps
import Verif.Part.SplitWitness
import Verif.Agi.AnyProps
import Verif.Agi.TradProps
import Verif.Part.DistQueueProps
import Verif.Part.WBalModel
import Verif.Part.WBalLemmas
import Verif.Part.WBalSpec
import Verif.Part.WBalRun
import Verif.Part.WBalProps
import Verif.Part.WSelTrad
import Verif.Part.TargetTrad
import Verif.Part.WBalTrad
import Verif.Mesh.MeshModel
import Verif.Mesh.MeshSpec
import Verif.Mesh.MeshLoops
import Verif.Mesh.MeshCount
import Verif.Mesh.MeshPins
import Verif.Mesh.MeshMsgs
import Verif.Mesh.MeshType
import Verif.Mesh.MeshBuild
import Verif.Mesh.MeshViews
import Verif.Mesh.MeshTotals
import Verif.Mesh.MeshReads
import Verif.Mesh.MeshProps
import Verif.Mesh.DofSpec
import Verif.Mesh.DofLemmas
import Verif.Mesh.DofProps
import Verif.Vtk.VtkModel
import Verif.Vtk.VtkSpec
import Verif.Vtk.VtkLemmas
import Verif.Vtk.VtkPart
import Verif.Vtk.VtkTrad
import Verif.Vtk.VtkProps
import Verif.Vtk.VtkWitness
import Verif.Color.Interleave
import Verif.Color.ColorModel
import Verif.Color.ColorSpec
import Verif.Color.ColorLemmas
import Verif.Color.ColorEve
import Verif.Color.ColorProps
import Verif.Part.SecondTrad
import Verif.Part.CutModel
import Verif.Part.CutLemmas
import Verif.Part.CutProps
import Verif.Io.VcModel
import Verif.Io.VcLemmas
import Verif.Io.VcSpec
import Verif.Io.VcMove
import Verif.Io.VcProps
import Verif.Io.VcShared
import Verif.Agi.CApiModel
import Verif.Agi.CApiProps
import Verif.Agi.CApiTrad
import Verif.Agi.TypesWitness
import Verif.Agi.TradStep
import Verif.Agi.TradReturn
import Verif.Agi.TradReturnProps
import Verif.Agi.MigBlank
import Verif.Part.SplitTrad
import Verif.Part.SplitZoltanModel
import Verif.Part.SplitZoltanLemmas
import Verif.Part.SplitZoltanProps
import Verif.Part.SplitZoltanTrad
import Verif.Part.SplitZoltanWitness
import Verif.Part.PwModel
import Verif.Part.PwPlan
import Verif.Part.PwTargets
import Verif.Part.PwStep
import Verif.Part.PwRun
import Verif.Part.PwProps
import Verif.Part.PwWitness
import Verif.Part.SelectTrad
import Verif.Part.SelectTradProps
import Verif.Part.TrimTrad
import Verif.Part.TrimTradProps
import Verif.Part.PwLimits
import Verif.Log.LogProps
import Verif.Io.NameProps
import Verif.Part.TextModel
import Verif.Part.TextSpec
import Verif.Part.TextLemmas
import Verif.Part.TextProps
import Verif.Support.CommModel
import Verif.Support.CommSpec
import Verif.Support.CommProps
import Verif.Support.MsgModel
import Verif.Support.MsgSpec
import Verif.Support.MsgProps
import Verif.Pcu.LogicProps
import Verif.Pcu.FilesModel
import Verif.Pcu.FilesSync
import Verif.Pcu.FilesProps
import Verif.Pcu.FilesDebug
import Verif.Part.SessionModel
import Verif.Part.SessionProps
import Verif.Part.SessionWitness
import Verif.Pcu.SeqModel
import Verif.Pcu.SeqNet
import Verif.Pcu.SeqProps
import Verif.Pcu.WholeModel
import Verif.Pcu.WholeSpec
import Verif.Pcu.WholeInv
import Verif.Pcu.WholeProps
import Verif.Pcu.SwitchProps
import Verif.Pcu.StoreModel
import Verif.Pcu.StoreInv
import Verif.Pcu.StoreSpec
import Verif.Pcu.StoreStep
import Verif.Pcu.StoreProps
import Verif.Agi.HandleModel
import Verif.Agi.HandleProps
import Verif.Part.InputModel
import Verif.Part.InputSpec
import Verif.Part.InputProps
import Verif.Agi.HeapModel
import Verif.Agi.HeapSpec
import Verif.Agi.HeapInv
import Verif.Agi.HeapProps
import Verif.Part.BalHeapModel
import Verif.Part.BalHeapSpec
import Verif.Part.BalHeapInv
import Verif.Part.BalHeapProps
import Verif.Agi.CourseModel
import Verif.Agi.CourseLemmas
import Verif.Agi.CourseTrad
import Verif.Agi.CourseExact
import Verif.Agi.CourseProps
import Verif.Vtk.XmlModel
import Verif.Vtk.XmlSpec
import Verif.Vtk.XmlLemmas
import Verif.Vtk.XmlProps
import Verif.Vtk.PictureProps
