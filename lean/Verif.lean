import Verif.Props.Flood
import Verif.Props.FloodMem
import Verif.Props.Join
import Verif.Props.Partition
import Verif.Props.Eight
import Verif.Props.Recognize
import Verif.Props.Whole
import Verif.Props.Concurrent
import Verif.Props.ExtractWitness
import Verif.Props.BlockMemory
import Verif.Props.Sort
import Verif.Props.Dp
import Verif.Props.Helper
import Verif.Props.Rect
import Verif.Props.Components
import Verif.Props.Channel
import Verif.Props.Ownership
import Verif.Props.SplitV1
import Verif.Props.FloodV1
import Verif.Model.ConnectV1
import Verif.Proof.CutV1
import Verif.Proof.DisconnectV1
import Verif.Proof.DetachV1
import Verif.Proof.AppendV1
import Verif.Proof.ConnectV1
import Verif.Proof.LoopV1
import Verif.Proof.JoinV1
import Verif.Model.MergeV1
import Verif.Proof.OrderV1
import Verif.Proof.MergeV1
import Verif.Proof.ScheduleV1
import Verif.Proof.WholeV1
import Verif.Props.MergeV1
import Verif.Model.RecognizeV1
import Verif.Proof.RecogV1
import Verif.Props.RecognizeV1
import Verif.Model.ExtractV1
import Verif.Proof.ExtractV1
import Verif.Proof.Snake
import Verif.Props.ExtractV1
import Verif.Proof.GroupOrder
import Verif.Props.SameReport
import Verif.Props.ThreadsMatter
import Verif.Model.Linear
import Verif.Proof.LinearWords
import Verif.Proof.LinearFlood
import Verif.Props.Linear
import Verif.Model.LinearRecog
import Verif.Proof.LinearRecog
import Verif.Props.LinearRecog
import Verif.Proof.LinearLoose
import Verif.Model.LinearExtract
import Verif.Proof.LinearExtract
import Verif.Props.LinearExtract
import Verif.Props.LinearMask
import Verif.Spec.Mask
import Verif.Model.Original
import Verif.Proof.OriginalBase
import Verif.Proof.OriginalStep
import Verif.Proof.OriginalFlood
import Verif.Proof.OriginalTree
import Verif.Proof.OriginalGrid
import Verif.Proof.OriginalPass
import Verif.Model.OriginalRecog
import Verif.Proof.OriginalRecog
import Verif.Proof.OriginalExtract
import Verif.Props.Original
import Verif.Proof.OriginalShift
import Verif.Props.OriginalAgree
import Verif.Model.Ms
import Verif.Proof.MsRecog
import Verif.Props.Ms
import Verif.Props.MsRecog
import Verif.Model.MsExtract
import Verif.Proof.MsLayout
import Verif.Proof.MsFinish
import Verif.Proof.MsPrep
import Verif.Proof.MsTree
import Verif.Props.MsExtract
import Verif.Model.Draw
import Verif.Props.Draw
import Verif.Model.OpenCv
import Verif.Proof.OpenCvHist
import Verif.Proof.OpenCvLists
import Verif.Proof.OpenCvFlood
import Verif.Proof.OpenCvGrid
import Verif.Proof.OpenCvReuse
import Verif.Props.OpenCv
import Verif.Model.Mat
import Verif.Model.MatCopy
import Verif.Spec.Mat
import Verif.Proof.MatView
import Verif.Props.MatView
import Verif.Proof.MatRun
import Verif.Props.MatRun
import Verif.Proof.MatCopy
import Verif.Props.MatCopy
import Verif.Props.MatFill
import Verif.Proof.MatEq
import Verif.Props.MatEq
import Verif.Props.MatShape
import Verif.Props.MatGet
import Verif.Model.MatMerge
import Verif.Props.MatMerge
import Verif.Spec.Strings
import Verif.Model.Strings
import Verif.Props.Strings
import Verif.Props.EditDistance
import Verif.Props.Paths
import Verif.Model.DataType
import Verif.Props.DataType
import Verif.Model.Json
import Verif.Spec.Json
import Verif.Props.Json
import Verif.Model.Idiap
import Verif.Proof.IdiapFlood
import Verif.Proof.IdiapGrid
import Verif.Props.Idiap
import Verif.Model.OpenCv3
import Verif.Spec.Interior
import Verif.Proof.OpenCv3Tree
import Verif.Proof.OpenCv3Hist
import Verif.Proof.OpenCv3Grow
import Verif.Proof.OpenCv3Flood
import Verif.Proof.OpenCv3Finish
import Verif.Proof.OpenCv3Grid
import Verif.Props.OpenCv3
import Verif.Model.VlFeat
import Verif.Spec.Report
import Verif.Spec.Float32
import Verif.Proof.VlFeatSort
import Verif.Proof.VlFeatClimb
import Verif.Proof.VlFeatForest
import Verif.Proof.VlFeatRun
import Verif.Proof.VlFeatTree
import Verif.Proof.VlFeatGrid
import Verif.Proof.VlFeatRecog
import Verif.Proof.ReportSame
import Verif.Props.VlFeat
import Verif.Spec.Edge
import Verif.Model.Canny
import Verif.Proof.Canny
import Verif.Proof.CannyTrack
import Verif.Props.Canny
import Verif.Props.AutoCanny
import Verif.Props.AutoWindow
import Verif.Props.Stroke
import Verif.Props.SysBuffer
import Verif.Props.Numbers
import Verif.Props.Derivative
import Verif.Props.MatCache
import Verif.Props.Hist
import Verif.Props.SplitMean
import Verif.Props.Ships
import Verif.Props.Gauss
import Verif.Props.Conv
import Verif.Props.Pooling
import Verif.Props.RectDist
import Verif.Props.Learn
import Verif.Props.SubStride
import Verif.Props.Expand
