import Verif.Geom
import Verif.Segm
import Verif.Spec
import Verif.Wind
import Verif.BuildLemmas
import Verif.MergeLemmas
import Verif.Rules
import Verif.RuleLemmas
import Verif.Cross
import Verif.CrossLemmas
import Verif.CrossMask
import Verif.DivLemmas
import Verif.Props.Build
import Verif.Props.Merge
import Verif.Props.Rules
import Verif.Props.Cross
import Verif.Props.CrossPoint
import Verif.Split
import Verif.SplitCross
import Verif.SplitLemmas
import Verif.Noding
import Verif.SplitLoop
import Verif.Props.Split
import Verif.Column
import Verif.Fill
import Verif.FillLemmas
import Verif.FillSides
import Verif.Props.Fill
import Verif.Parity
import Verif.Even
import Verif.Graph
import Verif.GraphLemmas
import Verif.Links
import Verif.Props.Graph
import Verif.Extract
import Verif.ExtractLemmas
import Verif.ExtractLoop
import Verif.Bind
import Verif.BindLemmas
import Verif.TrailParity
import Verif.FirstOuter
import Verif.Overlay
import Verif.Run
import Verif.Props.Extract
import Verif.Rotation
import Verif.Props.Rotation
import Verif.Strings
import Verif.StringLemmas
import Verif.Props.Strings
import Verif.Props.StringRoutes
import Verif.Flow
import Verif.Slice
import Verif.SliceLemmas
import Verif.Props.Slice
import Verif.Props.Loops
import Verif.Divide
import Verif.DivideLemmas
import Verif.Props.Divide
import Verif.Swap
import Verif.Props.Swap
import Verif.Star
import Verif.Hug
import Verif.Orient
import Verif.Tours
import Verif.OrientRun
import Verif.Keys
import Verif.Props.Orient
import Verif.Below
import Verif.BindScan
import Verif.AngleSort
import Verif.Attach
import Verif.AttachRun
import Verif.Props.Attach
import Verif.Fragment
import Verif.FragCover
import Verif.Box
import Verif.FragRound
import Verif.FragLoop
import Verif.Props.Fragment
import Verif.Props.FragmentRefuted
import Verif.Props.Bounds
import Verif.Props.Memory
import Verif.Vector
import Verif.VectorLemmas
import Verif.VectorRun
import Verif.Props.Vector
import Verif.Props.VectorRefuted
import Verif.Offset
import Verif.OffsetLemmas
import Verif.Mesh
import Verif.MeshLemmas
import Verif.MeshSpec
import Verif.Props.Mesh
import Verif.Props.MeshRefuted
import Verif.Walks
import Verif.Props.Filter
import Verif.Outline
import Verif.Props.Outline
import Verif.Props.OutlineMany
import Verif.Api
import Verif.Props.Api
import Verif.Float
import Verif.Props.Float
import Verif.Corners
import Verif.Direction
import Verif.Props.Direction
import Verif.Whole
import Verif.Props.Whole
import Verif.Chain
import Verif.Props.Chain
import Verif.Faces
import Verif.SliceFaces
import Verif.LoopWind
import Verif.LoopNest
import Verif.SliceRun
import Verif.Area
import Verif.Props.SliceShapes
import Verif.Props.Areas
import Verif.Props.Total
import Verif.Rounds
import Verif.Props.Rounds
import Verif.Drift
import Verif.Props.Drift
import Verif.WindConst
import Verif.DriftString
import Verif.Props.DriftString
import Verif.Shift
import Verif.Props.Shift
import Verif.SlicePieces
import Verif.SliceNest
import Verif.LeftBottom
import Verif.Binding
import Verif.SliceAttach
import Verif.Rings
import Verif.RingRun
import Verif.Props.AttachSimple
import Verif.Props.SliceProper
import Verif.SliceCells
import Verif.Props.SliceCuts
import Verif.Same
import Verif.Props.Same
import Verif.Canon
import Verif.CanonRun
import Verif.Props.Canon
import Verif.Props.CanonEx
import Verif.FloatWind
import Verif.Props.FloatNear
import Verif.Props.FloatLines
import Verif.Laws
import Verif.Props.Laws
import Verif.ShiftRun
import Verif.Props.ShiftShapes
import Verif.OffDrift
import Verif.Stroke
import Verif.StrokeSpec
import Verif.StrokeGeom
import Verif.StrokePieces
import Verif.StrokeRun
import Verif.Props.Stroke
import Verif.Props.StrokeShape
import Verif.Props.StrokeExample
import Verif.Props.StrokeCustom
import Verif.OutlineStyle
import Verif.OutlineReach
import Verif.Props.OutlineReach
import Verif.Props.OutlineFollow
import Verif.Props.OutlineExample
import Verif.Props.Style
import Verif.RealWind
import Verif.StrokeParts
import Verif.StrokeDraw
import Verif.StrokeCorner
import Verif.StrokeCover
import Verif.StrokeNotch
import Verif.StrokeSum
import Verif.StrokePath
import Verif.Props.StrokeUnion
import Verif.Props.StrokeUnionExample
import Verif.OutlineParts
import Verif.OutlineCorner
import Verif.OutlineDraw
import Verif.OutlineCover
import Verif.OutlinePath
import Verif.Props.OutlineUnion
import Verif.Props.OutlineUnionExample
import Verif.ShiftLines
import Verif.Props.ShiftLists
import Verif.Apart
import Verif.Props.Apart
import Verif.Props.ApartLines
import Verif.Props.Cancel
import Verif.Props.Refine
import Verif.Props.Symmetry
import Verif.Props.Provenance
import Verif.RingWalk
import Verif.Props.Rings
import Verif.Props.GridSize
import Verif.Props.ProvenanceLines
import Verif.Props.RingsExact
import Verif.Props.RingsArea
import Verif.Props.RingsFixed
