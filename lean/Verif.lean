import Verif.Lemmas.AbsError
import Verif.Lemmas.Adj
import Verif.Lemmas.Average
import Verif.Lemmas.Basic
import Verif.Lemmas.Bfs
import Verif.Lemmas.Binary
import Verif.Lemmas.Clusters
import Verif.Lemmas.ClustersB
import Verif.Lemmas.ClustersC
import Verif.Lemmas.ClustersMem
import Verif.Lemmas.Edits
import Verif.Lemmas.EventObj
import Verif.Lemmas.EventShape
import Verif.Lemmas.GenKt
import Verif.Lemmas.Hard
import Verif.Lemmas.Heap
import Verif.Lemmas.HeapDrop
import Verif.Lemmas.Hier
import Verif.Lemmas.HierB
import Verif.Lemmas.HierMem
import Verif.Lemmas.Mask
import Verif.Lemmas.Momentum
import Verif.Lemmas.Parent
import Verif.Lemmas.Partition
import Verif.Lemmas.PartitionMem
import Verif.Lemmas.Rounded
import Verif.Lemmas.RoundedR
import Verif.Lemmas.RoundedSets
import Verif.Lemmas.ShareMem
import Verif.Lemmas.Threads
import Verif.Model.Adj
import Verif.Model.AdjCache
import Verif.Model.ArgClosest
import Verif.Model.ArrayRepr
import Verif.Model.Basic
import Verif.Model.Binary
import Verif.Model.Buffer
import Verif.Model.Cached
import Verif.Model.Cast
import Verif.Model.Centroid
import Verif.Model.Cluster
import Verif.Model.Clusters
import Verif.Model.ClustersMem
import Verif.Model.Compare
import Verif.Model.Composite
import Verif.Model.Convert
import Verif.Model.DeltaR
import Verif.Model.DeltaRCall
import Verif.Model.Descend
import Verif.Model.Distance
import Verif.Model.EventObj
import Verif.Model.EventShape
import Verif.Model.Flags
import Verif.Model.GenKt
import Verif.Model.Given
import Verif.Model.Guess
import Verif.Model.Hard
import Verif.Model.Heap
import Verif.Model.HierMem
import Verif.Model.InPlace
import Verif.Model.IntEvent
import Verif.Model.Iter
import Verif.Model.Mapping
import Verif.Model.Mask
import Verif.Model.MassOverflow
import Verif.Model.MassWeight
import Verif.Model.Matrix
import Verif.Model.Momentum
import Verif.Model.NonFinite
import Verif.Model.Optimise
import Verif.Model.Partition
import Verif.Model.PartitionMem
import Verif.Model.Pdg
import Verif.Model.PdgProps
import Verif.Model.Range
import Verif.Model.RawMask
import Verif.Model.Rounded
import Verif.Model.RoundedPrune
import Verif.Model.RoundedR
import Verif.Model.RoundedSets
import Verif.Model.RoundedShape
import Verif.Model.RoundedShift
import Verif.Model.RoundedSplit
import Verif.Model.RoundedSum
import Verif.Model.Select
import Verif.Model.ShareMem
import Verif.Model.ShiftEta
import Verif.Model.SignedZero
import Verif.Model.SingleCount
import Verif.Model.Table
import Verif.Model.Threads
import Verif.Model.Transform
import Verif.Model.Ufunc
import Verif.Model.Warnings
import Verif.Props.Adj
import Verif.Props.AdjCache
import Verif.Props.Again
import Verif.Props.Any
import Verif.Props.ArgClosest
import Verif.Props.ArgClosestDocs
import Verif.Props.ArgStable
import Verif.Props.ArrayRepr
import Verif.Props.BinaryA
import Verif.Props.BinaryB
import Verif.Props.BinaryC
import Verif.Props.BinaryD
import Verif.Props.BinaryE
import Verif.Props.Buffer
import Verif.Props.Cached
import Verif.Props.Cast
import Verif.Props.Centroid
import Verif.Props.Cluster
import Verif.Props.ClusterOrder
import Verif.Props.ClusterStable
import Verif.Props.ClusterSym
import Verif.Props.Clusters
import Verif.Props.ClustersMem
import Verif.Props.Compare
import Verif.Props.Composite
import Verif.Props.Convert
import Verif.Props.Cuts
import Verif.Props.DeltaR
import Verif.Props.DeltaRCall
import Verif.Props.Descend
import Verif.Props.Distance
import Verif.Props.Drift
import Verif.Props.Edits
import Verif.Props.EventObj
import Verif.Props.EventShape
import Verif.Props.Extremes
import Verif.Props.Fastjet
import Verif.Props.Fields
import Verif.Props.Flags
import Verif.Props.Flow
import Verif.Props.Frames
import Verif.Props.GenKt
import Verif.Props.GenKtExamples
import Verif.Props.GenKtFrames
import Verif.Props.Given
import Verif.Props.GraphSym
import Verif.Props.Guess
import Verif.Props.HardDesc
import Verif.Props.HashSeed
import Verif.Props.Heap
import Verif.Props.Hier
import Verif.Props.HierErr
import Verif.Props.HierMem
import Verif.Props.InPlace
import Verif.Props.Index
import Verif.Props.IntEvent
import Verif.Props.Iter
import Verif.Props.Keys
import Verif.Props.Kinematics
import Verif.Props.Mapping
import Verif.Props.MaskA
import Verif.Props.MaskB
import Verif.Props.MaskC
import Verif.Props.MassOverflow
import Verif.Props.MassSum
import Verif.Props.MassWeight
import Verif.Props.Matrix
import Verif.Props.Mirror
import Verif.Props.MirrorFalse
import Verif.Props.MirrorKt
import Verif.Props.MirrorSel
import Verif.Props.Noise
import Verif.Props.NoiseExamples
import Verif.Props.NonFinite
import Verif.Props.Optimise
import Verif.Props.OrderFree
import Verif.Props.Overlay
import Verif.Props.Parent
import Verif.Props.Partition
import Verif.Props.PartitionIdem
import Verif.Props.PartitionMem
import Verif.Props.PartitionSafety
import Verif.Props.PartitionSym
import Verif.Props.Pdg
import Verif.Props.PdgProps
import Verif.Props.Pipeline
import Verif.Props.Prune
import Verif.Props.Raises
import Verif.Props.Range
import Verif.Props.RawMask
import Verif.Props.Reorder
import Verif.Props.Rotation
import Verif.Props.Rounded
import Verif.Props.RoundedPrune
import Verif.Props.RoundedR
import Verif.Props.RoundedSets
import Verif.Props.RoundedShape
import Verif.Props.RoundedShift
import Verif.Props.RoundedSplit
import Verif.Props.RoundedSum
import Verif.Props.Safety
import Verif.Props.Selected
import Verif.Props.SelfLoop
import Verif.Props.ShapeRot
import Verif.Props.ShareMem
import Verif.Props.ShiftEta
import Verif.Props.SignedZero
import Verif.Props.SingleCount
import Verif.Props.Singlets
import Verif.Props.SoftHard
import Verif.Props.SphGlobal
import Verif.Props.Spherical
import Verif.Props.SplitChildren
import Verif.Props.Stable
import Verif.Props.SubEvent
import Verif.Props.SymHard
import Verif.Props.SymHier
import Verif.Props.SymPipe
import Verif.Props.Symmetry
import Verif.Props.Table
import Verif.Props.Tag
import Verif.Props.Threads
import Verif.Props.Ties
import Verif.Props.Transform
import Verif.Props.Twice
import Verif.Props.Ufunc
import Verif.Props.Units
import Verif.Props.UnitsClosest
import Verif.Props.UnitsFastjet
import Verif.Props.UnitsShapes
import Verif.Props.Warnings
import Verif.Spec.Adj
import Verif.Spec.AdjCache
import Verif.Spec.Assign
import Verif.Spec.Binary
import Verif.Spec.Buffer
import Verif.Spec.Cached
import Verif.Spec.Cast
import Verif.Spec.Cluster
import Verif.Spec.Clusters
import Verif.Spec.Compare
import Verif.Spec.Composite
import Verif.Spec.Convert
import Verif.Spec.DeltaR
import Verif.Spec.DeltaRCall
import Verif.Spec.Distance
import Verif.Spec.Drift
import Verif.Spec.Edits
import Verif.Spec.EventObj
import Verif.Spec.EventShape
import Verif.Spec.Extremes
import Verif.Spec.Flow
import Verif.Spec.GenKt
import Verif.Spec.GenKtNoise
import Verif.Spec.GenKtTies
import Verif.Spec.Hard
import Verif.Spec.Heap
import Verif.Spec.Hier
import Verif.Spec.InPlace
import Verif.Spec.Index
import Verif.Spec.Mapping
import Verif.Spec.Mask
import Verif.Spec.Matrix
import Verif.Spec.Mirror
import Verif.Spec.Optimise
import Verif.Spec.Partition
import Verif.Spec.PdgProps
import Verif.Spec.Physics
import Verif.Spec.Range
import Verif.Spec.RawMask
import Verif.Spec.Rounded
import Verif.Spec.RoundedPrune
import Verif.Spec.RoundedSets
import Verif.Spec.RoundedShift
import Verif.Spec.RoundedSum
import Verif.Spec.Select
import Verif.Spec.ShareMem
import Verif.Spec.SignedZero
import Verif.Spec.SingleCount
import Verif.Spec.Symmetry
import Verif.Spec.Table
import Verif.Spec.Threads
import Verif.Spec.Ufunc
import Verif.Spec.Warnings
