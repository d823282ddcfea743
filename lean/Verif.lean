import Verif.Props.UnionFind
import Verif.Props.UnionFindCost
import Verif.Props.Utils
import Verif.Lemmas.PyIndex
import Verif.Props.GraphEdit
import Verif.Props.Traversal
import Verif.Props.Components
import Verif.Props.ComponentsExact
import Verif.Props.SpanningTrees
import Verif.Props.SpanningTreesNear
import Verif.Props.SpanningTreesFloat
import Verif.Props.Triangles
import Verif.Props.TrianglesCount
import Verif.Props.Disparity
import Verif.Props.Sparsification
import Verif.Props.Projection
import Verif.Props.ProjectionRange
import Verif.Props.ProjectionWitness
import Verif.Props.SelfSimilarity
import Verif.Props.Graphology
import Verif.Props.Bipartite
import Verif.Props.Tables
import Verif.Props.ToTabular
import Verif.Props.Learn
import Verif.Props.Shim
import Verif.Props.KeepConnected
import Verif.Props.KeepConnectedTwice
import Verif.Props.ProjectionThreshold
import Verif.Props.ProjectionCheck
import Verif.Props.ProjectionFloat
import Verif.Props.LearnFloat
import Verif.Props.Binary64
import Verif.Props.TableProjection
import Verif.Props.TrianglesCost
import Verif.Props.Scale
import Verif.Props.Reorder
import Verif.Props.ReorderTrees
import Verif.Props.ReorderProjection
import Verif.Props.Comparison
import Verif.Props.Laws
import Verif.Props.DisparityFloat
import Verif.Props.LearnCeiling
import Verif.Lemmas.Rename
import Verif.Props.Rename
import Verif.Props.RenameMetrics
import Verif.Props.RenameProjection
import Verif.Props.Copies
import Verif.Props.LearnUse
import Verif.Props.Local
import Verif.Props.JsonText
import Verif.Props.Memory
import Verif.Props.Coroutine
import Verif.Props.ProjectionRounded
import Verif.Props.ProjectionMulti
import Verif.Props.Document
import Verif.Props.NonFinite
import Verif.Props.NonFiniteDisparity
import Verif.Props.Leaves
import Verif.Props.DisparityError
import Verif.Props.CompensatedSum
import Verif.Props.HeavyPaths
import Verif.Props.Nested
import Verif.Props.Failures
import Verif.Props.SelfSimilarityFloat
import Verif.Props.AddEdge
import Verif.Props.RaiseWeight
import Verif.Props.DisparityErrors
import Verif.Props.ProjectionMeaning
import Verif.Props.UnionFindFailures
import Verif.Props.TableRows
import Verif.Props.TableRowsBipartite
import Verif.Props.EdgeLoop
import Verif.Props.PowerOfTwo
import Verif.Props.Overflow
import Verif.Props.AddEdgeProjection
import Verif.Props.ProjectionX
import Verif.Props.ProjectionX64
import Verif.Props.Turn
import Verif.Props.NullModel
import Verif.Props.BackboneSize
import Verif.Props.ProjectionCost
import Verif.Props.IntDisparity
import Verif.Props.IntProjection
import Verif.Props.Cells
import Verif.Props.Kernels
import Verif.Props.NullModelSize
import Verif.Props.KernelsFloat
import Verif.Props.Pmi
import Verif.Props.ProjectionBackbone
import Verif.Props.ProjectionComponents
import Verif.Props.LearnLimit
import Verif.Props.ProjectionTriangles
import Verif.Props.LearnBottleneck
import Verif.Props.KeepConnectedUse
import Verif.Props.LeavesMeasures
import Verif.Props.SpanningTreesSize
import Verif.Props.LearnTrees
import Verif.Props.TrianglesKept
import Verif.Props.SelfSimilarityBipartite
import Verif.Props.SelfSimilarityReverse
import Verif.Props.SelfSimilarityDepth
import Verif.Props.SelfSimilarityDistance
import Verif.Props.ProjectionBothParts
import Verif.Props.UnionFindComponents
import Verif.Props.Bridges
import Verif.Props.SpanningTreesLocal
import Verif.Props.TableStrength
