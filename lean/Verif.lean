import Verif.Model.Basic
import Verif.Model.Field
import Verif.Model.SparseVec
import Verif.Model.Matrix
import Verif.Model.Reduction
import Verif.Model.Permutation
import Verif.Model.Complex
import Verif.Spec.Vec
import Verif.Spec.Pivot
import Verif.Spec.Reduction
import Verif.Spec.Homology
import Verif.Proofs.SparseVec
import Verif.Proofs.Reduction
import Verif.Props.Field
import Verif.Props.Permutation
import Verif.Props.Reduction
import Verif.Props.Sorted
import Verif.Props.Homology
import Verif.Props.Linalg
import Verif.Props.Persistence
import Verif.Props.Update
import Verif.Props.Barcode
import Verif.Props.Representatives
import Verif.Props.Trie
import Verif.Props.Simplicial
import Verif.Props.Filtration
import Verif.Props.SimplicialPersistence
import Verif.Props.Flag
import Verif.Props.UnionFind
import Verif.Props.Light
import Verif.Props.Cubical
import Verif.Props.Induced
import Verif.Props.SimplicialMap
import Verif.Props.Fact
import Verif.Props.Quiver
import Verif.Props.VecOps
import Verif.Props.MatOps
import Verif.Props.ChainOps
import Verif.Props.Relative
import Verif.Props.DG
import Verif.Props.DGSimplicial
import Verif.Props.Zigzag
import Verif.Props.ZigzagFilt
import Verif.Props.ZigzagExt
import Verif.Props.ZigzagHist
import Verif.Props.Diagram
import Verif.Props.Nerve
import Verif.Props.Landmark
import Verif.Props.RipsDiagram
import Verif.Props.ZigzagSets
import Verif.Props.RipsHom
import Verif.Props.Witness
import Verif.Props.CoverFilt
import Verif.Props.Parallel
import Verif.Props.Enclosing
import Verif.Props.Text
import Verif.Props.GenUpdate
import Verif.Props.Pair
import Verif.Props.Product
import Verif.Props.Tensor
import Verif.Props.Poly
import Verif.Props.Cochain
import Verif.Props.DGMap
import Verif.Props.CubicalFilt
import Verif.Props.LowerStarGrad
import Verif.Props.CubicalZigzag
import Verif.Props.Grid
import Verif.Props.Pairing
import Verif.Props.CellComplex
import Verif.Props.ZZLevelsets
import Verif.Props.SetVector
import Verif.Props.Density
import Verif.Props.Argv
