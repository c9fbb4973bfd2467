import Verif.Base.Hull
import Verif.Base.LinAlg
import Verif.Base.Lstsq
import Verif.Base.Py
import Verif.Base.PyMap
import Verif.Base.Seq
import Verif.Model.AbsRelCompare
import Verif.Model.Boundary
import Verif.Model.CalcDiff
import Verif.Model.CirclePart
import Verif.Model.Config
import Verif.Model.Core
import Verif.Model.DictCompare
import Verif.Model.EllCtor
import Verif.Model.EllHeap
import Verif.Model.EllObj
import Verif.Model.EllScalars
import Verif.Model.Fusion
import Verif.Model.Hyperplane
import Verif.Model.IsBigger
import Verif.Model.IsEqual
import Verif.Model.IsInternal
import Verif.Model.IsMember
import Verif.Model.La
import Verif.Model.Logging
import Verif.Model.MatHelpers
import Verif.Model.MatVector
import Verif.Model.Minksum
import Verif.Model.ObjText
import Verif.Model.Operators
import Verif.Model.Polar
import Verif.Model.QuadMat
import Verif.Model.Rho
import Verif.Model.RhoMat
import Verif.Model.Session
import Verif.Model.SortRows
import Verif.Model.SpherePart
import Verif.Model.SphereTri
import Verif.Model.SphereTriExt
import Verif.Model.SqrtPos
import Verif.Model.SquareMatVector
import Verif.Model.SupBoundary
import Verif.Model.SupGeomDiff
import Verif.Model.Sym
import Verif.Model.ThrowError
import Verif.Model.TriEqual
import Verif.Model.TriFaceEdge
import Verif.Model.TriShrink
import Verif.Model.TriStats
import Verif.Model.TriTube
import Verif.Model.Volume
import Verif.Proofs.AbsRelCompare
import Verif.Proofs.Config
import Verif.Proofs.DetRoot
import Verif.Proofs.DictCompare
import Verif.Proofs.DictPass
import Verif.Proofs.Ell
import Verif.Proofs.EllHeap
import Verif.Proofs.Formula
import Verif.Proofs.Hull
import Verif.Proofs.IsEqual
import Verif.Proofs.IsMember
import Verif.Proofs.La
import Verif.Proofs.LinAlg
import Verif.Proofs.LinImage
import Verif.Proofs.Lstsq
import Verif.Proofs.MatHelpers
import Verif.Proofs.MatVector
import Verif.Proofs.Minksum
import Verif.Proofs.MinksumEq
import Verif.Proofs.MinksumMax
import Verif.Proofs.MinksumMin
import Verif.Proofs.Move
import Verif.Proofs.ParseProp
import Verif.Proofs.Session
import Verif.Proofs.SortRows
import Verif.Proofs.SphereDense
import Verif.Proofs.SphereDirs
import Verif.Proofs.SphereFan
import Verif.Proofs.SpherePart
import Verif.Proofs.SphereSep
import Verif.Proofs.SphereTri
import Verif.Proofs.SupGeomDiff
import Verif.Proofs.SupGeomDiff2
import Verif.Proofs.Support
import Verif.Proofs.Sym
import Verif.Proofs.Transl
import Verif.Proofs.TranslIff
import Verif.Proofs.TranslOpt
import Verif.Proofs.TriEqual
import Verif.Proofs.TriFaceEdge
import Verif.Proofs.TriGeom
import Verif.Proofs.TriShrink
import Verif.Proofs.TriUniform
import Verif.Props.AbsRelCompare
import Verif.Props.AbsRelLaws
import Verif.Props.AbsRelNumbers
import Verif.Props.Audit
import Verif.Props.BatchAlg
import Verif.Props.BiggerOrder
import Verif.Props.Boundary
import Verif.Props.BoundaryArea
import Verif.Props.BoundaryDense
import Verif.Props.BoundaryInternal
import Verif.Props.BrunnMinkowski
import Verif.Props.ByEigLaws
import Verif.Props.CalcDiff
import Verif.Props.CalcDiffLaws
import Verif.Props.CircleLaws
import Verif.Props.CirclePart
import Verif.Props.Circumscribed
import Verif.Props.Config
import Verif.Props.Core
import Verif.Props.DictCompare
import Verif.Props.DictPass
import Verif.Props.DictReport
import Verif.Props.Directions
import Verif.Props.EllCtor
import Verif.Props.EllDim
import Verif.Props.EllDimExact
import Verif.Props.EllEigs
import Verif.Props.EllHeap
import Verif.Props.EllProps
import Verif.Props.FaceEdgeLaws
import Verif.Props.Formula
import Verif.Props.Fusion
import Verif.Props.FusionLaws
import Verif.Props.Hyperplane
import Verif.Props.HyperplaneArr
import Verif.Props.HyperplaneContains
import Verif.Props.HyperplaneCtor
import Verif.Props.HyperplaneEq
import Verif.Props.HyperplaneLaws
import Verif.Props.HyperplaneParallel
import Verif.Props.IsBigger
import Verif.Props.IsEqual
import Verif.Props.IsEqualSets
import Verif.Props.IsInternal
import Verif.Props.IsInternalLaws
import Verif.Props.IsMember
import Verif.Props.IsMemberLaws
import Verif.Props.LaLaws
import Verif.Props.LaPosDef
import Verif.Props.LaReg
import Verif.Props.LinImage
import Verif.Props.Logging
import Verif.Props.LrDivide
import Verif.Props.LrDivideLaws
import Verif.Props.LrMultiply
import Verif.Props.MatBatch
import Verif.Props.MatDot
import Verif.Props.MatDotLaws
import Verif.Props.MatExpr
import Verif.Props.MatFunc
import Verif.Props.MatFuncLaws
import Verif.Props.MatOrthLaws
import Verif.Props.MatSlices
import Verif.Props.MatVector
import Verif.Props.Minksum
import Verif.Props.MinksumAlg
import Verif.Props.MinksumAll
import Verif.Props.MinksumIaLaws
import Verif.Props.MinksumMax
import Verif.Props.MinksumMin
import Verif.Props.Monotone
import Verif.Props.Move
import Verif.Props.Nearest
import Verif.Props.Nested
import Verif.Props.NotDeg
import Verif.Props.ObjText
import Verif.Props.Operators
import Verif.Props.ParseLaws
import Verif.Props.Perturb
import Verif.Props.Polar
import Verif.Props.PolarAll
import Verif.Props.PolarDual
import Verif.Props.PolarTwice
import Verif.Props.PosDefByEig
import Verif.Props.ProjAlg
import Verif.Props.ProjLaws
import Verif.Props.QuadMat
import Verif.Props.QuadMatLaws
import Verif.Props.RelChange
import Verif.Props.Rho
import Verif.Props.RhoLaws
import Verif.Props.RhoMat
import Verif.Props.Session
import Verif.Props.ShrinkLaws
import Verif.Props.SimDiagLaws
import Verif.Props.SizesTogether
import Verif.Props.SortRows
import Verif.Props.SortRowsLaws
import Verif.Props.SphereApart
import Verif.Props.SphereDense
import Verif.Props.SphereFan
import Verif.Props.SpherePart
import Verif.Props.SpherePartLaws
import Verif.Props.SphereTri
import Verif.Props.SphereTriExt
import Verif.Props.SqrtBatch
import Verif.Props.SqrtPos
import Verif.Props.SumPolar
import Verif.Props.SumSizes
import Verif.Props.SumVolume
import Verif.Props.SupBoundary
import Verif.Props.SupGeomDiff2
import Verif.Props.SupGeomDiff3
import Verif.Props.SupGeomLaws
import Verif.Props.SupPolygon
import Verif.Props.SupPolyhedron
import Verif.Props.SupportPlanes
import Verif.Props.SvdLeft
import Verif.Props.SvdMul
import Verif.Props.Sym
import Verif.Props.ThrowError
import Verif.Props.Transl
import Verif.Props.TranslIff
import Verif.Props.TranslLaws
import Verif.Props.TranslOpt
import Verif.Props.TranslQr
import Verif.Props.TriClosed
import Verif.Props.TriEqual
import Verif.Props.TriEqualLaws
import Verif.Props.TriFaceEdge
import Verif.Props.TriGeom
import Verif.Props.TriOneRow
import Verif.Props.TriOrient
import Verif.Props.TriShrink
import Verif.Props.TriStats
import Verif.Props.TriTube
import Verif.Props.TubeLaws
import Verif.Props.TypeChecks
import Verif.Props.UnitBall
import Verif.Props.Volume
import Verif.Spec.AbsRelCompare
import Verif.Spec.Boundary
import Verif.Spec.Config
import Verif.Spec.Constants
import Verif.Spec.DictCompare
import Verif.Spec.DictPass
import Verif.Spec.Ell
import Verif.Spec.EllCtor
import Verif.Spec.EllHeap
import Verif.Spec.EllScalars
import Verif.Spec.Formula
import Verif.Spec.Fusion
import Verif.Spec.Hyperplane
import Verif.Spec.HyperplaneCtor
import Verif.Spec.IsBigger
import Verif.Spec.IsEqual
import Verif.Spec.IsInternal
import Verif.Spec.LinImage
import Verif.Spec.Logging
import Verif.Spec.LrMultiply
import Verif.Spec.MatHelpers
import Verif.Spec.MatVector
import Verif.Spec.Minksum
import Verif.Spec.Move
import Verif.Spec.Polar
import Verif.Spec.QuadMat
import Verif.Spec.Rho
import Verif.Spec.Session
import Verif.Spec.SortRows
import Verif.Spec.SpherePart
import Verif.Spec.SphereTri
import Verif.Spec.SphereTriExt
import Verif.Spec.SupGeomDiff
import Verif.Spec.Sym
import Verif.Spec.Transl
import Verif.Spec.TriClosed
import Verif.Spec.TriEqual
import Verif.Spec.TriFaceEdge
import Verif.Spec.TriGeom
import Verif.Spec.TriOrient
import Verif.Spec.TriShrink
import Verif.Spec.TriTube
