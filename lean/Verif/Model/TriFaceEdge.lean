import Mathlib.Data.Prod.Lex
import Mathlib.Data.Nat.Notation
import Mathlib.Data.Int.Notation
import Verif.Model.IsMember

/-! Model of `get_face_edge_info` and `map_face_2_edge` (gras/geom/tri/tri.py).  The numbers of the vertices are natural numbers. -/

namespace Ellipy.Tri

/-- A row of three numbers. -/
abbrev Row := ℕ × ℕ × ℕ

/-- A face matrix: a plain vector of three numbers, a matrix with three columns, or anything with another number of columns. -/
inductive FMat where
  | vec (r : Row)
  | mat (rows : List Row)
  | other

/-- Contract of `np.argsort` (an unstable sort) on lists of natural numbers. -/
def IsArgsort (argsort : List ℕ → List ℕ) : Prop :=
  ∀ l, (argsort l).Perm (List.range l.length) ∧ ((argsort l).map (fun i => l.getD i 0)).Pairwise (· ≤ ·)

/-- `np.bincount(l)` for natural numbers: how often each number up to the largest occurs. -/
def npBincount (l : List ℕ) : List ℕ := (List.range (l.foldr (fun x m => max (x + 1) m) 0)).map (fun j => l.count j)

/-- `np.cumsum(l)`. -/
def npCumsum (l : List ℕ) : List ℕ := (List.range l.length).map (fun i => (l.take (i + 1)).sum)

/-- `np.sort` of a pair. -/
def sortPair (a b : ℕ) : ℕ ×ₗ ℕ := toLex (min a b, max a b)

/-- The rows of `pos_edges`, gras/geom/tri/tri.py:63-64. -/
def posEdges (rows : List Row) : List (ℕ ×ₗ ℕ) :=
  rows.flatMap (fun f => [sortPair f.1 f.2.1, sortPair f.1 f.2.2, sortPair f.2.1 f.2.2])

/-- The rows of the argument as a matrix, gras/geom/tri/tri.py:55-61. -/
def faceRows : FMat → Py (List Row)
  | .vec r => .ok [r]
  | .mat rows => .ok rows
  | .other => throwErr "wrongInput:f_mat"

/-- `get_face_edge_info(f_mat)`, gras/geom/tri/tri.py:54-71: the face matrix, the edges, the faces of the edges and the numbers of
faces of the edges. -/
def faceEdgeInfo (argsort : List ℕ → List ℕ) (f : FMat) : Py (List Row × List (ℕ ×ₗ ℕ) × List ℕ × List ℕ) :=
  match faceRows f with
  | .error e => .error e
  | .ok rows =>
    let pos := posEdges rows
    let indF := (List.range rows.length).flatMap (fun i => [i, i, i])                     -- line 65
    let eMat := npUnique pos                                                              -- line 66
    let inv := npUniqueInverse pos
    let srt := argsort inv                                                                -- line 67
    let inv' := srt.map (fun i => inv.getD i 0)                                           -- line 68
    let indF' := srt.map (fun i => indF.getD i 0)                                         -- line 69
    .ok (rows, eMat, indF', npBincount inv')                                              -- lines 70-71

/-- The code of the side of a face that an edge is, gras/geom/tri/tri.py:83-89. -/
def edgeNum (f : Row) (e : ℕ ×ₗ ℕ) : ℤ :=
  let is (a b : ℕ) : ℤ := if toLex (a, b) = e then 1 else 0
  is f.1 f.2.1 - is f.2.1 f.1 + 2 * is f.2.1 f.2.2 - 2 * is f.2.2 f.2.1 + 3 * is f.1 f.2.2 - 3 * is f.2.2 f.1

/-- `map_face_2_edge(f_mat)`, gras/geom/tri/tri.py:74-98: the edges and, for each face, the numbers and the directions of its three
sides.  (For a single face the code returns vectors instead of one-row matrices, lines 95-97.) -/
def mapFace2Edge (argsort : List ℕ → List ℕ) (f : FMat) : Py (List (ℕ × ℕ) × List Row × List (Bool × Bool × Bool)) :=
  match faceEdgeInfo argsort f with
  | .error e => .error e
  | .ok (rows, eMat, indF, shift) =>
    let n := rows.length
    if shift.sum = 0 then .error .indexError                                              -- line 79 on an empty array
    else
      let starts := npCumsum shift.dropLast                                               -- line 80
      let marks := (List.range shift.sum).map (fun i => if i = 0 ∨ i ∈ starts then 1 else 0)
      let f2e := (npCumsum marks).map (fun c => c - 1)                                    -- line 81
      let fv := indF.map (fun i => rows.getD i (0, 0, 0))                                 -- line 82
      let num := (List.range (3 * n)).map (fun t => edgeNum (fv.getD t (0, 0, 0)) (eMat.getD (f2e.getD t 0) (toLex (0, 0))))
      let key (t : ℕ) : ℤ ×ₗ ℕ := toLex (((num.getD t 0).natAbs : ℤ) - 1, indF.getD t 0)
      let ord := (List.range (3 * n)).mergeSort (fun a b => decide (key a ≤ key b))       -- line 90, `np.lexsort` is stable
      let f2e' := ord.map (fun t => f2e.getD t 0)                                         -- line 91
      let dir := ord.map (fun t => decide (0 < num.getD t 0))
      .ok (eMat.map (fun e => ofLex e),
        (List.range n).map (fun i => (f2e'.getD i 0, f2e'.getD (n + i) 0, f2e'.getD (2 * n + i) 0)),          -- line 93
        (List.range n).map (fun i => (dir.getD i false, dir.getD (n + i) false, dir.getD (2 * n + i) false)))  -- line 94

end Ellipy.Tri
