import Mathlib.Analysis.SpecialFunctions.Pow.Real
import Verif.Model.TriFaceEdge

/-! Model of `shrink_face_tri` (gras/geom/tri/tri.py).

The rows of `f_mat`, `f2e_mat` and `f2e_is_dir_mat` with the same number are kept together in one record: the code always selects and
stacks the three matrices in the same way.  Vertices have `d` coordinates, exact real numbers.  The function for the adjustment of new
vertices maps a list of points to a list of points.  The statistics (lines 131-136, 163-167, 291-295, 300-307) are in `Model/TriStats`. -/

namespace Ellipy.Tri
noncomputable section

variable {d : ℕ}

/-- The rows of the three tables of faces. -/
structure Face where
  v : Row
  e : Row
  dir : Bool × Bool × Bool

/-- The variables of the loop. -/
structure Mesh (d : ℕ) where
  verts : List (Fin d → ℝ)
  edges : List (ℕ × ℕ)
  len : List ℝ
  faces : List Face

/-- `np.sqrt(np.sum(d * d))` of the difference of two vertices. -/
def edgeLen (verts : List (Fin d → ℝ)) (e : ℕ × ℕ) : ℝ := Real.sqrt (∑ i, (verts.getD e.1 0 i - verts.getD e.2 0 i) ^ 2)

/-- The entries of `l` whose numbers satisfy `p`: a Boolean mask. -/
def maskIdx {α : Type} (p : ℕ → Bool) (l : List α) : List α := (l.zipIdx.filter (fun x => p x.2)).map Prod.fst

/-- Entry `k` of `np.cumsum` of a Boolean mask. -/
def cumIdx (p : ℕ → Bool) (k : ℕ) : ℕ := (List.range (k + 1)).countP p

/-- The mask with the entries at the edges of the given faces set. -/
def onFaces (fs : List Face) (k : ℕ) : Bool := fs.any (fun f => f.e.1 == k || f.e.2.1 == k || f.e.2.2 == k)

section Step
variable (maxLen : ℝ) (m : Mesh d)
open Classical in
/-- `is_e2orig_part_vec`, gras/geom/tri/tri.py:141: the edges that are too long. -/
def isLong (k : ℕ) : Bool := decide (maxLen < m.len.getD k 0)

/-- `is_f2part_vec`, gras/geom/tri/tri.py:144-148: the faces that are split. -/
def isPart (f : Face) : Bool := isLong maxLen m f.e.1 || isLong maxLen m f.e.2.1 || isLong maxLen m f.e.2.2

/-- The rows of the faces that are split, gras/geom/tri/tri.py:151-152, 179-181. -/
def partF : List Face := m.faces.filter (isPart maxLen m)

/-- `is_e2part_vec`, gras/geom/tri/tri.py:153-154: the edges that are split. -/
def e2part (k : ℕ) : Bool := isLong maxLen m k || onFaces (partF maxLen m) k

/-- The rows of `e_mat` that are split, gras/geom/tri/tri.py:157-158. -/
def splitE : List (ℕ × ℕ) := maskIdx (e2part maxLen m) m.edges

/-- `v_new_mat`, gras/geom/tri/tri.py:160: the middles of the edges. -/
def vNew : List (Fin d → ℝ) := (splitE maxLen m).map (fun e => (1 / 2 : ℝ) • (m.verts.getD e.1 0 + m.verts.getD e.2 0))

/-- `ind_e_part_vec`, gras/geom/tri/tri.py:173: the numbers of the new vertices in the middles of the edges. -/
def ePart (k : ℕ) : ℕ := cumIdx (e2part maxLen m) k + m.verts.length - 1

/-- The rows of the faces that are not split, gras/geom/tri/tri.py:184-186. -/
def keptF : List Face := m.faces.filter (fun f => !isPart maxLen m f)

/-- `is_e_kept_vec`, gras/geom/tri/tri.py:187-188. -/
def eKept (k : ℕ) : Bool := onFaces (keptF maxLen m) k

/-- `ind_e_kept_vec`, gras/geom/tri/tri.py:189. -/
def indKept (k : ℕ) : ℕ := cumIdx (eKept maxLen m) k - 1

/-- The kept rows of `e_mat`, gras/geom/tri/tri.py:191. -/
def edges0 : List (ℕ × ℕ) := maskIdx (eKept maxLen m) m.edges

/-- The kept rows of the faces with the new numbers of their edges, gras/geom/tri/tri.py:190. -/
def keptF' : List Face :=
  (keptF maxLen m).map (fun f => { f with e := (indKept maxLen m f.e.1, indKept maxLen m f.e.2.1, indKept maxLen m f.e.2.2) })

/-- `e1_new_mat`, gras/geom/tri/tri.py:196-199. -/
def e1New : List (ℕ × ℕ) :=
  (partF maxLen m).map (fun f => (ePart maxLen m f.e.1, ePart maxLen m f.e.2.1)) ++
  (partF maxLen m).map (fun f => (ePart maxLen m f.e.1, ePart maxLen m f.e.2.2)) ++
  (partF maxLen m).map (fun f => (ePart maxLen m f.e.2.1, ePart maxLen m f.e.2.2))

/-- `e2_new_mat`, gras/geom/tri/tri.py:214-218. -/
def e2New : List (ℕ × ℕ) :=
  (splitE maxLen m).zipIdx.map (fun x => (x.1.1, m.verts.length + x.2)) ++
  (splitE maxLen m).zipIdx.map (fun x => (m.verts.length + x.2, x.1.2))

/-- The internal faces, gras/geom/tri/tri.py:202-211; `x.2` is the number of the split face. -/
def f1New : List Face := (partF maxLen m).zipIdx.map (fun x : Face × ℕ =>
  ⟨(ePart maxLen m x.1.e.1, ePart maxLen m x.1.e.2.1, ePart maxLen m x.1.e.2.2),
   ((edges0 maxLen m).length + x.2, (edges0 maxLen m).length + x.2 + 2 * (partF maxLen m).length,
    (edges0 maxLen m).length + x.2 + (partF maxLen m).length), (true, true, true)⟩)

/-- The number of a half of edge `k`, gras/geom/tri/tri.py:238-247: the second half if `b` (`dir_mat`). -/
def halfE (k : ℕ) (b : Bool) : ℕ :=
  (edges0 maxLen m).length + (3 * (partF maxLen m).length + (ePart maxLen m k - m.verts.length) + if b then (splitE maxLen m).length else 0)

/-- The faces at the corners of the split faces, gras/geom/tri/tri.py:221-251; `dir_mat` is `(!d13, !d12)`, `(d12, !d23)`, `(d23, d13)`. -/
def f2New : List Face :=
  (partF maxLen m).zipIdx.map (fun x : Face × ℕ => ⟨(ePart maxLen m x.1.e.1, ePart maxLen m x.1.e.2.2, x.1.v.1),
    ((edges0 maxLen m).length + (x.2 + (partF maxLen m).length), halfE maxLen m x.1.e.2.2 (!x.1.dir.2.2), halfE maxLen m x.1.e.1 (!x.1.dir.1)),
    (true, !x.1.dir.2.2, !x.1.dir.1)⟩) ++
  (partF maxLen m).zipIdx.map (fun x : Face × ℕ => ⟨(ePart maxLen m x.1.e.2.1, ePart maxLen m x.1.e.1, x.1.v.2.1),
    ((edges0 maxLen m).length + x.2, halfE maxLen m x.1.e.1 x.1.dir.1, halfE maxLen m x.1.e.2.1 (!x.1.dir.2.1)),
    (false, x.1.dir.1, !x.1.dir.2.1)⟩) ++
  (partF maxLen m).zipIdx.map (fun x : Face × ℕ => ⟨(ePart maxLen m x.1.e.2.2, ePart maxLen m x.1.e.2.1, x.1.v.2.2),
    ((edges0 maxLen m).length + (x.2 + 2 * (partF maxLen m).length), halfE maxLen m x.1.e.2.1 x.1.dir.2.1, halfE maxLen m x.1.e.2.2 x.1.dir.2.2),
    (false, x.1.dir.2.1, x.1.dir.2.2)⟩)

/-- The edges that are split and kept, gras/geom/tri/tri.py:257-260. -/
def broken : List ℕ := (List.range m.edges.length).filter (fun k => e2part maxLen m k && eKept maxLen m k)

/-- The flat faces at these edges, gras/geom/tri/tri.py:263-269. -/
def f3New : List Face := (broken maxLen m).map (fun k =>
  ⟨(ePart maxLen m k, (edges0 maxLen m).getD (indKept maxLen m k) (0, 0)),
   (ePart maxLen m k - m.verts.length + 3 * (partF maxLen m).length + (edges0 maxLen m).length,
    ePart maxLen m k - m.verts.length + 3 * (partF maxLen m).length + (edges0 maxLen m).length + (splitE maxLen m).length,
    indKept maxLen m k), (true, true, true)⟩)

/-- The vertices after the pass, gras/geom/tri/tri.py:272-276. -/
def newVerts (adjust : Option (List (Fin d → ℝ) → List (Fin d → ℝ))) : List (Fin d → ℝ) :=
  m.verts ++ match adjust with
    | none => vNew maxLen m
    | some g => g (vNew maxLen m)

end Step

/-- One pass through the body of the loop, gras/geom/tri/tri.py:141-297. -/
def shrinkStep (maxLen : ℝ) (adjust : Option (List (Fin d → ℝ) → List (Fin d → ℝ))) (m : Mesh d) : Mesh d where
  verts := newVerts maxLen m adjust
  edges := edges0 maxLen m ++ (e1New maxLen m ++ e2New maxLen m)                          -- line 277
  len := maskIdx (eKept maxLen m) m.len ++                                                -- lines 192, 283-284
    (e1New maxLen m ++ e2New maxLen m).map (edgeLen (newVerts maxLen m adjust))
  faces := keptF' maxLen m ++ (f1New maxLen m ++ (f2New maxLen m ++ f3New maxLen m))      -- lines 278-280

/-- The loop, gras/geom/tri/tri.py:138-299; `none` when it does not end within the given number of passes. -/
def shrinkLoop (maxLen : ℝ) (nMax : Option ℕ) (adjust : Option (List (Fin d → ℝ) → List (Fin d → ℝ))) : ℕ → ℕ → Mesh d → Option (Mesh d)
  | 0, _, _ => none
  | fuel + 1, iStep, m =>
    open Classical in
    if (∃ x ∈ m.len, maxLen < x) ∧ (∀ n ∈ nMax, iStep ≤ n) then shrinkLoop maxLen nMax adjust fuel (iStep + 1) (shrinkStep maxLen adjust m)
    else some m

/-- The tables before the loop, gras/geom/tri/tri.py:117-129. -/
def initMesh (argsort : List ℕ → List ℕ) (verts : List (Fin d → ℝ)) (f : FMat) : Py (Mesh d) :=
  match faceRows f, mapFace2Edge argsort f with
  | .ok rows, .ok (E, f2e, dirs) =>
    if ∀ e ∈ E, e.1 < verts.length ∧ e.2 < verts.length then
      .ok ⟨verts, E, E.map (edgeLen verts), (rows.zip (f2e.zip dirs)).map (fun x => ⟨x.1, x.2.1, x.2.2⟩)⟩
    else .error .indexError                                                               -- line 128
  | .error e, _ => .error e
  | _, .error e => .error e

/-- `shrink_face_tri(v_mat, f_mat, max_edge_len, n_max_steps, f_vert_adjust_func)`, gras/geom/tri/tri.py:101-310; `nMax = none` is
`np.inf`; the result is `none` when the loop does not end within `fuel` passes. -/
def shrinkFaceTri (argsort : List ℕ → List ℕ) (fuel : ℕ) (verts : List (Fin d → ℝ)) (f : FMat) (maxLen : ℝ) (nMax : Option ℕ)
    (adjust : Option (List (Fin d → ℝ) → List (Fin d → ℝ))) : Py (Option (Mesh d)) :=
  open Classical in
  match initMesh argsort verts f with
  | .error e => .error e
  | .ok m =>
    match f with
    | .mat [_] =>                                                                         -- line 180: `f_mat[True, 1]` of a one-row matrix
      if (∃ x ∈ m.len, maxLen < x) ∧ (∀ n ∈ nMax, 1 ≤ n) then .error .indexError else .ok (some m)
    | _ => .ok (shrinkLoop maxLen nMax adjust fuel 1 m)

end
end Ellipy.Tri
