import Verif.Base.PyMap
import Verif.Model.SortRows
import Verif.Model.TriFaceEdge

/-! Model of `is_face` and `is_tri_equal` (gras/geom/tri/tri.py).  The numbers of the vertices are natural numbers. -/

namespace Ellipy.Tri

/-- `np.split(l, cuts)` for increasing positions. -/
def npSplit (l cuts : List ℕ) : List (List ℕ) := List.zipWith (fun a b => (l.take b).drop a) (0 :: cuts) (cuts ++ [l.length])

/-- The loop of `get_edge_attachements`, gras/geom/tri/tri.py:339-346; `ind` is `ind_edge_vec`, `iEdge` the counter. -/
def attachLoop (fNum : List (List ℕ)) (ind : List ℕ) : List Bool → ℕ → Py (List (List ℕ))
  | [], _ => .ok []
  | true :: flags, iEdge =>
    match pyIndex ind iEdge with                                                        -- line 341
    | .error e => .error e
    | .ok k =>
      match pyIndex fNum k with
      | .error e => .error e
      | .ok v =>
        match attachLoop fNum ind flags (iEdge + 1) with                                -- line 342
        | .error e => .error e
        | .ok vs => .ok (v :: vs)
  | false :: flags, iEdge =>
    match attachLoop fNum ind flags iEdge with                                          -- line 344
    | .error e => .error e
    | .ok vs => .ok ([] :: vs)

/-- `get_edge_attachements(f_num_list, e_mat, check_e_mat)`, gras/geom/tri/tri.py:327-346; `check` are the sorted pairs (line 334).  The
views as `void` (lines 330-332, 335) only turn the rows into elements to be compared; `is_member` returns the same for every order of
them (C05). -/
def edgeAttachments (fNum : List (List ℕ)) (eMat check : List (ℕ ×ₗ ℕ)) : Py (List (List ℕ)) :=
  match isMember check eMat with                                                        -- line 336
  | .error e => .error e
  | .ok (flags, ind) => attachLoop fNum ind flags 0

/-- One row of `fnum_list_to_mat(f_num_list, def_vec)`, gras/geom/tri/tri.py:358-372. -/
def fnumRow (d : ℤ × ℤ) (v : List ℕ) : ℤ × ℤ :=
  match v with
  | [x] => (x, d.2)                                                                     -- lines 362-366
  | [x, y] => (x, y)                                                                    -- lines 367-371
  | _ => d                                                                              -- line 361

/-- `flip_or_not(row, is_flip)`, gras/geom/tri/tri.py:379-383. -/
def flipOrNot (p : ℤ × ℤ) (isFlip : Bool) : ℤ × ℤ := if isFlip then (p.2, p.1) else p

/-- The rows of `comb_mat`, gras/geom/tri/tri.py:385-386. -/
def combs : List (Bool × Bool × Bool) :=
  [(false, false, false), (true, false, false), (false, true, false), (true, true, false),
   (false, false, true), (true, false, true), (false, true, true), (true, true, true)]

/-- One entry of `intersect_mat(one_mat, two_mat, three_mat)`, gras/geom/tri/tri.py:378-398. -/
def intersectRow (one two three : ℤ × ℤ) : Bool :=
  combs.any (fun c =>
    let p := flipOrNot one c.1
    let q := flipOrNot two c.2.1
    let r := flipOrNot three c.2.2
    (decide (p.1 = q.1) && decide (q.1 = r.1)) || (decide (p.2 = q.2) && decide (q.2 = r.2)))

/-- `is_face(f_mat, f_to_check_mat)`, gras/geom/tri/tri.py:326-400. -/
def isFace (argsort : List ℕ → List ℕ) (f : FMat) (check : List Row) : Py (List Bool) :=
  match faceEdgeInfo argsort f with                                                     -- line 348
  | .error e => .error e
  | .ok (_, eMat, indF, shift) =>
    let fNum := if shift.length = 1 then [indF] else npSplit indF (npCumsum shift.dropLast)   -- lines 349-352
    match edgeAttachments fNum eMat (check.map (fun t => sortPair t.1 t.2.1)) with            -- lines 354-356
    | .error e => .error e
    | .ok l12 =>
      match edgeAttachments fNum eMat (check.map (fun t => sortPair t.2.1 t.2.2)) with
      | .error e => .error e
      | .ok l23 =>
        match edgeAttachments fNum eMat (check.map (fun t => sortPair t.1 t.2.2)) with
        | .error e => .error e
        | .ok l13 =>
          let m12 := l12.map (fnumRow (-121, -122))                                     -- lines 374-376
          let m23 := l23.map (fnumRow (-231, -232))
          let m13 := l13.map (fnumRow (-131, -132))
          .ok (List.zipWith (fun p qr => intersectRow p qr.1 qr.2) m12 (m23.zip m13))   -- line 400

/-- The second result of `is_tri_equal`; the numbers in the text are dropped. -/
inductive TriReport where
  | none
  | faces
  | uniqueFaces
  | vertices
  | faceCount
  | vertexCount
  deriving DecidableEq

/-- `ind_vec[f_mat]` for a matrix of faces. -/
def takeFaces {n : ℕ} (ind : Fin n → Fin n) (f : List Row) : Py (List Row) :=
  let at1 (k : ℕ) : Py ℕ := if h : k < n then .ok (ind ⟨k, h⟩).val else .error .indexError
  pyMap (fun t =>
    match at1 t.1 with
    | .error e => .error e
    | .ok a =>
      match at1 t.2.1 with
      | .error e => .error e
      | .ok b =>
        match at1 t.2.2 with
        | .error e => .error e
        | .ok c => .ok (a, b, c)) f

variable {K : Type} [Field K] [LinearOrder K]

/-- `is_tri_equal(v1_mat, f1_mat, v2_mat, f2_mat, max_tol)`, gras/geom/tri/tri.py:403-440, for vertices with `m` coordinates and faces with
three vertices.  `np.max` raises `ValueError` on an empty array, otherwise `np.max(x) <= max_tol` compares every entry. -/
def isTriEqual (argsort : List ℕ → List ℕ) (argsortF : ∀ n, (Fin n → K) → Equiv.Perm (Fin n))
    (argsortI : ∀ n, (Fin n → Fin n) → Equiv.Perm (Fin n)) {n1 n2 m : ℕ} (v1 : Fin n1 → Fin m → K) (f1 : List Row)
    (v2 : Fin n2 → Fin m → K) (f2 : List Row) (tol : K) : Py (Bool × TriReport) :=
  if hn : n1 = n2 then                                                                  -- lines 405-409
    if f1.length = f2.length then                                                       -- lines 410-413
      match SortRows.sortRowsTol (argsortF n1) (argsortI n1) v1 tol with                -- line 414
      | .error e => .error e
      | .ok r1 =>
        match SortRows.sortRowsTol (argsortF n1) (argsortI n1) (fun i => v2 (Fin.cast hn i)) tol with   -- line 415
        | .error e => .error e
        | .ok r2 =>
          match takeFaces r1.rev f1 with                                                -- line 417
          | .error e => .error e
          | .ok g1 =>
            match takeFaces r2.rev f2 with                                              -- line 418
            | .error e => .error e
            | .ok g2 =>
              if n1 = 0 ∨ m = 0 then .error .pyValueError                               -- line 419
              else if ∀ i c, |r1.res i c - r2.res i c| ≤ tol then                       -- lines 419-422
                if g1.dedup.length = g2.dedup.length then                               -- lines 423-426
                  match isFace argsort (.mat g2) g1 with                                -- line 427
                  | .error e => .error e
                  | .ok b1 =>
                    if b1.all id then
                      match isFace argsort (.mat g1) g2 with
                      | .error e => .error e
                      | .ok b2 => if b2.all id then .ok (true, .none) else .ok (false, .faces)
                    else .ok (false, .faces)
                else .ok (false, .uniqueFaces)
              else .ok (false, .vertices)
    else .ok (false, .faceCount)
  else .ok (false, .vertexCount)

end Ellipy.Tri
