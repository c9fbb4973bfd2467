import Verif.Model.TriShrink

/-! Model of the statistics of `shrink_face_tri` (`is_stat_collected=True`, gras/geom/tri/tri.py). -/

namespace Ellipy.Tri
noncomputable section

variable {d : ℕ}

/-- A statistic with an entry for every mesh: a plain number before the first pass (gras/geom/tri/tri.py:132-134), a vector afterwards. -/
inductive Stat where
  | num (n : ℕ)
  | vec (l : List ℕ)

/-- `np.append(stat, n)`, gras/geom/tri/tri.py:293-295. -/
def Stat.append : Stat → ℕ → Stat
  | .num a, n => .vec [a, n]
  | .vec l, n => .vec (l ++ [n])

/-- The dictionary `s_stats`, gras/geom/tri/tri.py:301-307.  (Without a pass the last two are arrays of shape `(0, 1)` instead of `(0,)`.) -/
structure Stats where
  nSteps : ℕ
  nVert : Stat
  nFace : Stat
  nEdge : Stat
  nShrink : List ℕ
  maxEdge : List ℝ

/-- The statistics before the loop, gras/geom/tri/tri.py:131-136. -/
def initStats (m : Mesh d) : Stats := ⟨0, .num m.verts.length, .num m.faces.length, .num m.edges.length, [], []⟩

/-- `np.max` of a non-empty list. -/
def npMaxL : List ℝ → ℝ
  | [] => 0
  | x :: l => l.foldl max x

/-- The statistics after a pass from the mesh `m` to the mesh `m'`, gras/geom/tri/tri.py:163-167 and 291-295. -/
def passStats (maxLen : ℝ) (m m' : Mesh d) (s : Stats) : Stats where
  nSteps := s.nSteps
  nVert := s.nVert.append m'.verts.length
  nFace := s.nFace.append m'.faces.length
  nEdge := s.nEdge.append m'.edges.length
  nShrink := s.nShrink ++ [(List.range m.edges.length).countP (e2part maxLen m)]          -- lines 165-166
  maxEdge := s.maxEdge ++ [npMaxL m.len]                                                  -- line 167

/-- The loop with statistics, gras/geom/tri/tri.py:138-302. -/
def shrinkLoopStat (maxLen : ℝ) (nMax : Option ℕ) (adjust : Option (List (Fin d → ℝ) → List (Fin d → ℝ))) :
    ℕ → ℕ → Mesh d → Stats → Option (Mesh d × Stats)
  | 0, _, _, _ => none
  | fuel + 1, iStep, m, s =>
    open Classical in
    if (∃ x ∈ m.len, maxLen < x) ∧ (∀ n ∈ nMax, iStep ≤ n) then
      shrinkLoopStat maxLen nMax adjust fuel (iStep + 1) (shrinkStep maxLen adjust m) (passStats maxLen m (shrinkStep maxLen adjust m) s)
    else some (m, { s with nSteps := iStep - 1 })                                         -- line 302

/-- `shrink_face_tri(v_mat, f_mat, max_edge_len, n_max_steps, f_vert_adjust_func, True)`, gras/geom/tri/tri.py:101-308. -/
def shrinkFaceTriStat (argsort : List ℕ → List ℕ) (fuel : ℕ) (verts : List (Fin d → ℝ)) (f : FMat) (maxLen : ℝ) (nMax : Option ℕ)
    (adjust : Option (List (Fin d → ℝ) → List (Fin d → ℝ))) : Py (Option (Mesh d × Stats)) :=
  open Classical in
  match initMesh argsort verts f with
  | .error e => .error e
  | .ok m =>
    match f with
    | .mat [_] =>                                                                         -- line 180, as in `shrinkFaceTri`
      if (∃ x ∈ m.len, maxLen < x) ∧ (∀ n ∈ nMax, 1 ≤ n) then .error .indexError else .ok (some (m, initStats m))
    | _ => .ok (shrinkLoopStat maxLen nMax adjust fuel 1 m (initStats m))

end
end Ellipy.Tri
