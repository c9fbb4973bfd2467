import Verif.Model.EllObj
import Verif.Model.RhoMat
import Verif.Model.SphereTriExt

/-! Model of `get_boundary`, `get_boundary_by_factor`, `get_rho_boundary`, `get_rho_boundary_by_factor` and `_get_grid_by_factor` of
`Ellipsoid`. -/

namespace Ellipy.Ell
open Matrix Ellipy.LA Ellipy.Tri
noncomputable section

/-- The rows of the second array of a grid. -/
inductive Faces where
  | seg (F : List (ℕ × ℕ))
  | tri (F : List Row)

/-- A row of length `k` as a row of length `n`. -/
def asVec (n : ℕ) {k : ℕ} (d : Fin k → ℝ) : Fin n → ℝ := fun i => if h : i.val < k then d ⟨i.val, h⟩ else 0

/-- The number in an attribute; a whole number counts as a Python integer. -/
def attrPts (x : ℝ) : NPts := open Classical in if x = (⌊x⌋ : ℝ) then .int ⌊x⌋ else .flt (.fin x)

/-- The number of points, elltool/core/ellipsoid/Ellipsoid.py:281-288 and 343-350. -/
def boundaryPts (e : EllObj) (num : Option NPts) : Py NPts :=
  if e.n = 2 then .ok (num.getD (attrPts e.n2d))
  else if e.n = 3 then .ok (num.getD (attrPts e.n3d))
  else throwErr "wrongDim"

/-- `get_boundary(n_points, return_grid)`, elltool/core/ellipsoid/Ellipsoid.py:277-302.  Without `return_grid` the result of `sphere_tri_ext` in
space is a pair of arrays of different lengths, which cannot be multiplied (line 297). -/
def getBoundary (E : Eigh) (argsort : List ℕ → List ℕ) (fuel : ℕ) (e : EllObj) (num : Option NPts) (grid : Bool) :
    Py (Option (List (Fin e.n → ℝ) × Option Faces)) :=
  match boundaryPts e num with                                                            -- lines 281-288
  | .error x => .error x
  | .ok num =>
    match sphereTriExt argsort fuel e.n num grid with                                     -- lines 290-295
    | .error x => .error x
    | .ok none => .ok none
    | .ok (some g) =>
      match sqrtmPos E e.Q e.absTol with                                                  -- line 297
      | .error x => .error x
      | .ok S =>
        let pts := fun {k : ℕ} (V : List (Fin k → ℝ)) => V.map (fun d => asVec e.n d ᵥ* S + e.c)     -- lines 297-299
        match g with
        | .pts2 V => .ok (some (pts V, none))
        | .grid2 V F => .ok (some (pts V, some (.seg F)))
        | .grid3 V F => if grid then .ok (some (pts V, some (.tri F))) else .error .pyValueError

/-- The argument `factor_vec`: nothing, a Python integer, a float or a vector. -/
inductive FactorArg where
  | none
  | int (z : ℤ)
  | flt (x : ℝ)
  | vec (l : List ℝ)

/-- `factor`, elltool/core/ellipsoid/Ellipsoid.py:310-316 and 365-371: a float cannot be indexed; for the dimensions below two the index is
counted from the end. -/
def factorOf (n : ℕ) : FactorArg → Py ℝ
  | .none => .ok 1
  | .int z => .ok z
  | .flt _ => .error .typeError
  | .vec l =>
    if 2 ≤ n then
      match l[n - 2]? with
      | some x => .ok x
      | Option.none => .error .indexError
    else if 2 - n ≤ l.length then
      match l[l.length - (2 - n)]? with
      | some x => .ok x
      | Option.none => .error .indexError
    else .error .indexError

/-- `n_plot_points`, elltool/core/ellipsoid/Ellipsoid.py:318-320. -/
def scaledPts (pts factor : ℝ) : NPts := open Classical in if factor ≠ 1 then .int ⌊pts * factor⌋ else attrPts pts

/-- `get_boundary_by_factor(factor_vec, return_grid)`, elltool/core/ellipsoid/Ellipsoid.py:304-325. -/
def getBoundaryByFactor (E : Eigh) (argsort : List ℕ → List ℕ) (fuel : ℕ) (e : EllObj) (factor : FactorArg) (grid : Bool) :
    Py (Option (List (Fin e.n → ℝ) × Option Faces)) :=
  if e.n < 2 ∨ 3 < e.n then throwErr "wrongDim"                                           -- lines 308-309
  else
    match factorOf e.n factor with                                                        -- lines 310-316
    | .error x => .error x
    | .ok f => getBoundary E argsort fuel e (some (scaledPts (if e.n = 2 then e.n2d else e.n3d) f)) grid

/-- The results of `get_rho_boundary`: points, faces, support values, directions. -/
structure RhoBoundary (n : ℕ) where
  bp : List (Fin n → XF ℝ)
  faces : Faces
  sup : List ℝ
  dirs : List (Fin n → ℝ)

/-- `get_rho_boundary`, elltool/core/ellipsoid/Ellipsoid.py:352-358: the first direction is appended once more. -/
def rhoPart {n : ℕ} (Q : Matrix (Fin n) (Fin n) ℝ) (tol : ℝ) (c : Fin n → ℝ) (dirs : List (Fin n → ℝ)) (F : Faces) : Py (RhoBoundary n) :=
  let l := dirs ++ dirs.take 1                                                            -- line 353
  match rhoMat Q (of fun (i : Fin n) (j : Fin l.length) => l[j] i) tol c with             -- line 355
  | .error x => .error x
  | .ok (sup, bp) => .ok ⟨List.ofFn bp, F, List.ofFn sup, l⟩                              -- lines 356-358

/-- `get_rho_boundary(n_points)`, elltool/core/ellipsoid/Ellipsoid.py:340-358. -/
def getRhoBoundary (argsort : List ℕ → List ℕ) (fuel : ℕ) (e : EllObj) (num : Option NPts) : Py (Option (RhoBoundary e.n)) :=
  match boundaryPts e num with                                                            -- lines 342-350
  | .error x => .error x
  | .ok num =>
    match sphereTriExt argsort fuel e.n num true with                                     -- line 351
    | .error x => .error x
    | .ok none => .ok none
    | .ok (some g) =>
      match g with
      | .pts2 _ => .error .pyValueError                                                   -- (does not happen: a grid was asked for)
      | .grid2 V F => (rhoPart e.Q e.absTol e.c (V.map (asVec e.n)) (.seg F)).map some
      | .grid3 V F => (rhoPart e.Q e.absTol e.c (V.map (asVec e.n)) (.tri F)).map some

/-- `get_rho_boundary_by_factor(factor_vec)`, elltool/core/ellipsoid/Ellipsoid.py:360-382. -/
def getRhoBoundaryByFactor (argsort : List ℕ → List ℕ) (fuel : ℕ) (e : EllObj) (factor : FactorArg) : Py (Option (RhoBoundary e.n)) :=
  match factorOf e.n factor with                                                          -- lines 365-371
  | .error x => .error x
  | .ok f =>
    if e.n = 2 then getRhoBoundary argsort fuel e (some (scaledPts e.n2d f))              -- lines 372-375
    else if e.n = 3 then getRhoBoundary argsort fuel e (some (scaledPts e.n3d f))         -- lines 376-379
    else throwErr "wrongDim"                                                              -- lines 380-381

/-- `factor`, elltool/core/ellipsoid/Ellipsoid.py:186-189. -/
def gridFactor (n : ℕ) : ℝ ⊕ List ℝ → Py ℝ
  | .inl x => .ok x
  | .inr l => pyIndex l (n - 2)

/-- `_get_grid_by_factor(factor_vec)`, elltool/core/ellipsoid/Ellipsoid.py:179-202, for an array with one number or a vector.  The product is
a float (line 194).  Without `return_f_grid` the result in the plane is one array; taking it for a pair (line 199) needs exactly two rows,
and then gives the two rows.  (In line 200 there is no zero left.) -/
def getGridByFactor (argsort : List ℕ → List ℕ) (fuel : ℕ) (e : EllObj) (factor : ℝ ⊕ List ℝ) : Py (Option Grid) :=
  open Classical in
  if e.n < 2 ∨ 3 < e.n then throwErr "wrongDim:ellipsoid"                                 -- lines 183-184
  else
    match gridFactor e.n factor with                                                      -- lines 186-189
    | .error x => .error x
    | .ok f =>
      let pts := if e.n = 2 then e.n2d else e.n3d
      let num := if f = 1 then attrPts pts else .flt (.fin (⌊pts * f⌋ : ℝ))               -- lines 191-198
      match sphereTriExt argsort fuel e.n num false with                                  -- line 199
      | .error x => .error x
      | .ok none => .ok none
      | .ok (some (.pts2 V)) => if V.length = 2 then .ok (some (.pts2 V)) else .error .pyValueError
      | .ok (some g) => .ok (some g)

end
end Ellipy.Ell
