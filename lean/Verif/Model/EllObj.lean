import Verif.Base.PyMap
import Verif.Model.La

/-! The data of an `Ellipsoid` object and the queries every other method is built on. -/

namespace Ellipy.Ell
open Matrix Ellipy.LA
noncomputable section

/-- The attributes of an `Ellipsoid`, elltool/core/ellipsoid/Ellipsoid.py:23-40: centre, shape matrix and properties.  The empty
ellipsoid has `n = 0`. -/
structure EllObj where
  n : ℕ
  c : Fin n → ℝ
  Q : Matrix (Fin n) (Fin n) ℝ
  absTol : ℝ
  relTol : ℝ
  n2d : ℝ
  n3d : ℝ

/-- `is_empty(ell_arr)` followed by `np.any`, elltool/core/abasicellipsoid/ABasicEllipsoid.py:240-242. -/
def anyEmpty (l : List EllObj) : Prop := ∃ e ∈ l, e.n = 0

/-- `is_degenerate(ell_arr)`, elltool/core/aellipsoid/AEllipsoid.py:118-130 (for an array without elements the result is an array
without elements in both branches). -/
def isDegenerate (E : Eigh) (l : List EllObj) : Py (List Bool) :=
  open Classical in
  if anyEmpty l then throwErr "wrongInput:emptyEllipsoid"                          -- lines 122-123
  else
    match pyMap (fun e => isMatPosDef E e.Q e.absTol false) l with                 -- lines 128-130
    | .error x => .error x
    | .ok bs => .ok (bs.map not)

end
end Ellipy.Ell
