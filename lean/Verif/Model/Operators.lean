import Verif.Model.EllHeap
import Verif.Model.Hyperplane

/-!
Operators of the classes.  The functions `ne`, `ge`, `gt`, `le`, `lt`, `mtimes`, `plus` and `minus` have the body `pass`, so their value is `None`.
-/

namespace Ellipy.Op

/-- What a Python function with the body `pass` returns. -/
def stub {α : Type} : Py (Option α) := .ok none

/-- `x, _ = value`: `None` cannot be unpacked. -/
def unpackFst {α β : Type} : Option (α × β) → Py α
  | none => .error .typeError
  | some p => .ok p.1

/-- `value.flatten()[0]`: `None` has no such attribute. -/
def flattenFst {α : Type} : Option (Arr α) → Py α
  | none => .error .attributeError
  | some a => pyIndex a.data 0

/-- `__ne__` of `Ellipsoid` (elltool/core/ellipsoid/Ellipsoid.py:268-275) and of `Hyperplane`
(elltool/core/hyperplane/Hyperplane.py:234-241). -/
def neOp {α : Type} (_x _y : α) : Py Bool :=
  match (stub : Py (Option (Arr Bool × String))) with
  | .error e => .error e
  | .ok r =>
    match unpackFst r with
    | .error e => .error e
    | .ok a => pyIndex a.data 0

/-- `__ge__`, `__gt__`, `__le__`, `__lt__` of `Ellipsoid`, elltool/core/ellipsoid/Ellipsoid.py:236-266. -/
def orderOp {α : Type} (_x _y : α) : Py Bool :=
  match (stub : Py (Option (Arr Bool))) with
  | .error e => .error e
  | .ok r => flattenFst r

/-- `__rmul__`, `__add__`, `__radd__`, `__sub__`, `__rsub__` of `AEllipsoid`,
elltool/core/aellipsoid/AEllipsoid.py:81-86 and 212-230; `β` is the type of the other operand. -/
def arithOp {α β : Type} (_x : α) (_b : β) : Py α :=
  match (stub : Py (Option (Arr α))) with
  | .error e => .error e
  | .ok r => flattenFst r

/-- `-ell`, elltool/core/ellipsoid/Ellipsoid.py:718-719. -/
noncomputable def negEll (E : LA.Eigh) (h : Ell.Heap) (o : ℕ) : Py ℕ × Ell.Heap :=
  match Ell.uminus E h (Arr.vec [o]) with
  | (.error x, h1) => (.error x, h1)
  | (.ok rs, h1) => (pyIndex rs.data 0, h1)

/-- `-hyp`, elltool/core/hyperplane/Hyperplane.py:312-313. -/
noncomputable def negHyp (dflt : Hyp.Tols) (h : Hyp.HypObj) : Py Hyp.HypObj :=
  match Hyp.uminus dflt (Arr.vec [h]) with
  | .error e => .error e
  | .ok rs => pyIndex rs.data 0

end Ellipy.Op
