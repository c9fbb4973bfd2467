import Mathlib.Algebra.BigOperators.Fin
import Verif.Model.EllScalars

/-! Vocabulary for C119: ellipsoids that are moved without being turned. -/

namespace Ellipy.Ell
open Matrix

/-- The ellipsoid moved by the vector with the coordinates `d 0, d 1, …`. -/
noncomputable def EllObj.move (d : ℕ → ℝ) (e : EllObj) : EllObj := ⟨e.n, fun i => e.c i + d i, e.Q, e.absTol, e.relTol, e.n2d, e.n3d⟩

/-- All ellipsoids of an array moved by the same vector. -/
noncomputable def moveArr (d : ℕ → ℝ) (a : Arr EllObj) : Arr EllObj := ⟨a.shape, a.data.map (EllObj.move d), by simp [a.len]⟩

/-- A possibly infinite or undefined number plus a number. -/
noncomputable def shiftX (x : XF ℝ) (d : ℝ) : XF ℝ :=
  match x with
  | .fin v => .fin (v + d)
  | y => y

/-- The two ellipsoids differ at most in their centres. -/
def Recentred (e e' : EllObj) : Prop := ∃ d, e' = e.move d

/-- The same for an argument that may be something else. -/
def Item.Recentred : Item EllObj → Item EllObj → Prop
  | .inst e, .inst e' => Ell.Recentred e e'
  | .other, .other => True
  | _, _ => False

/-- Arguments of the same form whose ellipsoids differ at most in their centres. -/
def ObjArg.Recentred : ObjArg EllObj → ObjArg EllObj → Prop
  | .single x, .single y => x.Recentred y
  | .many a, .many b => a.shape = b.shape ∧ List.Forall₂ Item.Recentred a.data b.data
  | _, _ => False

/-- The results `r` and `r'` of `rho` for ellipsoids and for the same ellipsoids moved by `d`, with the directions `x`: the same
exceptions; otherwise arrays of the same shapes, in which the `q`-th support value grows by the product of the `q`-th direction (or the
only one) with `d` and the `q`-th column of the boundary points by `d`. -/
def RhoMoved (d : ℕ → ℝ) (x : Arr ℝ) (r r' : Py (Arr ℝ × Arr (XF ℝ))) : Prop :=
  (∀ e, r = .error e → r' = .error e) ∧
  ∀ s b, r = .ok (s, b) → ∃ s' b', r' = .ok (s', b') ∧ s'.shape = s.shape ∧ b'.shape = b.shape ∧
    ∃ (m : ℕ) (rest : List ℕ), x.shape = m :: rest ∧ b.data.length = m * s.data.length ∧
      ∀ q < s.data.length,
        s'.data[q]? = some (s.data.getD q 0 +
          ∑ i : Fin m, x.data.getD (i.val * rest.foldr (· * ·) 1 + (if rest.foldr (· * ·) 1 = 1 then 0 else q)) 0 * d i) ∧
        ∀ i < m, b'.data[i * s.data.length + q]? = (b.data[i * s.data.length + q]?).map (fun y => shiftX y (d i))

end Ellipy.Ell
