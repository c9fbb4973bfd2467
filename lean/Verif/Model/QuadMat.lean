import Verif.Base.Lstsq
import Verif.Base.PyMap
import Verif.Model.La

/-! Model of `inv_mat` and `quad_mat`, gras/geom/ell/ell.py, in exact arithmetic on real finite arrays (for which `is_numeric` is
true). -/

namespace Ellipy.Ell
open Matrix Ellipy.LA
noncomputable section

/-- `np.linalg.inv` of a square matrix: `LinAlgError` for a singular one. -/
def npInv {n : ℕ} (A : Matrix (Fin n) (Fin n) ℝ) : Py (Matrix (Fin n) (Fin n) ℝ) :=
  if A.det = 0 then .error .linAlgError else .ok A⁻¹

/-- The `n × n` matrix stored in an array of shape `(n, n)`. -/
def arrMat (n : ℕ) (data : List ℝ) : Matrix (Fin n) (Fin n) ℝ := of fun i j => data.getD (i.val * n + j.val) 0

/-- A matrix as a numpy array. -/
def matR {n : ℕ} (Q : Matrix (Fin n) (Fin n) ℝ) : Arr ℝ :=
  ⟨[n, n], List.ofFn (fun k : Fin (n * n) => Q k.divNat k.modNat), by simp⟩

/-- A vector as a numpy array of shape `(n,)`. -/
def vecR {n : ℕ} (v : Fin n → ℝ) : Arr ℝ := ⟨[n], List.ofFn v, by simp⟩

/-- Lines 24-26 of `inv_mat`, gras/geom/ell/ell.py. -/
def invSq {n : ℕ} (Q : Matrix (Fin n) (Fin n) ℝ) : Py (Matrix (Fin n) (Fin n) ℝ) :=
  match npInv Q with                                                              -- line 24
  | .error e => .error e
  | .ok B =>
    match npInv (B * Q) with                                                      -- line 25
    | .error e => .error e
    | .ok C => .ok (C * B)

/-- `inv_mat(q_mat)`, gras/geom/ell/ell.py:16-26. -/
def invMat (q : Arr ℝ) : Py (Σ n : ℕ, Matrix (Fin n) (Fin n) ℝ) :=
  match q.shape with
  | [m, n] =>
    if m ≠ n then throwErr "wrongInput:q_mat"                                     -- lines 21-22
    else
      match invSq (arrMat n q.data) with
      | .error e => .error e
      | .ok B => .ok ⟨n, B⟩
  | _ => throwErr "wrongInput:q_mat"                                              -- lines 17-18

/-- `mode.lower()`. -/
def pyLower (s : String) : List Char := s.toList.map Char.toLower

/-- The shape of a vector after it has been made a row, gras/geom/ell/ell.py:52-63 (and 77-82 for two dimensions): an array with one
dimension becomes a row, a column is transposed, and anything else with more than one row is rejected.  Unpacking the shape of an
array without dimensions raises. -/
def rowShape (tag : String) (shape : List ℕ) : Py (ℕ × ℕ) :=
  match shape with
  | [] => .error .pyValueError
  | [k] => .ok (1, k)
  | [a, b] =>
    if 1 < a ∧ 1 < b then throwErr tag
    else if 1 < a then .ok (b, a)
    else .ok (a, b)
  | _ => throwErr tag

/-- `quad_mat(q_mat, x_vec, c_vec, mode)`, gras/geom/ell/ell.py:29-95.  The result is an array of shape `(1, 1)`; it has no entries when
`x_vec` or `c_vec` is an array of shape `(0, n)` or `(n, 0)`. -/
def quadMat (L : Lstsq) (q x c : Arr ℝ) (mode : String) : Py (Arr ℝ) :=
  if pyLower mode ∉ ["plain".toList, "inv".toList, "invadv".toList] then throwErr "wrongInput:mode"   -- lines 40-42
  else
    match q.shape with
    | [m, n] =>
      if m ≠ n then throwErr "wrongInput:q_mat"                                   -- lines 49-50
      else
        match rowShape "wrongInput:x_vec" x.shape with                            -- lines 52-63
        | .error e => .error e
        | .ok (xr, xn) =>
          let zeroC : Prop := c.data = [0]
          if ¬ zeroC ∧ 2 < c.shape.length then throwErr "wrongInput:c_vec"        -- lines 68-69
          else
            let cshape := if zeroC then [1, xn]                                   -- lines 66-67
              else if c.shape.length ≤ 1 then [1, c.data.length] else c.shape     -- lines 70-71
            let cdata := if zeroC then List.replicate xn 0 else c.data
            if xn ≠ n then throwErr "wrongInput:q_mat:x_vec"                      -- lines 73-75
            else
              match rowShape "wrongInput:c_vec" cshape with                       -- lines 77-82
              | .error e => .error e
              | .ok (cr, cn) =>
                if cn ≠ n then throwErr "wrongInput:q_mat:c_vec"                  -- lines 84-86
                else
                  let Q := arrMat n q.data
                  let y : Fin n → ℝ := fun i => x.data.getD i 0 - cdata.getD i 0
                  let res (r : ℝ) : Arr ℝ :=
                    if xr = 0 ∨ cr = 0 then ⟨[0, 0], [], rfl⟩ else ⟨[1, 1], [r], rfl⟩
                  if pyLower mode = "plain".toList then .ok (res (y ⬝ᵥ Q *ᵥ y))   -- lines 88-89
                  else if pyLower mode = "invadv".toList then                     -- lines 90-91
                    match invSq Q with                                            -- the tests of `inv_mat` have been passed
                    | .error e => .error e
                    | .ok B => .ok (res (y ⬝ᵥ B *ᵥ y))
                  else .ok (res (y ⬝ᵥ fun i => L.sol Q (colMat y) i 0))           -- line 93
    | _ => throwErr "wrongInput:q_mat"                                            -- lines 44-45

end
end Ellipy.Ell
