import Verif.Model.EllObj

/-! Model of the constructor of `Ellipsoid` and of the two setters it uses. -/

namespace Ellipy.Ell
open Matrix Ellipy.LA
noncomputable section

/-- An entry of a numeric array: real and imaginary part (the latter is 0 unless the array is complex). -/
structure CX where
  re : XF ℝ
  im : XF ℝ

/-- An argument of the constructor: a numeric numpy array or something that is not an array (arrays of strings or objects are not
modelled). -/
inductive RawArg where
  | arr (a : Arr CX)
  | notArr

/-- `linalg.norm(rows, np.inf)` for a matrix given by its rows: the largest sum of moduli in a row. -/
def normInf (rows : List (List (XF ℝ))) : XF ℝ :=
  open Classical in
  if ∃ r ∈ rows, ∃ x ∈ r, x.isNan = true then .nan
  else if ∃ r ∈ rows, ∃ x ∈ r, x.isFinite = false then .pinf
  else .fin ((rows.map (fun r => (r.map (fun x => |x.toK|)).sum)).foldr max 0)

/-- `x < tol`. -/
def ltX (x : XF ℝ) (tol : ℝ) : Prop :=
  match x with
  | .fin v => v < tol
  | .ninf => True
  | _ => False

/-- The rows of a two-dimensional array of shape `(m, n)`. -/
def rowsOf (m n : ℕ) (data : List (XF ℝ)) : List (List (XF ℝ)) :=
  List.ofFn (fun i : Fin m => List.ofFn (fun j : Fin n => data.getD (i * n + j) .nan))

/-- `try_treat_as_real(inp_mat, tol_val)` on an array, gras/la/la.py:238-255; the result is the array of the real parts
(`np.array(…, dtype=np.float64)` drops the imaginary parts, which are zero).  `linalg.norm(…, np.inf)` accepts one or two
dimensions; of a vector it is the largest modulus. -/
def tryTreatAsReal (a : Arr CX) (tol : ℝ) : Py (List (XF ℝ)) :=
  open Classical in
  if ¬ 0 < tol then throwErr "wrongInput:tol_val"                                       -- lines 240-241
  else if ∀ z ∈ a.data, z.im = .fin 0 then .ok (a.data.map CX.re)                       -- lines 242-243
  else
    match a.shape with
    | [k] =>
      if ltX (normInf (rowsOf k 1 (a.data.map CX.im))) tol then .ok (a.data.map CX.re)
      else throwErr "wrongInput:inp_mat"
    | [m, n] =>
      if ltX (normInf (rowsOf m n (a.data.map CX.im))) tol then .ok (a.data.map CX.re)
      else throwErr "wrongInput:inp_mat"
    | _ => .error .pyValueError

/-- The entries of an `n × n` matrix. -/
def matOf (n : ℕ) (data : List (XF ℝ)) : Matrix (Fin n) (Fin n) ℝ := of fun i j => (data.getD (i * n + j) .nan).toK

/-- The setter of `_shape_mat`, elltool/core/ellipsoid/Ellipsoid.py:46-59.  Something that is not an array has no attribute `ndim`. -/
def setShapeMat (E : Eigh) (arg : RawArg) (tol : ℝ) : Py (Σ n : ℕ, Matrix (Fin n) (Fin n) ℝ) :=
  open Classical in
  match arg with
  | .notArr => .error .attributeError
  | .arr a =>
    match a.shape with
    | [m, n] =>
      if m ≠ n then throwErr "wrongInput:shape_mat"                                     -- lines 50-51
      else
        match tryTreatAsReal a tol with                                                 -- line 52
        | .error e => .error e
        | .ok re =>
          if n * n = 0 then .ok ⟨n, matOf n re⟩                                         -- line 53: nothing is checked
          else if ¬ ∀ x ∈ re, x.isFinite = true then throwErr "wrongInput:shape_mat"    -- lines 54-55
          else
            match isMatSymm (matOf n re) tol with                                       -- line 56
            | .error e => .error e
            | .ok false => throwErr "wrongInput:shape_mat"
            | .ok true =>
              match isMatPosDef E (matOf n re) tol true with
              | .error e => .error e
              | .ok false => throwErr "wrongInput:shape_mat"
              | .ok true => .ok ⟨n, matOf n re⟩                                         -- line 59
    | _ => throwErr "wrongInput:shape_mat"                                              -- lines 48-49

/-- The setter of `_center_vec`, elltool/core/aellipsoid/AEllipsoid.py:32-42.  `np.max` of the shape `()` raises. -/
def setCenterVec (arg : RawArg) (tol : ℝ) : Py (List ℝ) :=
  open Classical in
  match arg with
  | .notArr => throwErr "wrongInput:center_vec"                                         -- lines 34-35
  | .arr a =>
    match tryTreatAsReal a tol with                                                     -- line 36
    | .error e => .error e
    | .ok re =>
      match a.shape.max? with
      | none => .error .pyValueError
      | some mx =>
        if re.length ≠ mx then throwErr "wrongInput:center_vec"                         -- lines 37-38
        else if ¬ ∀ x ∈ re, x.isFinite = true then throwErr "wrongInput:center_vec"     -- lines 40-41
        else .ok (re.map XF.toK)                                                        -- line 42

/-- `Ellipsoid(*args, **kwargs)`, elltool/core/ellipsoid/Ellipsoid.py:23-40, after the properties have been parsed (C03).
Arguments after the second are ignored. -/
def ellNew (E : Eigh) (args : List RawArg) (absTol relTol n2d n3d : ℝ) : Py EllObj :=
  match args with
  | [] => .ok ⟨0, fun _ => 0, 0, absTol, relTol, n2d, n3d⟩                              -- lines 30-32
  | [q] =>                                                                              -- lines 33-35
    match setShapeMat E q absTol with
    | .error e => .error e
    | .ok ⟨n, Q⟩ => .ok ⟨n, fun _ => 0, Q, absTol, relTol, n2d, n3d⟩
  | c :: q :: _ =>                                                                      -- lines 36-40
    match setCenterVec c absTol with
    | .error e => .error e
    | .ok cs =>
      match setShapeMat E q absTol with
      | .error e => .error e
      | .ok ⟨n, Q⟩ =>
        if cs.length ≠ n then throwErr "wrongInput"
        else .ok ⟨n, fun i => cs.getD i 0, Q, absTol, relTol, n2d, n3d⟩

end
end Ellipy.Ell
