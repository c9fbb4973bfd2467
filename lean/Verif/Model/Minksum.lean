import Verif.Model.EllHeap
import Verif.Model.IsEqual
import Verif.Model.QuadMat

/-! Model of the approximations of a Minkowski sum, `minksum_ea` and `minksum_ia` of `Ellipsoid`.

Objects are given by their values (the methods build new objects and change none).  The directions are the columns of a matrix with `k`
columns; a 1-D array of directions is the case `k = 1`, which the code treats in the same way. -/

namespace Ellipy.Ell
open Matrix Ellipy.LA
noncomputable section

/-- The shape matrix as an `n × n` matrix; used for objects of dimension `n` only. -/
def shapeAs (n : ℕ) (e : EllObj) : Matrix (Fin n) (Fin n) ℝ :=
  of fun i j => if h : i.val < e.n ∧ j.val < e.n then e.Q ⟨i, h.1⟩ ⟨j, h.2⟩ else 0

/-- The centre as a vector of length `n`; used for objects of dimension `n` only. -/
def centerAs (n : ℕ) (e : EllObj) : Fin n → ℝ := fun i => if h : i.val < e.n then e.c ⟨i, h⟩ else 0

/-- `Ellipsoid(*args, **props)`, elltool/core/ellipsoid/Ellipsoid.py:23-40, as a value. -/
def ellMake (E : Eigh) (args : List RawArg) (p : PropVals) : Py EllObj :=
  open Classical in
  if ¬ p.ok then throwErr "wrongInput" else ellNew E args p.absTol p.relTol p.n2d p.n3d

/-- `_get_single_copy`, elltool/core/ellipsoid/Ellipsoid.py:219-225, as a value. -/
def copyVal (E : Eigh) (e : EllObj) : Py EllObj := ellMake E [.arr (encVec e.c), .arr (encMat e.Q)] e.props

/-- The shape matrix, regularised when the ellipsoid is degenerate, elltool/core/ellipsoid/Ellipsoid.py:475-481 and 524-530
(`_regularize` is `reg_pos_def_mat`, lines 123-126). -/
def regShape (E : Eigh) (G : Eig) (n : ℕ) (e : EllObj) : Py (Matrix (Fin n) (Fin n) ℝ) :=
  match isDegenerate E [e] with
  | .error x => .error x
  | .ok ds => if ds = [true] then regPosDefMat G (shapeAs n e) e.absTol else .ok (shapeAs n e)

/-- The shape and the quadratic form of `f_add_sh`, elltool/core/ellipsoid/Ellipsoid.py:473-483 (before the root is taken). -/
def eaTerm (E : Eigh) (G : Eig) (L : Lstsq) {n : ℕ} (v : Fin n → ℝ) (e : EllObj) : Py (Matrix (Fin n) (Fin n) ℝ × ℝ) :=
  match regShape E G n e with
  | .error x => .error x
  | .ok R =>
    match quadMat L (matR R) (vecR v) (Arr.scalar 0) "plain" with                         -- line 482
    | .error x => .error x
    | .ok a => .ok (R, a.data.getD 0 0)

/-- `f_single_direction` of `minksum_ea`, elltool/core/ellipsoid/Ellipsoid.py:472-493.  The root of a negative number is NaN and the
reciprocal of zero infinite; either spoils every entry of the matrix and the constructor rejects it. -/
def eaDir (E : Eigh) (G : Eig) (L : Lstsq) (p : PropVals) {n : ℕ} (l : List EllObj) (cent v : Fin n → ℝ) : Py EllObj :=
  open Classical in
  match pyMap (eaTerm E G L v) l with                                                     -- line 489
  | .error x => .error x
  | .ok ts =>
    if ∃ t ∈ ts, ¬ 0 < t.2 then throwErr "wrongInput:shape_mat"
    else
      let S := (ts.map (fun t => (1 / Real.sqrt t.2) • t.1)).sum                          -- lines 483, 490
      let s := (ts.map (fun t => Real.sqrt t.2)).sum                                      -- line 491
      ellMake E [.arr (encVec cent), .arr (encMat ((0.5 * s) • (S + Sᵀ)))] p              -- lines 492-493

/-- The tests at the beginning of `minksum_ea` and `minksum_ia`, elltool/core/ellipsoid/Ellipsoid.py:504-509 and 554-559. -/
def minkCheck (l : List EllObj) (n : ℕ) : Py Unit :=
  open Classical in
  if l = [] then throwErr "wrongInput:emptyArray"
  else if anyEmpty l then throwErr "wrongInput:emptyEllipsoid"
  else if ¬ ∀ e ∈ l, e.n = n then throwErr "wrongSizes:"
  else .ok ()

/-- `np.squeeze(ell_arr[0].rep_mat([1, n_cols]))`, elltool/core/ellipsoid/Ellipsoid.py:512 and 561. -/
def minkCopies (E : Eigh) (e : EllObj) (k : ℕ) : Py (Arr EllObj) :=
  match pyMap (fun _ => copyVal E e) (List.replicate k ()) with
  | .error x => .error x
  | .ok rs => reshape rs (if k = 1 then [] else [k])

/-- The sum of the centres, elltool/core/ellipsoid/Ellipsoid.py:514 and 563. -/
def centSum (n : ℕ) (l : List EllObj) : Fin n → ℝ := (l.map (centerAs n)).sum

/-- `minksum_ea(ell_arr, dir_mat)`, elltool/core/ellipsoid/Ellipsoid.py:470-516. -/
def minksumEa (E : Eigh) (G : Eig) (L : Lstsq) (p : PropVals) (l : List EllObj) {n k : ℕ} (M : Matrix (Fin n) (Fin k) ℝ) :
    Py (Arr EllObj) :=
  match minkCheck l n with
  | .error x => .error x
  | .ok () =>
    match l with
    | [e] => minkCopies E e k                                                             -- lines 511-512
    | _ =>
      match pyMap (fun j => eaDir E G L p l (centSum n l) (fun i => M i j)) (List.finRange k) with   -- line 516
      | .error x => .error x
      | .ok rs => .ok (Arr.vec rs)

/-- `f_rot_arr`, elltool/core/ellipsoid/Ellipsoid.py:520-533: the root of the shape matrix and, for each direction, the rotation of the
image of the direction to the column of `src_mat`. -/
def iaTerm (E : Eigh) (G : Eig) {n k : ℕ} (M src : Matrix (Fin n) (Fin k) ℝ) (e : EllObj) :
    Py (Matrix (Fin n) (Fin n) ℝ × (Fin k → Matrix (Fin n) (Fin n) ℝ)) :=
  match regShape E G n e with
  | .error x => .error x
  | .ok R =>
    match sqrtmPos E R e.absTol with                                                      -- line 531
    | .error x => .error x
    | .ok S =>
      match mlOrthTransl (fun i v => (S * M) i v) (fun i v (_ : Fin 1) => src i v) with   -- lines 532-533
      | .error x => .error x
      | .ok O => .ok (S, fun v => O v 0)

/-- `f_single_direction` of `minksum_ia`, elltool/core/ellipsoid/Ellipsoid.py:535-542. -/
def iaDir (E : Eigh) (p : PropVals) {n k : ℕ} (cent : Fin n → ℝ)
    (ts : List (Matrix (Fin n) (Fin n) ℝ × (Fin k → Matrix (Fin n) (Fin n) ℝ))) (j : Fin k) : Py EllObj :=
  let S := (ts.map (fun t => t.2 j * t.1)).sum                                            -- lines 536-540
  ellMake E [.arr (encVec cent), .arr (encMat (Sᵀ * S))] p                                -- lines 541-542

/-- `minksum_ia(ell_arr, dir_mat)`, elltool/core/ellipsoid/Ellipsoid.py:518-570. -/
def minksumIa (E : Eigh) (G : Eig) (p : PropVals) (l : List EllObj) {n k : ℕ} (M : Matrix (Fin n) (Fin k) ℝ) : Py (Arr EllObj) :=
  match minkCheck l n with
  | .error x => .error x
  | .ok () =>
    match l with
    | [e] => minkCopies E e k                                                             -- lines 560-561
    | [] => throwErr "wrongInput:emptyArray"
    | e :: _ =>
      match sqrtmPos E (shapeAs n e) (minTol (l.map EllObj.absTol)) with                  -- line 566
      | .error x => .error x
      | .ok S0 =>
        match pyMap (iaTerm E G M (S0 * M)) l with                                        -- line 567
        | .error x => .error x
        | .ok ts =>
          match pyMap (iaDir E p (centSum n l) ts) (List.finRange k) with                 -- line 570
          | .error x => .error x
          | .ok rs => .ok (Arr.vec rs)

end
end Ellipy.Ell
