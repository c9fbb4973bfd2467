import Verif.Model.EllCtor

/-! Ellipsoid objects by reference: a heap of numpy arrays and of objects whose attributes are references to arrays, and the methods of
`Ellipsoid` that create, copy, read or modify objects. -/

namespace Ellipy.Ell
open Matrix Ellipy.LA
noncomputable section

/-- The four properties of an ellipsoid (keyword arguments of the constructor). -/
structure PropVals where
  absTol : ℝ
  relTol : ℝ
  n2d : ℝ
  n3d : ℝ

/-- The checks of `Properties.parse_prop` for the four properties, elltool/conf/properties/_ParseProp.py:14-15 and 20-21 (see C03). -/
def PropVals.ok (p : PropVals) : Prop := 0 < p.absTol ∧ 0 < p.relTol ∧ (∃ z : ℤ, p.n2d = z) ∧ ∃ z : ℤ, p.n3d = z

/-- The attributes of an object: references to the two arrays, and the properties. -/
structure ObjRec where
  cRef : ℕ
  qRef : ℕ
  props : PropVals

/-- The memory: arrays, objects, the references to arrays that the user holds, and the current settings of the library. -/
structure Heap where
  arrs : List (Arr CX)
  objs : List ObjRec
  pub : List ℕ
  dflt : PropVals

/-- A float64 vector as an array. -/
def encVec {n : ℕ} (c : Fin n → ℝ) : Arr CX := ⟨[n], List.ofFn (fun i => ⟨.fin (c i), .fin 0⟩), by simp⟩

/-- A float64 matrix as an array (row-major). -/
def encMat {n : ℕ} (Q : Matrix (Fin n) (Fin n) ℝ) : Arr CX :=
  ⟨[n, n], List.ofFn (fun k : Fin (n * n) => ⟨.fin (Q k.divNat k.modNat), .fin 0⟩), by simp⟩

/-- The value of an object: what its attributes contain. -/
def decode (h : Heap) (r : ObjRec) : Option EllObj :=
  match h.arrs[r.cRef]?, h.arrs[r.qRef]? with
  | some a, some b =>
    match b.shape with
    | [n, m] =>
      if n = m ∧ a.data.length = n then
        some ⟨n, fun i => ((a.data.map CX.re).getD i .nan).toK, matOf n (b.data.map CX.re),
          r.props.absTol, r.props.relTol, r.props.n2d, r.props.n3d⟩
      else none
    | _ => none
  | _, _ => none

/-- The value of the object with address `o`. -/
def val (h : Heap) (o : ℕ) : Option EllObj := (h.objs[o]?).bind (decode h)

/-- The properties of an ellipsoid. -/
def EllObj.props (e : EllObj) : PropVals := ⟨e.absTol, e.relTol, e.n2d, e.n3d⟩

/-- `np.copy` of the two attributes into new arrays and a new object that refers to them. -/
def allocObj (h : Heap) (e : EllObj) : ℕ × Heap :=
  (h.objs.length, { h with
    arrs := h.arrs ++ [encVec e.c, encMat e.Q]
    objs := h.objs ++ [⟨h.arrs.length, h.arrs.length + 1, e.props⟩] })

/-- A new array whose reference is given to the user. -/
def allocPub (h : Heap) (a : Arr CX) : ℕ × Heap :=
  (h.arrs.length, { h with arrs := h.arrs ++ [a], pub := h.arrs.length :: h.pub })

/-- `Ellipsoid(*args, **props)`, elltool/core/ellipsoid/Ellipsoid.py:23-40: the result is a new object. -/
def build (E : Eigh) (h : Heap) (args : List RawArg) (p : PropVals) : Py ℕ × Heap :=
  open Classical in
  if ¬ p.ok then (throwErr "wrongInput", h)                                            -- line 25
  else
    match ellNew E args p.absTol p.relTol p.n2d p.n3d with
    | .error x => (.error x, h)
    | .ok e => (.ok (allocObj h e).1, (allocObj h e).2)

/-- A loop over objects: the first exception ends it, the changes made before stay. -/
def mapHeap {α β : Type} (f : Heap → α → Py β × Heap) : Heap → List α → Py (List β) × Heap
  | h, [] => (.ok [], h)
  | h, o :: os =>
    match f h o with
    | (.error x, h1) => (.error x, h1)
    | (.ok r, h1) =>
      match mapHeap f h1 os with
      | (.error x, h2) => (.error x, h2)
      | (.ok rs, h2) => (.ok (r :: rs), h2)

/-- `_get_single_copy`, elltool/core/ellipsoid/Ellipsoid.py:219-225. -/
def copyOne (E : Eigh) (h : Heap) (o : ℕ) : Py ℕ × Heap :=
  match val h o with
  | none => (.error .attributeError, h)
  | some e => build E h [.arr (encVec e.c), .arr (encMat e.Q)] e.props

/-- The length of a list is the product of its shape. -/
def mkArr (shape : List ℕ) (l : List ℕ) : Arr ℕ :=
  if hl : l.length = shape.foldr (· * ·) 1 then ⟨shape, l, hl⟩ else ⟨[l.length], l, by simp⟩

/-- `get_copy(ell_arr)`, elltool/core/abasicellipsoid/ABasicEllipsoid.py:220-237: the copy of an array with one element has no
dimensions. -/
def getCopy (E : Eigh) (h : Heap) (os : Arr ℕ) : Py (Arr ℕ) × Heap :=
  if os.data.length = 0 then (.ok os, h)                                               -- lines 225-226
  else if os.data.length = 1 then                                                      -- lines 229-231
    match mapHeap (copyOne E) h os.data with
    | (.error x, h1) => (.error x, h1)
    | (.ok rs, h1) => (.ok (mkArr [] rs), h1)
  else                                                                                 -- lines 232-237
    match mapHeap (copyOne E) h os.data with
    | (.error x, h1) => (.error x, h1)
    | (.ok rs, h1) => (.ok (mkArr os.shape rs), h1)

/-- `rep_mat(shape_vec)`, elltool/core/abasicellipsoid/ABasicEllipsoid.py:244-260, for a list of integers (floats fail in `np.empty`). -/
def repMat (E : Eigh) (h : Heap) (o : ℕ) (shape : List ℤ) : Py (Arr ℕ) × Heap :=
  if shape = [] then (throwErr "wrongInput:shape_vec", h)                              -- lines 249-250
  else if ¬ ∀ k ∈ shape, 0 ≤ k then (throwErr "wrongInput:shape_vec", h)               -- lines 252-253
  else
    let sh := shape.map Int.toNat
    match mapHeap (copyOne E) h (List.replicate (sh.foldr (· * ·) 1) o) with           -- lines 256-258
    | (.error x, h1) => (.error x, h1)
    | (.ok rs, h1) => (.ok (mkArr sh rs), h1)

/-- `from_rep_mat(*args, shape_vec, **props)`, elltool/core/ellipsoid/Ellipsoid.py:100-107, with at least the last argument. -/
def fromRepMat (E : Eigh) (h : Heap) (args : List RawArg) (shape : List ℤ) (p : PropVals) : Py (Arr ℕ) × Heap :=
  match build E h args p with
  | (.error x, h1) => (.error x, h1)
  | (.ok o, h1) => repMat E h1 o shape

/-- `f_single_uminus`, elltool/core/ellipsoid/Ellipsoid.py:712-714: the properties are not passed on. -/
def uminusOne (E : Eigh) (h : Heap) (o : ℕ) : Py ℕ × Heap :=
  match val h o with
  | none => (.error .attributeError, h)
  | some e => build E h [.arr (encVec (-e.c)), .arr (encMat e.Q)] h.dflt

/-- `uminus(ell_arr)`, elltool/core/ellipsoid/Ellipsoid.py:702-716. -/
def uminus (E : Eigh) (h : Heap) (os : Arr ℕ) : Py (Arr ℕ) × Heap :=
  match mapHeap (uminusOne E) h os.data with
  | (.error x, h1) => (.error x, h1)
  | (.ok rs, h1) => (.ok (mkArr os.shape rs), h1)

/-- The columns of the basis divided by their lengths, elltool/core/aellipsoid/AEllipsoid.py:58 and 64-65. -/
def normBasis {n k : ℕ} (B : Matrix (Fin n) (Fin k) ℝ) : Matrix (Fin n) (Fin k) ℝ :=
  of fun i j => B i j / Real.sqrt ((Bᵀ * B) j j)

/-- `self.attr = …` with the reference of a new array. -/
def rebindQ (h : Heap) (o : ℕ) (r : ObjRec) (a : Arr CX) : Heap :=
  { h with arrs := h.arrs ++ [a], objs := h.objs.set o { r with qRef := h.arrs.length } }

/-- The same for the centre. -/
def rebindC (h : Heap) (o : ℕ) (r : ObjRec) (a : Arr CX) : Heap :=
  { h with arrs := h.arrs ++ [a], objs := h.objs.set o { r with cRef := h.arrs.length } }

/-- `_projection_single_internal`, elltool/core/ellipsoid/Ellipsoid.py:211-213, with the two setters.  Matrices that cannot be multiplied
raise `ValueError`; a column of length 0 makes the normalised basis NaN and with it a row of the new shape matrix. -/
def projOne (E : Eigh) {n k : ℕ} (B : Matrix (Fin n) (Fin k) ℝ) (h : Heap) (o : ℕ) : Py ℕ × Heap :=
  open Classical in
  match h.objs[o]?, val h o with
  | some r, some e =>
    if he : e.n = n then
      let Q : Matrix (Fin n) (Fin n) ℝ := he ▸ e.Q
      let c : Fin n → ℝ := he ▸ e.c
      if ∃ j, (Bᵀ * B) j j = 0 then (throwErr "wrongInput:shape_mat", h)
      else
        match setShapeMat E (.arr (encMat ((normBasis B)ᵀ * Q * normBasis B))) r.props.absTol with      -- line 212
        | .error x => (.error x, h)
        | .ok ⟨_, X⟩ =>
          let h1 := rebindQ h o r (encMat X)
          let r1 : ObjRec := { r with qRef := h.arrs.length }
          match setCenterVec (.arr (encVec ((normBasis B)ᵀ *ᵥ c))) r.props.absTol with                  -- line 213
          | .error x => (.error x, h1)
          | .ok cs => (.ok o, rebindC h1 o r1 (encVec (fun i : Fin cs.length => cs[i])))
    else (.error .pyValueError, h)
  | _, _ => (.error .attributeError, h)

/-- `projection(ell_arr, basis_mat)`, elltool/core/aellipsoid/AEllipsoid.py:44-68, for a matrix `basis_mat`. -/
def projection (E : Eigh) {n k : ℕ} (B : Matrix (Fin n) (Fin k) ℝ) (h : Heap) (os : Arr ℕ) : Py (Arr ℕ) × Heap :=
  open Classical in
  if os.data.length ≠ 0 then
    match pyMap (fun o => match val h o with | none => (.error .attributeError : Py EllObj) | some e => .ok e) os.data with
    | .error x => (.error x, h)
    | .ok es =>
      if ¬ (k ≤ n ∧ ∀ e ∈ es, e.n = n) then (throwErr "wrongInput", h)                                  -- lines 54-55
      else
        let absTol := (es.map EllObj.absTol).foldr max 0                                                -- line 59 (tolerances are positive)
        if ∃ i j, i ≠ j ∧ absTol < (Bᵀ * B) i j then (throwErr "wrongInput", h)                         -- lines 60-62
        else if ∃ i : Fin k, absTol < (Bᵀ * B) i i - (Bᵀ * B) i i then (throwErr "wrongInput", h)       -- the diagonal
        else
          match mapHeap (projOne E B) h os.data with                                                    -- line 67
          | (.error x, h1) => (.error x, h1)
          | (.ok _, h1) => (.ok os, h1)
  else (.ok os, h)

/-- `get_projection(ell_arr, basis_mat)`, elltool/core/ellipsoid/Ellipsoid.py:335-338. -/
def getProjection (E : Eigh) {n k : ℕ} (B : Matrix (Fin n) (Fin k) ℝ) (h : Heap) (os : Arr ℕ) : Py (Arr ℕ) × Heap :=
  match getCopy E h os with
  | (.error x, h1) => (.error x, h1)
  | (.ok cs, h1) => projection E B h1 cs

/-- `get_center_vec()`, elltool/core/aellipsoid/AEllipsoid.py:28-30 and 70-71: the property copies the array. -/
def getCenterVec (h : Heap) (o : ℕ) : Py ℕ × Heap :=
  match h.objs[o]? with
  | none => (.error .attributeError, h)
  | some r =>
    match h.arrs[r.cRef]? with
    | none => (.error .attributeError, h)
    | some a => (.ok (allocPub h a).1, (allocPub h a).2)

/-- `get_shape_mat()`, elltool/core/ellipsoid/Ellipsoid.py:42-44 and 64-65. -/
def getShapeMat (h : Heap) (o : ℕ) : Py ℕ × Heap :=
  match h.objs[o]? with
  | none => (.error .attributeError, h)
  | some r =>
    match h.arrs[r.qRef]? with
    | none => (.error .attributeError, h)
    | some a => (.ok (allocPub h a).1, (allocPub h a).2)

/-- A dictionary made by `to_dict`: references to the two arrays, and the properties if they are included. -/
structure EllDict where
  center : ℕ
  shape : ℕ
  props : Option PropVals

/-- `ell_2_dict`, elltool/core/ellipsoid/Ellipsoid.py:658-673 (`parameters()` gives copies; the numbers of points become floats of the
same value). -/
def toDictOne (incl : Bool) (h : Heap) (o : ℕ) : Py EllDict × Heap :=
  match h.objs[o]? with
  | none => (.error .attributeError, h)
  | some r =>
    match getCenterVec h o with
    | (.error x, h1) => (.error x, h1)
    | (.ok c, h1) =>
      match getShapeMat h1 o with
      | (.error x, h2) => (.error x, h2)
      | (.ok q, h2) => (.ok ⟨c, q, if incl then some r.props else none⟩, h2)

/-- `to_dict(ell_arr, is_prop_included)`, elltool/core/ellipsoid/Ellipsoid.py:653-700 (its first result; the others are constants). -/
def toDict (incl : Bool) (h : Heap) (os : List ℕ) : Py (List EllDict) × Heap := mapHeap (toDictOne incl) h os

/-- The arguments of a constructor call. -/
def readArgs (h : Heap) (args : List ℕ) : List RawArg :=
  args.map (fun r => match h.arrs[r]? with | some a => .arr a | none => .notArr)

/-- `dict_2_ell`, elltool/core/ellipsoid/Ellipsoid.py:111-117: works on a copy of the dictionary. -/
def fromDictOne (E : Eigh) (h : Heap) (d : EllDict) : Py ℕ × Heap :=
  build E h (readArgs h [d.center, d.shape]) (d.props.getD h.dflt)

/-- `from_dict(dict_arr)`, elltool/core/ellipsoid/Ellipsoid.py:109-120. -/
def fromDict (E : Eigh) (h : Heap) (ds : List EllDict) : Py (List ℕ) × Heap := mapHeap (fromDictOne E) h ds

/-- The user assigns an entry of an array. -/
def writeArr (h : Heap) (r i : ℕ) (z : CX) : Heap :=
  match h.arrs[r]? with
  | none => h
  | some a => { h with arrs := h.arrs.set r ⟨a.shape, a.data.set i z, by simpa using a.len⟩ }

/-- What a user can do with ellipsoids. -/
inductive Call where
  /-- makes an array -/
  | mkArray (a : Arr CX)
  /-- writes into an array (only arrays the user has a reference to can be written) -/
  | write (r i : ℕ) (z : CX)
  /-- changes the settings of the library -/
  | configure (p : PropVals)
  /-- `Ellipsoid(*args, **props)` with arrays of the user -/
  | new (args : List ℕ) (p : PropVals)
  | getCenterVec (o : ℕ)
  | getShapeMat (o : ℕ)
  /-- `parameters()`, `double()` -/
  | parameters (o : ℕ)
  | getCopy (os : Arr ℕ)
  | repMat (o : ℕ) (shape : List ℤ)
  | fromRepMat (args : List ℕ) (shape : List ℤ) (p : PropVals)
  | uminus (os : Arr ℕ)
  | projection (n k : ℕ) (B : Matrix (Fin n) (Fin k) ℝ) (os : Arr ℕ)
  | getProjection (n k : ℕ) (B : Matrix (Fin n) (Fin k) ℝ) (os : Arr ℕ)
  | toDict (incl : Bool) (os : List ℕ)
  | fromDict (ds : List EllDict)
  /-- `minksum_ea`, `minksum_ia`, `polar`: objects computed from the values of the given ones are constructed -/
  | derive (os : List ℕ) (f : List EllObj → List (List RawArg))
  /-- `volume`, `rho`, `is_internal`, `get_boundary` and the other methods that only return arrays computed from values -/
  | query (os : List ℕ) (f : List EllObj → List (Arr CX))

/-- Constructor calls one after the other. -/
def buildAll (E : Eigh) : Heap → List (List RawArg) → Heap
  | h, [] => h
  | h, a :: as =>
    match build E h a h.dflt with
    | (.error _, h1) => h1
    | (.ok _, h1) => buildAll E h1 as

/-- New arrays for the user. -/
def pubAll : Heap → List (Arr CX) → Heap
  | h, [] => h
  | h, a :: as => pubAll (allocPub h a).2 as

/-- The effect of a call on the memory (also if it raises). -/
def step (E : Eigh) (h : Heap) : Call → Heap
  | .mkArray a => (allocPub h a).2
  | .write r i z => open Classical in if r ∈ h.pub then writeArr h r i z else h
  | .configure p => { h with dflt := p }
  | .new args p => (build E h (readArgs h args) p).2
  | .getCenterVec o => (getCenterVec h o).2
  | .getShapeMat o => (getShapeMat h o).2
  | .parameters o => (getShapeMat (getCenterVec h o).2 o).2
  | .getCopy os => (getCopy E h os).2
  | .repMat o shape => (repMat E h o shape).2
  | .fromRepMat args shape p => (fromRepMat E h (readArgs h args) shape p).2
  | .uminus os => (uminus E h os).2
  | .projection _ _ B os => (projection E B h os).2
  | .getProjection _ _ B os => (getProjection E B h os).2
  | .toDict incl os => (toDict incl h os).2
  | .fromDict ds => (fromDict E h ds).2
  | .derive os f => buildAll E h (f (os.filterMap (val h)))
  | .query os f => pubAll h (f (os.filterMap (val h)))

/-- A sequence of calls. -/
def run (E : Eigh) (h : Heap) (calls : List Call) : Heap := calls.foldl (step E) h

/-- The memory before the first call. -/
def emptyHeap (p : PropVals) : Heap := ⟨[], [], [], p⟩

end
end Ellipy.Ell
