import Verif.Model.EllHeap
import Verif.Model.IsEqual

/-! Model of elltool/core/hyperplane/Hyperplane.py.

No method changes a hyperplane and both attributes are copied on the way in and out (lines 33 and 45; `is_parallel` divides copies), so objects are
modelled by value.  Arrays of objects are `Arr HypObj`. -/

namespace Ellipy.Hyp
open Ellipy.Ell
noncomputable section

/-- The attributes of a `Hyperplane`. -/
structure HypObj where
  n : ℕ
  nrm : Fin n → ℝ
  shift : ℝ
  absTol : ℝ
  relTol : ℝ

/-- The two tolerances: keyword arguments of the constructor, or the current settings of the library. -/
structure Tols where
  absTol : ℝ
  relTol : ℝ

/-- The checks of `Properties.parse_prop`, elltool/conf/properties/_ParseProp.py:14-15 (see C03). -/
def Tols.ok (t : Tols) : Prop := 0 < t.absTol ∧ 0 < t.relTol

/-- `np.finfo(float).eps`. -/
def eps : ℝ := 2⁻¹ ^ 52

/-- The setter of `_normal_vec`, elltool/core/hyperplane/Hyperplane.py:35-45.  `np.max` of the shape `()` raises. -/
def setNormal (arg : RawArg) : Py (List ℝ) :=
  open Classical in
  match arg with
  | .notArr => throwErr "wrongInput:normal_vec"                                        -- lines 37-38
  | .arr a =>
    match tryTreatAsReal a eps with                                                    -- line 39
    | .error e => .error e
    | .ok re =>
      match a.shape.max? with
      | none => .error .pyValueError
      | some mx =>
        if re.length ≠ mx then throwErr "wrongInput:normal_vec"                        -- lines 40-41
        else if ¬ ∀ x ∈ re, x.isFinite = true then throwErr "wrongInput:normal_vec"    -- lines 43-44
        else .ok (re.map XF.toK)                                                       -- line 45

/-- The argument `hyp_shift`: a Python or numpy scalar, an array, or something that is not numeric. -/
inductive ShiftArg where
  | scal (z : CX)
  | arr (a : Arr CX)
  | notNum

/-- `try_treat_as_real` on a scalar, gras/la/la.py:240-255: the modulus of the imaginary part is compared. -/
def tryTreatAsRealScal (z : CX) (tol : ℝ) : Py (XF ℝ) :=
  open Classical in
  if ¬ 0 < tol then throwErr "wrongInput:tol_val"
  else if z.im = .fin 0 then .ok z.re
  else if ltX (normInf [[z.im]]) tol then .ok z.re
  else throwErr "wrongInput:inp_mat"

/-- The setter of `_shift`, elltool/core/hyperplane/Hyperplane.py:51-61. -/
def setShift (arg : ShiftArg) : Py ℝ :=
  match arg with
  | .notNum => throwErr "wrongInput:shift"                                             -- lines 53-54
  | .scal z =>
    match tryTreatAsRealScal z eps with                                                -- line 55
    | .error e => .error e
    | .ok x => if x.isFinite = true then .ok x.toK else throwErr "wrongInput:shift"    -- lines 59-61
  | .arr a =>
    match tryTreatAsReal a eps with                                                    -- line 55
    | .error e => .error e
    | .ok [x] => if x.isFinite = true then .ok x.toK else throwErr "wrongInput:shift"  -- lines 58-61
    | .ok _ => throwErr "wrongInput:shift"                                             -- lines 56-57

/-- `Hyperplane(hyp_norm_vec, hyp_shift, **tols)`, elltool/core/hyperplane/Hyperplane.py:22-29. -/
def hypNew (nrm : RawArg) (shift : ShiftArg) (t : Tols) : Py HypObj :=
  open Classical in
  if ¬ t.ok then throwErr "wrongInput"                                                 -- line 25
  else
    match setNormal nrm with                                                           -- line 28
    | .error e => .error e
    | .ok l =>
      match setShift shift with                                                        -- line 29
      | .error e => .error e
      | .ok s => .ok ⟨l.length, l.get, s, t.absTol, t.relTol⟩

/-- `_get_single_copy`, elltool/core/hyperplane/Hyperplane.py:92-94: only the absolute tolerance is passed on, the other is the current setting of the library. -/
def copyOne (dflt : Tols) (h : HypObj) : Py HypObj :=
  hypNew (.arr (encVec h.nrm)) (.scal ⟨.fin h.shift, .fin 0⟩) ⟨h.absTol, dflt.relTol⟩

/-- `get_copy(hyp_arr)`, elltool/core/abasicellipsoid/ABasicEllipsoid.py:220-237. -/
def getCopy (dflt : Tols) (hs : Arr HypObj) : Py (Arr HypObj) :=
  if hs.data.length = 0 then .ok hs
  else
    match pyMap (copyOne dflt) hs.data with
    | .error e => .error e
    | .ok cs => if hs.data.length = 1 then reshape cs [] else reshape cs hs.shape

/-- `rep_mat(shape_vec)`, elltool/core/abasicellipsoid/ABasicEllipsoid.py:244-260, for a list of integers. -/
def repMat (dflt : Tols) (h : HypObj) (shape : List ℤ) : Py (Arr HypObj) :=
  if shape = [] then throwErr "wrongInput:shape_vec"
  else if ¬ ∀ k ∈ shape, 0 ≤ k then throwErr "wrongInput:shape_vec"
  else
    let sh := shape.map Int.toNat
    match pyMap (copyOne dflt) (List.replicate (sh.foldr (· * ·) 1) h) with
    | .error e => .error e
    | .ok cs => reshape cs sh

/-- `from_rep_mat(hyp_norm_vec, hyp_shift, shape_vec, **tols)`, elltool/core/hyperplane/Hyperplane.py:63-70. -/
def fromRepMat (dflt : Tols) (nrm : RawArg) (shift : ShiftArg) (shape : List ℤ) (t : Tols) : Py (Arr HypObj) :=
  match hypNew nrm shift t with
  | .error e => .error e
  | .ok h => repMat dflt h shape

/-- `set_single_prop`, elltool/core/hyperplane/Hyperplane.py:306-308: the tolerances are not passed on. -/
def uminusOne (dflt : Tols) (h : HypObj) : Py HypObj :=
  hypNew (.arr (encVec (-h.nrm))) (.scal ⟨.fin (-h.shift), .fin 0⟩) dflt

/-- `uminus(hyp_arr)`, elltool/core/hyperplane/Hyperplane.py:295-310. -/
def uminus (dflt : Tols) (hs : Arr HypObj) : Py (Arr HypObj) :=
  match pyMap (uminusOne dflt) hs.data with
  | .error e => .error e
  | .ok cs => reshape cs hs.shape

/-- `sing_dimension`, elltool/core/hyperplane/Hyperplane.py:174-186: an empty normal has no first entry. -/
def singDimension (h : HypObj) : Py ℕ :=
  if h.n < 2 then
    match (List.ofFn h.nrm)[0]? with
    | none => .error .indexError
    | some x => if |x| ≤ h.absTol ∧ |h.shift| ≤ h.absTol then .ok 0 else .ok h.n
  else .ok h.n

/-- `dimension(hyp_arr)`, elltool/core/hyperplane/Hyperplane.py:169-189. -/
def dimension (hs : Arr HypObj) : Py (Arr ℕ) :=
  match pyMap singDimension hs.data with
  | .error e => .error e
  | .ok ds => reshape ds hs.shape

/-- `⟨u, v⟩` of two vectors given as lists (`zip` stops at the shorter one). -/
def dotL (u v : List ℝ) : ℝ := (List.zipWith (· * ·) u v).sum

/-- `is_sing_contains(hyp, x_vec)`, elltool/core/hyperplane/Hyperplane.py:145-155, for a chunk of `x_arr` given by its columns.  The mask is the flattened transposed chunk; a
boolean index of the wrong length raises `IndexError`. -/
def singContains (h : HypObj) (cols : List (List (XF ℝ))) : Py Bool :=
  open Classical in
  let mask := (cols.map (fun c => c.map XF.isFinite)).flatten                          -- line 149
  if mask.length ≠ h.n then .error .indexError
  else
    let nm := (List.ofFn h.nrm).zip mask
    if ∀ p ∈ nm, p.2 = false → p.1 = 0 then                                            -- line 150
      let nv := (nm.filter (fun p => p.2)).map Prod.fst                                -- line 151
      let xv := (((cols.headD []).zip mask).filter (fun p => p.2)).map (fun p => p.1.toK)   -- line 152
      .ok (decide (|dotL nv xv - h.shift| < h.absTol))                                 -- lines 153-154
    else .ok false

/-- The columns of the two-dimensional array with `n` rows and `m` columns. -/
def colsOf (n m : ℕ) (data : List (XF ℝ)) : List (List (XF ℝ)) :=
  List.ofFn (fun j : Fin m => List.ofFn (fun i : Fin n => data.getD (i * m + j) .nan))

/-- `np.split(x_arr, np.arange(w, m, w), axis=1)`, elltool/core/hyperplane/Hyperplane.py:140-142, with `w` columns per piece (the last may be shorter). -/
def chunks {β : Type} (w : ℕ) : ℕ → List β → List (List β)
  | 0, _ => []
  | fuel + 1, l => if l.length ≤ w then [l] else l.take w :: chunks w fuel (l.drop w)

/-- `process(other_dim_vec)`, elltool/core/hyperplane/Hyperplane.py:137-143, for `k` hyperplanes.  `np.array` of pieces of different widths raises `ValueError`
("could not broadcast"). -/
def process (k : ℕ) (cols : List (List (XF ℝ))) : Py (List (List (List (XF ℝ)))) :=
  let w := if k = cols.length then 1 else k
  let cs := chunks w (cols.length + 1) cols
  if ∀ c ∈ cs, ∀ c' ∈ cs, c.length = c'.length then .ok cs else .error .pyValueError

/-- `contains(hyp_arr, x_arr)`, elltool/core/hyperplane/Hyperplane.py:96-167, for a numeric array `x_arr`.  The check of the sizes on lines 132-135 never fails: `size_x_vec[1:]` always
has one element. -/
def contains (hs : Arr HypObj) (x : Arr (XF ℝ)) : Py (Arr Bool) :=
  open Classical in
  match x.shape with
  | [] => .error .indexError                                                           -- line 103: `x_size_vec[0]`
  | n :: rest =>
    if n = 0 then .error .pyValueError                                                 -- line 103: `-1` cannot be resolved
    else
      let m := rest.foldr (· * ·) 1
      if ∃ v ∈ x.data, v.isNan = true then throwErr "wrongInput"                       -- lines 110-111
      else
        match pyMap singDimension hs.data with                                         -- line 113
        | .error e => .error e
        | .ok ds =>
          match ds.max?, ds.min? with
          | some mx, some mn =>
            if mn ≠ mx then throwErr "wrongSizes"                                      -- lines 117-118
            else if n ≠ mx then throwErr "wrongInput:wrongSizes"                       -- lines 125-126
            else
              let cols := colsOf n m x.data
              if m = 1 then                                                            -- lines 157-158
                match pyMap (fun h => singContains h cols) hs.data with
                | .error e => .error e
                | .ok bs => reshape bs hs.shape
              else
                match process hs.data.length cols with                                 -- lines 160-161
                | .error e => .error e
                | .ok cs =>
                  match (match hs.data with
                    | [h] => pyMap (singContains h) cs                                 -- lines 162-164
                    | l => pyMap (fun p => singContains p.1 p.2) (l.zip cs) : Py (List Bool)) with   -- lines 165-167
                  | .error e => .error e
                  | .ok bs => reshape bs rest
          | _, _ => .error .pyValueError                                               -- `np.max` of an empty array

/-- The length of a vector. -/
def norm2 {n : ℕ} (u : Fin n → ℝ) : ℝ := Real.sqrt (∑ i, u i ^ 2)

/-- `is_sing_parallel(first, second, tol)`, elltool/core/hyperplane/Hyperplane.py:206-217.  The division of a zero vector by its length 0 gives NaN, whose comparisons are false;
`np.max` of an empty array raises. -/
def singParallel (h g : HypObj) (tol : ℝ) : Py Bool :=
  open Classical in
  if hn : h.n = g.n then
    if h.n = 0 then .error .pyValueError
    else if norm2 h.nrm = 0 ∨ norm2 g.nrm = 0 then .ok false
    else if ∃ i, |h.nrm i / norm2 h.nrm - g.nrm (Fin.cast hn i) / norm2 g.nrm| < tol then .ok true      -- lines 213-214
    else if ∃ i, |h.nrm i / norm2 h.nrm + g.nrm (Fin.cast hn i) / norm2 g.nrm| < tol then .ok true      -- lines 215-216
    else .ok false
  else .ok false

/-- `is_parallel(first_hyp_arr, sec_hyp_arr)`, elltool/core/hyperplane/Hyperplane.py:197-232. -/
def isParallel (a b : Arr HypObj) : Py (Arr Bool) :=
  if ¬ (a.shape = b.shape ∨ a.data.length = 1 ∨ b.data.length = 1) then throwErr "wrongSizes"   -- lines 219-222
  else
    match pyMap (fun p => singParallel p.1 p.2 p.1.absTol) (a.data.zip b.data) with             -- lines 224-230
    | .error e => .error e
    | .ok bs => reshape bs a.shape

/-- What `hp_2_dict` puts into the dictionary: nothing but empty arrays, or the normal and the shift. -/
inductive HypDict where
  | empty
  | vals (nrm : List (XF ℝ)) (shift : XF ℝ)

/-- `hp_2_dict(hp_obj, False)`, elltool/core/hyperplane/Hyperplane.py:248-271.  A zero normal gives `norm_mult = inf` and `0 * inf = nan`. -/
def toDictOne (h : HypObj) : Py HypDict :=
  match singDimension h with
  | .error e => .error e
  | .ok 0 => .ok .empty                                                                -- lines 249-253
  | .ok (_ + 1) =>
    let r := norm2 h.nrm
    if r = 0 then                                                                      -- lines 257-262
      .ok (.vals (List.replicate h.n .nan) (if h.shift = 0 then .nan else .pinf))
    else if h.shift * (1 / r) < 0 then                                                 -- lines 260-262
      .ok (.vals (List.ofFn (fun i => .fin (-(h.nrm i * (1 / r))))) (.fin (-(h.shift * (1 / r)))))
    else .ok (.vals (List.ofFn (fun i => .fin (h.nrm i * (1 / r)))) (.fin (h.shift * (1 / r))))

/-- `to_dict(hyp_arr)`, elltool/core/hyperplane/Hyperplane.py:243-293. -/
def toDict (hs : Arr HypObj) : Py (Arr HypDict) :=
  match pyMap toDictOne hs.data with
  | .error e => .error e
  | .ok ds => reshape ds hs.shape

/-- `dict_2_hp`, elltool/core/hyperplane/Hyperplane.py:74-80, on a dictionary made by `to_dict` without the tolerances. -/
def fromDictOne (dflt : Tols) : HypDict → Py HypObj
  | .empty => hypNew (.arr ⟨[0], [], rfl⟩) (.arr ⟨[0], [], rfl⟩) dflt
  | .vals l s => hypNew (.arr ⟨[l.length], l.map (fun x => ⟨x, .fin 0⟩), by simp⟩) (.scal ⟨s, .fin 0⟩) dflt

/-- `from_dict(dict_arr)`, elltool/core/hyperplane/Hyperplane.py:72-82. -/
def fromDict (dflt : Tols) (ds : Arr HypDict) : Py (Arr HypObj) :=
  match pyMap (fromDictOne dflt) ds.data with
  | .error e => .error e
  | .ok hs => reshape hs ds.shape

/-- `form_comp_dict`, elltool/core/abasicellipsoid/ABasicEllipsoid.py:171-183, with the names and transformations of lines 276-287. -/
def hypForm (isProp : Bool) (_absTol : ℝ) (d : HypDict) : Py (List (String × PyVal ℝ)) :=
  if isProp then .error .keyError
  else match d with
    | .empty => .ok [("normal", zeros0), ("shift", zeros0)]
    | .vals l s => .ok [("normal", .arr ⟨.f, [l.length], l, by simp⟩), ("shift", .scal .npFloat64 s)]

/-- The class `Hyperplane`. -/
def hypClass : EqClass HypObj HypDict where
  absTol := HypObj.absTol
  relTol := HypObj.relTol
  toDict := toDictOne
  form := hypForm

end
end Ellipy.Hyp
