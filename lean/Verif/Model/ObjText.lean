import Verif.Model.Hyperplane

/-! Model of the texts of ellipsoids and hyperplanes, `__str__` in elltool/core/ellipsoid/Ellipsoid.py:721-738 and
elltool/core/hyperplane/Hyperplane.py:315-332.

Texts are lists of characters.  How numpy writes the numbers of an array of a given shape is an arbitrary function `R` (a float has the shape
`()`). -/

namespace Ellipy.Text
open Ellipy.Ell Ellipy.Hyp
noncomputable section

/-- `repr` of a string without quotes and backslashes. -/
def quoted (s : List Char) : List Char := "'".toList ++ s ++ "'".toList

/-- `str` of a dictionary with two entries, from its keys and the texts of its values. -/
def dict2 (k1 v1 k2 v2 : List Char) : List Char :=
  "{".toList ++ quoted k1 ++ ": ".toList ++ v1 ++ ", ".toList ++ quoted k2 ++ ": ".toList ++ v2 ++ "}".toList

/-- `'    {}    float64    {}\n'.format(name, descr)`. -/
def fieldLine (name descr : List Char) : List Char := "    ".toList ++ name ++ "    float64    ".toList ++ descr ++ "\n".toList

/-- The text around the data: Ellipsoid.py:722-737, Hyperplane.py:316-331. -/
def objText (title cls name1 descr1 name2 descr2 data : List Char) : List Char :=
  "\n".toList ++ "-------".toList ++ title ++ " object-------\n".toList ++ "Properties:\n".toList ++
    dict2 "actualClass".toList (quoted cls) "shape".toList (quoted "()".toList) ++ "\n".toList ++
    "Fields (name, type, description):\n".toList ++ fieldLine name1 descr1 ++ fieldLine name2 descr2 ++
    "\nData: \n".toList ++ data

/-- `str(ell)`, elltool/core/ellipsoid/Ellipsoid.py:721-738; the names and descriptions are those of lines 681-692, the dictionary of lines
659-663 contains what `parameters` (lines 576-577, 227-228) returns. -/
def ellText (R : List ℕ → List (XF ℝ) → List Char) (e : EllObj) : List Char :=
  objText "ellipsoid".toList "Ellipsoid".toList "QSqrt".toList "Ellipsoid shape matrix.".toList "q".toList "Ellipsoid center vector.".toList
    (dict2 "shape_mat".toList (R [e.n, e.n] (List.ofFn (fun k : Fin (e.n * e.n) => .fin (e.Q k.divNat k.modNat))))
      "center_vec".toList (R [e.n] (List.ofFn (fun i => .fin (e.c i)))))

/-- `str(hyp)`, elltool/core/hyperplane/Hyperplane.py:315-332, with the names and descriptions of lines 276-287. -/
def hypText (R : List ℕ → List (XF ℝ) → List Char) (h : HypObj) : Py (List Char) :=
  match toDictOne h with                                                               -- line 317
  | .error e => .error e
  | .ok d =>
    let (v1, v2) := match d with
      | .empty => (R [0] [], R [0] [])
      | .vals l s => (R [l.length] l, R [] [s])
    .ok (objText "hyperplane".toList "Hyperplane".toList "normal".toList "Hyperplane normal.".toList "shift".toList
      "Hyperplane shift along normal from origin.".toList (dict2 "normal_vec".toList v1 "shift".toList v2))

end
end Ellipy.Text
