import Mathlib.Data.Int.Notation
import Mathlib.Data.Nat.Notation
import Verif.Base.Py

/-! A tube: `np` rings of `ne` points each, point `i` of ring `p` has the number `p * ne + i`. -/

namespace Ellipy.Tri

/-- The number of point `i` of ring `p`; the points of a ring are numbered cyclically. -/
def ringPt (ne p i : ℕ) : ℤ := ((p * ne + i % ne : ℕ) : ℤ)

/-- The two triangles that make up the quad between the points `i` and `i + 1` of the rings `p` and `p + 1`. -/
def quadTris (ne p i : ℕ) : List (ℤ × ℤ × ℤ) :=
  [(ringPt ne p i, ringPt ne p (i + 1), ringPt ne (p + 1) (i + 1)),
   (ringPt ne (p + 1) (i + 1), ringPt ne (p + 1) i, ringPt ne p i)]

end Ellipy.Tri
