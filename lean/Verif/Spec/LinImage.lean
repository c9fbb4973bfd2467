import Verif.Spec.Minksum

/-! The image of an ellipsoid under a linear map. -/

namespace Ellipy.Ell
open Matrix

/-- The ellipsoid with centre `A c` and shape matrix `A Q Aᵀ`: the image under `x ↦ A x` (`C120_set`). -/
def EllN.image {n m : ℕ} (A : Matrix (Fin m) (Fin n) ℝ) (e : EllN n) : EllN m := ⟨A *ᵥ e.c, A * e.Q * Aᵀ, e.props⟩

end Ellipy.Ell
