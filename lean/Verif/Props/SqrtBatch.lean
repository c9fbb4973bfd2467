import Verif.Props.MatBatch

/-! Property theorem C93 (`SquareMatVector.sqrtm_pos`): the rejected batches, 1×1 slices included. -/

namespace Ellipy.MV
open Matrix Ellipy.LA

/-- **C93**: the batches that are rejected, for slices of every size: all batches of 1×1 slices that are not empty, and the batches with a
slice that is not positive semidefinite. -/
theorem C93_raises_exact (E : Eigh) {n T : ℕ} (Q : Fin T → Matrix (Fin n) (Fin n) ℝ) :
    Raises (sqrtmBatch E Q) ↔ (n = 1 ∧ T ≠ 0) ∨ ∃ t, ¬ IsPSD (Q t) := by
  by_cases hn : n = 1
  · have h : Raises (sqrtmBatch E Q) ↔ T ≠ 0 := by
      unfold sqrtmBatch
      rw [pyAll_raises]
      constructor
      · rintro ⟨t, _⟩ h0
        exact absurd t.isLt (by omega)
      · intro h0
        refine ⟨⟨0, by omega⟩, ?_⟩
        rw [if_pos hn]
        exact ⟨_, rfl⟩
    rw [h]
    constructor
    · exact fun h0 => Or.inl ⟨hn, h0⟩
    · rintro (h0 | ⟨t, _⟩)
      · exact h0.2
      · intro h0
        exact absurd t.isLt (by omega)
  · rw [C93_raises_iff_partial E hn]
    exact ⟨Or.inr, fun h => h.resolve_left (fun h0 => hn h0.1)⟩

/-- The numbers 4 and 9 as 1×1 slices are rejected, and a batch without slices is not. -/
example (E : Eigh) : Raises (sqrtmBatch E ![!![(4 : ℝ)], !![9]]) ∧
    ¬ Raises (sqrtmBatch E (fun t : Fin 0 => (nomatch t : Matrix (Fin 1) (Fin 1) ℝ))) := by
  refine ⟨(C93_raises_exact E _).mpr (Or.inl ⟨rfl, by norm_num⟩), fun h => ?_⟩
  rcases (C93_raises_exact E _).mp h with h0 | ⟨t, _⟩
  · exact h0.2 rfl
  · exact t.elim0

end Ellipy.MV
