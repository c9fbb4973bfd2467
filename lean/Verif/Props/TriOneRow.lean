import Verif.Props.TriShrink

/-! Property theorem C55 (`shrink_face_tri`): face matrices with one row. -/

namespace Ellipy.Tri

variable {d : ℕ}

/-- **C55**, a face matrix with one row, for every adjustment and every limit of passes: the call raises `IndexError` exactly when a side
of the triangle is too long and at least one pass is allowed; otherwise the triangle is returned as it is. -/
theorem C55_one_row (argsort : List ℕ → List ℕ) (hsort : IsArgsort argsort) (fuel : ℕ) (verts : List (Fin d → ℝ)) (v : ℕ × ℕ × ℕ)
    (hp : Proper v) (hr : RowLt verts.length v) (maxLen : ℝ) (nMax : Option ℕ) (adjust : Option (List (Fin d → ℝ) → List (Fin d → ℝ))) :
    (shrinkFaceTri argsort fuel verts (.mat [v]) maxLen nMax adjust = .error .indexError ↔
      (maxLen < pointDist verts v.1 v.2.1 ∨ maxLen < pointDist verts v.2.1 v.2.2 ∨ maxLen < pointDist verts v.1 v.2.2) ∧ nMax ≠ some 0) ∧
    (¬ ((maxLen < pointDist verts v.1 v.2.1 ∨ maxLen < pointDist verts v.2.1 v.2.2 ∨ maxLen < pointDist verts v.1 v.2.2) ∧ nMax ≠ some 0) →
      ∃ m, shrinkFaceTri argsort fuel verts (.mat [v]) maxLen nMax adjust = .ok (some m) ∧ m.verts = verts ∧
        m.rows.map (fun f => f.1) = [v] ∧ IsEdgeTable m.edges [v]) := by
  obtain ⟨m, h0, hinv, hj, hv, hf, ht⟩ := init_ok argsort hsort verts (.mat [v]) [v] rfl (by simp)
    (fun f hf => by rw [List.mem_singleton.mp hf]; exact hp) (fun f hf => by rw [List.mem_singleton.mp hf]; exact hr)
  have hsymm : ∀ i j, pointDist verts i j = pointDist verts j i := fun i j => edgeLen_dir verts false j i
  have hmem : ∀ a b, IsSide a b v → a ≠ b → maxLen < pointDist verts a b → ∃ x ∈ m.len, maxLen < x := by
    intro a b hs hab hl
    rw [hinv.len, hv]
    rcases lt_or_gt_of_ne hab with h | h
    · exact ⟨_, List.mem_map_of_mem ((ht.2 a b).mpr ⟨h, v, List.mem_singleton.mpr rfl, hs⟩), hl⟩
    · refine ⟨_, List.mem_map_of_mem ((ht.2 b a).mpr ⟨h, v, List.mem_singleton.mpr rfl, ?_⟩), lt_of_lt_of_eq hl (hsymm a b)⟩
      unfold IsSide at hs ⊢
      simp only [List.mem_cons, Prod.mk.injEq, List.not_mem_nil, or_false] at hs ⊢
      tauto
  have hlong : (∃ x ∈ m.len, maxLen < x) ↔
      (maxLen < pointDist verts v.1 v.2.1 ∨ maxLen < pointDist verts v.2.1 v.2.2 ∨ maxLen < pointDist verts v.1 v.2.2) := by
    constructor
    · rintro ⟨x, hx, hl⟩
      rw [hinv.len, hv, List.mem_map] at hx
      obtain ⟨⟨a, b⟩, he, rfl⟩ := hx
      obtain ⟨-, w, hw, hs⟩ := (ht.2 a b).mp he
      rw [List.mem_singleton.mp hw] at hs
      change maxLen < pointDist verts a b at hl
      unfold IsSide at hs
      simp only [List.mem_cons, Prod.mk.injEq, List.not_mem_nil, or_false] at hs
      rcases hs with ⟨rfl, rfl⟩ | ⟨rfl, rfl⟩ | ⟨rfl, rfl⟩ | ⟨rfl, rfl⟩ | ⟨rfl, rfl⟩ | ⟨rfl, rfl⟩
      · exact Or.inl hl
      · exact Or.inl (hsymm _ _ ▸ hl)
      · exact Or.inr (Or.inl hl)
      · exact Or.inr (Or.inl (hsymm _ _ ▸ hl))
      · exact Or.inr (Or.inr hl)
      · exact Or.inr (Or.inr (hsymm _ _ ▸ hl))
    · rintro (h | h | h)
      · exact hmem _ _ (by simp [IsSide]) hp.1 h
      · exact hmem _ _ (by simp [IsSide]) hp.2.2 h
      · exact hmem _ _ (by simp [IsSide]) hp.2.1 h
  have hmax : (∀ n ∈ nMax, 1 ≤ n) ↔ nMax ≠ some 0 := by
    cases nMax with
    | none => simp
    | some k => simp; omega
  rw [← hlong, ← hmax]
  unfold shrinkFaceTri
  rw [h0]
  simp only
  by_cases hc : (∃ x ∈ m.len, maxLen < x) ∧ (∀ n ∈ nMax, 1 ≤ n)
  · rw [if_pos hc]
    exact ⟨iff_of_true rfl hc, fun h => absurd hc h⟩
  · rw [if_neg hc]
    refine ⟨iff_of_false (fun h => by cases h) hc, fun _ => ⟨m, rfl, hv, ?_, ht⟩⟩
    rw [← hf]
    unfold Mesh.rows
    rw [List.map_map]
    rfl

/-- A triangle with the sides 3, 4 and 5: a side is longer than 4.5, so a pass is made and fails; 5 is enough. -/
example (fuel : ℕ) : Raises (shrinkFaceTri stableArgsort fuel [![0, 0], ![3, 0], ![0, 4]] (.mat [(0, 1, 2)]) 4.5 none none) ∧
    ∃ m, shrinkFaceTri stableArgsort fuel [![0, 0], ![3, 0], ![0, 4]] (.mat [(0, 1, 2)]) 5 none none = .ok (some m) ∧
      m.verts = [![0, 0], ![3, 0], ![0, 4]] := by
  have h1 : pointDist [![0, 0], ![3, 0], ![0, 4]] 0 1 = 3 := by
    unfold pointDist
    rw [Real.sqrt_eq_iff_mul_self_eq (Finset.sum_nonneg fun _ _ => sq_nonneg _) (by norm_num)]
    simp [Fin.sum_univ_two]; norm_num
  have h2 : pointDist [![0, 0], ![3, 0], ![0, 4]] 1 2 = 5 := by
    unfold pointDist
    rw [Real.sqrt_eq_iff_mul_self_eq (Finset.sum_nonneg fun _ _ => sq_nonneg _) (by norm_num)]
    simp [Fin.sum_univ_two]; norm_num
  have h3 : pointDist [![0, 0], ![3, 0], ![0, 4]] 0 2 = 4 := by
    unfold pointDist
    rw [Real.sqrt_eq_iff_mul_self_eq (Finset.sum_nonneg fun _ _ => sq_nonneg _) (by norm_num)]
    simp [Fin.sum_univ_two]; norm_num
  constructor
  · refine ⟨_, (C55_one_row stableArgsort stableArgsort_ok fuel _ (0, 1, 2) (by simp [Proper]) (by simp [RowLt]) 4.5 none none).1.mpr
      ⟨Or.inr (Or.inl ?_), by simp⟩⟩
    show (4.5 : ℝ) < pointDist _ 1 2
    rw [h2]; norm_num
  · obtain ⟨m, hm, hv, -⟩ := (C55_one_row stableArgsort stableArgsort_ok fuel [![0, 0], ![3, 0], ![0, 4]] (0, 1, 2) (by simp [Proper])
      (by simp [RowLt]) 5 none none).2 (by
        rintro ⟨h, -⟩
        change (5 : ℝ) < pointDist _ 0 1 ∨ 5 < pointDist _ 1 2 ∨ 5 < pointDist _ 0 2 at h
        rw [h1, h2, h3] at h
        norm_num at h)
    exact ⟨m, hm, hv⟩

end Ellipy.Tri
