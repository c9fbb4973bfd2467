import Mathlib.Tactic.Ring
import Mathlib.Data.List.Flatten
import Mathlib.Algebra.BigOperators.Group.List.Basic
import Verif.Model.TriTube
import Verif.Spec.TriTube

/-! Property theorems C58 (`ell_tube_2_tri`) and C64 (`ell_tube_discr_tri`). -/

namespace Ellipy.Tri

theorem two_rows {a b c d e f a' b' c' d' e' f' : ℤ} (h1 : a = a') (h2 : b = b') (h3 : c = c') (h4 : d = d') (h5 : e = e') (h6 : f = f') :
    [(a, b, c), (d, e, f)] = [(a', b', c'), (d', e', f')] := by subst h1 h2 h3 h4 h5 h6; rfl

theorem tri1 (ne p i : ℕ) (hi : i + 1 < ne) : (quadTris ne p i) =
    [((p : ℤ) * ne + i, (p : ℤ) * ne + i + 1, (p : ℤ) * ne + i + 1 + ne), ((p : ℤ) * ne + i + 1 + ne, (p : ℤ) * ne + i + ne, (p : ℤ) * ne + i)] := by
  unfold quadTris ringPt
  rw [Nat.mod_eq_of_lt hi, Nat.mod_eq_of_lt (by omega : i < ne)]
  push_cast
  refine two_rows ?_ ?_ ?_ ?_ ?_ ?_ <;> ring

theorem tri2 (ne p : ℕ) (hn : 1 ≤ ne) : (quadTris ne p (ne - 1)) =
    [((p : ℤ) * ne + ne - 1, (p : ℤ) * ne, (p : ℤ) * ne + ne), ((p : ℤ) * ne + ne, (p : ℤ) * ne + ne + ne - 1, (p : ℤ) * ne + ne - 1)] := by
  unfold quadTris ringPt
  rw [show ne - 1 + 1 = ne by omega, Nat.mod_self, Nat.mod_eq_of_lt (by omega : ne - 1 < ne)]
  push_cast [Nat.cast_sub hn]
  refine two_rows ?_ ?_ ?_ ?_ ?_ ?_ <;> ring

theorem flatMap_pair {α β : Type} (l : List α) (f g : α → β) : List.Perm (l.map f ++ l.map g) (l.flatMap (fun x => [f x, g x])) := by
  have h := List.flatMap_append_perm l (fun x => [f x]) (fun x => [g x])
  simpa [List.flatMap_singleton', ← List.map_eq_flatMap] using h

/-- **C58**: the triangles are those of all quads between neighbouring rings, each taken once. -/
theorem C58 (ne np : ℕ) (hne : 1 ≤ ne) (hnp : 1 ≤ np) : ∃ l, ellTube2Tri ne np = .ok l ∧
    l.Perm ((List.range (np - 1)).flatMap (fun p => (List.range ne).flatMap (fun i => quadTris ne p i))) ∧
    l.length = 2 * ne * (np - 1) ∧ ∀ t ∈ l, ∀ v ∈ [t.1, t.2.1, t.2.2], 0 ≤ v ∧ v < (np * ne : ℕ) := by
  have hperm : ∃ l, ellTube2Tri ne np = .ok l ∧
      l.Perm ((List.range (np - 1)).flatMap (fun p => (List.range ne).flatMap (fun i => quadTris ne p i))) := by
    refine ⟨_, by unfold ellTube2Tri; rw [if_neg (by omega)], ?_⟩
    have hn : ((np : ℤ) - 1).toNat = np - 1 := by omega
    have hm : ((ne : ℤ) - 1).toNat = ne - 1 := by omega
    rw [hn, hm]
    obtain ⟨m, rfl⟩ : ∃ m, ne = m + 1 := ⟨ne - 1, by omega⟩
    rw [show m + 1 - 1 = m from rfl]
    have hsplit : ∀ p, (List.range (m + 1)).flatMap (fun i => quadTris (m + 1) p i) =
        (List.range m).flatMap (fun i => quadTris (m + 1) p i) ++ quadTris (m + 1) p m := by
      intro p; rw [List.range_succ, List.flatMap_append]; simp
    simp only [hsplit]
    refine List.Perm.trans ?_ (List.flatMap_append_perm _ _ _)
    simp only [List.map_append, List.map_map, List.flatMap_map, List.map_flatMap, Function.comp_def, List.append_assoc]
    rw [← List.append_assoc]
    refine List.Perm.append ?_ ?_
    · refine (List.flatMap_append_perm _ _ _).trans ?_
      refine List.Perm.flatMap_left _ (fun p _ => ?_)
      refine (flatMap_pair _ _ _).trans (List.Perm.of_eq ?_)
      refine List.flatMap_congr (fun i hi => ?_)
      have hi' : i + 1 < m + 1 := by have := List.mem_range.mp hi; omega
      rw [tri1 (m + 1) p i hi']
      push_cast
      refine two_rows ?_ ?_ ?_ ?_ ?_ ?_ <;> ring
    · refine (flatMap_pair _ _ _).trans (List.Perm.of_eq ?_)
      refine List.flatMap_congr (fun p _ => ?_)
      have := tri2 (m + 1) p hne
      rw [show m + 1 - 1 = m from rfl] at this
      rw [this]
      push_cast
      refine two_rows ?_ ?_ ?_ ?_ ?_ ?_ <;> ring
  obtain ⟨l, h1, h2⟩ := hperm
  refine ⟨l, h1, h2, ?_, ?_⟩
  · rw [h2.length_eq]
    simp [List.length_flatMap, quadTris]
    ring
  · intro t ht v hv
    rw [h2.mem_iff, List.mem_flatMap] at ht
    obtain ⟨p, hp, ht⟩ := ht
    obtain ⟨i, hi, ht⟩ := List.mem_flatMap.mp ht
    have hp' := List.mem_range.mp hp
    have hb : ∀ q j, q ≤ p + 1 → 0 ≤ ringPt ne q j ∧ ringPt ne q j < (np * ne : ℕ) := by
      intro q j hq
      unfold ringPt
      refine ⟨Int.natCast_nonneg _, ?_⟩
      have h3 : j % ne < ne := Nat.mod_lt _ hne
      have h4 : (q + 1) * ne ≤ np * ne := Nat.mul_le_mul_right _ (by omega)
      have h5 : q * ne + j % ne < (q + 1) * ne := by rw [Nat.add_mul, one_mul]; omega
      exact_mod_cast lt_of_lt_of_le h5 h4
    unfold quadTris at ht
    simp only [List.mem_cons, List.not_mem_nil, or_false] at ht hv
    rcases ht with rfl | rfl <;> rcases hv with rfl | rfl | rfl <;> exact hb _ _ (by omega)

/-- **C58**, errors. -/
theorem C58_raises (ne np : ℤ) (h : np < 1 ∨ ne < 1) : Raises (ellTube2Tri ne np) := by
  unfold ellTube2Tri; rw [if_pos h]; exact ⟨_, rfl⟩

/-- **C64**: row `j` is the closed polyline through the points of ring `j`. -/
theorem C64 (n m : ℕ) (hn : 1 ≤ n) : (ellTubeDiscrTri n m).length = m ∧ ∀ (j : ℕ) (hj : j < (ellTubeDiscrTri n m).length),
    ((ellTubeDiscrTri n m)[j]).length = n + 1 ∧ ∀ i ≤ n, ((ellTubeDiscrTri n m)[j])[i]? = some (ringPt n j i) := by
  refine ⟨by simp [ellTubeDiscrTri], fun j hj => ⟨by simp [ellTubeDiscrTri], fun i hi => ?_⟩⟩
  have hrow : (ellTubeDiscrTri n m)[j] = (((List.range n).map (fun (i : ℕ) => (i : ℤ))) ++ [0]).map (fun x => (n : ℤ) * (j : ℤ) + x) := by
    simp [ellTubeDiscrTri]
  rw [hrow]
  unfold ringPt
  rcases Nat.lt_or_ge i n with h | h
  · rw [Nat.mod_eq_of_lt h]
    simp [List.getElem?_append_left, h, mul_comm]
  · have : i = n := by omega
    subst this
    simp [mul_comm]

/-- Two rings of three points. -/
example : ∃ l, ellTube2Tri 3 2 = .ok l ∧ l.length = 6 ∧ (2, 0, 3) ∈ l := by
  obtain ⟨l, h, h1, h2, -⟩ := C58 3 2 (by norm_num) (by norm_num)
  exact ⟨l, h, by simpa using h2, h1.mem_iff.mpr (by decide)⟩

end Ellipy.Tri
