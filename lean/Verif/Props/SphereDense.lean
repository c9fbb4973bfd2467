import Verif.Proofs.SphereDense

/-! Property theorem C56 (`sphere_tri`), continued: the triangles become small. -/

namespace Ellipy.Tri

/-- Unit vectors with a large inner product are close. -/
theorem dist_of_dot {a x : Fin 3 → ℝ} {n : ℕ} (ha : sq a = 1) (hx : sq x = 1) (h : kn n ≤ dot3 a x) :
    Real.sqrt (∑ t, (a t - x t) ^ 2) ≤ Real.sqrt 2 / 2 ^ n ∧ 1 - 1 / 4 ^ n ≤ ∑ t, a t * x t := by
  have h4 : (1 : ℝ) ≤ 4 ^ n := one_le_pow₀ (by norm_num)
  have hk : 1 - 1 / 4 ^ n ≤ kn n := by
    unfold kn
    have : (3 : ℝ) / (3 * 4 ^ n + 2) ≤ 1 / 4 ^ n := by
      rw [div_le_div_iff₀ (by linarith) (by linarith)]; linarith
    linarith
  have hdot : ∑ t, a t * x t = dot3 a x := by rw [Fin.sum_univ_three]; rfl
  refine ⟨?_, by rw [hdot]; linarith⟩
  have e : ∑ t, (a t - x t) ^ 2 = 2 - 2 * dot3 a x := by
    rw [Fin.sum_univ_three]
    rw [sq_eq] at ha hx
    unfold dot3
    linear_combination ha + hx
  rw [e, Real.sqrt_le_left (by positivity), div_pow, Real.sq_sqrt (by norm_num), ← pow_mul, mul_comm n 2, pow_mul]
  norm_num
  have : (1 : ℝ) / 4 ^ n * 2 = 2 / 4 ^ n := by ring
  linarith

/-- **C56**: after `n` divisions no side is longer than `√2 / 2ⁿ`, and every unit vector lies in the cone over a triangle all of whose vertices are
so close to it. -/
theorem C56_dense (argsort : List ℕ → List ℕ) (hsort : IsArgsort argsort) (n fuel : ℕ) (hf : n < fuel) :
    ∃ V F, sphereTri argsort fuel n = .ok (some (V, F)) ∧
      (∀ f ∈ F, ∀ i ∈ [f.1, f.2.1, f.2.2], ∀ j ∈ [f.1, f.2.1, f.2.2], Real.sqrt (∑ t, (V.getD i 0 t - V.getD j 0 t) ^ 2) ≤ Real.sqrt 2 / 2 ^ n) ∧
      ∀ x : Fin 3 → ℝ, ∑ t, x t ^ 2 = 1 → ∃ f ∈ F, (∃ w, IsComb V f w x) ∧
        ∀ i ∈ [f.1, f.2.1, f.2.2], i < V.length ∧ Real.sqrt (∑ t, (V.getD i 0 t - x t) ^ 2) ≤ Real.sqrt 2 / 2 ^ n ∧ 1 - 1 / 4 ^ n ≤ ∑ t, V.getD i 0 t * x t := by
  obtain ⟨m0, ⟨hs, hfan, -, -⟩, ⟨hv, hr, -⟩, -, hrun⟩ := sphere_start argsort hsort
  have hth : Fine (kn 0) m0 := by
    intro f hf
    rw [hv]
    exact ico_fine f.v (hr ▸ List.mem_map_of_mem (f := fun f : Face => f.v) hf)
  have hth' := hth.iter hs n
  have hs' := hs.iter n
  have hfan' := hfan.iter hs n
  refine ⟨_, _, hrun n fuel hf, fun r hr => ?_, fun x hx => ?_⟩
  · obtain ⟨f, hf, rfl⟩ := List.mem_map.mp hr
    obtain ⟨l1, l2, l3⟩ := hs'.inv.row f hf
    obtain ⟨d1, d2, d3⟩ := hth' f hf
    have u1 := vert_unit hs' l1
    have u2 := vert_unit hs' l2
    have u3 := vert_unit hs' l3
    have self : ∀ a : Fin 3 → ℝ, Real.sqrt (∑ t, (a t - a t) ^ 2) ≤ Real.sqrt 2 / 2 ^ n := by
      intro a; simp only [sub_self]; norm_num; positivity
    intro i hi j hj
    simp only [List.mem_cons, List.not_mem_nil, or_false] at hi hj
    rcases hi with rfl | rfl | rfl <;> rcases hj with rfl | rfl | rfl
    · exact self _
    · exact (dist_of_dot u1 u2 d1).1
    · exact (dist_of_dot u1 u3 d3).1
    · exact (dist_of_dot u2 u1 (by rw [dot3_comm]; exact d1)).1
    · exact self _
    · exact (dist_of_dot u2 u3 d2).1
    · exact (dist_of_dot u3 u1 (by rw [dot3_comm]; exact d3)).1
    · exact (dist_of_dot u3 u2 (by rw [dot3_comm]; exact d2)).1
    · exact self _
  · have hx' : sq x = 1 := by rw [← hx]; unfold sq; exact Finset.sum_congr rfl (fun t _ => by ring)
    obtain ⟨w, ⟨f, hf, hw⟩, -⟩ := hfan' x
    refine ⟨f.v, List.mem_map_of_mem (f := fun f : Face => f.v) hf, ⟨w, hw⟩, ?_⟩
    obtain ⟨l1, l2, l3⟩ := hs'.inv.row f hf
    obtain ⟨d1, d2, d3⟩ := hth' f hf
    have u1 := vert_unit hs' l1
    have u2 := vert_unit hs' l2
    have u3 := vert_unit hs' l3
    obtain ⟨k1, k2, k3⟩ := near_verts (kn_nonneg n) u1 u2 u3 d1 d2 d3 hx' (hw.1 _) (hw.1 _) (hw.1 _) hw.2.2
    intro i hi
    simp only [List.mem_cons, List.not_mem_nil, or_false] at hi
    rcases hi with rfl | rfl | rfl
    · exact ⟨l1, dist_of_dot u1 hx' k1⟩
    · exact ⟨l2, dist_of_dot u2 hx' k2⟩
    · exact ⟨l3, dist_of_dot u3 hx' k3⟩

example : ∃ V F, sphereTri stableArgsort 10 3 = .ok (some (V, F)) ∧
    ∃ i, Real.sqrt (∑ t, (V.getD i 0 t - (![3 / 5, 0, 4 / 5] : Fin 3 → ℝ) t) ^ 2) ≤ Real.sqrt 2 / 8 := by
  obtain ⟨V, F, h, -, h'⟩ := C56_dense stableArgsort stableArgsort_ok 3 10 (by norm_num)
  obtain ⟨f, -, -, hi⟩ := h' ![3 / 5, 0, 4 / 5] (by rw [Fin.sum_univ_three]; norm_num [Matrix.cons_val_two, Matrix.head_cons, Matrix.tail_cons])
  refine ⟨V, F, by exact_mod_cast h, f.1, ?_⟩
  have := (hi f.1 (by simp)).2.1
  norm_num at this ⊢
  exact this

end Ellipy.Tri
