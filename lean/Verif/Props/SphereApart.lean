import Verif.Proofs.SphereSep

/-! Property theorem C56 (`sphere_tri`), continued: the vertices keep a distance from each other. -/

namespace Ellipy.Tri

/-- **C56**: after `n` divisions the triple product of the vertices of every triangle is at least `1 / (2 · 4ⁿ)`, and different vertices are at
least so far apart. -/
theorem C56_apart (argsort : List ℕ → List ℕ) (hsort : IsArgsort argsort) (n fuel : ℕ) (hf : n < fuel) :
    ∃ V F, sphereTri argsort fuel n = .ok (some (V, F)) ∧
      (∀ f ∈ F, 1 / (2 * 4 ^ n) ≤ triple (V.getD f.1 0) (V.getD f.2.1 0) (V.getD f.2.2 0)) ∧
      ∀ i < V.length, ∀ j < V.length, i ≠ j → 1 / (2 * 4 ^ n) ≤ Real.sqrt (∑ t, (V.getD j 0 t - V.getD i 0 t) ^ 2) := by
  obtain ⟨m0, ⟨hs, hfan, hu, -⟩, ⟨hv, hr, -⟩, -, hrun⟩ := sphere_start argsort hsort
  have hth : Thick (1 / 2) m0 := by
    intro f hf
    rw [hv]
    exact ico_thick f.v (hr ▸ List.mem_map_of_mem (f := fun f : Face => f.v) hf)
  have hth' := hth.iter hs n
  refine ⟨_, _, hrun n fuel hf, fun r hr => ?_, fun i hi j hj hij => ?_⟩
  · obtain ⟨f, hf, rfl⟩ := List.mem_map.mp hr
    rw [← div_div]
    exact hth' f hf
  · have h := (hfan.iter hs n).sep (hs.iter n) (hu.iter hs n) (τ := 1 / 2 / 4 ^ n) (by positivity) hth' hi hj hij
    rw [← div_div]
    refine Real.le_sqrt_of_sq_le (h.trans (le_of_eq ?_))
    unfold sq
    refine Finset.sum_congr rfl (fun t _ => ?_)
    rw [Pi.sub_apply]; ring

example : ∃ V F, sphereTri stableArgsort 10 2 = .ok (some (V, F)) ∧
    ∀ i < V.length, ∀ j < V.length, i ≠ j → 1 / 32 ≤ Real.sqrt (∑ t, (V.getD j 0 t - V.getD i 0 t) ^ 2) := by
  obtain ⟨V, F, h, -, h'⟩ := C56_apart stableArgsort stableArgsort_ok 2 10 (by norm_num)
  norm_num at h'
  exact ⟨V, F, by exact_mod_cast h, fun i hi j hj hij => by have := h' i hi j hj hij; norm_num; exact this⟩

end Ellipy.Tri
