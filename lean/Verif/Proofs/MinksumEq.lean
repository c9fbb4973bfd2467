import Verif.Props.Minksum

/-! The external approximation of a sum of non-degenerate ellipsoids in closed form. -/

namespace Ellipy.Ell
open Matrix Ellipy.LA

/-- The shape matrix of the external approximation in the direction `v`. -/
noncomputable def eaShape {n : ℕ} (es : List (EllN n)) (v : Fin n → ℝ) : Matrix (Fin n) (Fin n) ℝ :=
  (es.map fun e => Real.sqrt (v ⬝ᵥ e.Q *ᵥ v)).sum • (es.map fun e => (1 / Real.sqrt (v ⬝ᵥ e.Q *ᵥ v)) • e.Q).sum

theorem eaDir_eq (E : Eigh) (G : Eig) (L : Lstsq) {p : PropVals} (hp : p.ok) {n : ℕ} (hn : n ≠ 0) {v : Fin n → ℝ} (hv : v ≠ 0)
    (es : List (EllN n)) (hes : ∀ e ∈ es, e.NonDeg) (c : Fin n → ℝ) :
    eaDir E G L p (es.map EllN.obj) c v = .ok ⟨n, c, eaShape es v, p.absTol, p.relTol, p.n2d, p.n3d⟩ ∧ IsPSD (eaShape es v) := by
  have hpsd : ∀ e ∈ es, e.PSD := fun e he => (hes e he).psd
  obtain ⟨ts, h1, h2⟩ := eaTerms E G L hn v es hpsd
  have hts : ts = es.map fun e => (e.Q, v ⬝ᵥ e.Q *ᵥ v) := by
    clear h1
    induction h2 with
    | nil => rfl
    | @cons e t _ _ h _ ih =>
      rw [List.map_cons, ← ih (fun e he => hes e (by simp [he])) (fun e he => hpsd e (by simp [he]))]
      congr 1
      have := h.2.2 (hes e (by simp))
      ext1
      · exact this
      · rw [h.2.1, this]
  have hsym : ∀ t ∈ ts, t.1ᵀ = t.1 := by
    rw [hts]
    intro t ht
    obtain ⟨e, he, rfl⟩ := List.mem_map.1 ht
    exact (hpsd e he).2.1
  have hbad : ¬ ∃ t ∈ ts, ¬ 0 < t.2 := by
    rintro ⟨t, ht, h0⟩
    rw [hts] at ht
    obtain ⟨e, he, rfl⟩ := List.mem_map.1 ht
    exact h0 ((hes e he).pos hv)
  have hS := (ea_quad v ts ((ts.map fun t => Real.sqrt t.2).sum) _ rfl hsym)
  have hshape : ((ts.map fun t => Real.sqrt t.2).sum) • ((ts.map fun t => (1 / Real.sqrt t.2) • t.1).sum) = eaShape es v := by
    rw [hts, List.map_map, List.map_map]; rfl
  have hP : IsPSD (eaShape es v) := by
    rw [← hshape]
    refine ⟨by rw [transpose_smul, hS.2.1], fun m => ?_⟩
    rw [(ea_quad m ts _ _ rfl hsym).2.2, hts]
    refine mul_nonneg (list_sum_pos _ _ fun _ _ => Real.sqrt_nonneg _) (list_sum_pos _ _ fun t ht => ?_)
    obtain ⟨e, he, rfl⟩ := List.mem_map.1 ht
    exact mul_nonneg (one_div_nonneg.2 (Real.sqrt_nonneg _)) ((hpsd e he).2.2 m)
  refine ⟨?_, hP⟩
  unfold eaDir
  rw [h1]
  simp only
  rw [if_neg hbad, hS.1, hshape]
  exact ellMake_psd E _ hp hP

/-- `minksum_ea` in closed form. -/
theorem minksumEa_eq (E : Eigh) (G : Eig) (L : Lstsq) (p : PropVals) (hp : p.ok) {n k : ℕ} (hn : n ≠ 0) (es : List (EllN n))
    (h2 : 2 ≤ es.length) (hes : ∀ e ∈ es, e.NonDeg) (M : Matrix (Fin n) (Fin k) ℝ) (hM : ∀ j, (fun i => M i j) ≠ 0) :
    minksumEa E G L p (es.map EllN.obj) M = .ok (Arr.vec (List.ofFn fun j =>
      ⟨n, (es.map EllN.c).sum, eaShape es (fun i => M i j), p.absTol, p.relTol, p.n2d, p.n3d⟩)) := by
  rw [minksumEa_many E G L p hn es h2 M, pyMap_ok (fun j _ => (eaDir_eq E G L hp hn (hM j) es hes _).1), List.ofFn_eq_map]

end Ellipy.Ell
