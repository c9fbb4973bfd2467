import Verif.Props.EllEigs
import Verif.Props.Volume
import Verif.Props.Rho
import Verif.Props.MatDot

/-! Property theorems C101: `volume`, `trace`, `min_eig`, `max_eig` and `rho` grow with the ellipsoid. -/

namespace Ellipy.Ell
open Matrix Ellipy.LA

/-- What inclusion of ellipsoids means for supports and quadratic forms. -/
theorem subset_forms {n : ℕ} {c c' : Fin n → ℝ} {Q Q' : Matrix (Fin n) (Fin n) ℝ} (hQ : IsPSD Q) (hQ' : IsPSD Q') (h : Ell c Q ⊆ Ell c' Q')
    (x : Fin n → ℝ) : x ⬝ᵥ c + Real.sqrt (x ⬝ᵥ Q *ᵥ x) ≤ x ⬝ᵥ c' + Real.sqrt (x ⬝ᵥ Q' *ᵥ x) ∧ x ⬝ᵥ Q *ᵥ x ≤ x ⬝ᵥ Q' *ᵥ x := by
  have key : ∀ y : Fin n → ℝ, y ⬝ᵥ c + Real.sqrt (y ⬝ᵥ Q *ᵥ y) ≤ y ⬝ᵥ c' + Real.sqrt (y ⬝ᵥ Q' *ᵥ y) := by
    intro y
    obtain ⟨z, hz, hzr⟩ := (ell_support (c := c) hQ y).1
    exact hzr ▸ (ell_support (c := c') hQ' y).2 ⟨z, h hz, rfl⟩
  have h1 := key x
  have h2 := key (-x)
  simp only [neg_dotProduct, mulVec_neg, dotProduct_neg, neg_neg] at h2
  have h3 : Real.sqrt (x ⬝ᵥ Q *ᵥ x) ≤ Real.sqrt (x ⬝ᵥ Q' *ᵥ x) := by linarith
  exact ⟨h1, (Real.sqrt_le_sqrt_iff (hQ'.2 x)).1 h3⟩

/-- **C101**, `volume`: the volume reported for the larger ellipsoid is not smaller, unless its own tolerance makes it count as flat. -/
theorem C101_volume (E : Eigh) {n : ℕ} (hn : n ≠ 0) (f e : EllN n) (hf : f.PSD) (he : e.PSD) (ht : e.props.absTol ≤ f.props.absTol)
    (h : f.set ⊆ e.set) : ∃ v w, Ell.volume E [f.obj, e.obj] = .ok [v, w] ∧ v.val ≤ w.val := by
  obtain ⟨vs, h1, h2⟩ := C32 E [f.obj, e.obj] (by
    intro x hx
    simp only [List.mem_cons, List.not_mem_nil, or_false] at hx
    rcases hx with rfl | rfl
    · exact ⟨hn, hf.2, hf.1.1.le⟩
    · exact ⟨hn, he.2, he.1.1.le⟩)
  match vs, h2 with
  | [v, w], .cons hv (.cons hw .nil) =>
    refine ⟨v, w, h1, ?_⟩
    by_cases hfd : ∀ x : Fin n → ℝ, x ≠ 0 → f.props.absTol * (x ⬝ᵥ x) < x ⬝ᵥ f.Q *ᵥ x
    · have hed : ∀ x : Fin n → ℝ, x ≠ 0 → e.props.absTol * (x ⬝ᵥ x) < x ⬝ᵥ e.Q *ᵥ x := by
        intro x hx
        have a1 := mul_le_mul_of_nonneg_right ht (dot_self_pos hx).le
        have a2 := (subset_forms hf.2 he.2 h x).2
        linarith [hfd x hx]
      obtain ⟨m1, p1, -⟩ := hv.1 hfd
      obtain ⟨m2, p2, -⟩ := hw.1 hed
      have : ENNReal.ofReal v.val ≤ ENNReal.ofReal w.val := m1 ▸ m2 ▸ MeasureTheory.measure_mono h
      exact (ENNReal.ofReal_le_ofReal_iff p2.le).1 this
    · rw [(hv.2 hfd).1]
      by_cases hed : ∀ x : Fin n → ℝ, x ≠ 0 → e.props.absTol * (x ⬝ᵥ x) < x ⬝ᵥ e.Q *ᵥ x
      · exact (hw.1 hed).2.1.le
      · rw [(hw.2 hed).1]

/-- **C101**, `min_eig` and `max_eig`. -/
theorem C101_eigs (E : Eigh) {n : ℕ} (hn : n ≠ 0) (f e : EllN n) (hf : f.PSD) (he : e.PSD) (h : f.set ⊆ e.set) (arg : ObjArg EllObj)
    (ha : arg.Is (Arr.vec [f.obj, e.obj])) :
    ∃ r s r' s', minEig E arg = .ok [r, s] ∧ maxEig E arg = .ok [r', s'] ∧ r ≤ s ∧ r' ≤ s' := by
  obtain ⟨⟨rs, h1, h2⟩, ss, h3, h4⟩ := C81_form E arg _ ha (by
    intro x hx
    have hx : x ∈ [f.obj, e.obj] := hx
    simp only [List.mem_cons, List.not_mem_nil, or_false] at hx
    rcases hx with rfl | rfl <;> exact hn)
  have h2 : List.Forall₂ _ [f.obj, e.obj] rs := h2
  have h4 : List.Forall₂ _ [f.obj, e.obj] ss := h4
  have e1 : lowerSym f.Q = f.Q := lowerSym_of_symm hf.2.1
  have e2 : lowerSym e.Q = e.Q := lowerSym_of_symm he.2.1
  match rs, h2, ss, h4 with
  | [r, s], .cons hr (.cons hs .nil), [r', s'], .cons hr' (.cons hs' .nil) =>
    refine ⟨r, s, r', s', h1, h3, ?_, ?_⟩
    · have hr : IsLeast (formValues (lowerSym f.Q)) r := hr
      have hs : IsLeast (formValues (lowerSym e.Q)) s := hs
      rw [e1] at hr
      rw [e2] at hs
      obtain ⟨x, hx, rfl⟩ := hs.1
      exact (hr.2 ⟨x, hx, rfl⟩).trans (subset_forms hf.2 he.2 h x).2
    · have hr' : IsGreatest (formValues (lowerSym f.Q)) r' := hr'
      have hs' : IsGreatest (formValues (lowerSym e.Q)) s' := hs'
      rw [e1] at hr'
      rw [e2] at hs'
      obtain ⟨x, hx, rfl⟩ := hr'.1
      exact ((subset_forms hf.2 he.2 h x).2).trans (hs'.2 ⟨x, hx, rfl⟩)

/-- **C101**, `trace`: it grows with the ellipsoid, and strictly if the ellipsoid does. -/
theorem C101_trace {n : ℕ} (hn : n ≠ 0) (f e : EllN n) (hf : f.PSD) (he : e.PSD) (h : f.set ⊆ e.set) (arg : ObjArg EllObj)
    (ha : arg.Is (Arr.vec [f.obj, e.obj])) :
    ∃ r s, trace arg = .ok [r, s] ∧ r ≤ s ∧ (r = s → f.set = e.set) := by
  have hne : ¬ anyEmpty (Arr.vec [f.obj, e.obj]).data := by
    rintro ⟨x, hx, h0⟩
    have hx : x ∈ [f.obj, e.obj] := hx
    simp only [List.mem_cons, List.not_mem_nil, or_false] at hx
    rcases hx with rfl | rfl <;> exact hn h0
  have ht : trace arg = .ok [∑ i, f.Q i i, ∑ i, e.Q i i] := by
    unfold trace
    rw [(C80_ok_iff _ _ _ _).mpr ha]
    simp only
    rw [if_neg hne]
    rfl
  have hform := fun x => (subset_forms hf.2 he.2 h x).2
  have hD : IsPSD (e.Q - f.Q) := by
    refine ⟨by rw [transpose_sub, he.2.1, hf.2.1], fun x => ?_⟩
    rw [sub_mulVec, dotProduct_sub]
    linarith [hform x]
  obtain ⟨S, hS, hSS⟩ := exists_root hD
  have htr : ∑ i, e.Q i i - ∑ i, f.Q i i = Matrix.trace (Sᵀ * S) := by
    rw [hS.1, hSS, Matrix.trace_sub]; rfl
  refine ⟨_, _, ht, ?_, fun heq => ?_⟩
  · have := Ellipy.MV.trace_gram_nonneg S
    linarith
  · have hS0 : S = 0 := Ellipy.MV.trace_gram_zero (by rw [← htr, heq, sub_self])
    have hQ : e.Q = f.Q := by
      rw [hS0, Matrix.mul_zero] at hSS
      exact sub_eq_zero.1 hSS.symm
    have hc : e.c = f.c := by
      have h1 := (subset_forms hf.2 he.2 h (f.c - e.c)).1
      rw [hQ] at h1
      have h2 : (f.c - e.c) ⬝ᵥ (f.c - e.c) ≤ 0 := by rw [dotProduct_sub]; linarith
      by_contra hne
      exact absurd (dot_self_pos (sub_ne_zero.2 (Ne.symm hne))) (not_lt.2 h2)
    unfold EllN.set
    rw [hQ, hc]

/-- **C101**, `rho`: the support values grow with the ellipsoid. -/
theorem C101_rho {n : ℕ} (f e : EllN n) (hf : f.PSD) (he : e.PSD) (h : f.set ⊆ e.set) (d : Arr ℝ) (l : Fin n → ℝ)
    (hd : IsDirs d [1] (fun _ : Fin 1 => l)) :
    ∃ s b r r', rho (Arr.vec [f.obj, e.obj]) d = .ok (s, b) ∧ s.data = [r, r'] ∧ r ≤ r' := by
  obtain ⟨s, b, h1, ⟨hlen, -, hv⟩, -⟩ := C40_one_dir (Arr.vec [f.obj, e.obj]) ![f, e] rfl le_rfl (by
    intro j
    fin_cases j
    · exact hf
    · exact he) d l hd
  obtain ⟨r, -, g1, s1, -⟩ := hv 0
  obtain ⟨r', -, g2, s2, -⟩ := hv 1
  have s1 : IsSupport f.set l r := s1
  have s2 : IsSupport e.set l r' := s2
  refine ⟨s, b, r, r', h1, ?_, ?_⟩
  · match hs : s.data, hlen with
    | [x, y], _ =>
      rw [hs] at g1 g2
      simp only [Fin.val_zero, Fin.val_one, List.getElem?_cons_zero, List.getElem?_cons_succ, Option.some.injEq] at g1 g2
      rw [g1, g2]
  · obtain ⟨x, hx, rfl⟩ := s1.1
    exact s2.2 ⟨x, h hx, rfl⟩

/-- The theorems apply: the disc of radius 1 lies in the ellipse with half axes 2 and 3, and the traces are 2 and 13. -/
example : ∃ f e : EllN 2, f.PSD ∧ e.PSD ∧ f.set ⊆ e.set ∧ f.set ≠ e.set ∧ trace (.many (Arr.vec [.inst f.obj, .inst e.obj])) = .ok [2, 13] := by
  have hp : ∀ a b : ℝ, 0 ≤ a → 0 ≤ b → IsPSD (diagonal ![a, b]) := fun a b ha hb => ⟨diagonal_transpose _, fun x => by
    rw [quad_diag, Fin.sum_univ_two]; simp; positivity⟩
  have h1 := hp 1 1 (by norm_num) (by norm_num)
  have h2 := hp 4 9 (by norm_num) (by norm_num)
  have hsub : Ell (0 : Fin 2 → ℝ) (diagonal ![1, 1]) ⊆ Ell 0 (diagonal ![4, 9]) := by
    intro x hx
    rw [mem_ell_sqrt h1] at hx
    rw [mem_ell_sqrt h2]
    intro m
    refine (hx m).trans ?_
    gcongr
    rw [quad_diag, quad_diag, Fin.sum_univ_two, Fin.sum_univ_two]
    simp only [cons_val_zero, cons_val_one]
    nlinarith [sq_nonneg (m 0), sq_nonneg (m 1)]
  let f : EllN 2 := ⟨0, diagonal ![1, 1], stdProps⟩
  let e : EllN 2 := ⟨0, diagonal ![4, 9], stdProps⟩
  have hf : f.PSD := ⟨stdProps_ok, h1⟩
  have he : e.PSD := ⟨stdProps_ok, h2⟩
  have harg : ∀ a b : EllObj, (ObjArg.many (Arr.vec [.inst a, .inst b])).Is (Arr.vec [a, b]) := fun a b => Or.inr ⟨_, rfl, rfl, rfl⟩
  have htr : trace (.many (Arr.vec [.inst f.obj, .inst e.obj])) = .ok [2, 13] := by
    unfold trace
    rw [(C80_ok_iff _ _ _ _).mpr (harg f.obj e.obj)]
    simp only
    rw [if_neg]
    · show Except.ok [∑ i, f.Q i i, ∑ i, e.Q i i] = _
      simp [f, e, Fin.sum_univ_two]
      norm_num
    · rintro ⟨x, hx, h0⟩
      have hx : x ∈ [f.obj, e.obj] := hx
      simp only [List.mem_cons, List.not_mem_nil, or_false] at hx
      rcases hx with rfl | rfl <;> exact two_ne_zero h0
  refine ⟨f, e, hf, he, hsub, fun heq => ?_, htr⟩
  obtain ⟨r, s, g1, g2, -⟩ := C101_trace two_ne_zero e f he hf heq.superset _ (harg e.obj f.obj)
  unfold trace at g1
  rw [(C80_ok_iff _ _ _ _).mpr (harg e.obj f.obj)] at g1
  simp only at g1
  rw [if_neg] at g1
  · have g1 : Except.ok [∑ i, e.Q i i, ∑ i, f.Q i i] = Except.ok (ε := Exc) [r, s] := g1
    simp [f, e, Fin.sum_univ_two] at g1
    linarith
  · rintro ⟨x, hx, h0⟩
    have hx : x ∈ [e.obj, f.obj] := hx
    simp only [List.mem_cons, List.not_mem_nil, or_false] at hx
    rcases hx with rfl | rfl <;> exact two_ne_zero h0

end Ellipy.Ell
