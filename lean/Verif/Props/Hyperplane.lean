import Verif.Proofs.IsEqual
import Verif.Spec.Hyperplane

/-! Property theorems C37, C39 (hyperplanes), C50, C61. -/

namespace Ellipy.Hyp
open Ellipy.Ell

variable {lk : List (PyVal ℝ) → Kind} {fmt : Fmt ℝ}

theorem mk_ofList {n : ℕ} {u : Fin n → ℝ} {l : List ℝ} (hl : l = List.ofFn u) (s a r : ℝ) :
    (⟨l.length, l.get, s, a, r⟩ : HypObj) = ⟨n, u, s, a, r⟩ := by
  have hn : l.length = n := by rw [hl, List.length_ofFn]
  subst hn
  congr 1
  funext i
  have : l.get i = (List.ofFn u).get (Fin.cast (by rw [List.length_ofFn]) i) := by
    simp only [List.get_eq_getElem, Fin.val_cast]
    congr 1
  rw [this]
  simp

theorem eps_pos : 0 < eps := by unfold eps; positivity

theorem setNormal_real (a : Arr CX) (hs : a.shape = [a.data.length]) (him : ∀ z ∈ a.data, z.im = .fin 0) :
    setNormal (.arr a) = open Classical in if ∀ z ∈ a.data, z.re.isFinite = true then .ok (a.data.map (fun z => z.re.toK))
      else throwErr "wrongInput:normal_vec" := by
  classical
  have h1 : tryTreatAsReal a eps = .ok (a.data.map CX.re) := by
    unfold tryTreatAsReal
    rw [if_neg (not_not.2 eps_pos), if_pos him]
  have h2 : a.shape.max? = some a.data.length := by rw [hs]; rfl
  simp only [setNormal, h1, h2, List.length_map, ne_eq, not_true_eq_false, if_false]
  by_cases hf : ∀ z ∈ a.data, z.re.isFinite = true
  · rw [if_pos hf, if_neg (not_not.2 (by simpa using hf)), List.map_map]; rfl
  · rw [if_neg hf, if_pos (by simpa using hf)]

theorem setShift_real (x : XF ℝ) : setShift (.scal ⟨x, .fin 0⟩) =
    if x.isFinite = true then .ok x.toK else throwErr "wrongInput:shift" := by
  have : tryTreatAsRealScal ⟨x, .fin 0⟩ eps = .ok x := by
    unfold tryTreatAsRealScal
    rw [if_neg (not_not.2 eps_pos), if_pos rfl]
  simp only [setShift, this]

/-- The constructor on a float64 vector and a float64 number. -/
theorem hypNew_real {n : ℕ} (u : Fin n → ℝ) (s : ℝ) {t : Tols} (ht : t.ok) :
    hypNew (.arr (encVec u)) (.scal ⟨.fin s, .fin 0⟩) t = .ok ⟨n, u, s, t.absTol, t.relTol⟩ := by
  have h1 : setNormal (.arr (encVec u)) = .ok (List.ofFn u) := by
    rw [setNormal_real _ (by simp [encVec]) (by simp [encVec]), if_pos (by simp [encVec, XF.isFinite])]
    congr 1
    simp [encVec, List.map_ofFn, Function.comp_def, XF.toK]
  have h2 : setShift (.scal ⟨.fin s, .fin 0⟩) = .ok s := by rw [setShift_real]; rfl
  unfold hypNew
  rw [if_neg (not_not.2 ht), h1]
  simp only [h2]
  rw [mk_ofList rfl]

theorem reshape_ok {β : Type} {l : List β} {sh : List ℕ} (h : l.length = sh.foldr (· * ·) 1) :
    reshape l sh = .ok ⟨sh, l, h⟩ := by unfold reshape; rw [dif_pos h]

theorem reshape_shape {β : Type} {l : List β} {sh : List ℕ} {r : Arr β} (h : reshape l sh = .ok r) : r.shape = sh ∧ r.data = l := by
  unfold reshape at h
  split_ifs at h with hl
  cases h; exact ⟨rfl, rfl⟩

/-! Copies. -/

/-- **C37** (hyperplanes; partial).  `get_copy` returns hyperplanes with the same normals, shifts and absolute tolerances; the relative tolerance of
the copies is the current setting of the library (see `C37_hyp_violation`).  The array has the same shape, except that one of a single element loses its
dimensions. -/
theorem C37_hyp_get_copy_partial {dflt : Tols} (hd : dflt.ok) (hs : Arr HypObj) (ht : ∀ h ∈ hs.data, h.tols.ok) :
    ∃ r, getCopy dflt hs = .ok r ∧ (hs.data.length ≠ 1 → r.shape = hs.shape) ∧
      List.Forall₂ (fun h c : HypObj => ∃ e : c.n = h.n, (∀ i, c.nrm i = h.nrm (Fin.cast e i)) ∧ c.shift = h.shift ∧
        c.absTol = h.absTol ∧ c.relTol = dflt.relTol) hs.data r.data := by
  have hF : ∀ l : List HypObj, List.Forall₂ (fun h c : HypObj => ∃ e : c.n = h.n, (∀ i, c.nrm i = h.nrm (Fin.cast e i)) ∧
      c.shift = h.shift ∧ c.absTol = h.absTol ∧ c.relTol = dflt.relTol) l (l.map (fun h => { h with relTol := dflt.relTol })) := by
    intro l
    induction l with
    | nil => exact .nil
    | cons x xs ih => exact .cons ⟨rfl, fun i => rfl, rfl, rfl, rfl⟩ ih
  by_cases h0 : hs.data.length = 0
  · refine ⟨hs, by unfold getCopy; rw [if_pos h0], fun _ => rfl, ?_⟩
    rw [List.eq_nil_of_length_eq_zero h0]; exact .nil
  have hm : pyMap (copyOne dflt) hs.data = .ok (hs.data.map (fun h => { h with relTol := dflt.relTol })) := by
    apply pyMap_ok
    intro h hh
    unfold copyOne
    rw [hypNew_real]
    exact ⟨(ht h hh).1, hd.2⟩
  by_cases h1 : hs.data.length = 1
  · have hl : (hs.data.map (fun h => ({ h with relTol := dflt.relTol } : HypObj))).length = ([] : List ℕ).foldr (· * ·) 1 := by
      simpa using h1
    refine ⟨⟨[], _, hl⟩, ?_, fun h => absurd h1 h, hF _⟩
    simp only [getCopy, if_neg h0, hm, if_pos h1, reshape_ok hl]
  · have hl : (hs.data.map (fun h => ({ h with relTol := dflt.relTol } : HypObj))).length = hs.shape.foldr (· * ·) 1 := by
      simpa using hs.len
    refine ⟨⟨hs.shape, _, hl⟩, ?_, fun _ => rfl, hF _⟩
    simp only [getCopy, if_neg h0, hm, if_neg h1, reshape_ok hl]

/-- **C37** (hyperplanes, `rep_mat` and `from_rep_mat`; partial): the array has the requested shape and every entry has the normal, the shift and
the absolute tolerance of the original. -/
theorem C37_hyp_rep_mat_partial {dflt : Tols} (hd : dflt.ok) {h : HypObj} (ht : h.tols.ok) {shape : List ℤ} (hne : shape ≠ [])
    (hpos : ∀ k ∈ shape, 0 ≤ k) :
    ∃ r, repMat dflt h shape = .ok r ∧ r.shape.map Int.ofNat = shape ∧
      ∀ c ∈ r.data, ∃ e : c.n = h.n, (∀ i, c.nrm i = h.nrm (Fin.cast e i)) ∧ c.shift = h.shift ∧
        c.absTol = h.absTol ∧ c.relTol = dflt.relTol := by
  have hm : ∀ k, pyMap (copyOne dflt) (List.replicate k h) = .ok (List.replicate k { h with relTol := dflt.relTol }) := by
    intro k
    rw [show List.replicate k ({ h with relTol := dflt.relTol } : HypObj) =
      (List.replicate k h).map (fun h => { h with relTol := dflt.relTol }) by simp]
    apply pyMap_ok
    intro x hx
    rw [(List.mem_replicate.1 hx).2]
    unfold copyOne
    rw [hypNew_real]
    exact ⟨ht.1, hd.2⟩
  refine ⟨⟨shape.map Int.toNat, List.replicate _ { h with relTol := dflt.relTol }, List.length_replicate⟩, ?_, ?_, ?_⟩
  · unfold repMat
    rw [if_neg hne, if_neg (not_not.2 hpos)]
    simp only [hm, reshape_ok List.length_replicate]
  · rw [List.map_map]
    conv_rhs => rw [← List.map_id shape]
    apply List.map_congr_left
    intro k hk
    exact Int.toNat_of_nonneg (hpos k hk)
  · intro c hc
    rw [(List.mem_replicate.1 hc).2]
    exact ⟨rfl, fun i => rfl, rfl, rfl, rfl⟩

/-- **C37 is violated for hyperplanes.**  A copy does not keep a relative tolerance that differs from the current setting. -/
theorem C37_hyp_violation : ∃ (dflt : Tols) (h : HypObj), dflt.ok ∧ h.tols.ok ∧
    ∃ c, getCopy dflt (Arr.vec [h]) = .ok (Arr.scalar c) ∧ c.relTol ≠ h.relTol := by
  refine ⟨⟨1 / 10, 1 / 100⟩, ⟨1, fun _ => 1, 2, 1 / 10, 1 / 2⟩, ⟨by norm_num, by norm_num⟩,
    ⟨by show (0 : ℝ) < 1 / 10; norm_num, by show (0 : ℝ) < 1 / 2; norm_num⟩, ⟨1, fun _ => 1, 2, 1 / 10, 1 / 100⟩, ?_, by norm_num⟩
  have : copyOne ⟨1 / 10, 1 / 100⟩ ⟨1, fun _ => 1, 2, 1 / 10, 1 / 2⟩ = .ok ⟨1, fun _ => 1, 2, 1 / 10, 1 / 100⟩ := by
    unfold copyOne
    rw [hypNew_real]
    exact ⟨by norm_num, by norm_num⟩
  simp only [getCopy, Arr.vec, List.length_singleton, one_ne_zero, if_false, pyMap, this, if_true]
  rfl

/-! Unary minus. -/

theorem uminusOne_ok {dflt : Tols} (hd : dflt.ok) (h : HypObj) :
    uminusOne dflt h = .ok ⟨h.n, -h.nrm, -h.shift, dflt.absTol, dflt.relTol⟩ := hypNew_real _ _ hd

/-- The array version of a method that works on each object. -/
theorem uminus_ok {dflt : Tols} (hd : dflt.ok) (hs : Arr HypObj) :
    ∃ r, uminus dflt hs = .ok r ∧ r.shape = hs.shape ∧
      r.data = hs.data.map (fun h => ⟨h.n, -h.nrm, -h.shift, dflt.absTol, dflt.relTol⟩) := by
  have hl : (hs.data.map (fun h : HypObj => (⟨h.n, -h.nrm, -h.shift, dflt.absTol, dflt.relTol⟩ : HypObj))).length =
    hs.shape.foldr (· * ·) 1 := by simpa using hs.len
  refine ⟨⟨hs.shape, _, hl⟩, ?_, rfl, rfl⟩
  simp only [uminus, pyMap_ok fun h _ => uminusOne_ok hd h, reshape_ok hl]

/-- **C39** (hyperplanes; partial).  Unary minus negates the normal and the shift of every hyperplane of the array.  The set stays the same; it is the
reflected set when the shift is zero. -/
theorem C39_hyp_partial {dflt : Tols} (hd : dflt.ok) (hs : Arr HypObj) :
    ∃ r, uminus dflt hs = .ok r ∧ r.shape = hs.shape ∧ List.Forall₂ (fun h g : HypObj =>
      g = ⟨h.n, fun i => -h.nrm i, -h.shift, dflt.absTol, dflt.relTol⟩ ∧ ∃ e : g.n = h.n,
      (∀ x, x ∈ g.set ↔ (fun i => x (Fin.cast e.symm i)) ∈ h.set) ∧
      (h.shift = 0 → ∀ x, x ∈ g.set ↔ (fun i => -x (Fin.cast e.symm i)) ∈ h.set)) hs.data r.data := by
  obtain ⟨r, h1, h2, h3⟩ := uminus_ok hd hs
  refine ⟨r, h1, h2, ?_⟩
  rw [h3, List.forall₂_map_right_iff]
  refine List.forall₂_same.mpr fun h _ => ⟨rfl, rfl, ?_, ?_⟩
  · intro x
    show ∑ i, -h.nrm i * x i = -h.shift ↔ ∑ i, h.nrm i * x i = h.shift
    simp only [neg_mul, Finset.sum_neg_distrib, neg_inj]
  · intro h0 x
    show ∑ i, -h.nrm i * x i = -h.shift ↔ ∑ i, h.nrm i * -x i = h.shift
    simp only [neg_mul, mul_neg, h0, neg_zero]

/-- **C39** (hyperplanes, twice): applying unary minus twice gives back the normals and the shifts; after one application they are negated. -/
theorem C39_hyp_involution {dflt : Tols} (hd : dflt.ok) (hs : Arr HypObj) :
    ∃ r r', uminus dflt hs = .ok r ∧ uminus dflt r = .ok r' ∧ r'.shape = hs.shape ∧
      r.data.map HypObj.shift = hs.data.map (fun h => -h.shift) ∧
      r'.data = hs.data.map (fun h => ⟨h.n, h.nrm, h.shift, dflt.absTol, dflt.relTol⟩) := by
  obtain ⟨r, h1, h2, h3⟩ := uminus_ok hd hs
  obtain ⟨r', h4, h5, h6⟩ := uminus_ok hd r
  refine ⟨r, r', h1, h4, h5.trans h2, ?_, ?_⟩
  · rw [h3, List.map_map]; rfl
  · rw [h6, h3, List.map_map]
    refine List.map_congr_left fun h _ => ?_
    simp only [Function.comp_apply, neg_neg]

/-- **C39** (hyperplanes, exactly): for a non-zero normal the result is the reflected set only if the shift is zero. -/
theorem C39_hyp_only {dflt : Tols} (hd : dflt.ok) (h : HypObj) (hn : ∃ i, h.nrm i ≠ 0) :
    ∃ g, uminusOne dflt h = .ok g ∧ g.shift = -h.shift ∧ ∃ e : g.n = h.n, (∀ i, g.nrm i = -h.nrm (Fin.cast e i)) ∧
      ((∀ x, x ∈ g.set ↔ (fun i => -x (Fin.cast e.symm i)) ∈ h.set) ↔ h.shift = 0) := by
  classical
  refine ⟨_, uminusOne_ok hd h, rfl, rfl, fun _ => rfl, ⟨fun hall => ?_, fun h0 x => ?_⟩⟩
  · obtain ⟨i0, hi0⟩ := hn
    have key : ∑ i, h.nrm i * (Pi.single i0 (h.shift / h.nrm i0) : Fin h.n → ℝ) i = h.shift := by
      rw [Finset.sum_eq_single i0]
      · simp [mul_div_cancel₀ _ hi0]
      · intro j _ hj; simp [hj]
      · simp
    have h1 := (hall (Pi.single i0 (h.shift / h.nrm i0) : Fin h.n → ℝ)).1 (by
      show ∑ i, -h.nrm i * _ = -h.shift
      simp only [neg_mul, Finset.sum_neg_distrib, neg_inj]
      exact key)
    have h2 : ∑ i, h.nrm i * -((Pi.single i0 (h.shift / h.nrm i0) : Fin h.n → ℝ) i) = h.shift := h1
    simp only [mul_neg, Finset.sum_neg_distrib, key] at h2
    linarith
  · show ∑ i, -h.nrm i * x i = -h.shift ↔ ∑ i, h.nrm i * -x i = h.shift
    simp only [neg_mul, mul_neg, h0, neg_zero]

/-- **C39 is violated for hyperplanes**: the reflection of `{x = 1}` is `{x = -1}`, but the result is `{x = 1}`; and the tolerances are lost. -/
theorem C39_hyp_violation : ∃ (dflt : Tols) (h g : HypObj), dflt.ok ∧ h.tols.ok ∧ uminusOne dflt h = .ok g ∧
    (∃ e : g.n = h.n, ∃ x, x ∈ g.set ∧ (fun i => -x (Fin.cast e.symm i)) ∉ h.set) ∧ g.absTol ≠ h.absTol ∧ g.relTol ≠ h.relTol := by
  refine ⟨⟨1 / 10, 1 / 100⟩, ⟨1, fun _ => 1, 1, 1 / 2, 1 / 3⟩, _, ⟨by norm_num, by norm_num⟩,
    ⟨by show (0 : ℝ) < 1 / 2; norm_num, by show (0 : ℝ) < 1 / 3; norm_num⟩, uminusOne_ok ⟨by norm_num, by norm_num⟩ _,
    ⟨rfl, fun _ => 1, ?_, ?_⟩, by norm_num, by norm_num⟩
  · show ∑ i : Fin 1, -(1 : ℝ) * 1 = -1
    simp
  · show ¬ ∑ i : Fin 1, (1 : ℝ) * -1 = 1
    simp; norm_num

/-- **C37**, a concrete case: a column of two hyperplanes of different dimensions. -/
example : ∃ r, getCopy ⟨1 / 10, 1 / 7⟩ ⟨[2, 1], [⟨2, ![3, 4], 5, 1 / 2, 1 / 3⟩, ⟨1, ![1], 0, 1, 1⟩], rfl⟩ = .ok r ∧ r.shape = [2, 1] ∧
    List.Forall₂ (fun h c : HypObj => ∃ e : c.n = h.n, (∀ i, c.nrm i = h.nrm (Fin.cast e i)) ∧ c.shift = h.shift ∧
      c.absTol = h.absTol ∧ c.relTol = 1 / 7) [⟨2, ![3, 4], 5, 1 / 2, 1 / 3⟩, ⟨1, ![1], 0, 1, 1⟩] r.data := by
  obtain ⟨r, h1, h2, h3⟩ := C37_hyp_get_copy_partial (dflt := ⟨1 / 10, 1 / 7⟩) ⟨by norm_num, by norm_num⟩
    ⟨[2, 1], [⟨2, ![3, 4], 5, 1 / 2, 1 / 3⟩, ⟨1, ![1], 0, 1, 1⟩], rfl⟩ (by
      intro h hh
      simp only [List.mem_cons, List.not_mem_nil, or_false] at hh
      rcases hh with rfl | rfl
      · exact ⟨by norm_num [HypObj.tols], by norm_num [HypObj.tols]⟩
      · exact ⟨by norm_num [HypObj.tols], by norm_num [HypObj.tols]⟩)
  exact ⟨r, h1, h2 (by simp), h3⟩

/-- **C39**, a concrete case: the line `3 x₀ + 4 x₁ = 5` is not reflected. -/
example : ∃ g, uminusOne ⟨1, 1⟩ ⟨2, ![3, 4], 5, 1 / 2, 1 / 3⟩ = .ok g ∧ ∃ e : g.n = 2,
    ¬ ∀ x, x ∈ g.set ↔ (fun i => -x (Fin.cast e.symm i)) ∈ HypObj.set ⟨2, ![3, 4], 5, 1 / 2, 1 / 3⟩ := by
  obtain ⟨g, h1, -, e, -, h2⟩ := C39_hyp_only (dflt := ⟨1, 1⟩) ⟨one_pos, one_pos⟩ ⟨2, ![3, 4], 5, 1 / 2, 1 / 3⟩ ⟨(0 : Fin 2), by
    show (3 : ℝ) ≠ 0; norm_num⟩
  exact ⟨g, h1, e, fun h => absurd (h2.mp h) (by norm_num)⟩

end Ellipy.Hyp
