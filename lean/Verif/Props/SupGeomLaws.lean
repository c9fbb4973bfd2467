import Verif.Props.SupGeomDiff2
import Verif.Props.SupGeomDiff3

/-! Property theorems C147: laws of `sup_geom_diff_2d` and `sup_geom_diff_3d` across calls. -/

namespace Ellipy.Sup
open Matrix Ellipy.LA Ellipy.Ell Filter Topology

/-! ### Spec -/

/-- The numbers `ρ1 - ρ2` are positive, one for each direction, and the constraint of the first direction is not implied by the others. -/
def Usable {d : ℕ} (l : List (Fin d → ℝ)) (r1 r2 : List ℝ) : Prop :=
  r1.length = l.length ∧ List.Forall₂ (· < ·) r2 r1 ∧
    ∃ x : Fin d → ℝ, r1.getD 0 0 - r2.getD 0 0 < l.getD 0 0 ⬝ᵥ x ∧ ∀ i, 0 < i → i < l.length → l.getD i 0 ⬝ᵥ x ≤ r1.getD i 0 - r2.getD i 0

/-- The differences `ρ1 - ρ2`. -/
def gaps (r1 r2 : List ℝ) : List ℝ := List.zipWith (· - ·) r1 r2

/-! ### Only the differences count -/

private theorem diffArgs_gaps (d : ℕ) (sep : String) (r1 r2 r1' r2' l : Arr ℝ) (h1 : r1'.shape = r1.shape) (h2 : r2'.shape = r2.shape)
    (h : gaps r1'.data r2'.data = gaps r1.data r2.data) : diffArgs d sep r1' r2' l = diffArgs d sep r1 r2 l := by
  have l1 : r1'.data.length = r1.data.length := by rw [r1'.len, r1.len, h1]
  have l2 : r2'.data.length = r2.data.length := by rw [r2'.len, r2.len, h2]
  unfold gaps at h
  simp only [diffArgs, vecArg, h1, h2, l1, l2, h]

/-- **C147**: adding the same numbers to both lists changes nothing, not even the error: only the differences count. -/
theorem C147_common (H : Hull 2) (H3 : Hull 3) (L : Lstsq) (r1 r2 r1' r2' l : Arr ℝ) (h1 : r1'.shape = r1.shape) (h2 : r2'.shape = r2.shape)
    (h : gaps r1'.data r2'.data = gaps r1.data r2.data) :
    supGeomDiff2 H L r1' r2' l = supGeomDiff2 H L r1 r2 l ∧ supGeomDiff3 H3 r1' r2' l = supGeomDiff3 H3 r1 r2 l := by
  unfold supGeomDiff2 supGeomDiff3
  rw [diffArgs_gaps 2 _ r1 r2 r1' r2' l h1 h2 h, diffArgs_gaps 3 _ r1 r2 r1' r2' l h1 h2 h]
  exact ⟨rfl, rfl⟩

/-! ### The values in the plane -/

private theorem gaps_length {r1 r2 : List ℝ} (h : List.Forall₂ (· < ·) r2 r1) : (gaps r1 r2).length = r1.length := by
  simp [gaps, h.length_eq]

private theorem gaps_getD {r1 r2 : List ℝ} (h : List.Forall₂ (· < ·) r2 r1) (i : ℕ) : (gaps r1 r2).getD i 0 = r1.getD i 0 - r2.getD i 0 := by
  unfold gaps
  induction h generalizing i with
  | nil => simp
  | cons _ _ ih => cases i with
    | zero => simp
    | succ i => simpa using ih i

private theorem gaps_pos {r1 r2 : List ℝ} (h : List.Forall₂ (· < ·) r2 r1) : List.Forall₂ (· < ·) (List.replicate (gaps r1 r2).length 0) (gaps r1 r2) := by
  unfold gaps
  induction h with
  | nil => simp
  | cons h _ ih =>
    simp only [List.zipWith_cons_cons, List.length_cons, List.replicate_succ]
    exact .cons (by linarith) ih

private theorem gaps_zero (r : List ℝ) : gaps r (List.replicate r.length 0) = r := by
  unfold gaps
  induction r with
  | nil => rfl
  | cons a r ih => simp [List.replicate_succ, ih]

private theorem polygon (H : Hull 2) (L : Lstsq) (l : List (Fin 2 → ℝ)) (hccw : Ccw l) (h0 : (0 : Fin 2 → ℝ) ∈ interior (convexHull ℝ {x | x ∈ l}))
    {r1 r2 : List ℝ} (hU : Usable l r1 r2) :
    ∃ v : List ℝ, supGeomDiff2 (ccwHull H) L (Arr.vec r1) (Arr.vec r2) (colsArr l) = .ok (v.map .fin) ∧
      List.Forall₂ (fun c h => IsSupport (Poly l (gaps r1 r2)) c h) l v := by
  obtain ⟨h1, hpos, x, hx1, hx2⟩ := hU
  have hlen := gaps_length hpos
  have hB : List.Forall₂ (fun c ρ => IsLUB ((fun b : Fin 2 → ℝ => c ⬝ᵥ b) '' {0}) ρ) l (List.replicate (gaps r1 r2).length 0) := by
    rw [hlen, h1]
    clear hx1 hx2 hpos h1 h0 hccw hlen
    induction l with
    | nil => exact .nil
    | cons c l ih =>
      refine .cons ?_ ih
      simp
  have hz : ∀ i, (List.replicate (gaps r1 r2).length (0 : ℝ)).getD i 0 = 0 := by
    intro i
    rw [List.getD_eq_getElem?_getD, List.getElem?_replicate]
    split <;> rfl
  obtain ⟨v, hv, hs⟩ := C70_ccw_partial H L l (gaps r1 r2) (List.replicate (gaps r1 r2).length 0) {0} (hlen.trans h1) hB (gaps_pos hpos) hccw h0
    ⟨x, by rwa [gaps_getD hpos, hz, sub_zero], fun i hi hi' => by
      rw [gaps_getD hpos, hz, sub_zero]
      exact hx2 i hi hi'⟩
  refine ⟨v, ?_, ?_⟩
  · rw [← hv]
    unfold supGeomDiff2
    rw [diffArgs_gaps 2 _ (Arr.vec (gaps r1 r2)) (Arr.vec (List.replicate (gaps r1 r2).length 0)) (Arr.vec r1) (Arr.vec r2)]
    · simp [Arr.vec, hlen]
    · simp [Arr.vec, hlen, hpos.length_eq]
    · exact (gaps_zero _).symm
  · have : GeomDiff (Poly l (gaps r1 r2)) {0} = Poly l (gaps r1 r2) := by
      ext x
      simp [GeomDiff]
    rwa [this] at hs

private theorem mem_poly {d : ℕ} {l : List (Fin d → ℝ)} {r : List ℝ} (h : r.length = l.length) (x : Fin d → ℝ) :
    x ∈ Poly l r ↔ ∀ i, i < l.length → l.getD i 0 ⬝ᵥ x ≤ r.getD i 0 := by
  unfold Poly
  rw [Set.mem_setOf_eq, List.forall₂_iff_get]
  constructor
  · rintro ⟨_, h2⟩ i hi
    have := h2 i hi (h ▸ hi)
    rw [getD_get hi, getD_get (l := r) (h ▸ hi)]
    exact this
  · intro h2
    refine ⟨h.symm, fun i hi hi' => ?_⟩
    have := h2 i hi
    rw [getD_get hi, getD_get (l := r) hi'] at this
    exact this

private theorem values_rel {d : ℕ} {l : List (Fin d → ℝ)} {v v' : List ℝ} {P P' : Set (Fin d → ℝ)} {R : (Fin d → ℝ) → ℝ → ℝ → Prop}
    (h : List.Forall₂ (fun c a => IsSupport P c a) l v) (h' : List.Forall₂ (fun c a => IsSupport P' c a) l v')
    (hR : ∀ c a a', IsSupport P c a → IsSupport P' c a' → R c a a') :
    v.length = l.length ∧ v'.length = l.length ∧ ∀ i, i < l.length → R (l.getD i 0) (v.getD i 0) (v'.getD i 0) := by
  refine ⟨h.length_eq.symm, h'.length_eq.symm, fun i hi => ?_⟩
  rw [List.forall₂_iff_get] at h h'
  have a := h.2 i hi (h.1 ▸ hi)
  have b := h'.2 i hi (h'.1 ▸ hi)
  have := hR _ _ _ a b
  rw [getD_get hi, getD_get (l := v) (h.1 ▸ hi), getD_get (l := v') (h'.1 ▸ hi)]
  exact this

/-- **C147**: neither the triangulation nor the least squares routine matters, and smaller gaps give smaller values. -/
theorem C147_mono (H H' : Hull 2) (L L' : Lstsq) (l : List (Fin 2 → ℝ)) (hccw : Ccw l) (h0 : (0 : Fin 2 → ℝ) ∈ interior (convexHull ℝ {x | x ∈ l}))
    {r1 r2 s1 s2 : List ℝ} (hr : Usable l r1 r2) (hs : Usable l s1 s2)
    (hle : ∀ i, i < l.length → r1.getD i 0 - r2.getD i 0 ≤ s1.getD i 0 - s2.getD i 0) :
    ∃ v w : List ℝ, supGeomDiff2 (ccwHull H) L (Arr.vec r1) (Arr.vec r2) (colsArr l) = .ok (v.map .fin) ∧
      supGeomDiff2 (ccwHull H') L' (Arr.vec s1) (Arr.vec s2) (colsArr l) = .ok (w.map .fin) ∧ v.length = l.length ∧ w.length = l.length ∧
      ∀ i, i < l.length → v.getD i 0 ≤ w.getD i 0 := by
  obtain ⟨v, hv, hv'⟩ := polygon H L l hccw h0 hr
  obtain ⟨w, hw, hw'⟩ := polygon H' L' l hccw h0 hs
  obtain ⟨a, b, c⟩ := values_rel (R := fun _ a a' => a ≤ a') hv' hw' (by
    rintro c a a' ⟨⟨x, hx, rfl⟩, -⟩ h'
    refine h'.2 ⟨x, ?_, rfl⟩
    rw [mem_poly ((gaps_length hr.2.1).trans hr.1)] at hx
    rw [mem_poly ((gaps_length hs.2.1).trans hs.1)]
    intro i hi
    have := hx i hi
    rw [gaps_getD hr.2.1] at this
    rw [gaps_getD hs.2.1]
    linarith [hle i hi])
  exact ⟨v, w, hv, hw, a, b, c⟩

private theorem room (f g b : ℕ → ℝ) (p : ℕ → Prop) (n : ℕ) (h : ∀ j, j < n → p j → f j < b j) :
    ∃ ε : ℝ, 0 < ε ∧ ∀ j, j < n → p j → f j + ε * g j ≤ b j := by
  induction n with
  | zero => exact ⟨1, one_pos, fun j hj => absurd hj (Nat.not_lt_zero j)⟩
  | succ n ih =>
    obtain ⟨ε, h0, h1⟩ := ih fun j hj => h j (hj.trans n.lt_succ_self)
    have less : ∀ {δ : ℝ} j, 0 < δ → δ ≤ ε → j < n → p j → f j + δ * g j ≤ b j := by
      intro δ j hd hde hj hp
      have a := h1 j hj hp
      have b := h j (hj.trans n.lt_succ_self) hp
      rcases le_total (g j) 0 with hg | hg
      · nlinarith
      · nlinarith
    by_cases hp : p n
    · have hn := h n n.lt_succ_self hp
      rcases le_or_gt (g n) 0 with hg | hg
      · refine ⟨ε, h0, fun j hj hpj => ?_⟩
        rcases Nat.lt_succ_iff_lt_or_eq.1 hj with hj | rfl
        · exact h1 j hj hpj
        · nlinarith
      · refine ⟨min ε ((b n - f n) / g n), lt_min h0 (div_pos (by linarith) hg), fun j hj hpj => ?_⟩
        rcases Nat.lt_succ_iff_lt_or_eq.1 hj with hj | rfl
        · exact less j (lt_min h0 (div_pos (by linarith) hg)) (min_le_left _ _) hj hpj
        · have := (le_div_iff₀ hg).1 (min_le_right ε ((b j - f j) / g j))
          linarith
    · refine ⟨ε, h0, fun j hj hpj => ?_⟩
      rcases Nat.lt_succ_iff_lt_or_eq.1 hj with hj | rfl
      · exact h1 j hj hpj
      · exact absurd hpj hp

private theorem usable_pos {d : ℕ} {l : List (Fin d → ℝ)} {r1 r2 : List ℝ} (hr : Usable l r1 r2) : ∀ i, i < l.length → 0 < (gaps r1 r2).getD i 0 := by
  intro i hi
  obtain ⟨h1, h2, -⟩ := hr
  rw [gaps_getD h2]
  rw [List.forall₂_iff_get] at h2
  have k1 : i < r1.length := by omega
  have k2 : i < r2.length := by omega
  have : r2[i] < r1[i] := h2.2 i k2 k1
  rw [getD_get k1, getD_get k2]
  linarith

private theorem ccw_ne {l : List (Fin 2 → ℝ)} (h : Ccw l) {i : ℕ} (hi : i < l.length) : l.getD i 0 ≠ 0 := by
  obtain ⟨θ, r, h1, -⟩ := h
  obtain ⟨h2, h3⟩ := h1 i hi
  rw [getD_get hi, h3]
  intro hz
  have a := congrFun hz 0
  have b := congrFun hz 1
  simp only [cons_val_zero, cons_val_one, Pi.zero_apply] at a b
  have := Real.sin_sq_add_cos_sq (θ i)
  rcases mul_eq_zero.1 a with a | a
  · exact h2.ne' a
  · rcases mul_eq_zero.1 b with b | b
    · exact h2.ne' b
    · rw [a, b] at this
      norm_num at this

/-- **C147**: each value is positive and at most the gap, and the first one is the gap. -/
theorem C147_upper (H : Hull 2) (L : Lstsq) (l : List (Fin 2 → ℝ)) (hccw : Ccw l) (h0 : (0 : Fin 2 → ℝ) ∈ interior (convexHull ℝ {x | x ∈ l}))
    {r1 r2 : List ℝ} (hr : Usable l r1 r2) :
    ∃ v : List ℝ, supGeomDiff2 (ccwHull H) L (Arr.vec r1) (Arr.vec r2) (colsArr l) = .ok (v.map .fin) ∧ v.length = l.length ∧
      (∀ i, i < l.length → 0 < v.getD i 0 ∧ v.getD i 0 ≤ r1.getD i 0 - r2.getD i 0) ∧ v.getD 0 0 = r1.getD 0 0 - r2.getD 0 0 := by
  obtain ⟨v, hv, hv'⟩ := polygon H L l hccw h0 hr
  have hl := (gaps_length hr.2.1).trans hr.1
  obtain ⟨a, -, c⟩ := values_rel (R := fun c a _ => IsSupport (Poly l (gaps r1 r2)) c a) hv' hv' (fun _ _ _ h _ => h)
  have hgpos := usable_pos hr
  have hne : 0 < l.length := by
    rcases Nat.eq_zero_or_pos l.length with h | h
    · rw [List.length_eq_zero_iff] at h
      subst h
      simp at h0
    · exact h
  have hle : ∀ i, i < l.length → v.getD i 0 ≤ r1.getD i 0 - r2.getD i 0 := by
    intro i hi
    obtain ⟨⟨x, hx, hx'⟩, -⟩ := c i hi
    rw [mem_poly hl] at hx
    have := hx i hi
    rw [gaps_getD hr.2.1] at this
    exact hx' ▸ this
  refine ⟨v, hv, a, fun i hi => ⟨?_, hle i hi⟩, ?_⟩
  · obtain ⟨ε, e0, e1⟩ := room (fun _ => 0) (fun j => l.getD j 0 ⬝ᵥ l.getD i 0) (fun j => (gaps r1 r2).getD j 0) (fun _ => True) l.length
      (fun j hj _ => hgpos j hj)
    have hm : ε • l.getD i 0 ∈ Poly l (gaps r1 r2) := by
      rw [mem_poly hl]
      intro j hj
      have := e1 j hj trivial
      rw [dotProduct_smul, smul_eq_mul]
      linarith
    have := (c i hi).2 ⟨_, hm, rfl⟩
    simp only [dotProduct_smul, smul_eq_mul] at this
    have hp := dot_self_pos (ccw_ne hccw hi)
    nlinarith [mul_pos e0 hp]
  · refine le_antisymm (hle 0 hne) ?_
    obtain ⟨x, hx1, hx2⟩ := hr.2.2
    have g0 := hgpos 0 hne
    rw [gaps_getD hr.2.1] at g0
    set g := r1.getD 0 0 - r2.getD 0 0
    set q := l.getD 0 0 ⬝ᵥ x
    have hq : 0 < q := by linarith
    have : l.getD 0 0 ⬝ᵥ ((g / q) • x) = g := by
      rw [dotProduct_smul, smul_eq_mul, div_mul_cancel₀ _ hq.ne']
    rw [← this]
    refine (c 0 hne).2 ⟨_, ?_, rfl⟩
    rw [mem_poly hl]
    intro i hi
    rw [gaps_getD hr.2.1, dotProduct_smul, smul_eq_mul]
    rcases Nat.eq_zero_or_pos i with rfl | hi0
    · exact (div_mul_cancel₀ _ hq.ne').le
    · have h1 := hx2 i hi0 hi
      have h2 := hgpos i hi
      rw [gaps_getD hr.2.1] at h2
      have h3 : g / q ≤ 1 := by rw [div_le_one hq]; linarith
      have h4 : 0 < g / q := div_pos g0 hq
      nlinarith

/-- **C147**: multiplying both lists by a positive number multiplies the values. -/
theorem C147_scale (H H' : Hull 2) (L L' : Lstsq) (l : List (Fin 2 → ℝ)) (hccw : Ccw l) (h0 : (0 : Fin 2 → ℝ) ∈ interior (convexHull ℝ {x | x ∈ l}))
    {r1 r2 : List ℝ} (hr : Usable l r1 r2) {t : ℝ} (ht : 0 < t) :
    ∃ v : List ℝ, supGeomDiff2 (ccwHull H) L (Arr.vec r1) (Arr.vec r2) (colsArr l) = .ok (v.map .fin) ∧
      supGeomDiff2 (ccwHull H') L' (Arr.vec (r1.map (t * ·))) (Arr.vec (r2.map (t * ·))) (colsArr l) = .ok ((v.map (t * ·)).map .fin) := by
  have hz : ∀ (r : List ℝ) i, (r.map (t * ·)).getD i 0 = t * r.getD i 0 := by
    intro r i
    rw [List.getD_eq_getElem?_getD, List.getElem?_map, List.getD_eq_getElem?_getD]
    cases r[i]? <;> simp
  have hs : Usable l (r1.map (t * ·)) (r2.map (t * ·)) := by
    obtain ⟨h1, h2, x, h3, h4⟩ := hr
    refine ⟨by simpa using h1, ?_, t • x, ?_, fun i hi hi' => ?_⟩
    · rw [List.forall₂_map_left_iff, List.forall₂_map_right_iff]
      exact h2.imp fun _ _ h => by nlinarith
    · rw [hz, hz, dotProduct_smul, smul_eq_mul, ← mul_sub]
      exact mul_lt_mul_of_pos_left h3 ht
    · rw [hz, hz, dotProduct_smul, smul_eq_mul, ← mul_sub]
      exact mul_le_mul_of_nonneg_left (h4 i hi hi') ht.le
  obtain ⟨v, hv, hv'⟩ := polygon H L l hccw h0 hr
  obtain ⟨w, hw, hw'⟩ := polygon H' L' l hccw h0 hs
  have hP : ∀ x, t • x ∈ Poly l (gaps (r1.map (t * ·)) (r2.map (t * ·))) ↔ x ∈ Poly l (gaps r1 r2) := by
    intro x
    rw [mem_poly ((gaps_length hr.2.1).trans hr.1), mem_poly ((gaps_length hs.2.1).trans hs.1)]
    refine forall₂_congr fun i hi => ?_
    rw [gaps_getD hr.2.1, gaps_getD hs.2.1, hz, hz, dotProduct_smul, smul_eq_mul, ← mul_sub]
    exact mul_le_mul_iff_right₀ ht
  obtain ⟨a, b, c⟩ := values_rel (R := fun _ a a' => a' = t * a) hv' hw' (by
    intro c a a' h h'
    refine h'.unique ⟨?_, ?_⟩
    · obtain ⟨⟨x, hx, rfl⟩, -⟩ := h
      exact ⟨t • x, (hP x).2 hx, by simp only [dotProduct_smul, smul_eq_mul]⟩
    · rintro _ ⟨x, hx, rfl⟩
      have hx' : t⁻¹ • x ∈ Poly l (gaps r1 r2) := by
        rw [← hP, smul_smul, mul_inv_cancel₀ ht.ne', one_smul]
        exact hx
      have := h.2 ⟨_, hx', rfl⟩
      simp only [dotProduct_smul, smul_eq_mul] at this
      rwa [inv_mul_le_iff₀ ht] at this)
  refine ⟨v, hv, ?_⟩
  rw [hw]
  congr 2
  refine List.ext_getElem (by simp [a, b]) fun i hi hi' => ?_
  have := c i (b ▸ hi)
  rw [getD_get hi, getD_get (by rw [a, ← b]; exact hi)] at this
  simpa using this

/-- **C147**: the values of a sum of two problems are at least the sums of the values. -/
theorem C147_super (H H' H'' : Hull 2) (L L' L'' : Lstsq) (l : List (Fin 2 → ℝ)) (hccw : Ccw l) (h0 : (0 : Fin 2 → ℝ) ∈ interior (convexHull ℝ {x | x ∈ l}))
    {r1 r2 s1 s2 t1 t2 : List ℝ} (hr : Usable l r1 r2) (hs : Usable l s1 s2) (ht : Usable l t1 t2)
    (hsum : ∀ i, i < l.length → t1.getD i 0 - t2.getD i 0 = (r1.getD i 0 - r2.getD i 0) + (s1.getD i 0 - s2.getD i 0)) :
    ∃ u v w : List ℝ, supGeomDiff2 (ccwHull H) L (Arr.vec r1) (Arr.vec r2) (colsArr l) = .ok (u.map .fin) ∧
      supGeomDiff2 (ccwHull H') L' (Arr.vec s1) (Arr.vec s2) (colsArr l) = .ok (v.map .fin) ∧
      supGeomDiff2 (ccwHull H'') L'' (Arr.vec t1) (Arr.vec t2) (colsArr l) = .ok (w.map .fin) ∧ w.length = l.length ∧
      ∀ i, i < l.length → u.getD i 0 + v.getD i 0 ≤ w.getD i 0 := by
  obtain ⟨u, hu, hu'⟩ := polygon H L l hccw h0 hr
  obtain ⟨v, hv, hv'⟩ := polygon H' L' l hccw h0 hs
  obtain ⟨w, hw, hw'⟩ := polygon H'' L'' l hccw h0 ht
  obtain ⟨-, -, a⟩ := values_rel (R := fun c a _ => IsSupport (Poly l (gaps r1 r2)) c a) hu' hu' (fun _ _ _ h _ => h)
  obtain ⟨-, wl, b⟩ := values_rel (R := fun c a a' => IsSupport (Poly l (gaps s1 s2)) c a ∧ IsSupport (Poly l (gaps t1 t2)) c a') hv' hw'
    (fun _ _ _ h h' => ⟨h, h'⟩)
  refine ⟨u, v, w, hu, hv, hw, wl, fun i hi => ?_⟩
  obtain ⟨⟨x, hx, hx'⟩, -⟩ := a i hi
  obtain ⟨⟨⟨y, hy, hy'⟩, -⟩, h3⟩ := b i hi
  rw [← hx', ← hy']
  simp only
  rw [← dotProduct_add]
  refine h3.2 ⟨_, ?_, rfl⟩
  rw [mem_poly ((gaps_length hr.2.1).trans hr.1)] at hx
  rw [mem_poly ((gaps_length hs.2.1).trans hs.1)] at hy
  rw [mem_poly ((gaps_length ht.2.1).trans ht.1)]
  intro j hj
  have hxj := hx j hj
  have hyj := hy j hj
  rw [gaps_getD hr.2.1] at hxj
  rw [gaps_getD hs.2.1] at hyj
  rw [gaps_getD ht.2.1, hsum j hj, dotProduct_add]
  linarith

/-- **C147**: moving the first body by `a` moves the values. -/
theorem C147_shift (H H' : Hull 2) (L L' : Lstsq) (l : List (Fin 2 → ℝ)) (hccw : Ccw l) (h0 : (0 : Fin 2 → ℝ) ∈ interior (convexHull ℝ {x | x ∈ l}))
    {r1 r2 s1 s2 : List ℝ} (hr : Usable l r1 r2) (hs : Usable l s1 s2) (p : Fin 2 → ℝ)
    (hp : ∀ i, i < l.length → s1.getD i 0 - s2.getD i 0 = (r1.getD i 0 - r2.getD i 0) + l.getD i 0 ⬝ᵥ p) :
    ∃ v w : List ℝ, supGeomDiff2 (ccwHull H) L (Arr.vec r1) (Arr.vec r2) (colsArr l) = .ok (v.map .fin) ∧
      supGeomDiff2 (ccwHull H') L' (Arr.vec s1) (Arr.vec s2) (colsArr l) = .ok (w.map .fin) ∧ w.length = l.length ∧
      ∀ i, i < l.length → w.getD i 0 = v.getD i 0 + l.getD i 0 ⬝ᵥ p := by
  obtain ⟨v, hv, hv'⟩ := polygon H L l hccw h0 hr
  obtain ⟨w, hw, hw'⟩ := polygon H' L' l hccw h0 hs
  have hP : ∀ x, x + p ∈ Poly l (gaps s1 s2) ↔ x ∈ Poly l (gaps r1 r2) := by
    intro x
    rw [mem_poly ((gaps_length hr.2.1).trans hr.1), mem_poly ((gaps_length hs.2.1).trans hs.1)]
    refine forall₂_congr fun i hi => ?_
    rw [gaps_getD hr.2.1, gaps_getD hs.2.1, hp i hi, dotProduct_add]
    exact add_le_add_iff_right _
  obtain ⟨-, b, c⟩ := values_rel (R := fun c a a' => a' = a + c ⬝ᵥ p) hv' hw' (by
    intro c a a' h h'
    refine h'.unique ⟨?_, ?_⟩
    · obtain ⟨⟨x, hx, rfl⟩, -⟩ := h
      exact ⟨x + p, (hP x).2 hx, by simp only [dotProduct_add]⟩
    · rintro _ ⟨x, hx, rfl⟩
      have hx' : x - p ∈ Poly l (gaps r1 r2) := by
        rw [← hP, sub_add_cancel]
        exact hx
      have := h.2 ⟨_, hx', rfl⟩
      simp only [dotProduct_sub] at this
      simp only
      linarith)
  exact ⟨v, w, hv, hw, b, c⟩

private theorem ccw_back {l : List (Fin 2 → ℝ)} (h : Ccw l) {i : ℕ} (hi0 : 0 < i) (hi : i < l.length)
    (hc : l.getD i 0 0 * l.getD 0 0 1 - l.getD i 0 1 * l.getD 0 0 0 = 0) : l.getD i 0 ⬝ᵥ l.getD 0 0 < 0 := by
  obtain ⟨θ, r, h1, h2⟩ := h
  obtain ⟨p1, e1⟩ := h1 i hi
  obtain ⟨p0, e0⟩ := h1 0 (hi0.trans hi)
  obtain ⟨t1, t2⟩ := h2 0 i hi0 hi
  rw [getD_get hi, getD_get (hi0.trans hi), e1, e0] at hc ⊢
  simp only [cons_val_zero, cons_val_one, dotProduct, Fin.sum_univ_two] at hc ⊢
  have hs : Real.sin (θ i - θ 0) = 0 := by
    have : r i * r 0 * Real.sin (θ i - θ 0) = 0 := by
      rw [Real.sin_sub]
      linarith
    rcases mul_eq_zero.1 this with h | h
    · exact absurd h (mul_pos p1 p0).ne'
    · exact h
  have hcos : Real.cos (θ i - θ 0) = -1 := by
    have hq : θ i - θ 0 = Real.pi := by
      by_contra hne
      rcases lt_or_gt_of_ne hne with h | h
      · exact (Real.sin_pos_of_pos_of_lt_pi (by linarith) h).ne' hs
      · have : 0 < Real.sin (θ i - θ 0 - Real.pi) := Real.sin_pos_of_pos_of_lt_pi (by linarith) (by linarith)
        rw [Real.sin_sub_pi, hs] at this
        norm_num at this
    rw [hq, Real.cos_pi]
  rw [Real.cos_sub] at hcos
  nlinarith [mul_pos p1 p0]

/-- **C147**: applying the function to its own values, with nothing to subtract, returns them unchanged. -/
theorem C147_again (H H' : Hull 2) (L L' : Lstsq) (l : List (Fin 2 → ℝ)) (hccw : Ccw l) (h0 : (0 : Fin 2 → ℝ) ∈ interior (convexHull ℝ {x | x ∈ l}))
    {r1 r2 : List ℝ} (hr : Usable l r1 r2) :
    ∃ v : List ℝ, supGeomDiff2 (ccwHull H) L (Arr.vec r1) (Arr.vec r2) (colsArr l) = .ok (v.map .fin) ∧
      supGeomDiff2 (ccwHull H') L' (Arr.vec v) (Arr.vec (List.replicate v.length 0)) (colsArr l) = .ok (v.map .fin) := by
  obtain ⟨v, hv, hlen, hb, hfst⟩ := C147_upper H L l hccw h0 hr
  obtain ⟨v', hv', hsup⟩ := polygon H L l hccw h0 hr
  have hvv : v' = v := by
    rw [hv] at hv'
    injection hv' with hv'
    exact (List.map_injective_iff.2 (fun a b h => by injection h) hv').symm
  subst hvv
  have hl := (gaps_length hr.2.1).trans hr.1
  have hg := usable_pos hr
  obtain ⟨-, -, c⟩ := values_rel (R := fun c a _ => IsSupport (Poly l (gaps r1 r2)) c a) hsup hsup (fun _ _ _ h _ => h)
  have hz : ∀ i, (List.replicate v'.length (0 : ℝ)).getD i 0 = 0 := by
    intro i
    rw [List.getD_eq_getElem?_getD, List.getElem?_replicate]
    split <;> rfl
  have hne : 0 < l.length := by
    rcases Nat.eq_zero_or_pos l.length with h | h
    · rw [List.length_eq_zero_iff] at h
      subst h
      simp at h0
    · exact h
  have hU : Usable l v' (List.replicate v'.length 0) := by
    refine ⟨hlen, ?_, ?_⟩
    · rw [List.forall₂_iff_get]
      refine ⟨by simp, fun i hi hi' => ?_⟩
      have := (hb i (hlen ▸ hi')).1
      rw [getD_get hi'] at this
      simpa using this
    · obtain ⟨x, hx1, hx2⟩ := hr.2.2
      have g0 := hg 0 hne
      rw [gaps_getD hr.2.1] at g0
      set g := r1.getD 0 0 - r2.getD 0 0
      set q := l.getD 0 0 ⬝ᵥ x
      have hq : 0 < q := by linarith
      have hq1 : g / q < 1 := by rw [div_lt_one hq]; exact hx1
      have hq0 : 0 < g / q := div_pos g0 hq
      set y := (g / q) • x
      have hy0 : l.getD 0 0 ⬝ᵥ y = g := by
        rw [dotProduct_smul, smul_eq_mul, div_mul_cancel₀ _ hq.ne']
      have hyi : ∀ i, i < l.length → 0 < i → l.getD i 0 ⬝ᵥ y < (gaps r1 r2).getD i 0 := by
        intro i hi hi0
        have h1 := hx2 i hi0 hi
        have h2 := hg i hi
        rw [gaps_getD hr.2.1] at h2 ⊢
        rw [dotProduct_smul, smul_eq_mul]
        nlinarith
      clear_value y
      set d : Fin 2 → ℝ := ![l.getD 0 0 1, -l.getD 0 0 0]
      have hd0 : l.getD 0 0 ⬝ᵥ d = 0 := by
        simp only [dotProduct, Fin.sum_univ_two, d, cons_val_zero, cons_val_one]
        ring
      have strict : ∀ i, i < l.length → 0 < i → l.getD i 0 ⬝ᵥ y < v'.getD i 0 := by
        intro i hi hi0
        set m := l.getD i 0 ⬝ᵥ d
        by_cases hm : m = 0
        · have hback := ccw_back hccw hi0 hi (by
            rw [← hm]
            simp only [m, dotProduct, Fin.sum_univ_two, d, cons_val_zero, cons_val_one]
            ring)
          have h00 := dot_self_pos (ccw_ne hccw hne)
          have key : (l.getD 0 0 ⬝ᵥ l.getD 0 0) * (l.getD i 0 ⬝ᵥ y) = (l.getD i 0 ⬝ᵥ l.getD 0 0) * (l.getD 0 0 ⬝ᵥ y) + m * (d ⬝ᵥ y) := by
            simp only [m, dotProduct, Fin.sum_univ_two, d, cons_val_zero, cons_val_one]
            ring
          rw [hm, hy0] at key
          have hneg : (l.getD i 0 ⬝ᵥ l.getD 0 0) * g < 0 := mul_neg_of_neg_of_pos hback g0
          have : l.getD i 0 ⬝ᵥ y < 0 := by
            by_contra h
            push Not at h
            nlinarith [mul_nonneg h00.le h]
          linarith [(hb i hi).1]
        · obtain ⟨ε, e0, e1⟩ := room (fun j => l.getD j 0 ⬝ᵥ y) (fun j => m * (l.getD j 0 ⬝ᵥ d)) (fun j => (gaps r1 r2).getD j 0) (fun j => 0 < j) l.length
            (fun j hj hj0 => hyi j hj hj0)
          have hmem : y + (ε * m) • d ∈ Poly l (gaps r1 r2) := by
            rw [mem_poly hl]
            intro j hj
            rw [dotProduct_add, dotProduct_smul, smul_eq_mul]
            rcases Nat.eq_zero_or_pos j with rfl | hj0
            · rw [hd0, hy0, mul_zero, add_zero, gaps_getD hr.2.1]
            · have := e1 j hj hj0
              linarith
          have := (c i hi).2 ⟨_, hmem, rfl⟩
          simp only [dotProduct_add, dotProduct_smul, smul_eq_mul] at this
          have hm2 : 0 < ε * (m * m) := mul_pos e0 (mul_self_pos.2 hm)
          linarith
      obtain ⟨ε, e0, e1⟩ := room (fun j => l.getD j 0 ⬝ᵥ y) (fun j => l.getD j 0 ⬝ᵥ y) (fun j => v'.getD j 0) (fun j => 0 < j) l.length
        (fun j hj hj0 => strict j hj hj0)
      refine ⟨y + ε • y, ?_, fun i hi0 hi => ?_⟩
      · rw [hz, sub_zero, hfst, dotProduct_add, dotProduct_smul, smul_eq_mul, hy0]
        nlinarith
      · rw [hz, sub_zero, dotProduct_add, dotProduct_smul, smul_eq_mul]
        exact e1 i hi hi0
  refine ⟨v', hv, ?_⟩
  obtain ⟨w, hw, hw'⟩ := polygon H' L' l hccw h0 hU
  have hP : Poly l (gaps v' (List.replicate v'.length 0)) = Poly l (gaps r1 r2) := by
    rw [gaps_zero]
    ext x
    rw [mem_poly hlen, mem_poly hl]
    constructor
    · intro h i hi
      rw [gaps_getD hr.2.1]
      exact (h i hi).trans (hb i hi).2
    · intro h i hi
      exact (c i hi).2 ⟨x, (mem_poly hl x).2 h, rfl⟩
  rw [hP] at hw'
  obtain ⟨a, b, e⟩ := values_rel (R := fun _ a a' => a' = a) hsup hw' (fun _ _ _ h h' => h'.unique h)
  rw [hw]
  congr 2
  refine List.ext_getElem (by rw [a, b]) fun i hi hi' => ?_
  have := e i (b ▸ hi)
  rwa [getD_get hi, getD_get hi'] at this

/-- A concrete case with a superfluous direction in the second place: its value is smaller than the gap `10`, and the hypotheses hold. -/
example : ∃ (H : Hull 2) (L : Lstsq) (v : List ℝ), Usable midDirs [2, 12, 2, 2, 2] [1, 2, 1, 1, 1] ∧
    supGeomDiff2 (ccwHull H) L (Arr.vec [2, 12, 2, 2, 2]) (Arr.vec [1, 2, 1, 1, 1]) (colsArr midDirs) = .ok (v.map .fin) ∧
    supGeomDiff2 (ccwHull H) L (Arr.vec v) (Arr.vec (List.replicate v.length 0)) (colsArr midDirs) = .ok (v.map .fin) := by
  obtain ⟨H⟩ := nonempty_hull 2
  obtain ⟨L⟩ := nonempty_lstsq
  have h0 : (0 : Fin 2 → ℝ) ∈ interior (convexHull ℝ {x | x ∈ midDirs}) := by
    have hm : ∀ x ∈ midDirs, x ∈ convexHull ℝ {x | x ∈ midDirs} := fun x hx => subset_convexHull ℝ _ hx
    exact interior_axes (convex_convexHull ℝ _) (hm _ (by simp [midDirs])) (hm _ (by simp [midDirs])) (hm _ (by simp [midDirs]))
      (hm _ (by simp [midDirs]))
  have hU : Usable midDirs [2, 12, 2, 2, 2] [1, 2, 1, 1, 1] := by
    refine ⟨rfl, ?_, ![2, 0], by norm_num [midDirs], fun i h0 hi => ?_⟩
    · refine .cons ?_ (.cons ?_ (.cons ?_ (.cons ?_ (.cons ?_ .nil)))) <;> norm_num
    · have hi : i < 5 := hi
      interval_cases i <;> norm_num [midDirs]
  obtain ⟨v, h1, h2⟩ := C147_again H H L L midDirs midDirs_ccw h0 hU
  exact ⟨H, L, v, hU, h1, h2⟩

end Ellipy.Sup
