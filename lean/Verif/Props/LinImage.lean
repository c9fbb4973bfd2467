import Verif.Proofs.LinImage
import Verif.Props.IsInternal
import Verif.Props.IsBigger
import Verif.Props.EllEigs
import Verif.Props.BrunnMinkowski
import Verif.Props.PolarDual

/-! C120: what the functions return for images of ellipsoids under linear maps, in particular for turned and mirrored ellipsoids. -/

namespace Ellipy.Ell
open Matrix Ellipy.LA

/-- **C120**: the image ellipsoid is the image of the set. -/
theorem C120_set {n m : ℕ} (A : Matrix (Fin m) (Fin n) ℝ) (e : EllN n) (he : e.PSD) : (e.image A).set = (fun x => A *ᵥ x) '' e.set := by
  have := ell_image Aᵀ e.c he.2
  rwa [transpose_transpose] at this

/-- `rho_mat` in closed form. -/
theorem rhoMat_psd {m nd : ℕ} {Q : Matrix (Fin m) (Fin m) ℝ} (hQ : IsPSD Q) (D : Matrix (Fin m) (Fin nd) ℝ) {tol : ℝ} (ht : 0 ≤ tol)
    (c : Fin m → ℝ) : rhoMat Q D tol c = .ok (fun j => c ⬝ᵥ dirCol D j + Real.sqrt (dirCol D j ⬝ᵥ Q *ᵥ dirCol D j),
      fun j i => .fin ((c + (1 / Real.sqrt (dirCol D j ⬝ᵥ Q *ᵥ dirCol D j)) • Q *ᵥ dirCol D j) i)) := by
  have key : ∀ t : ℝ, 0 ≤ t → ∃ sq, SqrtPos.sqrtPosArr (List.ofFn (fun j => dirCol D j ⬝ᵥ Q *ᵥ dirCol D j)) t = .ok sq ∧
      ∀ j : Fin nd, sq.getD j 0 = Real.sqrt (dirCol D j ⬝ᵥ Q *ᵥ dirCol D j) := fun t ht =>
    sqrtPosArr_ofFn _ t ht (fun j => le_trans (neg_nonpos.mpr ht) (hQ.2 _))
  have fin : ∀ sq : List ℝ, (∀ j : Fin nd, sq.getD j 0 = Real.sqrt (dirCol D j ⬝ᵥ Q *ᵥ dirCol D j)) →
      (.ok (fun j : Fin nd => c ⬝ᵥ dirCol D j + sq.getD j 0,
        fun (j : Fin nd) i => addX (nanToZero (fun i => divX ((Q *ᵥ dirCol D j) i) (sq.getD j 0)) i) (c i)) : Py _) =
      .ok (fun j => c ⬝ᵥ dirCol D j + Real.sqrt (dirCol D j ⬝ᵥ Q *ᵥ dirCol D j),
        fun j i => .fin ((c + (1 / Real.sqrt (dirCol D j ⬝ᵥ Q *ᵥ dirCol D j)) • Q *ᵥ dirCol D j) i)) := by
    intro sq hsq
    congr 2
    · funext j; rw [hsq j]
    · funext j i; rw [hsq j]; exact bp_fin hQ _ c i
  unfold rhoMat
  by_cases h1 : nd = 1
  · obtain ⟨sq, hsq, hv⟩ := key 0 le_rfl
    rw [if_pos h1, show SqrtPos.sqrtPosArr (List.ofFn fun j => (fun i => D i j) ⬝ᵥ Q *ᵥ (fun i => D i j)) 0 = .ok sq from hsq]
    exact fin sq hv
  · obtain ⟨sq, hsq, hv⟩ := key tol ht
    rw [if_neg h1, show SqrtPos.sqrtPosArr (List.ofFn fun j => (fun i => D i j) ⬝ᵥ Q *ᵥ (fun i => D i j)) tol = .ok sq from hsq]
    exact fin sq hv

/-- **C120**: the support values of the image `A E` in the directions `D` are those of `E` in the directions `Aᵀ D`, and the boundary
points are the images of the boundary points, for every linear map and for flat ellipsoids too. -/
theorem C120_rho {n m k : ℕ} (A : Matrix (Fin m) (Fin n) ℝ) (e : EllN n) (he : e.PSD) (D : Matrix (Fin m) (Fin k) ℝ) :
    ∃ (s : Fin k → ℝ) (X : Fin k → Fin n → ℝ), rhoMat e.Q (Aᵀ * D) e.props.absTol e.c = .ok (s, fun j i => .fin (X j i)) ∧
      rhoMat (e.image A).Q D (e.image A).props.absTol (e.image A).c = .ok (s, fun j i => .fin ((A *ᵥ X j) i)) := by
  have ht : 0 ≤ e.props.absTol := he.1.1.le
  refine ⟨_, _, rhoMat_psd he.2 _ ht _, ?_⟩
  rw [rhoMat_psd (Q := (e.image A).Q) (image_psd A he.2) D (show 0 ≤ (e.image A).props.absTol from ht)]
  have hc : ∀ j, dirCol (Aᵀ * D) j = Aᵀ *ᵥ dirCol D j := fun j => rfl
  have hq : ∀ j, dirCol D j ⬝ᵥ (e.image A).Q *ᵥ dirCol D j = dirCol (Aᵀ * D) j ⬝ᵥ e.Q *ᵥ dirCol (Aᵀ * D) j := fun j => by
    rw [hc]; exact quad_conj A e.Q _
  congr 2
  · funext j
    rw [hq]
    congr 1
    show (A *ᵥ e.c) ⬝ᵥ dirCol D j = _
    rw [hc, dotProduct_comm, dotProduct_mulVec, ← mulVec_transpose, dotProduct_comm]
  · funext j i
    rw [hq]
    congr 1
    refine congrFun (f := _) (g := _) ?_ i
    rw [mulVec_add, mulVec_smul]
    show A *ᵥ e.c + _ • (A * e.Q * Aᵀ) *ᵥ dirCol D j = _
    rw [hc, ← mulVec_mulVec, ← mulVec_mulVec]

private theorem near_image {n : ℕ} {A : Matrix (Fin n) (Fin n) ℝ} (hA : IsUnit A.det) {e : EllN n} (he : IsPSD e.Q) (x : Fin n → ℝ) :
    (e.image A).Near (A *ᵥ x) ↔ e.Near x := by
  have hi : Function.Injective (fun x : Fin n → ℝ => A *ᵥ x) := mulVec_injective_of_isUnit ((isUnit_iff_isUnit_det A).2 hA)
  refine exists_congr fun s => and_congr_right fun _ => and_congr_right fun _ => ?_
  have h := ell_image Aᵀ e.c (Q := s ^ 2 • e.Q) ⟨by rw [transpose_smul, he.1], fun y => by
    rw [smul_mulVec, dotProduct_smul, smul_eq_mul]; exact mul_nonneg (sq_nonneg s) (he.2 y)⟩
  rw [transpose_transpose, Matrix.mul_smul, Matrix.smul_mul] at h
  show A *ᵥ x ∈ Ell (A *ᵥ e.c) (s ^ 2 • (A * e.Q * Aᵀ)) ↔ _
  rw [h]
  exact hi.mem_set_image

/-- **C120**: `is_internal` gives the images of points in images of ellipsoids the same verdicts, for invertible maps (the images must
not be degenerate). -/
theorem C120_internal (E : Eigh) (G : Eig) {n k : ℕ} (hn : n ≠ 0) {A : Matrix (Fin n) (Fin n) ℝ} (hA : IsUnit A.det) (es : List (EllN n))
    (hnd : ∀ e ∈ es, e.NonDeg) (hnd' : ∀ e ∈ es, (e.image A).NonDeg) (a a' : Arr EllObj) (ha : a.data = es.map EllN.obj)
    (ha' : a'.data = (es.map (EllN.image A)).map EllN.obj) (hcol : IsColumn a) (hcol' : IsColumn a') (x x' : Arr ℝ)
    (X : Fin k → Fin n → ℝ) (hx : IsPoints x X) (hx' : IsPoints x' fun j => A *ᵥ X j) (mode : Option String) :
    isInternal E G a' x' mode = isInternal E G a x mode := by
  by_cases hne : es = []
  · subst hne
    unfold isInternal
    rw [if_pos (show a.data = [] from ha), if_pos (show a'.data = [] from ha')]
  by_cases hm : mode.getD "u" = "u" ∨ mode.getD "u" = "i"
  · have h1 : ∀ j, ∀ e ∈ es, ∃ b, singleInternal E G (X j) e.obj = .ok b ∧ singleInternal E G (A *ᵥ X j) (e.image A).obj = .ok b := by
      intro j e he
      obtain ⟨b, hb, hbi⟩ := singleInternal_nonDeg E G hn (X j) (hnd e he)
      obtain ⟨b', hb', hbi'⟩ := singleInternal_nonDeg E G hn (A *ᵥ X j) (hnd' e he)
      have : b' = b := by
        rw [Bool.eq_iff_iff, hbi, hbi', near_image hA (hnd e he).psd.2]
      exact ⟨b, hb, this ▸ hb'⟩
    classical
    let f : Fin k → EllN n → Bool := fun j e => if h : e ∈ es then (h1 j e h).choose else true
    have hf : ∀ j, ∀ e ∈ es, singleInternal E G (X j) e.obj = .ok (f j e) ∧
        singleInternal E G (A *ᵥ X j) (e.image A).obj = .ok (f j e) := by
      intro j e he
      simp only [f, dif_pos he]
      exact (h1 j e he).choose_spec
    rw [isInternal_of E G hn a es ha hne hcol x X hx mode hm f fun j e he => (hf j e he).1]
    have h2 : ∀ j, pyMap (singleInternal E G (A *ᵥ X j)) a'.data = .ok (es.map (f j)) := by
      intro j
      rw [pyMap_ok_iff, ha', List.map_map, List.forall₂_map_left_iff, List.forall₂_map_right_iff]
      exact List.forall₂_same.mpr fun e he => (hf j e he).2
    rw [isInternal_eq E G hn a' (es.map (EllN.image A)) ha' (by simpa using hne) x' hx'.1 mode hm]
    have h3 : pyMap (fun j => internalVec E G a' (fun i : Fin n => x'.data.getD (i.val * k + j) 0) (mode.getD "u")) (List.range k) =
        .ok (List.ofFn (fun j => if mode.getD "u" = "u" then es.any (f j) else es.all (f j))) := by
      rw [pyMap_ok_iff, List.forall₂_iff_get]
      refine ⟨by simp, fun i h1 h3 => ?_⟩
      have hi : i < k := by simpa using h1
      have hcolumn : (fun i' : Fin n => x'.data.getD (i'.val * k + i) 0) = A *ᵥ X ⟨i, hi⟩ := by
        funext i'
        have := hx'.2 ⟨i, hi⟩ i'
        rw [List.getD_eq_getElem?_getD, this]; rfl
      simp only [List.get_eq_getElem, List.getElem_range, List.getElem_ofFn, hcolumn]
      obtain ⟨r, s, rest, hsh, hr⟩ := hcol'
      unfold internalVec
      rw [hsh]
      simp only
      rw [if_pos hr, h2]
      simp only [List.any_map, List.all_map, Function.comp_def, id]
    rw [h3]
    exact Ellipy.Hyp.reshape_ok _
  · have h0 : a.data ≠ [] := by rw [ha]; simpa using hne
    have h0' : a'.data ≠ [] := by rw [ha']; simpa using hne
    have h1 : ¬ anyEmpty a.data := by
      rintro ⟨e, he, h⟩
      rw [ha, List.mem_map] at he
      obtain ⟨e', -, rfl⟩ := he
      exact hn h
    have h1' : ¬ anyEmpty a'.data := by
      rintro ⟨e, he, h⟩
      rw [ha', List.mem_map] at he
      obtain ⟨e', -, rfl⟩ := he
      exact hn h
    unfold isInternal
    rw [if_neg h0, if_neg h1, if_pos hm, if_neg h0', if_neg h1', if_pos hm]

/-- **C120**: `minksum_ea` of the images in the directions `W` is the image of `minksum_ea` in the directions `Aᵀ W`, for every linear
map whose images are not degenerate. -/
theorem C120_minksum_ea (E : Eigh) (G : Eig) (L : Lstsq) (p : PropVals) (hp : p.ok) {n m k : ℕ} (hn : n ≠ 0) (hm : m ≠ 0)
    (A : Matrix (Fin m) (Fin n) ℝ) (es : List (EllN n)) (h2 : 2 ≤ es.length) (hes : ∀ e ∈ es, e.NonDeg)
    (hes' : ∀ e ∈ es, (e.image A).NonDeg) (W : Matrix (Fin m) (Fin k) ℝ) (hW : ∀ j, (fun i => W i j) ≠ 0) :
    ∃ rs : Fin k → EllN n, minksumEa E G L p (es.map EllN.obj) (Aᵀ * W) = .ok (Arr.vec (List.ofFn fun j => (rs j).obj)) ∧
      minksumEa E G L p ((es.map (EllN.image A)).map EllN.obj) W = .ok (Arr.vec (List.ofFn fun j => ((rs j).image A).obj)) := by
  have hAW : ∀ j, (fun i => (Aᵀ * W) i j) ≠ 0 := by
    intro j h
    have h' : Aᵀ *ᵥ (fun i => W i j) = 0 := h
    obtain ⟨e, he⟩ : ∃ e, e ∈ es := List.exists_mem_of_length_pos (by omega)
    have h1 := (hes' e he).pos (hW j)
    rw [show (e.image A).Q = A * e.Q * Aᵀ from rfl, quad_conj, h', zero_dotProduct] at h1
    exact lt_irrefl _ h1
  refine ⟨fun j => ⟨(es.map EllN.c).sum, eaShape es (fun i => (Aᵀ * W) i j), p⟩, minksumEa_eq E G L p hp hn es h2 hes _ hAW, ?_⟩
  rw [minksumEa_eq E G L p hp hm (es.map (EllN.image A)) (by rwa [List.length_map])
    (fun f hf => by obtain ⟨e, he, rfl⟩ := List.mem_map.1 hf; exact hes' e he) W hW, sum_c_image]
  simp only [eaShape_image]
  rfl

/-- **C120**: `minksum_ea` of turned ellipsoids in the turned directions is the turned result. -/
theorem C120_turn_minksum_ea (E : Eigh) (G : Eig) (L : Lstsq) (p : PropVals) (hp : p.ok) {n k : ℕ} (hn : n ≠ 0)
    {U : Matrix (Fin n) (Fin n) ℝ} (hU : IsOrth U) (es : List (EllN n)) (h2 : 2 ≤ es.length) (hes : ∀ e ∈ es, e.NonDeg)
    (M : Matrix (Fin n) (Fin k) ℝ) (hM : ∀ j, (fun i => M i j) ≠ 0) :
    ∃ rs : Fin k → EllN n, minksumEa E G L p (es.map EllN.obj) M = .ok (Arr.vec (List.ofFn fun j => (rs j).obj)) ∧
      minksumEa E G L p ((es.map (EllN.image U)).map EllN.obj) (U * M) = .ok (Arr.vec (List.ofFn fun j => ((rs j).image U).obj)) := by
  have h := C120_minksum_ea E G L p hp hn hn U es h2 hes (fun e he => nonDeg_turn hU (hes e he)) (U * M)
    fun j => orth_ne hU (hM j)
  rwa [← Matrix.mul_assoc, orth_comm hU, Matrix.one_mul] at h

/-- The root of a turned matrix. -/
theorem root_turn {n : ℕ} {U : Matrix (Fin n) (Fin n) ℝ} (hU : IsOrth U) {Q S S' : Matrix (Fin n) (Fin n) ℝ} (hQ : IsPSD Q)
    (hS : IsPSD S) (hSS : S * S = Q) (hS' : IsPSD S') (hSS' : S' * S' = U * Q * Uᵀ) : S' = U * S * Uᵀ := by
  obtain ⟨E⟩ := nonempty_eigh
  obtain ⟨R, -, -, -, hR⟩ := C21_root E (U * Q * Uᵀ) 0 le_rfl (image_psd U hQ)
  rw [hR S' hS' hSS', hR (U * S * Uᵀ) (image_psd U hS) ?_]
  calc U * S * Uᵀ * (U * S * Uᵀ) = U * S * (Uᵀ * U) * S * Uᵀ := by simp only [Matrix.mul_assoc]
    _ = U * Q * Uᵀ := by rw [orth_comm hU, Matrix.mul_one, ← hSS]; simp only [Matrix.mul_assoc]

/-- **C120**: `sqrtm_pos` of a turned matrix is the turned root, whatever eigenvectors the backend returns. -/
theorem C120_turn_sqrtm (E E' : Eigh) {n : ℕ} {U : Matrix (Fin n) (Fin n) ℝ} (hU : IsOrth U) (Q : Matrix (Fin n) (Fin n) ℝ) (hQ : IsPSD Q)
    (tol : ℝ) (ht : 0 ≤ tol) : ∃ S, sqrtmPos E Q tol = .ok S ∧ sqrtmPos E' (U * Q * Uᵀ) tol = .ok (U * S * Uᵀ) := by
  obtain ⟨S, h1, h2, h3, -⟩ := C21_root E Q tol ht hQ
  obtain ⟨S', h1', h2', h3', -⟩ := C21_root E' (U * Q * Uᵀ) tol ht (image_psd U hQ)
  exact ⟨S, h1, by rw [h1', root_turn hU hQ h2 h3 h2' h3']⟩

/-- **C120**: `orth_transl` of turned vectors is the turned map. -/
theorem C120_turn_transl {n : ℕ} {U : Matrix (Fin n) (Fin n) ℝ} (hU : IsOrth U) {x y : Fin n → ℝ} (hx : x ≠ 0) (hy : y ≠ 0) :
    ∃ O, orthTransl x y = .ok O ∧ orthTransl (U *ᵥ x) (U *ᵥ y) = .ok (U * O * Uᵀ) := by
  rw [orthTransl_turn hU hx hy, orthTransl_eq hx hy]
  exact ⟨_, rfl, rfl⟩

/-- **C120**: `minksum_ia` of turned ellipsoids in the turned directions is the turned result. -/
theorem C120_turn_minksum_ia (E : Eigh) (G : Eig) (p : PropVals) (hp : p.ok) {n k : ℕ} (hn : n ≠ 0)
    {U : Matrix (Fin n) (Fin n) ℝ} (hU : IsOrth U) (es : List (EllN n)) (h2 : 2 ≤ es.length) (hes : ∀ e ∈ es, e.NonDeg)
    (M : Matrix (Fin n) (Fin k) ℝ) (hM : ∀ j, (fun i => M i j) ≠ 0) :
    ∃ rs : Fin k → EllN n, minksumIa E G p (es.map EllN.obj) M = .ok (Arr.vec (List.ofFn fun j => (rs j).obj)) ∧
      minksumIa E G p ((es.map (EllN.image U)).map EllN.obj) (U * M) = .ok (Arr.vec (List.ofFn fun j => ((rs j).image U).obj)) := by
  match es, h2 with
  | e :: e' :: es, _ =>
  obtain ⟨S0, ts, h1, h2, h3, h4⟩ := minksumIa_form E G p hp hn e e' es hes M hM
  obtain ⟨S0', ts', h1', h2', h3', h4'⟩ := minksumIa_form E G p hp hn (e.image U) (e'.image U) (es.map (EllN.image U)) (by
    intro f hf
    have hf' : f ∈ (e :: e' :: es).map (EllN.image U) := hf
    obtain ⟨g, hg, rfl⟩ := List.mem_map.1 hf'
    exact nonDeg_turn hU (hes g hg)) (U * M) fun j => orth_ne hU (hM j)
  have hS0 : S0' = U * S0 * Uᵀ := root_turn hU (hes e (by simp)).psd.2 h1 h2 h1' h2'
  have hcancel : ∀ (S : Matrix (Fin n) (Fin n) ℝ) (x : Fin n → ℝ), (U * S * Uᵀ) *ᵥ (U *ᵥ x) = U *ᵥ (S *ᵥ x) := by
    intro S x
    rw [mulVec_mulVec, Matrix.mul_assoc, Matrix.mul_assoc, orth_comm hU, Matrix.mul_one, mulVec_mulVec]
  have key : ∀ (l : List (EllN n)) (ts ts' : List (Matrix (Fin n) (Fin n) ℝ × (Fin k → Matrix (Fin n) (Fin n) ℝ))), (∀ x ∈ l, x.NonDeg) →
      List.Forall₂ (IaSpec M (S0 * M)) l ts → List.Forall₂ (IaSpec (U * M) (S0' * (U * M))) (l.map (EllN.image U)) ts' →
      ∀ j, (ts'.map (fun t => t.2 j * t.1)).sum = U * (ts.map (fun t => t.2 j * t.1)).sum * Uᵀ := by
    intro l ts ts' hl h h' j
    induction h generalizing ts' with
    | nil => cases h'; simp
    | @cons f t fs ts hft hfs ih =>
      rw [List.map_cons] at h'
      cases h' with
      | @cons _ t' _ ts' hft' hfs' =>
        rw [List.map_cons, List.sum_cons, List.map_cons, List.sum_cons, Matrix.mul_add, Matrix.add_mul,
          ih ts' (fun x hx => hl x (by simp [hx])) hfs']
        congr 1
        have hf := hl f (by simp)
        have ht1 : t'.1 = U * t.1 * Uᵀ := root_turn hU hf.psd.2 hft.1 hft.2.1 hft'.1 hft'.2.1
        have ht2 : t'.2 j = U * t.2 j * Uᵀ := by
          have h5 := hft'.2.2 j
          rw [ht1, hS0] at h5
          have e1 : (fun i => (U * M) i j) = U *ᵥ fun i => M i j := rfl
          have e2 : (fun i => (U * S0 * Uᵀ * (U * M)) i j) = U *ᵥ fun i => (S0 * M) i j := by
            rw [col_mul, e1, hcancel]; rfl
          rw [e1, e2, hcancel, orthTransl_turn hU (root_ne_zero hf hft.1 hft.2.1 (hM j))
            (by rw [col_mul]; exact root_ne_zero (hes e (by simp)) h1 h2 (hM j)), hft.2.2 j] at h5
          injection h5 with h5
          exact h5.symm
        rw [ht1, ht2]
        calc U * t.2 j * Uᵀ * (U * t.1 * Uᵀ) = U * t.2 j * (Uᵀ * U) * t.1 * Uᵀ := by simp only [Matrix.mul_assoc]
          _ = U * (t.2 j * t.1) * Uᵀ := by rw [orth_comm hU, Matrix.mul_one]; simp only [Matrix.mul_assoc]
  refine ⟨fun j => ⟨((e :: e' :: es).map EllN.c).sum, ((ts.map (fun t => t.2 j * t.1)).sum)ᵀ * (ts.map (fun t => t.2 j * t.1)).sum, p⟩,
    h4, ?_⟩
  have hk := key _ ts ts' hes h3 h3'
  have hc := sum_c_image U (e :: e' :: es)
  have hc' : ((e.image U :: e'.image U :: es.map (EllN.image U)).map EllN.c).sum = U *ᵥ ((e :: e' :: es).map EllN.c).sum := hc
  show minksumIa E G p ((e.image U :: e'.image U :: es.map (EllN.image U)).map EllN.obj) (U * M) = _
  rw [h4', hc']
  have hq : ∀ j, ((ts'.map (fun t => t.2 j * t.1)).sum)ᵀ * (ts'.map (fun t => t.2 j * t.1)).sum =
      U * (((ts.map (fun t => t.2 j * t.1)).sum)ᵀ * (ts.map (fun t => t.2 j * t.1)).sum) * Uᵀ := by
    intro j
    rw [hk, transpose_mul, transpose_mul, transpose_transpose]
    set T := (ts.map (fun t => t.2 j * t.1)).sum
    calc U * (Tᵀ * Uᵀ) * (U * T * Uᵀ) = U * Tᵀ * (Uᵀ * U) * T * Uᵀ := by simp only [Matrix.mul_assoc]
      _ = _ := by rw [orth_comm hU, Matrix.mul_one]; simp only [Matrix.mul_assoc]
  simp only [hq]
  rfl

/-! ### Numbers -/

/-- **C120**: a linear map multiplies the volume by the absolute value of its determinant. -/
theorem C120_volume (E : Eigh) {n : ℕ} (hn : n ≠ 0) (A : Matrix (Fin n) (Fin n) ℝ) (es : List (EllN n)) (hes : ∀ e ∈ es, e.NonDeg)
    (hes' : ∀ e ∈ es, (e.image A).NonDeg) :
    ∃ vs : List ℝ, volume E (es.map EllN.obj) = .ok (vs.map fun v => ⟨false, v⟩) ∧
      volume E ((es.map (EllN.image A)).map EllN.obj) = .ok (vs.map fun v => ⟨false, |A.det| * v⟩) := by
  refine ⟨es.map fun e => ballFactor n * Real.sqrt e.Q.det, ?_, ?_⟩
  · rw [volume_nonDeg E hn es hes, List.map_map]; rfl
  · rw [volume_nonDeg E hn (es.map (EllN.image A)) (fun f hf => by obtain ⟨e, he, rfl⟩ := List.mem_map.1 hf; exact hes' e he), List.map_map,
      List.map_map]
    congr 1
    refine List.map_congr_left fun e _ => ?_
    show (⟨false, ballFactor n * Real.sqrt (A * e.Q * Aᵀ).det⟩ : VolEntry) = ⟨false, |A.det| * (ballFactor n * Real.sqrt e.Q.det)⟩
    rw [det_mul, det_mul, det_transpose, show A.det * e.Q.det * A.det = A.det ^ 2 * e.Q.det by ring, Real.sqrt_mul (sq_nonneg _),
      Real.sqrt_sq_eq_abs]
    congr 1
    ring

private theorem formValues_turn {n : ℕ} {U : Matrix (Fin n) (Fin n) ℝ} (hU : IsOrth U) {Q : Matrix (Fin n) (Fin n) ℝ} (hQ : Qᵀ = Q) :
    formValues (lowerSym (U * Q * Uᵀ)) = formValues (lowerSym Q) := by
  rw [lowerSym_of_symm hQ, lowerSym_of_symm (image_symm U hQ)]
  ext r
  constructor
  · rintro ⟨x, hx, rfl⟩
    exact ⟨Uᵀ *ᵥ x, by rw [orth_dot' hU, hx], quad_conj U Q x⟩
  · rintro ⟨x, hx, rfl⟩
    refine ⟨U *ᵥ x, by rw [orth_dot hU, hx], ?_⟩
    rw [quad_conj, mulVec_mulVec, orth_comm hU, one_mulVec]

/-- **C120**: turning changes neither volume nor degeneracy nor the smallest and largest eigenvalue nor the trace, for flat ellipsoids
too. -/
theorem C120_turn_scalars (E : Eigh) {n : ℕ} (hn : n ≠ 0) {U : Matrix (Fin n) (Fin n) ℝ} (hU : IsOrth U) (es : List (EllN n))
    (hes : ∀ e ∈ es, e.PSD) :
    volume E ((es.map (EllN.image U)).map EllN.obj) = volume E (es.map EllN.obj) ∧
    isDegenerate E ((es.map (EllN.image U)).map EllN.obj) = isDegenerate E (es.map EllN.obj) ∧
    ∀ (x x' : ObjArg EllObj) (a a' : Arr EllObj), x.Is a → x'.Is a' → a.data = es.map EllN.obj →
      a'.data = (es.map (EllN.image U)).map EllN.obj → minEig E x' = minEig E x ∧ maxEig E x' = maxEig E x ∧ trace x' = trace x := by
  have hemp : ∀ l : List (EllN n), ¬ anyEmpty (l.map EllN.obj) := by
    rintro l ⟨x, hx, h⟩
    obtain ⟨e, -, rfl⟩ := List.mem_map.1 hx
    exact hn h
  have hpd : ∀ e ∈ es, isMatPosDef E (U * e.Q * Uᵀ) e.props.absTol false = isMatPosDef E e.Q e.props.absTol false := by
    intro e he
    have ht : 0 ≤ e.props.absTol := (hes e he).1.1.le
    have hs := (hes e he).2.1
    have h1 := C20_pos_def E e.Q e.props.absTol ht hn hs
    have h2 := C20_pos_def E (U * e.Q * Uᵀ) e.props.absTol ht hn (image_symm U hs)
    have h3 : isMatPosDef E (U * e.Q * Uᵀ) e.props.absTol false = .ok true ↔ isMatPosDef E e.Q e.props.absTol false = .ok true := by
      rw [h1, h2]
      constructor
      · intro h x hx
        have := h (U *ᵥ x) (orth_ne hU hx)
        rwa [quad_conj, mulVec_mulVec, orth_comm hU, one_mulVec, orth_dot hU] at this
      · intro h x hx
        rw [quad_conj, ← orth_dot' hU x x]
        exact h _ (orth_ne' hU hx)
    have n1 : ¬ Raises (isMatPosDef E e.Q e.props.absTol false) := by
      rw [C20_raises_iff]; push Not; exact ⟨ht, symmWithin_of_symm hs ht, hn⟩
    have n2 : ¬ Raises (isMatPosDef E (U * e.Q * Uᵀ) e.props.absTol false) := by
      rw [C20_raises_iff]; push Not; exact ⟨ht, symmWithin_of_symm (image_symm U hs) ht, hn⟩
    cases ha : isMatPosDef E e.Q e.props.absTol false with
    | error y => exact absurd ⟨y, ha⟩ n1
    | ok b =>
      cases hb : isMatPosDef E (U * e.Q * Uᵀ) e.props.absTol false with
      | error y => exact absurd ⟨y, hb⟩ n2
      | ok b' =>
        rw [ha, hb] at h3
        cases b <;> cases b' <;> simp at h3 ⊢
  have hmap : ∀ {β : Type} (f g : EllObj → Py β), (∀ e ∈ es, f (e.image U).obj = g e.obj) →
      pyMap f ((es.map (EllN.image U)).map EllN.obj) = pyMap g (es.map EllN.obj) := by
    intro β f g h
    clear hes hpd
    induction es with
    | nil => rfl
    | cons e es ih =>
      simp only [List.map_cons, pyMap]
      rw [h e (by simp), ih fun x hx => h x (by simp [hx])]
  have hdeg : ∀ l : List (EllN n), (∀ e ∈ l, e ∈ es) →
      isDegenerate E ((l.map (EllN.image U)).map EllN.obj) = isDegenerate E (l.map EllN.obj) := by
    intro l hl
    unfold isDegenerate
    rw [if_neg (hemp _), if_neg (hemp _)]
    have : pyMap (fun e : EllObj => isMatPosDef E e.Q e.absTol false) ((l.map (EllN.image U)).map EllN.obj) =
        pyMap (fun e : EllObj => isMatPosDef E e.Q e.absTol false) (l.map EllN.obj) := by
      clear hmap
      induction l with
      | nil => rfl
      | cons e l ih =>
        simp only [List.map_cons, pyMap]
        rw [ih fun x hx => hl x (by simp [hx]), show isMatPosDef E (e.image U).obj.Q (e.image U).obj.absTol false =
          isMatPosDef E e.obj.Q e.obj.absTol false from hpd e (hl e (by simp))]
    rw [this]
  refine ⟨?_, hdeg es fun _ h => h, ?_⟩
  · unfold volume
    rw [if_neg (hemp _), if_neg (hemp _)]
    refine hmap _ _ fun e he => ?_
    have h1 := hdeg [e] (by simpa using he)
    simp only [List.map_cons, List.map_nil] at h1
    unfold singleVolume
    rw [h1]
    have h2 : (U * e.Q * Uᵀ).det = e.Q.det := by
      rw [det_mul, det_mul, mul_comm, ← mul_assoc, ← det_mul, orth_comm hU, det_one, one_mul]
    rw [show (e.image U).obj.Q.det = e.obj.Q.det from h2]
    rfl
  · intro x x' a a' hx hx' ha ha'
    unfold minEig maxEig trace
    rw [(C80_ok_iff _ _ _ _).mpr hx, (C80_ok_iff _ _ _ _).mpr hx']
    simp only
    rw [ha, ha', if_neg (hemp _), if_neg (hemp _), if_neg (hemp _), if_neg (hemp _), if_neg (hemp _), if_neg (hemp _)]
    refine ⟨hmap _ _ fun e he => ?_, hmap _ _ fun e he => ?_, ?_⟩
    · obtain ⟨r, h1, h2⟩ := singleMinEig_spec E e.obj hn
      obtain ⟨r', h1', h2'⟩ := singleMinEig_spec E (e.image U).obj hn
      rw [h1, h1', h2'.unique (show IsLeast (formValues (lowerSym (U * e.Q * Uᵀ))) r by rw [formValues_turn hU (hes e he).2.1]; exact h2)]
    · obtain ⟨r, h1, h2⟩ := singleMaxEig_spec E e.obj hn
      obtain ⟨r', h1', h2'⟩ := singleMaxEig_spec E (e.image U).obj hn
      rw [h1, h1', h2'.unique (show IsGreatest (formValues (lowerSym (U * e.Q * Uᵀ))) r by rw [formValues_turn hU (hes e he).2.1]; exact h2)]
    · rw [List.map_map, List.map_map, List.map_map]
      congr 1
      refine List.map_congr_left fun e _ => ?_
      show Matrix.trace (U * e.Q * Uᵀ) = Matrix.trace e.Q
      rw [Matrix.mul_assoc, Matrix.trace_mul_comm, Matrix.mul_assoc, orth_comm hU, Matrix.mul_one]

/-! ### Inclusion -/

private theorem insideEnlarged_iff {n : ℕ} {e f : EllN n} (he : IsPSD e.Q) (hf : IsPSD f.Q) : InsideEnlarged e f ↔
    ∀ l : Fin n → ℝ, l ≠ 0 → l ⬝ᵥ f.Q *ᵥ l < (1 + e.props.absTol) * (l ⬝ᵥ e.Q *ᵥ l) := by
  have hs : ∀ {Q : Matrix (Fin n) (Fin n) ℝ}, IsPSD Q → ∀ l : Fin n → ℝ, IsSupport (Ell 0 Q) l (Real.sqrt (l ⬝ᵥ Q *ᵥ l)) := by
    intro Q hQ l
    have := ell_support (c := 0) hQ l
    rwa [dotProduct_zero, zero_add] at this
  constructor
  · intro h l hl
    have := h l hl _ (hs hf l) _ (hs he l)
    rwa [Real.sq_sqrt (hf.2 l), Real.sq_sqrt (he.2 l)] at this
  · intro h l hl r hr R hR
    rw [hr.unique (hs hf l), hR.unique (hs he l), Real.sq_sqrt (hf.2 l), Real.sq_sqrt (he.2 l)]
    exact h l hl

/-- **C120**: `is_bigger` gives the images under an invertible map the same answer. -/
theorem C120_bigger (E : Eigh) (G : Eig) (S : Svd) (L : Lstsq) {n : ℕ} (hn : n ≠ 0) {A : Matrix (Fin n) (Fin n) ℝ} (hA : IsUnit A.det)
    (e f : EllN n) (he : e.NonDeg) (he' : (e.image A).NonDeg) (hf : f.PSD) (hw : WellCond e.Q machEps)
    (hw' : WellCond (e.image A).Q machEps) :
    ∃ b, isBigger E G S L e.obj (Arr.vec [f.obj]) = .ok b ∧ isBigger E G S L (e.image A).obj (Arr.vec [(f.image A).obj]) = .ok b := by
  obtain ⟨b, hb, hbi⟩ := C42_partial E G S L hn e f he hf hw
  obtain ⟨b', hb', hbi'⟩ := C42_partial E G S L hn (e.image A) (f.image A) he' ⟨hf.1, image_psd A hf.2⟩ hw'
  have : b' = b := by
    rw [Bool.eq_iff_iff, hbi, hbi', insideEnlarged_iff he.psd.2 hf.2, insideEnlarged_iff he'.psd.2 (image_psd A hf.2)]
    have hi : Function.Injective (fun x : Fin n → ℝ => Aᵀ *ᵥ x) :=
      mulVec_injective_of_isUnit ((isUnit_iff_isUnit_det Aᵀ).2 (by rwa [det_transpose]))
    constructor
    · intro h l hl
      have hinv : Aᵀ *ᵥ (Aᵀ⁻¹ *ᵥ l) = l := by
        rw [mulVec_mulVec, mul_nonsing_inv _ (by rwa [det_transpose]), one_mulVec]
      have h1 : Aᵀ⁻¹ *ᵥ l ≠ 0 := fun h0 => hl (by rw [← hinv, h0, mulVec_zero])
      have := h _ h1
      rw [show (f.image A).Q = A * f.Q * Aᵀ from rfl, show (e.image A).Q = A * e.Q * Aᵀ from rfl, quad_conj, quad_conj, hinv] at this
      exact this
    · intro h l hl
      rw [show (f.image A).Q = A * f.Q * Aᵀ from rfl, show (e.image A).Q = A * e.Q * Aᵀ from rfl, quad_conj, quad_conj]
      exact h _ fun h0 => hl (hi (by simpa using h0))
  exact ⟨b, hb, this ▸ hb'⟩

theorem orth_det {n : ℕ} {U : Matrix (Fin n) (Fin n) ℝ} (hU : IsOrth U) : IsUnit U.det :=
  isUnit_det_of_right_inverse hU

/-- **C120**: for turned ellipsoids and points `is_internal` and `is_bigger` give the same answers; no hypotheses on the turned
ellipsoids are needed. -/
theorem C120_turn_answers (E : Eigh) (G : Eig) (S : Svd) (L : Lstsq) {n : ℕ} (hn : n ≠ 0) {U : Matrix (Fin n) (Fin n) ℝ} (hU : IsOrth U) :
    (∀ (k : ℕ) (es : List (EllN n)), (∀ e ∈ es, e.NonDeg) → ∀ a a' : Arr EllObj, a.data = es.map EllN.obj →
      a'.data = (es.map (EllN.image U)).map EllN.obj → IsColumn a → IsColumn a' → ∀ (x x' : Arr ℝ) (X : Fin k → Fin n → ℝ),
      IsPoints x X → IsPoints x' (fun j => U *ᵥ X j) → ∀ mode, isInternal E G a' x' mode = isInternal E G a x mode) ∧
    ∀ e f : EllN n, e.NonDeg → f.PSD → WellCond e.Q machEps →
      ∃ b, isBigger E G S L e.obj (Arr.vec [f.obj]) = .ok b ∧ isBigger E G S L (e.image U).obj (Arr.vec [(f.image U).obj]) = .ok b := by
  refine ⟨fun k es hes a a' ha ha' hc hc' x x' X hx hx' mode => C120_internal E G hn (orth_det hU) es hes
    (fun e he => nonDeg_turn hU (hes e he)) a a' ha ha' hc hc' x x' X hx hx' mode, fun e f he hf hw => C120_bigger E G S L hn (orth_det hU) e f
    he (nonDeg_turn hU he) hf hw fun x y hx hy => ?_⟩
  rw [show (e.image U).Q = U * e.Q * Uᵀ from rfl, quad_conj, quad_conj]
  exact hw _ _ (by rw [orth_dot' hU, hx]) (by rw [orth_dot' hU, hy])

/-! ### The polar -/

private theorem inv_image {n : ℕ} {A B Q : Matrix (Fin n) (Fin n) ℝ} (hAB : Bᵀ * A = 1) (hQ : IsUnit Q.det) :
    (A * Q * Aᵀ)⁻¹ = B * Q⁻¹ * Bᵀ := by
  have h1 : Aᵀ * B = 1 := by rw [← transpose_one, ← hAB, transpose_mul, transpose_transpose]
  refine inv_eq_right_inv ?_
  calc A * Q * Aᵀ * (B * Q⁻¹ * Bᵀ) = A * Q * (Aᵀ * B) * Q⁻¹ * Bᵀ := by simp only [Matrix.mul_assoc]
    _ = A * (Q * Q⁻¹) * Bᵀ := by rw [h1, Matrix.mul_one]; simp only [Matrix.mul_assoc]
    _ = 1 := by rw [mul_nonsing_inv _ hQ, Matrix.mul_one]; exact mul_eq_one_comm.mp hAB

/-- **C120**: `polar` of the image under an invertible map is the image of `polar` under the inverse of the transposed map; for turned
ellipsoids (`B = A`) the polar is turned. -/
theorem C120_polar (E : Eigh) (L : Lstsq) (p : PropVals) (hp : p.ok) {n : ℕ} (hn : n ≠ 0) {A B : Matrix (Fin n) (Fin n) ℝ}
    (hAB : Bᵀ * A = 1) (e : EllN n) (he : e.NonDeg) (he' : (e.image A).NonDeg) (h0 : OriginInside e.set) :
    OriginInside (e.image A).set ∧ ∃ r : EllN n, polar E L p (Arr.vec [e.obj]) = .ok (Arr.vec [r.obj]) ∧
      polar E L p (Arr.vec [(e.image A).obj]) = .ok (Arr.vec [(r.image B).obj]) := by
  have hu : IsUnit e.Q.det := isUnit_iff_ne_zero.mpr he.det
  have hinv : (e.image A).Q⁻¹ = B * e.Q⁻¹ * Bᵀ := inv_image hAB hu
  have hBA : ∀ x : Fin n → ℝ, Bᵀ *ᵥ (A *ᵥ x) = x := fun x => by rw [mulVec_mulVec, hAB, one_mulVec]
  have hk : (e.image A).k = e.k := by
    rw [EllN.k, hinv, show (e.image A).c = A *ᵥ e.c from rfl, quad_conj, hBA]; rfl
  have h0' : OriginInside (e.image A).set := by
    by_contra h
    have h1 := k_interior he' h
    have h2 := k_lt_one he h0
    rw [hk] at h1
    linarith
  refine ⟨h0', ⟨polC e, polQ e, p⟩, (polar_value E L p hp hn e he h0).1, ?_⟩
  rw [(polar_value E L p hp hn (e.image A) he' h0').1]
  have hc : polC (e.image A) = B *ᵥ polC e := by
    rw [polC, polC, hk, hinv, show (e.image A).c = A *ᵥ e.c from rfl, ← mulVec_mulVec, ← mulVec_mulVec, hBA, mulVec_smul]
  have hq : polQ (e.image A) = B * polQ e * Bᵀ := by
    rw [polQ, polQ, hk, hinv, hc, Matrix.mul_add, Matrix.add_mul, Matrix.mul_smul, Matrix.smul_mul]
    congr 1
    rw [mul_vecMulVec, vecMulVec_mul, vecMul_transpose]
  rw [hc, hq]
  rfl

/-! ### The theorems apply -/

/-- The rotation with cosine `3/5` and sine `4/5`. -/
private noncomputable def rot345 : Matrix (Fin 2) (Fin 2) ℝ := !![3 / 5, -4 / 5; 4 / 5, 3 / 5]

private theorem rot345_orth : IsOrth rot345 := by
  unfold IsOrth rot345
  ext i j
  fin_cases i <;> fin_cases j <;> simp [Matrix.mul_apply, Fin.sum_univ_two] <;> norm_num

theorem nonDeg_diagSh {a b : ℝ} (ha : 1 ≤ a) (hb : 1 ≤ b) (c : Fin 2 → ℝ) : (⟨c, !![a, 0; 0, b], stdProps⟩ : EllN 2).NonDeg := by
  refine ⟨stdProps_ok, by ext i j; fin_cases i <;> fin_cases j <;> rfl, fun x hx => ?_⟩
  have h0 := dot_self_pos hx
  simp only [dotProduct, mulVec, Fin.sum_univ_two, of_apply, cons_val_zero, cons_val_one] at h0 ⊢
  have : stdProps.absTol < 1 := by unfold stdProps; norm_num
  nlinarith [mul_self_nonneg (x 0), mul_self_nonneg (x 1)]

private noncomputable def stretch : Matrix (Fin 2) (Fin 2) ℝ := !![2, 0; 0, 1]

/-- Two ellipses with the axes `1` and `2`, the second one moved. -/
noncomputable def twoEll : List (EllN 2) := [⟨![0, 0], !![1, 0; 0, 4], stdProps⟩, ⟨![1, 2], !![4, 0; 0, 1], stdProps⟩]

theorem twoEll_nonDeg : ∀ e ∈ twoEll, e.NonDeg := by
  intro e he
  simp only [twoEll, List.mem_cons, List.not_mem_nil, or_false] at he
  rcases he with rfl | rfl <;> exact nonDeg_diagSh (by norm_num) (by norm_num) _

/-- Turned ellipses: the approximations are the turned approximations, and the shapes really change. -/
example (E : Eigh) (G : Eig) (L : Lstsq) : IsOrth rot345 ∧
    (∃ rs : Fin 1 → EllN 2, minksumEa E G L stdProps (twoEll.map EllN.obj) (colMat ![1, 2]) = .ok (Arr.vec (List.ofFn fun j => (rs j).obj)) ∧
      minksumEa E G L stdProps ((twoEll.map (EllN.image rot345)).map EllN.obj) (rot345 * colMat ![1, 2]) =
        .ok (Arr.vec (List.ofFn fun j => ((rs j).image rot345).obj))) ∧
    (∃ rs : Fin 1 → EllN 2, minksumIa E G stdProps (twoEll.map EllN.obj) (colMat ![1, 2]) = .ok (Arr.vec (List.ofFn fun j => (rs j).obj)) ∧
      minksumIa E G stdProps ((twoEll.map (EllN.image rot345)).map EllN.obj) (rot345 * colMat ![1, 2]) =
        .ok (Arr.vec (List.ofFn fun j => ((rs j).image rot345).obj))) ∧
    (EllN.image rot345 ⟨![0, 0], !![1, 0; 0, 4], stdProps⟩).Q 0 1 = -36 / 25 := by
  have hl : (![1, 2] : Fin 2 → ℝ) ≠ 0 := fun h => by simpa using congrFun h 0
  refine ⟨rot345_orth, C120_turn_minksum_ea E G L stdProps stdProps_ok two_ne_zero rot345_orth twoEll le_rfl twoEll_nonDeg _ fun _ => hl,
    C120_turn_minksum_ia E G stdProps stdProps_ok two_ne_zero rot345_orth twoEll le_rfl twoEll_nonDeg _ fun _ => hl, ?_⟩
  show (rot345 * !![1, 0; 0, 4] * rot345ᵀ : Matrix (Fin 2) (Fin 2) ℝ) 0 1 = _
  rw [Matrix.mul_apply, Fin.sum_univ_two, Matrix.mul_apply, Matrix.mul_apply, Fin.sum_univ_two, Fin.sum_univ_two]
  simp [rot345]
  norm_num

/-- A map that stretches one axis: volumes are doubled, and `minksum_ea` is carried along. -/
example (E : Eigh) (G : Eig) (L : Lstsq) : IsUnit stretch.det ∧
    (∃ vs : List ℝ, volume E (twoEll.map EllN.obj) = .ok (vs.map fun v => ⟨false, v⟩) ∧
      volume E ((twoEll.map (EllN.image stretch)).map EllN.obj) = .ok (vs.map fun v => ⟨false, 2 * v⟩)) ∧
    ∃ rs : Fin 1 → EllN 2, minksumEa E G L stdProps (twoEll.map EllN.obj) (stretchᵀ * colMat ![1, 2]) =
        .ok (Arr.vec (List.ofFn fun j => (rs j).obj)) ∧
      minksumEa E G L stdProps ((twoEll.map (EllN.image stretch)).map EllN.obj) (colMat ![1, 2]) =
        .ok (Arr.vec (List.ofFn fun j => ((rs j).image stretch).obj)) := by
  have hnd : ∀ e ∈ twoEll, (e.image stretch).NonDeg := by
    intro e he
    have key : ∀ (c : Fin 2 → ℝ) (a b : ℝ), 1 ≤ a → 1 ≤ b → (EllN.image stretch ⟨c, !![a, 0; 0, b], stdProps⟩).NonDeg := by
      intro c a b ha hb
      have h0 : (stretch * !![a, 0; 0, b] * stretchᵀ : Matrix (Fin 2) (Fin 2) ℝ) = !![4 * a, 0; 0, b] := by
        ext i j
        fin_cases i <;> fin_cases j <;> simp [stretch, Matrix.mul_apply, Fin.sum_univ_two] <;> ring
      show EllN.NonDeg ⟨stretch *ᵥ c, stretch * !![a, 0; 0, b] * stretchᵀ, stdProps⟩
      rw [h0]
      exact nonDeg_diagSh (by linarith) hb _
    simp only [twoEll, List.mem_cons, List.not_mem_nil, or_false] at he
    rcases he with rfl | rfl
    · exact key _ _ _ (by norm_num) (by norm_num)
    · exact key _ _ _ (by norm_num) (by norm_num)
  have hl : (![1, 2] : Fin 2 → ℝ) ≠ 0 := fun h => by simpa using congrFun h 0
  have hd : stretch.det = 2 := by simp [stretch, det_fin_two]
  refine ⟨by rw [hd]; norm_num, ?_, C120_minksum_ea E G L stdProps stdProps_ok two_ne_zero two_ne_zero _ twoEll le_rfl twoEll_nonDeg hnd _
    fun _ => hl⟩
  have := C120_volume E two_ne_zero stretch twoEll twoEll_nonDeg hnd
  rwa [hd, abs_of_pos (by norm_num : (0 : ℝ) < 2)] at this

end Ellipy.Ell
