import Verif.Props.LinImage

/-! C121: only the directions count. -/

namespace Ellipy.Ell
open Matrix Ellipy.LA

/-! ### Helpers -/

private theorem dir_smul_pos {n : ℕ} {t : ℝ} (ht : 0 < t) (x : Fin n → ℝ) : dir (t • x) = dir x := by
  unfold dir
  rw [smul_dotProduct, dotProduct_smul, smul_eq_mul, smul_eq_mul, ← mul_assoc, Real.sqrt_mul (mul_self_nonneg t), Real.sqrt_mul_self ht.le,
    smul_smul]
  congr 1
  field_simp

private theorem dir_smul_neg {n : ℕ} {t : ℝ} (ht : t < 0) (x : Fin n → ℝ) : dir (t • x) = -dir x := by
  have h : t • x = (-t) • (-x) := by rw [smul_neg, neg_smul, neg_neg]
  rw [h, dir_smul_pos (by linarith)]
  unfold dir
  rw [neg_dotProduct, dotProduct_neg, neg_neg, smul_neg]

private theorem planeRot_neg {n : ℕ} (d w : Fin n → ℝ) (c s : ℝ) : planeRot (-d) (-w) c s = planeRot d w c s := by
  ext i j
  rw [planeRot_apply, planeRot_apply]
  simp only [Pi.neg_apply]
  ring

theorem orthTransl_smul {n : ℕ} {t : ℝ} (ht : t ≠ 0) (x y : Fin n → ℝ) : orthTransl (t • x) (t • y) = orthTransl x y := by
  have hz : ∀ z : Fin n → ℝ, ∑ i, (t • z) i * (t • z) i = t ^ 2 * ∑ i, z i * z i := by
    intro z
    rw [Finset.mul_sum]
    exact Finset.sum_congr rfl fun i _ => by simp only [Pi.smul_apply, smul_eq_mul]; ring
  have ht2 : t ^ 2 ≠ 0 := pow_ne_zero 2 ht
  by_cases hy : y = 0
  · subst hy
    unfold orthTransl
    rw [smul_zero, if_pos (by simp), if_pos (by simp)]
  by_cases hx : x = 0
  · subst hx
    have h1 : ∑ i, y i * y i ≠ 0 := (dot_self_pos hy).ne'
    unfold orthTransl
    rw [smul_zero]
    simp only
    rw [if_neg h1, if_neg (by rw [hz]; exact mul_ne_zero ht2 h1), if_pos (by simp), if_pos (by simp)]
  rw [orthTransl_eq hx hy, orthTransl_eq (smul_ne_zero ht hx) (smul_ne_zero ht hy)]
  rcases lt_or_gt_of_ne ht with h | h
  · unfold sinSq
    rw [dir_smul_neg h, dir_smul_neg h, neg_dotProduct, dotProduct_neg, neg_neg]
    congr 1
    rw [← planeRot_neg (dir y)]
    congr 1
    split_ifs
    · rw [← smul_neg, smul_neg (dir x ⬝ᵥ dir y)]
      congr 1
      rw [neg_sub, sub_neg_eq_add, add_comm, ← sub_eq_add_neg]
    · rw [neg_zero]
  · unfold sinSq
    rw [dir_smul_pos h, dir_smul_pos h]

theorem pyAll_congr {α : Type} {k : ℕ} {f g : Fin k → Py α} (h : ∀ i, f i = g i) : pyAll f = pyAll g := congrArg _ (funext h)

theorem eaTerm_smul (E : Eigh) (G : Eig) (L : Lstsq) {n : ℕ} (hn : n ≠ 0) (v : Fin n → ℝ) (t : ℝ) (e : EllObj) :
    eaTerm E G L (t • v) e = (eaTerm E G L v e).map fun r => (r.1, t ^ 2 * r.2) := by
  cases hR : regShape E G n e with
  | error x => unfold eaTerm; rw [hR]; rfl
  | ok R =>
    rw [eaTerm_of E G L hn _ hR, eaTerm_of E G L hn _ hR]
    show Except.ok (R, _) = Except.ok (R, _)
    rw [mulVec_smul, smul_dotProduct, dotProduct_smul, smul_eq_mul, smul_eq_mul]
    congr 2
    ring

theorem pyMap_map_out {α β γ : Type} (f : α → Py β) (g : β → γ) (l : List α) :
    pyMap (fun a => (f a).map g) l = (pyMap f l).map (List.map g) := by
  induction l with
  | nil => rfl
  | cons a l ih =>
    simp only [pyMap, ih]
    cases f a with
    | error x => rfl
    | ok b => cases pyMap f l <;> rfl

theorem eaDir_smul (E : Eigh) (G : Eig) (L : Lstsq) (p : PropVals) {n : ℕ} (hn : n ≠ 0) (l : List EllObj) (c v : Fin n → ℝ) {t : ℝ}
    (ht : t ≠ 0) : eaDir E G L p l c (t • v) = eaDir E G L p l c v := by
  have ht2 : 0 < t ^ 2 := by positivity
  have hs : Real.sqrt (t ^ 2) = |t| := Real.sqrt_sq_eq_abs t
  have ht0 : |t| ≠ 0 := abs_ne_zero.2 ht
  unfold eaDir
  rw [show eaTerm E G L (t • v) = fun e => (eaTerm E G L v e).map fun r => (r.1, t ^ 2 * r.2) from funext (eaTerm_smul E G L hn v t),
    pyMap_map_out]
  cases pyMap (eaTerm E G L v) l with
  | error x => rfl
  | ok ts =>
    show (if ∃ r ∈ ts.map (fun r => (r.1, t ^ 2 * r.2)), ¬ 0 < r.2 then _ else _) = if ∃ r ∈ ts, ¬ 0 < r.2 then _ else _
    have hiff : (∃ r ∈ ts.map (fun r : Matrix (Fin n) (Fin n) ℝ × ℝ => (r.1, t ^ 2 * r.2)), ¬ 0 < r.2) ↔ ∃ r ∈ ts, ¬ 0 < r.2 := by
      constructor
      · rintro ⟨r, hr, h⟩
        obtain ⟨r', hr', rfl⟩ := List.mem_map.1 hr
        exact ⟨r', hr', fun h' => h (mul_pos ht2 h')⟩
      · rintro ⟨r, hr, h⟩
        exact ⟨_, List.mem_map_of_mem hr, fun h' => h ((pos_iff_pos_of_mul_pos h').1 ht2)⟩
    by_cases hb : ∃ r ∈ ts, ¬ 0 < r.2
    · rw [if_pos hb, if_pos (hiff.2 hb)]
    · rw [if_neg hb, if_neg (fun h => hb (hiff.1 h))]
      have h1 : ((ts.map (fun r : Matrix (Fin n) (Fin n) ℝ × ℝ => (r.1, t ^ 2 * r.2))).map (fun r => (1 / Real.sqrt r.2) • r.1)).sum =
          (1 / |t|) • (ts.map (fun r => (1 / Real.sqrt r.2) • r.1)).sum := by
        clear hb hiff
        induction ts with
        | nil => simp
        | cons r ts ih =>
          simp only [List.map_cons, List.sum_cons, smul_add, ih]
          rw [Real.sqrt_mul ht2.le, hs, smul_smul]
          congr 2
          rw [one_div_mul_one_div]
      have h2 : ((ts.map (fun r : Matrix (Fin n) (Fin n) ℝ × ℝ => (r.1, t ^ 2 * r.2))).map (fun r => Real.sqrt r.2)).sum =
          |t| * (ts.map (fun r => Real.sqrt r.2)).sum := by
        clear hb hiff h1
        induction ts with
        | nil => simp
        | cons r ts ih =>
          simp only [List.map_cons, List.sum_cons, mul_add, ih]
          rw [Real.sqrt_mul ht2.le, hs]
      simp only [h1, h2]
      congr 4
      rw [transpose_smul, ← smul_add, smul_smul]
      congr 1
      field_simp

theorem minkCheck_dimD {l : List EllObj} {n : ℕ} (h : minkCheck l n = .ok ()) : n ≠ 0 := by
  unfold minkCheck at h
  rintro rfl
  by_cases h1 : l = []
  · rw [if_pos h1] at h; cases h
  by_cases h2 : anyEmpty l
  · rw [if_neg h1, if_pos h2] at h; cases h
  by_cases h3 : ∀ e ∈ l, e.n = 0
  · obtain ⟨e, he⟩ := List.exists_mem_of_ne_nil l h1
    exact h2 ⟨e, he, h3 e he⟩
  · rw [if_neg h1, if_neg h2, if_pos h3] at h; cases h

theorem iaTerm_ok_iff (E : Eigh) (G : Eig) {n k : ℕ} (M src : Matrix (Fin n) (Fin k) ℝ) (e : EllObj)
    (t : Matrix (Fin n) (Fin n) ℝ × (Fin k → Matrix (Fin n) (Fin n) ℝ)) :
    iaTerm E G M src e = .ok t ↔ ∃ R, regShape E G n e = .ok R ∧ sqrtmPos E R e.absTol = .ok t.1 ∧
      ∀ j, orthTransl (t.1 *ᵥ fun i => M i j) (fun i => src i j) = .ok (t.2 j) := by
  unfold iaTerm
  cases regShape E G n e with
  | error x => exact ⟨fun h => (by cases h), fun ⟨R, h, _⟩ => (by cases h)⟩
  | ok R =>
    simp only
    cases hS : sqrtmPos E R e.absTol with
    | error x =>
      exact ⟨fun h => (by cases h), fun ⟨R', h, h', _⟩ => (by injection h with h; subst h; rw [hS] at h'; cases h')⟩
    | ok S =>
      simp only
      have hml : ∀ O, mlOrthTransl (fun i v => (S * M) i v) (fun i v (_ : Fin 1) => src i v) = .ok O ↔
          ∀ j, orthTransl (S *ᵥ fun i => M i j) (fun i => src i j) = .ok (O j 0) := by
        intro O
        unfold mlOrthTransl
        rw [pyAll_ok]
        refine forall_congr' fun j => ?_
        rw [pyAll_ok]
        exact ⟨fun h => h 0, fun h i => by rw [Subsingleton.elim i 0]; exact h⟩
      constructor
      · intro h
        cases hO : mlOrthTransl (fun i v => (S * M) i v) (fun i v (_ : Fin 1) => src i v) with
        | error x => rw [hO] at h; cases h
        | ok O =>
          rw [hO] at h
          injection h with h
          subst h
          exact ⟨R, rfl, hS, (hml O).1 hO⟩
      · rintro ⟨R', h, h', h''⟩
        injection h with h
        subst h
        rw [hS] at h'
        injection h' with h'
        obtain ⟨T, O⟩ := t
        simp only at h' h''
        subst h'
        rw [(hml fun j _ => O j).2 h'']

/-! ### Property theorems -/

/-- **C121**: `minksum_ea` and `minksum_ia` do not depend on the lengths and the signs of the directions: multiplying every direction by
a number that is not zero gives the same result or the same error, for all ellipsoids, degenerate ones included. -/
theorem C121_scale (E : Eigh) (G : Eig) (L : Lstsq) (p : PropVals) (l : List EllObj) {n k : ℕ} (M : Matrix (Fin n) (Fin k) ℝ)
    (t : Fin k → ℝ) (ht : ∀ j, t j ≠ 0) :
    minksumEa E G L p l (of fun i j => t j * M i j) = minksumEa E G L p l M ∧
    minksumIa E G p l (of fun i j => t j * M i j) = minksumIa E G p l M := by
  have hcol : ∀ j, (fun i => (of fun i j => t j * M i j : Matrix (Fin n) (Fin k) ℝ) i j) = t j • fun i => M i j := fun j => rfl
  constructor
  · unfold minksumEa
    cases hc : minkCheck l n with
    | error x => rfl
    | ok u =>
      have hn := minkCheck_dimD hc
      have : ∀ l', (fun j => eaDir E G L p l' (centSum n l') (fun i => (of fun i j => t j * M i j : Matrix (Fin n) (Fin k) ℝ) i j)) =
          fun j => eaDir E G L p l' (centSum n l') (fun i => M i j) := by
        intro l'
        funext j
        rw [hcol]
        exact eaDir_smul E G L p hn l' _ _ (ht j)
      simp only [this]
  · have hterm : ∀ S0 : Matrix (Fin n) (Fin n) ℝ, iaTerm E G (of fun i j => t j * M i j) (S0 * of fun i j => t j * M i j) =
        iaTerm E G M (S0 * M) := by
      intro S0
      have hmul : ∀ (S : Matrix (Fin n) (Fin n) ℝ) (j : Fin k),
          (fun i => (S * (of fun i j => t j * M i j : Matrix (Fin n) (Fin k) ℝ)) i j) = t j • fun i => (S * M) i j := by
        intro S j
        rw [col_mul, hcol, mulVec_smul, col_mul]
      funext e
      unfold iaTerm
      cases regShape E G n e with
      | error x => rfl
      | ok R =>
        simp only
        cases sqrtmPos E R e.absTol with
        | error x => rfl
        | ok S =>
          have : mlOrthTransl (fun i v => (S * (of fun i j => t j * M i j : Matrix (Fin n) (Fin k) ℝ)) i v)
              (fun i v (_ : Fin 1) => (S0 * (of fun i j => t j * M i j : Matrix (Fin n) (Fin k) ℝ)) i v) =
              mlOrthTransl (fun i v => (S * M) i v) (fun i v (_ : Fin 1) => (S0 * M) i v) := by
            unfold mlOrthTransl
            refine pyAll_congr fun v => pyAll_congr fun _ => ?_
            rw [hmul, hmul]
            exact orthTransl_smul (ht v) _ _
          simp only [this]
    unfold minksumIa
    simp only [hterm]

/-- **C121**: the directions are treated one by one: the approximations for a matrix of directions are those for the single columns, in
the same order; the call for the matrix succeeds exactly if the calls for all columns do. -/
theorem C121_columns (E : Eigh) (G : Eig) (L : Lstsq) (p : PropVals) (l : List EllObj) (hl : 2 ≤ l.length) {n k : ℕ} (hk : k ≠ 0)
    (M : Matrix (Fin n) (Fin k) ℝ) (rs : Fin k → EllObj) :
    (minksumEa E G L p l M = .ok (Arr.vec (List.ofFn rs)) ↔ ∀ j, minksumEa E G L p l (colMat fun i => M i j) = .ok (Arr.vec [rs j])) ∧
    (minksumIa E G p l M = .ok (Arr.vec (List.ofFn rs)) ↔ ∀ j, minksumIa E G p l (colMat fun i => M i j) = .ok (Arr.vec [rs j])) := by
  have hvec : ∀ {a b : List EllObj}, (Except.ok (Arr.vec a) : Py (Arr EllObj)) = .ok (Arr.vec b) ↔ a = b := by
    intro a b
    constructor
    · intro h
      injection h with h
      exact congrArg Arr.data h
    · rintro rfl; rfl
  have hfin : ∀ {m : ℕ} (f : Fin m → Py EllObj) (r : Fin m → EllObj),
      pyMap f (List.finRange m) = .ok (List.ofFn r) ↔ ∀ j, f j = .ok (r j) := by
    intro m f r
    rw [List.ofFn_eq_map, pyMap_ok_iff, List.forall₂_map_right_iff, List.forall₂_same]
    exact ⟨fun h j => h j (List.mem_finRange j), fun h j _ => h j⟩
  have hone : ∀ (f : Fin 1 → Py EllObj) (r : EllObj), pyMap f (List.finRange 1) = .ok [r] ↔ f 0 = .ok r := by
    intro f r
    have := hfin f fun _ => r
    rw [show List.ofFn (fun _ : Fin 1 => r) = [r] from rfl] at this
    rw [this]
    exact ⟨fun h => h 0, fun h j => by rw [Subsingleton.elim j 0]; exact h⟩
  have hmatch : ∀ (x : Py (List EllObj)) (r : List EllObj), (match x with
      | .error y => (.error y : Py (Arr EllObj))
      | .ok rs => .ok (Arr.vec rs)) = .ok (Arr.vec r) ↔ x = .ok r := by
    intro x r
    cases x with
    | error y => exact ⟨fun h => (by cases h), fun h => (by cases h)⟩
    | ok a =>
      exact (hvec (a := a) (b := r)).trans ⟨fun h => (by rw [h]), fun h => (by injection h)⟩
  obtain ⟨j0⟩ : Nonempty (Fin k) := ⟨⟨0, Nat.pos_of_ne_zero hk⟩⟩
  match l, hl with
  | e :: e' :: es, _ =>
  constructor
  · unfold minksumEa
    cases minkCheck (e :: e' :: es) n with
    | error x => exact ⟨fun h => (by cases h), fun h => (by cases h j0)⟩
    | ok u =>
      simp only
      refine (hmatch _ _).trans ((hfin _ _).trans (forall_congr' fun j => ?_))
      refine Iff.trans ?_ ((hmatch _ _).trans (hone _ _)).symm
      rfl
  · unfold minksumIa
    cases minkCheck (e :: e' :: es) n with
    | error x => exact ⟨fun h => (by cases h), fun h => (by cases h j0)⟩
    | ok u =>
      simp only
      cases sqrtmPos E (shapeAs n e) (minTol ((e :: e' :: es).map EllObj.absTol)) with
      | error x => exact ⟨fun h => (by cases h), fun h => (by cases h j0)⟩
      | ok S0 =>
        simp only
        set l := e :: e' :: es with hl
        have hsrc : ∀ j, S0 * colMat (fun i => M i j) = colMat fun i => (S0 * M) i j := fun j => rfl
        simp only [hsrc]
        have hcol : ∀ (x : EllObj) t, iaTerm E G M (S0 * M) x = .ok t → ∀ j,
            iaTerm E G (colMat fun i => M i j) (colMat fun i => (S0 * M) i j) x = .ok (t.1, fun _ => t.2 j) := by
          intro x t h j
          obtain ⟨R, h1, h2, h3⟩ := (iaTerm_ok_iff E G _ _ x t).1 h
          exact (iaTerm_ok_iff E G _ _ x _).2 ⟨R, h1, h2, fun _ => h3 j⟩
        have hback : ∀ x : EllObj, (∀ j, ¬ Raises (iaTerm E G (colMat fun i => M i j) (colMat fun i => (S0 * M) i j) x)) →
            ¬ Raises (iaTerm E G M (S0 * M) x) := by
          intro x h
          have h' : ∀ j, ∃ t, iaTerm E G (colMat fun i => M i j) (colMat fun i => (S0 * M) i j) x = .ok t := by
            intro j
            cases hx : iaTerm E G (colMat fun i => M i j) (colMat fun i => (S0 * M) i j) x with
            | error y => exact absurd ⟨y, hx⟩ (h j)
            | ok t => exact ⟨t, rfl⟩
          choose t ht using h'
          obtain ⟨R, h1, h2, -⟩ := (iaTerm_ok_iff E G _ _ x _).1 (ht j0)
          have h3 : iaTerm E G M (S0 * M) x = .ok ((t j0).1, fun j => (t j).2 0) := by
            refine (iaTerm_ok_iff E G _ _ x _).2 ⟨R, h1, h2, fun j => ?_⟩
            obtain ⟨R', h1', h2', h3'⟩ := (iaTerm_ok_iff E G _ _ x _).1 (ht j)
            rw [h1] at h1'
            injection h1' with h1'
            subst h1'
            rw [h2] at h2'
            injection h2' with h2'
            have := h3' 0
            rw [← h2'] at this
            exact this
          rintro ⟨y, hy⟩
          rw [h3] at hy; cases hy
        cases hts : pyMap (iaTerm E G M (S0 * M)) l with
        | error x =>
          refine ⟨fun h => (by cases h), fun h => ?_⟩
          exfalso
          obtain ⟨y, hy, hr⟩ := (pyMap_raises _ _).1 ⟨x, hts⟩
          refine hback y (fun j hj => ?_) hr
          obtain ⟨z, hz⟩ := (pyMap_raises (iaTerm E G (colMat fun i => M i j) (colMat fun i => (S0 * M) i j)) l).2 ⟨y, hy, hj⟩
          have := h j
          rw [hz] at this
          cases this
        | ok ts =>
          have hj : ∀ j, pyMap (iaTerm E G (colMat fun i => M i j) (colMat fun i => (S0 * M) i j)) l =
              .ok (ts.map fun t => (t.1, fun _ => t.2 j)) := by
            intro j
            rw [pyMap_ok_iff] at hts ⊢
            rw [List.forall₂_map_right_iff]
            exact hts.imp fun x t h => hcol x t h j
          simp only [hj]
          refine (hmatch _ _).trans ((hfin _ _).trans (forall_congr' fun j => ?_))
          refine Iff.trans ?_ ((hmatch _ _).trans (hone _ _)).symm
          unfold iaDir
          rw [List.map_map]
          rfl

/-- **C121**: what `rho` returns for a PSD shape: longer directions have proportionally larger support values and the same boundary
points; for the opposite direction the support value is that of the set reflected in its centre, and the boundary point is reflected;
the support value of a sum of directions is at most the sum of the support values. -/
theorem C121_rho {n k : ℕ} (e : EllN n) (he : e.PSD) (D D' : Matrix (Fin n) (Fin k) ℝ) (t : Fin k → ℝ) (ht : ∀ j, 0 < t j) :
    ∃ (s s' s'' : Fin k → ℝ) (X X' X'' : Fin k → Fin n → ℝ),
      rhoMat e.Q D e.props.absTol e.c = .ok (s, fun j i => .fin (X j i)) ∧
      rhoMat e.Q D' e.props.absTol e.c = .ok (s', fun j i => .fin (X' j i)) ∧
      rhoMat e.Q (D + D') e.props.absTol e.c = .ok (s'', fun j i => .fin (X'' j i)) ∧
      rhoMat e.Q (of fun i j => t j * D i j) e.props.absTol e.c = .ok (fun j => t j * s j, fun j i => .fin (X j i)) ∧
      rhoMat e.Q (-D) e.props.absTol e.c =
        .ok (fun j => s j - 2 * ∑ i, e.c i * D i j, fun j i => .fin (2 * e.c i - X j i)) ∧
      ∀ j, s'' j ≤ s j + s' j := by
  have ha : 0 ≤ e.props.absTol := he.1.1.le
  refine ⟨_, _, _, _, _, _, rhoMat_psd he.2 _ ha _, rhoMat_psd he.2 _ ha _, rhoMat_psd he.2 _ ha _, ?_, ?_, fun j => ?_⟩
  · rw [rhoMat_psd he.2 _ ha]
    have hc : ∀ j, dirCol (of fun i j => t j * D i j) j = t j • dirCol D j := fun j => rfl
    have hq : ∀ j, Real.sqrt ((t j • dirCol D j) ⬝ᵥ e.Q *ᵥ (t j • dirCol D j)) = t j * Real.sqrt (dirCol D j ⬝ᵥ e.Q *ᵥ dirCol D j) := by
      intro j
      rw [mulVec_smul, smul_dotProduct, dotProduct_smul, smul_eq_mul, smul_eq_mul, ← mul_assoc, Real.sqrt_mul (mul_self_nonneg _),
        Real.sqrt_mul_self (ht j).le]
    congr 2
    · funext j
      rw [hc, hq, dotProduct_smul, smul_eq_mul, mul_add]
    · funext j i
      rw [hc, hq, mulVec_smul, smul_smul]
      congr 4
      have := (ht j).ne'
      field_simp
  · rw [rhoMat_psd he.2 _ ha]
    have hc : ∀ j, dirCol (-D) j = -dirCol D j := fun j => rfl
    have hq : ∀ j, (-dirCol D j) ⬝ᵥ e.Q *ᵥ (-dirCol D j) = dirCol D j ⬝ᵥ e.Q *ᵥ dirCol D j := by
      intro j
      rw [mulVec_neg, neg_dotProduct_neg]
    congr 2
    · funext j
      rw [hc, hq, dotProduct_neg]
      have : ∑ i, e.c i * D i j = e.c ⬝ᵥ dirCol D j := rfl
      rw [this]; ring
    · funext j i
      rw [hc, hq, mulVec_neg]
      congr 1
      simp only [Pi.add_apply, Pi.smul_apply, Pi.neg_apply, smul_eq_mul]
      ring
  · obtain ⟨⟨x, hx, hxe⟩, -⟩ := ell_support (c := e.c) he.2 (dirCol (D + D') j)
    have h1 := (ell_support (c := e.c) he.2 (dirCol D j)).2 ⟨x, hx, rfl⟩
    have h2 := (ell_support (c := e.c) he.2 (dirCol D' j)).2 ⟨x, hx, rfl⟩
    have hc : dirCol (D + D') j = dirCol D j + dirCol D' j := rfl
    simp only at hxe h1 h2
    show e.c ⬝ᵥ dirCol (D + D') j + _ ≤ (e.c ⬝ᵥ dirCol D j + _) + (e.c ⬝ᵥ dirCol D' j + _)
    rw [dotProduct_comm e.c, dotProduct_comm e.c, dotProduct_comm e.c, ← hxe, hc, add_dotProduct]
    exact add_le_add h1 h2

/-! ### Examples -/

/-- Two ellipsoids and two directions, the second one of them turned back and made three times as long: the same two approximations,
and each of them is that of the single direction. -/
example (E : Eigh) (G : Eig) (L : Lstsq) :
    ∃ rs : Fin 2 → EllN 2,
      minksumEa E G L stdProps (twoEll.map EllN.obj) !![1, 1; 2, -1] = .ok (Arr.vec (List.ofFn fun j => (rs j).obj)) ∧
      minksumEa E G L stdProps (twoEll.map EllN.obj) (of fun i j => (![1, -3] : Fin 2 → ℝ) j * (!![1, 1; 2, -1] : Matrix (Fin 2) (Fin 2) ℝ) i j) =
        .ok (Arr.vec (List.ofFn fun j => (rs j).obj)) ∧
      minksumEa E G L stdProps (twoEll.map EllN.obj) (colMat ![1, -1]) = .ok (Arr.vec [(rs 1).obj]) := by
  have hM : ∀ j, (fun i => (!![1, 1; 2, -1] : Matrix (Fin 2) (Fin 2) ℝ) i j) ≠ 0 := by
    intro j h
    have := congrFun h 0
    fin_cases j <;> simp at this
  obtain ⟨rs, h, -⟩ := C120_turn_minksum_ea E G L stdProps stdProps_ok two_ne_zero (U := 1) (by simp [IsOrth]) twoEll le_rfl twoEll_nonDeg _ hM
  refine ⟨rs, h, ?_, ?_⟩
  · rw [(C121_scale E G L stdProps (twoEll.map EllN.obj) _ _ fun j => ?_).1, h]
    fin_cases j <;> simp
  · have := (C121_columns E G L stdProps (twoEll.map EllN.obj) le_rfl two_ne_zero _ _).1.1 h 1
    rw [← this]
    congr 1
    ext i j
    fin_cases i <;> rfl

/-- The support function of a segment: a degenerate shape with a centre different from zero. -/
example : ∃ s : Fin 1 → ℝ, ∃ X : Fin 1 → Fin 2 → ℝ,
    rhoMat (!![4, 0; 0, 0] : Matrix (Fin 2) (Fin 2) ℝ) (colMat ![1, 0]) stdProps.absTol ![1, 1] = .ok (s, fun j i => .fin (X j i)) ∧
    rhoMat (!![4, 0; 0, 0] : Matrix (Fin 2) (Fin 2) ℝ) (-colMat ![1, 0]) stdProps.absTol ![1, 1] =
      .ok (fun j => s j - 2, fun j i => .fin (2 - X j i)) := by
  have he : (⟨![1, 1], !![4, 0; 0, 0], stdProps⟩ : EllN 2).PSD := by
    refine ⟨stdProps_ok, ?_, fun x => ?_⟩
    · ext i j
      fin_cases i <;> fin_cases j <;> rfl
    · simp [dotProduct, mulVec, Fin.sum_univ_two]
      nlinarith [mul_self_nonneg (x 0)]
  obtain ⟨s, _, _, X, _, _, h, -, -, -, h', -⟩ := C121_rho _ he (colMat ![1, 0]) (colMat ![1, 0]) (fun _ => 1) fun _ => one_pos
  refine ⟨s, X, h, h'.trans ?_⟩
  congr 2
  · funext j
    simp [colMat, Fin.sum_univ_two]
  · funext j i
    fin_cases i <;> simp

end Ellipy.Ell
