import Verif.Props.TranslLaws
import Verif.Props.LinImage
import Verif.Props.MinksumAlg

/-! Property theorems C146: which rearrangements of the summands `minksum_ia` respects. -/

namespace Ellipy.Ell
open Matrix Ellipy.LA

/-! ### The result in closed form -/

private theorem orthTransl_self' {n : ℕ} {x : Fin n → ℝ} (hx : x ≠ 0) : orthTransl x x = .ok 1 := by
  have hd := dir_dot hx
  have hA : Apart x x := Or.inl (by rw [sinSq, hd]; norm_num)
  obtain ⟨O, hO, -⟩ := orthTransl_spec hx hx hA
  have hne : dir x ≠ -dir x := by
    intro h
    have h1 : dir x ⬝ᵥ dir x = dir x ⬝ᵥ (-dir x) := congrArg (fun z => dir x ⬝ᵥ z) h
    rw [dotProduct_neg, hd] at h1
    norm_num at h1
  rw [hO, (C126_plane hA hne hO).2.2, hd]
  refine congrArg Except.ok ?_
  ext i j
  simp only [Matrix.sub_apply, Matrix.add_apply, Matrix.smul_apply, vecMulVec_apply, Pi.add_apply, smul_eq_mul]
  ring

private def IsTerm {n : ℕ} (src v : Fin n → ℝ) (Q A : Matrix (Fin n) (Fin n) ℝ) : Prop :=
  ∃ S O : Matrix (Fin n) (Fin n) ℝ, IsPSD S ∧ S * S = Q ∧ orthTransl (S *ᵥ v) src = .ok O ∧ A = O * S

private theorem IsTerm.unique {n : ℕ} {src v : Fin n → ℝ} {Q A B : Matrix (Fin n) (Fin n) ℝ} (h : IsTerm src v Q A) (h' : IsTerm src v Q B) : A = B := by
  obtain ⟨S, O, h1, h2, h3, rfl⟩ := h
  obtain ⟨S', O', h1', h2', h3', rfl⟩ := h'
  have := psd_root_unique h1 h1' (h2.trans h2'.symm)
  subst this
  rw [h3] at h3'
  cases h3'
  rfl

private theorem IsTerm.scale {n : ℕ} {src v : Fin n → ℝ} {Q A : Matrix (Fin n) (Fin n) ℝ} {t u : ℝ} (ht : 0 < t) (hu : 0 < u) (h : IsTerm src v Q A) :
    IsTerm (u • src) v ((t ^ 2) • Q) (t • A) := by
  obtain ⟨S, O, h1, h2, h3, rfl⟩ := h
  refine ⟨t • S, O, ⟨by rw [transpose_smul, h1.1], fun x => ?_⟩, ?_, ?_, by rw [Matrix.mul_smul]⟩
  · rw [smul_mulVec, dotProduct_smul, smul_eq_mul]
    exact mul_nonneg ht.le (h1.2 x)
  · rw [Matrix.smul_mul, Matrix.mul_smul, smul_smul, h2, sq]
  · rw [smul_mulVec, (C126_lengths _ _ ht hu).1, h3]

private noncomputable def term {n : ℕ} (src v : Fin n → ℝ) (Q : Matrix (Fin n) (Fin n) ℝ) : Matrix (Fin n) (Fin n) ℝ :=
  open Classical in if h : ∃ A, IsTerm src v Q A then h.choose else 0

private theorem term_eq {n : ℕ} {src v : Fin n → ℝ} {Q A : Matrix (Fin n) (Fin n) ℝ} (h : IsTerm src v Q A) : term src v Q = A := by
  unfold term
  rw [dif_pos ⟨A, h⟩]
  exact (Exists.choose_spec (⟨A, h⟩ : ∃ A, IsTerm src v Q A)).unique h

private theorem exists_term {n : ℕ} {e : EllN n} (he : e.NonDeg) {src v : Fin n → ℝ} (hs : src ≠ 0) (hv : v ≠ 0) : ∃ A, IsTerm src v e.Q A := by
  obtain ⟨S, hS, hSS⟩ := exists_root he.psd.2
  obtain ⟨O, hO⟩ : ∃ O, orthTransl (S *ᵥ v) src = .ok O := by
    have hne := root_ne_zero he hS hSS hv
    exact ⟨_, orthTransl_eq hne hs⟩
  exact ⟨O * S, S, O, hS, hSS, hO, rfl⟩

/-- The matrix whose square is the result in the direction `v`. -/
private noncomputable def total {n : ℕ} (e : EllN n) (es : List (EllN n)) (v : Fin n → ℝ) (S0 : Matrix (Fin n) (Fin n) ℝ) : Matrix (Fin n) (Fin n) ℝ :=
  ((e :: es).map fun x => term (S0 *ᵥ v) v x.Q).sum

private theorem ia_closed (E : Eigh) (G : Eig) (p : PropVals) (hp : p.ok) {n k : ℕ} (hn : n ≠ 0) (e : EllN n) (es : List (EllN n)) (h2 : es ≠ [])
    (hes : ∀ x ∈ e :: es, x.NonDeg) (M : Matrix (Fin n) (Fin k) ℝ) (hM : ∀ j, (fun i => M i j) ≠ 0) {S0 : Matrix (Fin n) (Fin n) ℝ} (h0 : IsPSD S0)
    (h00 : S0 * S0 = e.Q) :
    minksumIa E G p ((e :: es).map EllN.obj) M = .ok (Arr.vec (List.ofFn fun j =>
      ⟨n, ((e :: es).map EllN.c).sum, (total e es (fun i => M i j) S0)ᵀ * total e es (fun i => M i j) S0, p.absTol, p.relTol, p.n2d, p.n3d⟩)) := by
  match es, h2 with
  | e' :: es, _ =>
  obtain ⟨S0', ts, a1, a2, a3, a4⟩ := minksumIa_form E G p hp hn e e' es hes M hM
  have := psd_root_unique a1 h0 (a2.trans h00.symm)
  subst this
  have key : ∀ (l : List (EllN n)) ts, List.Forall₂ (IaSpec M (S0' * M)) l ts → ∀ j,
      (ts.map (fun t => t.2 j * t.1)).sum = (l.map fun x => term (S0' *ᵥ fun i => M i j) (fun i => M i j) x.Q).sum := by
    intro l ts h j
    induction h with
    | nil => rfl
    | @cons x t l ts hx _ ih =>
      rw [List.map_cons, List.sum_cons, List.map_cons, List.sum_cons, ih]
      congr 1
      exact (term_eq ⟨t.1, t.2 j, hx.1, hx.2.1, hx.2.2 j, rfl⟩).symm
  rw [a4]
  congr 3
  funext j
  rw [key _ _ a3 j]
  rfl

/-! ### Laws -/

/-- **C146**: the order of the summands after the first does not matter. -/
theorem C146_order (E : Eigh) (G : Eig) (p : PropVals) (hp : p.ok) {n k : ℕ} (hn : n ≠ 0) (e : EllN n) (es fs : List (EllN n)) (hperm : es.Perm fs)
    (hes : ∀ x ∈ e :: es, x.NonDeg) (M : Matrix (Fin n) (Fin k) ℝ) (hM : ∀ j, (fun i => M i j) ≠ 0) :
    minksumIa E G p ((e :: fs).map EllN.obj) M = minksumIa E G p ((e :: es).map EllN.obj) M := by
  by_cases h2 : es = []
  · subst h2
    rw [hperm.nil_eq]
  · have h2' : fs ≠ [] := fun h => h2 (by subst h; exact hperm.eq_nil)
    obtain ⟨S0, h0, h00⟩ := exists_root (hes e List.mem_cons_self).psd.2
    have hp' : (e :: es).Perm (e :: fs) := hperm.cons e
    rw [ia_closed E G p hp hn e es h2 hes M hM h0 h00, ia_closed E G p hp hn e fs h2' (fun x hx => hes x (hp'.mem_iff.2 hx)) M hM h0 h00]
    unfold total
    simp only [(hp'.map EllN.c).sum_eq, (hp'.map _).sum_eq]

/-- **C146**: two summands may be exchanged. -/
theorem C146_swap (E : Eigh) (G : Eig) (p : PropVals) (hp : p.ok) {n k : ℕ} (hn : n ≠ 0) (e f : EllN n) (he : e.NonDeg) (hf : f.NonDeg)
    (M : Matrix (Fin n) (Fin k) ℝ) (hM : ∀ j, (fun i => M i j) ≠ 0)
    (hap : ∀ S S0, IsPSD S → S * S = f.Q → IsPSD S0 → S0 * S0 = e.Q → ∀ j, Apart (S *ᵥ fun i => M i j) (S0 *ᵥ fun i => M i j)) :
    minksumIa E G p [f.obj, e.obj] M = minksumIa E G p [e.obj, f.obj] M := by
  obtain ⟨S, hS, hSS⟩ := exists_root he.psd.2
  obtain ⟨T, hT, hTT⟩ := exists_root hf.psd.2
  have h1 := ia_closed E G p hp hn e [f] (by simp) (by simp [he, hf]) M hM hS hSS
  have h2 := ia_closed E G p hp hn f [e] (by simp) (by simp [he, hf]) M hM hT hTT
  simp only [List.map_cons, List.map_nil] at h1 h2
  rw [h1, h2]
  congr 3
  funext j
  have hv := hM j
  have ap := hap T S hT hTT hS hSS j
  set v : Fin n → ℝ := fun i => M i j
  have same : ∀ {g : EllN n} {R : Matrix (Fin n) (Fin n) ℝ}, g.NonDeg → IsPSD R → R * R = g.Q → term (R *ᵥ v) v g.Q = R := by
    intro g R hg hR hRR
    have hne := root_ne_zero hg hR hRR hv
    refine term_eq ⟨R, 1, hR, hRR, ?_, by rw [Matrix.one_mul]⟩
    exact orthTransl_self' hne
  obtain ⟨O, hO⟩ : ∃ O, orthTransl (T *ᵥ v) (S *ᵥ v) = .ok O :=
    ⟨_, orthTransl_eq (root_ne_zero hf hT hTT hv) (root_ne_zero he hS hSS hv)⟩
  obtain ⟨hO', o1, o2⟩ := C126_back ap hO
  have t1 : term (S *ᵥ v) v f.Q = O * T := term_eq ⟨T, O, hT, hTT, hO, rfl⟩
  have t2 : term (T *ᵥ v) v e.Q = Oᵀ * S := term_eq ⟨S, Oᵀ, hS, hSS, hO', rfl⟩
  have e1 : total e [f] v S = S + O * T := by
    simp only [total, List.map_cons, List.map_nil, List.sum_cons, List.sum_nil, add_zero]
    rw [same he hS hSS, t1]
  have e2 : total f [e] v T = Oᵀ * (S + O * T) := by
    simp only [total, List.map_cons, List.map_nil, List.sum_cons, List.sum_nil, add_zero]
    rw [same hf hT hTT, t2, Matrix.mul_add, ← Matrix.mul_assoc, o2, Matrix.one_mul, add_comm]
  rw [e1, e2, transpose_mul, transpose_transpose]
  congr 1
  · simp [add_comm]
  · rw [Matrix.mul_assoc, ← Matrix.mul_assoc O, o1, Matrix.one_mul]

/-- **C146**: two summands of the same shape, one `t` times as large, may be replaced by the one that is `1 + t` times as large; `minksum_ia`, after the
first place. -/
theorem C146_merge (E : Eigh) (G : Eig) (p : PropVals) (hp : p.ok) {n k : ℕ} (hn : n ≠ 0) (e f g h : EllN n) (es : List (EllN n))
    (hes : ∀ x ∈ e :: f :: g :: h :: es, x.NonDeg) {t : ℝ} (ht : 0 < t) (hg : g.Q = t ^ 2 • f.Q) (hh : h.Q = (1 + t) ^ 2 • f.Q) (hc : h.c = f.c + g.c)
    (M : Matrix (Fin n) (Fin k) ℝ) (hM : ∀ j, (fun i => M i j) ≠ 0) :
    minksumIa E G p ((e :: f :: g :: es).map EllN.obj) M = minksumIa E G p ((e :: h :: es).map EllN.obj) M := by
  obtain ⟨S0, h0, h00⟩ := exists_root (hes e List.mem_cons_self).psd.2
  rw [ia_closed E G p hp hn e (f :: g :: es) (by simp) (fun x hx => hes x (by simp at hx ⊢; tauto)) M hM h0 h00,
    ia_closed E G p hp hn e (h :: es) (by simp) (fun x hx => hes x (by simp at hx ⊢; tauto)) M hM h0 h00]
  have key : ∀ j, total e (f :: g :: es) (fun i => M i j) S0 = total e (h :: es) (fun i => M i j) S0 := by
    intro j
    have hv := hM j
    set v : Fin n → ℝ := fun i => M i j
    obtain ⟨A, hA⟩ := exists_term (hes f (by simp)) (root_ne_zero (hes e (by simp)) h0 h00 hv) hv
    have a1 := hA.scale ht one_pos
    have a2 := hA.scale (show 0 < 1 + t by linarith) one_pos
    rw [one_smul, ← hg] at a1
    rw [one_smul, ← hh] at a2
    simp only [total, List.map_cons, List.sum_cons]
    rw [term_eq hA, term_eq a1, term_eq a2, add_smul, one_smul]
    abel
  have hcs : ((e :: f :: g :: es).map EllN.c).sum = ((e :: h :: es).map EllN.c).sum := by
    simp only [List.map_cons, List.sum_cons, hc]
    abel
  simp only [key, hcs]

/-- **C146**: the same at the first place. -/
theorem C146_merge_first (E : Eigh) (G : Eig) (p : PropVals) (hp : p.ok) {n k : ℕ} (hn : n ≠ 0) (f g h : EllN n) (es : List (EllN n)) (h2 : es ≠ [])
    (hes : ∀ x ∈ f :: g :: h :: es, x.NonDeg) {t : ℝ} (ht : 0 < t) (hg : g.Q = t ^ 2 • f.Q) (hh : h.Q = (1 + t) ^ 2 • f.Q) (hc : h.c = f.c + g.c)
    (M : Matrix (Fin n) (Fin k) ℝ) (hM : ∀ j, (fun i => M i j) ≠ 0) :
    minksumIa E G p ((f :: g :: es).map EllN.obj) M = minksumIa E G p ((h :: es).map EllN.obj) M := by
  obtain ⟨S0, h0, h00⟩ := exists_root (hes f List.mem_cons_self).psd.2
  have ht1 : 0 < 1 + t := by linarith
  have h1 : IsPSD ((1 + t) • S0) := ⟨by rw [transpose_smul, h0.1], fun x => by
    rw [smul_mulVec, dotProduct_smul, smul_eq_mul]
    exact mul_nonneg ht1.le (h0.2 x)⟩
  have h11 : ((1 + t) • S0) * ((1 + t) • S0) = h.Q := by
    rw [Matrix.smul_mul, Matrix.mul_smul, smul_smul, h00, hh, sq]
  rw [ia_closed E G p hp hn f (g :: es) (by simp) (fun x hx => hes x (by simp at hx ⊢; tauto)) M hM h0 h00,
    ia_closed E G p hp hn h es h2 (fun x hx => hes x (by simp at hx ⊢; tauto)) M hM h1 h11]
  have key : ∀ j, total f (g :: es) (fun i => M i j) S0 = total h es (fun i => M i j) ((1 + t) • S0) := by
    intro j
    have hv := hM j
    set v : Fin n → ℝ := fun i => M i j
    have hs := root_ne_zero (hes f (by simp)) h0 h00 hv
    obtain ⟨A, hA⟩ := exists_term (hes f (by simp)) hs hv
    have a1 := hA.scale ht one_pos
    have a2 := hA.scale ht1 ht1
    rw [one_smul, ← hg] at a1
    rw [← hh] at a2
    simp only [total, List.map_cons, List.sum_cons, smul_mulVec]
    have hrest : es.map (fun x => term ((1 + t) • (S0 *ᵥ v)) v x.Q) = es.map (fun x => term (S0 *ᵥ v) v x.Q) := by
      refine List.map_congr_left (fun x hx => ?_)
      obtain ⟨B, hB⟩ := exists_term (hes x (by simp [hx])) hs hv
      have b1 := hB.scale one_pos ht1
      rw [one_pow, one_smul, one_smul] at b1
      rw [term_eq b1, term_eq hB]
    rw [hrest, term_eq hA, term_eq a1, term_eq a2, add_smul, one_smul]
    abel
  have hcs : ((f :: g :: es).map EllN.c).sum = ((h :: es).map EllN.c).sum := by
    simp only [List.map_cons, List.sum_cons, hc]
    abel
  simp only [key, hcs]

/-- **C146**: `minksum_ea` allows this at every place. -/
theorem C146_merge_ea (E : Eigh) (G : Eig) (L : Lstsq) (p : PropVals) (hp : p.ok) {n k : ℕ} (hn : n ≠ 0) (f g h : EllN n) (es : List (EllN n)) (h2 : es ≠ [])
    (hes : ∀ x ∈ f :: g :: h :: es, x.NonDeg) {t : ℝ} (ht : 0 < t) (hg : g.Q = t ^ 2 • f.Q) (hh : h.Q = (1 + t) ^ 2 • f.Q) (hc : h.c = f.c + g.c)
    (M : Matrix (Fin n) (Fin k) ℝ) (hM : ∀ j, (fun i => M i j) ≠ 0) :
    minksumEa E G L p ((f :: g :: es).map EllN.obj) M = minksumEa E G L p ((h :: es).map EllN.obj) M := by
  have hl : 1 ≤ es.length := List.length_pos_iff.2 h2
  rw [minksumEa_eq E G L p hp hn (f :: g :: es) (by simp) (fun x hx => hes x (by simp at hx ⊢; tauto)) M hM,
    minksumEa_eq E G L p hp hn (h :: es) (by simp; omega) (fun x hx => hes x (by simp at hx ⊢; tauto)) M hM]
  have hcs : ((f :: g :: es).map EllN.c).sum = ((h :: es).map EllN.c).sum := by
    simp only [List.map_cons, List.sum_cons, hc]
    abel
  have key : ∀ j, eaShape (f :: g :: es) (fun i => M i j) = eaShape (h :: es) (fun i => M i j) := by
    intro j
    have hv := hM j
    set v : Fin n → ℝ := fun i => M i j
    have hpos := Real.sqrt_pos.2 ((hes f (by simp)).pos hv)
    have q : ∀ s : ℝ, 0 < s → √(v ⬝ᵥ (s ^ 2 • f.Q) *ᵥ v) = s * √(v ⬝ᵥ f.Q *ᵥ v) := by
      intro s hs
      rw [smul_mulVec, dotProduct_smul, smul_eq_mul, Real.sqrt_mul (sq_nonneg s), Real.sqrt_sq hs.le]
    simp only [eaShape, List.map_cons, List.sum_cons, hg, hh]
    rw [q t ht, q (1 + t) (by linarith)]
    set r := √(v ⬝ᵥ f.Q *ᵥ v)
    have e1 : (1 / (t * r)) • t ^ 2 • f.Q = (t / r) • f.Q := by rw [smul_smul]; congr 1; field_simp
    have e2 : (1 / ((1 + t) * r)) • (1 + t) ^ 2 • f.Q = ((1 + t) / r) • f.Q := by
      rw [smul_smul]; congr 1
      have : 1 + t ≠ 0 := by linarith
      field_simp
    rw [e1, e2, ← add_assoc r, ← add_assoc, ← add_smul, show r + t * r = (1 + t) * r by ring, show 1 / r + t / r = (1 + t) / r by ring]
  simp only [key, hcs]

/-- **C146**: enlarging all the summands `s`-fold enlarges the results `s`-fold. -/
theorem C146_scale (E : Eigh) (G : Eig) (p : PropVals) (hp : p.ok) {n k : ℕ} (hn : n ≠ 0) (e : EllN n) (es : List (EllN n)) (h2 : es ≠ []) {s : ℝ} (hs : 0 < s)
    (hes : ∀ x ∈ e :: es, x.NonDeg) (hes' : ∀ x ∈ e :: es, (⟨s • x.c, s ^ 2 • x.Q, x.props⟩ : EllN n).NonDeg) (M : Matrix (Fin n) (Fin k) ℝ)
    (hM : ∀ j, (fun i => M i j) ≠ 0) :
    ∃ Q : Fin k → Matrix (Fin n) (Fin n) ℝ, ∃ c : Fin n → ℝ,
      minksumIa E G p ((e :: es).map EllN.obj) M = .ok (Arr.vec (List.ofFn fun j => ⟨n, c, Q j, p.absTol, p.relTol, p.n2d, p.n3d⟩)) ∧
      minksumIa E G p ((e :: es).map fun x => (⟨s • x.c, s ^ 2 • x.Q, x.props⟩ : EllN n).obj) M =
        .ok (Arr.vec (List.ofFn fun j => ⟨n, s • c, s ^ 2 • Q j, p.absTol, p.relTol, p.n2d, p.n3d⟩)) := by
  obtain ⟨S0, h0, h00⟩ := exists_root (hes e List.mem_cons_self).psd.2
  have h1 : IsPSD (s • S0) := ⟨by rw [transpose_smul, h0.1], fun x => by
    rw [smul_mulVec, dotProduct_smul, smul_eq_mul]
    exact mul_nonneg hs.le (h0.2 x)⟩
  have h11 : (s • S0) * (s • S0) = s ^ 2 • e.Q := by
    rw [Matrix.smul_mul, Matrix.mul_smul, smul_smul, h00, sq]
  refine ⟨_, _, ia_closed E G p hp hn e es h2 hes M hM h0 h00, ?_⟩
  have e1 : ((e :: es).map fun x => (⟨s • x.c, s ^ 2 • x.Q, x.props⟩ : EllN n).obj) =
      ((⟨s • e.c, s ^ 2 • e.Q, e.props⟩ : EllN n) :: es.map fun x => (⟨s • x.c, s ^ 2 • x.Q, x.props⟩ : EllN n)).map EllN.obj := by
    simp [List.map_map, Function.comp_def]
  rw [e1, ia_closed E G p hp hn (⟨s • e.c, s ^ 2 • e.Q, e.props⟩ : EllN n) (es.map fun x => (⟨s • x.c, s ^ 2 • x.Q, x.props⟩ : EllN n)) (by simpa using h2) (by
    intro x hx
    rw [← List.map_cons (f := fun x : EllN n => (⟨s • x.c, s ^ 2 • x.Q, x.props⟩ : EllN n))] at hx
    obtain ⟨y, hy, rfl⟩ := List.mem_map.1 hx
    exact hes' y hy) M hM h1 h11]
  have hcs : (((⟨s • e.c, s ^ 2 • e.Q, e.props⟩ : EllN n) :: es.map fun x => (⟨s • x.c, s ^ 2 • x.Q, x.props⟩ : EllN n)).map EllN.c).sum =
      s • ((e :: es).map EllN.c).sum := by
    rw [List.smul_sum]
    simp [List.map_map, Function.comp_def]
  have key : ∀ j, total (⟨s • e.c, s ^ 2 • e.Q, e.props⟩ : EllN n) (es.map fun x => (⟨s • x.c, s ^ 2 • x.Q, x.props⟩ : EllN n)) (fun i => M i j) (s • S0) =
      s • total e es (fun i => M i j) S0 := by
    intro j
    have hv := hM j
    set v : Fin n → ℝ := fun i => M i j
    have hne := root_ne_zero (hes e (by simp)) h0 h00 hv
    unfold total
    rw [← List.map_cons (f := fun x : EllN n => (⟨s • x.c, s ^ 2 • x.Q, x.props⟩ : EllN n)), List.map_map, List.smul_sum, List.map_map]
    congr 1
    refine List.map_congr_left (fun x hx => ?_)
    obtain ⟨A, hA⟩ := exists_term (hes x hx) hne hv
    simp only [Function.comp, smul_mulVec]
    rw [term_eq hA, term_eq (hA.scale hs hs)]
  simp only [key, hcs, transpose_smul, Matrix.smul_mul, Matrix.mul_smul, smul_smul, ← sq]

private theorem nonDeg_dg {a b : ℝ} (c : Fin 2 → ℝ) (p : PropVals) (hp : p.ok) (h1 : p.absTol < a) (h2 : p.absTol < b) :
    (⟨c, !![a, 0; 0, b], p⟩ : EllN 2).NonDeg := by
  refine ⟨hp, by ext i j; fin_cases i <;> fin_cases j <;> rfl, fun x hx => ?_⟩
  have h0 := dot_self_pos hx
  simp only [dotProduct, mulVec, Fin.sum_univ_two, of_apply, cons_val_zero, cons_val_one] at h0 ⊢
  by_cases hx0 : x 0 = 0
  · rw [hx0] at h0 ⊢
    have : 0 < x 1 * x 1 := by linarith
    nlinarith
  · have : 0 < x 0 * x 0 := mul_self_pos.2 hx0
    nlinarith [mul_self_nonneg (x 1)]

/-- Concrete cases: three summands in two orders, a merged pair, and an exchange where the carried vectors `(2, 1)` and `(1, 2)` are apart. -/
example (E : Eigh) (G : Eig) :
    ∃ e f g h : EllN 2, e.NonDeg ∧ f.NonDeg ∧ g.NonDeg ∧ h.NonDeg ∧ h.Q 0 0 = 9 * f.Q 0 0 ∧
      minksumIa E G stdProps [e.obj, g.obj, f.obj] (colMat ![1, 1]) = minksumIa E G stdProps [e.obj, f.obj, g.obj] (colMat ![1, 1]) ∧
      minksumIa E G stdProps [e.obj, f.obj, g.obj] (colMat ![1, 1]) = minksumIa E G stdProps [e.obj, h.obj] (colMat ![1, 1]) ∧
      minksumIa E G stdProps [f.obj, g.obj, e.obj] (colMat ![1, 1]) = minksumIa E G stdProps [h.obj, e.obj] (colMat ![1, 1]) ∧
      minksumIa E G stdProps [f.obj, e.obj] (colMat ![1, 1]) = minksumIa E G stdProps [e.obj, f.obj] (colMat ![1, 1]) := by
  let e : EllN 2 := ⟨![1, 0], !![1, 0; 0, 4], stdProps⟩
  let f : EllN 2 := ⟨![0, 3], !![4, 0; 0, 1], stdProps⟩
  let g : EllN 2 := ⟨![2, 2], !![16, 0; 0, 4], stdProps⟩
  let h : EllN 2 := ⟨![2, 5], !![36, 0; 0, 9], stdProps⟩
  have he : e.NonDeg := nonDeg_dg _ _ stdProps_ok (by unfold stdProps; norm_num) (by unfold stdProps; norm_num)
  have hf : f.NonDeg := nonDeg_dg _ _ stdProps_ok (by unfold stdProps; norm_num) (by unfold stdProps; norm_num)
  have hg : g.NonDeg := nonDeg_dg _ _ stdProps_ok (by unfold stdProps; norm_num) (by unfold stdProps; norm_num)
  have hh : h.NonDeg := nonDeg_dg _ _ stdProps_ok (by unfold stdProps; norm_num) (by unfold stdProps; norm_num)
  have hM : ∀ j, (fun i => (colMat ![(1 : ℝ), 1]) i j) ≠ 0 := by
    intro j hz
    have := congrFun hz 0
    simp [colMat] at this
  have hQg : g.Q = (2 : ℝ) ^ 2 • f.Q := by
    ext i j
    fin_cases i <;> fin_cases j <;> simp [f, g] <;> norm_num
  have hQh : h.Q = (1 + 2 : ℝ) ^ 2 • f.Q := by
    ext i j
    fin_cases i <;> fin_cases j <;> simp [f, h] <;> norm_num
  have hch : h.c = f.c + g.c := by
    ext i
    fin_cases i <;> simp [f, g, h] <;> norm_num
  have hall : ∀ x ∈ [e, f, g, h], x.NonDeg := by simp [he, hf, hg, hh]
  refine ⟨e, f, g, h, he, hf, hg, hh, by simp [h, f]; norm_num, ?_, ?_, ?_, ?_⟩
  · exact C146_order E G stdProps stdProps_ok two_ne_zero e [f, g] [g, f] (List.Perm.swap g f []) (by simp [he, hf, hg]) _ hM
  · exact C146_merge E G stdProps stdProps_ok two_ne_zero e f g h [] hall two_pos hQg hQh hch _ hM
  · exact C146_merge_first E G stdProps stdProps_ok two_ne_zero f g h [e] (by simp) (by simp [he, hf, hg, hh]) two_pos hQg hQh hch _ hM
  · refine C146_swap E G stdProps stdProps_ok two_ne_zero e f he hf _ hM (fun S S0 h1 h2 h3 h4 j => Or.inr ?_)
    have r1 : IsPSD (!![2, 0; 0, 1] : Matrix (Fin 2) (Fin 2) ℝ) := by
      refine ⟨by ext i j; fin_cases i <;> fin_cases j <;> simp, fun x => ?_⟩
      simp [dotProduct, mulVec, Fin.sum_univ_two]
      nlinarith [sq_nonneg (x 0), sq_nonneg (x 1)]
    have r2 : IsPSD (!![1, 0; 0, 2] : Matrix (Fin 2) (Fin 2) ℝ) := by
      refine ⟨by ext i j; fin_cases i <;> fin_cases j <;> simp, fun x => ?_⟩
      simp [dotProduct, mulVec, Fin.sum_univ_two]
      nlinarith [sq_nonneg (x 0), sq_nonneg (x 1)]
    have s1 := psd_root_unique h1 r1 (h2.trans (by simp [f, Matrix.mul_fin_two]; norm_num))
    have s2 := psd_root_unique h3 r2 (h4.trans (by simp [e, Matrix.mul_fin_two]; norm_num))
    subst s1 s2
    have v1 : (!![2, 0; 0, 1] : Matrix (Fin 2) (Fin 2) ℝ) *ᵥ (fun i => colMat ![(1 : ℝ), 1] i j) = ![2, 1] := by
      ext i
      fin_cases i <;> simp [colMat, mulVec, dotProduct, Fin.sum_univ_two]
    have v2 : (!![1, 0; 0, 2] : Matrix (Fin 2) (Fin 2) ℝ) *ᵥ (fun i => colMat ![(1 : ℝ), 1] i j) = ![1, 2] := by
      ext i
      fin_cases i <;> simp [colMat, mulVec, dotProduct, Fin.sum_univ_two]
    rw [v1, v2]
    have h5 : √(5 : ℝ) * √5 = 5 := Real.mul_self_sqrt (by norm_num)
    have h5' : √(5 : ℝ) ≠ 0 := by positivity
    have hdot : dir ![(2 : ℝ), 1] ⬝ᵥ dir ![(1 : ℝ), 2] = 4 / 5 := by
      simp [dir, dotProduct, Fin.sum_univ_two]
      norm_num
      field_simp
      nlinarith
    rw [sinSq, hdot]
    norm_num

end Ellipy.Ell
