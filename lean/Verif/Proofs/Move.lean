import Verif.Model.Boundary
import Verif.Model.IsInternal
import Verif.Model.Rho
import Verif.Model.Volume
import Verif.Spec.Move
import Verif.Proofs.EllHeap

/-! Lemmas for C119. -/

namespace Ellipy.Ell
open Matrix Ellipy.LA Ellipy.SqrtPos

/-- Comprehensions over lists of the same length with corresponding results. -/
theorem pyMap_rel {α α' β β' : Type} {R : α → α' → Prop} {f : α → Py β} {f' : α' → Py β'} {S : β → β' → Prop} {l : List α} {l' : List α'}
    (h : List.Forall₂ R l l') (he : ∀ x x' e, x ∈ l → R x x' → f x = .error e → f' x' = .error e)
    (ho : ∀ x x' y, x ∈ l → R x x' → f x = .ok y → ∃ y', f' x' = .ok y' ∧ S y y') :
    (∀ e, pyMap f l = .error e → pyMap f' l' = .error e) ∧
    ∀ ys, pyMap f l = .ok ys → ∃ ys', pyMap f' l' = .ok ys' ∧ List.Forall₂ S ys ys' := by
  induction h with
  | nil =>
    refine ⟨fun e h => by simp [pyMap] at h, fun ys h => ⟨[], rfl, ?_⟩⟩
    simp only [pyMap, Except.ok.injEq] at h; subst h; exact .nil
  | @cons x x' l l' hx hl ih =>
    obtain ⟨i1, i2⟩ := ih (fun a b e hm => he a b e (List.mem_cons_of_mem _ hm)) (fun a b y hm => ho a b y (List.mem_cons_of_mem _ hm))
    cases hf : f x with
    | error e0 =>
      have := he x x' e0 (by simp) hx hf
      refine ⟨fun e h => ?_, fun ys h => ?_⟩
      · simp only [pyMap, hf, Except.error.injEq] at h; subst h; simp [pyMap, this]
      · simp [pyMap, hf] at h
    | ok y =>
      obtain ⟨y', hy', hs⟩ := ho x x' y (by simp) hx hf
      cases hp : pyMap f l with
      | error e0 =>
        refine ⟨fun e h => ?_, fun ys h => ?_⟩
        · simp only [pyMap, hf, hp, Except.error.injEq] at h; subst h; simp [pyMap, hy', i1 e0 hp]
        · simp [pyMap, hf, hp] at h
      | ok zs =>
        obtain ⟨zs', h1, h2⟩ := i2 zs hp
        refine ⟨fun e h => ?_, fun ys h => ?_⟩
        · simp [pyMap, hf, hp] at h
        · simp only [pyMap, hf, hp, Except.ok.injEq] at h; subst h
          exact ⟨y' :: zs', by simp [pyMap, hy', h1], .cons hs h2⟩

/-- Equal functions on corresponding elements. -/
theorem pyMap_congr₂ {α α' β : Type} {R : α → α' → Prop} {f : α → Py β} {f' : α' → Py β} {l : List α} {l' : List α'}
    (h : List.Forall₂ R l l') (he : ∀ x x', x ∈ l → R x x' → f' x' = f x) : pyMap f' l' = pyMap f l := by
  obtain ⟨h1, h2⟩ := pyMap_rel (f := f) (f' := f') (S := Eq) h (fun x x' e hm hr hf => (he x x' hm hr).trans hf)
    (fun x x' y hm hr hf => ⟨y, (he x x' hm hr).trans hf, rfl⟩)
  cases hp : pyMap f l with
  | error e => exact h1 e hp
  | ok ys =>
    obtain ⟨ys', h3, h4⟩ := h2 ys hp
    have h5 : ys = ys' := by rwa [List.forall₂_eq_eq_eq] at h4
    rw [h3, h5]

theorem anyEmpty_rel {l l' : List EllObj} (h : List.Forall₂ Recentred l l') : anyEmpty l' ↔ anyEmpty l := by
  induction h with
  | nil => rfl
  | cons hx _ ih =>
    obtain ⟨d, rfl⟩ := hx
    simp only [anyEmpty, List.mem_cons, exists_eq_or_imp] at ih ⊢
    rw [ih]; rfl

theorem map_rel {β : Type} {f : EllObj → β} {l l' : List EllObj} (h : List.Forall₂ Recentred l l') (hf : ∀ e d, f (e.move d) = f e) :
    l'.map f = l.map f := by
  induction h with
  | nil => rfl
  | cons hx _ ih => obtain ⟨d, rfl⟩ := hx; simp [ih, hf]

theorem isDegenerate_rel (E : Eigh) {l l' : List EllObj} (h : List.Forall₂ Recentred l l') : isDegenerate E l' = isDegenerate E l := by
  have h1 := pyMap_congr₂ (f := fun e : EllObj => isMatPosDef E e.Q e.absTol false) (f' := fun e : EllObj => isMatPosDef E e.Q e.absTol false)
    h (fun x x' _ hr => by obtain ⟨d, rfl⟩ := hr; rfl)
  by_cases ha : anyEmpty l
  · rw [isDegenerate, isDegenerate, if_pos ha, if_pos ((anyEmpty_rel h).2 ha)]
  · rw [isDegenerate, isDegenerate, if_neg ha, if_neg (fun h2 => ha ((anyEmpty_rel h).1 h2)), h1]

theorem regShape_move (E : Eigh) (G : Eig) (n : ℕ) (d : ℕ → ℝ) (e : EllObj) : regShape E G n (e.move d) = regShape E G n e := by
  have : isDegenerate E [e.move d] = isDegenerate E [e] := isDegenerate_rel E (.cons ⟨d, rfl⟩ .nil)
  unfold regShape
  rw [this]; rfl

theorem centerAs_move {m : ℕ} (d : ℕ → ℝ) {e : EllObj} (h : e.n = m) : centerAs m (e.move d) = fun i => centerAs m e i + d i := by
  subst h
  funext i
  simp [centerAs, EllObj.move]

theorem checkIsMe_rel {tag var : String} {x y : ObjArg EllObj} (h : x.Recentred y) :
    (∀ e, checkIsMe tag var x = .error e → checkIsMe tag var y = .error e) ∧
    ∀ a, checkIsMe tag var x = .ok a → ∃ b, checkIsMe tag var y = .ok b ∧ b.shape = a.shape ∧ List.Forall₂ Recentred a.data b.data := by
  have hi : ∀ x y : Item EllObj, x.Recentred y → (∀ e, instOf (tagOf tag var) x = .error e → instOf (tagOf tag var) y = .error e) ∧
      ∀ a, instOf (tagOf tag var) x = .ok a → ∃ b, instOf (tagOf tag var) y = .ok b ∧ Recentred a b := by
    intro x y h
    cases x <;> cases y <;> simp only [Item.Recentred] at h
    · refine ⟨fun e h => by simp [instOf] at h, fun a ha => ⟨_, rfl, ?_⟩⟩
      simp only [instOf, Except.ok.injEq] at ha; subst ha; exact h
    · exact ⟨fun e h => h, fun a ha => by simp [instOf, throwErr] at ha⟩
  cases x with
  | single x =>
    cases y with
    | many b => exact h.elim
    | single y =>
      obtain ⟨h1, h2⟩ := hi x y h
      constructor
      · intro e he
        cases hx : instOf (tagOf tag var) x with
        | error e0 => simp only [checkIsMe, hx, Except.error.injEq] at he; subst he; simp [checkIsMe, h1 _ hx]
        | ok a => simp [checkIsMe, hx] at he
      · intro a ha
        cases hx : instOf (tagOf tag var) x with
        | error e0 => simp [checkIsMe, hx] at ha
        | ok x0 =>
          obtain ⟨b, hb, hr⟩ := h2 _ hx
          simp only [checkIsMe, hx, Except.ok.injEq] at ha; subst ha
          exact ⟨Arr.scalar b, by simp [checkIsMe, hb], rfl, .cons hr .nil⟩
  | many a =>
    cases y with
    | single y => exact h.elim
    | many b =>
      obtain ⟨hs, hd⟩ := h
      obtain ⟨h1, h2⟩ := pyMap_rel (f := instOf (tagOf tag var)) (f' := instOf (tagOf tag var)) (S := Recentred) hd
        (fun x y e _ hr => (hi x y hr).1 e) (fun x y z _ hr => (hi x y hr).2 z)
      constructor
      · intro e he
        cases hx : pyMap (instOf (tagOf tag var)) a.data with
        | error e0 => simp only [checkIsMe, hx, Except.error.injEq] at he; subst he; simp [checkIsMe, h1 _ hx]
        | ok xs =>
          obtain ⟨ys, hy, hr⟩ := h2 _ hx
          simp only [checkIsMe, hx, reshape] at he
          simp only [checkIsMe, hy, reshape, ← hs, ← hr.length_eq]
          by_cases hl : xs.length = a.shape.foldr (· * ·) 1
          · rw [dif_pos hl] at he; cases he
          · rw [dif_neg hl] at he ⊢; exact he
      · intro a' ha
        cases hx : pyMap (instOf (tagOf tag var)) a.data with
        | error e0 => simp [checkIsMe, hx] at ha
        | ok xs =>
          obtain ⟨ys, hy, hr⟩ := h2 _ hx
          simp only [checkIsMe, hx, reshape] at ha
          by_cases hl : xs.length = a.shape.foldr (· * ·) 1
          · rw [dif_pos hl] at ha
            simp only [Except.ok.injEq] at ha; subst ha
            exact ⟨⟨b.shape, ys, by rw [← hr.length_eq, hl, hs]⟩, by
              simp only [checkIsMe, hy, reshape]
              rw [dif_pos (by rw [← hr.length_eq, hl, hs])], hs.symm, hr⟩
          · rw [dif_neg hl] at ha; cases ha

theorem addX_addX (x : XF ℝ) (c d : ℝ) : addX x (c + d) = shiftX (addX x c) d := by
  cases x <;> simp [addX, shiftX, add_assoc]

/-- `rho_mat` for a moved centre. -/
theorem rhoMat_move {m nd : ℕ} (Q : Matrix (Fin m) (Fin m) ℝ) (dirs : Matrix (Fin m) (Fin nd) ℝ) (tol : ℝ) (c : Fin m → ℝ) (d : ℕ → ℝ) :
    rhoMat Q dirs tol (fun i => c i + d i) =
      (rhoMat Q dirs tol c).map (fun r => (fun j => r.1 j + ∑ i, dirs i j * d i, fun j (i : Fin m) => shiftX (r.2 j i) (d i))) := by
  have key : ∀ tl, (match sqrtPosArr (List.ofFn (fun j => (fun i => dirs i j) ⬝ᵥ Q *ᵥ (fun i => dirs i j))) tl with
      | .error e => (.error e : Py ((Fin nd → ℝ) × (Fin nd → Fin m → XF ℝ)))
      | .ok sq => .ok (fun j => (fun i => c i + d i) ⬝ᵥ (fun i => dirs i j) + sq.getD j 0,
        fun j => fun i => addX (nanToZero (fun i => divX ((Q *ᵥ (fun i => dirs i j)) i) (sq.getD j 0)) i) (c i + d i))) =
      (match sqrtPosArr (List.ofFn (fun j => (fun i => dirs i j) ⬝ᵥ Q *ᵥ (fun i => dirs i j))) tl with
      | .error e => (.error e : Py ((Fin nd → ℝ) × (Fin nd → Fin m → XF ℝ)))
      | .ok sq => .ok (fun j => c ⬝ᵥ (fun i => dirs i j) + sq.getD j 0,
        fun j => fun i => addX (nanToZero (fun i => divX ((Q *ᵥ (fun i => dirs i j)) i) (sq.getD j 0)) i) (c i))).map
        (fun r : (Fin nd → ℝ) × (Fin nd → Fin m → XF ℝ) => (fun j => r.1 j + ∑ i, dirs i j * d i, fun j (i : Fin m) => shiftX (r.2 j i) (d i))) := by
    intro tl
    cases sqrtPosArr (List.ofFn (fun j => (fun i => dirs i j) ⬝ᵥ Q *ᵥ (fun i => dirs i j))) tl with
    | error e => rfl
    | ok sq =>
      simp only [Except.map, Except.ok.injEq, Prod.mk.injEq]
      refine ⟨funext fun j => ?_, funext fun j => funext fun i => addX_addX _ _ _⟩
      have : (fun i => c i + d i) ⬝ᵥ (fun i => dirs i j) = c ⬝ᵥ (fun i => dirs i j) + ∑ i, dirs i j * d i := by
        simp only [dotProduct, add_mul, Finset.sum_add_distrib]
        congr 1
        exact Finset.sum_congr rfl fun i _ => mul_comm _ _
      rw [this]; ring
  unfold rhoMat
  by_cases h : nd = 1
  · simp only [if_pos h]; exact key 0
  · simp only [if_neg h]; exact key tol


theorem pyMap_map_dep {α α' β β' : Type} {f : α → Py β} {f' : α' → Py β'} {g : α → α'} {h : α → β → β'} {l : List α}
    (hf : ∀ x ∈ l, f' (g x) = (f x).map (h x)) : pyMap f' (l.map g) = (pyMap f l).map (fun ys => List.zipWith h l ys) := by
  induction l with
  | nil => rfl
  | cons x l ih =>
    have h1 := hf x (by simp)
    have h2 := ih (fun y hy => hf y (List.mem_cons_of_mem _ hy))
    cases hx : f x with
    | error e => simp [pyMap, h1, hx, Except.map]
    | ok y =>
      cases hp : pyMap f l with
      | error e => simp [pyMap, h1, h2, hx, hp, Except.map]
      | ok ys => simp [pyMap, h1, h2, hx, hp, Except.map]

theorem pyMap_len {α β : Type} {f : α → Py β} {l : List α} {ys : List β} (h : pyMap f l = .ok ys) : ys.length = l.length := by
  induction l generalizing ys with
  | nil => simp only [pyMap, Except.ok.injEq] at h; subst h; rfl
  | cons x l ih =>
    cases hx : f x with
    | error e => simp [pyMap, hx] at h
    | ok y =>
      cases hp : pyMap f l with
      | error e => simp [pyMap, hx, hp] at h
      | ok zs => simp only [pyMap, hx, hp, Except.ok.injEq] at h; subst h; simp [ih hp]

/-- The constructor on a moved centre. -/
theorem ellMake_move (E : Eigh) {n : ℕ} (c : Fin n → ℝ) (d : ℕ → ℝ) (M : RawArg) (p : PropVals) :
    ellMake E [.arr (encVec (fun i => c i + d i)), M] p = (ellMake E [.arr (encVec c), M] p).map (EllObj.move d) := by
  by_cases hp : p.ok
  swap
  · simp only [ellMake, hp, not_false_eq_true, if_true]; rfl
  simp only [ellMake, hp, not_true_eq_false, if_false, ellNew, setCenterVec_enc _ hp.1]
  cases setShapeMat E M p.absTol with
  | error e => rfl
  | ok r =>
    obtain ⟨n', Q⟩ := r
    by_cases hn : n = n'
    · subst hn
      simp only [List.length_ofFn, ne_eq, not_true_eq_false, if_false, Except.map, EllObj.move, Except.ok.injEq, EllObj.mk.injEq, heq_eq_eq,
        true_and, and_true]
      funext i
      simp [List.getD_eq_getElem?_getD]
    · simp only [List.length_ofFn, ne_eq, hn, not_false_eq_true, if_true]; rfl

theorem copyVal_move (E : Eigh) (e : EllObj) (d : ℕ → ℝ) : copyVal E (e.move d) = (copyVal E e).map (EllObj.move d) :=
  ellMake_move E e.c d _ _

theorem rhoForDir_move {m : ℕ} {e : EllObj} (he : e.n = m) (d : ℕ → ℝ) (v : Fin m → ℝ) :
    rhoForDir (e.move d) v = (rhoForDir e v).map (fun r => (r.1 + ∑ i, v i * d i, fun (i : Fin m) => shiftX (r.2 i) (d i))) := by
  have h := rhoMat_move (shapeAs m e) (of fun i (_ : Fin 1) => v i) e.absTol (centerAs m e) d
  unfold rhoForDir
  rw [centerAs_move d he]
  rw [show shapeAs m (e.move d) = shapeAs m e from rfl, show (e.move d).absTol = e.absTol from rfl, h]
  cases rhoMat (shapeAs m e) (of fun i (_ : Fin 1) => v i) e.absTol (centerAs m e) with
  | error e => rfl
  | ok r => rfl

end Ellipy.Ell
