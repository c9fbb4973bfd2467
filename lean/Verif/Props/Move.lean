import Verif.Model.IsBigger
import Verif.Proofs.Move
import Verif.Props.Rho

/-! C119: moving ellipsoids without turning them moves what the functions return.

The results do not need any hypothesis on the matrices or on the routines of numpy. -/

namespace Ellipy.Ell
open Matrix Ellipy.LA

/-- Volume, degeneracy, the smallest and the largest eigenvalue, trace, dimension and rank do not depend on the centres. -/
theorem C119_scalars (E : Eigh) (B : Svd) :
    (∀ {l l' : List EllObj}, List.Forall₂ Recentred l l' → volume E l' = volume E l ∧ isDegenerate E l' = isDegenerate E l) ∧
    ∀ {x y : ObjArg EllObj}, x.Recentred y →
      minEig E y = minEig E x ∧ maxEig E y = maxEig E x ∧ trace y = trace x ∧ dimension y = dimension x ∧
      dimensionRank B y = dimensionRank B x := by
  constructor
  · intro l l' h
    refine ⟨?_, isDegenerate_rel E h⟩
    have h1 : pyMap (singleVolume E) l' = pyMap (singleVolume E) l := pyMap_congr₂ h fun x x' _ hr => by
      obtain ⟨d, rfl⟩ := hr
      have : isDegenerate E [x.move d] = isDegenerate E [x] := isDegenerate_rel E (.cons ⟨d, rfl⟩ .nil)
      unfold singleVolume
      rw [this]; rfl
    by_cases ha : anyEmpty l
    · rw [volume, volume, if_pos ha, if_pos ((anyEmpty_rel h).2 ha)]
    · rw [volume, volume, if_neg ha, if_neg (fun h2 => ha ((anyEmpty_rel h).1 h2)), h1]
  · intro x y h
    obtain ⟨h1, h2⟩ := checkIsMe_rel (tag := "wrongInput") (var := "") h
    cases hx : checkIsMe "wrongInput" "" x with
    | error e =>
      have hy := h1 e hx
      simp [minEig, maxEig, trace, dimension, dimensionRank, hx, hy]
    | ok a =>
      obtain ⟨b, hy, hs, hr⟩ := h2 a hx
      have hne : (b.data.map EllObj.n) = a.data.map EllObj.n := map_rel hr fun _ _ => rfl
      have ht : (b.data.map (fun e : EllObj => ∑ i, e.Q i i)) = a.data.map (fun e : EllObj => ∑ i, e.Q i i) := map_rel hr fun _ _ => rfl
      have hmin : pyMap (singleMinEig E) b.data = pyMap (singleMinEig E) a.data :=
        pyMap_congr₂ hr fun x x' _ hr => by obtain ⟨d, rfl⟩ := hr; rfl
      have hmax : pyMap (singleMaxEig E) b.data = pyMap (singleMaxEig E) a.data :=
        pyMap_congr₂ hr fun x x' _ hr => by obtain ⟨d, rfl⟩ := hr; rfl
      have hrk : pyMap (fun e : EllObj => matRank B e.Q) b.data = pyMap (fun e : EllObj => matRank B e.Q) a.data :=
        pyMap_congr₂ hr fun x x' _ hr => by obtain ⟨d, rfl⟩ := hr; rfl
      have hl : b.data.length = a.data.length := hr.length_eq.symm
      refine ⟨?_, ?_, ?_, ?_, ?_⟩
      · simp only [minEig, hx, hy]
        by_cases ha : anyEmpty a.data
        · rw [if_pos ha, if_pos ((anyEmpty_rel hr).2 ha)]
        · rw [if_neg ha, if_neg (fun h2 => ha ((anyEmpty_rel hr).1 h2)), hmin]
      · simp only [maxEig, hx, hy]
        by_cases ha : anyEmpty a.data
        · rw [if_pos ha, if_pos ((anyEmpty_rel hr).2 ha)]
        · rw [if_neg ha, if_neg (fun h2 => ha ((anyEmpty_rel hr).1 h2)), hmax]
      · simp only [trace, hx, hy]
        by_cases ha : anyEmpty a.data
        · rw [if_pos ha, if_pos ((anyEmpty_rel hr).2 ha)]
        · rw [if_neg ha, if_neg (fun h2 => ha ((anyEmpty_rel hr).1 h2)), ht]
      · simp only [dimension, hx, hy, hne, hs]
      · simp only [dimensionRank, hx, hy, hne, hs, hrk, hl]

/-- Whether one ellipsoid is bigger than another one does not depend on the centres. -/
theorem C119_bigger (E : Eigh) (G : Eig) (S : Svd) (L : Lstsq) {e e' : EllObj} (h : Recentred e e') {sec sec' : Arr EllObj}
    (hs : List.Forall₂ Recentred sec.data sec'.data) : isBigger E G S L e' sec' = isBigger E G S L e sec := by
  obtain ⟨d, rfl⟩ := h
  obtain ⟨sh, l, hl⟩ := sec
  obtain ⟨sh', l', hl'⟩ := sec'
  simp only at hs
  match l, l', hs with
  | [], [], _ => rfl
  | [f], [f'], .cons hf _ =>
    obtain ⟨d', rfl⟩ := hf
    have := regShape_move E G e.n d e
    obtain ⟨n, c, Q, t1, t2, n2, n3⟩ := e
    obtain ⟨n', c', Q', t1', t2', n2', n3'⟩ := f
    show isBigger E G S L ⟨n, fun i : Fin n => c i + d i, Q, t1, t2, n2, n3⟩
      ⟨sh', [⟨n', fun i : Fin n' => c' i + d' i, Q', t1', t2', n2', n3'⟩], hl'⟩ = _
    change regShape E G n ⟨n, fun i : Fin n => c i + d i, Q, t1, t2, n2, n3⟩ = regShape E G n ⟨n, c, Q, t1, t2, n2, n3⟩ at this
    have hsh : shapeAs n ⟨n', fun i : Fin n' => c' i + d' i, Q', t1', t2', n2', n3'⟩ = shapeAs n ⟨n', c', Q', t1', t2', n2', n3'⟩ := rfl
    simp only [isBigger, this, hsh]
    cases matRank S Q with
    | error x => rfl
    | ok re =>
      cases matRank S Q' with
      | error x => rfl
      | ok rf =>
        simp only
        by_cases h1 : n ≠ n'
        · rw [if_pos h1, if_pos h1]
        rw [if_neg h1, if_neg h1]
        by_cases h2 : re < rf
        · rw [if_pos h2, if_pos h2]
        rw [if_neg h2, if_neg h2]
        cases regShape E G n ⟨n, c, Q, t1, t2, n2, n3⟩ with
        | error x => rfl
        | ok R =>
          simp only
          cases Core.ellSimDiag E S L R (shapeAs n ⟨n', c', Q', t1', t2', n2', n3'⟩) (min t1 t1') with
          | error x => rfl
          | ok T => simp only [decide_eq_decide, Except.ok.injEq]
  | _ :: _ :: _, _ :: _ :: _, _ => rfl

/-- Moved points lie in the moved ellipsoids if and only if the points lie in the ellipsoids. -/
theorem C119_internal (E : Eigh) (G : Eig) (d : ℕ → ℝ) (a : Arr EllObj) (x x' : Arr ℝ) (mode : Option String) (hs : x'.shape = x.shape)
    (hx : ∀ m k, x.shape = [m, k] → ∀ i < m, ∀ j < k, x'.data.getD (i * k + j) 0 = x.data.getD (i * k + j) 0 + d i) :
    isInternal E G (moveArr d a) x' mode = isInternal E G a x mode := by
  have hr : List.Forall₂ Recentred a.data (moveArr d a).data := by
    simp only [moveArr, List.forall₂_map_right_iff]
    exact List.forall₂_same.2 fun e _ => ⟨d, rfl⟩
  have hnil : (moveArr d a).data = [] ↔ a.data = [] := by simp [moveArr]
  have hall : ∀ m, (∀ e ∈ (moveArr d a).data, e.n = m) ↔ ∀ e ∈ a.data, e.n = m := by simp [moveArr, EllObj.move]
  have hae := anyEmpty_rel hr
  simp only [isInternal, hs, hnil, hall]
  by_cases h1 : a.data = []
  · simp only [if_pos h1]
  simp only [if_neg h1]
  by_cases h2 : anyEmpty a.data
  · simp only [if_pos h2, if_pos (hae.2 h2)]
  simp only [if_neg h2, if_neg (fun h => h2 (hae.1 h))]
  by_cases h3 : ¬ (mode.getD "u" = "u" ∨ mode.getD "u" = "i")
  · simp only [if_pos h3]
  simp only [if_neg h3]
  obtain ⟨sh, dat, hlen⟩ := x
  simp only at hx
  match sh, hx with
  | [], _ => rfl
  | [_], _ => rfl
  | _ :: _ :: _ :: _, _ => rfl
  | [m, k], hx =>
    by_cases h4 : ¬ ∀ e ∈ a.data, e.n = m
    · simp only [if_pos h4]
    simp only [if_neg h4]
    have hv : ∀ j ∈ List.range k, internalVec E G (moveArr d a) (fun i : Fin m => x'.data.getD (i.val * k + j) 0) (mode.getD "u") =
        internalVec E G a (fun i : Fin m => dat.getD (i.val * k + j) 0) (mode.getD "u") := by
      intro j hj
      have hp : pyMap (singleInternal E G (fun i : Fin m => x'.data.getD (i.val * k + j) 0)) (moveArr d a).data =
          pyMap (singleInternal E G (fun i : Fin m => dat.getD (i.val * k + j) 0)) a.data := by
        simp only [moveArr]
        have hd : (fun i : Fin m => x'.data.getD (i.val * k + j) 0) = fun i : Fin m => dat.getD (i.val * k + j) 0 + d i :=
          funext fun i => hx m k rfl i i.2 j (List.mem_range.1 hj)
        rw [hd]
        have : ∀ e ∈ a.data, singleInternal E G (fun i : Fin m => dat.getD (i.val * k + j) 0 + d i) (e.move d) =
            singleInternal E G (fun i : Fin m => dat.getD (i.val * k + j) 0) e := by
          intro e he
          have hc : (fun i : Fin m => dat.getD (i.val * k + j) 0 + d i) - centerAs m (e.move d) =
              (fun i : Fin m => dat.getD (i.val * k + j) 0) - centerAs m e := by
            rw [centerAs_move d ((not_not.1 h4) e he)]
            funext i
            simp
          simp only [singleInternal, regShape_move, hc]
          rfl
        exact pyMap_congr₂ (R := fun e e' => e' = e.move d) (by
          rw [List.forall₂_map_right_iff]; exact List.forall₂_same.2 fun _ _ => rfl) (fun e e' he h => by rw [h]; exact this e he)
      have hl : (moveArr d a).data.length = a.data.length := by simp [moveArr]
      have hsh : (moveArr d a).shape = a.shape := rfl
      simp only [internalVec, hp, hl, hsh]
    rw [pyMap_congr₂ (R := Eq) (f := fun j => internalVec E G a (fun i : Fin m => dat.getD (i.val * k + j) 0) (mode.getD "u"))
      (List.forall₂_same.2 fun _ _ => rfl) (fun j j' hj h => by subst h; exact hv j hj)]

theorem rho_finish {d : ℕ → ℝ} {x : Arr ℝ} {m N N' : ℕ} {rest : List ℕ} (hx : x.shape = m :: rest) (hN : N' = N) {l l' : List ℝ} (hl : l.length = N)
    (hl' : l'.length = N) (f : Fin N → Fin m → XF ℝ) (f' : Fin N' → Fin m → XF ℝ) {sh1 sh2 sh1' sh2' : List ℕ}
    (hs1 : sh1' = sh1) (hs2 : sh2' = sh2)
    (h1 : ∀ q < N, l'[q]? = some (l.getD q 0 +
      ∑ i : Fin m, x.data.getD (i.val * rest.foldr (· * ·) 1 + (if rest.foldr (· * ·) 1 = 1 then 0 else q)) 0 * d i))
    (h2 : ∀ (q : Fin N) (q' : Fin N'), q.val = q'.val → ∀ i, f' q' i = shiftX (f q i) (d i)) :
    RhoMoved d x
      (match reshape l sh1, reshape (rowMajor f) sh2 with
        | .ok s, .ok b => .ok (s, b)
        | .error x, _ => .error x
        | _, .error x => .error x)
      (match reshape l' sh1', reshape (rowMajor f') sh2' with
        | .ok s, .ok b => .ok (s, b)
        | .error x, _ => .error x
        | _, .error x => .error x) := by
  subst hN
  subst hs1
  subst hs2
  have e1 : l'.length = l.length := by rw [hl, hl']
  have e2 : (rowMajor f').length = (rowMajor f).length := by simp only [rowMajor_length]
  by_cases g1 : l.length = sh1'.foldr (· * ·) 1
  swap
  · have g1' : ¬ l'.length = sh1'.foldr (· * ·) 1 := by rwa [e1]
    by_cases g2 : (rowMajor f).length = sh2'.foldr (· * ·) 1
    · have g2' : (rowMajor f').length = sh2'.foldr (· * ·) 1 := by rwa [e2]
      simp only [reshape, dif_neg g1, dif_neg g1', dif_pos g2, dif_pos g2']
      exact ⟨fun e h => h, fun s b h => by cases h⟩
    · have g2' : ¬ (rowMajor f').length = sh2'.foldr (· * ·) 1 := by rwa [e2]
      simp only [reshape, dif_neg g1, dif_neg g1', dif_neg g2, dif_neg g2']
      exact ⟨fun e h => h, fun s b h => by cases h⟩
  have g1' : l'.length = sh1'.foldr (· * ·) 1 := by rwa [e1]
  by_cases g2 : (rowMajor f).length = sh2'.foldr (· * ·) 1
  swap
  · have g2' : ¬ (rowMajor f').length = sh2'.foldr (· * ·) 1 := by rwa [e2]
    simp only [reshape, dif_pos g1, dif_pos g1', dif_neg g2, dif_neg g2']
    exact ⟨fun e h => h, fun s b h => by cases h⟩
  have g2' : (rowMajor f').length = sh2'.foldr (· * ·) 1 := by rwa [e2]
  simp only [reshape, dif_pos g1, dif_pos g1', dif_pos g2, dif_pos g2']
  refine ⟨fun e h => (by cases h), fun s b h => ?_⟩
  simp only [Except.ok.injEq, Prod.mk.injEq] at h
  obtain ⟨hs, hb⟩ := h
  subst hs hb
  refine ⟨_, _, rfl, rfl, rfl, m, rest, hx, by simp only [rowMajor_length, hl], fun q hq => ?_⟩
  simp only [hl] at hq ⊢
  refine ⟨h1 q hq, fun i hi => ?_⟩
  have a1 := rowMajor_get f ⟨i, hi⟩ ⟨q, hq⟩
  have a2 := rowMajor_get f' ⟨i, hi⟩ ⟨q, hq⟩
  simp only at a1 a2
  rw [a1, a2, h2 ⟨q, hq⟩ ⟨q, hq⟩ rfl ⟨i, hi⟩]
  rfl

/-- The support function of moved ellipsoids. -/
theorem C119_rho (d : ℕ → ℝ) (a : Arr EllObj) (x : Arr ℝ) : RhoMoved d x (rho a x) (rho (moveArr d a) x) := by
  have herr : ∀ y, RhoMoved d x (.error y) (.error y) := fun y => ⟨fun e h => h, fun s b h => by cases h⟩
  have hall : ∀ m, (∀ e ∈ (moveArr d a).data, e.n = m) ↔ ∀ e ∈ a.data, e.n = m := by simp [moveArr, EllObj.move]
  have hl : (moveArr d a).data.length = a.data.length := by simp [moveArr]
  have hsz : ∀ r k, rhoSizes (moveArr d a) r k = rhoSizes a r k := by
    intro r k; simp only [rhoSizes, hl]; rfl
  obtain ⟨sh, dat, hlen⟩ := x
  match sh, hlen with
  | [], _ => exact herr _
  | [_], _ => exact herr _
  | m :: r0 :: r1, hlen =>
    simp only [rho, hsz]
    cases hz : rhoSizes a (r0 :: r1) ((r0 :: r1).foldr (· * ·) 1) with
    | error y => exact herr _
    | ok bz =>
      cases bz with
      | false => exact herr _
      | true =>
        by_cases h4 : ¬ ∀ e ∈ a.data, e.n = m
        · simp only [if_pos h4, if_pos (fun h => h4 ((hall m).1 h))]
          exact herr _
        simp only [if_neg h4, if_neg (not_not.2 ((hall m).2 (not_not.1 h4)))]
        have h5 := not_not.1 h4
        generalize hk : (r0 :: r1).foldr (· * ·) 1 = k at *
        match hd : a.data with
        | [e] =>
          have he : e.n = m := h5 e (by simp [hd])
          have hd' : (moveArr d a).data = [e.move d] := by simp [moveArr, hd]
          simp only [hd', show shapeAs m (e.move d) = shapeAs m e from rfl, show (e.move d).absTol = e.absTol from rfl, centerAs_move d he,
            rhoMat_move]
          cases hr : rhoMat (shapeAs m e) (of fun i (j : Fin k) => dat.getD (i.val * k + j) 0) e.absTol (centerAs m e) with
          | error y => exact herr _
          | ok r =>
            obtain ⟨sup, bp⟩ := r
            refine rho_finish (N := k) (N' := k) (rest := r0 :: r1) rfl rfl List.length_ofFn List.length_ofFn bp _ rfl rfl (fun q hq => ?_)
              (fun q q' h i => ?_)
            · rw [hk]
              have hq' : (if k = 1 then 0 else q) = q := by split <;> omega
              simp only [hq', List.getElem?_ofFn, hq, dif_pos, List.getD_eq_getElem?_getD, Option.getD_some, of_apply]
            · rw [show q' = q from Fin.ext h.symm]
        | [] =>
          have hd' : (moveArr d a).data = [] := by simp [moveArr, hd]
          simp only [hd']
          by_cases h1 : r0 :: r1 = [1]
          · simp only [if_pos h1, pyMap]
            exact herr _
          · simp only [if_neg h1, pyMap, List.zip_nil_left]
            exact herr _
        | e1 :: e2 :: es =>
          have hd' : (moveArr d a).data = (e1 :: e2 :: es).map (EllObj.move d) := by simp [moveArr, hd]
          rw [hd] at h5
          have hd2 : (moveArr d a).data = e1.move d :: e2.move d :: es.map (EllObj.move d) := by simp [moveArr, hd]
          simp only [hd2]
          by_cases h1 : r0 :: r1 = [1]
          · simp only [if_pos h1]
            have hp := pyMap_map_dep (f := fun e => rhoForDir e (fun i : Fin m => dat.getD (i.val * k + 0) 0))
              (f' := fun e => rhoForDir e (fun i : Fin m => dat.getD (i.val * k + 0) 0)) (g := EllObj.move d) (l := e1 :: e2 :: es)
              (h := fun _ r => (r.1 + ∑ i : Fin m, dat.getD (i.val * k + 0) 0 * d i, fun i : Fin m => shiftX (r.2 i) (d i)))
              (fun e he => rhoForDir_move (h5 e he) d _)
            rw [List.map_cons, List.map_cons] at hp
            rw [hp]
            cases hr : pyMap (fun e => rhoForDir e (fun i : Fin m => dat.getD (i.val * k + 0) 0)) (e1 :: e2 :: es) with
            | error y => exact herr _
            | ok rs =>
              have hlen := pyMap_len hr
              have hne : rs ≠ [] := fun h => by rw [h] at hlen; simp at hlen
              simp only [Except.map]
              generalize hrs : List.zipWith (fun (_ : EllObj) (r : ℝ × (Fin m → XF ℝ)) =>
                (r.1 + ∑ i : Fin m, dat.getD (i.val * k + 0) 0 * d i, fun i : Fin m => shiftX (r.2 i) (d i))) (e1 :: e2 :: es) rs = rs'
              have hl' : rs'.length = rs.length := by rw [← hrs, List.length_zipWith, ← hlen, min_self]
              have hne' : rs' ≠ [] := fun h => by rw [h] at hl'; exact hne (List.length_eq_zero_iff.1 hl'.symm)
              have hget : ∀ (q : ℕ) (h : q < rs.length), rs'[q]? = some (rs[q].1 + ∑ i : Fin m, dat.getD (i.val * k + 0) 0 * d i,
                  fun i : Fin m => shiftX (rs[q].2 i) (d i)) := by
                intro q h
                rw [← hrs, List.getElem?_zipWith, List.getElem?_eq_getElem h, List.getElem?_eq_getElem (hlen ▸ h)]
              rw [if_neg hne, if_neg hne']
              have hk1 : k = 1 := by rw [← hk, h1]; rfl
              refine rho_finish (N := rs.length) (N' := rs'.length) (rest := r0 :: r1) rfl hl' (by simp) (by simp [hl']) _ _ (by first | rfl | rw [hl'])
                (by first | rfl | (rw [hl']; rfl) | rw [hl'])
                (fun q hq => ?_) (fun q q' h i => ?_)
              · rw [hk, if_pos hk1, List.getElem?_map, hget q hq]
                simp [List.getD_eq_getElem?_getD, hq]
              · obtain ⟨q, hq⟩ := q
                obtain ⟨q', hq'⟩ := q'
                simp only at h
                subst h
                have h3 := List.getElem?_eq_getElem hq'
                rw [hget q hq] at h3
                exact (congrArg (fun z => z.2 i) (Option.some.inj h3)).symm
          · simp only [if_neg h1]
            have hp := pyMap_map_dep (f := fun p : EllObj × ℕ => rhoForDir p.1 (fun i : Fin m => dat.getD (i.val * k + p.2) 0))
              (f' := fun p : EllObj × ℕ => rhoForDir p.1 (fun i : Fin m => dat.getD (i.val * k + p.2) 0))
              (g := fun p => (p.1.move d, p.2)) (l := (e1 :: e2 :: es).zip (List.range k))
              (h := fun p r => (r.1 + ∑ i : Fin m, dat.getD (i.val * k + p.2) 0 * d i, fun i : Fin m => shiftX (r.2 i) (d i)))
              (fun p hp => rhoForDir_move (h5 p.1 (List.of_mem_zip hp).1) d _)
            have hz2 : (e1.move d :: e2.move d :: es.map (EllObj.move d)).zip (List.range k) =
                ((e1 :: e2 :: es).zip (List.range k)).map (fun p => (p.1.move d, p.2)) := by
              rw [← List.map_cons, ← List.map_cons, List.zip_map_left]; rfl
            rw [hz2, hp]
            cases hr : pyMap (fun p : EllObj × ℕ => rhoForDir p.1 (fun i : Fin m => dat.getD (i.val * k + p.2) 0))
                ((e1 :: e2 :: es).zip (List.range k)) with
            | error y => exact herr _
            | ok rs =>
              have hlen := pyMap_len hr
              simp only [Except.map]
              generalize hrs : List.zipWith (fun (p : EllObj × ℕ) (r : ℝ × (Fin m → XF ℝ)) =>
                (r.1 + ∑ i : Fin m, dat.getD (i.val * k + p.2) 0 * d i, fun i : Fin m => shiftX (r.2 i) (d i)))
                ((e1 :: e2 :: es).zip (List.range k)) rs = rs'
              have hl' : rs'.length = rs.length := by rw [← hrs, List.length_zipWith, ← hlen, min_self]
              by_cases hne : rs = []
              · have hne' : rs' = [] := List.length_eq_zero_iff.1 (by rw [hl', hne]; rfl)
                rw [if_pos hne, if_pos hne']
                exact herr _
              have hne' : rs' ≠ [] := fun h => by rw [h] at hl'; exact hne (List.length_eq_zero_iff.1 hl'.symm)
              have hqk : ∀ q < rs.length, q < k := fun q hq => by
                rw [hlen, List.length_zip, List.length_range] at hq
                omega
              have hget : ∀ (q : ℕ) (h : q < rs.length), rs'[q]? = some (rs[q].1 + ∑ i : Fin m, dat.getD (i.val * k + q) 0 * d i,
                  fun i : Fin m => shiftX (rs[q].2 i) (d i)) := by
                intro q h
                rw [← hrs, List.getElem?_zipWith, List.getElem?_eq_getElem h, List.getElem?_eq_getElem (hlen ▸ h)]
                simp
              rw [if_neg hne, if_neg hne']
              refine rho_finish (N := rs.length) (N' := rs'.length) (rest := r0 :: r1) rfl hl' (by simp) (by simp [hl']) _ _ (by first | rfl | rw [hl'])
                (by first | rfl | (rw [hl']; rfl) | rw [hl'])
                (fun q hq => ?_) (fun q q' h i => ?_)
              · have hq' : (if k = 1 then 0 else q) = q := by have := hqk q hq; split <;> omega
                rw [hk, hq', List.getElem?_map, hget q hq]
                simp [List.getD_eq_getElem?_getD, hq]
              · obtain ⟨q, hq⟩ := q
                obtain ⟨q', hq'⟩ := q'
                simp only at h
                subst h
                have h3 := List.getElem?_eq_getElem hq'
                rw [hget q hq] at h3
                exact (congrArg (fun z => z.2 i) (Option.some.inj h3)).symm

/-- The boundary of a moved ellipsoid. -/
theorem C119_boundary (E : Eigh) (argsort : List ℕ → List ℕ) (fuel : ℕ) (d : ℕ → ℝ) (e : EllObj) (num : Option Tri.NPts) (grid : Bool) :
    getBoundary E argsort fuel (e.move d) num grid =
      (getBoundary E argsort fuel e num grid).map (Option.map fun r => (r.1.map (fun p (i : Fin e.n) => p i + d i), r.2)) := by
  obtain ⟨n, c, Q, t1, t2, n2, n3⟩ := e
  show getBoundary E argsort fuel ⟨n, fun i : Fin n => c i + d i, Q, t1, t2, n2, n3⟩ num grid = _
  have hb : boundaryPts ⟨n, fun i : Fin n => c i + d i, Q, t1, t2, n2, n3⟩ num = boundaryPts ⟨n, c, Q, t1, t2, n2, n3⟩ num := rfl
  simp only [getBoundary, hb]
  cases boundaryPts ⟨n, c, Q, t1, t2, n2, n3⟩ num with
  | error x => rfl
  | ok num =>
    simp only
    cases Tri.sphereTriExt argsort fuel n num grid with
    | error x => rfl
    | ok g =>
      cases g with
      | none => rfl
      | some g =>
        simp only
        cases sqrtmPos E Q t1 with
        | error x => rfl
        | ok S =>
          have hp : ∀ {k : ℕ} (V : List (Fin k → ℝ)), V.map (fun v => asVec n v ᵥ* S + fun i : Fin n => c i + d i) =
              (V.map (fun v => asVec n v ᵥ* S + c)).map (fun p (i : Fin n) => p i + d i) := by
            intro k V
            rw [List.map_map]
            refine List.map_congr_left fun v _ => funext fun i => ?_
            simp only [Function.comp, Pi.add_apply, add_assoc]
          cases g with
          | pts2 V => simp only [hp]; rfl
          | grid2 V F => simp only [hp]; rfl
          | grid3 V F => cases grid <;> simp only [hp] <;> rfl

/-- The boundary by factor of a moved ellipsoid. -/
theorem C119_boundary_factor (E : Eigh) (argsort : List ℕ → List ℕ) (fuel : ℕ) (d : ℕ → ℝ) (e : EllObj) (factor : FactorArg) (grid : Bool) :
    getBoundaryByFactor E argsort fuel (e.move d) factor grid =
      (getBoundaryByFactor E argsort fuel e factor grid).map (Option.map fun r => (r.1.map (fun p (i : Fin e.n) => p i + d i), r.2)) := by
  unfold getBoundaryByFactor
  simp only [C119_boundary, show (e.move d).n = e.n from rfl, show (e.move d).n2d = e.n2d from rfl, show (e.move d).n3d = e.n3d from rfl]
  by_cases h : e.n < 2 ∨ 3 < e.n
  · simp only [if_pos h]; rfl
  · simp only [if_neg h]
    cases factorOf e.n factor <;> rfl

theorem rhoPart_move {n : ℕ} (Q : Matrix (Fin n) (Fin n) ℝ) (tol : ℝ) (c : Fin n → ℝ) (d : ℕ → ℝ) (dirs : List (Fin n → ℝ)) (F : Faces) :
    rhoPart Q tol (fun i => c i + d i) dirs F = (rhoPart Q tol c dirs F).map (fun r => ⟨r.bp.map (fun p (i : Fin n) => shiftX (p i) (d i)),
      r.faces, List.zipWith (fun s l => s + ∑ i : Fin n, l i * d i) r.sup r.dirs, r.dirs⟩) := by
  unfold rhoPart
  simp only [rhoMat_move]
  cases rhoMat Q (of fun (i : Fin n) (j : Fin (dirs ++ dirs.take 1).length) => (dirs ++ dirs.take 1)[j] i) tol c with
  | error x => rfl
  | ok r =>
    obtain ⟨sup, bp⟩ := r
    simp only [Except.map, Except.ok.injEq, RhoBoundary.mk.injEq, true_and, and_true]
    refine ⟨?_, ?_⟩
    · rw [List.map_ofFn]; rfl
    · refine List.ext_getElem (by simp) fun j h1 h2 => ?_
      simp

/-- The points of the boundary with the given normals, for a moved ellipsoid. -/
theorem C119_rho_boundary (argsort : List ℕ → List ℕ) (fuel : ℕ) (d : ℕ → ℝ) (e : EllObj) (num : Option Tri.NPts) :
    getRhoBoundary argsort fuel (e.move d) num =
      (getRhoBoundary argsort fuel e num).map (Option.map fun r => ⟨r.bp.map (fun p (i : Fin e.n) => shiftX (p i) (d i)),
        r.faces, List.zipWith (fun s l => s + ∑ i : Fin e.n, l i * d i) r.sup r.dirs, r.dirs⟩) := by
  obtain ⟨n, c, Q, t1, t2, n2, n3⟩ := e
  show getRhoBoundary argsort fuel ⟨n, fun i : Fin n => c i + d i, Q, t1, t2, n2, n3⟩ num = _
  have hb : boundaryPts ⟨n, fun i : Fin n => c i + d i, Q, t1, t2, n2, n3⟩ num = boundaryPts ⟨n, c, Q, t1, t2, n2, n3⟩ num := rfl
  simp only [getRhoBoundary, hb]
  cases boundaryPts ⟨n, c, Q, t1, t2, n2, n3⟩ num with
  | error x => rfl
  | ok num =>
    simp only
    cases Tri.sphereTriExt argsort fuel n num true with
    | error x => rfl
    | ok g =>
      cases g with
      | none => rfl
      | some g =>
        cases g with
        | pts2 V => rfl
        | grid2 V F =>
          simp only [rhoPart_move]
          cases rhoPart Q t1 c (V.map (asVec n)) (.seg F) <;> rfl
        | grid3 V F =>
          simp only [rhoPart_move]
          cases rhoPart Q t1 c (V.map (asVec n)) (.tri F) <;> rfl

/-- The same for the number of points given by a factor. -/
theorem C119_rho_boundary_factor (argsort : List ℕ → List ℕ) (fuel : ℕ) (d : ℕ → ℝ) (e : EllObj) (factor : FactorArg) :
    getRhoBoundaryByFactor argsort fuel (e.move d) factor =
      (getRhoBoundaryByFactor argsort fuel e factor).map (Option.map fun r => ⟨r.bp.map (fun p (i : Fin e.n) => shiftX (p i) (d i)),
        r.faces, List.zipWith (fun s l => s + ∑ i : Fin e.n, l i * d i) r.sup r.dirs, r.dirs⟩) := by
  unfold getRhoBoundaryByFactor
  simp only [C119_rho_boundary, show (e.move d).n = e.n from rfl, show (e.move d).n2d = e.n2d from rfl, show (e.move d).n3d = e.n3d from rfl]
  cases factorOf e.n factor with
  | error x => rfl
  | ok f =>
    simp only
    by_cases h : e.n = 2
    · simp only [if_pos h]
    · simp only [if_neg h]
      by_cases h : e.n = 3
      · simp only [if_pos h]
      · simp only [if_neg h]; rfl

theorem minkCheck_rel {l l' : List EllObj} (h : List.Forall₂ Recentred l l') (n : ℕ) : minkCheck l' n = minkCheck l n := by
  have h1 : l' = [] ↔ l = [] := by rw [← List.length_eq_zero_iff, ← h.length_eq, List.length_eq_zero_iff]
  have h2 := anyEmpty_rel h
  have h3 : (∀ e ∈ l', e.n = n) ↔ ∀ e ∈ l, e.n = n := by
    clear h1 h2
    induction h with
    | nil => rfl
    | cons hx _ ih => obtain ⟨d, rfl⟩ := hx; simp only [List.forall_mem_cons, ih]; rfl
  unfold minkCheck
  by_cases a1 : l = []
  · rw [if_pos a1, if_pos (h1.2 a1)]
  rw [if_neg a1, if_neg (fun h => a1 (h1.1 h))]
  by_cases a2 : anyEmpty l
  · rw [if_pos a2, if_pos (h2.2 a2)]
  rw [if_neg a2, if_neg (fun h => a2 (h2.1 h))]
  by_cases a3 : ∀ e ∈ l, e.n = n
  · rw [if_neg (not_not.2 a3), if_neg (not_not.2 (h3.2 a3))]
  · rw [if_pos a3, if_pos (fun h => a3 (h3.1 h))]

theorem minkCheck_dim {l : List EllObj} {n : ℕ} (h : minkCheck l n = .ok ()) : ∀ e ∈ l, e.n = n := by
  unfold minkCheck at h
  by_cases a1 : l = []
  · rw [if_pos a1] at h; cases h
  rw [if_neg a1] at h
  by_cases a2 : anyEmpty l
  · rw [if_pos a2] at h; cases h
  rw [if_neg a2] at h
  by_contra a3
  rw [if_pos a3] at h; cases h

theorem rel_zipWith {ds : List (ℕ → ℝ)} {l : List EllObj} (h : ds.length = l.length) :
    List.Forall₂ Recentred l (List.zipWith EllObj.move ds l) := by
  induction l generalizing ds with
  | nil => cases ds <;> simp
  | cons e l ih =>
    cases ds with
    | nil => simp at h
    | cons d ds => exact .cons ⟨d, rfl⟩ (ih (by simpa using h))

theorem centSum_move {ds : List (ℕ → ℝ)} {l : List EllObj} (h : ds.length = l.length) {n : ℕ} (hn : ∀ e ∈ l, e.n = n) :
    centSum n (List.zipWith EllObj.move ds l) = fun i => centSum n l i + ds.sum i := by
  unfold centSum
  induction l generalizing ds with
  | nil => cases ds <;> [skip; simp at h]; funext i; simp
  | cons e l ih =>
    cases ds with
    | nil => simp at h
    | cons d ds =>
      have := ih (ds := ds) (by simpa using h) (fun e he => hn e (List.mem_cons_of_mem _ he))
      simp only [List.zipWith_cons_cons, List.map_cons, List.sum_cons, this, centerAs_move d (hn e (by simp))]
      funext i
      simp only [Pi.add_apply]
      ring

theorem pyMap_move {α : Type} {f f' : α → Py EllObj} {d : ℕ → ℝ} (l : List α) (h : ∀ x, f' x = (f x).map (EllObj.move d)) :
    pyMap f' l = (pyMap f l).map (List.map (EllObj.move d)) := by
  induction l with
  | nil => rfl
  | cons x l ih =>
    cases hx : f x with
    | error e => simp [pyMap, h, hx, Except.map]
    | ok y => cases hp : pyMap f l <;> simp [pyMap, h, hx, ih, hp, Except.map]

theorem moveArr_vec (d : ℕ → ℝ) (rs : List EllObj) : moveArr d (Arr.vec rs) = Arr.vec (rs.map (EllObj.move d)) := by
  simp [moveArr, Arr.vec]

theorem minkCopies_move (E : Eigh) (e : EllObj) (d : ℕ → ℝ) (k : ℕ) : minkCopies E (e.move d) k = (minkCopies E e k).map (moveArr d) := by
  unfold minkCopies
  rw [pyMap_move _ (fun _ => copyVal_move E e d)]
  cases pyMap (fun _ => copyVal E e) (List.replicate k ()) with
  | error x => rfl
  | ok rs =>
    simp only [Except.map, reshape, List.length_map]
    by_cases hl : rs.length = (if k = 1 then [] else [k]).foldr (· * ·) 1
    · rw [dif_pos hl, dif_pos hl]; rfl
    · rw [dif_neg hl, dif_neg hl]

/-- The external approximations of a sum of moved ellipsoids are the approximations of the sum, moved by the sum of the displacements. -/
theorem C119_minksum_ea (E : Eigh) (G : Eig) (L : Lstsq) (p : PropVals) (ds : List (ℕ → ℝ)) (l : List EllObj) (hd : ds.length = l.length)
    {n k : ℕ} (M : Matrix (Fin n) (Fin k) ℝ) :
    minksumEa E G L p (List.zipWith EllObj.move ds l) M = (minksumEa E G L p l M).map (moveArr ds.sum) := by
  have hr := rel_zipWith hd
  unfold minksumEa
  rw [minkCheck_rel hr]
  cases hc : minkCheck l n with
  | error x => rfl
  | ok u =>
    have hn := minkCheck_dim hc
    have hcs := centSum_move hd hn
    have hdir : ∀ v : Fin n → ℝ, eaDir E G L p (List.zipWith EllObj.move ds l) (centSum n (List.zipWith EllObj.move ds l)) v =
        (eaDir E G L p l (centSum n l) v).map (EllObj.move ds.sum) := by
      intro v
      unfold eaDir
      rw [pyMap_congr₂ (f := eaTerm E G L v) hr (fun x x' _ h => by
        obtain ⟨d, rfl⟩ := h
        simp only [eaTerm, regShape_move])]
      cases pyMap (eaTerm E G L v) l with
      | error x => rfl
      | ok ts =>
        simp only
        by_cases h : ∃ t ∈ ts, ¬ 0 < t.2
        · rw [if_pos h, if_pos h]; rfl
        · rw [if_neg h, if_neg h, hcs, ellMake_move]
    have hall := pyMap_move (List.finRange k) (fun j => hdir (fun i => M i j))
    match l, ds, hd with
    | [], [], _ => simp [minkCheck, throwErr] at hc
    | [e], [d], _ =>
      simp only [List.zipWith_cons_cons, List.zipWith_nil_left, List.sum_cons, List.sum_nil, add_zero]
      exact minkCopies_move E e d k
    | e1 :: e2 :: es, d1 :: d2 :: ds, _ =>
      simp only [List.zipWith_cons_cons] at hall ⊢
      rw [hall]
      cases pyMap (fun j => eaDir E G L p (e1 :: e2 :: es) (centSum n (e1 :: e2 :: es)) (fun i => M i j)) (List.finRange k) with
      | error x => rfl
      | ok rs => simp only [Except.map, moveArr_vec]

/-- The same for the internal approximations. -/
theorem C119_minksum_ia (E : Eigh) (G : Eig) (p : PropVals) (ds : List (ℕ → ℝ)) (l : List EllObj) (hd : ds.length = l.length)
    {n k : ℕ} (M : Matrix (Fin n) (Fin k) ℝ) :
    minksumIa E G p (List.zipWith EllObj.move ds l) M = (minksumIa E G p l M).map (moveArr ds.sum) := by
  have hr := rel_zipWith hd
  unfold minksumIa
  rw [minkCheck_rel hr]
  cases hc : minkCheck l n with
  | error x => rfl
  | ok u =>
    have hn := minkCheck_dim hc
    have hcs := centSum_move hd hn
    have htol : (List.zipWith EllObj.move ds l).map EllObj.absTol = l.map EllObj.absTol := map_rel hr fun _ _ => rfl
    have hterm : ∀ src : Matrix (Fin n) (Fin k) ℝ, pyMap (iaTerm E G M src) (List.zipWith EllObj.move ds l) = pyMap (iaTerm E G M src) l :=
      fun src => pyMap_congr₂ hr (fun x x' _ h => by
        obtain ⟨d, rfl⟩ := h
        simp only [iaTerm, regShape_move]
        rfl)
    have hdir : ∀ ts (j : Fin k), iaDir E p (centSum n (List.zipWith EllObj.move ds l)) ts j =
        (iaDir E p (centSum n l) ts j).map (EllObj.move ds.sum) := by
      intro ts j
      rw [hcs]
      exact ellMake_move E _ _ _ _
    match l, ds, hd with
    | [], [], _ => rfl
    | [e], [d], _ =>
      simp only [List.zipWith_cons_cons, List.zipWith_nil_left, List.sum_cons, List.sum_nil, add_zero]
      exact minkCopies_move E e d k
    | e1 :: e2 :: es, d1 :: d2 :: ds, _ =>
      simp only [List.zipWith_cons_cons] at hterm hdir htol ⊢
      rw [htol, show shapeAs n (e1.move d1) = shapeAs n e1 from rfl]
      cases sqrtmPos E (shapeAs n e1) (minTol ((e1 :: e2 :: es).map EllObj.absTol)) with
      | error x => rfl
      | ok S0 =>
        simp only [hterm]
        cases pyMap (iaTerm E G M (S0 * M)) (e1 :: e2 :: es) with
        | error x => rfl
        | ok ts =>
          simp only
          rw [pyMap_move (List.finRange k) (hdir ts)]
          cases pyMap (iaDir E p (centSum n (e1 :: e2 :: es)) ts) (List.finRange k) with
          | error x => rfl
          | ok rs => simp only [Except.map, moveArr_vec]

/-- The unit disc, moved by (3, -1): the hypotheses of `C119_internal` for the origin and the point (3, -1), and of `C119_scalars` and
`C119_bigger`; and two discs moved differently. -/
example : let e : EllObj := ⟨2, fun _ => 0, 1, 1 / 10, 1 / 10, 200, 200⟩
    let d : ℕ → ℝ := fun i => if i = 0 then 3 else -1
    let x : Arr ℝ := ⟨[2, 1], [0, 0], rfl⟩
    let x' : Arr ℝ := ⟨[2, 1], [3, -1], rfl⟩
    (e.move d).c = ![3, -1] ∧ x'.shape = x.shape ∧
    (∀ m k, x.shape = [m, k] → ∀ i < m, ∀ j < k, x'.data.getD (i * k + j) 0 = x.data.getD (i * k + j) 0 + d i) ∧
    List.Forall₂ Recentred [e] [e.move d] ∧ (ObjArg.single (.inst e)).Recentred (.single (.inst (e.move d))) ∧
    [d, fun _ => 1].length = [e, e].length ∧ ([d, fun _ => 1].sum) 0 = 4 := by
  refine ⟨?_, rfl, ?_, .cons ⟨_, rfl⟩ .nil, ⟨_, rfl⟩, rfl, ?_⟩
  · funext i; fin_cases i <;> simp [EllObj.move]
  · intro m k h i hi j hj
    simp only [List.cons.injEq, and_true] at h
    obtain ⟨rfl, rfl⟩ := h
    obtain rfl : j = 0 := by omega
    interval_cases i <;> simp
  · simp only [List.sum_cons, List.sum_nil, Pi.add_apply, Pi.zero_apply, if_true]
    norm_num

end Ellipy.Ell
