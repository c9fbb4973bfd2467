import Verif.Proofs.EllHeap
import Verif.Proofs.Ell

/-! Property theorems C34–C39 for ellipsoids (which objects change, projections, copies, dictionaries, unary minus). -/

namespace Ellipy.Ell
open Matrix Ellipy.LA

/-! ### C34 -/

/-- **C34**: whatever the user does — also writing into any array obtained from the library or passed to it — an object keeps its value
as long as it is not an element of an array given to `projection`. -/
theorem C34 (E : Eigh) (p : PropVals) (before after : List Call) (o : ℕ) (e : EllObj)
    (hv : val (run E (emptyHeap p) before) o = some e) (hp : ∀ c ∈ after, o ∉ c.projects) :
    val (run E (emptyHeap p) (before ++ after)) o = some e := by
  have hi : Inv (run E (emptyHeap p) before) := Reachable.inv ⟨p, before, rfl⟩
  have h1 := run_inv E hi after {q | q ≠ o} (fun c hc q hq heq => hp c hc (heq ▸ hq))
  have h2 := h1.2.2 o (val_lt hv) (fun h => h rfl)
  unfold run at h2 hv ⊢
  rw [List.foldl_append, h2, hv]

/-- Every object that ever exists is one that the constructor accepts. -/
theorem C34_valid (E : Eigh) (h : Heap) (hr : Reachable E h) (o : ℕ) (ho : o < h.objs.length) : ∃ e, val h o = some e ∧ ValidObj e :=
  hr.inv.valid o ho

/-- The arrays that `get_center_vec` and `get_shape_mat` return are new (no object refers to them) and contain the data. -/
theorem C34_fresh (E : Eigh) (h : Heap) (hr : Reachable E h) (o : ℕ) (e : EllObj) (hv : val h o = some e) :
    (∃ r h' a, getCenterVec h o = (.ok r, h') ∧ h'.arrs[r]? = some a ∧ (∀ q ∈ h'.objs, q.cRef ≠ r ∧ q.qRef ≠ r) ∧
      a.data.length = e.n ∧ ∀ i : Fin e.n, ((a.data.map CX.re).getD i .nan).toK = e.c i) ∧
    ∃ r h' a, getShapeMat h o = (.ok r, h') ∧ h'.arrs[r]? = some a ∧ (∀ q ∈ h'.objs, q.cRef ≠ r ∧ q.qRef ≠ r) ∧
      a.shape = [e.n, e.n] ∧ matOf e.n (a.data.map CX.re) = e.Q := by
  have hi := hr.inv
  have ho := val_lt hv
  have hq : h.objs[o]? = some h.objs[o] := List.getElem?_eq_getElem ho
  have hm := List.getElem_mem ho
  generalize h.objs[o] = q at hq hm
  obtain ⟨h1, h2, -, -⟩ := hi.refs q hm
  have hne : ∀ q ∈ h.objs, q.cRef ≠ h.arrs.length ∧ q.qRef ≠ h.arrs.length := fun q hq => by
    have := hi.refs q hq
    omega
  have ha := List.getElem?_eq_getElem h1
  have hb := List.getElem?_eq_getElem h2
  generalize h.arrs[q.cRef] = a at ha
  generalize h.arrs[q.qRef] = b at hb
  unfold val at hv
  rw [hq] at hv
  simp only [Option.bind_some, decode, ha, hb] at hv
  split at hv
  · rename_i n m hs
    split_ifs at hv with hnm
    obtain ⟨rfl, hlen⟩ := hnm
    injection hv with hv
    subst hv
    refine ⟨⟨h.arrs.length, (allocPub h a).2, a, by unfold getCenterVec; simp only [hq, ha]; rfl, ?_, hne, hlen, fun i => rfl⟩,
      ⟨h.arrs.length, (allocPub h b).2, b, by unfold getShapeMat; simp only [hq, hb]; rfl, ?_, hne, hs, rfl⟩⟩
    · simp [allocPub]
    · simp [allocPub]
  · cases hv

/-! ### C35 and C36 -/

theorem psd_proj {n k : ℕ} {Q : Matrix (Fin n) (Fin n) ℝ} (N : Matrix (Fin n) (Fin k) ℝ) (hQ : IsPSD Q) : IsPSD (Nᵀ * Q * N) := by
  refine ⟨by rw [transpose_mul, transpose_mul, transpose_transpose, hQ.1, Matrix.mul_assoc], fun x => ?_⟩
  have := hQ.2 (N *ᵥ x)
  rw [← mulVec_mulVec, ← mulVec_mulVec, dotProduct_mulVec, vecMul_transpose]
  exact this

theorem projVal_valid {e : EllObj} (he : ValidObj e) (hQ : IsPSD e.Q) {n k : ℕ} (B : Matrix (Fin n) (Fin k) ℝ) (hn : e.n = n) :
    ValidObj (projVal e B hn) := by
  obtain ⟨m, c, Q, t1, t2, n2, n3⟩ := e
  simp only at hn
  subst hn
  have ht : 0 < t1 := he.props.1
  have hp := psd_proj (unitCols B) hQ
  have key : ∀ v : Fin k → ℝ, -t1 * (v ⬝ᵥ v) ≤ v ⬝ᵥ lowerSym ((unitCols B)ᵀ * Q * unitCols B) *ᵥ v := by
    intro v
    rw [lowerSym_of_symm (Q := (unitCols B)ᵀ * Q * unitCols B) hp.1]
    have h1 := hp.2 v
    have h2 := dot_self_nonneg v
    have h3 : 0 ≤ v ⬝ᵥ ((unitCols B)ᵀ * Q * unitCols B) *ᵥ v := h1
    nlinarith
  exact ⟨he.props, symmWithin_of_symm hp.1 ht.le, key⟩

theorem mapProj_ok (E : Eigh) {n k : ℕ} (B : Matrix (Fin n) (Fin k) ℝ) (l : List ℕ) (hn : l.Nodup) (h : Heap) (hi : Inv h)
    (rs : List ℕ) (h' : Heap) (hm : mapHeap (projOne E B) h l = (.ok rs, h')) :
    rs = l ∧ ∀ o ∈ l, ∃ e, ∃ he : e.n = n, val h o = some e ∧ val h' o = some (projVal e B he) := by
  induction l generalizing h rs h' with
  | nil =>
    simp only [mapHeap, Prod.mk.injEq, Except.ok.injEq] at hm
    exact ⟨hm.1.symm, fun o ho => by cases ho⟩
  | cons o l ih =>
    obtain ⟨hno, hnl⟩ := List.nodup_cons.mp hn
    rcases projOne_cases E B hi o with ⟨x, hx, -⟩ | ⟨e, he, hv, hz, hval, h1, hp, hi1, hlen, hk, hnew⟩
    · simp only [mapHeap, hx, Prod.mk.injEq] at hm
      exact absurd hm.1 (by intro h; cases h)
    · simp only [mapHeap, hp] at hm
      have hrest := (mapHeap_inv (f := projOne E B) (S := {q | q ∈ l}) l
        (fun h hi q hq => ⟨(projOne_inv E B hi q).1, (projOne_inv E B hi q).2.mono (by rintro _ rfl; exact hq)⟩) h1 hi1).2
      cases hm2 : mapHeap (projOne E B) h1 l with
      | mk rs2 h2 =>
        rw [hm2] at hm hrest
        cases rs2 with
        | error x => simp at hm
        | ok rs2 =>
          simp only [Prod.mk.injEq, Except.ok.injEq] at hm
          obtain ⟨rfl, rfl⟩ := hm
          obtain ⟨rfl, hall⟩ := ih hnl h1 hi1 rs2 h2 hm2
          refine ⟨rfl, fun q hq => ?_⟩
          rcases List.mem_cons.mp hq with rfl | hq
          · exact ⟨e, he, hv, by rw [hrest.2 q (val_lt hnew) hno, hnew]⟩
          · obtain ⟨e', he', hv', hn'⟩ := hall q hq
            have hqo : q ≠ o := fun h => hno (h ▸ hq)
            refine ⟨e', he', ?_, hn'⟩
            rw [← hv', hk.2 q (by rw [← hlen]; exact val_lt hv') hqo]

theorem mapProj_succeeds (E : Eigh) {n k : ℕ} (B : Matrix (Fin n) (Fin k) ℝ) (hz : ∀ j, ∃ i, B i j ≠ 0) (l : List ℕ) (hn : l.Nodup)
    (h : Heap) (hi : Inv h) (hl : ∀ o ∈ l, ∃ e, val h o = some e ∧ e.n = n ∧ IsPSD e.Q) :
    ∃ h', mapHeap (projOne E B) h l = (.ok l, h') := by
  induction l generalizing h with
  | nil => exact ⟨h, rfl⟩
  | cons o l ih =>
    obtain ⟨hno, hnl⟩ := List.nodup_cons.mp hn
    obtain ⟨e, hv, he, hQ⟩ := hl o List.mem_cons_self
    rcases projOne_cases E B hi o with ⟨x, -, hx⟩ | ⟨e', he', hv', -, hval, h1, hp, hi1, hlen, hk, hnew⟩
    · exact absurd ⟨e, he, hv, hz, projVal_valid (hi.val_valid hv) hQ B he⟩ hx
    · obtain ⟨h2, hm⟩ := ih hnl h1 hi1 (fun q hq => by
        obtain ⟨e, hv, he, hQ⟩ := hl q (List.mem_cons_of_mem _ hq)
        have hqo : q ≠ o := fun h => hno (h ▸ hq)
        exact ⟨e, by rw [hk.2 q (val_lt hv) hqo, hv], he, hQ⟩)
      exact ⟨h2, by simp only [mapHeap, hp, hm]⟩

theorem foldr_max_lt' (l : List ℝ) (x : ℝ) : l.foldr max 0 < x ↔ 0 < x ∧ ∀ y ∈ l, y < x := by
  induction l with
  | nil => simp
  | cons y ys ih =>
    rw [List.foldr_cons, max_lt_iff, ih]
    simp only [List.mem_cons, forall_eq_or_imp]
    tauto

/-- The checks of `projection`. -/
theorem projection_cases (E : Eigh) {n k : ℕ} (B : Matrix (Fin n) (Fin k) ℝ) {h : Heap} (hi : Inv h) (os : Arr ℕ) :
    (os.data = [] ∧ projection E B h os = (.ok os, h)) ∨
    ((∃ x, projection E B h os = (.error x, h)) ∧
      ((∃ o ∈ os.data, val h o = none) ∨ ¬ k ≤ n ∨ (∃ o ∈ os.data, ∃ e, val h o = some e ∧ e.n ≠ n) ∨
        ∃ i j, i ≠ j ∧ ∀ o ∈ os.data, ∀ e, val h o = some e → e.absTol < (Bᵀ * B) i j)) ∨
    (os.data ≠ [] ∧ k ≤ n ∧ (∀ o ∈ os.data, ∃ e, val h o = some e ∧ e.n = n) ∧
      (∀ i j, i ≠ j → ∃ o ∈ os.data, ∃ e, val h o = some e ∧ (Bᵀ * B) i j ≤ e.absTol) ∧
      projection E B h os = match mapHeap (projOne E B) h os.data with
        | (.error x, h1) => (.error x, h1)
        | (.ok _, h1) => (.ok os, h1)) := by
  unfold projection
  by_cases h0 : os.data.length ≠ 0
  swap
  · rw [if_neg h0]
    exact Or.inl ⟨List.length_eq_zero_iff.mp (not_not.mp h0), rfl⟩
  rw [if_pos h0]
  have hne : os.data ≠ [] := fun h => h0 (by rw [h]; rfl)
  right
  split
  · rename_i x hx
    left
    refine ⟨⟨x, rfl⟩, Or.inl ?_⟩
    obtain ⟨o, ho, y, hy⟩ := (pyMap_raises _ _).mp ⟨x, hx⟩
    refine ⟨o, ho, ?_⟩
    cases hv : val h o with
    | none => rfl
    | some e => rw [hv] at hy; cases hy
  · rename_i es hes
    have hf := (pyMap_ok_iff _ _ _).mp hes
    have hf : List.Forall₂ (fun o e => val h o = some e) os.data es := by
      refine hf.imp (fun o e hoe => ?_)
      cases hv : val h o with
      | none => rw [hv] at hoe; cases hoe
      | some e' => rw [hv] at hoe; injection hoe with hoe; rw [hoe]
    have hto : ∀ e ∈ es, ∃ o ∈ os.data, val h o = some e := by
      intro e he
      obtain ⟨i, hi', rfl⟩ := List.getElem_of_mem he
      have hi2 : i < os.data.length := by rw [hf.length_eq]; exact hi'
      exact ⟨os.data[i], List.getElem_mem hi2, hf.get hi2 hi'⟩
    have hback : ∀ o ∈ os.data, ∃ e ∈ es, val h o = some e := by
      intro o ho
      obtain ⟨i, hi', rfl⟩ := List.getElem_of_mem ho
      have hi2 : i < es.length := by rw [← hf.length_eq]; exact hi'
      exact ⟨es[i], List.getElem_mem hi2, hf.get hi' hi2⟩
    by_cases h1 : k ≤ n ∧ ∀ e ∈ es, e.n = n
    swap
    · rw [if_pos h1]
      left
      refine ⟨⟨_, rfl⟩, Or.inr ?_⟩
      by_cases hk : k ≤ n
      · right; left
        have : ∃ e ∈ es, e.n ≠ n := by
          by_contra hc
          push Not at hc
          exact h1 ⟨hk, hc⟩
        obtain ⟨e, he, hen⟩ := this
        obtain ⟨o, ho, hv⟩ := hto e he
        exact ⟨o, ho, e, hv, hen⟩
      · exact Or.inl hk
    rw [if_neg (not_not.mpr h1)]
    simp only
    have hlt : ∀ x, (es.map EllObj.absTol).foldr max 0 < x ↔ ∀ o ∈ os.data, ∀ e, val h o = some e → e.absTol < x := by
      intro x
      rw [foldr_max_lt']
      constructor
      · rintro ⟨-, hall⟩ o ho e hv
        obtain ⟨e', he', hv'⟩ := hback o ho
        rw [hv] at hv'
        injection hv' with hv'
        subst hv'
        exact hall _ (List.mem_map.mpr ⟨e, he', rfl⟩)
      · intro hall
        have hall' : ∀ e ∈ es, e.absTol < x := fun e he => by
          obtain ⟨o, ho, hv⟩ := hto e he
          exact hall o ho e hv
        refine ⟨?_, fun y hy => ?_⟩
        · obtain ⟨o, ho⟩ := List.exists_mem_of_ne_nil _ hne
          obtain ⟨e, he, hv⟩ := hback o ho
          exact lt_trans (hi.val_valid hv).props.1 (hall' e he)
        · obtain ⟨e, he, rfl⟩ := List.mem_map.mp hy
          exact hall' e he
    by_cases h2 : ∃ i j, i ≠ j ∧ (es.map EllObj.absTol).foldr max 0 < (Bᵀ * B) i j
    · rw [if_pos h2]
      left
      refine ⟨⟨_, rfl⟩, Or.inr (Or.inr (Or.inr ?_))⟩
      obtain ⟨i, j, hij, hl⟩ := h2
      exact ⟨i, j, hij, (hlt _).mp hl⟩
    rw [if_neg h2]
    have h3 : ¬ ∃ i : Fin k, (es.map EllObj.absTol).foldr max 0 < (Bᵀ * B) i i - (Bᵀ * B) i i := by
      rintro ⟨i, hl⟩
      rw [sub_self] at hl
      exact lt_irrefl _ ((foldr_max_lt' _ _).mp hl).1
    rw [if_neg h3]
    right
    refine ⟨hne, h1.1, fun o ho => ?_, fun i j hij => ?_, rfl⟩
    · obtain ⟨e, he, hv⟩ := hback o ho
      exact ⟨e, hv, h1.2 e he⟩
    · by_contra hc
      push Not at hc
      exact h2 ⟨i, j, hij, (hlt _).mpr hc⟩

/-- **C35** for `get_projection`: whatever happens, no object that existed before changes; the result consists of new objects whose values
are the projections of the values of the arguments. -/
theorem C35_get_projection (E : Eigh) (h : Heap) (hr : Reachable E h) {n k : ℕ} (B : Matrix (Fin n) (Fin k) ℝ) (os : Arr ℕ)
    (hl : ∀ o ∈ os.data, o < h.objs.length) :
    (∀ o < h.objs.length, val (getProjection E B h os).2 o = val h o) ∧
    ∀ rs, (getProjection E B h os).1 = .ok rs →
      rs.data.length = os.data.length ∧ rs.data.Nodup ∧ (∀ o ∈ rs.data, h.objs.length ≤ o) ∧
      List.Forall₂ (fun o r => ∃ e, ∃ he : e.n = n, val h o = some e ∧ val (getProjection E B h os).2 r = some (projVal e B he))
        os.data rs.data := by
  have hi := hr.inv
  refine ⟨fun o ho => (getProjection_inv E B hi os).2.2 o ho (Set.notMem_empty _), fun rs hrs => ?_⟩
  by_cases h0 : os.data.length = 0
  · have hnil := List.length_eq_zero_iff.mp h0
    have hc : getCopy E h os = (.ok os, h) := by unfold getCopy; rw [if_pos h0]
    have hp : projection E B h os = (.ok os, h) := by unfold projection; rw [if_neg (not_not.mpr h0)]
    have hg : getProjection E B h os = (.ok os, h) := by unfold getProjection; rw [hc]; exact hp
    rw [hg] at hrs
    injection hrs with hrs
    subst hrs
    rw [hnil]
    exact ⟨rfl, List.nodup_nil, fun o ho => absurd ho List.not_mem_nil, List.Forall₂.nil⟩
  obtain ⟨h1, hm, hi1, hk1, hlen, -, -, hvals⟩ := mapCopy_ok E os.data h hi hl
  have hc : ∃ sh, getCopy E h os = (.ok (mkArr sh (List.range' h.objs.length os.data.length)), h1) := by
    unfold getCopy
    rw [if_neg h0, hm]
    split_ifs
    · exact ⟨[], rfl⟩
    · exact ⟨os.shape, rfl⟩
  obtain ⟨sh, hc⟩ := hc
  have hg : getProjection E B h os = projection E B h1 (mkArr sh (List.range' h.objs.length os.data.length)) := by
    unfold getProjection; rw [hc]
  rw [hg] at hrs ⊢
  rcases projection_cases E B hi1 (mkArr sh (List.range' h.objs.length os.data.length)) with
    ⟨hnil, -⟩ | ⟨⟨x, hx⟩, -⟩ | ⟨hne, hkn, hdim, hort, heq⟩
  · rw [mkArr_data] at hnil
    have := congrArg List.length hnil
    rw [List.length_range'] at this
    exact absurd this h0
  · rw [hx] at hrs; cases hrs
  · rw [heq] at hrs ⊢
    rw [mkArr_data] at *
    cases hm2 : mapHeap (projOne E B) h1 (List.range' h.objs.length os.data.length) with
    | mk rs2 h2 =>
      rw [hm2] at hrs
      cases rs2 with
      | error x => cases hrs
      | ok rs2 =>
        simp only at hrs ⊢
        injection hrs with hrs
        subst hrs
        rw [mkArr_data]
        obtain ⟨-, hall⟩ := mapProj_ok E B _ List.nodup_range' h1 hi1 rs2 h2 hm2
        refine ⟨List.length_range', List.nodup_range', fun o ho => ?_, ?_⟩
        · exact (List.mem_range'_1.mp ho).1
        · refine List.forall₂_iff_get.mpr ⟨List.length_range'.symm, fun i hi' hi2 => ?_⟩
          obtain ⟨e, he, hv, hn⟩ := hall _ (List.get_mem _ ⟨i, hi2⟩)
          refine ⟨e, he, ?_, hn⟩
          rw [← hv]
          simp only [List.get_eq_getElem, List.getElem_range', one_mul]
          exact (hvals i hi').symm

/-- **C35** for `projection` on an array of different objects: if it succeeds, exactly the objects of the array have been replaced by
their projections. -/
theorem C35_projection_partial (E : Eigh) (h : Heap) (hr : Reachable E h) {n k : ℕ} (B : Matrix (Fin n) (Fin k) ℝ) (os rs : Arr ℕ)
    (hn : os.data.Nodup) (hok : (projection E B h os).1 = .ok rs) :
    rs = os ∧ (∀ o < h.objs.length, o ∉ os.data → val (projection E B h os).2 o = val h o) ∧
      ∀ o ∈ os.data, ∃ e, ∃ he : e.n = n, val h o = some e ∧ val (projection E B h os).2 o = some (projVal e B he) := by
  have hi := hr.inv
  have hk := (projection_inv E B hi os).2
  refine ⟨?_, fun o ho hm => hk.2 o ho hm, ?_⟩
  · rcases projection_cases E B hi os with ⟨-, hp⟩ | ⟨⟨x, hx⟩, -⟩ | ⟨-, -, -, -, hp⟩
    · rw [hp] at hok; injection hok with hok; exact hok.symm
    · rw [hx] at hok; cases hok
    · rw [hp] at hok
      cases hm : mapHeap (projOne E B) h os.data with
      | mk r h1 =>
        rw [hm] at hok
        cases r with
        | error x => cases hok
        | ok r => injection hok with hok; exact hok.symm
  · rcases projection_cases E B hi os with ⟨hnil, -⟩ | ⟨⟨x, hx⟩, -⟩ | ⟨-, -, -, -, hp⟩
    · rw [hnil]; exact fun o ho => absurd ho List.not_mem_nil
    · rw [hx] at hok; cases hok
    · rw [hp] at hok ⊢
      cases hm : mapHeap (projOne E B) h os.data with
      | mk r h1 =>
        rw [hm] at hok
        cases r with
        | error x => cases hok
        | ok r => exact (mapProj_ok E B _ hn h hi r h1 hm).2

/-- A zero column always makes `projection` raise. -/
theorem C35_raises_aux (E : Eigh) (h : Heap) (hr : Reachable E h) {n k : ℕ} (B : Matrix (Fin n) (Fin k) ℝ) (os : Arr ℕ)
    (hne : ∃ o, o ∈ os.data) (hz : ∃ j, ∀ i, B i j = 0) : Raises (projection E B h os).1 ∧ (projection E B h os).2 = h := by
  have hi := hr.inv
  rcases projection_cases E B hi os with ⟨hnil, -⟩ | ⟨⟨x, hx⟩, -⟩ | ⟨-, -, -, -, hp⟩
  · obtain ⟨o, ho⟩ := hne
    rw [hnil] at ho; cases ho
  · rw [hx]; exact ⟨⟨x, rfl⟩, rfl⟩
  · cases hl : os.data with
    | nil => obtain ⟨o, ho⟩ := hne; rw [hl] at ho; cases ho
    | cons o l =>
      have hm : ∃ x, mapHeap (projOne E B) h (o :: l) = (.error x, h) := by
        rcases projOne_cases E B hi o with ⟨x, hx, -⟩ | ⟨e, he, -, hno, -⟩
        · exact ⟨x, by simp only [mapHeap, hx]⟩
        · obtain ⟨j, hj⟩ := hz
          obtain ⟨i, hij⟩ := hno j
          exact absurd (hj i) hij
      obtain ⟨x, hm⟩ := hm
      rw [hp, hl, hm]
      exact ⟨⟨x, rfl⟩, rfl⟩

/-- **C35**, the exceptions of `projection`: on different objects whose shape matrices are exactly symmetric and positive semidefinite,
`projection` raises exactly if the dimensions do not fit, two columns of the basis have an inner product above all tolerances, or a column
is zero — and then nothing has changed. -/
theorem C35_raises_partial (E : Eigh) (h : Heap) (hr : Reachable E h) {n k : ℕ} (B : Matrix (Fin n) (Fin k) ℝ) (os : Arr ℕ)
    (hn : os.data.Nodup) (hpsd : ∀ o ∈ os.data, ∃ e, val h o = some e ∧ IsPSD e.Q) :
    (Raises (projection E B h os).1 ↔ os.data ≠ [] ∧ (¬ k ≤ n ∨ (∃ o ∈ os.data, ∃ e, val h o = some e ∧ e.n ≠ n) ∨
      (∃ i j, i ≠ j ∧ ∀ o ∈ os.data, ∀ e, val h o = some e → e.absTol < (Bᵀ * B) i j) ∨ ∃ j, ∀ i, B i j = 0)) ∧
    (Raises (projection E B h os).1 → (projection E B h os).2 = h) := by
  have hi := hr.inv
  rcases projection_cases E B hi os with ⟨hnil, hp⟩ | ⟨⟨x, hx⟩, hw⟩ | ⟨hne, hkn, hdim, hort, hp⟩
  · rw [hp]
    refine ⟨iff_of_false ?_ (fun h => h.1 hnil), fun _ => rfl⟩
    rintro ⟨e, he⟩; cases he
  · rw [hx]
    refine ⟨iff_of_true ⟨x, rfl⟩ ⟨?_, ?_⟩, fun _ => rfl⟩
    · intro hnil
      have h2 : projection E B h os = (.ok os, h) := by
        unfold projection; rw [if_neg (by rw [hnil]; simp)]
      rw [h2] at hx
      cases hx
    · rcases hw with ⟨o, ho, hv⟩ | hw | hw | hw
      · obtain ⟨e, he, -⟩ := hpsd o ho
        rw [hv] at he; cases he
      · exact Or.inl hw
      · exact Or.inr (Or.inl hw)
      · exact Or.inr (Or.inr (Or.inl hw))
  · by_cases hz : ∃ j, ∀ i, B i j = 0
    · have := C35_raises_aux E h hr B os (List.exists_mem_of_ne_nil _ hne) hz
      exact ⟨iff_of_true this.1 ⟨hne, Or.inr (Or.inr (Or.inr hz))⟩, fun _ => this.2⟩
    · have hz' : ∀ j, ∃ i, B i j ≠ 0 := by push Not at hz; exact hz
      obtain ⟨h', hm⟩ := mapProj_succeeds E B hz' os.data hn h hi (fun o ho => by
        obtain ⟨e, hv, hQ⟩ := hpsd o ho
        obtain ⟨e', hv', he'⟩ := hdim o ho
        rw [hv] at hv'
        injection hv' with hv'
        subst hv'
        exact ⟨e, hv, he', hQ⟩)
      have hnr : ¬ Raises (projection E B h os).1 := by
        rw [hp, hm]
        rintro ⟨x, hx⟩; cases hx
      refine ⟨iff_of_false hnr ?_, fun hc => absurd hc hnr⟩
      rintro ⟨-, hc | ⟨o, ho, e, hv, hen⟩ | ⟨i, j, hij, hall⟩ | hc⟩
      · exact hc hkn
      · obtain ⟨e', hv', he'⟩ := hdim o ho
        rw [hv] at hv'
        injection hv' with hv'
        subst hv'
        exact hen he'
      · obtain ⟨o, ho, e, hv, hle⟩ := hort i j hij
        exact absurd (hall o ho e hv) (not_lt.mpr hle)
      · exact hz hc

/-- **C36**: the image of an ellipsoid under `x ↦ Nᵀ x`. -/
theorem ell_image {n k : ℕ} (N : Matrix (Fin n) (Fin k) ℝ) (c : Fin n → ℝ) {Q : Matrix (Fin n) (Fin n) ℝ} (hQ : IsPSD Q) :
    Ell (Nᵀ *ᵥ c) (Nᵀ * Q * N) = (fun x => Nᵀ *ᵥ x) '' Ell c Q := by
  obtain ⟨S, hS, hSS⟩ := exists_root hQ
  have h1 : S * Sᵀ = Q := by rw [hS.1, hSS]
  have h2 : (Nᵀ * S) * (Nᵀ * S)ᵀ = Nᵀ * Q * N := by
    rw [transpose_mul, transpose_transpose, ← h1]; simp only [Matrix.mul_assoc]
  ext y
  rw [mem_ell_factor h2]
  constructor
  · rintro ⟨u, hu, rfl⟩
    refine ⟨c + S *ᵥ u, (mem_ell_factor h1 _).mpr ⟨u, hu, rfl⟩, ?_⟩
    simp only [mulVec_add, mulVec_mulVec]
  · rintro ⟨x, hx, rfl⟩
    obtain ⟨u, hu, rfl⟩ := (mem_ell_factor h1 _).mp hx
    exact ⟨u, hu, by simp only [mulVec_add, mulVec_mulVec]⟩

/-- The normalised basis is orthonormal if the columns are orthogonal and not zero. -/
theorem unitCols_orth {n k : ℕ} {B : Matrix (Fin n) (Fin k) ℝ} (hz : ∀ j, ∃ i, B i j ≠ 0) (ho : ∀ i j, i ≠ j → (Bᵀ * B) i j = 0) :
    (unitCols B)ᵀ * unitCols B = 1 := by
  have hpos : ∀ j, 0 < ∑ i, B i j ^ 2 := fun j => by
    obtain ⟨i, hi⟩ := hz j
    exact Finset.sum_pos' (fun i _ => sq_nonneg _) ⟨i, Finset.mem_univ _, by positivity⟩
  have hform : ∀ i j, ((unitCols B)ᵀ * unitCols B) i j = (Bᵀ * B) i j / (Real.sqrt (∑ m, B m i ^ 2) * Real.sqrt (∑ m, B m j ^ 2)) := by
    intro i j
    simp only [mul_apply, transpose_apply, unitCols, of_apply]
    rw [Finset.sum_div]
    exact Finset.sum_congr rfl (fun m _ => by rw [div_mul_div_comm])
  ext i j
  rw [hform]
  by_cases hij : i = j
  · subst hij
    rw [one_apply_eq, Real.mul_self_sqrt (hpos i).le]
    have : (Bᵀ * B) i i = ∑ m, B m i ^ 2 := by
      simp only [mul_apply, transpose_apply, pow_two]
    rw [this, div_self (hpos i).ne']
  · rw [ho i j hij, zero_div, one_apply_ne hij]

/-- **C36**: after `projection` the object is exactly the image of the old ellipsoid under the coordinates `x ↦ Nᵀ x` with the normalised
basis `N` (orthonormal if the columns of `B` are orthogonal, so `N Nᵀ` is the orthogonal projection onto their span). -/
theorem C36_partial (E : Eigh) (h : Heap) (hr : Reachable E h) {n k : ℕ} (B : Matrix (Fin n) (Fin k) ℝ) (os rs : Arr ℕ)
    (hn : os.data.Nodup) (hok : (projection E B h os).1 = .ok rs) (o : ℕ) (ho : o ∈ os.data) (c : Fin n → ℝ)
    (Q : Matrix (Fin n) (Fin n) ℝ) (t1 t2 n2 n3 : ℝ) (hv : val h o = some ⟨n, c, Q, t1, t2, n2, n3⟩) (hQ : IsPSD Q) :
    ∃ c' Q', val (projection E B h os).2 o = some ⟨k, c', Q', t1, t2, n2, n3⟩ ∧
      Ell c' Q' = (fun x => (unitCols B)ᵀ *ᵥ x) '' Ell c Q ∧
      ((∀ i j, i ≠ j → (Bᵀ * B) i j = 0) → (unitCols B)ᵀ * unitCols B = 1) := by
  obtain ⟨-, -, hall⟩ := C35_projection_partial E h hr B os rs hn hok
  obtain ⟨e, he, hv', hnew⟩ := hall o ho
  rw [hv] at hv'
  injection hv' with hv'
  subst hv'
  refine ⟨_, _, hnew, ell_image _ c hQ, fun hort => unitCols_orth ?_ hort⟩
  by_contra hz
  push Not at hz
  obtain ⟨x, hx⟩ := (C35_raises_aux E h hr B os ⟨o, ho⟩ hz).1
  rw [hx] at hok
  cases hok

/-! ### Witnesses -/

/-- Every valid value can be constructed. -/
theorem reach_obj (E : Eigh) (h : Heap) (hr : Reachable E h) (e : EllObj) (he : ValidObj e) :
    ∃ h', Reachable E h' ∧ (∀ o < h.objs.length, val h' o = val h o) ∧ h'.objs.length = h.objs.length + 1 ∧
      val h' h.objs.length = some e ∧ h'.dflt = h.dflt := by
  set calls : List Call := [.mkArray (encVec e.c), .mkArray (encMat e.Q), .new [h.arrs.length, h.arrs.length + 1] e.props] with hcalls
  have hi := hr.inv
  obtain ⟨p, pre, hp⟩ := hr
  have hreach : Reachable E (run E h calls) := ⟨p, pre ++ calls, by unfold run at hp ⊢; rw [List.foldl_append, ← hp]⟩
  have hk := (run_inv E hi calls ∅ (fun c hc o ho => by
    simp only [hcalls, List.mem_cons, List.not_mem_nil, or_false] at hc
    rcases hc with rfl | rfl | rfl <;> cases ho)).2
  have ht : 0 < e.absTol := he.props.1
  have hnew : ellNew E [.arr (encVec e.c), .arr (encMat e.Q)] e.props.absTol e.props.relTol e.props.n2d e.props.n3d = .ok e := by
    rw [C33]
    exact ⟨e.n, e.c, e.Q, rfl, Or.inr (Or.inr ⟨_, _, [], rfl, encVec_good e.c ht, encMat_good ht he.symm he.eig⟩)⟩
  set h2 : Heap := (allocPub (allocPub h (encVec e.c)).2 (encMat e.Q)).2 with hh2
  have hrun : run E h calls = (build E h2 (readArgs h2 [h.arrs.length, h.arrs.length + 1]) e.props).2 := rfl
  have hargs : readArgs h2 [h.arrs.length, h.arrs.length + 1] = [.arr (encVec e.c), .arr (encMat e.Q)] := by
    simp [readArgs, hh2, allocPub]
  have hb : (build E h2 (readArgs h2 [h.arrs.length, h.arrs.length + 1]) e.props).2 = (allocObj h2 e).2 := by
    rw [hargs]
    unfold build
    rw [if_neg (not_not.mpr he.props), hnew]
  rw [hrun, hb] at hreach hk
  refine ⟨(allocObj h2 e).2, hreach, fun o ho => hk.2 o ho (Set.notMem_empty _), ?_, ?_, rfl⟩
  · simp [allocObj, hh2, allocPub]
  · have := allocObj_val (h := h2) e
    exact this

/-- After the checks only the loop is left. -/
theorem projection_pass (E : Eigh) {n k : ℕ} (B : Matrix (Fin n) (Fin k) ℝ) {h : Heap} (hi : Inv h) (os : Arr ℕ) (hne : os.data ≠ [])
    (hkn : k ≤ n) (hdim : ∀ o ∈ os.data, ∃ e, val h o = some e ∧ e.n = n ∧ ∀ i j, i ≠ j → (Bᵀ * B) i j ≤ e.absTol) :
    projection E B h os = match mapHeap (projOne E B) h os.data with
      | (.error x, h1) => (.error x, h1)
      | (.ok _, h1) => (.ok os, h1) := by
  rcases projection_cases E B hi os with ⟨hnil, -⟩ | ⟨-, hw⟩ | ⟨-, -, -, -, hp⟩
  · exact absurd hnil hne
  · exfalso
    rcases hw with ⟨o, ho, hv⟩ | hw | ⟨o, ho, e, hv, hen⟩ | ⟨i, j, hij, hall⟩
    · obtain ⟨e, he, -⟩ := hdim o ho
      rw [hv] at he; cases he
    · exact hw hkn
    · obtain ⟨e', hv', he', -⟩ := hdim o ho
      rw [hv] at hv'
      injection hv' with hv'
      subst hv'
      exact hen he'
    · obtain ⟨o, ho⟩ := List.exists_mem_of_ne_nil _ hne
      obtain ⟨e, hv, -, hle⟩ := hdim o ho
      exact absurd (hall o ho e hv) (not_lt.mpr (hle i j hij))
  · exact hp

theorem projOne_ok (E : Eigh) {n k : ℕ} (B : Matrix (Fin n) (Fin k) ℝ) {h : Heap} (hi : Inv h) (o : ℕ) (e : EllObj) (he : e.n = n)
    (hv : val h o = some e) (hz : ∀ j, ∃ i, B i j ≠ 0) (hval : ValidObj (projVal e B he)) :
    ∃ h', projOne E B h o = (.ok o, h') ∧ Inv h' ∧ h'.objs.length = h.objs.length ∧ Keeps {o} h h' ∧ val h' o = some (projVal e B he) := by
  rcases projOne_cases E B hi o with ⟨x, -, hx⟩ | ⟨e', he', hv', -, -, h1, hp, hi1, hlen, hk, hnew⟩
  · exact absurd ⟨e, he, hv, hz, hval⟩ hx
  · rw [hv] at hv'
    injection hv' with hv'
    subst hv'
    exact ⟨h1, hp, hi1, hlen, hk, hnew⟩

theorem projOne_error (E : Eigh) {n k : ℕ} (B : Matrix (Fin n) (Fin k) ℝ) {h : Heap} (hi : Inv h) (o : ℕ) (e : EllObj)
    (hv : val h o = some e) (hbad : ∀ he : e.n = n, ¬ ValidObj (projVal e B he)) : ∃ x, projOne E B h o = (.error x, h) := by
  rcases projOne_cases E B hi o with ⟨x, hx, -⟩ | ⟨e', he', hv', -, hval, -⟩
  · exact ⟨x, hx⟩
  · rw [hv] at hv'
    injection hv' with hv'
    subst hv'
    exact absurd hval (hbad he')

theorem valid_of_psd {n : ℕ} (c : Fin n → ℝ) {Q : Matrix (Fin n) (Fin n) ℝ} (hQ : IsPSD Q) {t1 t2 n2 n3 : ℝ}
    (hp : (PropVals.mk t1 t2 n2 n3).ok) : ValidObj ⟨n, c, Q, t1, t2, n2, n3⟩ := by
  refine ⟨hp, symmWithin_of_symm hQ.1 hp.1.le, fun v => ?_⟩
  show -t1 * (v ⬝ᵥ v) ≤ v ⬝ᵥ lowerSym Q *ᵥ v
  have h1 := hQ.2 v
  have h2 := dot_self_nonneg v
  have h3 := hp.1
  have h4 : v ⬝ᵥ lowerSym Q *ᵥ v = v ⬝ᵥ Q *ᵥ v := by
    have : lowerSym Q = Q := lowerSym_of_symm hQ.1
    exact congrArg (fun M : Matrix (Fin n) (Fin n) ℝ => v ⬝ᵥ M *ᵥ v) this
  rw [h4]
  have h5 : 0 < t1 := h3
  have h6 : 0 ≤ v ⬝ᵥ Q *ᵥ v := h1
  nlinarith

/-- The default settings of the examples. -/
noncomputable def exProps (t : ℝ) : PropVals := ⟨t, 1 / 100, 200, 200⟩

theorem exProps_ok {t : ℝ} (ht : 0 < t) : (exProps t).ok := ⟨ht, by norm_num [exProps], ⟨200, by norm_num [exProps]⟩, 200, by norm_num [exProps]⟩

/-- The unit disc. -/
noncomputable def disc : EllObj := ⟨2, 0, 1, 1 / 10, 1 / 100, 200, 200⟩

theorem psd_one {n : ℕ} : IsPSD (1 : Matrix (Fin n) (Fin n) ℝ) := ⟨transpose_one, fun x => by rw [one_mulVec]; exact dot_self_nonneg x⟩

theorem disc_valid : ValidObj disc := valid_of_psd _ psd_one (exProps_ok (by norm_num))

theorem reach_empty (E : Eigh) (p : PropVals) : Reachable E (emptyHeap p) := ⟨p, [], rfl⟩

/-- **C35** is violated: on an array that contains the same object twice, `projection` to a line raises after it has changed the object. -/
theorem C35_violation (E : Eigh) : ∃ h, Reachable E h ∧ ∃ B : Matrix (Fin 2) (Fin 1) ℝ, ∃ os : Arr ℕ, os.data = [0, 0] ∧
    val h 0 = some disc ∧ Raises (projection E B h os).1 ∧ val (projection E B h os).2 0 ≠ val h 0 := by
  obtain ⟨h, hr, -, hlen, hv, -⟩ := reach_obj E _ (reach_empty E (exProps 1)) disc disc_valid
  have hv : val h 0 = some disc := hv
  have hi := hr.inv
  set B : Matrix (Fin 2) (Fin 1) ℝ := !![1; 0] with hB
  have hz : ∀ j, ∃ i, B i j ≠ 0 := fun j => ⟨0, by fin_cases j; simp [hB]⟩
  refine ⟨h, hr, B, ⟨[2], [0, 0], rfl⟩, rfl, hv, ?_⟩
  rw [projection_pass E B hi ⟨[2], [0, 0], rfl⟩ (by simp) (by norm_num) (fun o ho => by
    have : o = 0 := by simpa using ho
    subst this
    exact ⟨disc, hv, rfl, fun i j hij => absurd (Subsingleton.elim i j) hij⟩)]
  obtain ⟨h1, hp1, hi1, -, -, hnew⟩ := projOne_ok E B hi 0 disc rfl hv hz (projVal_valid disc_valid psd_one B rfl)
  obtain ⟨x, hp2⟩ := projOne_error E B hi1 0 _ hnew (fun he => absurd he (by show ¬ (1 = 2); norm_num))
  have hm : mapHeap (projOne E B) h [0, 0] = (.error x, h1) := by
    simp only [mapHeap, hp1, hp2]
  simp only [hm]
  refine ⟨⟨x, rfl⟩, ?_⟩
  rw [hnew, hv]
  intro heq
  injection heq with heq
  have : (1 : ℕ) = 2 := congrArg EllObj.n heq
  norm_num at this

/-- **C35** is violated without an exception, too: with a square basis an object that occurs twice is projected twice. -/
theorem C35_violation_twice (E : Eigh) : ∃ h, Reachable E h ∧ ∃ B : Matrix (Fin 2) (Fin 2) ℝ, ∃ os : Arr ℕ, os.data = [0, 0] ∧
    ∃ e, val h 0 = some e ∧ ∃ he : e.n = 2, (projection E B h os).1 = .ok os ∧
      val (projection E B h os).2 0 ≠ some (projVal e B he) := by
  set Q : Matrix (Fin 2) (Fin 2) ℝ := !![1, 0; 0, 4] with hQ
  have hpsd : IsPSD Q := by
    refine ⟨by ext i j; fin_cases i <;> fin_cases j <;> simp [hQ], fun x => ?_⟩
    simp only [hQ, dotProduct, mulVec, Fin.sum_univ_two]
    simp
    nlinarith [sq_nonneg (x 0), sq_nonneg (x 1)]
  set e : EllObj := ⟨2, 0, Q, 1 / 10, 1 / 100, 200, 200⟩ with he
  have hev : ValidObj e := valid_of_psd _ hpsd (exProps_ok (by norm_num))
  obtain ⟨h, hr, -, hlen, hv, -⟩ := reach_obj E _ (reach_empty E (exProps 1)) e hev
  have hv : val h 0 = some e := hv
  have hi := hr.inv
  set B : Matrix (Fin 2) (Fin 2) ℝ := !![0, 1; 1, 0] with hB
  have hz : ∀ j, ∃ i, B i j ≠ 0 := fun j => by
    fin_cases j
    · exact ⟨1, by simp [hB]⟩
    · exact ⟨0, by simp [hB]⟩
  have hN : unitCols B = B := by
    ext i j
    fin_cases i <;> fin_cases j <;> simp [unitCols, hB]
  refine ⟨h, hr, B, ⟨[2], [0, 0], rfl⟩, rfl, e, hv, rfl, ?_⟩
  rw [projection_pass E B hi ⟨[2], [0, 0], rfl⟩ (by simp) (by norm_num) (fun o ho => by
    have : o = 0 := by simpa using ho
    subst this
    refine ⟨e, hv, rfl, fun i j hij => ?_⟩
    have h0 : (0 : ℝ) ≤ 1 / 10 := by norm_num
    fin_cases i <;> fin_cases j <;> simp [hB, mul_apply, Fin.sum_univ_two, he] at hij ⊢)]
  have hpv : IsPSD (projVal e B rfl).Q := psd_proj _ hpsd
  have hval1 := projVal_valid hev hpsd B rfl
  obtain ⟨h1, hp1, hi1, -, -, hnew1⟩ := projOne_ok E B hi 0 e rfl hv hz hval1
  obtain ⟨h2, hp2, hi2, -, -, hnew2⟩ := projOne_ok E B hi1 0 _ rfl hnew1 hz (projVal_valid hval1 hpv B rfl)
  have hm : mapHeap (projOne E B) h [0, 0] = (.ok [0, 0], h2) := by
    simp only [mapHeap, hp1, hp2]
  simp only [hm]
  refine ⟨trivial, ?_⟩
  rw [hnew2]
  intro heq
  injection heq with heq
  have h3 : (projVal (projVal e B rfl) B rfl).Q = (projVal e B rfl).Q := by
    unfold projVal at heq
    injection heq with _ _ heq
  have h4 : Bᵀ * (Bᵀ * Q * B) * B = Bᵀ * Q * B := by
    have : (unitCols B)ᵀ * ((unitCols B)ᵀ * Q * unitCols B) * unitCols B = (unitCols B)ᵀ * Q * unitCols B := h3
    rwa [hN] at this
  have h5 := congrFun (congrFun h4 0) 0
  simp [hB, hQ, mul_apply, Fin.sum_univ_two] at h5

/-- **C35** is violated for different objects, too: if the shape matrix of the second one is symmetric only up to its tolerance, the
projected matrix may not be, and `projection` raises after it has changed the first object. -/
theorem C35_violation_distinct (E : Eigh) : ∃ h, Reachable E h ∧ ∃ B : Matrix (Fin 3) (Fin 2) ℝ, (∀ i j, i ≠ j → (Bᵀ * B) i j = 0) ∧
    ∃ os : Arr ℕ, os.data = [0, 1] ∧ Raises (projection E B h os).1 ∧ val (projection E B h os).2 0 ≠ val h 0 := by
  set e1 : EllObj := ⟨3, 0, 1, 1, 1 / 100, 200, 200⟩ with he1
  set Q : Matrix (Fin 3) (Fin 3) ℝ := !![10, 0, -1; 0, 10, 1; 0, 0, 10] with hQ
  set e2 : EllObj := ⟨3, 0, Q, 1, 1 / 100, 200, 200⟩ with he2
  have hv1 : ValidObj e1 := valid_of_psd _ psd_one (exProps_ok (by norm_num))
  have hl : lowerSym Q = (10 : ℝ) • (1 : Matrix (Fin 3) (Fin 3) ℝ) := by
    ext i j
    fin_cases i <;> fin_cases j <;> simp [lowerSym, hQ]
  have hv2 : ValidObj e2 := by
    refine ⟨exProps_ok (t := 1) (by norm_num), ?_, ?_⟩
    · show SymmWithin Q 1
      intro i j
      fin_cases i <;> fin_cases j <;> simp [hQ]
    · show ∀ v : Fin 3 → ℝ, -1 * (v ⬝ᵥ v) ≤ v ⬝ᵥ lowerSym Q *ᵥ v
      intro v
      rw [hl, smul_mulVec, one_mulVec, dotProduct_smul, smul_eq_mul]
      have := dot_self_nonneg v
      linarith
  obtain ⟨ha, hra, -, hlena, hva, -⟩ := reach_obj E _ (reach_empty E (exProps 1)) e1 hv1
  have hlena : ha.objs.length = 1 := hlena
  obtain ⟨h, hr, hkeep, hlen, hvb, -⟩ := reach_obj E ha hra e2 hv2
  have hw1 : val h 0 = some e1 := by rw [hkeep 0 (by omega)]; exact hva
  have hw2 : val h 1 = some e2 := by rw [hlena] at hvb; exact hvb
  have hi := hr.inv
  set B : Matrix (Fin 3) (Fin 2) ℝ := !![0, 4; 0, -3; 1, 0] with hB
  have hz : ∀ j, ∃ i, B i j ≠ 0 := fun j => by
    fin_cases j
    · exact ⟨2, by simp [hB]⟩
    · exact ⟨0, by simp [hB]⟩
  have hort : ∀ i j, i ≠ j → (Bᵀ * B) i j = 0 := fun i j hij => by
    fin_cases i <;> fin_cases j <;> simp [hB, mul_apply, Fin.sum_univ_three] at hij ⊢
  have h25 : Real.sqrt (4 ^ 2 + 3 ^ 2) = 5 := by
    rw [show (4 : ℝ) ^ 2 + 3 ^ 2 = 5 ^ 2 by norm_num]; exact Real.sqrt_sq (by norm_num)
  have hN : unitCols B = !![0, 4 / 5; 0, -3 / 5; 1, 0] := by
    ext i j
    fin_cases i <;> fin_cases j <;> simp [unitCols, hB, Fin.sum_univ_three, h25]
  refine ⟨h, hr, B, hort, ⟨[2], [0, 1], rfl⟩, rfl, ?_⟩
  rw [projection_pass E B hi ⟨[2], [0, 1], rfl⟩ (by simp) (by norm_num) (fun o ho => by
    have : o = 0 ∨ o = 1 := by simpa using ho
    rcases this with rfl | rfl
    · exact ⟨e1, hw1, rfl, fun i j hij => by rw [hort i j hij]; norm_num [he1]⟩
    · exact ⟨e2, hw2, rfl, fun i j hij => by rw [hort i j hij]; norm_num [he2]⟩)]
  obtain ⟨h1, hp1, hi1, hl1, hk1, hnew⟩ := projOne_ok E B hi 0 e1 rfl hw1 hz (projVal_valid hv1 psd_one B rfl)
  have hw3 : val h1 1 = some e2 := by rw [hk1.2 1 (by omega) (by simp)]; exact hw2
  obtain ⟨x, hp2⟩ := projOne_error E B hi1 1 e2 hw3 (fun he hval => by
    have h1 : SymmWithin ((unitCols B)ᵀ * Q * unitCols B) 1 := hval.symm
    have h2 := h1 0 1
    rw [hN, hQ] at h2
    simp [mul_apply, Fin.sum_univ_three, vecMul, dotProduct] at h2
    rw [abs_le] at h2
    norm_num at h2)
  have hm : mapHeap (projOne E B) h [0, 1] = (.error x, h1) := by
    simp only [mapHeap, hp1, hp2]
  simp only [hm]
  refine ⟨⟨x, rfl⟩, ?_⟩
  rw [hnew, hw1]
  intro heq
  injection heq with heq
  have : (2 : ℕ) = 3 := congrArg EllObj.n heq
  norm_num at this

/-- **C36** is violated: the check of orthogonality has no absolute value, so columns with a negative inner product are accepted. -/
theorem C36_violation (E : Eigh) : ∃ h, Reachable E h ∧ ∃ B : Matrix (Fin 2) (Fin 2) ℝ, ∃ os : Arr ℕ, os.data = [0] ∧
    val h 0 = some disc ∧ disc.absTol < |(Bᵀ * B) 0 1| ∧ (projection E B h os).1 = .ok os := by
  obtain ⟨h, hr, -, hlen, hv, -⟩ := reach_obj E _ (reach_empty E (exProps 1)) disc disc_valid
  have hv : val h 0 = some disc := hv
  have hi := hr.inv
  set B : Matrix (Fin 2) (Fin 2) ℝ := !![1, -1; 0, 1] with hB
  have hz : ∀ j, ∃ i, B i j ≠ 0 := fun j => ⟨0, by fin_cases j <;> simp [hB]⟩
  refine ⟨h, hr, B, ⟨[1], [0], rfl⟩, rfl, hv, ?_, ?_⟩
  · norm_num [hB, mul_apply, Fin.sum_univ_two, disc]
  · rw [projection_pass E B hi ⟨[1], [0], rfl⟩ (by simp) (by norm_num) (fun o ho => by
      have : o = 0 := by simpa using ho
      subst this
      refine ⟨disc, hv, rfl, fun i j hij => ?_⟩
      fin_cases i <;> fin_cases j <;> norm_num [hB, mul_apply, Fin.sum_univ_two, disc] at hij <;>
        norm_num [hB, mul_apply, Fin.sum_univ_two, disc])]
    obtain ⟨h1, hp1, -⟩ := projOne_ok E B hi 0 disc rfl hv hz (projVal_valid disc_valid psd_one B rfl)
    have hm : mapHeap (projOne E B) h [0] = (.ok [0], h1) := by simp only [mapHeap, hp1]
    simp only [hm]

/-- The shadow of the unit disc on the first axis. -/
example (E : Eigh) : ∃ h h', Reachable E h ∧ ∃ os : Arr ℕ, os.data = [0] ∧
    projection E !![(1 : ℝ); 0] h os = (.ok os, h') ∧ val h' 0 = some ⟨1, ![0], !![1], 1 / 10, 1 / 100, 200, 200⟩ := by
  obtain ⟨h, hr, -, hlen, hv, -⟩ := reach_obj E _ (reach_empty E (exProps 1)) disc disc_valid
  have hv : val h 0 = some disc := hv
  have hi := hr.inv
  set B : Matrix (Fin 2) (Fin 1) ℝ := !![1; 0] with hB
  have hz : ∀ j, ∃ i, B i j ≠ 0 := fun j => ⟨0, by fin_cases j; simp [hB]⟩
  obtain ⟨h1, hp1, -, -, -, hnew⟩ := projOne_ok E B hi 0 disc rfl hv hz (projVal_valid disc_valid psd_one B rfl)
  refine ⟨h, h1, hr, ⟨[1], [0], rfl⟩, rfl, ?_, ?_⟩
  · rw [projection_pass E B hi ⟨[1], [0], rfl⟩ (by simp) (by norm_num) (fun o ho => by
      have : o = 0 := by simpa using ho
      subst this
      exact ⟨disc, hv, rfl, fun i j hij => absurd (Subsingleton.elim i j) hij⟩)]
    have hm : mapHeap (projOne E B) h [0] = (.ok [0], h1) := by simp only [mapHeap, hp1]
    simp only [hm]
  · rw [hnew]
    have hN : unitCols B = B := by
      ext i j
      fin_cases i <;> fin_cases j <;> simp [unitCols, hB]
    have h2 : (unitCols B)ᵀ *ᵥ (0 : Fin 2 → ℝ) = ![0] := by rw [mulVec_zero]; ext i; fin_cases i; rfl
    have h3 : (unitCols B)ᵀ * (1 : Matrix (Fin 2) (Fin 2) ℝ) * unitCols B = !![1] := by
      rw [hN]; ext i j; fin_cases i; fin_cases j; simp [hB, mul_apply, Fin.sum_univ_two]
    have : projVal disc B rfl = ⟨1, (unitCols B)ᵀ *ᵥ (0 : Fin 2 → ℝ), (unitCols B)ᵀ * (1 : Matrix (Fin 2) (Fin 2) ℝ) * unitCols B,
      1 / 10, 1 / 100, 200, 200⟩ := rfl
    rw [this, h2, h3]

/-! ### C37 -/

/-- **C37** for ellipsoids: `get_copy` of existing objects succeeds; the result has the shape of the argument (no dimensions if there is
only one object) and consists of new, different objects with the same centres, shape matrices and properties. -/
theorem C37_get_copy (E : Eigh) (h : Heap) (hr : Reachable E h) (os : Arr ℕ) (hl : ∀ o ∈ os.data, o < h.objs.length) :
    ∃ cs h', getCopy E h os = (.ok cs, h') ∧ cs.shape = (if os.data.length = 1 then [] else os.shape) ∧ cs.data.Nodup ∧
      (∀ o ∈ cs.data, h.objs.length ≤ o) ∧
      List.Forall₂ (fun o c => ∃ e, val h o = some e ∧ val h' o = some e ∧ val h' c = some e) os.data cs.data := by
  have hi := hr.inv
  by_cases h0 : os.data.length = 0
  · refine ⟨os, h, by unfold getCopy; rw [if_pos h0], by rw [if_neg (by omega)], ?_⟩
    rw [List.length_eq_zero_iff.mp h0]
    exact ⟨List.nodup_nil, fun o ho => absurd ho List.not_mem_nil, List.Forall₂.nil⟩
  obtain ⟨h1, hm, hi1, hk1, hlen, -, -, hvals⟩ := mapCopy_ok E os.data h hi hl
  have hall : List.Forall₂ (fun o c => ∃ e, val h o = some e ∧ val h1 o = some e ∧ val h1 c = some e) os.data
      (List.range' h.objs.length os.data.length) := by
    refine List.forall₂_iff_get.mpr ⟨List.length_range'.symm, fun i hi' hi2 => ?_⟩
    obtain ⟨e, he, -⟩ := hi.valid _ (hl _ (List.get_mem _ ⟨i, hi'⟩))
    refine ⟨e, he, ?_, ?_⟩
    · rw [hk1.2 _ (val_lt he) (Set.notMem_empty _), he]
    · rw [← he]
      simp only [List.get_eq_getElem, List.getElem_range', one_mul]
      exact hvals i hi'
  have hnew : ∀ o ∈ List.range' h.objs.length os.data.length, h.objs.length ≤ o := fun o ho => (List.mem_range'_1.mp ho).1
  by_cases h1' : os.data.length = 1
  · refine ⟨mkArr [] (List.range' h.objs.length os.data.length), h1, ?_, ?_, ?_⟩
    · unfold getCopy; rw [if_neg h0, if_pos h1', hm]
    · rw [if_pos h1', mkArr_shape (by simp [h1'])]
    · rw [mkArr_data]
      exact ⟨List.nodup_range', hnew, hall⟩
  · refine ⟨mkArr os.shape (List.range' h.objs.length os.data.length), h1, ?_, ?_, ?_⟩
    · unfold getCopy; rw [if_neg h0, if_neg h1', hm]
    · rw [if_neg h1', mkArr_shape (by rw [List.length_range', os.len])]
    · rw [mkArr_data]
      exact ⟨List.nodup_range', hnew, hall⟩

theorem repMat_spec (E : Eigh) (h : Heap) (hi : Inv h) (o : ℕ) (e : EllObj) (hv : val h o = some e) (shape : List ℤ) :
    (Raises (repMat E h o shape).1 ↔ shape = [] ∨ ∃ k ∈ shape, k < 0) ∧
    ∀ rs h', repMat E h o shape = (.ok rs, h') → rs.shape.map Int.ofNat = shape ∧ rs.data.Nodup ∧ val h' o = some e ∧
      ∀ r ∈ rs.data, h.objs.length ≤ r ∧ val h' r = some e := by
  unfold repMat
  by_cases h0 : shape = []
  · rw [if_pos h0]
    refine ⟨iff_of_true ⟨_, rfl⟩ (Or.inl h0), fun rs h' hc => ?_⟩
    simp only [throwErr, Prod.mk.injEq] at hc
    cases hc.1
  rw [if_neg h0]
  by_cases h1 : ∀ k ∈ shape, 0 ≤ k
  swap
  · rw [if_pos h1]
    push Not at h1
    refine ⟨iff_of_true ⟨_, rfl⟩ (Or.inr h1), fun rs h' hc => ?_⟩
    simp only [throwErr, Prod.mk.injEq] at hc
    cases hc.1
  rw [if_neg (not_not.mpr h1)]
  simp only
  generalize hN : (shape.map Int.toNat).foldr (· * ·) 1 = N
  obtain ⟨h2, hm, hi1, hk1, hlen, -, -, hvals⟩ := mapCopy_ok E (List.replicate N o) h hi
    (fun q hq => by rw [List.eq_of_mem_replicate hq]; exact val_lt hv)
  rw [hm]
  simp only [List.length_replicate] at *
  refine ⟨iff_of_false (by rintro ⟨x, hx⟩; cases hx) ?_, fun rs h' hc => ?_⟩
  · rintro (hc | ⟨k, hk, hlt⟩)
    · exact h0 hc
    · exact absurd (h1 k hk) (not_le.mpr hlt)
  · simp only [Prod.mk.injEq, Except.ok.injEq] at hc
    obtain ⟨rfl, rfl⟩ := hc
    rw [mkArr_data, mkArr_shape (by rw [List.length_range', hN])]
    refine ⟨?_, List.nodup_range', ?_, fun r hr => ?_⟩
    · rw [List.map_map]
      conv_rhs => rw [← List.map_id shape]
      exact List.map_congr_left (fun k hk => Int.toNat_of_nonneg (h1 k hk))
    · rw [hk1.2 o (val_lt hv) (Set.notMem_empty _), hv]
    · obtain ⟨h3, h4⟩ := List.mem_range'_1.mp hr
      refine ⟨h3, ?_⟩
      have := hvals (r - h.objs.length) (by omega)
      rw [show h.objs.length + (r - h.objs.length) = r by omega, List.getElem_replicate] at this
      rw [this, hv]

/-- **C37** for `rep_mat`: it raises exactly for an empty or negative shape, otherwise it gives an array of this shape of new, different
objects, each with the value of the original. -/
theorem C37_rep_mat (E : Eigh) (h : Heap) (hr : Reachable E h) (o : ℕ) (e : EllObj) (hv : val h o = some e) (shape : List ℤ) :
    (Raises (repMat E h o shape).1 ↔ shape = [] ∨ ∃ k ∈ shape, k < 0) ∧
    ∀ rs h', repMat E h o shape = (.ok rs, h') → rs.shape.map Int.ofNat = shape ∧ rs.data.Nodup ∧ val h' o = some e ∧
      ∀ r ∈ rs.data, h.objs.length ≤ r ∧ val h' r = some e :=
  repMat_spec E h hr.inv o e hv shape

/-- **C37** for `from_rep_mat`: it raises exactly if the properties are not acceptable, the constructor rejects the arguments, or the shape is empty or
negative; otherwise it gives an array of this shape of new, different objects, each with the value that the constructor gives. -/
theorem C37_from_rep_mat (E : Eigh) (h : Heap) (hr : Reachable E h) (args : List RawArg) (shape : List ℤ) (p : PropVals) :
    (Raises (fromRepMat E h args shape p).1 ↔
      ¬ p.ok ∨ Raises (ellNew E args p.absTol p.relTol p.n2d p.n3d) ∨ shape = [] ∨ ∃ k ∈ shape, k < 0) ∧
    ∀ rs h', fromRepMat E h args shape p = (.ok rs, h') → ∃ e, ellNew E args p.absTol p.relTol p.n2d p.n3d = .ok e ∧
      rs.shape.map Int.ofNat = shape ∧ rs.data.Nodup ∧ ∀ r ∈ rs.data, h.objs.length ≤ r ∧ val h' r = some e := by
  have hi := hr.inv
  unfold fromRepMat
  by_cases hp : p.ok
  swap
  · have hb : build E h args p = (throwErr "wrongInput", h) := by unfold build; rw [if_pos hp]
    rw [hb]
    exact ⟨iff_of_true ⟨_, rfl⟩ (.inl hp), fun rs h' hc => by simp only [throwErr, Prod.mk.injEq] at hc; cases hc.1⟩
  cases he : ellNew E args p.absTol p.relTol p.n2d p.n3d with
  | error x =>
    have hb : build E h args p = (.error x, h) := by unfold build; rw [if_neg (not_not.mpr hp), he]
    rw [hb]
    exact ⟨iff_of_true ⟨_, rfl⟩ (.inr (.inl ⟨x, rfl⟩)), fun rs h' hc => by simp only [Prod.mk.injEq] at hc; cases hc.1⟩
  | ok e =>
    have hb : build E h args p = (.ok (allocObj h e).1, (allocObj h e).2) := by unfold build; rw [if_neg (not_not.mpr hp), he]
    have hv : ValidObj e := by
      rcases build_cases E h args p with ⟨x, hx⟩ | ⟨e', he', -, hn, -⟩
      · rw [hx] at hb; simp only [Prod.mk.injEq] at hb; cases hb.1
      · rw [he] at hn; injection hn with hn; exact hn ▸ he'
    obtain ⟨h1, h2, h3⟩ := allocObj_inv hi hv
    rw [hb]
    obtain ⟨h4, h5⟩ := repMat_spec E (allocObj h e).2 h1 (allocObj h e).1 e (allocObj_val e) shape
    refine ⟨?_, fun rs h' hc => ?_⟩
    · rw [show (Raises (.ok e : Py EllObj)) = False from eq_false (by rintro ⟨x, hx⟩; cases hx), h4]
      simp [hp]
    · obtain ⟨h6, h7, -, h8⟩ := h5 rs h' hc
      exact ⟨e, rfl, h6, h7, fun r hr => ⟨h2.1.trans (h8 r hr).1, (h8 r hr).2⟩⟩

/-- **C37**, independence: whatever happens to the originals, the copies keep their values as long as they are not themselves projected,
and the other way round. -/
theorem C37_independent (E : Eigh) (p : PropVals) (before after : List Call) (os cs : Arr ℕ) (h : Heap)
    (hcs : getCopy E (run E (emptyHeap p) before) os = (.ok cs, h)) (hl : ∀ o ∈ os.data, o < (run E (emptyHeap p) before).objs.length) :
    ((∀ c ∈ after, ∀ o ∈ c.projects, o ∉ cs.data) → ∀ c ∈ cs.data, val (run E h after) c = val h c) ∧
    ((∀ c ∈ after, ∀ o ∈ c.projects, o ∉ os.data) → ∀ o ∈ os.data, val (run E h after) o = val h o) := by
  have hi := Reachable.inv ⟨p, before, rfl⟩ (E := E)
  have h1 := getCopy_inv E hi os
  rw [hcs] at h1
  constructor
  · intro hp c hc
    have := (run_inv E h1.1 after {q | q ∉ cs.data} (fun c' hc' o ho => hp c' hc' o ho)).2
    obtain ⟨cs', h', hcs', -, -, -, hall⟩ := C37_get_copy E _ ⟨p, before, rfl⟩ os hl
    rw [hcs] at hcs'
    simp only [Prod.mk.injEq, Except.ok.injEq] at hcs'
    obtain ⟨rfl, rfl⟩ := hcs'
    obtain ⟨i, hi', rfl⟩ := List.getElem_of_mem hc
    have hi2 : i < os.data.length := by rw [hall.length_eq]; exact hi'
    obtain ⟨e, -, -, hv⟩ := hall.get hi2 hi'
    exact this.2 _ (val_lt hv) (fun hn => hn hc)
  · intro hp o ho
    have := (run_inv E h1.1 after {q | q ∉ os.data} (fun c' hc' o ho => hp c' hc' o ho)).2
    exact this.2 o (lt_of_lt_of_le (hl o ho) h1.2.1) (fun hn => hn ho)

/-! ### C38 -/

/-- What a dictionary contains. -/
def DictOf (h : Heap) (d : EllDict) (e : EllObj) : Prop :=
  h.arrs[d.center]? = some (encVec e.c) ∧ h.arrs[d.shape]? = some (encMat e.Q) ∧ d.props = some e.props

theorem getElem?_prefix {α : Type} {l l' : List α} (hp : l <+: l') {i : ℕ} {x : α} (h : l[i]? = some x) : l'[i]? = some x := by
  obtain ⟨t, rfl⟩ := hp
  have hi : i < l.length := by
    by_contra hge
    rw [List.getElem?_eq_none (not_lt.mp hge)] at h
    cases h
  rw [List.getElem?_append_left hi, h]

theorem toDictOne_ok {h : Heap} (hi : Inv h) {o : ℕ} {e : EllObj} (hv : val h o = some e) :
    ∃ d h1, toDictOne true h o = (.ok d, h1) ∧ Inv h1 ∧ Keeps ∅ h h1 ∧ h1.objs = h.objs ∧ h.arrs <+: h1.arrs ∧ DictOf h1 d e := by
  have ho := val_lt hv
  have hq : h.objs[o]? = some h.objs[o] := List.getElem?_eq_getElem ho
  have hm := List.getElem_mem ho
  generalize h.objs[o] = q at hq hm
  obtain ⟨e', ha, hb, hp⟩ := hi.enc q hm
  have hee : e' = e := by
    have : val h o = some e' := by
      unfold val
      rw [hq]
      show decode h q = _
      rw [decode_enc h q e'.c e'.Q ha hb, ← hp]
      rfl
    rw [hv] at this
    injection this with this
    exact this.symm
  subst hee
  set h1 : Heap := (allocPub h (encVec e'.c)).2 with hh1
  set h2 : Heap := (allocPub h1 (encMat e'.Q)).2 with hh2
  have hb1 : h1.arrs[q.qRef]? = some (encMat e'.Q) := by
    rw [hh1]
    show (h.arrs ++ [_])[q.qRef]? = _
    rw [List.getElem?_append_left (hi.refs q hm).2.1, hb]
  have hl1 : h1.arrs.length = h.arrs.length + 1 := by simp [hh1, allocPub]
  have hc1 : getCenterVec h o = (.ok h.arrs.length, h1) := by
    unfold getCenterVec; simp only [hq, ha]; rfl
  have hq1 : h1.objs[o]? = some q := hq
  have hc2 : getShapeMat h1 o = (.ok (h.arrs.length + 1), h2) := by
    unfold getShapeMat; simp only [hq1, hb1]; rw [← hl1]; rfl
  have hi1 := allocPub_inv hi (encVec e'.c)
  have hi2 := allocPub_inv hi1.1 (encMat e'.Q)
  refine ⟨⟨h.arrs.length, h.arrs.length + 1, some q.props⟩, h2, ?_, hi2.1, hi1.2.trans hi2.2, rfl, ?_, ?_, ?_, ?_⟩
  · simp only [toDictOne, hq, hc1, hc2, if_true]
  · exact ⟨[encVec e'.c, encMat e'.Q], by simp [hh2, hh1, allocPub]⟩
  · simp [hh2, hh1, allocPub]
  · simp [hh2, hh1, allocPub]
  · rw [hp]

theorem toDict_ok (l : List ℕ) (h : Heap) (hi : Inv h) (hl : ∀ o ∈ l, o < h.objs.length) :
    ∃ ds h1, toDict true h l = (.ok ds, h1) ∧ Inv h1 ∧ Keeps ∅ h h1 ∧ h1.objs = h.objs ∧ h.arrs <+: h1.arrs ∧
      List.Forall₂ (fun o d => ∃ e, val h o = some e ∧ DictOf h1 d e) l ds := by
  induction l generalizing h with
  | nil => exact ⟨[], h, rfl, hi, Keeps.refl _ _, rfl, List.prefix_refl _, List.Forall₂.nil⟩
  | cons o l ih =>
    obtain ⟨e, hv, -⟩ := hi.valid o (hl o List.mem_cons_self)
    obtain ⟨d, h1, hd, hi1, hk1, ho1, hp1, hde⟩ := toDictOne_ok hi hv
    obtain ⟨ds, h2, hds, hi2, hk2, ho2, hp2, hall⟩ := ih h1 hi1 (fun q hq => by rw [ho1]; exact hl q (List.mem_cons_of_mem _ hq))
    refine ⟨d :: ds, h2, ?_, hi2, hk1.trans hk2, ho2.trans ho1, hp1.trans hp2, List.Forall₂.cons ?_ ?_⟩
    · unfold toDict at hds
      simp only [toDict, mapHeap, hd, hds]
    · exact ⟨e, hv, getElem?_prefix hp2 hde.1, getElem?_prefix hp2 hde.2.1, hde.2.2⟩
    · have hlt : ∀ q ∈ l, q < h.objs.length := fun q hq => hl q (List.mem_cons_of_mem _ hq)
      refine List.forall₂_iff_get.mpr ⟨hall.length_eq, fun i hi' hi2 => ?_⟩
      obtain ⟨e', hv', hde'⟩ := hall.get hi' hi2
      exact ⟨e', by rw [← hk1.2 _ (hlt _ (List.get_mem _ _)) (Set.notMem_empty _)]; exact hv', hde'⟩

theorem fromDictOne_ok (E : Eigh) {h : Heap} {d : EllDict} {e : EllObj} (hd : DictOf h d e) (he : ValidObj e) :
    fromDictOne E h d = (.ok (allocObj h e).1, (allocObj h e).2) := by
  have hargs : readArgs h [d.center, d.shape] = [.arr (encVec e.c), .arr (encMat e.Q)] := by
    simp [readArgs, hd.1, hd.2.1]
  have ht : 0 < e.absTol := he.props.1
  have hnew : ellNew E [.arr (encVec e.c), .arr (encMat e.Q)] e.props.absTol e.props.relTol e.props.n2d e.props.n3d = .ok e := by
    rw [C33]
    exact ⟨e.n, e.c, e.Q, rfl, Or.inr (Or.inr ⟨_, _, [], rfl, encVec_good e.c ht, encMat_good ht he.symm he.eig⟩)⟩
  simp only [fromDictOne, hargs, hd.2.2, Option.getD_some]
  unfold build
  rw [if_neg (not_not.mpr he.props), hnew]

theorem fromDict_ok (E : Eigh) (ds : List EllDict) (es : List EllObj) (h : Heap) (hi : Inv h)
    (hd : List.Forall₂ (fun d e => DictOf h d e ∧ ValidObj e) ds es) :
    ∃ rs h2, fromDict E h ds = (.ok rs, h2) ∧ Inv h2 ∧ Keeps ∅ h h2 ∧ (∀ r ∈ rs, h.objs.length ≤ r) ∧
      List.Forall₂ (fun r e => val h2 r = some e) rs es := by
  induction ds generalizing h es with
  | nil =>
    cases hd
    exact ⟨[], h, rfl, hi, Keeps.refl _ _, fun r hr => absurd hr List.not_mem_nil, List.Forall₂.nil⟩
  | cons d ds ih =>
    cases hd with
    | cons hde hrest =>
      rename_i e es
      have h1 := fromDictOne_ok E hde.1 hde.2
      obtain ⟨hi1, hk1, hl1⟩ := allocObj_inv hi hde.2
      have hpre : h.arrs <+: (allocObj h e).2.arrs := ⟨_, rfl⟩
      obtain ⟨rs, h2, hm, hi2, hk2, hn2, hall⟩ := ih es (allocObj h e).2 hi1
        (hrest.imp (fun d e hd => ⟨⟨getElem?_prefix hpre hd.1.1, getElem?_prefix hpre hd.1.2.1, hd.1.2.2⟩, hd.2⟩))
      refine ⟨(allocObj h e).1 :: rs, h2, ?_, hi2, hk1.trans hk2, ?_, List.Forall₂.cons ?_ hall⟩
      · unfold fromDict at hm
        simp only [fromDict, mapHeap, h1, hm]
      · intro r hr
        rcases List.mem_cons.mp hr with rfl | hr
        · exact le_of_eq rfl
        · exact hk1.1.trans (hn2 r hr)
      · rw [hk2.2 _ (val_lt (allocObj_val e)) (Set.notMem_empty _), allocObj_val]

/-- **C38**: `from_dict(to_dict(arr, is_prop_included=True))` consists of new ellipsoids with the same data and the same properties; the
originals are unchanged. -/
theorem C38 (E : Eigh) (h : Heap) (hr : Reachable E h) (os : List ℕ) (hl : ∀ o ∈ os, o < h.objs.length) :
    ∃ ds h1 rs h2, toDict true h os = (.ok ds, h1) ∧ fromDict E h1 ds = (.ok rs, h2) ∧ (∀ r ∈ rs, h.objs.length ≤ r) ∧
      List.Forall₂ (fun o r => ∃ e, val h o = some e ∧ val h2 o = some e ∧ val h2 r = some e) os rs := by
  have hi := hr.inv
  obtain ⟨ds, h1, hd, hi1, hk1, ho1, -, hall⟩ := toDict_ok os h hi hl
  have : ∃ es : List EllObj, List.Forall₂ (fun o e => val h o = some e) os es ∧
      List.Forall₂ (fun d e => DictOf h1 d e ∧ ValidObj e) ds es := by
    clear hd
    induction hall with
    | nil => exact ⟨[], List.Forall₂.nil, List.Forall₂.nil⟩
    | cons hod _ ih =>
      obtain ⟨e, hv, hde⟩ := hod
      obtain ⟨es, h2, h3⟩ := ih (fun o ho => hl o (List.mem_cons_of_mem _ ho))
      exact ⟨e :: es, List.Forall₂.cons hv h2, List.Forall₂.cons ⟨hde, hi.val_valid hv⟩ h3⟩
  obtain ⟨es, hes, hdes⟩ := this
  obtain ⟨rs, h2, hm, -, hk2, hn2, hrs⟩ := fromDict_ok E ds es h1 hi1 hdes
  refine ⟨ds, h1, rs, h2, hd, hm, fun r hr => hk1.1.trans (hn2 r hr), ?_⟩
  refine List.forall₂_iff_get.mpr ⟨hes.length_eq.trans hrs.length_eq.symm, fun i hi' hi2 => ?_⟩
  have hi3 : i < es.length := by rw [← hes.length_eq]; exact hi'
  have hv := hes.get hi' hi3
  refine ⟨es.get ⟨i, hi3⟩, hv, ?_, hrs.get hi2 hi3⟩
  rw [(hk1.trans hk2).2 _ (hl _ (List.get_mem _ _)) (Set.notMem_empty _)]
  exact hv

/-- The round trip of the unit disc with properties other than the current settings. -/
example (E : Eigh) : ∃ h, Reachable E h ∧ val h 0 = some disc ∧ ∃ ds h1, toDict true h [0] = (.ok ds, h1) ∧
    ∃ r h2, fromDict E h1 ds = (.ok [r], h2) ∧ val h2 r = some disc := by
  obtain ⟨h, hr, -, hlen, hv, -⟩ := reach_obj E _ (reach_empty E (exProps 1)) disc disc_valid
  have hv : val h 0 = some disc := hv
  obtain ⟨ds, h1, rs, h2, h3, h4, -, hall⟩ := C38 E h hr [0] (fun o ho => by
    have : o = 0 := by simpa using ho
    subst this
    exact val_lt hv)
  cases hall with
  | cons hx hrest =>
    cases hrest
    obtain ⟨e, he, -, hn⟩ := hx
    rw [hv] at he
    injection he with he
    subst he
    exact ⟨h, hr, hv, ds, h1, h3, _, h2, h4, hn⟩

/-! ### C39 -/

/-- The reflection of an ellipsoid. -/
theorem ell_neg {n : ℕ} (c : Fin n → ℝ) {Q : Matrix (Fin n) (Fin n) ℝ} (hQ : IsPSD Q) : Ell (-c) Q = (fun x => -x) '' Ell c Q := by
  obtain ⟨S, hS, hSS⟩ := exists_root hQ
  have h1 : S * Sᵀ = Q := by rw [hS.1, hSS]
  have h2 : ∀ u : Fin n → ℝ, u ⬝ᵥ u ≤ 1 → (-u) ⬝ᵥ (-u) ≤ 1 := fun u hu => by simpa using hu
  ext y
  rw [mem_ell_factor h1]
  constructor
  · rintro ⟨u, hu, rfl⟩
    refine ⟨c + S *ᵥ (-u), (mem_ell_factor h1 _).mpr ⟨-u, h2 u hu, rfl⟩, ?_⟩
    simp only [mulVec_neg, neg_add, neg_neg]
  · rintro ⟨x, hx, rfl⟩
    obtain ⟨u, hu, rfl⟩ := (mem_ell_factor h1 _).mp hx
    exact ⟨-u, h2 u hu, by simp only [mulVec_neg, neg_add]⟩

/-- **C39** for ellipsoids (without the properties): if the data are acceptable with the current settings, `uminus` gives new objects with
the reflected centre, the same shape matrix, and the current settings as properties; as a set each is the reflection of the original. -/
theorem C39_partial (E : Eigh) (h : Heap) (hr : Reachable E h) (os : Arr ℕ)
    (hl : ∀ o ∈ os.data, ∃ e, val h o = some e ∧ ValidObj (negVal h.dflt e)) :
    ∃ rs h', uminus E h os = (.ok rs, h') ∧ rs.shape = os.shape ∧ rs.data.Nodup ∧ (∀ r ∈ rs.data, h.objs.length ≤ r) ∧ h'.dflt = h.dflt ∧
      List.Forall₂ (fun o r => ∃ e, val h o = some e ∧ val h' o = some e ∧ val h' r = some (negVal h.dflt e) ∧
        (IsPSD e.Q → Ell (negVal h.dflt e).c (negVal h.dflt e).Q = (fun x => -x) '' Ell e.c e.Q)) os.data rs.data := by
  have hi := hr.inv
  obtain ⟨h1, hm, hi1, hk1, hlen, hdf, hvals⟩ := mapAlloc_ok (uminusOne_ok E) os.data h hi hl
  refine ⟨mkArr os.shape (List.range' h.objs.length os.data.length), h1, by unfold uminus; rw [hm], ?_, ?_⟩
  · rw [mkArr_shape (by rw [List.length_range', os.len])]
  · rw [mkArr_data]
    refine ⟨List.nodup_range', fun r hr => (List.mem_range'_1.mp hr).1, hdf, ?_⟩
    refine List.forall₂_iff_get.mpr ⟨List.length_range'.symm, fun i hi' hi2 => ?_⟩
    obtain ⟨e, hv, hn⟩ := hvals i hi'
    refine ⟨e, hv, ?_, ?_, fun hQ => ell_neg e.c hQ⟩
    · rw [← hv]; exact hk1.2 _ (val_lt hv) (Set.notMem_empty _)
    · rw [← hn]
      simp only [List.get_eq_getElem, List.getElem_range', one_mul]

/-- `uminus` raises exactly if some data are not acceptable with the current settings. -/
theorem C39_raises_iff (E : Eigh) (h : Heap) (hr : Reachable E h) (os : Arr ℕ) (hl : ∀ o ∈ os.data, o < h.objs.length) :
    Raises (uminus E h os).1 ↔ ∃ o ∈ os.data, ∃ e, val h o = some e ∧ ¬ ValidObj (negVal h.dflt e) := by
  have hi := hr.inv
  constructor
  · rintro ⟨x, hx⟩
    by_contra hc
    push Not at hc
    obtain ⟨rs, h', hu, -⟩ := C39_partial E h hr os (fun o ho => by
      obtain ⟨e, he, -⟩ := hi.valid o (hl o ho)
      exact ⟨e, he, hc o ho e he⟩)
    rw [hu] at hx
    cases hx
  · rintro ⟨o, ho, e, hv, hbad⟩
    have key : ∀ (l : List ℕ) (h : Heap), Inv h → (∀ o ∈ l, o < h.objs.length) → o ∈ l → val h o = some e →
        ¬ ValidObj (negVal h.dflt e) → ∃ x h', mapHeap (uminusOne E) h l = (.error x, h') := by
      intro l
      induction l with
      | nil => intro h _ _ ho; cases ho
      | cons q l ih =>
        intro h hi hl ho hv hbad
        obtain ⟨e', hv', -⟩ := hi.valid q (hl q List.mem_cons_self)
        by_cases hq : ValidObj (negVal h.dflt e')
        · have h1 := uminusOne_ok E h q e' hv' hq
          obtain ⟨hi1, hk1, -⟩ := allocObj_inv hi hq
          have hoq : o ≠ q := by
            rintro rfl
            rw [hv] at hv'
            injection hv' with hv'
            exact hbad (hv' ▸ hq)
          have hol : o ∈ l := (List.mem_cons.mp ho).resolve_left hoq
          obtain ⟨x, h', hm⟩ := ih (allocObj h (negVal h.dflt e')).2 hi1
            (fun q hq => lt_of_lt_of_le (hl q (List.mem_cons_of_mem _ hq)) hk1.1) hol
            (by rw [hk1.2 o (val_lt hv) (Set.notMem_empty _), hv]) hbad
          exact ⟨x, h', by simp only [mapHeap, h1, hm]⟩
        · obtain ⟨x, hx⟩ := uminusOne_error E h q e' hv' hq
          exact ⟨x, h, by simp only [mapHeap, hx]⟩
    obtain ⟨x, h', hm⟩ := key os.data h hi hl ho hv hbad
    unfold uminus
    rw [hm]
    exact ⟨x, rfl⟩

/-- **C39**, twice: `uminus` of the result of `uminus` gives new objects with the centres and shape matrices of the originals and the current
settings; the originals stay as they are. -/
theorem C39_involution (E : Eigh) (h : Heap) (hr : Reachable E h) (os : Arr ℕ)
    (hl : ∀ o ∈ os.data, ∃ e, val h o = some e ∧ ValidObj (negVal h.dflt e)) :
    ∃ rs h' rs' h'', uminus E h os = (.ok rs, h') ∧ uminus E h' rs = (.ok rs', h'') ∧ rs'.shape = os.shape ∧ rs'.data.Nodup ∧
      (∀ r ∈ rs'.data, h.objs.length ≤ r ∧ r ∉ rs.data) ∧
      List.Forall₂ (fun o r => ∃ e, val h o = some e ∧ val h'' o = some e ∧
        val h'' r = some ⟨e.n, e.c, e.Q, h.dflt.absTol, h.dflt.relTol, h.dflt.n2d, h.dflt.n3d⟩) os.data rs'.data := by
  obtain ⟨h1, hm1, hi1, hk1, hlen1, hdf1, hv1⟩ := mapAlloc_ok (uminusOne_ok E) os.data h hr.inv hl
  obtain ⟨h2, hm2, hi2, hk2, hlen2, hdf2, hv2⟩ := mapAlloc_ok (uminusOne_ok E) (List.range' h.objs.length os.data.length) h1 hi1 (by
    intro r hr'
    obtain ⟨i, hi, rfl⟩ := List.getElem_of_mem hr'
    have hi' : i < os.data.length := by simpa using hi
    obtain ⟨e, hv, hn⟩ := hv1 i hi'
    refine ⟨_, by simpa only [List.getElem_range', one_mul] using hn, ?_⟩
    obtain ⟨e', hv', hval⟩ := hl _ (List.getElem_mem hi')
    rw [hv] at hv'
    injection hv' with hv'
    subst hv'
    rw [hdf1]
    exact ⟨hval.props, hval.symm, hval.eig⟩)
  have hshape : (mkArr os.shape (List.range' h.objs.length os.data.length)).shape = os.shape :=
    mkArr_shape (by rw [List.length_range', os.len])
  refine ⟨mkArr os.shape (List.range' h.objs.length os.data.length), h1,
    mkArr os.shape (List.range' h1.objs.length os.data.length), h2, by unfold uminus; rw [hm1], ?_, ?_, ?_, ?_, ?_⟩
  · unfold uminus
    rw [mkArr_data, hshape, hm2, List.length_range']
  · exact mkArr_shape (by rw [List.length_range', os.len])
  · rw [mkArr_data]; exact List.nodup_range'
  · rw [mkArr_data, mkArr_data]
    intro r hr'
    have := List.mem_range'_1.mp hr'
    refine ⟨by omega, fun hc => ?_⟩
    have := List.mem_range'_1.mp hc
    omega
  · rw [mkArr_data]
    refine List.forall₂_iff_get.mpr ⟨List.length_range'.symm, fun i hi' hi2' => ?_⟩
    obtain ⟨e, hv, hn⟩ := hv1 i hi'
    obtain ⟨e', hv', hn'⟩ := hv2 i (by simpa using hi')
    simp only [List.getElem_range', one_mul] at hv'
    rw [hn] at hv'
    injection hv' with hv'
    subst hv'
    refine ⟨e, hv, ?_, ?_⟩
    · have a1 := hk1.2 _ (val_lt hv) (Set.notMem_empty _)
      have a2 := hk2.2 _ (lt_of_lt_of_le (val_lt hv) hk1.1) (Set.notMem_empty _)
      show val h2 os.data[i] = some e
      rw [a2, a1, hv]
    · simp only [List.get_eq_getElem, List.getElem_range', one_mul]
      rw [hn', hdf1]
      have hc : - -e.c = e.c := neg_neg _
      exact congrArg (fun c : Fin e.n → ℝ => some (⟨e.n, c, e.Q, h.dflt.absTol, h.dflt.relTol, h.dflt.n2d, h.dflt.n3d⟩ : EllObj)) hc

/-- **C39** is violated: `uminus` does not keep the tolerances … -/
theorem C39_violation (E : Eigh) : ∃ h, Reachable E h ∧ val h 0 = some disc ∧ ∃ rs h', uminus E h ⟨[1], [0], rfl⟩ = (.ok rs, h') ∧
    ∀ r ∈ rs.data, ∃ e, val h' r = some e ∧ e.absTol ≠ disc.absTol := by
  obtain ⟨h, hr, -, hlen, hv, hd⟩ := reach_obj E _ (reach_empty E (exProps 1)) disc disc_valid
  have hv : val h 0 = some disc := hv
  have hd : h.dflt = exProps 1 := hd
  have hneg : ValidObj (negVal h.dflt disc) := by
    rw [hd]; exact valid_of_psd _ psd_one (exProps_ok (t := 1) (by norm_num))
  obtain ⟨rs, h', hu, -, -, -, -, hall⟩ := C39_partial E h hr ⟨[1], [0], rfl⟩ (fun o ho => by
    have : o = 0 := by simpa using ho
    subst this
    exact ⟨disc, hv, hneg⟩)
  refine ⟨h, hr, hv, rs, h', hu, fun r hrm => ?_⟩
  obtain ⟨i, hi', rfl⟩ := List.getElem_of_mem hrm
  have hi2 : i < [0].length := by rw [hall.length_eq]; exact hi'
  obtain ⟨e, he, -, hn, -⟩ := hall.get hi2 hi'
  have he0 : e = disc := by
    have : i = 0 := by simpa using hi2
    subst this
    have : val h 0 = some e := he
    rw [hv] at this
    injection this with this
    exact this.symm
  refine ⟨_, hn, ?_⟩
  rw [he0, hd]
  norm_num [negVal, exProps, disc]

/-- **C34**, **C37**, a concrete case: the unit disc, a copy of it, an array of its shape matrix that the user overwrites, and a projection of the
copy; the disc stays the same. -/
example (E : Eigh) (z : CX) : ∃ p before, val (run E (emptyHeap p) before) 0 = some disc ∧
    val (run E (emptyHeap p) (before ++ [.getCopy ⟨[1], [0], rfl⟩, .getShapeMat 0, .write 4 0 z, .projection 2 1 !![1; 0] ⟨[1], [1], rfl⟩])) 0 =
      some disc := by
  obtain ⟨h, ⟨p, before, hb⟩, -, hlen, hv, -⟩ := reach_obj E _ (reach_empty E (exProps 1)) disc disc_valid
  have hv : val (run E (emptyHeap p) before) 0 = some disc := hb ▸ hv
  refine ⟨p, before, hv, C34 E p before _ 0 disc hv ?_⟩
  intro c hc
  simp only [List.mem_cons, List.not_mem_nil, or_false] at hc
  rcases hc with rfl | rfl | rfl | rfl <;> simp [Call.projects]

/-- **C37**, a concrete case of `from_rep_mat`: two rows of three discs. -/
example (E : Eigh) : ∃ rs h', fromRepMat E (emptyHeap (exProps 1)) [.arr (encMat (1 : Matrix (Fin 2) (Fin 2) ℝ))] [2, 3] (exProps (1 / 10)) =
    (.ok rs, h') ∧ rs.shape = [2, 3] ∧ rs.data.Nodup ∧ ∀ r ∈ rs.data, val h' r = some disc := by
  have hn : ellNew E [.arr (encMat (1 : Matrix (Fin 2) (Fin 2) ℝ))] (1 / 10) (1 / 100) 200 200 = .ok disc := by
    refine (C33 E _ _ _ _ _ _).mpr ⟨2, 0, 1, rfl, .inr (.inl ⟨_, rfl, rfl, by norm_num, 0, ⟨rfl, ?_⟩, fun i => by norm_num, ?_, ?_⟩)⟩
    · intro i j
      fin_cases i <;> fin_cases j <;> rfl
    · intro i j
      rw [← transpose_apply (1 : Matrix (Fin 2) (Fin 2) ℝ), transpose_one]
      norm_num
    · exact disc_valid.eig
  obtain ⟨h1, h2⟩ := C37_from_rep_mat E _ (reach_empty E (exProps 1)) [.arr (encMat (1 : Matrix (Fin 2) (Fin 2) ℝ))] [2, 3] (exProps (1 / 10))
  have hno : ¬ Raises (fromRepMat E (emptyHeap (exProps 1)) [.arr (encMat (1 : Matrix (Fin 2) (Fin 2) ℝ))] [2, 3] (exProps (1 / 10))).1 := by
    rw [h1]
    rintro (h | ⟨x, hx⟩ | h | ⟨k, hk, hk'⟩)
    · exact h (exProps_ok (by norm_num))
    · have hc : Except.ok disc = (Except.error x : Py EllObj) := hn.symm.trans hx
      cases hc
    · cases h
    · simp at hk; omega
  cases hr : fromRepMat E (emptyHeap (exProps 1)) [.arr (encMat (1 : Matrix (Fin 2) (Fin 2) ℝ))] [2, 3] (exProps (1 / 10)) with
  | mk r h' =>
    cases r with
    | error x => exact absurd ⟨x, by rw [hr]⟩ hno
    | ok rs =>
      obtain ⟨e, he, h3, h4, h5⟩ := h2 rs h' hr
      have he : Except.ok disc = (Except.ok e : Py EllObj) := hn.symm.trans he
      injection he with he
      subst he
      refine ⟨rs, h', rfl, ?_, h4, fun r hr => (h5 r hr).2⟩
      have : rs.shape.map Int.ofNat = [2, 3].map Int.ofNat := h3
      exact List.map_injective_iff.mpr (fun a b h => Int.ofNat.inj h) this

end Ellipy.Ell
