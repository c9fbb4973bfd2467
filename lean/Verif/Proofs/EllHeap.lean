import Verif.Spec.EllHeap
import Verif.Props.EllCtor

/-! Lemmas about the memory model of ellipsoid objects. -/

namespace Ellipy.Ell
open Matrix Ellipy.LA

theorem encMat_isMat {n : ℕ} (Q : Matrix (Fin n) (Fin n) ℝ) : IsMat (encMat Q) Q 0 := by
  refine ⟨rfl, fun i j => ?_⟩
  have hk : i.val * n + j.val < n * n := idx_lt i j
  have hn : 0 < n := lt_of_le_of_lt (Nat.zero_le _) i.2
  unfold encMat
  simp only [List.getElem?_ofFn, hk, dif_pos]
  congr 3
  · congr 1
    · ext
      show (i.val * n + j.val) / n = i.val
      rw [Nat.mul_comm, Nat.mul_add_div hn, Nat.div_eq_of_lt j.2, add_zero]
    · ext
      show (i.val * n + j.val) % n = j.val
      rw [Nat.mul_comm, Nat.mul_add_mod, Nat.mod_eq_of_lt j.2]

theorem encMat_good {n : ℕ} {Q : Matrix (Fin n) (Fin n) ℝ} {tol : ℝ} (ht : 0 < tol) (h1 : SymmWithin Q tol)
    (h2 : ∀ v : Fin n → ℝ, -tol * (v ⬝ᵥ v) ≤ v ⬝ᵥ lowerSym Q *ᵥ v) : GoodShape tol (encMat Q) Q :=
  ⟨ht, 0, encMat_isMat Q, fun i => by simpa using ht, h1, h2⟩

theorem encVec_good {n : ℕ} (c : Fin n → ℝ) {tol : ℝ} (ht : 0 < tol) : GoodCenter tol (encVec c) c := by
  refine ⟨ht, 0, ⟨?_, ?_, fun i => ?_⟩, Or.inl rfl⟩
  · simp [encVec]
  · simp [encVec]
  · simp [encVec]

theorem decode_enc (h : Heap) (r : ObjRec) {n : ℕ} (c : Fin n → ℝ) (Q : Matrix (Fin n) (Fin n) ℝ)
    (h1 : h.arrs[r.cRef]? = some (encVec c)) (h2 : h.arrs[r.qRef]? = some (encMat Q)) :
    decode h r = some ⟨n, c, Q, r.props.absTol, r.props.relTol, r.props.n2d, r.props.n3d⟩ := by
  have h3 : (encMat Q).shape = [n, n] := rfl
  have h4 : True ∧ (encVec c).data.length = n := ⟨trivial, by simp [encVec]⟩
  unfold decode
  simp only [h1, h2, h3]
  rw [if_pos h4, matOf_eq (encMat_isMat Q)]
  congr 2
  funext i
  simp [encVec, List.getD_eq_getElem?_getD, XF.toK]

theorem decode_congr {h h' : Heap} {r : ObjRec} (h1 : h'.arrs[r.cRef]? = h.arrs[r.cRef]?) (h2 : h'.arrs[r.qRef]? = h.arrs[r.qRef]?) :
    decode h' r = decode h r := by
  unfold decode
  rw [h1, h2]

/-- What holds between two calls. -/
structure Inv (h : Heap) : Prop where
  refs : ∀ r ∈ h.objs, r.cRef < h.arrs.length ∧ r.qRef < h.arrs.length ∧ r.cRef ∉ h.pub ∧ r.qRef ∉ h.pub
  pubs : ∀ r ∈ h.pub, r < h.arrs.length
  valid : ∀ o < h.objs.length, ∃ e, val h o = some e ∧ ValidObj e
  enc : ∀ r ∈ h.objs, ∃ e : EllObj, h.arrs[r.cRef]? = some (encVec e.c) ∧ h.arrs[r.qRef]? = some (encMat e.Q) ∧ e.props = r.props

/-- All old objects outside `S` have kept their value. -/
def Keeps (S : Set ℕ) (h h' : Heap) : Prop :=
  h.objs.length ≤ h'.objs.length ∧ ∀ o < h.objs.length, o ∉ S → val h' o = val h o

theorem Keeps.refl (S : Set ℕ) (h : Heap) : Keeps S h h := ⟨le_rfl, fun _ _ _ => rfl⟩

theorem Keeps.trans {S : Set ℕ} {h h' h'' : Heap} (h1 : Keeps S h h') (h2 : Keeps S h' h'') : Keeps S h h'' :=
  ⟨h1.1.trans h2.1, fun o ho hs => (h2.2 o (lt_of_lt_of_le ho h1.1) hs).trans (h1.2 o ho hs)⟩

theorem Keeps.mono {S T : Set ℕ} {h h' : Heap} (h1 : Keeps S h h') (hst : S ⊆ T) : Keeps T h h' :=
  ⟨h1.1, fun o ho hs => h1.2 o ho (fun h => hs (hst h))⟩

theorem val_lt {h : Heap} {o : ℕ} {e : EllObj} (hv : val h o = some e) : o < h.objs.length := by
  by_contra hge
  unfold val at hv
  rw [List.getElem?_eq_none (not_lt.mp hge)] at hv
  cases hv

theorem Inv.val_valid {h : Heap} (hi : Inv h) {o : ℕ} {e : EllObj} (hv : val h o = some e) : ValidObj e := by
  obtain ⟨e', he, hok⟩ := hi.valid o (val_lt hv)
  rw [hv] at he
  injection he with he
  rw [he]; exact hok

theorem Inv.enc_append {h : Heap} (hi : Inv h) (as : List (Arr CX)) {r : ObjRec} (hr : r ∈ h.objs) :
    ∃ e : EllObj, (h.arrs ++ as)[r.cRef]? = some (encVec e.c) ∧ (h.arrs ++ as)[r.qRef]? = some (encMat e.Q) ∧ e.props = r.props := by
  obtain ⟨e, h1, h2, h3⟩ := hi.enc r hr
  obtain ⟨h4, h5, -, -⟩ := hi.refs r hr
  exact ⟨e, by rw [List.getElem?_append_left h4, h1], by rw [List.getElem?_append_left h5, h2], h3⟩

/-- Appending an object keeps the old values. -/
theorem append_val {h h' : Heap} (hi : Inv h) {as : List (Arr CX)} {os : List ObjRec} (ha : h'.arrs = h.arrs ++ as)
    (ho : h'.objs = h.objs ++ os) : Keeps ∅ h h' := by
  refine ⟨by rw [ho]; simp, fun o hlt _ => ?_⟩
  unfold val
  rw [ho, List.getElem?_append_left hlt, List.getElem?_eq_getElem hlt]
  obtain ⟨h1, h2, -, -⟩ := hi.refs _ (List.getElem_mem hlt)
  exact decode_congr (by rw [ha, List.getElem?_append_left h1]) (by rw [ha, List.getElem?_append_left h2])

theorem allocObj_val {h : Heap} (e : EllObj) : val (allocObj h e).2 (allocObj h e).1 = some e := by
  unfold val
  have : (allocObj h e).2.objs[(allocObj h e).1]? = some ⟨h.arrs.length, h.arrs.length + 1, e.props⟩ := by
    simp [allocObj]
  rw [this]
  show decode _ _ = _
  rw [decode_enc (c := e.c) (Q := e.Q)]
  · rfl
  · simp [allocObj]
  · simp [allocObj]

theorem allocObj_inv {h : Heap} (hi : Inv h) {e : EllObj} (he : ValidObj e) :
    Inv (allocObj h e).2 ∧ Keeps ∅ h (allocObj h e).2 ∧ (allocObj h e).1 = h.objs.length := by
  have hk : Keeps ∅ h (allocObj h e).2 := append_val hi rfl rfl
  refine ⟨⟨?_, ?_, ?_, ?_⟩, hk, rfl⟩
  · intro r hr
    have hlen : (allocObj h e).2.arrs.length = h.arrs.length + 2 := by simp [allocObj]
    rw [hlen]
    rcases List.mem_append.mp (show r ∈ h.objs ++ [_] from hr) with hr | hr
    · obtain ⟨h1, h2, h3, h4⟩ := hi.refs r hr
      exact ⟨by omega, by omega, h3, h4⟩
    · rw [List.mem_singleton.mp hr]
      refine ⟨by simp, by simp, fun hm => ?_, fun hm => ?_⟩
      · exact absurd (hi.pubs _ hm) (by simp)
      · exact absurd (hi.pubs _ hm) (by simp)
  · intro r hr
    have := hi.pubs r hr
    simp only [allocObj, List.length_append]
    omega
  · intro o ho
    have hlen : (allocObj h e).2.objs.length = h.objs.length + 1 := by simp [allocObj]
    rw [hlen] at ho
    rcases Nat.lt_succ_iff_lt_or_eq.mp ho with ho | rfl
    · obtain ⟨e', he', hv⟩ := hi.valid o ho
      exact ⟨e', by rw [hk.2 o ho (Set.notMem_empty _), he'], hv⟩
    · exact ⟨e, allocObj_val e, he⟩
  · intro r hr
    rcases List.mem_append.mp (show r ∈ h.objs ++ [_] from hr) with hr | hr
    · exact hi.enc_append _ hr
    · rw [List.mem_singleton.mp hr]
      exact ⟨e, by simp [allocObj], by simp [allocObj], rfl⟩

theorem allocPub_inv {h : Heap} (hi : Inv h) (a : Arr CX) : Inv (allocPub h a).2 ∧ Keeps ∅ h (allocPub h a).2 := by
  have hk : Keeps ∅ h (allocPub h a).2 := append_val (os := []) hi rfl (by simp [allocPub])
  refine ⟨⟨?_, ?_, ?_, ?_⟩, hk⟩
  · intro r hr
    obtain ⟨h1, h2, h3, h4⟩ := hi.refs r hr
    refine ⟨?_, ?_, ?_, ?_⟩
    · simp only [allocPub, List.length_append]; omega
    · simp only [allocPub, List.length_append]; omega
    · intro hm
      rcases List.mem_cons.mp (show r.cRef ∈ h.arrs.length :: h.pub from hm) with hm | hm
      · omega
      · exact h3 hm
    · intro hm
      rcases List.mem_cons.mp (show r.qRef ∈ h.arrs.length :: h.pub from hm) with hm | hm
      · omega
      · exact h4 hm
  · intro r hr
    simp only [allocPub, List.length_append]
    rcases List.mem_cons.mp (show r ∈ h.arrs.length :: h.pub from hr) with hm | hm
    · simp [hm]
    · have := hi.pubs r hm; omega
  · intro o ho
    obtain ⟨e', he', hv⟩ := hi.valid o ho
    exact ⟨e', by rw [hk.2 o ho (Set.notMem_empty _), he'], hv⟩
  · exact fun r hr => hi.enc_append [a] hr

theorem writeArr_inv {h : Heap} (hi : Inv h) {r : ℕ} (hr : r ∈ h.pub) (i : ℕ) (z : CX) :
    Inv (writeArr h r i z) ∧ Keeps ∅ h (writeArr h r i z) := by
  unfold writeArr
  cases ha : h.arrs[r]? with
  | none => exact ⟨hi, Keeps.refl _ _⟩
  | some a =>
    simp only
    set h' : Heap := { h with arrs := h.arrs.set r ⟨a.shape, a.data.set i z, by simpa using a.len⟩ } with hh'
    have hk : Keeps ∅ h h' := by
      refine ⟨le_rfl, fun o ho _ => ?_⟩
      unfold val
      have : h'.objs[o]? = some h.objs[o] := List.getElem?_eq_getElem ho
      rw [this]
      obtain ⟨-, -, h3, h4⟩ := hi.refs _ (List.getElem_mem ho)
      refine decode_congr ?_ ?_
      · exact List.getElem?_set_ne (fun heq : r = h.objs[o].cRef => h3 (by rw [← heq]; exact hr))
      · exact List.getElem?_set_ne (fun heq : r = h.objs[o].qRef => h4 (by rw [← heq]; exact hr))
    refine ⟨⟨?_, ?_, ?_, ?_⟩, hk⟩
    · intro r' hr'
      have := hi.refs r' hr'
      rw [hh']
      simpa using this
    · intro r' hr'
      have := hi.pubs r' hr'
      rw [hh']
      simpa using this
    · intro o ho
      obtain ⟨e', he', hv⟩ := hi.valid o ho
      exact ⟨e', by rw [hk.2 o ho (Set.notMem_empty _), he'], hv⟩
    · intro q hq
      obtain ⟨e, h1, h2, h3⟩ := hi.enc q hq
      obtain ⟨-, -, h4, h5⟩ := hi.refs q hq
      have hs : ∀ (k : ℕ) (x : Arr CX), k ∉ h.pub → h.arrs[k]? = some x → h'.arrs[k]? = some x := by
        intro k x hk hx
        rw [← hx]
        exact List.getElem?_set_ne (fun heq : r = k => hk (by rw [← heq]; exact hr))
      exact ⟨e, hs _ _ h4 h1, hs _ _ h5 h2, h3⟩

/-- A constructor call either raises and changes nothing or adds one valid object. -/
theorem build_cases (E : Eigh) (h : Heap) (args : List RawArg) (p : PropVals) :
    (∃ x, build E h args p = (.error x, h)) ∨
    ∃ e, ValidObj e ∧ e.props = p ∧ ellNew E args p.absTol p.relTol p.n2d p.n3d = .ok e ∧
      build E h args p = (.ok (allocObj h e).1, (allocObj h e).2) := by
  unfold build
  by_cases hp : p.ok
  swap
  · rw [if_pos hp]; exact Or.inl ⟨_, rfl⟩
  rw [if_neg (not_not.mpr hp)]
  cases hb : ellNew E args p.absTol p.relTol p.n2d p.n3d with
  | error x => exact Or.inl ⟨x, rfl⟩
  | ok e =>
    refine Or.inr ⟨e, ?_, ?_, rfl, rfl⟩
    · have h1 := C33_invariant E args _ _ _ _ e hb
      refine ⟨?_, h1.1, h1.2.1⟩
      obtain ⟨n, x, X, rfl, -⟩ := (C33 E args _ _ _ _ e).mp hb
      exact hp
    · obtain ⟨n, x, X, rfl, -⟩ := (C33 E args _ _ _ _ e).mp hb
      rfl

theorem build_inv (E : Eigh) {h : Heap} (hi : Inv h) (args : List RawArg) (p : PropVals) :
    Inv (build E h args p).2 ∧ Keeps ∅ h (build E h args p).2 ∧
      ∀ o, (build E h args p).1 = .ok o → o = h.objs.length := by
  rcases build_cases E h args p with ⟨x, hx⟩ | ⟨e, he, -, -, hb⟩
  · rw [hx]; exact ⟨hi, Keeps.refl _ _, fun o ho => by cases ho⟩
  · rw [hb]
    obtain ⟨h1, h2, h3⟩ := allocObj_inv hi he
    refine ⟨h1, h2, fun o ho => ?_⟩
    injection ho with ho
    rw [← ho, h3]

/-- Loops keep what each step keeps. -/
theorem mapHeap_inv {α β : Type} {f : Heap → α → Py β × Heap} {S : Set ℕ} (l : List α)
    (hf : ∀ h, Inv h → ∀ o ∈ l, Inv (f h o).2 ∧ Keeps S h (f h o).2) (h : Heap) (hi : Inv h) :
    Inv (mapHeap f h l).2 ∧ Keeps S h (mapHeap f h l).2 := by
  induction l generalizing h with
  | nil => exact ⟨hi, Keeps.refl _ _⟩
  | cons o os ih =>
    obtain ⟨h1, h2⟩ := hf h hi o List.mem_cons_self
    unfold mapHeap
    cases hfo : f h o with
    | mk r hh =>
      rw [hfo] at h1 h2
      cases r with
      | error x => exact ⟨h1, h2⟩
      | ok r =>
        simp only
        obtain ⟨h3, h4⟩ := ih (fun h hi o ho => hf h hi o (List.mem_cons_of_mem _ ho)) hh h1
        cases hm : mapHeap f hh os with
        | mk rs h5 =>
          rw [hm] at h3 h4
          cases rs with
          | error x => exact ⟨h3, h2.trans h4⟩
          | ok rs => exact ⟨h3, h2.trans h4⟩

theorem copyOne_inv (E : Eigh) {h : Heap} (hi : Inv h) (o : ℕ) : Inv (copyOne E h o).2 ∧ Keeps ∅ h (copyOne E h o).2 := by
  unfold copyOne
  cases val h o with
  | none => exact ⟨hi, Keeps.refl _ _⟩
  | some e => exact ⟨(build_inv E hi _ _).1, (build_inv E hi _ _).2.1⟩

theorem uminusOne_inv (E : Eigh) {h : Heap} (hi : Inv h) (o : ℕ) : Inv (uminusOne E h o).2 ∧ Keeps ∅ h (uminusOne E h o).2 := by
  unfold uminusOne
  cases val h o with
  | none => exact ⟨hi, Keeps.refl _ _⟩
  | some e => exact ⟨(build_inv E hi _ _).1, (build_inv E hi _ _).2.1⟩

/-- A copy of a valid object succeeds and has the same value. -/
theorem copyOne_ok (E : Eigh) {h : Heap} {o : ℕ} {e : EllObj} (hv : val h o = some e) (he : ValidObj e) :
    copyOne E h o = (.ok (allocObj h e).1, (allocObj h e).2) := by
  unfold copyOne
  rw [hv]
  simp only
  unfold build
  rw [if_neg (not_not.mpr he.props)]
  have ht : 0 < e.absTol := he.props.1
  have : ellNew E [.arr (encVec e.c), .arr (encMat e.Q)] e.props.absTol e.props.relTol e.props.n2d e.props.n3d = .ok e := by
    rw [C33]
    exact ⟨e.n, e.c, e.Q, rfl, Or.inr (Or.inr ⟨_, _, [], rfl, encVec_good e.c ht, encMat_good ht he.symm he.eig⟩)⟩
  rw [this]

@[simp] theorem mkArr_data (sh l : List ℕ) : (mkArr sh l).data = l := by
  unfold mkArr
  split_ifs <;> rfl

theorem mkArr_shape {sh l : List ℕ} (h : l.length = sh.foldr (· * ·) 1) : (mkArr sh l).shape = sh := by
  unfold mkArr
  rw [dif_pos h]

theorem getCopy_inv (E : Eigh) {h : Heap} (hi : Inv h) (os : Arr ℕ) : Inv (getCopy E h os).2 ∧ Keeps ∅ h (getCopy E h os).2 := by
  have hm := mapHeap_inv (f := copyOne E) (S := ∅) os.data (fun h hi o _ => copyOne_inv E hi o) h hi
  unfold getCopy
  by_cases h0 : os.data.length = 0
  · rw [if_pos h0]; exact ⟨hi, Keeps.refl _ _⟩
  rw [if_neg h0]
  cases hr : mapHeap (copyOne E) h os.data with
  | mk r h1 =>
    rw [hr] at hm
    split_ifs <;> cases r <;> exact hm

theorem repMat_inv (E : Eigh) {h : Heap} (hi : Inv h) (o : ℕ) (shape : List ℤ) :
    Inv (repMat E h o shape).2 ∧ Keeps ∅ h (repMat E h o shape).2 := by
  unfold repMat
  by_cases h0 : shape = []
  · rw [if_pos h0]; exact ⟨hi, Keeps.refl _ _⟩
  rw [if_neg h0]
  by_cases h1 : ∀ k ∈ shape, 0 ≤ k
  swap
  · rw [if_pos h1]; exact ⟨hi, Keeps.refl _ _⟩
  rw [if_neg (not_not.mpr h1)]
  simp only
  have hm := mapHeap_inv (f := copyOne E) (S := ∅) (List.replicate ((shape.map Int.toNat).foldr (· * ·) 1) o)
    (fun h hi o _ => copyOne_inv E hi o) h hi
  cases hr : mapHeap (copyOne E) h (List.replicate ((shape.map Int.toNat).foldr (· * ·) 1) o) with
  | mk r h1 =>
    rw [hr] at hm
    cases r <;> exact hm

theorem uminus_inv (E : Eigh) {h : Heap} (hi : Inv h) (os : Arr ℕ) : Inv (uminus E h os).2 ∧ Keeps ∅ h (uminus E h os).2 := by
  have hm := mapHeap_inv (f := uminusOne E) (S := ∅) os.data (fun h hi o _ => uminusOne_inv E hi o) h hi
  unfold uminus
  cases hr : mapHeap (uminusOne E) h os.data with
  | mk r h1 =>
    rw [hr] at hm
    cases r <;> exact hm

theorem fromRepMat_inv (E : Eigh) {h : Heap} (hi : Inv h) (args : List RawArg) (shape : List ℤ) (p : PropVals) :
    Inv (fromRepMat E h args shape p).2 ∧ Keeps ∅ h (fromRepMat E h args shape p).2 := by
  obtain ⟨h1, h2, -⟩ := build_inv E hi args p
  unfold fromRepMat
  cases hb : build E h args p with
  | mk r hh =>
    rw [hb] at h1 h2
    cases r with
    | error x => exact ⟨h1, h2⟩
    | ok o => exact ⟨(repMat_inv E h1 o shape).1, h2.trans (repMat_inv E h1 o shape).2⟩

theorem normBasis_eq {n k : ℕ} (B : Matrix (Fin n) (Fin k) ℝ) : normBasis B = unitCols B := by
  ext i j
  simp only [normBasis, unitCols, of_apply, mul_apply, transpose_apply, pow_two]

theorem gram_diag {n k : ℕ} (B : Matrix (Fin n) (Fin k) ℝ) (j : Fin k) : (Bᵀ * B) j j = 0 ↔ ∀ i, B i j = 0 := by
  simp only [mul_apply, transpose_apply]
  rw [Finset.sum_eq_zero_iff_of_nonneg (fun i _ => mul_self_nonneg _)]
  simp

theorem setCenterVec_enc {k : ℕ} (c : Fin k → ℝ) {tol : ℝ} (ht : 0 < tol) :
    setCenterVec (.arr (encVec c)) tol = .ok (List.ofFn c) := (C33_center _ _ _ _).mpr (encVec_good c ht)

theorem val_props {h : Heap} {o : ℕ} {r : ObjRec} {e : EllObj} (hr : h.objs[o]? = some r) (hv : val h o = some e) : e.props = r.props := by
  unfold val at hv
  rw [hr] at hv
  simp only [Option.bind_some, decode] at hv
  split at hv
  · split at hv
    · split_ifs at hv
      injection hv with hv
      rw [← hv]; rfl
    · cases hv
  · cases hv

/-- A step of `projection` either raises and changes nothing, or replaces the value of the object by the projected value. -/
theorem projOne_cases (E : Eigh) {n k : ℕ} (B : Matrix (Fin n) (Fin k) ℝ) {h : Heap} (hi : Inv h) (o : ℕ) :
    (∃ x, projOne E B h o = (.error x, h) ∧
      ¬ ∃ e, ∃ he : e.n = n, val h o = some e ∧ (∀ j, ∃ i, B i j ≠ 0) ∧ ValidObj (projVal e B he)) ∨
    ∃ e, ∃ he : e.n = n, val h o = some e ∧ (∀ j, ∃ i, B i j ≠ 0) ∧ ValidObj (projVal e B he) ∧
      ∃ h', projOne E B h o = (.ok o, h') ∧ Inv h' ∧ h'.objs.length = h.objs.length ∧ Keeps {o} h h' ∧ val h' o = some (projVal e B he) := by
  unfold projOne
  simp only [normBasis_eq, gram_diag]
  by_cases ho : o < h.objs.length
  swap
  · rw [List.getElem?_eq_none (not_lt.mp ho)]
    refine Or.inl ⟨_, rfl, ?_⟩
    rintro ⟨e, he, hv, -⟩
    exact ho (val_lt hv)
  obtain ⟨e, hv, hval⟩ := hi.valid o ho
  have hr : h.objs[o]? = some h.objs[o] := List.getElem?_eq_getElem ho
  have hp := val_props hr hv
  generalize h.objs[o] = r at hr hp
  rw [hr, hv]
  simp only
  have hun : ∀ e', some e = some e' → e' = e := fun e' h => (Option.some.inj h).symm
  by_cases he : e.n = n
  swap
  · rw [dif_neg he]
    refine Or.inl ⟨_, rfl, ?_⟩
    rintro ⟨e', he', hv', -⟩
    exact he (hun e' hv' ▸ he')
  rw [dif_pos he]
  by_cases hz : ∃ j, ∀ i, B i j = 0
  · rw [if_pos hz]
    refine Or.inl ⟨_, rfl, ?_⟩
    rintro ⟨e', he', -, hno, -⟩
    obtain ⟨j, hj⟩ := hz
    obtain ⟨i, hij⟩ := hno j
    exact hij (hj i)
  rw [if_neg hz]
  push Not at hz
  have hat : r.props.absTol = e.absTol := by rw [← hp]; rfl
  have ht : 0 < e.absTol := hval.props.1
  rw [hat]
  cases hs : setShapeMat E (.arr (encMat ((unitCols B)ᵀ * (he ▸ e.Q) * unitCols B))) e.absTol with
  | error x =>
    refine Or.inl ⟨_, rfl, ?_⟩
    rintro ⟨e', he', hv', -, hok⟩
    obtain rfl := hun e' hv'
    have := (C33_shape E _ e'.absTol k _).mpr (encMat_good ht hok.symm hok.eig)
    have hs' : setShapeMat E (RawArg.arr (encMat (projVal e' B he').Q)) e'.absTol = .error x := hs
    exact absurd (this.symm.trans hs') (by intro h; cases h)
  | ok X =>
    obtain ⟨m, X⟩ := X
    have hg := (C33_shape E _ _ m X).mp hs
    obtain ⟨-, Y, hM, -, hsy, heig⟩ := hg
    have hm : m = k := by
      have := hM.1
      simp only [encMat] at this
      injection this with this
      exact this.symm
    subst hm
    have hX : X = (unitCols B)ᵀ * (he ▸ e.Q) * unitCols B := by
      rw [← matOf_eq hM, matOf_eq (encMat_isMat _)]
    simp only
    rw [setCenterVec_enc _ ht]
    simp only
    have hvalid : ValidObj (projVal e B he) := by
      refine ⟨hval.props, ?_, ?_⟩
      · rw [hX] at hsy; exact hsy
      · rw [hX] at heig; exact heig
    refine Or.inr ⟨e, he, rfl, hz, hvalid, _, rfl, ?_⟩
    set c' : Fin m → ℝ := (unitCols B)ᵀ *ᵥ (he ▸ e.c) with hc'
    have hcl : encVec (fun i : Fin (List.ofFn c').length => (List.ofFn c')[i]) = encVec c' := by
      unfold encVec
      congr 1
      · simp
      · apply List.ext_getElem
        · simp
        · intro i h1 h2
          simp
    rw [hcl]
    set r' : ObjRec := { cRef := h.arrs.length + 1, qRef := h.arrs.length, props := r.props } with hr'
    generalize hh' : rebindC _ _ _ _ = h'
    have harrs : h'.arrs = h.arrs ++ [encMat X, encVec c'] := by
      rw [← hh']; simp [rebindC, rebindQ]
    have hobjs : h'.objs = h.objs.set o r' := by
      rw [← hh']; simp [rebindC, rebindQ, hr']
    have hpub : h'.pub = h.pub := by rw [← hh']; rfl
    have hk : Keeps {o} h h' := by
      refine ⟨by rw [hobjs]; simp, fun o' ho' hne => ?_⟩
      have hne : o ≠ o' := fun h => hne h.symm
      unfold val
      rw [hobjs, List.getElem?_set_ne hne, List.getElem?_eq_getElem ho']
      obtain ⟨h1, h2, -, -⟩ := hi.refs _ (List.getElem_mem ho')
      exact decode_congr (by rw [harrs, List.getElem?_append_left h1]) (by rw [harrs, List.getElem?_append_left h2])
    have hnew : val h' o = some (projVal e B he) := by
      unfold val
      rw [hobjs, List.getElem?_set_self ho]
      show decode h' r' = _
      rw [decode_enc (c := c') (Q := X)]
      · rw [hX]
        have hp1 : r'.props = e.props := hp.symm
        rw [hp1]
        rfl
      · rw [harrs]; simp [hr']
      · rw [harrs]; simp [hr']
    refine ⟨⟨?_, ?_, ?_, ?_⟩, by rw [hobjs]; simp, hk, hnew⟩
    · intro q hq
      rw [hobjs] at hq
      have hlen : h'.arrs.length = h.arrs.length + 2 := by rw [harrs]; simp
      rw [hlen, hpub]
      rcases List.mem_or_eq_of_mem_set hq with hq | rfl
      · obtain ⟨h1, h2, h3, h4⟩ := hi.refs q hq
        exact ⟨by omega, by omega, h3, h4⟩
      · refine ⟨by simp [hr'], by simp [hr'], fun hm => ?_, fun hm => ?_⟩
        · exact absurd (hi.pubs _ hm) (by simp [hr'])
        · exact absurd (hi.pubs _ hm) (by simp [hr'])
    · intro q hq
      rw [hpub] at hq
      have := hi.pubs q hq
      rw [harrs]; simp; omega
    · intro o' ho'
      rw [hobjs, List.length_set] at ho'
      by_cases hne : o' = o
      · subst hne
        exact ⟨_, hnew, hvalid⟩
      · obtain ⟨e', he', hv'⟩ := hi.valid o' ho'
        exact ⟨e', by rw [hk.2 o' ho' hne, he'], hv'⟩
    · intro q hq
      rw [hobjs] at hq
      rw [harrs]
      rcases List.mem_or_eq_of_mem_set hq with hq | rfl
      · exact hi.enc_append _ hq
      · refine ⟨projVal e B he, ?_, ?_, hp⟩
        · simp [hr', projVal, hc']
        · simp [hr', projVal, hX]

theorem projOne_inv (E : Eigh) {n k : ℕ} (B : Matrix (Fin n) (Fin k) ℝ) {h : Heap} (hi : Inv h) (o : ℕ) :
    Inv (projOne E B h o).2 ∧ Keeps {o} h (projOne E B h o).2 := by
  rcases projOne_cases E B hi o with ⟨x, hx, -⟩ | ⟨e, he, -, -, -, h', hp, h1, -, h2, -⟩
  · rw [hx]; exact ⟨hi, Keeps.refl _ _⟩
  · rw [hp]; exact ⟨h1, h2⟩

theorem projection_inv (E : Eigh) {n k : ℕ} (B : Matrix (Fin n) (Fin k) ℝ) {h : Heap} (hi : Inv h) (os : Arr ℕ) :
    Inv (projection E B h os).2 ∧ Keeps {o | o ∈ os.data} h (projection E B h os).2 := by
  have hm := mapHeap_inv (f := projOne E B) (S := {o | o ∈ os.data}) os.data
    (fun h hi o ho => ⟨(projOne_inv E B hi o).1, (projOne_inv E B hi o).2.mono (by rintro _ rfl; exact ho)⟩) h hi
  have hno : Inv h ∧ Keeps {o | o ∈ os.data} h h := ⟨hi, Keeps.refl _ _⟩
  unfold projection
  by_cases h0 : os.data.length ≠ 0
  swap
  · rw [if_neg h0]; exact hno
  rw [if_pos h0]
  split
  · exact hno
  · rename_i es hes
    by_cases h1 : k ≤ n ∧ ∀ e ∈ es, e.n = n
    swap
    · rw [if_pos h1]; exact hno
    rw [if_neg (not_not.mpr h1)]
    simp only
    by_cases h2 : ∃ i j, i ≠ j ∧ (es.map EllObj.absTol).foldr max 0 < (Bᵀ * B) i j
    · rw [if_pos h2]; exact hno
    rw [if_neg h2]
    by_cases h3 : ∃ i : Fin k, (es.map EllObj.absTol).foldr max 0 < (Bᵀ * B) i i - (Bᵀ * B) i i
    · rw [if_pos h3]; exact hno
    rw [if_neg h3]
    cases hr : mapHeap (projOne E B) h os.data with
    | mk r h1 =>
      rw [hr] at hm
      cases r <;> exact hm

/-- Copies are new objects with the values of the originals. -/
theorem mapCopy_ok (E : Eigh) (l : List ℕ) (h : Heap) (hi : Inv h) (hl : ∀ o ∈ l, o < h.objs.length) :
    ∃ h', mapHeap (copyOne E) h l = (.ok (List.range' h.objs.length l.length), h') ∧ Inv h' ∧ Keeps ∅ h h' ∧
      h'.objs.length = h.objs.length + l.length ∧ h'.pub = h.pub ∧ h'.dflt = h.dflt ∧
      ∀ i (hli : i < l.length), val h' (h.objs.length + i) = val h l[i] := by
  induction l generalizing h with
  | nil => exact ⟨h, rfl, hi, Keeps.refl _ _, rfl, rfl, rfl, fun i hli => absurd hli (Nat.not_lt_zero _)⟩
  | cons o os ih =>
    obtain ⟨e, hv, he⟩ := hi.valid o (hl o List.mem_cons_self)
    obtain ⟨h1, h2, h3⟩ := allocObj_inv hi he
    have hlen : (allocObj h e).2.objs.length = h.objs.length + 1 := by simp [allocObj]
    obtain ⟨h', hm, h4, h5, h6, hpb, hdf, h7⟩ := ih (allocObj h e).2 h1
      (fun o ho => by rw [hlen]; have := hl o (List.mem_cons_of_mem _ ho); omega)
    refine ⟨h', ?_, h4, h2.trans h5, by rw [h6, hlen, List.length_cons]; omega, hpb, hdf, ?_⟩
    · simp only [mapHeap, copyOne_ok E hv he, hm]
      rw [hlen, h3, List.length_cons, List.range'_succ]
    · intro i hli
      cases i with
      | zero =>
        have := h5.2 h.objs.length (by rw [hlen]; omega) (Set.notMem_empty _)
        rw [Nat.add_zero, this, ← h3, allocObj_val]
        simpa using hv.symm
      | succ i =>
        have hi' : i < os.length := by simpa using hli
        have := h7 i hi'
        rw [hlen] at this
        rw [show h.objs.length + (i + 1) = h.objs.length + 1 + i by omega, this]
        have := h2.2 os[i] (hl _ (List.mem_cons_of_mem _ (List.getElem_mem hi'))) (Set.notMem_empty _)
        rw [this]
        simp

/-- A loop in which every step adds an object computed from an old one. -/
theorem mapAlloc_ok {f : Heap → ℕ → Py ℕ × Heap} {g : PropVals → EllObj → EllObj}
    (hf : ∀ h o e, val h o = some e → ValidObj (g h.dflt e) → f h o = (.ok (allocObj h (g h.dflt e)).1, (allocObj h (g h.dflt e)).2))
    (l : List ℕ) (h : Heap) (hi : Inv h) (hl : ∀ o ∈ l, ∃ e, val h o = some e ∧ ValidObj (g h.dflt e)) :
    ∃ h', mapHeap f h l = (.ok (List.range' h.objs.length l.length), h') ∧ Inv h' ∧ Keeps ∅ h h' ∧
      h'.objs.length = h.objs.length + l.length ∧ h'.dflt = h.dflt ∧
      ∀ i (hli : i < l.length), ∃ e, val h l[i] = some e ∧ val h' (h.objs.length + i) = some (g h.dflt e) := by
  induction l generalizing h with
  | nil => exact ⟨h, rfl, hi, Keeps.refl _ _, rfl, rfl, fun i hli => absurd hli (Nat.not_lt_zero _)⟩
  | cons o os ih =>
    obtain ⟨e, hv, he⟩ := hl o List.mem_cons_self
    obtain ⟨h1, h2, h3⟩ := allocObj_inv hi he
    have hlen : (allocObj h (g h.dflt e)).2.objs.length = h.objs.length + 1 := by simp [allocObj]
    obtain ⟨h', hm, h4, h5, h6, hdf, h7⟩ := ih (allocObj h (g h.dflt e)).2 h1
      (fun q hq => by
        obtain ⟨e', hv', he'⟩ := hl q (List.mem_cons_of_mem _ hq)
        exact ⟨e', by rw [h2.2 q (val_lt hv') (Set.notMem_empty _), hv'], he'⟩)
    refine ⟨h', ?_, h4, h2.trans h5, by rw [h6, hlen, List.length_cons]; omega, hdf, ?_⟩
    · simp only [mapHeap, hf h o e hv he, hm]
      rw [hlen, h3, List.length_cons, List.range'_succ]
    · intro i hli
      cases i with
      | zero =>
        refine ⟨e, by simpa using hv, ?_⟩
        have := h5.2 h.objs.length (by rw [hlen]; omega) (Set.notMem_empty _)
        rw [Nat.add_zero, this, ← h3, allocObj_val]
      | succ i =>
        have hi' : i < os.length := by simpa using hli
        obtain ⟨e', hv', hn'⟩ := h7 i hi'
        rw [hlen] at hn'
        obtain ⟨e2, hv2, -⟩ := hl os[i] (List.mem_cons_of_mem _ (List.getElem_mem hi'))
        refine ⟨e', ?_, by rw [show h.objs.length + (i + 1) = h.objs.length + 1 + i by omega, hn']; rfl⟩
        rw [← hv', h2.2 os[i] (val_lt hv2) (Set.notMem_empty _)]
        simp

/-- `uminus` of one object. -/
theorem uminusOne_ok (E : Eigh) (h : Heap) (o : ℕ) (e : EllObj) (hv : val h o = some e) (he : ValidObj (negVal h.dflt e)) :
    uminusOne E h o = (.ok (allocObj h (negVal h.dflt e)).1, (allocObj h (negVal h.dflt e)).2) := by
  unfold uminusOne
  rw [hv]
  simp only
  unfold build
  have hp : h.dflt.ok := he.props
  rw [if_neg (not_not.mpr hp)]
  have ht : 0 < h.dflt.absTol := hp.1
  have : ellNew E [.arr (encVec (-e.c)), .arr (encMat e.Q)] h.dflt.absTol h.dflt.relTol h.dflt.n2d h.dflt.n3d = .ok (negVal h.dflt e) := by
    rw [C33]
    exact ⟨e.n, -e.c, e.Q, rfl, Or.inr (Or.inr ⟨_, _, [], rfl, encVec_good _ ht, encMat_good ht he.symm he.eig⟩)⟩
  rw [this]

theorem uminusOne_error (E : Eigh) (h : Heap) (o : ℕ) (e : EllObj) (hv : val h o = some e) (he : ¬ ValidObj (negVal h.dflt e)) :
    ∃ x, uminusOne E h o = (.error x, h) := by
  unfold uminusOne
  rw [hv]
  simp only
  rcases build_cases E h [.arr (encVec (-e.c)), .arr (encMat e.Q)] h.dflt with ⟨x, hx⟩ | ⟨e', he', hpr, hnew, -⟩
  · exact ⟨x, hx⟩
  · exfalso
    apply he
    obtain ⟨n, x, X, rfl, ⟨h1, -⟩ | ⟨a, h1, -⟩ | ⟨b, a, rest, h1, hc, hg⟩⟩ := (C33 E _ _ _ _ _ e').mp hnew
    · cases h1
    · cases h1
    · injection h1 with hb h1
      injection h1 with ha h1
      injection ha with ha
      subst ha
      obtain ⟨ht, Y, hM, -, hsy, heig⟩ := hg
      have hn : e.n = n := by
        have := hM.1
        simp only [encMat] at this
        injection this
      subst hn
      have hX : X = e.Q := by rw [← matOf_eq hM, matOf_eq (encMat_isMat _)]
      subst hX
      exact ⟨he'.props, hsy, heig⟩

theorem mapHeap_copy_dangling (E : Eigh) (l : List ℕ) (h : Heap) (hi : Inv h) {os : List ℕ} {h' : Heap}
    (hm : mapHeap (copyOne E) h l = (.ok os, h')) : ∀ o ∈ os, h.objs.length ≤ o := by
  induction l generalizing h os h' with
  | nil =>
    simp only [mapHeap, Prod.mk.injEq, Except.ok.injEq] at hm
    rw [← hm.1]; simp
  | cons o l ih =>
    simp only [mapHeap] at hm
    cases hc : copyOne E h o with
    | mk r h1 =>
      rw [hc] at hm
      cases r with
      | error x => simp at hm
      | ok r =>
        simp only at hm
        have hinv := copyOne_inv E hi o
        rw [hc] at hinv
        have hr : r = h.objs.length := by
          unfold copyOne at hc
          cases hv : val h o with
          | none => rw [hv] at hc; cases hc
          | some e =>
            rw [hv] at hc
            simp only at hc
            exact (build_inv E hi [RawArg.arr (encVec e.c), RawArg.arr (encMat e.Q)] e.props).2.2 r (by rw [hc])
        cases hm2 : mapHeap (copyOne E) h1 l with
        | mk rs h2 =>
          rw [hm2] at hm
          cases rs with
          | error x => simp at hm
          | ok rs =>
            simp only [Prod.mk.injEq, Except.ok.injEq] at hm
            obtain ⟨rfl, -⟩ := hm
            intro q hq
            rcases List.mem_cons.mp hq with rfl | hq
            · exact hr.ge
            · exact hinv.2.1.trans (ih h1 hinv.1 hm2 q hq)

theorem getCopy_new (E : Eigh) {h : Heap} (hi : Inv h) (os cs : Arr ℕ) {h' : Heap} (hc : getCopy E h os = (.ok cs, h')) :
    ∀ o ∈ cs.data, h.objs.length ≤ o := by
  unfold getCopy at hc
  by_cases h0 : os.data.length = 0
  · rw [if_pos h0] at hc
    simp only [Prod.mk.injEq, Except.ok.injEq] at hc
    rw [← hc.1, List.length_eq_zero_iff.mp h0]
    simp
  rw [if_neg h0] at hc
  cases hr : mapHeap (copyOne E) h os.data with
  | mk r h1 =>
    rw [hr] at hc
    have hd := fun rs h1 hm => mapHeap_copy_dangling E os.data h hi (os := rs) (h' := h1) hm
    cases r with
    | error x => split_ifs at hc <;> simp at hc
    | ok rs =>
      have hd := hd rs h1 hr
      split_ifs at hc <;> simp only [Prod.mk.injEq, Except.ok.injEq] at hc <;> rw [← hc.1, mkArr_data] <;> exact hd

theorem getProjection_inv (E : Eigh) {n k : ℕ} (B : Matrix (Fin n) (Fin k) ℝ) {h : Heap} (hi : Inv h) (os : Arr ℕ) :
    Inv (getProjection E B h os).2 ∧ Keeps ∅ h (getProjection E B h os).2 := by
  have hc := getCopy_inv E hi os
  have hn := fun cs h' => getCopy_new E hi os cs (h' := h')
  unfold getProjection
  cases hr : getCopy E h os with
  | mk r h1 =>
    rw [hr] at hc
    cases r with
    | error x => exact hc
    | ok cs =>
      simp only
      obtain ⟨h2, h3⟩ := projection_inv E B hc.1 cs
      refine ⟨h2, hc.2.1.trans h3.1, fun o ho _ => ?_⟩
      rw [h3.2 o (lt_of_lt_of_le ho hc.2.1), hc.2.2 o ho (Set.notMem_empty _)]
      intro hm
      exact absurd (hn cs h1 hr o hm) (by omega)

theorem buildAll_inv (E : Eigh) (l : List (List RawArg)) {h : Heap} (hi : Inv h) : Inv (buildAll E h l) ∧ Keeps ∅ h (buildAll E h l) := by
  induction l generalizing h with
  | nil => exact ⟨hi, Keeps.refl _ _⟩
  | cons a as ih =>
    obtain ⟨h1, h2, -⟩ := build_inv E hi a h.dflt
    unfold buildAll
    cases hb : build E h a h.dflt with
    | mk r hh =>
      rw [hb] at h1 h2
      cases r with
      | error x => exact ⟨h1, h2⟩
      | ok o => exact ⟨(ih h1).1, h2.trans (ih h1).2⟩

theorem pubAll_inv (l : List (Arr CX)) {h : Heap} (hi : Inv h) : Inv (pubAll h l) ∧ Keeps ∅ h (pubAll h l) := by
  induction l generalizing h with
  | nil => exact ⟨hi, Keeps.refl _ _⟩
  | cons a as ih =>
    obtain ⟨h1, h2⟩ := allocPub_inv hi a
    exact ⟨(ih h1).1, h2.trans (ih h1).2⟩

theorem getCenterVec_inv {h : Heap} (hi : Inv h) (o : ℕ) : Inv (getCenterVec h o).2 ∧ Keeps ∅ h (getCenterVec h o).2 := by
  unfold getCenterVec
  split
  · exact ⟨hi, Keeps.refl _ _⟩
  · split
    · exact ⟨hi, Keeps.refl _ _⟩
    · exact allocPub_inv hi _

theorem getShapeMat_inv {h : Heap} (hi : Inv h) (o : ℕ) : Inv (getShapeMat h o).2 ∧ Keeps ∅ h (getShapeMat h o).2 := by
  unfold getShapeMat
  split
  · exact ⟨hi, Keeps.refl _ _⟩
  · split
    · exact ⟨hi, Keeps.refl _ _⟩
    · exact allocPub_inv hi _

theorem toDictOne_inv (incl : Bool) {h : Heap} (hi : Inv h) (o : ℕ) :
    Inv (toDictOne incl h o).2 ∧ Keeps ∅ h (toDictOne incl h o).2 := by
  have h1 := getCenterVec_inv hi o
  unfold toDictOne
  split
  · exact ⟨hi, Keeps.refl _ _⟩
  · cases hc : getCenterVec h o with
    | mk c hh =>
      rw [hc] at h1
      cases c with
      | error x => exact h1
      | ok c =>
        have h2 := getShapeMat_inv h1.1 o
        simp only
        cases hq : getShapeMat hh o with
        | mk q h3 =>
          rw [hq] at h2
          cases q <;> exact ⟨h2.1, h1.2.trans h2.2⟩

theorem step_inv (E : Eigh) {h : Heap} (hi : Inv h) (c : Call) : Inv (step E h c) ∧ Keeps {o | o ∈ c.projects} h (step E h c) := by
  have lift : ∀ {h'}, Inv h' ∧ Keeps ∅ h h' → Inv h' ∧ Keeps {o | o ∈ c.projects} h h' :=
    fun hh => ⟨hh.1, hh.2.mono (Set.empty_subset _)⟩
  cases c with
  | mkArray a => exact lift (allocPub_inv hi a)
  | write r i z =>
    refine lift ?_
    show Inv (ite _ _ _) ∧ _
    simp only [step]
    split_ifs with hr
    · exact writeArr_inv hi hr i z
    · exact ⟨hi, Keeps.refl _ _⟩
  | configure p => exact lift ⟨⟨hi.refs, hi.pubs, hi.valid, hi.enc⟩, Keeps.refl _ _⟩
  | new args p => exact lift ⟨(build_inv E hi _ _).1, (build_inv E hi _ _).2.1⟩
  | getCenterVec o => exact lift (getCenterVec_inv hi o)
  | getShapeMat o => exact lift (getShapeMat_inv hi o)
  | parameters o =>
    obtain ⟨h1, h2⟩ := getCenterVec_inv hi o
    obtain ⟨h3, h4⟩ := getShapeMat_inv h1 o
    exact lift ⟨h3, h2.trans h4⟩
  | getCopy os => exact lift (getCopy_inv E hi os)
  | repMat o shape => exact lift (repMat_inv E hi o shape)
  | fromRepMat args shape p => exact lift (fromRepMat_inv E hi _ shape p)
  | uminus os => exact lift (uminus_inv E hi os)
  | projection n k B os => exact projection_inv E B hi os
  | getProjection n k B os => exact lift (getProjection_inv E B hi os)
  | toDict incl os => exact lift (mapHeap_inv os (fun h hi o _ => toDictOne_inv incl hi o) h hi)
  | fromDict ds => exact lift (mapHeap_inv ds (fun h hi d _ => ⟨(build_inv E hi _ _).1, (build_inv E hi _ _).2.1⟩) h hi)
  | derive os f => exact lift (buildAll_inv E _ hi)
  | query os f => exact lift (pubAll_inv _ hi)

theorem empty_inv (p : PropVals) : Inv (emptyHeap p) :=
  ⟨fun r hr => absurd hr List.not_mem_nil, fun r hr => absurd hr List.not_mem_nil, fun o ho => absurd ho (Nat.not_lt_zero _),
    fun r hr => absurd hr List.not_mem_nil⟩

theorem run_inv (E : Eigh) {h : Heap} (hi : Inv h) (calls : List Call) (S : Set ℕ) (hS : ∀ c ∈ calls, ∀ o ∈ c.projects, o ∈ S) :
    Inv (run E h calls) ∧ Keeps S h (run E h calls) := by
  induction calls generalizing h with
  | nil => exact ⟨hi, Keeps.refl _ _⟩
  | cons c cs ih =>
    obtain ⟨h1, h2⟩ := step_inv E hi c
    obtain ⟨h3, h4⟩ := ih h1 (fun c hc => hS c (List.mem_cons_of_mem _ hc))
    exact ⟨h3, (h2.mono (hS c List.mem_cons_self)).trans h4⟩

theorem Reachable.inv {E : Eigh} {h : Heap} (hr : Reachable E h) : Inv h := by
  obtain ⟨p, calls, rfl⟩ := hr
  exact (run_inv E (empty_inv p) calls Set.univ (fun _ _ _ _ => trivial)).1

end Ellipy.Ell
