import Verif.Props.DictCompare
import Verif.Spec.DictPass

/-! Helper lemmas for C117. -/

set_option linter.unusedSectionVars false

namespace Ellipy
variable {K : Type} [Field K] [LinearOrder K] [IsStrictOrderedRing K]
variable {lk : List (PyVal K) → Kind} {fmt : Fmt K} {absTol : XF K} {relTol : Option (XF K)}

local notation "cF" => compFun lk fmt absTol relTol
local notation "cL" => compList lk fmt absTol relTol
local notation "cS" => compScalar lk fmt absTol relTol
local notation "cFs" => compFields lk fmt absTol relTol
local notation "cV" => compVec lk fmt absTol relTol

/-- Boolean arrays never pass: their difference raises. -/
theorem numComp_kind {x y : NArr K} {s : String} (h : numComp fmt absTol relTol x y = .ok (true, s)) : ¬ (x.kind = .b ∧ y.kind = .b) := by
  unfold numComp at h
  by_cases hs : x.shape = y.shape
  swap
  · rw [if_pos hs] at h; cases h
  rw [if_neg (not_not.2 hs)] at h
  generalize hr : absRelCompare _ _ absTol relTol (fun z => |z|) = r at h
  cases r with
  | error e => cases h
  | ok res =>
    cases hb : res.isEqual with
    | false => simp [hb, bind, Except.bind] at h
    | true => exact (goodArgs_of_equal hr hb).2.2.2.1

theorem compScalar_passes {d d' : List (String × PyVal K)}
    (hd' : (keys d').Nodup)
    (ih : ∀ p ∈ d, ∀ w, (p.1, w) ∈ d' → ∀ s, cF p.2 w = .ok (true, s) → Passes absTol relTol lk p.2 w ∧ s = "")
    {r : Bool × List String} (h : cS d d' = .ok r) (hr : r.1 = true) :
    Passes absTol relTol lk (.dict d) (.dict d') := by
  rw [compScalar_eq] at h
  split_ifs at h with hk
  swap
  · cases h; simp at hr
  obtain ⟨b, s⟩ := r
  dsimp only at hr
  subst hr
  obtain ⟨-, h2⟩ := compFields_true (P := Passes absTol relTol lk) d' d s ih h
  refine .dict d d' ((sameKeys_iff _ _).1 hk) ?_
  intro k v w hv hw
  obtain ⟨w', hw', ha⟩ := h2 (k, v) hv
  rw [fieldGet_of_mem hd' hw] at hw'
  cases hw'
  exact ha

/-- Soundness: what `comp_fun` calls equal passes. -/
theorem compFun_passes : ∀ x : PyVal K, WF x → ∀ y, WF y → ∀ s, cF x y = .ok (true, s) →
    Passes absTol relTol lk x y ∧ s = "" := by
  intro x
  induction x using PyVal.induction with
  | scal t a =>
    intro _ y _ s h
    cases y with
    | scal t' b =>
      rw [compFun] at h
      split_ifs at h with hty
      · cases h
      · simp only [PyVal.ty, PyVal.kindOf, not_or, not_not, PTy.scal.injEq] at hty
        obtain ⟨rfl, -⟩ := hty
        obtain ⟨h1, -, h2⟩ := numComp_true h
        have hb := numComp_kind h
        refine ⟨.scal _ _ _ (by rintro rfl; exact hb ⟨rfl, rfl⟩) (by rintro rfl; exact hb ⟨rfl, rfl⟩) ?_, h1⟩
        simpa [scalArr] using h2
    | _ => rw [compFun_types (Or.inl (by simp [PyVal.ty]))] at h; cases h
  | str a =>
    intro _ y _ s h
    cases y with
    | str b =>
      rw [compFun_str] at h
      split_ifs at h with hab
      · cases h
      · rw [not_not] at hab; subst hab; cases h; exact ⟨.str _, rfl⟩
    | _ => rw [compFun_types (Or.inl (by simp [PyVal.ty]))] at h; cases h
  | none =>
    intro _ y _ s h
    cases y with
    | none =>
      rw [compFun_none] at h
      cases h; exact ⟨.none, rfl⟩
    | _ => rw [compFun_types (Or.inl (by simp [PyVal.ty]))] at h; cases h
  | arr a =>
    intro hwx y hwy s h
    have hka : a.kind ≠ .other := by cases hwx; assumption
    cases y with
    | arr b =>
      rw [compFun] at h
      split_ifs at h with hty
      · cases h
      · simp only [PyVal.ty, PyVal.kindOf, not_or, not_not] at hty
        obtain ⟨h1, h2, h3⟩ := numComp_true h
        exact ⟨.arr _ _ (fun hb => numComp_kind h ⟨hb, hty.2 ▸ hb⟩) hty.2 h2 h3, h1⟩
    | oarr l => rw [compFun_types (Or.inr (by simpa [PyVal.kindOf] using hka))] at h; cases h
    | darr sh ds => rw [compFun_types (Or.inr (by simpa [PyVal.kindOf] using hka))] at h; cases h
    | _ => rw [compFun_types (Or.inl (by simp [PyVal.ty]))] at h; cases h
  | list l ih =>
    intro hwx y hwy s h
    cases y with
    | list l' =>
      rw [compFun] at h
      split_ifs at h with hty
      · cases h
      · simp only [PyVal.ty, PyVal.kindOf, not_or, not_not] at hty
        cases hwx with | list _ hwx => cases hwy with | list _ hwy =>
        obtain ⟨h1, h2, h3⟩ := compList_true (P := Passes absTol relTol lk) l l' 0 s
          (fun x hx y hy s hs => ih x hx (hwx x hx) y (hwy y hy) s hs) h
        exact ⟨.list _ _ hty.2 h2 h3, h1⟩
    | _ => rw [compFun_types (Or.inl (by simp [PyVal.ty]))] at h; cases h
  | oarr l ih =>
    intro hwx y hwy s h
    cases y with
    | oarr l' =>
      rw [compFun, if_neg (by simp [PyVal.ty, PyVal.kindOf])] at h
      cases hwx with | oarr _ hwx _ => cases hwy with | oarr _ hwy _ =>
      obtain ⟨h1, h2, h3⟩ := compList_true (P := Passes absTol relTol lk) l l' 0 s
        (fun x hx y hy s hs => ih x hx (hwx x hx) y (hwy y hy) s hs) h
      exact ⟨.oarr _ _ h2 h3, h1⟩
    | arr b =>
      have hkb : b.kind ≠ .other := by cases hwy; assumption
      rw [compFun_types (Or.inr (by simpa [PyVal.kindOf] using hkb.symm))] at h; cases h
    | darr sh ds =>
      rw [compFun, if_neg (by simp [PyVal.ty, PyVal.kindOf])] at h
      cases l with
      | nil =>
        rw [compList_nil] at h
        cases h
        exact ⟨.emptyArr _ _, rfl⟩
      | cons a l =>
        cases hwx with | oarr _ hwx hnd =>
        cases ds with
        | nil => cases hwy; contradiction
        | cons d ds =>
          rw [List.map_cons, compList_cons_cons, compFun_types (Or.inl (hnd a List.mem_cons_self))] at h
          simp [Except.bind] at h
    | _ => rw [compFun_types (Or.inl (by simp [PyVal.ty]))] at h; cases h
  | dict d ih =>
    intro hwx y hwy s h
    cases y with
    | dict d' =>
      rw [compFun, if_neg (by simp [PyVal.ty, PyVal.kindOf])] at h
      generalize hr : cS d d' = r at h
      cases hwx with | dict _ _ hwx => cases hwy with | dict _ hk hwy =>
      cases r with
      | error e => cases h
      | ok r =>
        have h' : (Except.ok (r.1, joinReports [r]) : Py (Bool × String)) = .ok (true, s) := h
        simp only [Except.ok.injEq, Prod.mk.injEq] at h'
        have hag := compScalar_passes (nodup_of_sorted hk)
          (fun p hp w hw s hs => ih p hp (hwx p hp) w (hwy _ hw) s hs) hr h'.1
        refine ⟨hag, ?_⟩
        rw [← h'.2, joinReports_empty (by simpa using compScalar_report hr)]
        simpa using h'.1
    | _ => rw [compFun_types (Or.inl (by simp [PyVal.ty]))] at h; cases h
  | darr sh ds ih =>
    intro hwx y hwy s h
    cases hwx with | darr _ _ hne hlen hwx =>
    have hie : ds.isEmpty = false := by cases ds <;> simp_all
    cases y with
    | darr sh' ds' =>
      cases hwy with | darr _ _ hne' hlen' hwy =>
      rw [compFun, if_neg (by simp [PyVal.ty, PyVal.kindOf])] at h
      rw [if_neg (by simp [hie])] at h
      split_ifs at h with hsh
      · cases h
      · rw [not_not] at hsh
        subst hsh
        generalize hr : cV ds ds' = r at h
        cases r with
        | error e => cases h
        | ok rs =>
          have h' : (Except.ok (rs.all (fun r => r.1), joinReports rs) : Py (Bool × String)) = .ok (true, s) := h
          simp only [Except.ok.injEq, Prod.mk.injEq] at h'
          refine ⟨.darr _ _ _ (by rw [hlen, hlen']) ?_, ?_⟩
          · intro j d d' hd hd'
            refine compVec_true (P := fun d d' => Passes absTol relTol lk (.dict d) (.dict d'))
              ds ds' rs ?_ hr h'.1 j d d' hd hd'
            intro x hx y hy r hr hr1
            refine (ih x hx (hwx x hx) (.dict y) (hwy y hy) "" ?_).1
            rw [compFun, if_neg (by simp [PyVal.ty, PyVal.kindOf])]
            show (cS x y).bind _ = _
            rw [hr]
            simp only [Except.bind, hr1]
            congr 2
            rw [joinReports_empty (by simpa using compScalar_report hr)]
            simpa using hr1
          · rw [← h'.2, joinReports_empty (compVec_report ds ds' rs hr)]
            exact h'.1
    | arr b =>
      have hkb : b.kind ≠ .other := by cases hwy; assumption
      rw [compFun_types (Or.inr (by simpa [PyVal.kindOf] using hkb.symm))] at h; cases h
    | oarr l =>
      rw [compFun_darr_oarr, if_neg (by simp [hie])] at h
      cases l <;> cases h
    | _ => rw [compFun_types (Or.inl (by simp [PyVal.ty]))] at h; cases h

/-- Completeness: what passes is called equal. -/
theorem compFun_of_passes (ha : ValidTol absTol) (hr : ∀ t, relTol = some t → ValidTol t) :
    ∀ x : PyVal K, WF x → ∀ y, WF y → Passes absTol relTol lk x y →
      cF x y = .ok (true, "") := by
  intro x
  induction x using PyVal.induction with
  | scal t a =>
    intro _ y _ h
    cases h with | scal _ _ b n1 n2 hc =>
    rw [compFun, if_neg (by simp [PyVal.ty, PyVal.kindOf])]
    exact numComp_of_close ha hr rfl (by cases t <;> simp [scalArr, STy.kind])
      (by cases t <;> simp_all [scalArr, STy.kind]) rfl
      (by simpa [scalArr] using hc)
  | str a => intro _ y _ h; cases h; rw [compFun_str]; simp
  | none => intro _ y _ h; cases h; exact compFun_none
  | arr a =>
    intro hw y _ h
    cases h with | arr _ b hnb h1 h2 h3 =>
    cases hw with | arr _ hw =>
    rw [compFun, if_neg (by simp [PyVal.ty, PyVal.kindOf, h1])]
    exact numComp_of_close ha hr h1 hw hnb h2 h3
  | list l ih =>
    intro hw y hwy h
    cases h with | list _ l' h0 h1 h2 =>
    cases hw with | list _ hw =>
    cases hwy with | list _ hwy =>
    rw [compFun, if_neg (by simp [PyVal.ty, PyVal.kindOf, h0])]
    refine compList_of_all l l' 0 h1 ?_
    intro j x y hx hy
    exact ih x (List.mem_of_getElem? hx) (hw _ (List.mem_of_getElem? hx)) y
      (hwy _ (List.mem_of_getElem? hy)) (h2 j x y hx hy)
  | oarr l ih =>
    intro hw y hwy h
    cases h with
    | oarr _ l' h1 h2 =>
      cases hw with | oarr _ hw _ =>
      cases hwy with | oarr _ hwy _ =>
      rw [compFun, if_neg (by simp [PyVal.ty, PyVal.kindOf])]
      refine compList_of_all l l' 0 h1 ?_
      intro j x y hx hy
      exact ih x (List.mem_of_getElem? hx) (hw _ (List.mem_of_getElem? hx)) y
        (hwy _ (List.mem_of_getElem? hy)) (h2 j x y hx hy)
    | emptyArr sh ds =>
      rw [compFun, if_neg (by simp [PyVal.ty, PyVal.kindOf])]
      exact compList_nil 0 _
  | dict d ih =>
    intro hw y hwy h
    cases h with | dict _ d' h1 h2 =>
    cases hw with | dict _ hk hw =>
    cases hwy with | dict _ hk' hwy =>
    have hs : cS d d' = .ok (true, []) := by
      rw [compScalar_eq, if_pos ((sameKeys_iff _ _).2 h1)]
      refine compFields_of_all d' d ?_
      intro p hp
      have hpk : p.1 ∈ keys d' := (h1 p.1).1 (List.mem_map.2 ⟨p, hp, rfl⟩)
      obtain ⟨q, hq, hqe⟩ := List.mem_map.1 hpk
      refine ⟨q.2, fieldGet_of_mem (nodup_of_sorted hk') (by rw [← hqe]; exact hq), ?_⟩
      exact ih p hp (hw p hp) q.2 (hwy q hq) (h2 p.1 p.2 q.2 hp (by rw [← hqe]; exact hq))
    rw [compFun, if_neg (by simp [PyVal.ty, PyVal.kindOf])]
    show (cS d d').bind _ = _
    rw [hs]
    simp only [Except.bind]
    congr 2
  | darr sh ds ih =>
    intro hw y hwy h
    cases h with | darr _ _ ds' h1 h2 =>
    cases hw with | darr _ _ hne _ hw =>
    cases hwy with | darr _ _ hne' _ hwy =>
    have hie : ds.isEmpty = false := by cases ds <;> simp_all
    rw [compFun, if_neg (by simp [PyVal.ty, PyVal.kindOf])]
    rw [if_neg (by simp [hie]), if_neg (by simp)]
    obtain ⟨rs, e1, e2⟩ := compVec_of_all (lk := lk) (fmt := fmt) (absTol := absTol) (relTol := relTol) ds ds' (by
      intro j x y hx hy
      have hxm := List.mem_of_getElem? hx
      have := ih x hxm (hw x hxm) (.dict y) (hwy y (List.mem_of_getElem? hy)) (h2 j x y hx hy)
      rw [compFun, if_neg (by simp [PyVal.ty, PyVal.kindOf])] at this
      generalize hr : cS x y = r at this
      cases r with
      | error e => cases this
      | ok r =>
        have h' : (Except.ok (r.1, joinReports [r]) : Py (Bool × String)) = .ok (true, "") := this
        simp only [Except.ok.injEq, Prod.mk.injEq] at h'
        have hrep := (compScalar_report hr).2 h'.1
        obtain ⟨r1, r2⟩ := r
        simp_all)
    show (cV ds ds').bind _ = _
    rw [e1]
    have hall : rs.all (fun r => r.1) = true := by
      rw [List.all_eq_true]; intro r hr; rw [e2 r hr]
    simp only [Except.bind, hall]
    congr 2
    rw [joinReports_empty (by intro r hr; rw [e2 r hr]; simp)]
    exact hall

theorem entryClose_trans {s t : K} {a b c : XF K} (h1 : EntryClose (.fin s) none a b) (h2 : EntryClose (.fin t) none b c) :
    EntryClose (.fin (s + t)) none a c := by
  cases a <;> cases b <;> cases c <;> simp only [EntryClose, reduceCtorEq, false_and, exists_false, or_false, Within] at h1 h2 ⊢
  exact (abs_sub_le _ _ _).trans (add_le_add h1 h2)

theorem forall₂_close_trans {s t : K} : ∀ {a b c : List (XF K)}, List.Forall₂ (EntryClose (.fin s) none) a b →
    List.Forall₂ (EntryClose (.fin t) none) b c → List.Forall₂ (EntryClose (.fin (s + t)) none) a c
  | [], _, _, .nil, .nil => .nil
  | _ :: _, _, _, .cons h1 h1', .cons h2 h2' => .cons (entryClose_trans h1 h2) (forall₂_close_trans h1' h2')

theorem passes_trans {s t : K} {x y z : PyVal K} (h1 : Passes (.fin s) none lk x y) (h2 : Passes (.fin t) none lk y z) :
    Passes (.fin (s + t)) none lk x z := by
  induction h1 generalizing z with
  | scal ty a b n1 n2 hc => cases h2 with | scal _ _ c _ _ hc' => exact .scal _ _ _ n1 n2 (entryClose_trans hc hc')
  | str s => cases h2; exact .str _
  | none => cases h2; exact .none
  | arr a b n hk hs hc => cases h2 with | arr _ c _ hk' hs' hc' =>
    exact .arr _ _ n (hk.trans hk') (hs.trans hs') (forall₂_close_trans hc hc')
  | list l l' hk hl _ ih =>
    cases h2 with | list _ l'' hk' hl' h' =>
    refine .list _ _ (hk.trans hk') (hl.trans hl') fun i x w hx hw => ?_
    have hi : i < l'.length := lt_of_lt_of_le (List.getElem?_eq_some_iff.1 hx).1 hl
    exact ih i x l'[i] hx (List.getElem?_eq_getElem hi) (h' i _ w (List.getElem?_eq_getElem hi) hw)
  | oarr l l' hl _ ih =>
    cases h2 with
    | oarr _ l'' hl' h' =>
      refine .oarr _ _ (hl.trans hl') fun i x w hx hw => ?_
      have hi : i < l'.length := lt_of_lt_of_le (List.getElem?_eq_some_iff.1 hx).1 hl
      exact ih i x l'[i] hx (List.getElem?_eq_getElem hi) (h' i _ w (List.getElem?_eq_getElem hi) hw)
    | emptyArr sh ds =>
      have : l = [] := List.length_eq_zero_iff.1 (Nat.le_zero.1 hl)
      subst this
      exact .emptyArr _ _
  | emptyArr sh ds => cases h2; exact .emptyArr _ _
  | dict d d' hk _ ih =>
    cases h2 with | dict _ d'' hk' h' =>
    refine .dict _ _ (fun k => (hk k).trans (hk' k)) fun k v w hv hw => ?_
    obtain ⟨⟨k', u⟩, hu, rfl⟩ := List.mem_map.1 ((hk k).1 (List.mem_map.2 ⟨(k, v), hv, rfl⟩))
    exact ih k' v u hv hu (h' k' u w hu hw)
  | darr sh ds ds' hl _ ih =>
    cases h2 with | darr _ _ ds'' hl' h' =>
    refine .darr _ _ _ (hl.trans hl') fun i d w hd hw => ?_
    have hi : i < ds'.length := lt_of_lt_of_le (List.getElem?_eq_some_iff.1 hd).1 hl.le
    exact ih i d ds'[i] hd (List.getElem?_eq_getElem hi) (h' i _ w (List.getElem?_eq_getElem hi) hw)

theorem passes_weaken {a a' : XF K} {r r' : Option (XF K)} (hm : ∀ x y, EntryClose a r x y → EntryClose a' r' x y) {x y : PyVal K}
    (h : Passes a r lk x y) : Passes a' r' lk x y := by
  induction h with
  | scal t x y n1 n2 hc => exact .scal _ _ _ n1 n2 (hm _ _ hc)
  | str s => exact .str s
  | none => exact .none
  | arr a b n hk hs hc => exact .arr _ _ n hk hs (hc.imp hm)
  | list l l' hk hl _ ih => exact .list _ _ hk hl ih
  | oarr l l' hl _ ih => exact .oarr _ _ hl ih
  | emptyArr sh ds => exact .emptyArr _ _
  | dict d d' hk _ ih => exact .dict _ _ hk ih
  | darr sh ds ds' hl _ ih => exact .darr _ _ _ hl ih

end Ellipy
