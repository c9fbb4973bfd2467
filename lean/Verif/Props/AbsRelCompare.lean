import Mathlib.Data.List.Forall2
import Mathlib.Tactic.Push
import Verif.Proofs.AbsRelCompare

/-! Property theorems C06, C07 (`abs_rel_compare` with the magnitude norm `np.abs`). -/

set_option linter.unusedSectionVars false

namespace Ellipy
variable {K : Type _} [Field K] [LinearOrder K] [IsStrictOrderedRing K]

/-- Arguments accepted by `abs_rel_compare`: equal shapes, numeric and not both boolean, usable
tolerances. -/
def GoodArgs (l r : NArr K) (absTol : XF K) (relTol : Option (XF K)) : Prop :=
  l.shape = r.shape ∧ l.kind ≠ .other ∧ r.kind ≠ .other ∧ ¬ (l.kind = .b ∧ r.kind = .b) ∧
    ValidTol absTol ∧ ∀ t, relTol = some t → ValidTol t

private theorem isNumeric_iff (k : Kind) : k.isNumeric = true ↔ k ≠ .other := by cases k <;> simp [Kind.isNumeric]

private theorem relTol_all_iff (relTol : Option (XF K)) :
    relTol.all tolOk = true ↔ ∀ t, relTol = some t → ValidTol t := by
  cases relTol <;> simp [tolOk_iff]

private theorem values_zip (l r : List (XF K)) :
    (List.zipWith (fun (m : Bool) (x : XF K) => if m then 0 else x.toK) (l.map (fun x => !x.isFinite)) l).zip
    (List.zipWith (fun (m : Bool) (x : XF K) => if m then 0 else x.toK) (l.map (fun x => !x.isFinite)) r) =
    (l.zip r).map (fun p => if p.1.isFinite then (p.1.toK, p.2.toK) else (0, 0)) := by
  induction l generalizing r with
  | nil => simp
  | cons a l ih =>
    cases r with
    | nil => simp
    | cons b r => cases ha : a.isFinite <;> simp [ih, ha]

theorem close_of_specials {absTol : XF K} {relTol : Option (XF K)} (ha : tolOk absTol = true) (x y : XF K)
    (h : x.isNan = y.isNan ∧ x.isFinite = y.isFinite ∧ x.isPInf = y.isPInf ∧ x.isNInf = y.isNInf) :
    EntryClose absTol relTol x y ↔
      (let p := if x.isFinite then (x.toK, y.toK) else (0, 0)
      leTol (|p.1 - p.2|) absTol = true ∨
      ∃ rt, relTol = some rt ∧ gtTol (|p.1| + |p.2|) absTol = true ∧
        leTol (2 * |p.1 - p.2| / (|p.1| + |p.2|)) rt = true) := by
  have h0 := leTol_zero ha
  cases x <;> cases y <;> simp_all [XF.isNan, XF.isFinite, XF.isPInf, XF.isNInf, EntryClose, XF.toK]
  simp only [← leTol_iff, ← gtTol_iff]
  refine or_congr Iff.rfl (exists_congr fun rt => and_congr Iff.rfl (and_congr Iff.rfl ?_))
  rw [div_div_eq_mul_div, mul_comm]

theorem specials_of_close {absTol : XF K} {relTol : Option (XF K)} {x y : XF K}
    (h : EntryClose absTol relTol x y) :
    x.isNan = y.isNan ∧ x.isFinite = y.isFinite ∧ x.isPInf = y.isPInf ∧ x.isNInf = y.isNInf := by
  cases x <;> cases y <;> simp_all [XF.isNan, XF.isFinite, XF.isPInf, XF.isNInf, EntryClose]

/-- **C06.** On accepted arguments `abs_rel_compare` returns, and says *equal* exactly when every pair
of corresponding entries is close in the sense of `EntryClose`. -/
theorem C06_verdict (l r : NArr K) (absTol : XF K) (relTol : Option (XF K)) (h : GoodArgs l r absTol relTol) :
    ∃ res, absRelCompare l r absTol relTol (fun x => |x|) = .ok res ∧
      (res.isEqual = true ↔ List.Forall₂ (EntryClose absTol relTol) l.data r.data) := by
  obtain ⟨h1, h2, h3, h4, h5, h6⟩ := h
  rw [← tolOk_iff] at h5
  rw [← relTol_all_iff] at h6
  have hlen : l.data.length = r.data.length := by rw [l.len, r.len, h1]
  unfold absRelCompare
  rw [if_neg (by simp [h1, isNumeric_iff, h2, h3]), if_neg (by simp [h5]), if_neg (by simp [h6])]
  have hsp := specialsReport_iff l.data r.data hlen
  rw [List.forall₂_iff_zip]
  generalize specialsReport l.data r.data = sp at hsp
  obtain ⟨b, rep⟩ := sp
  cases b with
  | false =>
    refine ⟨_, rfl, ?_⟩
    simp only [Bool.false_eq_true, false_iff] at hsp ⊢
    rintro ⟨-, hc⟩
    exact hsp fun p hp => specials_of_close (hc hp)
  | true =>
    simp only [if_neg h4]
    refine ⟨_, rfl, ?_⟩
    rw [compareValues_isEqual _ _ _ h5 h6, values_zip]
    simp only [List.forall_mem_map]
    simp only [true_iff] at hsp
    constructor
    · intro hh
      refine ⟨hlen, fun {a b} hp => ?_⟩
      rw [close_of_specials h5 a b (hsp (a, b) hp)]
      exact hh (a, b) hp
    · rintro ⟨-, hh⟩ p hp
      have := (close_of_specials (relTol := relTol) h5 p.1 p.2 (hsp p hp)).1 (hh hp)
      exact this

/-- **C06** (returned numbers). When the verdict is *equal* and the arrays are not empty, the reported
absolute difference is the largest `|x - y|` over finite pairs of entries (0 if there are none). -/
theorem C06_abs_diff (l r : NArr K) (absTol : XF K) (relTol : Option (XF K)) (h : GoodArgs l r absTol relTol)
    (hne : l.data ≠ []) (res : ARResult K)
    (hres : absRelCompare l r absTol relTol (fun x => |x|) = .ok res) (heq : res.isEqual = true) :
    ∃ m, res.absDiff = some (.fin m) ∧
      (∀ x y, (XF.fin x, XF.fin y) ∈ l.data.zip r.data → |x - y| ≤ m) ∧
      (m = 0 ∨ ∃ x y, (XF.fin x, XF.fin y) ∈ l.data.zip r.data ∧ |x - y| = m) := by
  obtain ⟨h1, h2, h3, h4, h5, h6⟩ := h
  rw [← tolOk_iff] at h5
  rw [← relTol_all_iff] at h6
  have hlen : l.data.length = r.data.length := by rw [l.len, r.len, h1]
  unfold absRelCompare at hres
  rw [if_neg (by simp [h1, isNumeric_iff, h2, h3]), if_neg (by simp [h5]), if_neg (by simp [h6])] at hres
  have hsp := specialsReport_iff l.data r.data hlen
  generalize specialsReport l.data r.data = sp at hsp hres
  obtain ⟨b, rep⟩ := sp
  cases b with
  | false => simp only [Except.ok.injEq] at hres; subst hres; simp at heq
  | true =>
    simp only [if_neg h4, Except.ok.injEq] at hres
    simp only [true_iff] at hsp
    have hz := values_zip l.data r.data
    generalize hlv : List.zipWith (fun (m : Bool) (x : XF K) => if m then 0 else x.toK)
      (l.data.map (fun x => !x.isFinite)) l.data = lv at hz hres
    generalize hrv : List.zipWith (fun (m : Bool) (x : XF K) => if m then 0 else x.toK)
      (l.data.map (fun x => !x.isFinite)) r.data = rv at hz hres
    have hdiff : (List.zipWith (fun x1 x2 => x1 - x2) lv rv).map (fun x => |x|)
        = (lv.zip rv).map (fun p => |p.1 - p.2|) := by
      rw [← List.map_uncurry_zip_eq_zipWith, List.map_map]; rfl
    have hzne : l.data.zip r.data ≠ [] := by
      cases hl : l.data with
      | nil => exact absurd hl hne
      | cons a t =>
        cases hr : r.data with
        | nil => rw [hl, hr] at hlen; simp at hlen
        | cons b t' => simp
    have hdne : (lv.zip rv).map (fun p => |p.1 - p.2|) ≠ [] := by rw [hz]; simpa using hzne
    have habs : res.absDiff = some (.fin (npAmax ((lv.zip rv).map (fun p => |p.1 - p.2|)))) := by
      rw [← hres]
      unfold compareValues
      simp only [hdiff]
      rw [if_neg (by simpa using hdne)]
      cases relTol with
      | none => rfl
      | some rt =>
        dsimp only
        by_cases c1 : (((lv.zip rv).map (fun p => |p.1 - p.2|)).map (fun x => gtTol x absTol)).any id = true
        · rw [if_pos c1]
          by_cases c2 : (List.zipWith (fun x1 x2 => x1 && x2)
            (((lv.zip rv).map (fun p => |p.1 - p.2|)).map (fun x => gtTol x absTol))
            ((List.zipWith (fun x1 x2 => x1 + x2) (lv.map (fun x => |x|)) (rv.map (fun x => |x|))).map
              (fun x => gtTol x absTol))).any id = true
          · rw [if_pos c2]
          · rw [if_neg c2]
        · rw [if_neg c1]
    refine ⟨_, habs, ?_, ?_⟩
    · intro x y hxy
      refine le_npAmax ?_
      rw [hz, List.map_map]
      exact List.mem_map.2 ⟨_, hxy, by simp [XF.isFinite, XF.toK]⟩
    · have hm := npAmax_mem hdne
      generalize npAmax ((lv.zip rv).map (fun p => |p.1 - p.2|)) = m at hm
      rw [hz, List.map_map] at hm
      obtain ⟨⟨x, y⟩, hp, he⟩ := List.mem_map.1 hm
      have hs := hsp _ hp
      cases x <;> cases y <;> simp_all [XF.isNan, XF.isFinite, XF.isPInf, XF.isNInf, XF.toK]
      exact Or.inr ⟨_, _, hp, he⟩

/-- **C07** (errors). A call raises exactly when the shapes differ, an array is not numeric, a
tolerance is negative or NaN — or both arrays are boolean (numpy does not subtract those). -/
theorem C07_raises_iff (l r : NArr K) (absTol : XF K) (relTol : Option (XF K)) (nrm : K → K)
    (hb : l.kind = .b → ∀ x ∈ l.data, x = .fin 0 ∨ x = .fin 1)
    (hb' : r.kind = .b → ∀ x ∈ r.data, x = .fin 0 ∨ x = .fin 1) :
    Raises (absRelCompare l r absTol relTol nrm) ↔ ¬ GoodArgs l r absTol relTol := by
  unfold absRelCompare GoodArgs
  rw [← tolOk_iff, ← relTol_all_iff]
  by_cases h1 : l.shape = r.shape ∧ l.kind.isNumeric ∧ r.kind.isNumeric
  swap
  · rw [if_pos h1]
    refine ⟨fun _ hg => h1 ⟨hg.1, (isNumeric_iff _).2 hg.2.1, (isNumeric_iff _).2 hg.2.2.1⟩,
      fun _ => ⟨_, rfl⟩⟩
  rw [if_neg (not_not.2 h1)]
  by_cases h5 : tolOk absTol = true
  swap
  · rw [if_pos h5]; exact ⟨fun _ hg => h5 hg.2.2.2.2.1, fun _ => ⟨_, rfl⟩⟩
  rw [if_neg (not_not.2 h5)]
  by_cases h6 : relTol.all tolOk = true
  swap
  · rw [if_pos h6]; exact ⟨fun _ hg => h6 hg.2.2.2.2.2, fun _ => ⟨_, rfl⟩⟩
  rw [if_neg (not_not.2 h6)]
  have hlen : l.data.length = r.data.length := by rw [l.len, r.len, h1.1]
  have hsp := specialsReport_iff l.data r.data hlen
  generalize specialsReport l.data r.data = sp at hsp
  obtain ⟨b, rep⟩ := sp
  have hgood : (l.shape = r.shape ∧ l.kind ≠ .other ∧ r.kind ≠ .other ∧ ¬ (l.kind = .b ∧ r.kind = .b) ∧
      tolOk absTol = true ∧ relTol.all tolOk = true) ↔ ¬ (l.kind = .b ∧ r.kind = .b) :=
    ⟨fun h => h.2.2.2.1, fun h => ⟨h1.1, (isNumeric_iff _).1 h1.2.1, (isNumeric_iff _).1 h1.2.2, h, h5, h6⟩⟩
  rw [hgood, not_not]
  cases b with
  | false =>
    simp only [Bool.false_eq_true, false_iff] at hsp
    refine ⟨fun ⟨e, he⟩ => by simp at he, fun ⟨hl, hr⟩ => ?_⟩
    exfalso
    refine hsp fun p hp => ?_
    have a1 := hb hl p.1 (List.of_mem_zip (a := p.1) (b := p.2) hp).1
    have a2 := hb' hr p.2 (List.of_mem_zip (a := p.1) (b := p.2) hp).2
    rcases a1 with a1 | a1 <;> rcases a2 with a2 | a2 <;> rw [a1, a2] <;> simp [XF.isNan, XF.isFinite, XF.isPInf, XF.isNInf]
  | true =>
    by_cases h4 : l.kind = .b ∧ r.kind = .b
    · simp only [if_pos h4]; exact ⟨fun _ => h4, fun _ => ⟨_, rfl⟩⟩
    · simp only [if_neg h4]; exact ⟨fun ⟨e, he⟩ => by simp at he, fun hh => absurd hh h4⟩

/-- **C07** (report). For every norm function, the report is empty exactly when the verdict is *equal*. -/
theorem C07_report (l r : NArr K) (absTol : XF K) (relTol : Option (XF K)) (nrm : K → K) (res : ARResult K)
    (h : absRelCompare l r absTol relTol nrm = .ok res) : res.report = .empty ↔ res.isEqual = true := by
  unfold absRelCompare at h
  by_cases h1 : l.shape = r.shape ∧ l.kind.isNumeric ∧ r.kind.isNumeric
  swap
  · rw [if_pos h1] at h; cases h
  rw [if_neg (not_not.2 h1)] at h
  by_cases h5 : tolOk absTol = true
  swap
  · rw [if_pos h5] at h; cases h
  rw [if_neg (not_not.2 h5)] at h
  by_cases h6 : relTol.all tolOk = true
  swap
  · rw [if_pos h6] at h; cases h
  rw [if_neg (not_not.2 h6)] at h
  have hsp := specialsReport_report l.data r.data
  generalize specialsReport l.data r.data = sp at hsp h
  obtain ⟨b, rep⟩ := sp
  cases b with
  | false =>
    simp only [Except.ok.injEq] at h
    subst h; simpa using hsp
  | true =>
    dsimp only at h
    by_cases h4 : l.kind = .b ∧ r.kind = .b
    · rw [if_pos h4] at h; cases h
    rw [if_neg h4] at h
    simp only [Except.ok.injEq] at h
    subst h
    exact compareValues_report _ _ _ _ _

theorem EntryClose.refl {absTol : XF K} (h : ValidTol absTol) (relTol : Option (XF K)) (x : XF K) :
    EntryClose absTol relTol x x := by
  cases x with
  | fin x => left; rw [sub_self, abs_zero]; cases absTol <;> simp_all [ValidTol, Within]
  | _ => trivial

theorem EntryClose.symm {absTol : XF K} {relTol : Option (XF K)} {x y : XF K}
    (h : EntryClose absTol relTol x y) : EntryClose absTol relTol y x := by
  cases x <;> cases y <;> simp_all [EntryClose]
  rw [abs_sub_comm, add_comm |_| |_|]; exact h

theorem Within.mono {s t : XF K} (h : TolLE s t) {x : K} (hx : Within x s) : Within x t := by
  cases s <;> cases t <;> simp_all [TolLE, Within]
  exact hx.trans h

theorem EntryClose.mono {a a' : XF K} {rel rel' : Option (XF K)} (ha : ValidTol a) (h : TolLE a a') (hr : RelTolLE rel rel')
    {x y : XF K} (hc : EntryClose a rel x y) : EntryClose a' rel' x y := by
  cases x <;> cases y <;> simp only [EntryClose] at hc ⊢
  rename_i x y
  by_cases hw : Within |x - y| a'
  · exact Or.inl hw
  right
  rcases hc with hc | ⟨rt, rfl, hs, hd⟩
  · exact absurd (hc.mono h) hw
  · cases rel' with
    | none => exact absurd hr id
    | some rt' =>
      refine ⟨rt', rfl, ?_, hd.mono hr⟩
      have htri : |x - y| ≤ |x| + |y| := abs_sub x y
      cases a <;> cases a' <;> simp_all [TolLE, Within, Exceeds, ValidTol]
      exact lt_of_lt_of_le hw htri

/-- **C07** (reflexive). Comparing an array with itself always gives *equal*. -/
theorem C07_refl (l : NArr K) (absTol : XF K) (relTol : Option (XF K)) (h : GoodArgs l l absTol relTol) :
    ∃ res, absRelCompare l l absTol relTol (fun x => |x|) = .ok res ∧ res.isEqual = true := by
  obtain ⟨res, h1, h2⟩ := C06_verdict l l absTol relTol h
  exact ⟨res, h1, h2.2 (List.forall₂_same.2 fun x _ => EntryClose.refl h.2.2.2.2.1 _ _)⟩

/-- **C07** (symmetric). Swapping the arguments does not change the verdict. -/
theorem C07_symm (l r : NArr K) (absTol : XF K) (relTol : Option (XF K)) (h : GoodArgs l r absTol relTol) :
    ∃ res res', absRelCompare l r absTol relTol (fun x => |x|) = .ok res ∧
      absRelCompare r l absTol relTol (fun x => |x|) = .ok res' ∧ res.isEqual = res'.isEqual := by
  obtain ⟨res, h1, h2⟩ := C06_verdict l r absTol relTol h
  have h' : GoodArgs r l absTol relTol :=
    ⟨h.1.symm, h.2.2.1, h.2.1, fun hh => h.2.2.2.1 ⟨hh.2, hh.1⟩, h.2.2.2.2.1, h.2.2.2.2.2⟩
  obtain ⟨res', h1', h2'⟩ := C06_verdict r l absTol relTol h'
  refine ⟨res, res', h1, h1', ?_⟩
  rw [Bool.eq_iff_iff, h2, h2']
  constructor <;> intro hh
  · exact (List.Forall₂.flip hh).imp fun _ _ hc => EntryClose.symm hc
  · exact (List.Forall₂.flip hh).imp fun _ _ hc => EntryClose.symm hc

/-- **C07** (monotone). Enlarging the tolerances (adding a relative one included) keeps *equal*. -/
theorem C07_mono (l r : NArr K) (a a' : XF K) (rel rel' : Option (XF K)) (h : GoodArgs l r a rel)
    (h' : GoodArgs l r a' rel') (ha : TolLE a a') (hr : RelTolLE rel rel')
    (heq : ∃ res, absRelCompare l r a rel (fun x => |x|) = .ok res ∧ res.isEqual = true) :
    ∃ res, absRelCompare l r a' rel' (fun x => |x|) = .ok res ∧ res.isEqual = true := by
  obtain ⟨res, h1, h2⟩ := C06_verdict l r a rel h
  obtain ⟨res', h1', h2'⟩ := C06_verdict l r a' rel' h'
  obtain ⟨r0, e0, e1⟩ := heq
  rw [h1, Except.ok.injEq] at e0
  subst e0
  exact ⟨res', h1', h2'.2 ((h2.1 e1).imp fun _ _ hc => hc.mono h.2.2.2.2.1 ha hr)⟩

/-- Non-vacuity: a 2×2 array with NaN, an infinity and values that are close only relatively. -/
private def exL : NArr ℚ := ⟨.f, [2, 2], [.nan, .pinf, .fin 100, .fin 0], rfl⟩
private def exR : NArr ℚ := ⟨.f, [2, 2], [.nan, .pinf, .fin 101, .fin (1/1000)], rfl⟩

example : GoodArgs exL exR (.fin (1/100)) (some (.fin (1/50))) :=
  ⟨rfl, by decide, by decide, by decide, by norm_num [ValidTol], by
    intro t ht; cases ht; norm_num [ValidTol]⟩
example : List.Forall₂ (EntryClose (.fin (1/100)) (some (.fin (1/50)))) exL.data exR.data := by
  refine .cons trivial (.cons trivial (.cons (Or.inr ⟨_, rfl, ?_, ?_⟩) (.cons (Or.inl ?_) .nil))) <;>
    norm_num [Exceeds, Within, abs_of_pos, abs_of_neg]
example : ¬ List.Forall₂ (EntryClose (.fin (1/100)) none) exL.data exR.data := by
  intro h
  cases h with | cons h1 h => cases h with | cons h2 h => cases h with | cons h3 h =>
  rcases h3 with h3 | ⟨_, h3, -⟩
  · norm_num [Within, abs_of_neg] at h3
  · cases h3

end Ellipy
