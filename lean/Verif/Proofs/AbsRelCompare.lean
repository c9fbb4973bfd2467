import Mathlib.Algebra.Order.AbsoluteValue.Basic
import Mathlib.Algebra.Order.Field.Basic
import Mathlib.Data.List.Zip
import Mathlib.Tactic.FieldSimp
import Mathlib.Tactic.Linarith
import Verif.Spec.AbsRelCompare

set_option linter.unusedSectionVars false

namespace Ellipy
variable {K : Type _} [Field K] [LinearOrder K]

theorem le_foldl_max (l : List K) (x : K) : x ≤ l.foldl max x := by
  induction l generalizing x with
  | nil => simp
  | cons a t ih => exact le_trans (le_max_left x a) (ih _)

theorem foldl_max_le (l : List K) (x t : K) : l.foldl max x ≤ t ↔ x ≤ t ∧ ∀ y ∈ l, y ≤ t := by
  induction l generalizing x with
  | nil => simp
  | cons a l ih => simp [ih, and_assoc]

theorem foldl_max_mem (l : List K) (x : K) : l.foldl max x = x ∨ l.foldl max x ∈ l := by
  induction l generalizing x with
  | nil => simp
  | cons a l ih =>
    simp only [List.foldl_cons, List.mem_cons]
    rcases ih (max x a) with h | h
    · rcases max_choice x a with h' | h' <;> rw [h, h'] <;> simp
    · exact Or.inr (Or.inr h)

theorem npAmax_le {l : List K} (hl : l ≠ []) (t : K) : npAmax l ≤ t ↔ ∀ y ∈ l, y ≤ t := by
  cases l with
  | nil => exact absurd rfl hl
  | cons a l => simp [npAmax, foldl_max_le]

theorem npAmax_mem {l : List K} (hl : l ≠ []) : npAmax l ∈ l := by
  cases l with
  | nil => exact absurd rfl hl
  | cons a l =>
    rcases foldl_max_mem l a with h | h
    · rw [npAmax, h]; simp
    · exact List.mem_cons_of_mem _ h

theorem le_npAmax {l : List K} {y : K} (hy : y ∈ l) : y ≤ npAmax l :=
  (npAmax_le (List.ne_nil_of_mem hy) _).1 le_rfl y hy

theorem leTol_npAmax {l : List K} (hl : l ≠ []) (t : XF K) : leTol (npAmax l) t = true ↔ ∀ y ∈ l, leTol y t = true := by
  cases t with
  | fin t => simp [leTol, npAmax_le hl]
  | pinf => simp [leTol]
  | nan =>
    simp [leTol]
    exact List.exists_mem_of_ne_nil l hl
  | ninf =>
    simp [leTol]
    exact List.exists_mem_of_ne_nil l hl

theorem gtTol_iff_not {t : XF K} (ht : tolOk t = true) (x : K) : gtTol x t = true ↔ ¬ leTol x t = true := by
  cases t <;> simp_all [gtTol, leTol, tolOk]

theorem leTol_zero {t : XF K} (ht : tolOk t = true) : leTol 0 t = true := by
  cases t <;> simp_all [leTol, tolOk]

theorem leTol_iff (x : K) (t : XF K) : leTol x t = true ↔ Within x t := by
  cases t <;> simp [leTol, Within]

theorem gtTol_iff (x : K) (t : XF K) : gtTol x t = true ↔ Exceeds x t := by
  cases t <;> simp [gtTol, Exceeds]

theorem tolOk_iff (t : XF K) : tolOk t = true ↔ ValidTol t := by
  cases t <;> simp [tolOk, ValidTol]

/-- The verdict on finite values, for any elementwise norm. -/
theorem compareValues_isEqual (lv rv : List K) {absTol : XF K} {relTol : Option (XF K)} (nrm : K → K)
    (ha : tolOk absTol = true) (hr : relTol.all tolOk = true) :
    (compareValues lv rv absTol relTol nrm).isEqual = true ↔
    ∀ p ∈ lv.zip rv, leTol (nrm (p.1 - p.2)) absTol = true ∨
      ∃ rt, relTol = some rt ∧ gtTol (nrm p.1 + nrm p.2) absTol = true ∧
        leTol (2 * nrm (p.1 - p.2) / (nrm p.1 + nrm p.2)) rt = true := by
  have hdiff : (List.zipWith (· - ·) lv rv).map nrm = (lv.zip rv).map (fun p => nrm (p.1 - p.2)) := by
    rw [← List.map_uncurry_zip_eq_zipWith, List.map_map]; rfl
  have hsum : List.zipWith (· + ·) (lv.map nrm) (rv.map nrm) = (lv.zip rv).map (fun p => nrm p.1 + nrm p.2) := by
    rw [← List.map_uncurry_zip_eq_zipWith, List.zip_map, List.map_map]; rfl
  generalize hP : lv.zip rv = P at hdiff hsum
  unfold compareValues
  simp only [hdiff, hsum]
  by_cases hnil : P = []
  · subst hnil; simp
  have hne : ∀ g : K × K → K, P.map g ≠ [] := by simpa using hnil
  have hie : (P.map (fun p => nrm (p.1 - p.2))).isEmpty = false := by simpa using hnil
  rw [if_neg (by simp [hie])]
  cases relTol with
  | none => simp only [leTol_npAmax (hne _), List.forall_mem_map]; simp
  | some rt =>
    have hrt : tolOk rt = true := by simpa using hr
    simp only [List.map_map, List.zip_map', List.zipWith_map, List.zipWith_self, List.any_map]
    by_cases h1 : P.any (id ∘ (fun x => gtTol x absTol) ∘ fun p => nrm (p.1 - p.2)) = true
    rw [if_pos h1]
    by_cases h2 : (P.any (id ∘ fun a => ((fun x => gtTol x absTol) ∘ fun p => nrm (p.1 - p.2)) a &&
        ((fun x => gtTol x absTol) ∘ fun p => nrm p.1 + nrm p.2) a)) = true
    rw [if_pos h2]
    · -- some entry is compared relatively
      simp only [Bool.and_eq_true, leTol_npAmax (hne _)]
      simp only [List.forall_mem_map, Function.comp, id]
      constructor
      · rintro ⟨hA, hB⟩ p hp
        have hA' := hA p hp
        have hB' := hB p hp
        by_cases hc : gtTol (nrm (p.1 - p.2)) absTol = true
        · by_cases hs : gtTol (nrm p.1 + nrm p.2) absTol = true
          · right; simp only [hc, hs, Bool.and_self, if_true] at hB'; exact ⟨rt, rfl, hs, hB'⟩
          · left; simpa [hc, hs] using hA'
        · left; rw [gtTol_iff_not ha, not_not] at hc; exact hc
      · intro h
        refine ⟨fun p hp => ?_, fun p hp => ?_⟩
        · split_ifs with hc
          · exact leTol_zero ha
          · rcases h p hp with h' | ⟨_, hrt', hs, -⟩
            · exact h'
            · by_contra hcon
              exact hc (by simp [gtTol_iff_not ha, hcon, ← gtTol_iff_not ha, hs])
        · split_ifs with hc
          · rcases h p hp with h' | ⟨rt', hrt', hs, hd⟩
            · simp [gtTol_iff_not ha, h'] at hc
            · cases hrt'; exact hd
          · exact leTol_zero hrt
    · -- differences exceed the tolerance but the magnitudes do not
      rw [if_neg h2, leTol_npAmax (hne _)]
      simp only [List.forall_mem_map]
      simp only [Function.comp, List.any_eq_true, id, Bool.and_eq_true, not_exists, not_and] at h2
      refine ⟨fun h p hp => Or.inl (h p hp), fun h p hp => ?_⟩
      rcases h p hp with h' | ⟨rt', -, hs, -⟩
      · exact h'
      · by_contra hcon
        exact h2 p hp ((gtTol_iff_not ha _).2 hcon) hs
    · rw [if_neg h1, leTol_npAmax (hne _)]
      simp only [List.forall_mem_map]
      refine ⟨fun h p hp => Or.inl (h p hp), fun h p hp => ?_⟩
      by_contra hcon
      apply h1
      simp only [List.any_eq_true, Function.comp, id]
      exact ⟨p, hp, (gtTol_iff_not ha _).2 hcon⟩

/-- The report of the value comparison is empty exactly when the verdict is positive. -/
theorem compareValues_report (lv rv : List K) (absTol : XF K) (relTol : Option (XF K)) (nrm : K → K) :
    (compareValues lv rv absTol relTol nrm).report = .empty ↔
      (compareValues lv rv absTol relTol nrm).isEqual = true := by
  have key : ∀ (b : Bool) (R : Report K), R ≠ .empty → ((if b = true then Report.empty else R) = .empty ↔ b = true) := by
    intro b R hR; cases b <;> simp [hR]
  unfold compareValues
  dsimp only
  by_cases h0 : (List.map nrm (List.zipWith (fun x1 x2 => x1 - x2) lv rv)).isEmpty = true
  · rw [if_pos h0]; simp
  rw [if_neg h0]
  cases relTol with
  | none => exact key _ _ (by simp)
  | some rt =>
    dsimp only
    by_cases h1 : (List.map (fun x => gtTol x absTol) (List.map nrm (List.zipWith (fun x1 x2 => x1 - x2) lv rv))).any id = true
    · rw [if_pos h1]
      by_cases h2 : ((List.zipWith (fun x1 x2 => x1 && x2)
          (List.map (fun x => gtTol x absTol) (List.map nrm (List.zipWith (fun x1 x2 => x1 - x2) lv rv)))
          (List.map (fun x => gtTol x absTol)
            (List.zipWith (fun x1 x2 => x1 + x2) (List.map nrm lv) (List.map nrm rv)))).any id) = true
      · rw [if_pos h2]; exact key _ _ (by simp)
      · rw [if_neg h2]; exact key _ _ (by simp)
    · rw [if_neg h1]; exact key _ _ (by simp)

/-- Places of the special values coincide entry by entry. -/
theorem specialsReport_iff (l r : List (XF K)) (h : l.length = r.length) :
    (specialsReport l r).1 = true ↔ ∀ p ∈ l.zip r,
      (p.1.isNan = p.2.isNan ∧ p.1.isFinite = p.2.isFinite ∧ p.1.isPInf = p.2.isPInf ∧ p.1.isNInf = p.2.isNInf) := by
  have key : ∀ g : XF K → Bool, l.map g = r.map g ↔ ∀ p ∈ l.zip r, g p.1 = g p.2 := by
    intro g
    induction l generalizing r with
    | nil => cases r <;> simp_all
    | cons a l ih =>
      cases r with
      | nil => simp at h
      | cons b r => simp [ih r (by simpa using h)]
  unfold specialsReport
  simp only [key]
  split_ifs with h1 h2 h3
  · simp; exact fun a b hp => ⟨h1 _ hp, h2 _ hp, h3.1 _ hp, h3.2 _ hp⟩
  · simp only [Bool.false_eq_true, false_iff]
    intro hh
    exact h3 ⟨fun p hp => (hh p hp).2.2.1, fun p hp => (hh p hp).2.2.2⟩
  · simp only [Bool.false_eq_true, false_iff]
    exact fun hh => h2 fun p hp => (hh p hp).2.1
  · simp only [Bool.false_eq_true, false_iff]
    exact fun hh => h1 fun p hp => (hh p hp).1

theorem specialsReport_report (l r : List (XF K)) :
    (specialsReport l r).2 = .empty ↔ (specialsReport l r).1 = true := by
  unfold specialsReport
  split_ifs <;> simp

end Ellipy
