import Verif.Spec.EllScalars

/-! Property theorems C80: the type checks of the methods. -/

namespace Ellipy.Ell
open Matrix Ellipy.LA

theorem instOf_raises {α : Type} (tag : String) (x : Item α) : Raises (instOf tag x) ↔ x = .other := by
  cases x with
  | inst x =>
    refine iff_of_false ?_ (fun h => by cases h)
    rintro ⟨e, he⟩; cases he
  | other => exact iff_of_true ⟨_, rfl⟩ rfl

theorem pyMap_instOf {α : Type} (tag : String) (l : List (Item α)) (xs : List α) :
    pyMap (instOf tag) l = .ok xs ↔ l = xs.map .inst := by
  rw [pyMap_ok_iff]
  constructor
  · intro h
    induction h with
    | nil => rfl
    | @cons a b l1 l2 hab _ ih =>
      cases a with
      | inst y =>
        injection hab with hab
        subst hab
        rw [List.map_cons, ih]
      | other => cases hab
  · rintro rfl
    induction xs with
    | nil => exact .nil
    | cons x xs ih => exact .cons rfl ih

theorem pyMap_error_tag {α β : Type} {f : α → Py β} {x : Exc} (hf : ∀ a e, f a = .error e → e = x) (l : List α) (e : Exc)
    (h : pyMap f l = .error e) : e = x := by
  induction l with
  | nil => cases h
  | cons a l ih =>
    unfold pyMap at h
    cases ha : f a with
    | error e' =>
      rw [ha] at h
      injection h with h
      subst h
      exact hf a _ ha
    | ok y =>
      rw [ha] at h
      simp only at h
      cases hl : pyMap f l with
      | error e' =>
        rw [hl] at h
        injection h with h
        subst h
        exact ih hl
      | ok ys => rw [hl] at h; cases h

theorem instOf_tag {α : Type} (tag : String) (a : Item α) (e : Exc) (h : instOf tag a = .error e) : e = .valueError tag := by
  cases a with
  | inst x => cases h
  | other => injection h with h; exact h.symm

/-- **C80**: `_check_is_me_internal` lets an argument through exactly if it consists of instances of the class; the methods then work on
the array of these objects. -/
theorem C80_ok_iff {α : Type} (tag var : String) (arg : ObjArg α) (a : Arr α) : checkIsMe tag var arg = .ok a ↔ arg.Is a := by
  cases arg with
  | single x =>
    cases x with
    | inst x =>
      constructor
      · intro h
        injection h with h
        exact Or.inl ⟨x, rfl, h.symm⟩
      · rintro (⟨y, hy, rfl⟩ | ⟨b, hb, _⟩)
        · injection hy with hy
          injection hy with hy
          subst hy
          rfl
        · cases hb
    | other =>
      constructor
      · intro h; cases h
      · rintro (⟨y, hy, _⟩ | ⟨b, hb, _⟩)
        · injection hy with hy
          cases hy
        · cases hb
  | many b =>
    constructor
    · intro h
      simp only [checkIsMe] at h
      cases hm : pyMap (instOf (tagOf tag var)) b.data with
      | error e => rw [hm] at h; cases h
      | ok xs =>
        rw [hm] at h
        simp only [reshape] at h
        by_cases hl : xs.length = b.shape.foldr (· * ·) 1
        · rw [dif_pos hl] at h
          injection h with h
          subst h
          exact Or.inr ⟨b, rfl, rfl, (pyMap_instOf _ _ _).mp hm⟩
        · rw [dif_neg hl] at h; cases h
    · rintro (⟨y, hy, _⟩ | ⟨b', hb, hs, hd⟩)
      · cases hy
      · injection hb with hb
        subst hb
        simp only [checkIsMe, (pyMap_instOf (tagOf tag var) b.data a.data).mpr hd, reshape]
        have hl : a.data.length = b.shape.foldr (· * ·) 1 := by rw [hs, a.len]
        rw [dif_pos hl]
        obtain ⟨sh, d, len⟩ := a
        simp only at hs
        subst hs
        rfl

/-- **C80**: everything else is rejected with the given tag, followed by the name of the variable if there is one. -/
theorem C80_raises_iff {α : Type} (tag var : String) (arg : ObjArg α) (e : Exc) : checkIsMe tag var arg = .error e ↔
    arg.Foreign ∧ e = .valueError (if var = "" then tag else tag ++ ":" ++ var) := by
  cases arg with
  | single x =>
    cases x with
    | inst x =>
      refine iff_of_false (fun h => by cases h) ?_
      rintro ⟨h | ⟨b, hb, _⟩, _⟩
      · injection h with h; cases h
      · cases hb
    | other =>
      constructor
      · intro h
        injection h with h
        exact ⟨Or.inl rfl, h.symm⟩
      · rintro ⟨_, rfl⟩
        rfl
  | many b =>
    constructor
    · intro h
      simp only [checkIsMe] at h
      cases hm : pyMap (instOf (tagOf tag var)) b.data with
      | error e' =>
        rw [hm] at h
        injection h with h
        subst h
        obtain ⟨x, hx, hr⟩ := (pyMap_raises _ _).mp ⟨e', hm⟩
        rw [instOf_raises] at hr
        subst hr
        exact ⟨Or.inr ⟨b, rfl, hx⟩, pyMap_error_tag (instOf_tag _) _ _ hm⟩
      | ok xs =>
        rw [hm] at h
        have hl : xs.length = b.shape.foldr (· * ·) 1 := by
          rw [← b.len, (pyMap_instOf _ _ _).mp hm, List.length_map]
        simp only [reshape] at h
        rw [dif_pos hl] at h
        cases h
    · rintro ⟨h | ⟨b', hb, hm⟩, rfl⟩
      · cases h
      · injection hb with hb
        subst hb
        obtain ⟨e, he⟩ := (pyMap_raises (instOf (tagOf tag var)) b.data).mpr ⟨_, hm, (instOf_raises _ _).mpr rfl⟩
        have := pyMap_error_tag (instOf_tag _) _ _ he
        subst this
        simp only [checkIsMe, he]
        rfl

/-- **C80**: an argument is either accepted or rejected, never both; an iterable without elements is accepted. -/
theorem C80_total {α : Type} (arg : ObjArg α) : (arg.Foreign ∧ ¬ ∃ a, arg.Is a) ∨ (¬ arg.Foreign ∧ ∃ a, arg.Is a) := by
  cases h : checkIsMe "" "" arg with
  | error e =>
    refine Or.inl ⟨((C80_raises_iff _ _ _ _).mp h).1, ?_⟩
    rintro ⟨a, ha⟩
    rw [(C80_ok_iff _ _ _ _).mpr ha] at h
    cases h
  | ok a =>
    refine Or.inr ⟨fun hf => ?_, a, (C80_ok_iff _ _ _ _).mp h⟩
    rw [(C80_raises_iff "" "" arg _).mpr ⟨hf, rfl⟩] at h
    cases h

/-- **C80**: `_check_if_scalar` accepts exactly one instance, alone or in an array of any shape. -/
theorem C80_scalar {α : Type} (arg : ObjArg α) :
    (checkIfScalar arg = .ok () ↔ ∃ a, arg.Is a ∧ a.data.length = 1) ∧
    (Raises (checkIfScalar arg) → checkIfScalar arg = .error (.valueError "wrongInput:ell_arr")) := by
  cases arg with
  | single x =>
    cases x with
    | inst x =>
      refine ⟨iff_of_true rfl ⟨Arr.scalar x, Or.inl ⟨x, rfl, rfl⟩, rfl⟩, ?_⟩
      rintro ⟨e, he⟩; cases he
    | other =>
      refine ⟨iff_of_false (fun h => by cases h) ?_, fun _ => rfl⟩
      rintro ⟨a, ⟨y, hy, _⟩ | ⟨b, hb, _⟩, _⟩
      · injection hy with hy; cases hy
      · cases hb
  | many b =>
    obtain ⟨sh, d, len⟩ := b
    match d, len with
    | [], len =>
      refine ⟨iff_of_false (fun h => by cases h) ?_, fun _ => rfl⟩
      rintro ⟨a, ⟨y, hy, _⟩ | ⟨b, hb, _, hd⟩, hl⟩
      · cases hy
      · injection hb with hb
        subst hb
        rw [← List.length_map (f := Item.inst), ← hd] at hl
        cases hl
    | [.inst x], len =>
      refine ⟨iff_of_true rfl ⟨⟨sh, [x], len⟩, Or.inr ⟨_, rfl, rfl, rfl⟩, rfl⟩, ?_⟩
      rintro ⟨e, he⟩; cases he
    | [.other], len =>
      refine ⟨iff_of_false (fun h => by cases h) ?_, fun _ => rfl⟩
      rintro ⟨a, ⟨y, hy, _⟩ | ⟨b, hb, _, hd⟩, hl⟩
      · cases hy
      · injection hb with hb
        subst hb
        match hda : a.data, hd, hl with
        | [z], hd, _ =>
          simp at hd
    | x :: y :: r, len =>
      have hE : checkIfScalar (.many ⟨sh, x :: y :: r, len⟩ : ObjArg α) = .error (.valueError "wrongInput:ell_arr") := by
        cases x <;> rfl
      rw [hE]
      refine ⟨iff_of_false (fun h => by cases h) ?_, fun _ => rfl⟩
      rintro ⟨a, ⟨y, hy, _⟩ | ⟨b, hb, _, hd⟩, hl⟩
      · cases hy
      · injection hb with hb
        subst hb
        rw [← List.length_map (f := Item.inst), ← hd] at hl
        simp at hl

/-- A single object, an array of two, an empty list, and a list with something else in it. -/
example : checkIsMe "wrongInput" "ell_arr" (.single (.inst 5) : ObjArg ℕ) = .ok (Arr.scalar 5) ∧
    checkIsMe "wrongInput" "" (.many ⟨[2, 1], [.inst 5, .inst 7], rfl⟩ : ObjArg ℕ) = .ok ⟨[2, 1], [5, 7], rfl⟩ ∧
    checkIsMe "wrongInput" "" (.many ⟨[0], [], rfl⟩ : ObjArg ℕ) = .ok ⟨[0], [], rfl⟩ ∧
    checkIsMe "wrongInput" "x" (.many ⟨[2], [.inst 5, .other], rfl⟩ : ObjArg ℕ) = .error (.valueError "wrongInput:x") :=
  ⟨(C80_ok_iff _ _ _ _).mpr (Or.inl ⟨5, rfl, rfl⟩), (C80_ok_iff _ _ _ _).mpr (Or.inr ⟨_, rfl, rfl, rfl⟩),
    (C80_ok_iff _ _ _ _).mpr (Or.inr ⟨_, rfl, rfl, rfl⟩), (C80_raises_iff _ _ _ _).mpr ⟨Or.inr ⟨_, rfl, by simp⟩, rfl⟩⟩

end Ellipy.Ell
