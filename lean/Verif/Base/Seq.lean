import Mathlib.Data.Fin.Tuple.Basic
import Verif.Base.Py

/-! Loops that evaluate a call for every index and collect the results. -/

namespace Ellipy

/-- `[f(i) for i in range(k)]`: the first exception ends the loop. -/
def pyAll {α : Type} : {k : Nat} → (Fin k → Py α) → Py (Fin k → α)
  | 0, _ => .ok Fin.elim0
  | _ + 1, f =>
    match f 0 with
    | .error e => .error e
    | .ok x =>
      match pyAll (fun i => f i.succ) with
      | .error e => .error e
      | .ok r => .ok (Fin.cons x r)

theorem pyAll_ok {α : Type} {k : Nat} (f : Fin k → Py α) (r : Fin k → α) :
    pyAll f = .ok r ↔ ∀ i, f i = .ok (r i) := by
  induction k with
  | zero =>
    constructor
    · intro _ i; exact i.elim0
    · intro _
      show Except.ok _ = _
      congr 1
      funext i; exact i.elim0
  | succ k ih =>
    unfold pyAll
    cases h0 : f 0 with
    | error e =>
      constructor
      · intro h; cases h
      · intro h
        have := h 0
        rw [h0] at this; cases this
    | ok x =>
      cases h1 : pyAll (fun i => f i.succ) with
      | error e =>
        simp only
        constructor
        · intro h; cases h
        · intro h
          have := (ih (fun i => f i.succ) (fun i => r i.succ)).mpr (fun i => h i.succ)
          rw [h1] at this; cases this
      | ok r' =>
        have h2 := (ih _ _).mp h1
        simp only
        constructor
        · intro h i
          injection h with h
          subst h
          refine Fin.cases ?_ ?_ i
          · rw [h0]; rfl
          · intro j; rw [h2 j]; rfl
        · intro h
          congr 1
          funext i
          refine Fin.cases ?_ ?_ i
          · have := h 0
            rw [h0] at this; injection this
          · intro j
            have := h j.succ
            rw [h2 j] at this; injection this

theorem pyAll_raises {α : Type} {k : Nat} (f : Fin k → Py α) :
    Raises (pyAll f) ↔ ∃ i, Raises (f i) := by
  constructor
  · intro h
    by_contra hn
    have : ∀ i, ∃ x, f i = .ok x := by
      intro i
      cases hf : f i with
      | ok x => exact ⟨x, rfl⟩
      | error e => exact absurd ⟨i, e, hf⟩ hn
    choose r hr using this
    obtain ⟨e, he⟩ := h
    rw [(pyAll_ok f r).mpr hr] at he
    cases he
  · rintro ⟨i, e, he⟩
    cases h : pyAll f with
    | error e' => exact ⟨e', rfl⟩
    | ok r =>
      have := (pyAll_ok f r).mp h i
      rw [he] at this; cases this

end Ellipy
