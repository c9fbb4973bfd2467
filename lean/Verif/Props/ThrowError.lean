import Verif.Model.ThrowError
import Verif.Spec.Logging
import Mathlib.Data.List.Basic

/-! Property theorem C112 (`throw_error`, `throw_warn`, `get_caller_name`). -/

namespace Ellipy.Log

/-- The text of a name in an error: the components in capitals, separated by colons. -/
def Heading (up : Char → List Char) (name : List String) : List Char :=
  ":".toList.intercalate (name.map (fun s => s.toList.flatMap up))

private theorem name_full (f : Frame) (code : String) (hc : code = if f.code = "<module>" then "" else f.code) :
    (if f.module.getD [] ++ f.selfClass.toList = [] then (if code = "" then [] else [code]) else (f.module.getD [] ++ f.selfClass.toList) ++ [code]) =
      f.qualname := by
  obtain ⟨m, s, c⟩ := f
  unfold Frame.qualname
  simp only at hc ⊢
  rw [← hc]
  clear hc
  by_cases hc' : code = ""
  · subst hc'
    cases m with
    | none => cases s <;> simp
    | some m => cases s <;> by_cases hm : m = [] <;> simp [hm]
  · cases m with
    | none => cases s <;> simp [hc']
    | some m => cases s <;> by_cases hm : m = [] <;> simp [hc', hm]

/-- **C112**: `get_caller_name(skip, 'full')` is the name of the function `skip` levels up, and the empty name above the end of the stack. -/
theorem C112_full (stack : List Frame) (skip : ℕ) : callerName stack (skip + 1) "full" = .ok ((stack[skip]?.map Frame.qualname).getD []) := by
  unfold callerName callerNameExt
  simp only [show skip + 1 + 1 - 1 = skip + 1 from rfl, List.getElem?_cons_succ, show ("full" = "default") = False by decide, if_false, if_true]
  cases h : stack[skip]? with
  | none => simp
  | some f =>
    simp only [Option.map_some, Option.getD_some]
    rw [← name_full f _ rfl]

/-- **C112**: `get_caller_name(skip)` leaves out the name of the function, unless there is nothing else. -/
theorem C112_default (stack : List Frame) (skip : ℕ) (f : Frame) (hf : stack[skip]? = some f) : callerName stack (skip + 1) "default" =
    .ok (if f.module.getD [] = [] ∧ f.selfClass = none then f.qualname else f.module.getD [] ++ f.selfClass.toList) := by
  unfold callerName callerNameExt
  simp only [show skip + 1 + 1 - 1 = skip + 1 from rfl, List.getElem?_cons_succ, if_true, hf]
  have := name_full f _ rfl
  by_cases h : f.module.getD [] = [] ∧ f.selfClass = none
  · have h' : f.module.getD [] ++ f.selfClass.toList = [] := by rw [h.1, h.2]; rfl
    rw [if_pos h, ← this, if_pos h', if_pos h']
  · have h' : f.module.getD [] ++ f.selfClass.toList ≠ [] := by
      intro h'
      rw [List.append_eq_nil_iff] at h'
      exact h ⟨h'.1, by simpa using h'.2⟩
    rw [if_neg h, if_neg h']

/-- **C112**: other modes raise. -/
theorem C112_mode (stack : List Frame) (skip : ℕ) (mode : String) : (∃ e, callerName stack skip mode = .error e) ↔ mode ≠ "default" ∧ mode ≠ "full" := by
  unfold callerName
  by_cases h : mode = "default"
  · simp [h]
  · by_cases h' : mode = "full"
    · simp [h']
    · simp [h, h']

private theorem heading_eq (up : Char → List Char) (hup : up ':' = [':']) (name : List String) (hn : ∀ s ∈ name, '.' ∉ s.toList) :
    upper up (colons (dotted name)) = Heading up name := by
  have h1 : ∀ s : List Char, '.' ∉ s → s.map (fun c => if c = '.' then ':' else c) = s := by
    intro s hs
    have : s.map (fun c => if c = '.' then ':' else c) = s.map id := List.map_congr_left fun c hc => if_neg fun h : c = '.' => hs (h ▸ hc)
    rw [this, List.map_id]
  unfold upper colons dotted Heading
  induction name with
  | nil => rfl
  | cons a name ih =>
    have ha := h1 a.toList (hn a (by simp))
    cases name with
    | nil => simp [List.intercalate, List.intersperse, ha]
    | cons b name =>
      have ih := ih fun s hs => hn s (by simp [hs])
      simp only [List.intercalate, List.map_cons, List.intersperse, List.flatten_cons, List.map_append, List.flatMap_append, ha] at ih ⊢
      rw [ih]
      simp [hup]

/-- **C112**: the text of the error of `throw_error` is `NAME:tag:message`, where the name is that of the function `steps` levels above `throw_error` (its
caller by default) in capitals with colons; above the end of the stack the name is empty.  The error is raised if `throw` is true and returned otherwise. -/
theorem C112_throw_error (up : Char → List Char) (hup : up ':' = [':']) (stack : List Frame) (tag message : List Char) (steps : ℕ) (hs : 1 ≤ steps) (throw : Bool)
    (hn : ∀ f, stack[steps - 1]? = some f → ∀ s ∈ f.qualname, '.' ∉ s.toList) :
    pyThrowError up stack tag message steps throw = .ok ((if throw then Thrown.raised else Thrown.returned)
      (Heading up ((stack[steps - 1]?.map Frame.qualname).getD []) ++ ":".toList ++ tag ++ ":".toList ++ message)) := by
  obtain ⟨k, rfl⟩ : ∃ k, steps = k + 1 := ⟨steps - 1, by omega⟩
  unfold pyThrowError
  rw [C112_full]
  simp only [List.getElem?_cons_succ, show k + 1 - 1 = k from rfl] at hn ⊢
  rw [heading_eq up hup]
  · cases throw <;> rfl
  · cases h : stack[k]? with
    | none => simp
    | some f => exact hn f h

/-- **C112**: `throw_warn` names its caller. -/
theorem C112_throw_warn (up : Char → List Char) (hup : up ':' = [':']) (f : Frame) (stack : List Frame) (tag message : List Char)
    (hn : ∀ s ∈ f.qualname, '.' ∉ s.toList) :
    pyThrowWarn up (f :: stack) tag message = .ok (Heading up f.qualname ++ ":".toList ++ tag ++ ":".toList ++ message) := by
  unfold pyThrowWarn
  rw [C112_full]
  simp only [List.getElem?_cons_succ, List.getElem?_cons_zero, Option.map_some, Option.getD_some]
  rw [heading_eq up hup _ hn]
  rfl

/-- **C112**: the error about an unknown mode names `get_caller_name` itself. -/
theorem C112_mode_error (up : Char → List Char) (stack : List Frame) (mode : List Char) :
    modeError up stack mode = "ellipy.gen.common.common.get_caller_name".toList.flatMap up ++ "wrongInput: Unknown mode: ".toList ++ mode := rfl

/-- An error raised in a method. -/
example : pyThrowError (fun c => [c.toUpper]) [⟨some ["ellipy", "h"], some "Hyperplane", "contains"⟩] "wrongInput".toList "bad".toList =
    .ok (.raised "ELLIPY:H:HYPERPLANE:CONTAINS:wrongInput:bad".toList) := by
  rw [C112_throw_error _ (by decide) _ _ _ 1 (Nat.le_refl 1) true (by
    intro f hf s hs
    simp only [show 1 - 1 = 0 from rfl, List.getElem?_cons_zero, Option.some.injEq] at hf
    subst hf
    have : s ∈ ["ellipy", "h", "Hyperplane", "contains"] := hs
    simp only [List.mem_cons, List.not_mem_nil, or_false] at this
    rcases this with rfl | rfl | rfl | rfl <;> decide)]
  rfl

end Ellipy.Log
