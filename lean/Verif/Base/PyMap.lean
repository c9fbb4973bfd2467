import Mathlib.Data.List.Forall2
import Verif.Base.Py

/-! Comprehensions over lists, and arrays of objects. -/

namespace Ellipy

/-- `[f(x) for x in l]`: the first exception ends the loop. -/
def pyMap {α β : Type} (f : α → Py β) : List α → Py (List β)
  | [] => .ok []
  | x :: xs =>
    match f x with
    | .error e => .error e
    | .ok y =>
      match pyMap f xs with
      | .error e => .error e
      | .ok ys => .ok (y :: ys)

theorem pyMap_ok_iff {α β : Type} (f : α → Py β) (l : List α) (ys : List β) :
    pyMap f l = .ok ys ↔ List.Forall₂ (fun x y => f x = .ok y) l ys := by
  induction l generalizing ys with
  | nil =>
    unfold pyMap
    constructor
    · intro h; injection h with h; subst h; exact .nil
    · intro h; cases h; rfl
  | cons x xs ih =>
    unfold pyMap
    constructor
    · intro h
      cases hx : f x with
      | error e => rw [hx] at h; cases h
      | ok y =>
        rw [hx] at h
        cases hxs : pyMap f xs with
        | error e => rw [hxs] at h; cases h
        | ok zs =>
          rw [hxs] at h
          injection h with h
          subst h
          exact .cons hx ((ih zs).mp hxs)
    · intro h
      cases h with
      | cons hx hxs => rw [hx, (ih _).mpr hxs]

theorem pyMap_ok {α β : Type} {f : α → Py β} {l : List α} {g : α → β} (h : ∀ x ∈ l, f x = .ok (g x)) :
    pyMap f l = .ok (l.map g) := by
  induction l with
  | nil => rfl
  | cons x xs ih =>
    unfold pyMap
    rw [h x (by simp), ih (fun y hy => h y (by simp [hy]))]
    rfl

theorem pyMap_raises {α β : Type} (f : α → Py β) (l : List α) : Raises (pyMap f l) ↔ ∃ x ∈ l, Raises (f x) := by
  induction l with
  | nil =>
    constructor
    · rintro ⟨e, he⟩; cases he
    · rintro ⟨x, hx, _⟩; cases hx
  | cons x xs ih =>
    unfold pyMap
    cases hx : f x with
    | error e => exact ⟨fun _ => ⟨x, by simp, e, hx⟩, fun _ => ⟨e, rfl⟩⟩
    | ok y =>
      cases hxs : pyMap f xs with
      | error e =>
        refine ⟨fun _ => ?_, fun _ => ⟨e, rfl⟩⟩
        obtain ⟨z, hz, hr⟩ := ih.mp ⟨e, hxs⟩
        exact ⟨z, by simp [hz], hr⟩
      | ok ys =>
        constructor
        · rintro ⟨e, he⟩; cases he
        · rintro ⟨z, hz, e, he⟩
          rcases List.mem_cons.mp hz with rfl | hz
          · rw [hx] at he; cases he
          · obtain ⟨e', he'⟩ := ih.mpr ⟨z, hz, e, he⟩
            rw [hxs] at he'; cases he'

/-- A numpy array of objects: the shape and the entries in row-major order. -/
structure Arr (α : Type) where
  shape : List Nat
  data : List α
  len : data.length = shape.foldr (· * ·) 1

/-- An array of shape `(k,)`. -/
def Arr.vec {α : Type} (l : List α) : Arr α := ⟨[l.length], l, by simp⟩

/-- A 0-dimensional array. -/
def Arr.scalar {α : Type} (x : α) : Arr α := ⟨[], [x], rfl⟩

end Ellipy
