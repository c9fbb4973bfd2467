import Verif.Proofs.EllHeap
import Verif.Props.EllEigs

/-! Property theorems C84 (`get_property`) and C85 (`ell_unitball`). -/

namespace Ellipy.Ell
open Matrix Ellipy.LA

theorem getProperty_of (arg : ObjArg EllObj) (a : Arr EllObj) (ha : arg.Is a) (hd : a.data ≠ []) (name : String)
    (f : Option (List ℝ → ℝ)) (at' : Attr) (hn : aliases.lookup name = some at') :
    getProperty arg name f = match pyMap (readAttr at') a.data with
      | .error e => .error e
      | .ok xs => .ok (xs, f.map (fun g => .fin (g xs))) := by
  unfold getProperty
  rw [(C80_ok_iff _ _ _ _).mpr ha]
  simp only
  rw [if_neg (fun h => hd (List.length_eq_zero_iff.mp h)), hn]
  rfl

/-- **C84**: each of the four numeric properties can be read under its three names: the result lists its values for the ellipsoids in
row-major order (without the shape of the array), together with the value of the function on this list if there is one. -/
theorem C84 (arg : ObjArg EllObj) (a : Arr EllObj) (ha : arg.Is a) (hd : a.data ≠ []) (f : Option (List ℝ → ℝ)) :
    (∀ name ∈ ["absTol", "abs_tol", "_abs_tol"],
      getProperty arg name f = .ok (a.data.map (fun x => x.absTol), f.map (fun g => .fin (g (a.data.map (fun x => x.absTol)))))) ∧
    (∀ name ∈ ["relTol", "rel_tol", "_rel_tol"],
      getProperty arg name f = .ok (a.data.map (fun x => x.relTol), f.map (fun g => .fin (g (a.data.map (fun x => x.relTol)))))) ∧
    (∀ name ∈ ["nPlot2dPoints", "n_plot_2d_points", "_n_plot_2d_points"],
      getProperty arg name f = .ok (a.data.map (fun x => x.n2d), f.map (fun g => .fin (g (a.data.map (fun x => x.n2d)))))) ∧
    (∀ name ∈ ["nPlot3dPoints", "n_plot_3d_points", "_n_plot_3d_points"],
      getProperty arg name f = .ok (a.data.map (fun x => x.n3d), f.map (fun g => .fin (g (a.data.map (fun x => x.n3d)))))) := by
  refine ⟨fun name hn => ?_, fun name hn => ?_, fun name hn => ?_, fun name hn => ?_⟩
  · rw [getProperty_of arg a ha hd name f .absTol (by
      simp only [List.mem_cons, List.not_mem_nil, or_false] at hn
      rcases hn with rfl | rfl | rfl <;> rfl), pyMap_ok (f := readAttr .absTol) (g := fun x : EllObj => x.absTol) (fun x _ => rfl)]
  · rw [getProperty_of arg a ha hd name f .relTol (by
      simp only [List.mem_cons, List.not_mem_nil, or_false] at hn
      rcases hn with rfl | rfl | rfl <;> rfl), pyMap_ok (f := readAttr .relTol) (g := fun x : EllObj => x.relTol) (fun x _ => rfl)]
  · rw [getProperty_of arg a ha hd name f .n2d (by
      simp only [List.mem_cons, List.not_mem_nil, or_false] at hn
      rcases hn with rfl | rfl | rfl <;> rfl), pyMap_ok (f := readAttr .n2d) (g := fun x : EllObj => x.n2d) (fun x _ => rfl)]
  · rw [getProperty_of arg a ha hd name f .n3d (by
      simp only [List.mem_cons, List.not_mem_nil, or_false] at hn
      rcases hn with rfl | rfl | rfl <;> rfl), pyMap_ok (f := readAttr .n3d) (g := fun x : EllObj => x.n3d) (fun x _ => rfl)]

/-- **C84**: an array without elements gives an empty list and NaN, whatever the name. -/
theorem C84_empty (arg : ObjArg EllObj) (a : Arr EllObj) (ha : arg.Is a) (hd : a.data = []) (name : String) (f : Option (List ℝ → ℝ)) :
    getProperty arg name f = .ok ([], f.map (fun _ => .nan)) := by
  unfold getProperty
  rw [(C80_ok_iff _ _ _ _).mpr ha]
  simp only
  rw [if_pos (by rw [hd]; rfl)]

/-- **C84**: `get_abs_tol` and `get_rel_tol` return the tolerances together with the smallest of them, `get_n_plot_2d_points` and
`get_n_plot_3d_points` only the numbers. -/
theorem C84_getters (arg : ObjArg EllObj) (a : Arr EllObj) (ha : arg.Is a) (hd : a.data ≠ []) :
    (∃ m, getAbsTol arg = .ok (a.data.map (fun x => x.absTol), some (.fin m)) ∧ IsLeast {t | ∃ x ∈ a.data, t = x.absTol} m) ∧
    (∃ m, getRelTol arg = .ok (a.data.map (fun x => x.relTol), some (.fin m)) ∧ IsLeast {t | ∃ x ∈ a.data, t = x.relTol} m) ∧
    getNPlot2d arg = .ok (a.data.map (fun x => x.n2d), none) ∧ getNPlot3d arg = .ok (a.data.map (fun x => x.n3d), none) := by
  have key : ∀ h : EllObj → ℝ, IsLeast {t | ∃ x ∈ a.data, t = h x} (npMin (a.data.map h)) := by
    intro h
    unfold npMin
    cases hm : (a.data.map h).min? with
    | none =>
      rw [List.min?_eq_none_iff, List.map_eq_nil_iff] at hm
      exact absurd hm hd
    | some m =>
      obtain ⟨h1, h2⟩ := List.min?_eq_some_iff.mp hm
      obtain ⟨x, hx, rfl⟩ := List.mem_map.mp h1
      refine ⟨⟨x, hx, rfl⟩, ?_⟩
      rintro _ ⟨y, hy, rfl⟩
      exact h2 _ (List.mem_map_of_mem hy)
  refine ⟨⟨_, (C84 arg a ha hd (some npMin)).1 _ (by simp), key _⟩, ⟨_, (C84 arg a ha hd (some npMin)).2.1 _ (by simp), key _⟩,
    (C84 arg a ha hd none).2.2.1 _ (by simp), (C84 arg a ha hd none).2.2.2 _ (by simp)⟩

theorem readAttr_array (at' : Attr) (h : at' = .center ∨ at' = .shape) (x : EllObj) : Raises (readAttr at' x) ↔ x.n ≠ 1 := by
  rcases h with rfl | rfl <;>
  · simp only [readAttr]
    by_cases hx : x.n = 1
    · rw [dif_pos hx]
      exact iff_of_false (by rintro ⟨e, he⟩; cases he) (not_not.mpr hx)
    · rw [dif_neg hx]
      exact iff_of_true ⟨_, rfl⟩ hx

/-- **C84**: which calls raise: something in the argument is not an ellipsoid, or there are ellipsoids and the name is unknown, or it is
the name of an array that does not consist of one number. -/
theorem C84_raises_iff (arg : ObjArg EllObj) (name : String) (f : Option (List ℝ → ℝ)) : Raises (getProperty arg name f) ↔
    arg.Foreign ∨ ∃ a, arg.Is a ∧ a.data ≠ [] ∧ name ∉ numericNames ∧ (name ∉ arrayNames ∨ ∃ x ∈ a.data, x.n ≠ 1) := by
  rcases C80_total arg with ⟨hf, _⟩ | ⟨hf, a, ha⟩
  · refine iff_of_true ?_ (Or.inl hf)
    unfold getProperty
    rw [(C80_raises_iff "wrongInput" "" arg _).mpr ⟨hf, rfl⟩]
    exact ⟨_, rfl⟩
  have huniq : ∀ a', arg.Is a' → a' = a := by
    intro a' ha'
    have h1 := (C80_ok_iff "" "" arg a).mpr ha
    rw [(C80_ok_iff "" "" arg a').mpr ha'] at h1
    injection h1
  have hred : (arg.Foreign ∨ ∃ a, arg.Is a ∧ a.data ≠ [] ∧ name ∉ numericNames ∧ (name ∉ arrayNames ∨ ∃ x ∈ a.data, x.n ≠ 1)) ↔
      a.data ≠ [] ∧ name ∉ numericNames ∧ (name ∉ arrayNames ∨ ∃ x ∈ a.data, x.n ≠ 1) := by
    constructor
    · rintro (h | ⟨a', ha', h⟩)
      · exact absurd h hf
      · rwa [huniq a' ha'] at h
    · intro h; exact Or.inr ⟨a, ha, h⟩
  rw [hred]
  by_cases hd : a.data = []
  · rw [C84_empty arg a ha hd name f]
    exact iff_of_false (by rintro ⟨e, he⟩; cases he) (fun h => h.1 hd)
  by_cases h1 : name ∈ numericNames
  · refine iff_of_false ?_ (fun h => h.2.1 h1)
    obtain ⟨g1, g2, g3, g4⟩ := C84 arg a ha hd f
    rintro ⟨e, he⟩
    simp only [numericNames, List.mem_cons, List.not_mem_nil, or_false] at h1
    rcases h1 with rfl | rfl | rfl | rfl | rfl | rfl | rfl | rfl | rfl | rfl | rfl | rfl
    · rw [g1 _ (by simp)] at he; cases he
    · rw [g1 _ (by simp)] at he; cases he
    · rw [g1 _ (by simp)] at he; cases he
    · rw [g2 _ (by simp)] at he; cases he
    · rw [g2 _ (by simp)] at he; cases he
    · rw [g2 _ (by simp)] at he; cases he
    · rw [g3 _ (by simp)] at he; cases he
    · rw [g3 _ (by simp)] at he; cases he
    · rw [g3 _ (by simp)] at he; cases he
    · rw [g4 _ (by simp)] at he; cases he
    · rw [g4 _ (by simp)] at he; cases he
    · rw [g4 _ (by simp)] at he; cases he
  by_cases h2 : name ∈ arrayNames
  · have hl : ∃ at', (at' = Attr.center ∨ at' = Attr.shape) ∧ aliases.lookup name = some at' := by
      simp only [arrayNames, List.mem_cons, List.not_mem_nil, or_false] at h2
      rcases h2 with rfl | rfl | rfl | rfl | rfl | rfl
      · exact ⟨_, Or.inl rfl, rfl⟩
      · exact ⟨_, Or.inl rfl, rfl⟩
      · exact ⟨_, Or.inl rfl, rfl⟩
      · exact ⟨_, Or.inr rfl, rfl⟩
      · exact ⟨_, Or.inr rfl, rfl⟩
      · exact ⟨_, Or.inr rfl, rfl⟩
    obtain ⟨at', hat, hlk⟩ := hl
    rw [getProperty_of arg a ha hd name f at' hlk]
    have hm := pyMap_raises (readAttr at') a.data
    simp only [readAttr_array at' hat] at hm
    cases h : pyMap (readAttr at') a.data with
    | error e =>
      exact iff_of_true ⟨e, rfl⟩ ⟨hd, h1, Or.inr (hm.mp ⟨e, h⟩)⟩
    | ok xs =>
      refine iff_of_false (by rintro ⟨e, he⟩; cases he) ?_
      rintro ⟨_, _, h3 | h3⟩
      · exact h3 h2
      · obtain ⟨e, he⟩ := hm.mpr h3
        rw [h] at he; cases he
  · refine iff_of_true ?_ ⟨hd, h1, Or.inl h2⟩
    have hlk : aliases.lookup name = none := by
      rw [List.lookup_eq_none_iff]
      intro p hp
      rw [bne_iff_ne]
      rintro rfl
      simp only [aliases, List.mem_cons, List.not_mem_nil, or_false] at hp
      rcases hp with rfl | rfl | rfl | rfl | rfl | rfl | rfl | rfl | rfl | rfl | rfl | rfl | rfl | rfl | rfl | rfl | rfl | rfl <;>
        simp [numericNames, arrayNames] at h1 h2
    unfold getProperty
    rw [(C80_ok_iff _ _ _ _).mpr ha]
    simp only
    rw [if_neg (fun h => hd (List.length_eq_zero_iff.mp h)), hlk]
    exact ⟨_, rfl⟩

/-- **C84**: unknown names raise `KeyError` as soon as there is an ellipsoid; they go unnoticed on empty arrays (`C84_empty`). -/
theorem C84_key_error (arg : ObjArg EllObj) (a : Arr EllObj) (ha : arg.Is a) (hd : a.data ≠ []) (name : String) (f : Option (List ℝ → ℝ))
    (h1 : name ∉ numericNames) (h2 : name ∉ arrayNames) : getProperty arg name f = .error .keyError := by
  obtain ⟨e, he⟩ := (C84_raises_iff arg name f).mpr (Or.inr ⟨a, ha, hd, h1, Or.inl h2⟩)
  rw [he]
  unfold getProperty at he
  rw [(C80_ok_iff _ _ _ _).mpr ha] at he
  simp only at he
  rw [if_neg (fun h => hd (List.length_eq_zero_iff.mp h))] at he
  cases hl : aliases.lookup name with
  | none => rw [hl] at he; injection he with he; rw [he]
  | some at' =>
    exfalso
    rw [List.lookup_eq_some_iff] at hl
    obtain ⟨l1, l2, hl, _⟩ := hl
    have hp : (name, at') ∈ aliases := by rw [hl]; simp
    simp only [aliases, List.mem_cons, List.not_mem_nil, or_false, Prod.mk.injEq] at hp
    rcases hp with ⟨rfl, _⟩ | ⟨rfl, _⟩ | ⟨rfl, _⟩ | ⟨rfl, _⟩ | ⟨rfl, _⟩ | ⟨rfl, _⟩ | ⟨rfl, _⟩ | ⟨rfl, _⟩ | ⟨rfl, _⟩ | ⟨rfl, _⟩ | ⟨rfl, _⟩ |
      ⟨rfl, _⟩ | ⟨rfl, _⟩ | ⟨rfl, _⟩ | ⟨rfl, _⟩ | ⟨rfl, _⟩ | ⟨rfl, _⟩ | ⟨rfl, _⟩ <;> simp [numericNames, arrayNames] at h1 h2

/-- **C84**: the two arrays can be read only if they consist of one number: the centre or the squared semiaxis of a segment on the line. -/
theorem C84_line (arg : ObjArg EllObj) (a : Arr EllObj) (ha : arg.Is a) (hd : a.data ≠ []) (h1 : ∀ x ∈ a.data, x.n = 1)
    (f : Option (List ℝ → ℝ)) :
    (∀ name ∈ ["centerVec", "center_vec", "_center_vec"], ∃ xs, getProperty arg name f = .ok (xs, f.map (fun g => .fin (g xs))) ∧
      List.Forall₂ (fun (x : EllObj) r => ∀ i, x.c i = r) a.data xs) ∧
    (∀ name ∈ ["shapeMat", "shape_mat", "_shape_mat"], ∃ xs, getProperty arg name f = .ok (xs, f.map (fun g => .fin (g xs))) ∧
      List.Forall₂ (fun (x : EllObj) r => ∀ i j, x.Q i j = r) a.data xs) := by
  constructor
  · intro name hn
    obtain ⟨xs, hxs, hf⟩ := forall₂_ok (f := readAttr .center) (l := a.data) (P := fun x r => ∀ i, x.c i = r) (by
      intro x hx
      refine ⟨_, dif_pos (h1 x hx), fun i => ?_⟩
      congr 1
      have := h1 x hx
      exact Fin.ext (by simp; omega))
    refine ⟨xs, ?_, hf⟩
    rw [getProperty_of arg a ha hd name f .center (by
      simp only [List.mem_cons, List.not_mem_nil, or_false] at hn
      rcases hn with rfl | rfl | rfl <;> rfl), hxs]
  · intro name hn
    obtain ⟨xs, hxs, hf⟩ := forall₂_ok (f := readAttr .shape) (l := a.data) (P := fun x r => ∀ i j, x.Q i j = r) (by
      intro x hx
      refine ⟨_, dif_pos (h1 x hx), fun i j => ?_⟩
      have := h1 x hx
      congr 1 <;> exact Fin.ext (by simp; omega))
    refine ⟨xs, ?_, hf⟩
    rw [getProperty_of arg a ha hd name f .shape (by
      simp only [List.mem_cons, List.not_mem_nil, or_false] at hn
      rcases hn with rfl | rfl | rfl <;> rfl), hxs]

/-- Two ellipsoids in a column: the tolerances come back as a flat list with the smaller one. -/
example (c : Fin 2 → ℝ) (Q : Matrix (Fin 2) (Fin 2) ℝ) :
    ∃ m, getAbsTol (.many ⟨[2, 1], [.inst ⟨2, c, Q, 3, 1, 1, 1⟩, .inst ⟨2, c, Q, 2, 1, 1, 1⟩], rfl⟩) = .ok ([3, 2], some (.fin m)) ∧ m = 2 := by
  obtain ⟨⟨m, h1, h2⟩, _⟩ := C84_getters (.many ⟨[2, 1], [.inst ⟨2, c, Q, 3, 1, 1, 1⟩, .inst ⟨2, c, Q, 2, 1, 1, 1⟩], rfl⟩)
    ⟨[2, 1], [⟨2, c, Q, 3, 1, 1, 1⟩, ⟨2, c, Q, 2, 1, 1, 1⟩], rfl⟩ (Or.inr ⟨_, rfl, rfl, rfl⟩) (by simp)
  refine ⟨m, h1, le_antisymm (h2.2 ⟨⟨2, c, Q, 2, 1, 1, 1⟩, by simp, rfl⟩) ?_⟩
  obtain ⟨x, hx, rfl⟩ := h2.1
  simp at hx
  rcases hx with rfl | rfl <;> norm_num

/-! ### C85 -/

theorem ell_one {n : ℕ} : Ell (0 : Fin n → ℝ) (1 : Matrix (Fin n) (Fin n) ℝ) = {x | x ⬝ᵥ x ≤ 1} := by
  ext x
  rw [mem_ell_factor (M := (1 : Matrix (Fin n) (Fin n) ℝ)) (by rw [transpose_one, Matrix.mul_one])]
  constructor
  · rintro ⟨u, hu, rfl⟩
    rw [one_mulVec, zero_add]
    exact hu
  · intro hx
    exact ⟨x, hx, by rw [one_mulVec, zero_add]⟩

/-- **C85**: `ell_unitball(n)` is the unit ball of dimension `n` about the origin, with the current settings as properties (the absolute
tolerance must be positive; it always is, see C03).  Negative numbers are rejected. -/
theorem C85 (E : Eigh) (n : ℤ) (absTol relTol n2d n3d : ℝ) (ht : 0 < absTol) :
    (0 ≤ n → ∃ e, ellUnitball E n absTol relTol n2d n3d = .ok e ∧ (e.n : ℤ) = n ∧ IsPSD e.Q ∧ Ell e.c e.Q = {x | x ⬝ᵥ x ≤ 1} ∧ e.c = 0 ∧
      e.absTol = absTol ∧ e.relTol = relTol ∧ e.n2d = n2d ∧ e.n3d = n3d) ∧
    (n < 0 → Raises (ellUnitball E n absTol relTol n2d n3d)) := by
  constructor
  · intro hn
    have hP : IsPSD (1 : Matrix (Fin n.toNat) (Fin n.toNat) ℝ) :=
      ⟨transpose_one, fun x => by rw [one_mulVec]; exact dot_self_nonneg x⟩
    refine ⟨⟨n.toNat, 0, 1, absTol, relTol, n2d, n3d⟩, ?_, Int.toNat_of_nonneg hn, hP, ell_one, rfl, rfl, rfl, rfl, rfl⟩
    unfold ellUnitball
    rw [if_neg (not_lt.mpr hn), C33]
    refine ⟨n.toNat, 0, 1, rfl, Or.inr (Or.inl ⟨_, rfl, rfl, encMat_good ht (symmWithin_of_symm hP.1 ht.le) ?_⟩)⟩
    intro v
    rw [lowerSym_of_symm hP.1]
    have := hP.2 v
    have h0 := dot_self_nonneg v
    nlinarith
  · intro hn
    unfold ellUnitball
    rw [if_pos hn]
    exact ⟨_, rfl⟩

/-- The unit ball in space; its dimension. -/
example (E : Eigh) : ∃ e, ellUnitball E 3 (1 / 10) 1 1 1 = .ok e ∧ ∃ d : Arr ℕ, dimension (.single (.inst e)) = .ok d ∧ d.data = [3] := by
  obtain ⟨e, he, hn, _⟩ := (C85 E 3 (1 / 10) 1 1 1 (by norm_num)).1 (by norm_num)
  refine ⟨e, he, ⟨[], [3], rfl⟩, ?_, rfl⟩
  have : e.n = 3 := by omega
  unfold dimension
  rw [(C80_ok_iff _ _ _ (Arr.scalar e)).mpr (Or.inl ⟨e, rfl, rfl⟩)]
  simp [Arr.scalar, reshape, this]

end Ellipy.Ell
