import Mathlib.Tactic.FinCases
import Verif.Model.Rho
import Verif.Spec.Rho
import Verif.Props.RhoMat
import Verif.Props.IsInternal

/-! Property theorem C40 (`rho`). -/

namespace Ellipy.Ell
open Matrix Ellipy.LA

theorem idx_lt2 {m k : ℕ} (i : Fin m) (j : Fin k) : i.val * k + j.val < m * k := by
  calc i.val * k + j.val < i.val * k + k := Nat.add_lt_add_left j.2 _
    _ = (i.val + 1) * k := by ring
    _ ≤ m * k := Nat.mul_le_mul_right _ i.2

theorem rowMajor_get {α : Type} {m k : ℕ} (f : Fin k → Fin m → α) (i : Fin m) (j : Fin k) :
    (rowMajor f)[i.val * k + j.val]? = some (f j i) := by
  have hk : i.val * k + j.val < m * k := idx_lt2 i j
  have hk0 : 0 < k := Nat.lt_of_le_of_lt (Nat.zero_le _) j.2
  unfold rowMajor
  simp only [List.getElem?_ofFn, hk, dif_pos]
  congr 2
  · ext; simp only [Fin.modNat]; rw [mul_comm, Nat.mul_add_mod, Nat.mod_eq_of_lt j.2]
  · ext; simp only [Fin.divNat]; rw [mul_comm, Nat.mul_add_div hk0, Nat.div_eq_of_lt j.2, add_zero]

theorem rowMajor_length {α : Type} {m k : ℕ} (f : Fin k → Fin m → α) : (rowMajor f).length = m * k := by simp [rowMajor]

theorem rhoForDir_psd {n : ℕ} {e : EllN n} (he : e.PSD) (v : Fin n → ℝ) : ∃ r x, rhoForDir e.obj v = .ok (r, fun i => .fin (x i)) ∧
    IsSupport e.set v r ∧ x ∈ e.set ∧ v ⬝ᵥ x = r := by
  obtain ⟨sup, bp, h, hv⟩ := C31 e.Q he.2 (of fun i (_ : Fin 1) => v i) e.props.absTol he.1.1.le e.c
  obtain ⟨h1, x, hx, hbp, hd⟩ := hv 0
  refine ⟨sup 0, x, ?_, h1, hx, hd⟩
  unfold rhoForDir
  rw [shapeAs_self, centerAs_self]
  rw [show rhoMat e.Q (of fun i (_ : Fin 1) => v i) e.obj.absTol e.c = .ok (sup, bp) from h]
  simp only
  congr 2
  exact funext hbp

/-- What the loops over pairs return. -/
theorem rho_rows {n k : ℕ} (es : Fin k → EllN n) (hes : ∀ j, (es j).PSD) (ls : Fin k → Fin n → ℝ) (rs : List (ℝ × (Fin n → XF ℝ)))
    (hrs : rs = List.ofFn (fun j => (Classical.choose (rhoForDir_psd (hes j) (ls j)),
      fun i => XF.fin (Classical.choose (Classical.choose_spec (rhoForDir_psd (hes j) (ls j))) i))))
    (s : Arr ℝ) (b : Arr (XF ℝ)) (hs : s.data = rs.map Prod.fst) (hb : b.data = rowMajor (colsOf rs)) : IsRho s b es ls := by
  have hlen : rs.length = k := by rw [hrs]; simp
  refine ⟨by rw [hs]; simp [hlen], by rw [hb, rowMajor_length, hlen], fun j => ?_⟩
  have hspec := Classical.choose_spec (Classical.choose_spec (rhoForDir_psd (hes j) (ls j)))
  refine ⟨_, _, ?_, hspec.2.1, hspec.2.2.1, hspec.2.2.2, fun i => ?_⟩
  · rw [hs, hrs]; simp
  · rw [hb]
    have h1 := rowMajor_get (colsOf rs) i ⟨j.val, by rw [hlen]; exact j.2⟩
    simp only [hlen] at h1
    rw [h1]
    congr 1
    unfold colsOf
    subst hrs
    simp

/-- The list of results of one loop. -/
theorem rho_map {n k : ℕ} (es : Fin k → EllN n) (hes : ∀ j, (es j).PSD) (ls : Fin k → Fin n → ℝ) {α : Type}
    (f : α → Py (ℝ × (Fin n → XF ℝ))) (l : List α) (hl : l.length = k)
    (hf : ∀ j : Fin k, f (l.get ⟨j.val, by rw [hl]; exact j.2⟩) = rhoForDir (es j).obj (ls j)) :
    pyMap f l = .ok (List.ofFn (fun j => (Classical.choose (rhoForDir_psd (hes j) (ls j)),
      fun i => XF.fin (Classical.choose (Classical.choose_spec (rhoForDir_psd (hes j) (ls j))) i)))) := by
  rw [pyMap_ok_iff, List.forall₂_iff_get]
  refine ⟨by simp [hl], fun i h1 h2 => ?_⟩
  have hi : i < k := by rw [← hl]; exact h1
  have := hf ⟨i, hi⟩
  simp only at this
  rw [this, (Classical.choose_spec (Classical.choose_spec (rhoForDir_psd (hes ⟨i, hi⟩) (ls ⟨i, hi⟩)))).1]
  simp

theorem dirs_col {n k : ℕ} {d : Arr ℝ} {rest : List ℕ} {ls : Fin k → Fin n → ℝ} (h : IsDirs d rest ls) (j : Fin k) :
    (fun i : Fin n => d.data.getD (i.val * (rest.foldr (· * ·) 1) + j.val) 0) = ls j := by
  funext i
  have := h.2.2 j i
  rw [← h.2.1, List.getD_eq_getElem?_getD, this]; rfl

/-- **C40**: one ellipsoid, any array of directions. -/
theorem C40_one_ell {n k : ℕ} (a : Arr EllObj) (e : EllN n) (ha : a.data = [e.obj]) (he : e.PSD) (d : Arr ℝ) (rest : List ℕ)
    (hrest : rest ≠ []) (ls : Fin k → Fin n → ℝ) (hd : IsDirs d rest ls) :
    ∃ s b, rho a d = .ok (s, b) ∧ IsRho s b (fun _ => e) ls ∧ b.shape = d.shape ∧
      s.shape = if 1 < rest.length then rest else [1, k] := by
  obtain ⟨r0, r1, rfl⟩ : ∃ r0 r1, rest = r0 :: r1 := by
    cases rest with
    | nil => exact absurd rfl hrest
    | cons r0 r1 => exact ⟨r0, r1, rfl⟩
  obtain ⟨hsh, hk, hent⟩ := hd
  have hcol := fun j => dirs_col ⟨hsh, hk, hent⟩ j
  subst hk
  obtain ⟨sup, bp, h, hv⟩ := C31 e.Q he.2 (of fun i (j : Fin ((r0 :: r1).foldr (· * ·) 1)) => ls j i) e.props.absTol he.1.1.le e.c
  have hls : (of fun (i : Fin n) (j : Fin ((r0 :: r1).foldr (· * ·) 1)) => d.data.getD (i.val * ((r0 :: r1).foldr (· * ·) 1) + j.val) 0) = (of fun i (j : Fin ((r0 :: r1).foldr (· * ·) 1)) => ls j i) := by
    ext i j; exact congrFun (hcol j) i
  have hsz : rhoSizes a (r0 :: r1) ((r0 :: r1).foldr (· * ·) 1) = .ok true := by
    unfold rhoSizes; rw [if_pos (Or.inl (by rw [ha]; rfl))]
  have hdim : ¬ ¬ ∀ x ∈ a.data, x.n = n := by
    rw [not_not, ha]; intro x hx; rw [List.mem_singleton] at hx; subst hx; rfl
  have h1 : (List.ofFn sup).length = (if 1 < (r0 :: r1).length then (r0 :: r1) else [1, ((r0 :: r1).foldr (· * ·) 1)]).foldr (· * ·) 1 := by
    split
    · rw [List.length_ofFn]
    · rw [List.length_ofFn]; simp
  have h2 : (rowMajor bp).length = (n :: r0 :: r1).foldr (· * ·) 1 := by rw [rowMajor_length]; rfl
  refine ⟨⟨_, _, h1⟩, ⟨_, _, h2⟩, ?_, ?_, hsh.symm, rfl⟩
  · unfold rho
    simp only [hsh]
    simp only [hsz]
    rw [if_neg hdim, ha]
    simp only [shapeAs_self, centerAs_self, hls]
    rw [show rhoMat e.Q (of fun i (j : Fin ((r0 :: r1).foldr (· * ·) 1)) => ls j i) e.obj.absTol e.c = .ok (sup, bp) from h]
    simp only [Ellipy.Hyp.reshape_ok h1, Ellipy.Hyp.reshape_ok h2]
  · refine ⟨List.length_ofFn, rowMajor_length _, fun j => ?_⟩
    obtain ⟨h3, x, hx, hbp, hdot⟩ := hv j
    refine ⟨sup j, x, List.getElem?_ofFn.trans (dif_pos j.2), h3, hx, hdot, fun i => ?_⟩
    show (rowMajor bp)[i.val * ((r0 :: r1).foldr (· * ·) 1) + j.val]? = _
    rw [rowMajor_get bp i j, hbp i]

/-- **C40**: many ellipsoids, one direction. -/
theorem C40_one_dir {n k : ℕ} (a : Arr EllObj) (es : Fin k → EllN n) (ha : a.data = List.ofFn (fun j => (es j).obj)) (hk : 2 ≤ k)
    (he : ∀ j, (es j).PSD) (d : Arr ℝ) (l : Fin n → ℝ) (hd : IsDirs d [1] (fun _ : Fin 1 => l)) :
    ∃ s b, rho a d = .ok (s, b) ∧ IsRho s b es (fun _ => l) ∧ s.shape = a.shape ∧
      b.shape = if 2 < a.shape.length then n :: a.shape else [n, k] := by
  obtain ⟨hsh, -, -⟩ := id hd
  have hcol := dirs_col hd 0
  have hlen : a.data.length = k := by rw [ha]; simp
  have hsz : rhoSizes a [1] 1 = .ok true := by unfold rhoSizes; rw [if_pos (Or.inr rfl)]
  have hdim : ¬ ¬ ∀ x ∈ a.data, x.n = n := by
    rw [not_not, ha]; intro x hx; obtain ⟨j, rfl⟩ := List.mem_ofFn.mp hx; rfl
  set rs := List.ofFn (fun j => (Classical.choose (rhoForDir_psd (he j) l),
      fun i => XF.fin (Classical.choose (Classical.choose_spec (rhoForDir_psd (he j) l)) i))) with hrs
  have hrl : rs.length = k := by rw [hrs]; simp
  have hmap : pyMap (fun e => rhoForDir e l) a.data = .ok rs := by
    refine rho_map es he (fun _ => l) (fun e => rhoForDir e l) a.data hlen (fun j => ?_)
    have : a.data.get ⟨j.val, by rw [hlen]; exact j.2⟩ = (es j).obj := by simp [ha]
    simp only [this]
  have h1 : (rs.map Prod.fst).length = a.shape.foldr (· * ·) 1 := by rw [← a.len, hlen, List.length_map, hrl]
  have h2 : (rowMajor (colsOf rs)).length = (if 2 < a.shape.length then n :: a.shape else [n, rs.length]).foldr (· * ·) 1 := by
    rw [rowMajor_length]
    split
    · rw [List.foldr_cons, ← a.len, hlen, hrl]
    · simp
  refine ⟨⟨_, _, h1⟩, ⟨_, _, h2⟩, ?_, rho_rows es he (fun _ => l) rs hrs _ _ rfl rfl, rfl, by show _ = _; simp only [hrl]⟩
  unfold rho
  simp only [hsh]
  have hf1 : ([1] : List ℕ).foldr (· * ·) 1 = 1 := rfl
  have hcol' : (fun i : Fin n => d.data.getD (i.val * (([1] : List ℕ).foldr (· * ·) 1) + 0) 0) = l := hcol
  simp only [hf1, hsz]
  rw [if_neg hdim]
  simp only [hf1] at hcol'
  match hdat : a.data, hlen with
  | [], h => simp at h; omega
  | [_], h => simp at h; omega
  | e0 :: e1 :: es', _ =>
    rw [hdat] at hmap
    simp only
    rw [if_pos trivial, hcol', hmap]
    simp only
    rw [if_neg (by intro h0; rw [h0] at hrl; simp at hrl; omega)]
    simp only [Ellipy.Hyp.reshape_ok h1, Ellipy.Hyp.reshape_ok h2]

/-- The sizes for which the arguments are combined pairwise. -/
def PairSizes (a : Arr EllObj) (rest : List ℕ) : Prop :=
  a.shape = rest ∧ 2 ≤ rest.length ∨ rest.length = 1 ∧ ((∃ t, a.shape = 1 :: t) ∨ ∃ s t, a.shape = s :: 1 :: t)

/-- **C40** (partial): as many ellipsoids as directions.  Missing: a plain list of ellipsoids, see `C40_violated`. -/
theorem C40_pairs_partial {n k : ℕ} (a : Arr EllObj) (es : Fin k → EllN n) (ha : a.data = List.ofFn (fun j => (es j).obj)) (hk : 2 ≤ k)
    (he : ∀ j, (es j).PSD) (d : Arr ℝ) (rest : List ℕ) (ls : Fin k → Fin n → ℝ) (hd : IsDirs d rest ls) (hsz : PairSizes a rest) :
    ∃ s b, rho a d = .ok (s, b) ∧ IsRho s b es ls ∧ (s.shape = if 1 < rest.length then rest else [k, 1, 1]) ∧ b.shape = d.shape := by
  obtain ⟨r0, r1, rfl⟩ : ∃ r0 r1, rest = r0 :: r1 := by
    cases rest with
    | nil =>
      rcases hsz with ⟨-, h⟩ | ⟨h, -⟩
      · simp at h
      · simp at h
    | cons r0 r1 => exact ⟨r0, r1, rfl⟩
  have hcol := fun j => dirs_col hd j
  obtain ⟨hsh, hkk, -⟩ := hd
  have hlen : a.data.length = k := by rw [ha]; simp
  have hdim : ¬ ¬ ∀ x ∈ a.data, x.n = n := by
    rw [not_not, ha]; intro x hx; obtain ⟨j, rfl⟩ := List.mem_ofFn.mp hx; rfl
  have hne1 : r0 :: r1 ≠ [1] := by
    intro h
    rw [h] at hkk
    simp at hkk
    omega
  rw [← hkk] at hcol
  have hsizes : rhoSizes a (r0 :: r1) k = .ok true := by
    unfold rhoSizes
    rw [if_neg (fun h => h.elim (fun h => by omega) hne1), if_pos hlen]
    rcases hsz with ⟨h1, h2⟩ | ⟨h1, ⟨t, h2⟩ | ⟨s, t, h2⟩⟩
    · match hr1 : r1, h2 with
      | u :: r2, _ =>
        rw [h1]
        simp only
        split <;> simp
    · rw [h2]; simp [h1]
    · rw [h2]
      simp only
      split <;> simp [h1]
  set rs := List.ofFn (fun j => (Classical.choose (rhoForDir_psd (he j) (ls j)),
      fun i => XF.fin (Classical.choose (Classical.choose_spec (rhoForDir_psd (he j) (ls j))) i))) with hrs
  have hrl : rs.length = k := by rw [hrs]; simp
  have hmap : pyMap (fun p : EllObj × ℕ => rhoForDir p.1 (fun i : Fin n => d.data.getD (i.val * k + p.2) 0)) (a.data.zip (List.range k)) =
      .ok rs := by
    refine rho_map es he ls _ _ (by simp [hlen]) (fun j => ?_)
    have : (a.data.zip (List.range k)).get ⟨j.val, by simp [hlen]⟩ = ((es j).obj, j.val) := by simp [ha]
    simp only [this]
    rw [hcol j]
  have h1 : (rs.map Prod.fst).length = (if 1 < (r0 :: r1).length then (r0 :: r1) else [rs.length, 1, 1]).foldr (· * ·) 1 := by
    rw [List.length_map]
    split
    · rw [hrl, ← hkk]
    · simp
  have h2 : (rowMajor (colsOf rs)).length = (if 1 < (r0 :: r1).length then n :: r0 :: r1 else [n, rs.length]).foldr (· * ·) 1 := by
    rw [rowMajor_length]
    split
    · rw [List.foldr_cons, ← hkk, hrl]
    · simp
  refine ⟨⟨_, _, h1⟩, ⟨_, _, h2⟩, ?_, rho_rows es he ls rs hrs _ _ rfl rfl, by show _ = _; simp only [hrl], ?_⟩
  · unfold rho
    simp only [hsh]
    simp only [← hkk]
    simp only [hsizes]
    rw [if_neg hdim]
    match hdat : a.data, hlen with
    | [], h => simp at h; omega
    | [_], h => simp at h; omega
    | e0 :: e1 :: es', _ =>
      rw [hdat] at hmap
      simp only
      rw [if_neg hne1, hmap]
      simp only
      rw [if_neg (by intro h0; rw [h0] at hrl; simp at hrl; omega)]
      simp only [Ellipy.Hyp.reshape_ok h1, Ellipy.Hyp.reshape_ok h2]
  · show (if 1 < (r0 :: r1).length then n :: r0 :: r1 else [n, rs.length]) = d.shape
    rw [hsh, hrl]
    split
    · rfl
    · rename_i h
      have : r1 = [] := by
        cases r1 with
        | nil => rfl
        | cons _ _ => exact absurd (by simp) h
      subst this
      simp at hkk
      rw [hkk]

/-- **C40**, errors: incompatible numbers of ellipsoids and directions, directions of another dimension, or an array of directions
that is not at least a matrix. -/
theorem C40_raises (a : Arr EllObj) (d : Arr ℝ) (h : d.shape.length ≤ 1 ∨ ∃ m r0 r1, d.shape = m :: r0 :: r1 ∧
    ((∃ e ∈ a.data, e.n ≠ m) ∨ (a.data.length ≠ 1 ∧ r0 :: r1 ≠ [1] ∧ a.data.length ≠ (r0 :: r1).foldr (· * ·) 1))) :
    Raises (rho a d) := by
  unfold rho
  rcases h with h | ⟨m, r0, r1, hsh, h⟩
  · split
    · rename_i m r0 r1 hsh; rw [hsh] at h; simp at h
    · exact ⟨_, rfl⟩
  · rw [hsh]
    simp only
    cases hs : rhoSizes a (r0 :: r1) ((r0 :: r1).foldr (· * ·) 1) with
    | error x => exact ⟨x, rfl⟩
    | ok b =>
      cases b with
      | false => exact ⟨_, rfl⟩
      | true =>
        simp only
        rcases h with ⟨e, he, hne⟩ | ⟨h1, h2, h3⟩
        · rw [if_pos (fun hall => hne (hall e he))]; exact ⟨_, rfl⟩
        · exfalso
          unfold rhoSizes at hs
          rw [if_neg (fun h => h.elim h1 h2), if_neg h3] at hs
          injection hs with hs
          rw [decide_eq_true_iff] at hs
          exact h3 (by rw [a.len, hs])

/-- **C40** fails for a plain list of two or more ellipsoids and as many directions: the call raises. -/
theorem C40_violated (a : Arr EllObj) (k : ℕ) (hk : 2 ≤ k) (ha : a.shape = [k]) (d : Arr ℝ) (n : ℕ) (hd : d.shape = [n, k]) :
    Raises (rho a d) := by
  have hlen : a.data.length = k := by rw [a.len, ha]; simp
  unfold rho
  rw [hd]
  simp only
  have : rhoSizes a [k] ([k].foldr (· * ·) 1) = .error .indexError := by
    unfold rhoSizes
    rw [if_neg (fun h => h.elim (fun h => by omega) (fun h => by simp at h; omega)), if_pos (by simp [hlen]), ha]
    simp only
    rw [if_neg (by omega)]
  rw [this]
  exact ⟨_, rfl⟩

/-- A disc and two directions. -/
example : ∃ s b, rho (Arr.vec [discN.obj]) ⟨[2, 2], [1, 0, 0, 1], rfl⟩ = .ok (s, b) ∧ IsRho s b (fun _ => discN) ![![1, 0], ![0, 1]] := by
  obtain ⟨s, b, h, h1, -⟩ := C40_one_ell (k := 2) (Arr.vec [discN.obj]) discN rfl discN_nonDeg.psd ⟨[2, 2], [1, 0, 0, 1], rfl⟩ [2] (by simp)
    ![![1, 0], ![0, 1]] ⟨rfl, rfl, by intro j i; fin_cases j <;> fin_cases i <;> rfl⟩
  exact ⟨s, b, h, h1⟩

/-- A row of two discs and two directions. -/
example : ∃ s b, rho ⟨[1, 2], [discN.obj, discN.obj], rfl⟩ ⟨[2, 2], [1, 0, 0, 1], rfl⟩ = .ok (s, b) ∧
    IsRho s b (fun _ => discN) ![![1, 0], ![0, 1]] := by
  obtain ⟨s, b, h, h1, -⟩ := C40_pairs_partial (k := 2) ⟨[1, 2], [discN.obj, discN.obj], rfl⟩ (fun _ => discN) rfl (le_refl _)
    (fun _ => discN_nonDeg.psd) ⟨[2, 2], [1, 0, 0, 1], rfl⟩ [2] ![![1, 0], ![0, 1]]
    ⟨rfl, rfl, by intro j i; fin_cases j <;> fin_cases i <;> rfl⟩ (Or.inr ⟨rfl, Or.inl ⟨[2], rfl⟩⟩)
  exact ⟨s, b, h, h1⟩

/-- Two discs and one direction. -/
example : ∃ s b, rho (Arr.vec [discN.obj, discN.obj]) ⟨[2, 1], [1, 0], rfl⟩ = .ok (s, b) ∧
    IsRho s b (fun _ : Fin 2 => discN) (fun _ => ![1, 0]) := by
  obtain ⟨s, b, h, h1, -⟩ := C40_one_dir (k := 2) (Arr.vec [discN.obj, discN.obj]) (fun _ => discN) rfl (le_refl _)
    (fun _ => discN_nonDeg.psd) ⟨[2, 1], [1, 0], rfl⟩ ![1, 0] ⟨rfl, rfl, by intro j i; fin_cases j <;> fin_cases i <;> rfl⟩
  exact ⟨s, b, h, h1⟩

end Ellipy.Ell
