import Verif.Model.ObjText
import Verif.Props.HyperplaneEq

/-! Property theorems C113: the texts of ellipsoids and hyperplanes.

`R` is how numpy writes the numbers of an array of a given shape.  No text of numbers contains a quotation mark (`NoQuote`).  numpy rounds, so different
arrays may be written alike. -/

namespace Ellipy.Text
open Ellipy.Ell Ellipy.Hyp

/-- No text of an array contains a quotation mark. -/
def NoQuote (R : List ℕ → List (XF ℝ) → List Char) : Prop := ∀ s d, '\'' ∉ R s d

/-- Two vectors are written alike. -/
def VecAlike (R : List ℕ → List (XF ℝ) → List Char) {n m : ℕ} (u : Fin n → ℝ) (v : Fin m → ℝ) : Prop :=
  R [n] (List.ofFn fun i => .fin (u i)) = R [m] (List.ofFn fun i => .fin (v i))

/-- Two numbers are written alike. -/
def NumAlike (R : List ℕ → List (XF ℝ) → List Char) (x y : ℝ) : Prop := R [] [.fin x] = R [] [.fin y]

/-- Two square matrices are written alike (row by row). -/
def MatAlike (R : List ℕ → List (XF ℝ) → List Char) {n m : ℕ} (P : Matrix (Fin n) (Fin n) ℝ) (Q : Matrix (Fin m) (Fin m) ℝ) : Prop :=
  R [n, n] ((List.ofFn fun i => List.ofFn fun j => XF.fin (P i j)).flatten) = R [m, m] ((List.ofFn fun i => List.ofFn fun j => XF.fin (Q i j)).flatten)

private theorem split_at {α : Type} [DecidableEq α] (q : α) : ∀ (x x' r r' : List α), q ∉ x → q ∉ x' → x ++ q :: r = x' ++ q :: r' → x = x' ∧ r = r'
  | [], [], r, r', _, _, h => by simpa using h
  | [], b :: x', r, r', _, h2, h => by
    simp only [List.nil_append, List.cons_append, List.cons.injEq] at h
    exact absurd (by rw [h.1]; exact List.mem_cons_self) h2
  | a :: x, [], r, r', h1, _, h => by
    simp only [List.nil_append, List.cons_append, List.cons.injEq] at h
    exact absurd (by rw [← h.1]; exact List.mem_cons_self) h1
  | a :: x, b :: x', r, r', h1, h2, h => by
    simp only [List.cons_append, List.cons.injEq] at h
    obtain ⟨e1, e2⟩ := h
    obtain ⟨e3, e4⟩ := split_at q x x' r r' (fun hm => h1 (List.mem_cons_of_mem _ hm)) (fun hm => h2 (List.mem_cons_of_mem _ hm)) e2
    exact ⟨by rw [e1, e3], e4⟩

private theorem dict2_gen {v1 v2 w1 w2 o q1 q2 s1 s2 z : List Char} (hs : '\'' ∉ s2) (h1 : '\'' ∉ v1) (h2 : '\'' ∉ w1)
    (h : o ++ q1 ++ s1 ++ v1 ++ s2 ++ ('\'' :: q2) ++ s1 ++ v2 ++ z = o ++ q1 ++ s1 ++ w1 ++ s2 ++ ('\'' :: q2) ++ s1 ++ w2 ++ z) :
    v1 = w1 ∧ v2 = w2 := by
  simp only [List.append_assoc] at h
  have h3 := List.append_cancel_left (List.append_cancel_left (List.append_cancel_left h))
  rw [← List.append_assoc, ← List.append_assoc w1, List.cons_append, List.cons_append] at h3
  obtain ⟨h5, h6⟩ := split_at '\'' _ _ _ _ (by simp [h1, hs]) (by simp [h2, hs]) h3
  exact ⟨List.append_cancel_right h5, List.append_cancel_right (List.append_cancel_left (List.append_cancel_left h6))⟩

private theorem dict2_inj {k1 k2 v1 v2 w1 w2 : List Char} (h1 : '\'' ∉ v1) (h2 : '\'' ∉ w1) (h : dict2 k1 v1 k2 v2 = dict2 k1 w1 k2 w2) :
    v1 = w1 ∧ v2 = w2 :=
  dict2_gen (o := "{".toList) (q1 := quoted k1) (q2 := k2 ++ "'".toList) (s1 := ": ".toList) (s2 := ", ".toList) (z := "}".toList)
    (by decide) h1 h2 h

private theorem quoted_eq (c : String) : quoted c.toList = ("'" ++ c ++ "'").toList := by
  simp only [quoted, String.toList_append]

private theorem dict2_eq (k1 v1 k2 v2 : String) :
    dict2 k1.toList v1.toList k2.toList v2.toList = ("{" ++ ("'" ++ k1 ++ "'") ++ ": " ++ v1 ++ ", " ++ ("'" ++ k2 ++ "'") ++ ": " ++ v2 ++ "}").toList := by
  simp only [dict2, quoted, String.toList_append]

private theorem dict2_eq' (k1 k2 : String) (v1 v2 : List Char) :
    dict2 k1.toList v1 k2.toList v2 = ("{'" ++ k1 ++ "': ").toList ++ v1 ++ (", '" ++ k2 ++ "': ").toList ++ v2 ++ "}".toList := by
  have e1 : "{'".toList = "{".toList ++ "'".toList := by simp only [← String.toList_append, String.reduceAppend]
  have e2 : ", '".toList = ", ".toList ++ "'".toList := by simp only [← String.toList_append, String.reduceAppend]
  have e3 : "': ".toList = "'".toList ++ ": ".toList := by simp only [← String.toList_append, String.reduceAppend]
  simp only [dict2, quoted, String.toList_append, e1, e2, e3, List.append_assoc]

private theorem fieldLine_eq (k1 v1 : String) : fieldLine k1.toList v1.toList = ("    " ++ k1 ++ "    float64    " ++ v1 ++ "\n").toList := by
  simp only [fieldLine, String.toList_append]

private theorem objText_eq (t c n1 d1 n2 d2 : String) (x : List Char) :
    objText t.toList c.toList n1.toList d1.toList n2.toList d2.toList x =
      ("\n" ++ "-------" ++ t ++ " object-------\n" ++ "Properties:\n" ++ ("{" ++ ("'" ++ "actualClass" ++ "'") ++ ": " ++ ("'" ++ c ++ "'") ++ ", " ++
        ("'" ++ "shape" ++ "'") ++ ": " ++ ("'" ++ "()" ++ "'") ++ "}") ++ "\n" ++ "Fields (name, type, description):\n" ++
        ("    " ++ n1 ++ "    float64    " ++ d1 ++ "\n") ++ ("    " ++ n2 ++ "    float64    " ++ d2 ++ "\n") ++ "\nData: \n").toList ++ x := by
  delta objText
  rw [quoted_eq, quoted_eq, dict2_eq, fieldLine_eq, fieldLine_eq]
  simp only [← String.toList_append]

private theorem objText_pre (t c n1 d1 n2 d2 : List Char) : ∃ pre, ∀ x, objText t c n1 d1 n2 d2 x = pre ++ x := ⟨_, fun _ => rfl⟩

private theorem objText_inj {t c n1 d1 n2 d2 x y : List Char} : objText t c n1 d1 n2 d2 x = objText t c n1 d1 n2 d2 y ↔ x = y := by
  obtain ⟨pre, hp⟩ := objText_pre t c n1 d1 n2 d2
  rw [hp, hp, List.append_cancel_left_eq]

private theorem ofFn_divMod {n : ℕ} (Q : Matrix (Fin n) (Fin n) ℝ) : List.ofFn (fun k : Fin (n * n) => XF.fin (Q k.divNat k.modNat)) =
    (List.ofFn fun i => List.ofFn fun j => XF.fin (Q i j)).flatten := by
  rw [List.ofFn_mul]
  congr 2
  funext i
  congr 1
  funext j
  have hn : 0 < n := lt_of_le_of_lt (Nat.zero_le _) j.2
  congr 2
  · ext; simp [Fin.divNat, Nat.add_div, Nat.div_eq_of_lt j.2, hn, Nat.mod_eq_of_lt j.2]
  · ext; simp [Fin.modNat, Nat.mod_eq_of_lt j.2]

private theorem hypText_canon {R : List ℕ → List (XF ℝ) → List Char} {h : HypObj} (hn : ∃ i, h.nrm i ≠ 0) (hN : ¬ Negligible h) :
    ∃ u s, Canon h u s ∧ hypText R h = .ok (objText "hyperplane".toList "Hyperplane".toList "normal".toList "Hyperplane normal.".toList "shift".toList
      "Hyperplane shift along normal from origin.".toList (dict2 "normal_vec".toList (R [h.n] (List.ofFn fun i => .fin (u i))) "shift".toList (R [] [.fin s]))) := by
  obtain ⟨u, s, h1, h2⟩ := toDictOne_canon hn hN
  exact ⟨u, s, h1, by simp only [hypText, h2, List.length_ofFn]⟩

/-- **C113** (layout).  The whole text of an ellipsoid, with the shape matrix written row by row. -/
theorem C113_ell_layout {R : List ℕ → List (XF ℝ) → List Char} (e : EllObj) :
    ellText R e = "\n-------ellipsoid object-------\nProperties:\n{'actualClass': 'Ellipsoid', 'shape': '()'}\nFields (name, type, description):\n    QSqrt    float64    Ellipsoid shape matrix.\n    q    float64    Ellipsoid center vector.\n\nData: \n{'shape_mat': ".toList ++
      R [e.n, e.n] ((List.ofFn fun i => List.ofFn fun j => XF.fin (e.Q i j)).flatten) ++ ", 'center_vec': ".toList ++
      R [e.n] (List.ofFn fun i => .fin (e.c i)) ++ "}".toList := by
  rw [← ofFn_divMod, ellText, objText_eq, dict2_eq']
  simp only [← List.append_assoc, ← String.toList_append, String.reduceAppend]

/-- **C113** (layout).  The whole text of a hyperplane with non-zero normal that is not negligible, with its normal form `u`, `s`. -/
theorem C113_hyp_layout {R : List ℕ → List (XF ℝ) → List Char} {h : HypObj} (hn : ∃ i, h.nrm i ≠ 0) (hN : ¬ Negligible h) :
    ∃ u s, Canon h u s ∧ hypText R h = .ok ("\n-------hyperplane object-------\nProperties:\n{'actualClass': 'Hyperplane', 'shape': '()'}\nFields (name, type, description):\n    normal    float64    Hyperplane normal.\n    shift    float64    Hyperplane shift along normal from origin.\n\nData: \n{'normal_vec': ".toList ++
      R [h.n] (List.ofFn fun i => .fin (u i)) ++ ", 'shift': ".toList ++ R [] [.fin s] ++ "}".toList) := by
  obtain ⟨u, s, h1, h2⟩ := hypText_canon (R := R) hn hN
  refine ⟨u, s, h1, ?_⟩
  rw [h2, objText_eq, dict2_eq']
  simp only [← List.append_assoc, ← String.toList_append, String.reduceAppend]

/-- **C113** (ellipsoids).  Two ellipsoids have the same text exactly when their centres are written alike and their shape matrices are written alike; the
properties do not appear. -/
theorem C113_ell {R : List ℕ → List (XF ℝ) → List Char} (hq : NoQuote R) (e g : EllObj) :
    ellText R e = ellText R g ↔ VecAlike R e.c g.c ∧ MatAlike R e.Q g.Q := by
  have hfl : ∀ {n : ℕ} (Q : Matrix (Fin n) (Fin n) ℝ), (List.ofFn fun i => List.ofFn fun j => XF.fin (Q i j)).flatten =
      List.ofFn (fun k : Fin (n * n) => XF.fin (Q k.divNat k.modNat)) := fun {n} Q => (ofFn_divMod Q).symm
  simp only [ellText, objText_inj, VecAlike, MatAlike, hfl]
  constructor
  · intro h
    exact (dict2_inj (hq _ _) (hq _ _) h).symm
  · rintro ⟨h1, h2⟩
    rw [h1, h2]

/-- **C113** (hyperplanes, errors).  Only a hyperplane without coordinates has no text. -/
theorem C113_raises_iff {R : List ℕ → List (XF ℝ) → List Char} (h : HypObj) : Raises (hypText R h) ↔ h.n = 0 := by
  rw [← toDictOne_raises]
  unfold hypText
  cases toDictOne h with
  | error e => exact ⟨fun _ => ⟨e, rfl⟩, fun _ => ⟨e, rfl⟩⟩
  | ok d =>
    constructor
    · rintro ⟨e, he⟩; cases he
    · rintro ⟨e, he⟩; cases he

/-- Two hyperplanes with non-zero normals are the same set exactly when normals and shifts have the same ratio. -/
theorem set_eq_iff {n : ℕ} {a b : Fin n → ℝ} {s t tA tR tA' tR' : ℝ} (ha : ∃ i, a i ≠ 0) (hb : ∃ i, b i ≠ 0) :
    HypObj.set ⟨n, a, s, tA, tR⟩ = HypObj.set ⟨n, b, t, tA', tR'⟩ ↔ ∃ k : ℝ, k ≠ 0 ∧ (∀ i, b i = k * a i) ∧ t = k * s := by
  have hset : ∀ (a : Fin n → ℝ) (s tA tR : ℝ) (x : Fin n → ℝ), x ∈ HypObj.set ⟨n, a, s, tA, tR⟩ ↔ ∑ i, a i * x i = s := fun _ _ _ _ _ => Iff.rfl
  constructor
  · intro h
    have key : ∀ x : Fin n → ℝ, ∑ i, a i * x i = s → ∑ i, b i * x i = t := fun x hx => by
      rw [← hset b t tA' tR', ← h]; exact hx
    have hN : 0 < ∑ i, a i * a i := by
      obtain ⟨i, hi⟩ := ha
      refine lt_of_lt_of_le (mul_self_pos.2 hi) (Finset.single_le_sum (f := fun i => a i * a i) (fun j _ => mul_self_nonneg _) (Finset.mem_univ i))
    set N := ∑ i, a i * a i with hNd
    set p := ∑ i, a i * b i with hpd
    have ex : ∀ (u v : Fin n → ℝ) (r q : ℝ), ∑ i, u i * (r * a i + q * v i) = r * (∑ i, u i * a i) + q * ∑ i, u i * v i := by
      intro u v r q
      rw [Finset.mul_sum, Finset.mul_sum, ← Finset.sum_add_distrib]
      exact Finset.sum_congr rfl fun i _ => by ring
    have hba : ∑ i, b i * a i = p := Finset.sum_congr rfl fun i _ => mul_comm _ _
    have k0 := key (fun i => s / N * a i + 0 * b i) (by rw [ex, ← hNd]; field_simp; ring)
    have k1 := key (fun i => (s - p) / N * a i + 1 * b i) (by rw [ex, ← hNd, ← hpd]; field_simp; ring)
    rw [ex, hba] at k0 k1
    -- |b|² N = p²
    have hbb : ∑ i, b i * b i = p * p / N := by
      have : (s - p) / N * p + 1 * ∑ i, b i * b i = s / N * p + 0 * ∑ i, b i * b i := by rw [k1, k0]
      field_simp at this ⊢
      linarith
    have hz : ∀ i, b i = p / N * a i := by
      have : ∑ i, (b i - p / N * a i) ^ 2 = 0 := by
        have e : ∑ i, (b i - p / N * a i) ^ 2 = ∑ i, b i * b i - 2 * (p / N) * ∑ i, a i * b i + (p / N) ^ 2 * ∑ i, a i * a i := by
          rw [Finset.mul_sum, Finset.mul_sum, ← Finset.sum_sub_distrib, ← Finset.sum_add_distrib]
          exact Finset.sum_congr rfl fun i _ => by ring
        rw [e, hbb, ← hNd, ← hpd]
        field_simp
        ring
      rw [Finset.sum_eq_zero_iff_of_nonneg fun i _ => sq_nonneg _] at this
      intro i
      have := pow_eq_zero_iff (two_ne_zero) |>.1 (this i (Finset.mem_univ i))
      linarith
    refine ⟨p / N, fun h0 => ?_, hz, ?_⟩
    · obtain ⟨i, hi⟩ := hb
      exact hi (by rw [hz i, h0, zero_mul])
    · rw [← k0]; field_simp; ring
  · rintro ⟨k, hk, h1, rfl⟩
    ext x
    rw [hset, hset]
    have : ∑ i, b i * x i = k * ∑ i, a i * x i := by
      rw [Finset.mul_sum]; exact Finset.sum_congr rfl fun i _ => by rw [h1]; ring
    rw [this]
    exact ⟨fun h => by rw [h], fun h => mul_left_cancel₀ hk h⟩

/-- **C113** (hyperplanes, exactly).  Hyperplanes with non-zero normals, neither of them negligible, have the same text exactly when their normal forms are
written alike. -/
theorem C113_hyp_iff {R : List ℕ → List (XF ℝ) → List Char} (hq : NoQuote R) {h g : HypObj} (hn : ∃ i, h.nrm i ≠ 0) (hn' : ∃ i, g.nrm i ≠ 0)
    (hN : ¬ Negligible h) (hN' : ¬ Negligible g) :
    hypText R h = hypText R g ↔ ∃ u s v t, Canon h u s ∧ Canon g v t ∧ VecAlike R u v ∧ NumAlike R s t := by
  obtain ⟨u, p, h1, h2⟩ := hypText_canon (R := R) hn hN
  obtain ⟨v, q, h3, h4⟩ := hypText_canon (R := R) hn' hN'
  rw [h2, h4]
  constructor
  · intro h
    simp only [Except.ok.injEq, objText_inj] at h
    obtain ⟨e1, e2⟩ := dict2_inj (hq _ _) (hq _ _) h
    exact ⟨u, p, v, q, h1, h3, e1, e2⟩
  · rintro ⟨u', p', v', q', h5, h6, h7, h8⟩
    obtain ⟨rfl, rfl⟩ := canon_unique h1 h5
    obtain ⟨rfl, rfl⟩ := canon_unique h3 h6
    unfold VecAlike at h7
    unfold NumAlike at h8
    rw [h7, h8]

/-- **C113** (hyperplanes, partial).  The same set has the same text, if it does not contain the origin (what is missing: hyperplanes through the origin,
see `C113_hyp_violation`). -/
theorem C113_hyp_partial {R : List ℕ → List (XF ℝ) → List Char} {n : ℕ} {a b : Fin n → ℝ} {s t tA tR tA' tR' : ℝ}
    (ha : ∃ i, a i ≠ 0) (hb : ∃ i, b i ≠ 0) (hN : ¬ Negligible ⟨n, a, s, tA, tR⟩) (hN' : ¬ Negligible ⟨n, b, t, tA', tR'⟩)
    (h0 : (0 : Fin n → ℝ) ∉ HypObj.set ⟨n, a, s, tA, tR⟩)
    (h : HypObj.set ⟨n, a, s, tA, tR⟩ = HypObj.set ⟨n, b, t, tA', tR'⟩) :
    hypText R ⟨n, a, s, tA, tR⟩ = hypText R ⟨n, b, t, tA', tR'⟩ := by
  obtain ⟨k, hk, e1, e2⟩ := (set_eq_iff ha hb).1 h
  have hs : s ≠ 0 := fun hs => h0 (show ∑ i, a i * (0 : Fin n → ℝ) i = s by simp [hs])
  obtain ⟨u, p, h1, h2⟩ := hypText_canon (R := R) (h := ⟨n, a, s, tA, tR⟩) ha hN
  obtain ⟨v, q, h3, h4⟩ := hypText_canon (R := R) (h := ⟨n, b, t, tA', tR'⟩) hb hN'
  have : Canon ⟨n, b, t, tA', tR'⟩ u p := by
    obtain ⟨c1, c2, r, c3, c4, c5, c6⟩ := h1
    simp only at c5 c6
    refine ⟨c1, c2, k * r, mul_ne_zero hk c3, fun h0 => absurd (by rw [c6, h0, mul_zero]) hs, fun i => ?_, ?_⟩
    · show b i = _
      rw [e1, c5]; ring
    · show t = _
      rw [e2, c6]; ring
  obtain ⟨e3, e4⟩ := canon_unique this h3
  rw [h2, h4, e3, e4]

/-- **C113** (violation).  `x = 0` and `-x = 0` are the same set; their texts are different as soon as the numbers 1 and -1 are written differently. -/
theorem C113_hyp_violation {R : List ℕ → List (XF ℝ) → List Char} (hq : NoQuote R) (hR : R [1] [.fin 1] ≠ R [1] [.fin (-1)]) :
    ∃ (a b : Fin 1 → ℝ) (tA tR : ℝ), 0 < tA ∧ 0 < tR ∧ ¬ Negligible ⟨1, a, 0, tA, tR⟩ ∧ ¬ Negligible ⟨1, b, 0, tA, tR⟩ ∧
      HypObj.set ⟨1, a, 0, tA, tR⟩ = HypObj.set ⟨1, b, 0, tA, tR⟩ ∧ hypText R ⟨1, a, 0, tA, tR⟩ ≠ hypText R ⟨1, b, 0, tA, tR⟩ := by
  have hN : ∀ c : ℝ, |c| = 1 → ¬ Negligible ⟨1, fun _ => c, 0, 1 / 10, 1 / 10⟩ := by
    rintro c hc ⟨-, h1, -⟩
    have : |c| ≤ 1 / 10 := h1 (0 : Fin 1)
    rw [hc] at this; norm_num at this
  refine ⟨fun _ => 1, fun _ => -1, 1 / 10, 1 / 10, by norm_num, by norm_num, hN 1 (by norm_num), hN (-1) (by norm_num), ?_, fun h => ?_⟩
  · exact (set_eq_iff ⟨0, by norm_num⟩ ⟨0, by norm_num⟩).2 ⟨-1, by norm_num, by simp, by simp⟩
  · obtain ⟨u, s, v, t, h1, h2, h3, -⟩ := (C113_hyp_iff hq (h := ⟨1, fun _ => 1, 0, 1 / 10, 1 / 10⟩) (g := ⟨1, fun _ => -1, 0, 1 / 10, 1 / 10⟩)
      ⟨(0 : Fin 1), by norm_num⟩ ⟨(0 : Fin 1), by norm_num⟩ (hN 1 (by norm_num)) (hN (-1) (by norm_num))).1 h
    have c1 : Canon ⟨1, fun _ => 1, 0, 1 / 10, 1 / 10⟩ (fun _ => 1) 0 :=
      ⟨by show ∑ i : Fin 1, (1 : ℝ) ^ 2 = 1; simp, le_refl _, 1, one_ne_zero, fun _ => one_pos, fun _ => (one_mul 1).symm, (mul_zero 1).symm⟩
    have c2 : Canon ⟨1, fun _ => -1, 0, 1 / 10, 1 / 10⟩ (fun _ => -1) 0 :=
      ⟨by show ∑ i : Fin 1, (-1 : ℝ) ^ 2 = 1; simp, le_refl _, 1, one_ne_zero, fun _ => one_pos, fun _ => (one_mul (-1)).symm, (mul_zero 1).symm⟩
    obtain ⟨rfl, -⟩ := canon_unique h1 c1
    obtain ⟨rfl, -⟩ := canon_unique h2 c2
    exact hR (by simpa [VecAlike] using h3)

open Classical in
/-- A way of writing arrays that meets the hypotheses: the signs of the entries. -/
noncomputable def signs (_ : List ℕ) (d : List (XF ℝ)) : List Char :=
  d.map fun x => if ∃ y : ℝ, x = .fin y ∧ y < 0 then '-' else '+'

example : NoQuote signs ∧ signs [1] [.fin 1] ≠ signs [1] [.fin (-1)] := by
  constructor
  · intro s d h
    simp only [signs, List.mem_map] at h
    obtain ⟨x, -, h⟩ := h
    split_ifs at h <;> exact absurd h (by decide)
  · have h1 : ¬ ∃ y : ℝ, (XF.fin 1 : XF ℝ) = .fin y ∧ y < 0 := by
      rintro ⟨y, h1, h2⟩
      have : (1 : ℝ) = y := by simpa using h1
      linarith
    have h2 : ∃ y : ℝ, (XF.fin (-1) : XF ℝ) = .fin y ∧ y < 0 := ⟨-1, rfl, by norm_num⟩
    simp only [signs, List.map_cons, List.map_nil, if_neg h1, if_pos h2]
    decide

/-- The line `x = 2` of the real axis, and the same set described with other numbers and tolerances. -/
example : hypText signs ⟨1, fun _ => 1, 2, 1 / 10, 1 / 10⟩ = hypText signs ⟨1, fun _ => -3, -6, 1 / 100, 1⟩ := by
  refine C113_hyp_partial ⟨0, by norm_num⟩ ⟨0, by norm_num⟩ ?_ ?_ ?_ ?_
  · rintro ⟨-, -, h⟩
    have : |(2 : ℝ)| ≤ 1 / 10 := h
    norm_num at this
  · rintro ⟨-, -, h⟩
    have : |(-6 : ℝ)| ≤ 1 / 100 := h
    norm_num at this
  · intro h
    have : ∑ i : Fin 1, (1 : ℝ) * (0 : Fin 1 → ℝ) i = 2 := h
    norm_num at this
  · exact (set_eq_iff ⟨0, by norm_num⟩ ⟨0, by norm_num⟩).2 ⟨-3, by norm_num, by simp, by norm_num⟩

end Ellipy.Text
