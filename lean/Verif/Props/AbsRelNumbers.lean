import Mathlib.Order.Bounds.Basic
import Verif.Props.AbsRelCompare

/-! Property theorem C95: the numbers and the report `abs_rel_compare` returns besides the verdict. -/

set_option linter.unusedSectionVars false

namespace Ellipy
variable {K : Type _} [Field K] [LinearOrder K] [IsStrictOrderedRing K]

private theorem gt_sum {absTol : XF K} {p : K × K} (h : gtTol (|p.1 - p.2|) absTol = true) : gtTol (|p.1| + |p.2|) absTol = true := by
  have htri : |p.1 - p.2| ≤ |p.1| + |p.2| := abs_sub p.1 p.2
  cases absTol <;> simp_all [gtTol]
  exact lt_of_lt_of_le h htri

/-- The branch of `compareValues` without a relative comparison. -/
private def plain (P : List (K × K)) (absTol : XF K) : ARResult K :=
  let m := npAmax (P.map fun p => |p.1 - p.2|)
  ⟨leTol m absTol, some (.fin m), false, none, none, if leTol m absTol then .empty else .absGreater m absTol⟩

private def rels (P : List (K × K)) (absTol : XF K) : List K :=
  P.map fun p => if gtTol (|p.1 - p.2|) absTol then 2 * |p.1 - p.2| / (|p.1| + |p.2|) else 0

private def absOfRels (P : List (K × K)) (absTol : XF K) : List K :=
  P.map fun p => if (if gtTol (|p.1 - p.2|) absTol then 2 * |p.1 - p.2| / (|p.1| + |p.2|) else 0) = npAmax (rels P absTol)
    then |p.1 - p.2| else 0

private theorem compareValues_cases (lv rv : List K) (absTol : XF K) (relTol : Option (XF K)) (hne : lv.zip rv ≠ []) :
    (¬ ((∃ rt, relTol = some rt) ∧ ∃ p ∈ lv.zip rv, gtTol (|p.1 - p.2|) absTol = true) →
      compareValues lv rv absTol relTol (fun x => |x|) = plain (lv.zip rv) absTol) ∧
    (∀ rt, relTol = some rt → (∃ p ∈ lv.zip rv, gtTol (|p.1 - p.2|) absTol = true) →
      ∃ b, compareValues lv rv absTol relTol (fun x => |x|) =
        ⟨b, some (.fin (npAmax ((lv.zip rv).map fun p => |p.1 - p.2|))), true, some (.fin (npAmax (rels (lv.zip rv) absTol))),
          some (.fin (npAmax (absOfRels (lv.zip rv) absTol))),
          if b then .empty else .relGreater (npAmax (rels (lv.zip rv) absTol)) rt (npAmax (absOfRels (lv.zip rv) absTol)) absTol⟩) := by
  have hdiff : (List.zipWith (· - ·) lv rv).map (fun x => |x|) = (lv.zip rv).map (fun p => |p.1 - p.2|) := by
    rw [← List.map_uncurry_zip_eq_zipWith, List.map_map]; rfl
  have hsum : List.zipWith (· + ·) (lv.map (fun x => |x|)) (rv.map (fun x => |x|)) = (lv.zip rv).map (fun p => |p.1| + |p.2|) := by
    rw [← List.map_uncurry_zip_eq_zipWith, List.zip_map, List.map_map]; rfl
  generalize hP : lv.zip rv = P at hdiff hsum hne
  unfold compareValues
  simp only [hdiff, hsum]
  have hie : (P.map (fun p => |p.1 - p.2|)).isEmpty = false := by simpa using hne
  rw [if_neg (by simp [hie])]
  cases relTol with
  | none => exact ⟨fun _ => rfl, fun rt h => by cases h⟩
  | some rt =>
    simp only [List.map_map, List.zip_map', List.zipWith_map, List.zipWith_self, List.any_map]
    have hand : ∀ p : K × K, (gtTol (|p.1 - p.2|) absTol && gtTol (|p.1| + |p.2|) absTol) = gtTol (|p.1 - p.2|) absTol := by
      intro p
      cases h : gtTol (|p.1 - p.2|) absTol with
      | false => rfl
      | true => rw [gt_sum h]; rfl
    have hany : P.any (id ∘ (fun x => gtTol x absTol) ∘ fun p => |p.1 - p.2|) = true ↔
        ∃ p ∈ P, gtTol (|p.1 - p.2|) absTol = true := by simp [List.any_eq_true]
    refine ⟨fun h => ?_, fun rt' hrt hex => ?_⟩
    · rw [if_neg (by rw [hany]; exact fun hh => h ⟨⟨rt, rfl⟩, hh⟩)]
      rfl
    · cases hrt
      rw [if_pos (hany.mpr hex), if_pos]
      swap
      · simp only [Function.comp, id, hand]
        simpa [List.any_eq_true] using hex
      simp only [Function.comp, hand, rels, absOfRels]
      exact ⟨_, rfl⟩

private theorem same_iff (l r : List (XF K)) (h : l.length = r.length) : (specialsReport l r).1 = true ↔ SameSpecials l r := by
  rw [specialsReport_iff l r h]
  unfold SameSpecials
  refine forall₂_congr fun p _ => ?_
  obtain ⟨a, b⟩ := p
  cases a <;> cases b <;> simp [XF.isNan, XF.isFinite, XF.isPInf, XF.isNInf]

/-- What the call computes, in terms of the pairs of finite values. -/
private theorem run (l r : NArr K) (absTol : XF K) (relTol : Option (XF K)) (h : GoodArgs l r absTol relTol) :
    (¬ SameSpecials l.data r.data → absRelCompare l r absTol relTol (fun x => |x|) =
      .ok ⟨false, some .nan, false, some .nan, some .nan, (specialsReport l.data r.data).2⟩) ∧
    (SameSpecials l.data r.data → ∃ lv rv : List K, absRelCompare l r absTol relTol (fun x => |x|) =
        .ok (compareValues lv rv absTol relTol (fun x => |x|)) ∧
      lv.zip rv = (l.data.zip r.data).map (fun p => if p.1.isFinite then (p.1.toK, p.2.toK) else (0, 0))) := by
  obtain ⟨h1, h2, h3, h4, h5, h6⟩ := h
  rw [← tolOk_iff] at h5
  have h6' : relTol.all tolOk = true := by
    cases relTol with
    | none => rfl
    | some t => simpa [tolOk_iff] using h6 t rfl
  have hnum : ∀ k : Kind, k ≠ .other → k.isNumeric = true := by intro k; cases k <;> simp [Kind.isNumeric]
  have hlen : l.data.length = r.data.length := by rw [l.len, r.len, h1]
  unfold absRelCompare
  rw [if_neg (by simp [h1, hnum _ h2, hnum _ h3]), if_neg (by simp [h5]), if_neg (by simp [h6']), ← same_iff _ _ hlen]
  generalize specialsReport l.data r.data = sp
  obtain ⟨b, rep⟩ := sp
  cases b with
  | false => exact ⟨fun _ => rfl, fun hb => by cases hb⟩
  | true =>
    simp only [if_neg h4]
    refine ⟨fun hb => absurd trivial hb, fun _ => ⟨_, _, rfl, ?_⟩⟩
    generalize l.data = ld
    generalize r.data = rd
    induction ld generalizing rd with
    | nil => simp
    | cons a l ih =>
      cases rd with
      | nil => simp
      | cons b r =>
        cases ha : a.isFinite <;> simpa [ha] using ih r

private theorem vals_mem {l r : List (XF K)} (hs : SameSpecials l r) (p : K × K) :
    p ∈ (l.zip r).map (fun p => if p.1.isFinite then (p.1.toK, p.2.toK) else (0, 0)) →
      p ∈ finPairs l r ∨ p = (0, 0) := by
  rw [List.mem_map]
  rintro ⟨⟨a, b⟩, hab, rfl⟩
  rcases hs _ hab with ⟨x, y, he⟩ | he | he | he <;> cases he
  · left; simpa [finPairs, XF.isFinite, XF.toK] using hab
  all_goals right; simp [XF.isFinite]

private theorem mem_vals {l r : List (XF K)} {p : K × K} (hp : p ∈ finPairs l r) :
    p ∈ (l.zip r).map (fun p => if p.1.isFinite then (p.1.toK, p.2.toK) else (0, 0)) :=
  List.mem_map.2 ⟨_, hp, by simp [XF.isFinite, XF.toK]⟩

private theorem relDist_eq (p : K × K) : relDist p = 2 * |p.1 - p.2| / (|p.1| + |p.2|) := by
  unfold relDist
  rw [div_div_eq_mul_div, mul_comm]

/-- **C95** (special values). When the special values differ in place, all numbers are NaN and nothing is compared relatively. -/
theorem C95_specials (l r : NArr K) (absTol : XF K) (relTol : Option (XF K)) (h : GoodArgs l r absTol relTol) (res : ARResult K)
    (hres : absRelCompare l r absTol relTol (fun x => |x|) = .ok res) (hs : ¬ SameSpecials l.data r.data) :
    res.absDiff = some .nan ∧ res.isRelTriggered = false ∧ res.relDiff = some .nan ∧ res.absMRelDiff = some .nan := by
  rw [(run l r absTol relTol h).1 hs] at hres
  cases hres
  exact ⟨rfl, rfl, rfl, rfl⟩

/-- **C95** (empty arrays). Two empty arrays give no numbers at all. -/
theorem C95_empty (l r : NArr K) (absTol : XF K) (relTol : Option (XF K)) (h : GoodArgs l r absTol relTol) (res : ARResult K)
    (hres : absRelCompare l r absTol relTol (fun x => |x|) = .ok res) (hl : l.data = []) :
    res.absDiff = none ∧ res.isRelTriggered = false ∧ res.relDiff = none ∧ res.absMRelDiff = none := by
  have hs : SameSpecials l.data r.data := by rw [hl]; intro p hp; simp at hp
  obtain ⟨lv, rv, h1, h2⟩ := (run l r absTol relTol h).2 hs
  rw [h1] at hres
  cases hres
  rw [hl] at h2
  have hd : (List.zipWith (· - ·) lv rv).map (fun x => |x|) = [] := by
    rw [← List.map_uncurry_zip_eq_zipWith, h2]; rfl
  unfold compareValues
  simp only [hd]
  exact ⟨rfl, rfl, rfl, rfl⟩

private theorem zip_ne {l r : NArr K} (hsh : l.shape = r.shape) (hne : l.data ≠ []) : l.data.zip r.data ≠ [] := by
  have hlen : l.data.length = r.data.length := by rw [l.len, r.len, hsh]
  intro h
  have := congrArg List.length h
  rw [List.length_zip, ← hlen, min_self] at this
  exact hne (List.length_eq_zero_iff.mp this)

private theorem any_iff {l r : List (XF K)} {absTol : XF K} (ha : tolOk absTol = true) (hs : SameSpecials l r) :
    (∃ p ∈ (l.zip r).map (fun p => if p.1.isFinite then (p.1.toK, p.2.toK) else (0, 0)), gtTol (|p.1 - p.2|) absTol = true) ↔
      (farPairs absTol l r).Nonempty := by
  constructor
  · rintro ⟨p, hp, hg⟩
    rcases vals_mem hs p hp with h | rfl
    · exact ⟨p, h, (gtTol_iff _ _).mp hg⟩
    · rw [gtTol_iff_not ha] at hg
      simp [leTol_zero ha] at hg
  · rintro ⟨p, hp, hg⟩
    exact ⟨p, mem_vals hp, (gtTol_iff _ _).mpr hg⟩

/-- **C95** (numbers). When the special values coincide and the arrays are not empty: the absolute difference is the largest
`|x - y|` over finite pairs (0 if there are none); a relative comparison takes place exactly when a relative tolerance is given
and some difference exceeds the absolute tolerance; then the relative difference is the largest one among the pairs whose
difference exceeds the absolute tolerance, and the last number is the largest absolute difference among the pairs
that attain it; without a relative comparison these two numbers are absent. -/
theorem C95_numbers (l r : NArr K) (absTol : XF K) (relTol : Option (XF K)) (h : GoodArgs l r absTol relTol) (res : ARResult K)
    (hres : absRelCompare l r absTol relTol (fun x => |x|) = .ok res) (hs : SameSpecials l.data r.data) (hne : l.data ≠ []) :
    (∃ m, res.absDiff = some (.fin m) ∧ IsGreatest (insert 0 ((fun p : K × K => |p.1 - p.2|) '' finPairs l.data r.data)) m) ∧
    (res.isRelTriggered = true ↔ (∃ rt, relTol = some rt) ∧ (farPairs absTol l.data r.data).Nonempty) ∧
    (res.isRelTriggered = true → ∃ q m, res.relDiff = some (.fin q) ∧ res.absMRelDiff = some (.fin m) ∧
      IsGreatest (relDist '' farPairs absTol l.data r.data) q ∧
      IsGreatest ((fun p : K × K => |p.1 - p.2|) '' {p ∈ farPairs absTol l.data r.data | relDist p = q}) m) ∧
    (res.isRelTriggered = false → res.relDiff = none ∧ res.absMRelDiff = none) := by
  have ha : tolOk absTol = true := (tolOk_iff _).mpr h.2.2.2.2.1
  obtain ⟨lv, rv, h1, h2⟩ := (run l r absTol relTol h).2 hs
  rw [h1] at hres
  have hPne : lv.zip rv ≠ [] := by rw [h2]; simpa using zip_ne h.1 hne
  obtain ⟨c1, c2⟩ := compareValues_cases lv rv absTol relTol hPne
  have hfar := any_iff ha hs
  rw [← h2] at hfar
  have habs : ∃ m, npAmax ((lv.zip rv).map fun p => |p.1 - p.2|) = m ∧
      IsGreatest (insert 0 ((fun p : K × K => |p.1 - p.2|) '' finPairs l.data r.data)) m := by
    refine ⟨_, rfl, ?_, ?_⟩
    · have hm := npAmax_mem (l := (lv.zip rv).map fun p => |p.1 - p.2|) (by simpa using hPne)
      obtain ⟨p, hp, he⟩ := List.mem_map.1 hm
      rw [h2] at hp
      rcases vals_mem hs p hp with h | rfl
      · right; exact ⟨p, h, he⟩
      · left; rw [← he]; simp
    · rintro y (rfl | ⟨p, hp, rfl⟩)
      · obtain ⟨p, hp⟩ := List.exists_mem_of_ne_nil _ hPne
        exact le_trans (abs_nonneg _) (le_npAmax (List.mem_map.2 ⟨p, hp, rfl⟩))
      · exact le_npAmax (List.mem_map.2 ⟨p, h2 ▸ mem_vals hp, rfl⟩)
  obtain ⟨m, hm, hg⟩ := habs
  by_cases ht : (∃ rt, relTol = some rt) ∧ (farPairs absTol l.data r.data).Nonempty
  · obtain ⟨⟨rt, hrt⟩, hfp⟩ := ht
    obtain ⟨b, hb⟩ := c2 rt hrt (hfar.mpr hfp)
    rw [hb] at hres
    cases hres
    refine ⟨⟨m, by rw [hm], hg⟩, iff_of_true rfl ⟨⟨rt, hrt⟩, hfp⟩, fun _ => ?_, fun hh => by cases hh⟩
    have hrel0 : ∀ p ∈ farPairs absTol l.data r.data, 0 < relDist p := by
      rintro p ⟨-, hp⟩
      have hpos : 0 < |p.1 - p.2| := by
        rcases (abs_nonneg (p.1 - p.2)).lt_or_eq with h | h
        · exact h
        · rw [← h, ← gtTol_iff, gtTol_iff_not ha] at hp
          simp [leTol_zero ha] at hp
      rw [relDist_eq]
      exact div_pos (mul_pos two_pos hpos) (lt_of_lt_of_le hpos (abs_sub p.1 p.2))
    have hrelf : ∀ p ∈ farPairs absTol l.data r.data,
        (if gtTol (|p.1 - p.2|) absTol then 2 * |p.1 - p.2| / (|p.1| + |p.2|) else 0) = relDist p := by
      rintro p ⟨-, hp⟩
      rw [if_pos ((gtTol_iff _ _).mpr hp), relDist_eq]
    have hle : ∀ p ∈ farPairs absTol l.data r.data, relDist p ≤ npAmax (rels (lv.zip rv) absTol) := by
      intro p hp
      refine le_npAmax (List.mem_map.2 ⟨p, h2 ▸ mem_vals hp.1, hrelf p hp⟩)
    have hqpos : 0 < npAmax (rels (lv.zip rv) absTol) := by
      obtain ⟨p, hp⟩ := hfp
      exact lt_of_lt_of_le (hrel0 p hp) (hle p hp)
    have hfarOf : ∀ p ∈ lv.zip rv, gtTol (|p.1 - p.2|) absTol = true → p ∈ farPairs absTol l.data r.data := by
      intro p hp hgt
      rw [h2] at hp
      rcases vals_mem hs p hp with h | rfl
      · exact ⟨h, (gtTol_iff _ _).mp hgt⟩
      · rw [gtTol_iff_not ha] at hgt
        simp [leTol_zero ha] at hgt
    have hq : ∃ p ∈ farPairs absTol l.data r.data, relDist p = npAmax (rels (lv.zip rv) absTol) := by
      have hmem := npAmax_mem (l := rels (lv.zip rv) absTol) (by unfold rels; simpa using hPne)
      obtain ⟨p, hp, he⟩ := List.mem_map.1 hmem
      by_cases hgt : gtTol (|p.1 - p.2|) absTol = true
      · have hf := hfarOf p hp hgt
        exact ⟨p, hf, by rw [← hrelf p hf, he]⟩
      · rw [if_neg hgt] at he
        rw [← he] at hqpos
        exact absurd hqpos (lt_irrefl _)
    refine ⟨_, _, rfl, rfl, ⟨?_, ?_⟩, ⟨?_, ?_⟩⟩
    · obtain ⟨p, hp, he⟩ := hq; exact ⟨p, hp, he⟩
    · rintro y ⟨p, hp, rfl⟩; exact hle p hp
    · have hmem := npAmax_mem (l := absOfRels (lv.zip rv) absTol) (by unfold absOfRels; simpa using hPne)
      have hpos : 0 < npAmax (absOfRels (lv.zip rv) absTol) := by
        obtain ⟨p, hp, he⟩ := hq
        refine lt_of_lt_of_le ?_ (le_npAmax (List.mem_map.2 ⟨p, h2 ▸ mem_vals hp.1, rfl⟩))
        rw [hrelf p hp, if_pos he]
        have := hrel0 p hp
        rw [relDist_eq] at this
        by_contra hc
        have h0 : |p.1 - p.2| = 0 := le_antisymm (not_lt.mp hc) (abs_nonneg _)
        rw [h0, mul_zero, zero_div] at this
        exact lt_irrefl _ this
      obtain ⟨p, hp, he⟩ := List.mem_map.1 hmem
      by_cases hc : (if gtTol (|p.1 - p.2|) absTol then 2 * |p.1 - p.2| / (|p.1| + |p.2|) else 0) = npAmax (rels (lv.zip rv) absTol)
      · rw [if_pos hc] at he
        have hgt : gtTol (|p.1 - p.2|) absTol = true := by
          by_contra hn
          rw [if_neg hn] at hc
          rw [← hc] at hqpos
          exact lt_irrefl _ hqpos
        have hf := hfarOf p hp hgt
        exact ⟨p, ⟨hf, by rw [← hrelf p hf, hc]⟩, he⟩
      · rw [if_neg hc] at he
        rw [← he] at hpos
        exact absurd hpos (lt_irrefl _)
    · rintro y ⟨p, ⟨hp, he⟩, rfl⟩
      refine le_npAmax (List.mem_map.2 ⟨p, h2 ▸ mem_vals hp.1, ?_⟩)
      rw [hrelf p hp, if_pos he]
  · rw [c1 (by rw [hfar]; exact ht)] at hres
    cases hres
    refine ⟨⟨m, by rw [← hm]; rfl, hg⟩, iff_of_false (by simp [plain]) ht, fun hh => by simp [plain] at hh, fun _ => ⟨rfl, rfl⟩⟩

/-- **C95** (report, special values). Which of the three messages about special values is given. -/
theorem C95_report_specials (l r : NArr K) (absTol : XF K) (relTol : Option (XF K)) (h : GoodArgs l r absTol relTol) (res : ARResult K)
    (hres : absRelCompare l r absTol relTol (fun x => |x|) = .ok res) :
    (res.report = .nansDiffer ↔ ∃ p ∈ l.data.zip r.data, ¬ (p.1 = .nan ↔ p.2 = .nan)) ∧
    (res.report = .finiteDiffer ↔ (∀ p ∈ l.data.zip r.data, p.1 = .nan ↔ p.2 = .nan) ∧
      ∃ p ∈ l.data.zip r.data, ¬ ((∃ x, p.1 = .fin x) ↔ ∃ y, p.2 = .fin y)) ∧
    (res.report = .infsDiffer ↔ (∀ p ∈ l.data.zip r.data, (p.1 = .nan ↔ p.2 = .nan) ∧ ((∃ x, p.1 = .fin x) ↔ ∃ y, p.2 = .fin y)) ∧
      ∃ p ∈ l.data.zip r.data, p = (.pinf, .ninf) ∨ p = (.ninf, .pinf)) := by
  have hlen : l.data.length = r.data.length := by rw [l.len, r.len, h.1]
  have key : ∀ g : XF K → Bool, l.data.map g = r.data.map g ↔ ∀ p ∈ l.data.zip r.data, g p.1 = g p.2 := by
    intro g
    generalize l.data = ld at hlen
    generalize r.data = rd at hlen
    induction ld generalizing rd with
    | nil => cases rd <;> simp_all
    | cons a l ih =>
      cases rd with
      | nil => simp at hlen
      | cons b r => simp [ih r (by simpa using hlen)]
  have k1 : ∀ p : XF K × XF K, (p.1.isNan = p.2.isNan) ↔ (p.1 = .nan ↔ p.2 = .nan) := by
    rintro ⟨a, b⟩; cases a <;> cases b <;> simp [XF.isNan]
  have k2 : ∀ p : XF K × XF K, (p.1.isFinite = p.2.isFinite) ↔ ((∃ x, p.1 = .fin x) ↔ ∃ y, p.2 = .fin y) := by
    rintro ⟨a, b⟩; cases a <;> cases b <;> simp [XF.isFinite]
  have k3 : ∀ p : XF K × XF K, p.1.isNan = p.2.isNan → p.1.isFinite = p.2.isFinite →
      ((p.1.isPInf = p.2.isPInf ∧ p.1.isNInf = p.2.isNInf) ↔ ¬ (p = (.pinf, .ninf) ∨ p = (.ninf, .pinf))) := by
    rintro ⟨a, b⟩; cases a <;> cases b <;> simp [XF.isNan, XF.isFinite, XF.isPInf, XF.isNInf]
  have hval : ∀ lv rv : List K, (compareValues lv rv absTol relTol (fun x => |x|)).report ≠ .nansDiffer ∧
      (compareValues lv rv absTol relTol (fun x => |x|)).report ≠ .finiteDiffer ∧
      (compareValues lv rv absTol relTol (fun x => |x|)).report ≠ .infsDiffer := by
    intro lv rv
    by_cases hne : lv.zip rv = []
    · have hd : (List.zipWith (· - ·) lv rv).map (fun x => |x|) = [] := by
        rw [← List.map_uncurry_zip_eq_zipWith, hne]; rfl
      unfold compareValues
      simp only [hd]
      simp
    · obtain ⟨c1, c2⟩ := compareValues_cases lv rv absTol relTol hne
      by_cases ht : (∃ rt, relTol = some rt) ∧ ∃ p ∈ lv.zip rv, gtTol (|p.1 - p.2|) absTol = true
      · obtain ⟨⟨rt, hrt⟩, hp⟩ := ht
        obtain ⟨b, hb⟩ := c2 rt hrt hp
        rw [hb]; cases b <;> simp
      · rw [c1 ht]; unfold plain; dsimp only; split_ifs <;> simp
  have hrun := run l r absTol relTol h
  have hsame := same_iff l.data r.data hlen
  by_cases hs : SameSpecials l.data r.data
  · obtain ⟨lv, rv, e1, -⟩ := hrun.2 hs
    rw [e1] at hres
    cases hres
    obtain ⟨v1, v2, v3⟩ := hval lv rv
    refine ⟨iff_of_false v1 ?_, iff_of_false v2 ?_, iff_of_false v3 ?_⟩
    · rintro ⟨p, hp, hh⟩
      rcases hs p hp with ⟨x, y, rfl⟩ | rfl | rfl | rfl <;> simp at hh
    · rintro ⟨-, p, hp, hh⟩
      rcases hs p hp with ⟨x, y, rfl⟩ | rfl | rfl | rfl <;> simp at hh
    · rintro ⟨-, p, hp, hh⟩
      rcases hs p hp with ⟨x, y, rfl⟩ | rfl | rfl | rfl <;> simp at hh
  · rw [hrun.1 hs] at hres
    cases hres
    rw [← hsame] at hs
    unfold specialsReport at hs ⊢
    simp only [key] at hs ⊢
    simp only [← k1, ← k2]
    by_cases c1 : ∀ p ∈ l.data.zip r.data, p.1.isNan = p.2.isNan
    · rw [if_pos c1] at hs ⊢
      by_cases c2 : ∀ p ∈ l.data.zip r.data, p.1.isFinite = p.2.isFinite
      · rw [if_pos c2] at hs ⊢
        by_cases c3 : (∀ p ∈ l.data.zip r.data, p.1.isPInf = p.2.isPInf) ∧ ∀ p ∈ l.data.zip r.data, p.1.isNInf = p.2.isNInf
        · rw [if_pos c3] at hs; exact absurd rfl hs
        · rw [if_neg c3]
          refine ⟨iff_of_false (by simp) ?_, iff_of_false (by simp) ?_, iff_of_true rfl ⟨fun p hp => ⟨c1 p hp, c2 p hp⟩, ?_⟩⟩
          · rintro ⟨p, hp, hh⟩; exact hh (c1 p hp)
          · rintro ⟨-, p, hp, hh⟩; exact hh (c2 p hp)
          · by_contra hc
            apply c3
            have : ∀ p ∈ l.data.zip r.data, p.1.isPInf = p.2.isPInf ∧ p.1.isNInf = p.2.isNInf := fun p hp =>
              (k3 p (c1 p hp) (c2 p hp)).mpr fun hh => hc ⟨p, hp, hh⟩
            exact ⟨fun p hp => (this p hp).1, fun p hp => (this p hp).2⟩
      · rw [if_neg c2]
        refine ⟨iff_of_false (by simp) ?_, iff_of_true rfl ⟨c1, ?_⟩, iff_of_false (by simp) ?_⟩
        · rintro ⟨p, hp, hh⟩; exact hh (c1 p hp)
        · push Not at c2; exact c2
        · rintro ⟨hh, -⟩; exact c2 fun p hp => (hh p hp).2
    · rw [if_neg c1]
      refine ⟨iff_of_true rfl ?_, iff_of_false (by simp) ?_, iff_of_false (by simp) ?_⟩
      · push Not at c1; exact c1
      · rintro ⟨hh, -⟩; exact c1 hh
      · rintro ⟨hh, -⟩; exact c1 fun p hp => (hh p hp).1

/-- **C95** (report, values). When the special values coincide and the verdict is *different*, the report quotes the numbers
returned: the relative ones after a relative comparison, the absolute one otherwise. -/
theorem C95_report_values (l r : NArr K) (absTol : XF K) (relTol : Option (XF K)) (h : GoodArgs l r absTol relTol) (res : ARResult K)
    (hres : absRelCompare l r absTol relTol (fun x => |x|) = .ok res) (hs : SameSpecials l.data r.data) (hneq : res.isEqual = false) :
    (res.isRelTriggered = true → ∃ q rt m, res.relDiff = some (.fin q) ∧ relTol = some rt ∧ res.absMRelDiff = some (.fin m) ∧
      res.report = .relGreater q rt m absTol) ∧
    (res.isRelTriggered = false → ∃ d, res.absDiff = some (.fin d) ∧ res.report = .absGreater d absTol) := by
  obtain ⟨lv, rv, h1, h2⟩ := (run l r absTol relTol h).2 hs
  rw [h1] at hres
  cases hres
  by_cases hne : lv.zip rv = []
  · have hd : (List.zipWith (· - ·) lv rv).map (fun x => |x|) = [] := by
      rw [← List.map_uncurry_zip_eq_zipWith, hne]; rfl
    unfold compareValues at hneq
    simp only [hd] at hneq
    simp at hneq
  · obtain ⟨c1, c2⟩ := compareValues_cases lv rv absTol relTol hne
    by_cases ht : (∃ rt, relTol = some rt) ∧ ∃ p ∈ lv.zip rv, gtTol (|p.1 - p.2|) absTol = true
    · obtain ⟨⟨rt, hrt⟩, hp⟩ := ht
      obtain ⟨b, hb⟩ := c2 rt hrt hp
      rw [hb] at hneq ⊢
      simp only at hneq
      subst hneq
      exact ⟨fun _ => ⟨_, rt, _, rfl, hrt, rfl, rfl⟩, fun hh => by cases hh⟩
    · rw [c1 ht] at hneq ⊢
      have hneq' : leTol (npAmax ((lv.zip rv).map fun p => |p.1 - p.2|)) absTol = false := hneq
      refine ⟨fun hh => by simp [plain] at hh, fun _ => ⟨_, rfl, ?_⟩⟩
      unfold plain
      simp only [hneq']
      rfl

/-- Non-vacuity: NaN and infinity at the same places, differences 1, 3 and 1/1000; the two large ones are compared relatively. -/
private def exL : NArr ℚ := ⟨.f, [5], [.nan, .pinf, .fin 100, .fin 6, .fin 0], rfl⟩
private def exR : NArr ℚ := ⟨.f, [5], [.nan, .pinf, .fin 101, .fin 3, .fin (1/1000)], rfl⟩

private theorem ex_good : GoodArgs exL exR (.fin (1/100)) (some (.fin (1/50))) :=
  ⟨rfl, by decide, by decide, by decide, by norm_num [ValidTol], by intro t ht; cases ht; norm_num [ValidTol]⟩

private theorem ex_same : SameSpecials exL.data exR.data := by
  intro p hp
  simp only [exL, exR, List.zip_cons_cons, List.zip_nil_left, List.mem_cons, List.not_mem_nil, or_false] at hp
  rcases hp with rfl | rfl | rfl | rfl | rfl <;> simp

private theorem ex_far (p : ℚ × ℚ) : p ∈ farPairs (.fin (1/100)) exL.data exR.data ↔ p = (100, 101) ∨ p = (6, 3) := by
  obtain ⟨x, y⟩ := p
  unfold farPairs finPairs
  simp only [exL, exR, List.zip_cons_cons, List.zip_nil_left, List.mem_cons, List.not_mem_nil, or_false, Set.mem_setOf_eq,
    Prod.mk.injEq, reduceCtorEq, XF.fin.injEq, false_and, false_or, Exceeds]
  constructor
  · rintro ⟨⟨rfl, rfl⟩ | ⟨rfl, rfl⟩ | ⟨rfl, rfl⟩, h⟩
    · simp
    · simp
    · norm_num [abs_of_neg] at h
  · rintro (⟨rfl, rfl⟩ | ⟨rfl, rfl⟩)
    · exact ⟨by simp, by norm_num [abs_of_neg]⟩
    · exact ⟨by simp, by norm_num [abs_of_pos]⟩

example : ∃ res, absRelCompare exL exR (.fin (1/100)) (some (.fin (1/50))) (fun x => |x|) = .ok res ∧
    res.isEqual = false ∧ res.isRelTriggered = true ∧ res.relDiff = some (.fin (2/3)) ∧ res.absMRelDiff = some (.fin 3) ∧
    res.report = .relGreater (2/3) (.fin (1/50)) 3 (.fin (1/100)) := by
  obtain ⟨res, h1, h2⟩ := C06_verdict exL exR _ _ ex_good
  obtain ⟨-, n2, n3, -⟩ := C95_numbers exL exR _ _ ex_good res h1 ex_same (by simp [exL])
  have ht : res.isRelTriggered = true := n2.mpr ⟨⟨_, rfl⟩, (6, 3), (ex_far _).mpr (Or.inr rfl)⟩
  obtain ⟨q, m, hq, hm, gq, gm⟩ := n3 ht
  have hq' : q = 2 / 3 := by
    obtain ⟨p, hp, he⟩ := gq.1
    have hle := gq.2 ⟨(6, 3), (ex_far _).mpr (Or.inr rfl), rfl⟩
    rcases (ex_far p).mp hp with rfl | rfl
    · rw [← he] at hle
      norm_num [relDist, abs_of_neg, abs_of_pos] at hle
    · rw [← he]; norm_num [relDist, abs_of_pos]
  subst hq'
  have hm' : m = 3 := by
    obtain ⟨p, ⟨hp, hr⟩, he⟩ := gm.1
    rcases (ex_far p).mp hp with rfl | rfl
    · norm_num [relDist, abs_of_neg, abs_of_pos] at hr
    · rw [← he]; norm_num
  subst hm'
  have hneq : res.isEqual = false := by
    cases hb : res.isEqual with
    | false => rfl
    | true =>
      have := h2.mp hb
      cases this with | cons _ h => cases h with | cons _ h => cases h with | cons _ h => cases h with | cons h4 h =>
      rcases h4 with h4 | ⟨rt, hrt, -, h4⟩
      · norm_num [Within, abs_of_pos] at h4
      · cases hrt; norm_num [Within, abs_of_pos] at h4
  refine ⟨res, h1, hneq, ht, hq, hm, ?_⟩
  obtain ⟨q, rt, m, e1, e2, e3, e4⟩ := (C95_report_values exL exR _ _ ex_good res h1 ex_same hneq).1 ht
  rw [e4]
  rw [hq] at e1
  rw [hm] at e3
  cases e1; cases e2; cases e3
  rfl

/-- A NaN facing a number is reported as such, even when other entries differ in other ways. -/
example : ∃ res, absRelCompare (⟨.f, [2], [.pinf, .nan], rfl⟩ : NArr ℚ) ⟨.f, [2], [.fin 1, .fin 2], rfl⟩ (.fin 0) none (fun x => |x|) = .ok res ∧
    res.report = .nansDiffer ∧ res.absDiff = some .nan := by
  have hg : GoodArgs (⟨.f, [2], [.pinf, .nan], rfl⟩ : NArr ℚ) ⟨.f, [2], [.fin 1, .fin 2], rfl⟩ (.fin 0) none :=
    ⟨rfl, by decide, by decide, by decide, le_rfl, by intro t ht; cases ht⟩
  obtain ⟨res, h1, -⟩ := C06_verdict _ _ _ _ hg
  refine ⟨res, h1, (C95_report_specials _ _ _ _ hg res h1).1.mpr ⟨(.nan, .fin 2), by simp, by simp⟩,
    (C95_specials _ _ _ _ hg res h1 ?_).1⟩
  intro hs
  have := hs (.nan, .fin 2) (by simp)
  simp at this

end Ellipy
