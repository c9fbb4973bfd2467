import Verif.Props.BoundaryInternal
import Verif.Proofs.Support

/-! Property theorems C129: laws that connect several calls of `is_internal`. -/

namespace Ellipy.Ell
open Matrix Ellipy.LA

private theorem psd_scaled {n : ℕ} {Q : Matrix (Fin n) (Fin n) ℝ} {r : ℝ} (hr : 0 ≤ r) (hQ : IsPSD Q) : IsPSD (r • Q) :=
  ⟨by rw [transpose_smul, hQ.1], fun x => by rw [smul_mulVec, dotProduct_smul, smul_eq_mul]; exact mul_nonneg hr (hQ.2 x)⟩

/-- For every ellipsoid there is one region, convex and symmetric about the centre, of the points that get the answer yes. -/
theorem region_exists (E : Eigh) (G : Eig) {n : ℕ} (hn : n ≠ 0) (e : EllN n) (he : e.PSD) : ∃ S : Set (Fin n → ℝ),
    Convex ℝ S ∧ e.c ∈ S ∧ (∀ x ∈ S, e.c + e.c - x ∈ S) ∧ ∀ x, ∃ b, singleInternal E G x e.obj = .ok b ∧ (b = true ↔ x ∈ S) := by
  obtain ⟨R, h1, h2, -, h4⟩ := regShape_pos E G hn he
  have hR := pd_psd h2 h4
  have hRs : ∀ s : ℝ, IsPSD (s ^ 2 • R) := fun s => psd_scaled (sq_nonneg s) hR
  have hmono : ∀ {s t : ℝ}, 0 < s → s ≤ t → Ell e.c (s ^ 2 • R) ⊆ Ell e.c (t ^ 2 • R) := by
    intro s t hs hst x hx
    rw [mem_ell_sqrt (hRs _)] at hx ⊢
    intro l
    refine (hx l).trans ?_
    have : l ⬝ᵥ (s ^ 2 • R) *ᵥ l ≤ l ⬝ᵥ (t ^ 2 • R) *ᵥ l := by
      rw [smul_mulVec, smul_mulVec, dotProduct_smul, dotProduct_smul, smul_eq_mul, smul_eq_mul]
      exact mul_le_mul_of_nonneg_right (pow_le_pow_left₀ hs.le hst 2) (hR.2 l)
    have := Real.sqrt_le_sqrt this
    linarith
  refine ⟨{x | ∃ s : ℝ, 0 < s ∧ s < 1 + e.props.absTol ∧ x ∈ Ell e.c (s ^ 2 • R)}, ?_, ?_, ?_, fun x => singleInternal_of E G x e he.1.1 h1 h2 h4⟩
  · rintro x ⟨s, hs, hs1, hx⟩ y ⟨t, ht, ht1, hy⟩ p q hp hq hpq
    rcases le_total s t with h | h
    · exact ⟨t, ht, ht1, ell_convex (hRs t) (hmono hs h hx) hy hp hq hpq⟩
    · exact ⟨s, hs, hs1, ell_convex (hRs s) hx (hmono ht h hy) hp hq hpq⟩
  · exact ⟨1, one_pos, by have := he.1.1; linarith, ell_center (hRs 1)⟩
  · rintro x ⟨s, hs, hs1, hx⟩
    refine ⟨s, hs, hs1, ?_⟩
    rw [mem_ell_sqrt (hRs _)] at hx ⊢
    intro l
    have := hx (-l)
    simp only [neg_dotProduct, mulVec_neg, dotProduct_neg, neg_neg, dotProduct_sub, dotProduct_add] at this ⊢
    linarith

/-- One region for each ellipsoid of a column, and the answers of the calls in terms of them. -/
theorem regions_exist (E : Eigh) (G : Eig) {n : ℕ} (hn : n ≠ 0) : ∃ S : EllN n → Set (Fin n → ℝ),
    (∀ e, e.PSD → Convex ℝ (S e) ∧ e.c ∈ S e ∧ ∀ x ∈ S e, e.c + e.c - x ∈ S e) ∧
    ∀ (a : Arr EllObj) (es : List (EllN n)), a.data = es.map EllN.obj → es ≠ [] → (∀ e ∈ es, e.PSD) → IsColumn a →
      ∀ {k : ℕ} (x : Arr ℝ) (X : Fin k → Fin n → ℝ), IsPoints x X → ∀ mode : Option String, mode.getD "u" = "u" ∨ mode.getD "u" = "i" →
        ∃ r, isInternal E G a x mode = .ok r ∧ r.shape = [k, 1] ∧ ∀ j : Fin k, ∃ b, r.data[j.val]? = some b ∧
          (b = true ↔ if mode.getD "u" = "u" then ∃ e ∈ es, X j ∈ S e else ∀ e ∈ es, X j ∈ S e) := by
  classical
  have hex : ∀ e : EllN n, ∃ S : Set (Fin n → ℝ), e.PSD →
      Convex ℝ S ∧ e.c ∈ S ∧ (∀ x ∈ S, e.c + e.c - x ∈ S) ∧ ∀ x, ∃ b, singleInternal E G x e.obj = .ok b ∧ (b = true ↔ x ∈ S) := by
    intro e
    by_cases he : e.PSD
    · obtain ⟨S, hS⟩ := region_exists E G hn e he
      exact ⟨S, fun _ => hS⟩
    · exact ⟨∅, fun h => absurd h he⟩
  choose S hS using hex
  refine ⟨S, fun e he => ⟨(hS e he).1, (hS e he).2.1, (hS e he).2.2.1⟩, fun a es ha hne hp hcol k x X hx mode hm => ?_⟩
  have hf : ∀ j, ∀ e ∈ es, singleInternal E G (X j) e.obj = .ok (decide (X j ∈ S e)) := by
    intro j e he
    obtain ⟨b, hb, hbi⟩ := (hS e (hp e he)).2.2.2 (X j)
    rw [hb]
    congr 1
    by_cases h : X j ∈ S e
    · rw [decide_eq_true h]; exact hbi.mpr h
    · rw [decide_eq_false h]
      cases b with
      | false => rfl
      | true => exact absurd (hbi.mp rfl) h
  refine ⟨_, isInternal_of E G hn a es ha hne hcol x X hx mode hm _ hf, rfl, fun j =>
    ⟨if mode.getD "u" = "u" then es.any (fun e => decide (X j ∈ S e)) else es.all (fun e => decide (X j ∈ S e)), by simp, ?_⟩⟩
  split
  · rw [List.any_eq_true]; simp only [decide_eq_true_iff]
  · rw [List.all_eq_true]; simp only [decide_eq_true_iff]

private theorem arr_eq {k : ℕ} {r s : Arr Bool} (hr : r.shape = [k, 1]) (hs : s.shape = [k, 1])
    (h : ∀ j : Fin k, r.data[j.val]? = s.data[j.val]?) : r = s := by
  have h1 := r.len; have h2 := s.len
  rw [hr] at h1; rw [hs] at h2
  simp at h1 h2
  obtain ⟨rs, rd, rk⟩ := r; obtain ⟨ss, sd, sk⟩ := s
  simp only at hr hs h h1 h2
  subst hr; subst hs
  have : rd = sd := by
    refine List.ext_getElem? fun i => ?_
    by_cases hi : i < k
    · exact h ⟨i, hi⟩
    · rw [List.getElem?_eq_none (by omega), List.getElem?_eq_none (by omega)]
  subst this; rfl

/-- **C129**: the answers for two columns joined to one are joined by "or" in the mode `u` and by "and" in the mode `i`. -/
theorem C129_join (E : Eigh) (G : Eig) {n k : ℕ} (hn : n ≠ 0) (a b c : Arr EllObj) (es fs : List (EllN n)) (ha : a.data = es.map EllN.obj)
    (hb : b.data = fs.map EllN.obj) (hc : c.data = a.data ++ b.data) (hes : es ≠ []) (hfs : fs ≠ []) (hpe : ∀ e ∈ es, e.PSD)
    (hpf : ∀ e ∈ fs, e.PSD) (hca : IsColumn a) (hcb : IsColumn b) (hcc : IsColumn c) (x : Arr ℝ) (X : Fin k → Fin n → ℝ) (hx : IsPoints x X)
    (mode : String) (hm : mode = "u" ∨ mode = "i") :
    ∃ ra rb rc, isInternal E G a x (some mode) = .ok ra ∧ isInternal E G b x (some mode) = .ok rb ∧ isInternal E G c x (some mode) = .ok rc ∧
      rc.shape = [k, 1] ∧ ∀ j : Fin k, ∃ p q, ra.data[j.val]? = some p ∧ rb.data[j.val]? = some q ∧
        rc.data[j.val]? = some (if mode = "u" then p || q else p && q) := by
  obtain ⟨S, -, h⟩ := regions_exist E G hn
  obtain ⟨ra, h1, -, ga⟩ := h a es ha hes hpe hca x X hx (some mode) hm
  obtain ⟨rb, h2, -, gb⟩ := h b fs hb hfs hpf hcb x X hx (some mode) hm
  obtain ⟨rc, h3, hs, gc⟩ := h c (es ++ fs) (by rw [hc, ha, hb, List.map_append]) (by simp [hes])
    (fun e he => (List.mem_append.mp he).elim (hpe e) (hpf e)) hcc x X hx (some mode) hm
  refine ⟨ra, rb, rc, h1, h2, h3, hs, fun j => ?_⟩
  obtain ⟨p, hp, hpi⟩ := ga j
  obtain ⟨q, hq, hqi⟩ := gb j
  obtain ⟨t, ht, hti⟩ := gc j
  refine ⟨p, q, hp, hq, ht.trans (congrArg some ?_)⟩
  simp only [Option.getD_some] at hpi hqi hti
  rw [Bool.eq_iff_iff, hti]
  split
  · rename_i hu
    rw [if_pos hu] at hpi hqi
    rw [Bool.or_eq_true, hpi, hqi]
    simp only [List.mem_append, or_and_right, exists_or]
  · rename_i hu
    rw [if_neg hu] at hpi hqi
    rw [Bool.and_eq_true, hpi, hqi]
    simp only [List.mem_append, or_imp, forall_and]

/-- **C129**: neither the order of the ellipsoids in the column nor repetitions matter. -/
theorem C129_same (E : Eigh) (G : Eig) {n k : ℕ} (hn : n ≠ 0) (a b : Arr EllObj) (es fs : List (EllN n)) (ha : a.data = es.map EllN.obj)
    (hb : b.data = fs.map EllN.obj) (hes : es ≠ []) (hsame : ∀ e, e ∈ es ↔ e ∈ fs) (hpe : ∀ e ∈ es, e.PSD) (hca : IsColumn a)
    (hcb : IsColumn b) (x : Arr ℝ) (X : Fin k → Fin n → ℝ) (hx : IsPoints x X) (mode : String) (hm : mode = "u" ∨ mode = "i") :
    ∃ r, isInternal E G a x (some mode) = .ok r ∧ isInternal E G b x (some mode) = .ok r := by
  obtain ⟨S, -, h⟩ := regions_exist E G hn
  have hfs : fs ≠ [] := by
    rintro rfl
    exact hes (List.eq_nil_iff_forall_not_mem.mpr fun e he => by simpa using (hsame e).mp he)
  obtain ⟨ra, h1, s1, ga⟩ := h a es ha hes hpe hca x X hx (some mode) hm
  obtain ⟨rb, h2, s2, gb⟩ := h b fs hb hfs (fun e he => hpe e ((hsame e).mpr he)) hcb x X hx (some mode) hm
  refine ⟨ra, h1, h2.trans (congrArg _ (arr_eq s2 s1 fun j => ?_))⟩
  obtain ⟨p, hp, hpi⟩ := ga j
  obtain ⟨q, hq, hqi⟩ := gb j
  rw [hp, hq]
  refine congrArg some ?_
  rw [Bool.eq_iff_iff, hqi, hpi]
  simp only [hsame]

/-- **C129**: a point in the mode `i` is one in the mode `u`; without a mode the call is the one in the mode `u`. -/
theorem C129_modes (E : Eigh) (G : Eig) {n k : ℕ} (hn : n ≠ 0) (a : Arr EllObj) (es : List (EllN n)) (ha : a.data = es.map EllN.obj)
    (hes : es ≠ []) (hpe : ∀ e ∈ es, e.PSD) (hca : IsColumn a) (x : Arr ℝ) (X : Fin k → Fin n → ℝ) (hx : IsPoints x X) :
    ∃ ri ru, isInternal E G a x (some "i") = .ok ri ∧ isInternal E G a x (some "u") = .ok ru ∧ isInternal E G a x none = .ok ru ∧
      ∀ j : Fin k, ri.data[j.val]? = some true → ru.data[j.val]? = some true := by
  obtain ⟨S, -, h⟩ := regions_exist E G hn
  obtain ⟨ri, h1, -, gi⟩ := h a es ha hes hpe hca x X hx (some "i") (Or.inr rfl)
  obtain ⟨ru, h2, s2, gu⟩ := h a es ha hes hpe hca x X hx (some "u") (Or.inl rfl)
  obtain ⟨rn, h3, s3, gn⟩ := h a es ha hes hpe hca x X hx none (Or.inl rfl)
  refine ⟨ri, ru, h1, h2, h3.trans (congrArg _ (arr_eq s3 s2 fun j => ?_)), fun j hj => ?_⟩
  · obtain ⟨p, hp, hpi⟩ := gn j
    obtain ⟨q, hq, hqi⟩ := gu j
    rw [hp, hq]
    exact congrArg some (Bool.eq_iff_iff.mpr (hpi.trans hqi.symm))
  · obtain ⟨p, hp, hpi⟩ := gi j
    obtain ⟨q, hq, hqi⟩ := gu j
    rw [hp] at hj
    cases hj
    have hall := hpi.mp rfl
    simp only [Option.getD_some, if_neg (show ¬ ("i" = "u") by decide)] at hall
    obtain ⟨e, he⟩ := List.exists_mem_of_ne_nil es hes
    rw [hq, hqi.mpr ?_]
    simp only [Option.getD_some, if_true]
    exact ⟨e, he, hall e he⟩

/-- **C129**: the answer for a point does not depend on the other points of the call. -/
theorem C129_points (E : Eigh) (G : Eig) {n k l : ℕ} (hn : n ≠ 0) (a : Arr EllObj) (es : List (EllN n)) (ha : a.data = es.map EllN.obj)
    (hes : es ≠ []) (hpe : ∀ e ∈ es, e.PSD) (hca : IsColumn a) (x y : Arr ℝ) (X : Fin k → Fin n → ℝ) (Y : Fin l → Fin n → ℝ)
    (hx : IsPoints x X) (hy : IsPoints y Y) (mode : String) (hm : mode = "u" ∨ mode = "i") :
    ∃ r s, isInternal E G a x (some mode) = .ok r ∧ isInternal E G a y (some mode) = .ok s ∧
      ∀ (j : Fin k) (i : Fin l), X j = Y i → ∃ b, r.data[j.val]? = some b ∧ s.data[i.val]? = some b := by
  obtain ⟨S, -, h⟩ := regions_exist E G hn
  obtain ⟨r, h1, -, gr⟩ := h a es ha hes hpe hca x X hx (some mode) hm
  obtain ⟨s, h2, -, gs⟩ := h a es ha hes hpe hca y Y hy (some mode) hm
  refine ⟨r, s, h1, h2, fun j i hji => ?_⟩
  obtain ⟨p, hp, hpi⟩ := gr j
  obtain ⟨q, hq, hqi⟩ := gs i
  refine ⟨p, hp, hq.trans (congrArg some (Bool.eq_iff_iff.mpr ?_))⟩
  rw [hqi, hpi, hji]

/-- **C129**: in the mode `i`, when the answer is yes for some points, it is yes for every point of their convex hull. -/
theorem C129_convex (E : Eigh) (G : Eig) {n k l : ℕ} (hn : n ≠ 0) (a : Arr EllObj) (es : List (EllN n)) (ha : a.data = es.map EllN.obj)
    (hes : es ≠ []) (hpe : ∀ e ∈ es, e.PSD) (hca : IsColumn a) (x y : Arr ℝ) (X : Fin k → Fin n → ℝ) (Y : Fin l → Fin n → ℝ)
    (hx : IsPoints x X) (hy : IsPoints y Y) (hull : ∀ i, Y i ∈ convexHull ℝ (Set.range X)) :
    ∃ r s, isInternal E G a x (some "i") = .ok r ∧ isInternal E G a y (some "i") = .ok s ∧ s.data.length = l ∧
      ((∀ b ∈ r.data, b = true) → ∀ b ∈ s.data, b = true) := by
  obtain ⟨S, hS, h⟩ := regions_exist E G hn
  obtain ⟨r, h1, -, gr⟩ := h a es ha hes hpe hca x X hx (some "i") (Or.inr rfl)
  obtain ⟨s, h2, s2, gs⟩ := h a es ha hes hpe hca y Y hy (some "i") (Or.inr rfl)
  have hlen : s.data.length = l := by have := s.len; rw [s2] at this; simpa using this
  refine ⟨r, s, h1, h2, hlen, fun hall b hb => ?_⟩
  obtain ⟨i, hi, rfl⟩ := List.getElem_of_mem hb
  obtain ⟨q, hq, hqi⟩ := gs ⟨i, by omega⟩
  rw [List.getElem?_eq_getElem hi] at hq
  rw [Option.some_inj.mp hq]
  refine hqi.mpr ?_
  simp only [Option.getD_some, if_neg (show ¬ ("i" = "u") by decide)]
  intro e he
  refine convexHull_min ?_ (hS e (hpe e he)).1 (hull ⟨i, by omega⟩)
  rintro _ ⟨j, rfl⟩
  obtain ⟨p, hp, hpi⟩ := gr j
  have := hpi.mp (hall p (List.mem_of_getElem? hp))
  simp only [Option.getD_some, if_neg (show ¬ ("i" = "u") by decide)] at this
  exact this e he

/-- **C129**: for one ellipsoid, the answer for a point and for its mirror image in the centre are the same. -/
theorem C129_mirror (E : Eigh) (G : Eig) {n k : ℕ} (hn : n ≠ 0) (a : Arr EllObj) (e : EllN n) (ha : a.data = [e.obj]) (he : e.PSD)
    (hca : IsColumn a) (x y : Arr ℝ) (X Y : Fin k → Fin n → ℝ) (hx : IsPoints x X) (hy : IsPoints y Y) (hm : ∀ j, X j + Y j = e.c + e.c)
    (mode : String) (hmode : mode = "u" ∨ mode = "i") :
    ∃ r, isInternal E G a x (some mode) = .ok r ∧ isInternal E G a y (some mode) = .ok r := by
  obtain ⟨S, hS, h⟩ := regions_exist E G hn
  have hp : ∀ f ∈ [e], f.PSD := fun f hf => by rw [List.mem_singleton.mp hf]; exact he
  obtain ⟨r, h1, s1, gr⟩ := h a [e] ha (by simp) hp hca x X hx (some mode) hmode
  obtain ⟨s, h2, s2, gs⟩ := h a [e] ha (by simp) hp hca y Y hy (some mode) hmode
  refine ⟨r, h1, h2.trans (congrArg _ (arr_eq s2 s1 fun j => ?_))⟩
  obtain ⟨p, hp, hpi⟩ := gr j
  obtain ⟨q, hq, hqi⟩ := gs j
  rw [hp, hq]
  refine congrArg some (Bool.eq_iff_iff.mpr ?_)
  rw [hqi, hpi]
  simp only [List.mem_singleton, exists_eq_left, forall_eq, ite_self]
  have hsym := (hS e he).2.2
  constructor
  · intro hY
    have := hsym _ hY
    rwa [← hm j, add_sub_cancel_right] at this
  · intro hX
    have := hsym _ hX
    rwa [← hm j, add_sub_cancel_left] at this

/-- **C129**: for one ellipsoid, the answer yes for a point remains yes when the point moves towards the centre. -/
theorem C129_star (E : Eigh) (G : Eig) {n k : ℕ} (hn : n ≠ 0) (a : Arr EllObj) (e : EllN n) (ha : a.data = [e.obj]) (he : e.PSD)
    (hca : IsColumn a) (x y : Arr ℝ) (X Y : Fin k → Fin n → ℝ) (hx : IsPoints x X) (hy : IsPoints y Y) (t : Fin k → ℝ)
    (ht : ∀ j, 0 ≤ t j ∧ t j ≤ 1) (hm : ∀ j, Y j = e.c + t j • (X j - e.c)) (mode : String) (hmode : mode = "u" ∨ mode = "i") :
    ∃ r s, isInternal E G a x (some mode) = .ok r ∧ isInternal E G a y (some mode) = .ok s ∧
      ∀ j : Fin k, r.data[j.val]? = some true → s.data[j.val]? = some true := by
  obtain ⟨S, hS, h⟩ := regions_exist E G hn
  have hp : ∀ f ∈ [e], f.PSD := fun f hf => by rw [List.mem_singleton.mp hf]; exact he
  obtain ⟨r, h1, s1, gr⟩ := h a [e] ha (by simp) hp hca x X hx (some mode) hmode
  obtain ⟨s, h2, s2, gs⟩ := h a [e] ha (by simp) hp hca y Y hy (some mode) hmode
  refine ⟨r, s, h1, h2, fun j hj => ?_⟩
  obtain ⟨p, hp, hpi⟩ := gr j
  obtain ⟨q, hq, hqi⟩ := gs j
  rw [hp] at hj
  cases hj
  have hX := hpi.mp rfl
  rw [hq, hqi.mpr ?_]
  simp only [List.mem_singleton, exists_eq_left, forall_eq, ite_self] at hX ⊢
  have := (hS e he).1 (hS e he).2.1 hX (sub_nonneg.mpr (ht j).2) (ht j).1 (by ring)
  rwa [show (1 - t j) • e.c + t j • X j = Y j by rw [hm j, smul_sub, sub_smul, one_smul]; abel] at this

/-- **C129**: for non-degenerate ellipsoids, the answer yes remains yes when each of them is replaced by one with the same centre and
tolerance that contains it. -/
theorem C129_grow (E : Eigh) (G : Eig) {n k : ℕ} (hn : n ≠ 0) (a b : Arr EllObj) (es fs : List (EllN n)) (ha : a.data = es.map EllN.obj)
    (hb : b.data = fs.map EllN.obj) (hes : es ≠ []) (hpe : ∀ e ∈ es, e.NonDeg) (hpf : ∀ e ∈ fs, e.NonDeg) (hca : IsColumn a) (hcb : IsColumn b)
    (hg : List.Forall₂ (fun e f : EllN n => e.c = f.c ∧ e.props.absTol = f.props.absTol ∧ e.set ⊆ f.set) es fs) (x : Arr ℝ)
    (X : Fin k → Fin n → ℝ) (hx : IsPoints x X) (mode : String) (hm : mode = "u" ∨ mode = "i") :
    ∃ r s, isInternal E G a x (some mode) = .ok r ∧ isInternal E G b x (some mode) = .ok s ∧
      ∀ j : Fin k, r.data[j.val]? = some true → s.data[j.val]? = some true := by
  have hfs : fs ≠ [] := by
    rintro rfl
    cases hg
    exact hes rfl
  have near : ∀ {e f : EllN n}, e.NonDeg → f.NonDeg → (e.c = f.c ∧ e.props.absTol = f.props.absTol ∧ e.set ⊆ f.set) → ∀ z, e.Near z → f.Near z := by
    rintro e f he hf ⟨hc, ht, hsub⟩ z ⟨s, hs, hs1, hz⟩
    refine ⟨s, hs, ht ▸ hs1, ?_⟩
    rw [mem_ell_sqrt (psd_scaled (sq_nonneg s) hf.psd.2)]
    rw [mem_ell_sqrt (psd_scaled (sq_nonneg s) he.psd.2)] at hz
    intro l
    have h1 := hz l
    have h2 : Real.sqrt (l ⬝ᵥ e.Q *ᵥ l) ≤ Real.sqrt (l ⬝ᵥ f.Q *ᵥ l) := by
      obtain ⟨⟨w, hw, hwl⟩, -⟩ := ell_support (c := e.c) he.psd.2 l
      have h3 := (ell_support (c := f.c) hf.psd.2 l).2 ⟨w, hsub hw, rfl⟩
      have h4 : l ⬝ᵥ e.c = l ⬝ᵥ f.c := by rw [hc]
      simp only at hwl h3
      linarith
    simp only [smul_mulVec, dotProduct_smul, smul_eq_mul, Real.sqrt_mul (sq_nonneg s), Real.sqrt_sq hs.le] at h1 ⊢
    rw [← hc]
    have := mul_le_mul_of_nonneg_left h2 hs.le
    linarith
  rcases hm with rfl | rfl
  · obtain ⟨⟨r, h1, -, gr⟩, -⟩ := C41_partial E G hn a es ha hes hpe hca x X hx
    obtain ⟨⟨s, h2, -, gs⟩, -⟩ := C41_partial E G hn b fs hb hfs hpf hcb x X hx
    refine ⟨r, s, h1, h2, fun j hj => ?_⟩
    obtain ⟨p, hp, hpi⟩ := gr j
    obtain ⟨q, hq, hqi⟩ := gs j
    rw [hp] at hj; cases hj
    obtain ⟨e, he, hn⟩ := hpi.mp rfl
    obtain ⟨i, hi, rfl⟩ := List.getElem_of_mem he
    have hi2 : i < fs.length := by rw [← hg.length_eq]; exact hi
    have hr := (List.forall₂_iff_get.mp hg).2 i hi hi2
    rw [hq, hqi.mpr ⟨fs[i], List.getElem_mem _, near (hpe _ he) (hpf _ (List.getElem_mem _)) hr _ hn⟩]
  · obtain ⟨-, ⟨r, h1, -, gr⟩⟩ := C41_partial E G hn a es ha hes hpe hca x X hx
    obtain ⟨-, ⟨s, h2, -, gs⟩⟩ := C41_partial E G hn b fs hb hfs hpf hcb x X hx
    refine ⟨r, s, h1, h2, fun j hj => ?_⟩
    obtain ⟨p, hp, hpi⟩ := gr j
    obtain ⟨q, hq, hqi⟩ := gs j
    rw [hp] at hj; cases hj
    have hall := hpi.mp rfl
    rw [hq, hqi.mpr ?_]
    intro f hf
    obtain ⟨i, hi, rfl⟩ := List.getElem_of_mem hf
    have hi1 : i < es.length := by rw [hg.length_eq]; exact hi
    have hr := (List.forall₂_iff_get.mp hg).2 i hi1 hi
    exact near (hpe _ (List.getElem_mem hi1)) (hpf _ hf) hr _ (hall _ (List.getElem_mem hi1))

/-- **C129**: for non-degenerate ellipsoids, the answers do not depend on the eigenvalue routines. -/
theorem C129_routines (E E' : Eigh) (G G' : Eig) {n k : ℕ} (hn : n ≠ 0) (a : Arr EllObj) (es : List (EllN n)) (ha : a.data = es.map EllN.obj)
    (hes : es ≠ []) (hpe : ∀ e ∈ es, e.NonDeg) (hca : IsColumn a) (x : Arr ℝ) (X : Fin k → Fin n → ℝ) (hx : IsPoints x X)
    (mode : String) (hm : mode = "u" ∨ mode = "i") :
    ∃ r, isInternal E G a x (some mode) = .ok r ∧ isInternal E' G' a x (some mode) = .ok r := by
  obtain ⟨⟨r, h1, s1, gr⟩, ⟨t, h3, s3, gt⟩⟩ := C41_partial E G hn a es ha hes hpe hca x X hx
  obtain ⟨⟨s, h2, s2, gs⟩, ⟨u, h4, s4, gu⟩⟩ := C41_partial E' G' hn a es ha hes hpe hca x X hx
  rcases hm with rfl | rfl
  · refine ⟨r, h1, h2.trans (congrArg _ (arr_eq s2 s1 fun j => ?_))⟩
    obtain ⟨p, hp, hpi⟩ := gr j
    obtain ⟨q, hq, hqi⟩ := gs j
    rw [hp, hq]
    exact congrArg some (Bool.eq_iff_iff.mpr (hqi.trans hpi.symm))
  · refine ⟨t, h3, h4.trans (congrArg _ (arr_eq s4 s3 fun j => ?_))⟩
    obtain ⟨p, hp, hpi⟩ := gt j
    obtain ⟨q, hq, hqi⟩ := gu j
    rw [hp, hq]
    exact congrArg some (Bool.eq_iff_iff.mpr (hqi.trans hpi.symm))

private theorem two_discs : ∀ e ∈ [discN, discN], e.NonDeg := by
  intro e he
  simp only [List.mem_cons, List.not_mem_nil, or_false, or_self] at he
  subst he; exact discN_nonDeg

private theorem one_disc : ∀ e ∈ [discN], e.NonDeg := by
  intro e he
  rw [List.mem_singleton.mp he]; exact discN_nonDeg

/-- The disc, joined with itself, and listed twice. -/
example (E : Eigh) (G : Eig) : (∃ ra rb rc, isInternal E G ⟨[1, 1], [discN.obj], rfl⟩ ⟨[2, 2], [0, 1, 0, 1], rfl⟩ (some "i") = .ok ra ∧
      isInternal E G ⟨[1, 1], [discN.obj], rfl⟩ ⟨[2, 2], [0, 1, 0, 1], rfl⟩ (some "i") = .ok rb ∧
      isInternal E G ⟨[2, 1], [discN.obj, discN.obj], rfl⟩ ⟨[2, 2], [0, 1, 0, 1], rfl⟩ (some "i") = .ok rc) ∧
    ∃ r, isInternal E G ⟨[1, 1], [discN.obj], rfl⟩ ⟨[2, 2], [0, 1, 0, 1], rfl⟩ (some "i") = .ok r ∧
      isInternal E G ⟨[2, 1], [discN.obj, discN.obj], rfl⟩ ⟨[2, 2], [0, 1, 0, 1], rfl⟩ (some "i") = .ok r := by
  have hx : IsPoints (n := 2) (k := 2) ⟨[2, 2], [0, 1, 0, 1], rfl⟩ ![![0, 0], ![1, 1]] :=
    ⟨rfl, by intro j i; fin_cases j <;> fin_cases i <;> rfl⟩
  refine ⟨?_, C129_same E G two_ne_zero _ _ [discN] [discN, discN] rfl rfl (by simp) (by simp) (fun e he => (one_disc e he).psd)
    ⟨1, 1, [], rfl, rfl⟩ ⟨2, 1, [], rfl, rfl⟩ _ _ hx "i" (Or.inr rfl)⟩
  obtain ⟨ra, rb, rc, h1, h2, h3, -⟩ := C129_join E G two_ne_zero ⟨[1, 1], [discN.obj], rfl⟩ ⟨[1, 1], [discN.obj], rfl⟩
    ⟨[2, 1], [discN.obj, discN.obj], rfl⟩ [discN] [discN] rfl rfl rfl (by simp) (by simp) (fun e he => (one_disc e he).psd)
    (fun e he => (one_disc e he).psd) ⟨1, 1, [], rfl, rfl⟩ ⟨1, 1, [], rfl, rfl⟩ ⟨2, 1, [], rfl, rfl⟩ _ _ hx "i" (Or.inr rfl)
  exact ⟨ra, rb, rc, h1, h2, h3⟩

/-- The point `(1, 0)` and its mirror image `(0, 0)` in the centre of the disc. -/
example (E : Eigh) (G : Eig) : ∃ r, isInternal E G ⟨[1, 1], [discN.obj], rfl⟩ ⟨[2, 1], [1, 0], rfl⟩ (some "u") = .ok r ∧
    isInternal E G ⟨[1, 1], [discN.obj], rfl⟩ ⟨[2, 1], [0, 0], rfl⟩ (some "u") = .ok r :=
  C129_mirror E G two_ne_zero _ discN rfl discN_nonDeg.psd ⟨1, 1, [], rfl, rfl⟩ _ _ (fun _ : Fin 1 => ![1, 0]) (fun _ => ![0, 0])
    ⟨rfl, by intro j i; fin_cases j; fin_cases i <;> rfl⟩ ⟨rfl, by intro j i; fin_cases j; fin_cases i <;> rfl⟩
    (fun j => by ext i; fin_cases i <;> simp [discN] <;> norm_num) _ (Or.inl rfl)

/-- Half way to the centre of the disc. -/
example (E : Eigh) (G : Eig) : ∃ r s, isInternal E G ⟨[1, 1], [discN.obj], rfl⟩ ⟨[2, 1], [1, 0], rfl⟩ (some "u") = .ok r ∧
    isInternal E G ⟨[1, 1], [discN.obj], rfl⟩ ⟨[2, 1], [3 / 4, 0], rfl⟩ (some "u") = .ok s ∧
      ∀ j : Fin 1, r.data[j.val]? = some true → s.data[j.val]? = some true :=
  C129_star E G two_ne_zero _ discN rfl discN_nonDeg.psd ⟨1, 1, [], rfl, rfl⟩ _ _ (fun _ : Fin 1 => ![1, 0]) (fun _ => ![3 / 4, 0])
    ⟨rfl, by intro j i; fin_cases j; fin_cases i <;> rfl⟩ ⟨rfl, by intro j i; fin_cases j; fin_cases i <;> rfl⟩ (fun _ => 1 / 2)
    (fun _ => by norm_num) (fun j => by ext i; fin_cases i <;> simp [discN] <;> norm_num) _ (Or.inl rfl)

/-- A point on the segment between two points. -/
example (E : Eigh) (G : Eig) : ∃ r s, isInternal E G ⟨[2, 1], [discN.obj, discN.obj], rfl⟩ ⟨[2, 2], [0, 1, 0, 1], rfl⟩ (some "i") = .ok r ∧
    isInternal E G ⟨[2, 1], [discN.obj, discN.obj], rfl⟩ ⟨[2, 1], [1 / 2, 1 / 2], rfl⟩ (some "i") = .ok s ∧ s.data.length = 1 ∧
      ((∀ b ∈ r.data, b = true) → ∀ b ∈ s.data, b = true) :=
  C129_convex E G two_ne_zero _ [discN, discN] rfl (by simp) (fun e he => (two_discs e he).psd) ⟨2, 1, [], rfl, rfl⟩ _ _ ![![0, 0], ![1, 1]]
    (fun _ => ![1 / 2, 1 / 2]) ⟨rfl, by intro j i; fin_cases j <;> fin_cases i <;> rfl⟩ ⟨rfl, by intro j i; fin_cases j; fin_cases i <;> rfl⟩
    (fun _ => by
      have hr := fun j : Fin 2 => Set.mem_range_self (f := (![![0, 0], ![1, 1]] : Fin 2 → Fin 2 → ℝ)) j
      refine segment_subset_convexHull (𝕜 := ℝ) (hr 0) (hr 1) ⟨1 / 2, 1 / 2, by norm_num, by norm_num, by norm_num, ?_⟩
      ext i; fin_cases i <;> simp)

/-- The disc in place of itself. -/
example (E : Eigh) (G : Eig) : ∃ r s, isInternal E G ⟨[1, 1], [discN.obj], rfl⟩ ⟨[2, 1], [1, 0], rfl⟩ (some "u") = .ok r ∧
    isInternal E G ⟨[1, 1], [discN.obj], rfl⟩ ⟨[2, 1], [1, 0], rfl⟩ (some "u") = .ok s ∧
      ∀ j : Fin 1, r.data[j.val]? = some true → s.data[j.val]? = some true :=
  C129_grow E G two_ne_zero _ _ [discN] [discN] rfl rfl (by simp) one_disc one_disc ⟨1, 1, [], rfl, rfl⟩ ⟨1, 1, [], rfl, rfl⟩
    (List.Forall₂.cons ⟨rfl, rfl, subset_rfl⟩ List.Forall₂.nil) _ (fun _ : Fin 1 => ![1, 0])
    ⟨rfl, by intro j i; fin_cases j; fin_cases i <;> rfl⟩ _ (Or.inl rfl)

end Ellipy.Ell
