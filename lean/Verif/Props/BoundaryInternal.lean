import Verif.Props.IsInternal
import Verif.Props.Boundary
import Verif.Props.Rho
import Verif.Proofs.Support

/-! Property theorem C108: the points that `get_boundary`, `get_rho_boundary` and `rho` return are points `is_internal` accepts, and the
verdict of `is_internal` agrees with the support values of `rho`. -/

namespace Ellipy.Ell
open Matrix Ellipy.LA Ellipy.Tri

/-- Every entry of the array is `True`. -/
private theorem allTrue {k : ℕ} {r : Arr Bool} (hs : r.shape = [k, 1]) (h : ∀ j : Fin k, r.data[j.val]? = some true) :
    ∀ b ∈ r.data, b = true := by
  intro b hb
  obtain ⟨i, hi, rfl⟩ := List.mem_iff_getElem.mp hb
  have hl : r.data.length = k := by rw [r.len, hs]; simp
  have := h ⟨i, hl ▸ hi⟩
  rw [List.getElem?_eq_getElem hi] at this
  exact Option.some.inj this

/-- A point of the shell is near when the square of the tolerance of the shell is below the tolerance of the ellipsoid. -/
private theorem shell_near {n : ℕ} {e : EllN n} {r : ℝ} (hr : 0 ≤ r) (htol : r ≤ e.props.absTol) (hpos : 0 < e.props.absTol) {x : Fin n → ℝ}
    (h : Shell e.c e.Q r x) : e.Near x := by
  refine ⟨√(1 + r), Real.sqrt_pos.mpr (by linarith), ?_, ?_⟩
  · rw [Real.sqrt_lt' (by linarith)]
    nlinarith
  · rw [Real.sq_sqrt (by linarith)]
    exact h.1

theorem near_all (E : Eigh) (G : Eig) {n k : ℕ} (hn : n ≠ 0) (a : Arr EllObj) (e : EllN n) (ha : a.data = [e.obj]) (he : e.NonDeg)
    (hcol : IsColumn a) (x : Arr ℝ) (X : Fin k → Fin n → ℝ) (hx : IsPoints x X) (h : ∀ j, e.Near (X j)) (mode : String)
    (hm : mode = "u" ∨ mode = "i") : ∃ r, isInternal E G a x (some mode) = .ok r ∧ r.shape = [k, 1] ∧ ∀ b ∈ r.data, b = true := by
  obtain ⟨⟨r1, h1, s1, t1⟩, r2, h2, s2, t2⟩ := C41_partial E G hn a [e] (by simpa using ha) (by simp) (by simpa using he) hcol x X hx
  rcases hm with rfl | rfl
  · refine ⟨r1, h1, s1, allTrue s1 fun j => ?_⟩
    obtain ⟨b, hb, hbt⟩ := t1 j
    rw [hb, hbt.mpr ⟨e, by simp, h j⟩]
  · refine ⟨r2, h2, s2, allTrue s2 fun j => ?_⟩
    obtain ⟨b, hb, hbt⟩ := t2 j
    rw [hb, hbt.mpr (by simpa using h j)]

private theorem far_all (E : Eigh) (G : Eig) {n k : ℕ} (hn : n ≠ 0) (a : Arr EllObj) (e : EllN n) (ha : a.data = [e.obj]) (he : e.NonDeg)
    (hcol : IsColumn a) (x : Arr ℝ) (X : Fin k → Fin n → ℝ) (hx : IsPoints x X) (h : ∀ j, ¬ e.Near (X j)) (mode : String)
    (hm : mode = "u" ∨ mode = "i") : ∃ r, isInternal E G a x (some mode) = .ok r ∧ r.shape = [k, 1] ∧ ∀ b ∈ r.data, b = false := by
  obtain ⟨⟨r1, h1, s1, t1⟩, r2, h2, s2, t2⟩ := C41_partial E G hn a [e] (by simpa using ha) (by simp) (by simpa using he) hcol x X hx
  have key : ∀ r : Arr Bool, r.shape = [k, 1] → (∀ j : Fin k, ∃ b, r.data[j.val]? = some b ∧ (b = true ↔ e.Near (X j))) → ∀ b ∈ r.data, b = false := by
    intro r hs ht b hb
    obtain ⟨i, hi, rfl⟩ := List.mem_iff_getElem.mp hb
    have hl : r.data.length = k := by rw [r.len, hs]; simp
    obtain ⟨b, hb, hbt⟩ := ht ⟨i, hl ▸ hi⟩
    rw [List.getElem?_eq_getElem hi] at hb
    rw [Option.some.inj hb]
    exact Bool.eq_false_iff.mpr fun h' => h _ (hbt.mp h')
  rcases hm with rfl | rfl
  · exact ⟨r1, h1, s1, key r1 s1 (by simpa using t1)⟩
  · exact ⟨r2, h2, s2, key r2 s2 (by simpa using t2)⟩

private theorem psd_smul {n : ℕ} {Q : Matrix (Fin n) (Fin n) ℝ} {r : ℝ} (hr : 0 ≤ r) (hQ : IsPSD Q) : IsPSD (r • Q) :=
  ⟨by rw [transpose_smul, hQ.1], fun x => by rw [smul_mulVec, dotProduct_smul, smul_eq_mul]; exact mul_nonneg hr (hQ.2 x)⟩

/-- Scaling about the centre. -/
private theorem ell_zoom {n : ℕ} {c : Fin n → ℝ} {Q : Matrix (Fin n) (Fin n) ℝ} (hQ : IsPSD Q) {t r s : ℝ} (ht : 0 < t) (hr : 0 ≤ r) (hs : 0 ≤ s)
    (hrs : t ^ 2 * r = s) (v : Fin n → ℝ) : c + t • (v - c) ∈ Ell c (s • Q) ↔ v ∈ Ell c (r • Q) := by
  rw [mem_ell_support (psd_smul hs hQ), mem_ell_support (psd_smul hr hQ)]
  refine forall_congr' fun l => ?_
  rw [add_sub_cancel_left, dotProduct_smul, smul_mulVec, smul_mulVec, dotProduct_smul, dotProduct_smul, smul_eq_mul, smul_eq_mul, smul_eq_mul,
    mul_pow, ← hrs, mul_assoc]
  exact mul_le_mul_iff_right₀ (by positivity)

/-- The points of a shell, moved towards the centre or away from it. -/
private theorem shell_zoom (E : Eigh) (G : Eig) {n : ℕ} (hn : n ≠ 0) (a : Arr EllObj) (e : EllN n) (ha : a.data = [e.obj]) (he : e.NonDeg)
    (hcol : IsColumn a) {r : ℝ} (hr : 0 ≤ r) (htol : r ≤ e.props.absTol) (V : List (Fin n → ℝ)) (hV : ∀ v ∈ V, Shell e.c e.Q r v) (t : ℝ) (x : Arr ℝ)
    (hx : IsPoints x (fun j : Fin V.length => e.c + t • (V[j] - e.c))) (mode : String) (hm : mode = "u" ∨ mode = "i") :
    (0 ≤ t → t ≤ 1 → ∃ r, isInternal E G a x (some mode) = .ok r ∧ r.shape = [V.length, 1] ∧ ∀ b ∈ r.data, b = true) ∧
    (1 + e.props.absTol ≤ t → ∃ r, isInternal E G a x (some mode) = .ok r ∧ r.shape = [V.length, 1] ∧ ∀ b ∈ r.data, b = false) := by
  have hpos : 0 < e.props.absTol := he.1.1
  have hQ : IsPSD e.Q := nonDeg_psd he
  refine ⟨fun h0 h1 => near_all E G hn a e ha he hcol x _ hx (fun j => ?_) mode hm, fun h1 => far_all E G hn a e ha he hcol x _ hx (fun j => ?_) mode hm⟩
  · obtain ⟨s, hs, hs1, hm⟩ := shell_near hr htol hpos (hV V[j] (List.getElem_mem _))
    refine ⟨s, hs, hs1, ?_⟩
    have hP := psd_smul (sq_nonneg s) hQ
    have := ell_convex hP (ell_center hP) hm (sub_nonneg.mpr h1) h0 (by ring)
    convert this using 1
    simp only [smul_sub, sub_smul, one_smul]
    abel
  · rintro ⟨s, hs, hs1, hm⟩
    have ht : 0 < t := by linarith
    refine (hV V[j] (List.getElem_mem _)).2 ((s / t) ^ 2) (by positivity) ?_ ((ell_zoom hQ ht (by positivity) (by positivity) ?_ _).mp hm)
    · rw [div_pow, div_lt_one (by positivity)]
      nlinarith
    · field_simp

/-- **C108** in the plane: `is_internal` accepts every point `get_boundary` returns, and every such point moved towards the centre; it
rejects every such point moved away from the centre at least `1 + abs_tol` times. -/
theorem C108_plane (E : Eigh) (G : Eig) (argsort : List ℕ → List ℕ) (fuel : ℕ) (e : EllN 2) (he : e.NonDeg) (htol : machEps ^ 2 ≤ e.props.absTol)
    (num : Option NPts) (n : ℕ) (hn : 1 ≤ n) (hnum : Asked num e.props.n2d n) (grid : Bool) (V : List (Fin 2 → ℝ)) (F : Option Faces)
    (hb : getBoundary E argsort fuel e.obj num grid = .ok (some (V, F))) (a : Arr EllObj) (ha : a.data = [e.obj]) (hcol : IsColumn a)
    (t : ℝ) (x : Arr ℝ) (hx : IsPoints x (fun j : Fin V.length => e.c + t • (V[j] - e.c))) (mode : String) (hm : mode = "u" ∨ mode = "i") :
    (0 ≤ t → t ≤ 1 → ∃ r, isInternal E G a x (some mode) = .ok r ∧ r.shape = [n, 1] ∧ ∀ b ∈ r.data, b = true) ∧
    (1 + e.props.absTol ≤ t → ∃ r, isInternal E G a x (some mode) = .ok r ∧ r.shape = [n, 1] ∧ ∀ b ∈ r.data, b = false) := by
  obtain ⟨V', h1, ⟨F', h2, -⟩, hl, -, hS⟩ := C47 E argsort fuel e he num n hn hnum
  have hV : V = V' := by
    cases grid with
    | false => rw [h1] at hb; cases hb; rfl
    | true => rw [h2] at hb; cases hb; rfl
  subst hV
  rw [← hl]
  exact shell_zoom E G two_ne_zero a e ha he hcol (sq_nonneg _) htol V hS t x hx mode hm

/-- **C108** in the space. -/
theorem C108_space (E : Eigh) (G : Eig) (argsort : List ℕ → List ℕ) (hsort : IsArgsort argsort) (e : EllN 3) (he : e.NonDeg)
    (htol : 2 * machEps ^ 2 ≤ e.props.absTol) (num : Option NPts) (n : ℕ) (hn : 1 ≤ n) (hnum : Asked num e.props.n3d n) :
    ∃ d, ∀ fuel, d < fuel → ∃ (V : List (Fin 3 → ℝ)) (F : Faces), getBoundary E argsort fuel e.obj num true = .ok (some (V, some F)) ∧ n ≤ V.length ∧
      ∀ (a : Arr EllObj), a.data = [e.obj] → IsColumn a → ∀ (t : ℝ) (x : Arr ℝ), IsPoints x (fun j : Fin V.length => e.c + t • (V[j] - e.c)) →
        ∀ mode : String, mode = "u" ∨ mode = "i" →
          (0 ≤ t → t ≤ 1 → ∃ r, isInternal E G a x (some mode) = .ok r ∧ r.shape = [V.length, 1] ∧ ∀ b ∈ r.data, b = true) ∧
          (1 + e.props.absTol ≤ t → ∃ r, isInternal E G a x (some mode) = .ok r ∧ r.shape = [V.length, 1] ∧ ∀ b ∈ r.data, b = false) := by
  obtain ⟨d, hd, h⟩ := C47_space E argsort hsort e he num n hn hnum
  refine ⟨d, fun fuel hf => ?_⟩
  obtain ⟨V, V0, W, F, h1, -, -, -, hl, hS⟩ := h fuel hf
  refine ⟨V, .tri F, h1, hl ▸ hd.1.2, fun a ha hcol t x hx mode hm => ?_⟩
  exact shell_zoom E G three_ne_zero a e ha he hcol (by positivity) htol V hS t x hx mode hm

/-- Points of the ellipsoid, which may be flat. -/
private theorem set_all (E : Eigh) (G : Eig) {n k : ℕ} (hn : n ≠ 0) (a : Arr EllObj) (e : EllN n) (ha : a.data = [e.obj]) (he : e.PSD)
    (hcol : IsColumn a) (x : Arr ℝ) (X : Fin k → Fin n → ℝ) (hx : IsPoints x X) (h : ∀ j, X j ∈ e.set) (mode : String)
    (hm : mode = "u" ∨ mode = "i") : ∃ r, isInternal E G a x (some mode) = .ok r ∧ r.shape = [k, 1] ∧ ∀ b ∈ r.data, b = true := by
  obtain ⟨⟨r1, h1, s1, t1⟩, r2, h2, s2, t2⟩ := C41_flat E G hn a [e] (by simpa using ha) (by simp) (by simpa using he) hcol x X hx
  rcases hm with rfl | rfl
  · exact ⟨r1, h1, s1, allTrue s1 fun j => t1 j ⟨e, by simp, h j⟩⟩
  · exact ⟨r2, h2, s2, allTrue s2 fun j => t2 j (by simpa using h j)⟩

/-- **C108** for `rho`: `is_internal` accepts the boundary points that `rho` returns, also for flat ellipsoids. -/
theorem C108_rho (E : Eigh) (G : Eig) {n k : ℕ} (hn : n ≠ 0) (a : Arr EllObj) (e : EllN n) (ha : a.data = [e.obj]) (he : e.PSD) (hcol : IsColumn a)
    (d : Arr ℝ) (rest : List ℕ) (hrest : rest ≠ []) (ls : Fin k → Fin n → ℝ) (hd : IsDirs d rest ls) (mode : String) (hm : mode = "u" ∨ mode = "i") :
    ∃ s b, rho a d = .ok (s, b) ∧ ∀ (x : Arr ℝ) (X : Fin k → Fin n → ℝ), IsPoints x X → x.data.map XF.fin = b.data →
      ∃ r, isInternal E G a x (some mode) = .ok r ∧ r.shape = [k, 1] ∧ ∀ b ∈ r.data, b = true := by
  obtain ⟨s, b, h, ⟨-, -, hr⟩, -⟩ := C40_one_ell a e ha he d rest hrest ls hd
  refine ⟨s, b, h, fun x X hx hxb => set_all E G hn a e ha he hcol x X hx (fun j => ?_) mode hm⟩
  obtain ⟨-, y, -, -, hy, -, hyb⟩ := hr j
  convert hy
  funext i
  have h1 := hyb i
  rw [← hxb, List.getElem?_map, hx.2 j i] at h1
  simpa using h1

/-- **C108** for `get_rho_boundary` in the plane. -/
theorem C108_rhoBoundary (E : Eigh) (G : Eig) (argsort : List ℕ → List ℕ) (fuel : ℕ) (e : EllN 2) (he : e.PSD) (num : Option NPts) (n : ℕ)
    (hn : 1 ≤ n) (hnum : Asked num e.props.n2d n) (a : Arr EllObj) (ha : a.data = [e.obj]) (hcol : IsColumn a) (mode : String)
    (hm : mode = "u" ∨ mode = "i") : ∃ r : RhoBoundary 2, getRhoBoundary argsort fuel e.obj num = .ok (some r) ∧ r.bp.length = n + 1 ∧
      ∀ (x : Arr ℝ) (X : Fin r.bp.length → Fin 2 → ℝ), IsPoints x X → (∀ (j : Fin r.bp.length) i, r.bp[j.val] i = .fin (X j i)) →
        ∃ v, isInternal E G a x (some mode) = .ok v ∧ v.shape = [n + 1, 1] ∧ ∀ b ∈ v.data, b = true := by
  obtain ⟨r, F, h, -, -, -, l1, l2, l3, -, hb⟩ := C65 argsort fuel e he num n hn hnum
  refine ⟨r, h, l3, fun x X hx hX => ?_⟩
  rw [← l3]
  refine set_all E G two_ne_zero a e ha he hcol x X hx (fun j => ?_) mode hm
  obtain ⟨-, y, hy, hyb, -⟩ := hb j.val (by have := j.2; omega) (by have := j.2; omega) j.2
  convert hy
  funext i
  have := (hX j i).symm.trans (hyb i)
  simpa using this

/-- **C108** for `get_rho_boundary` in the space. -/
theorem C108_rhoBoundary_space (E : Eigh) (G : Eig) (argsort : List ℕ → List ℕ) (hsort : IsArgsort argsort) (e : EllN 3) (he : e.PSD)
    (num : Option NPts) (n : ℕ) (hn : 1 ≤ n) (hnum : Asked num e.props.n3d n) (a : Arr EllObj) (ha : a.data = [e.obj]) (hcol : IsColumn a)
    (mode : String) (hm : mode = "u" ∨ mode = "i") : ∃ d, ∀ fuel, d < fuel → ∃ r : RhoBoundary 3, getRhoBoundary argsort fuel e.obj num = .ok (some r) ∧
      r.bp.length = r.dirs.length ∧ ∀ (x : Arr ℝ) (X : Fin r.bp.length → Fin 3 → ℝ), IsPoints x X → (∀ (j : Fin r.bp.length) i, r.bp[j.val] i = .fin (X j i)) →
        ∃ v, isInternal E G a x (some mode) = .ok v ∧ v.shape = [r.bp.length, 1] ∧ ∀ b ∈ v.data, b = true := by
  obtain ⟨d, -, h⟩ := C65_space argsort hsort e he num n hn hnum
  refine ⟨d, fun fuel hf => ?_⟩
  obtain ⟨r, F, V0, W, h, -, -, -, -, l2, l3, hb⟩ := h fuel hf
  refine ⟨r, h, l3, fun x X hx hX => ?_⟩
  refine set_all E G three_ne_zero a e ha he hcol x X hx (fun j => ?_) mode hm
  obtain ⟨-, y, hy, hyb, -⟩ := hb j.val (by have := j.2; omega) (by have := j.2; omega) j.2
  convert hy
  funext i
  have := (hX j i).symm.trans (hyb i)
  simpa using this

/-- **C108**, the verdict by support values: `is_internal` accepts a point exactly when for some factor below `1 + abs_tol` every value that
`rho` returns, measured from the centre and enlarged by the factor, bounds the point. -/
theorem C108_support (E : Eigh) (G : Eig) {n : ℕ} (hn : n ≠ 0) (a : Arr EllObj) (e : EllN n) (ha : a.data = [e.obj]) (he : e.NonDeg)
    (hcol : IsColumn a) (x : Arr ℝ) (X : Fin n → ℝ) (hx : IsPoints x (fun _ : Fin 1 => X)) (mode : String) (hm : mode = "u" ∨ mode = "i") :
    ∃ b, isInternal E G a x (some mode) = .ok ⟨[1, 1], [b], rfl⟩ ∧
      (b = true ↔ ∃ s : ℝ, 0 < s ∧ s < 1 + e.props.absTol ∧ ∀ (l : Fin n → ℝ) (d : Arr ℝ), IsDirs d [1] (fun _ : Fin 1 => l) →
        ∃ ρ bp, rho a d = .ok (⟨[1, 1], [ρ], rfl⟩, bp) ∧ l ⬝ᵥ (X - e.c) ≤ s * (ρ - l ⬝ᵥ e.c)) := by
  have hQ : IsPSD e.Q := nonDeg_psd he
  have hP : e.PSD := he.psd
  have hone : ∀ {α : Type} (r : Arr α), r.shape = [1, 1] → ∃ b, r = ⟨[1, 1], [b], rfl⟩ := by
    rintro α ⟨sh, data, hl⟩ rfl
    match data, hl with
    | [b], _ => exact ⟨b, rfl⟩
  have hρ : ∀ (l : Fin n → ℝ) (d : Arr ℝ), IsDirs d [1] (fun _ : Fin 1 => l) →
      ∃ bp, rho a d = .ok (⟨[1, 1], [l ⬝ᵥ e.c + √(l ⬝ᵥ e.Q *ᵥ l)], rfl⟩, bp) := by
    intro l d hd
    obtain ⟨s, b, h, ⟨-, -, hr⟩, -, hs⟩ := C40_one_ell a e ha hP d [1] (by simp) (fun _ : Fin 1 => l) hd
    obtain ⟨ρ, rfl⟩ := hone s (by simpa using hs)
    obtain ⟨ρ', -, h0, h1, -⟩ := hr 0
    have h2 : ρ' = ρ := by simpa using h0.symm
    subst h2
    have h3 : ρ' = l ⬝ᵥ e.c + √(l ⬝ᵥ e.Q *ᵥ l) := h1.unique (ell_support hQ l)
    exact ⟨b, h3 ▸ h⟩
  have hdirs : ∀ l : Fin n → ℝ, ∃ d : Arr ℝ, IsDirs d [1] (fun _ : Fin 1 => l) := by
    intro l
    refine ⟨⟨[n, 1], List.ofFn l, by simp⟩, rfl, by simp, fun j i => ?_⟩
    simp
  have hnear : e.Near X ↔ ∃ s : ℝ, 0 < s ∧ s < 1 + e.props.absTol ∧ ∀ (l : Fin n → ℝ) (d : Arr ℝ), IsDirs d [1] (fun _ : Fin 1 => l) →
        ∃ ρ bp, rho a d = .ok (⟨[1, 1], [ρ], rfl⟩, bp) ∧ l ⬝ᵥ (X - e.c) ≤ s * (ρ - l ⬝ᵥ e.c) := by
    refine exists_congr fun s => and_congr_right fun hs => and_congr_right fun _ => ?_
    rw [mem_ell_sqrt (psd_smul (sq_nonneg s) hQ)]
    have hsq : ∀ l : Fin n → ℝ, √(l ⬝ᵥ (s ^ 2 • e.Q) *ᵥ l) = s * √(l ⬝ᵥ e.Q *ᵥ l) := fun l => by
      rw [smul_mulVec, dotProduct_smul, smul_eq_mul, Real.sqrt_mul (sq_nonneg s), Real.sqrt_sq hs.le]
    constructor
    · intro h l d hd
      obtain ⟨bp, hb⟩ := hρ l d hd
      refine ⟨_, bp, hb, ?_⟩
      have := h l
      rw [hsq] at this
      rw [dotProduct_sub]
      linarith
    · intro h l
      obtain ⟨d, hd⟩ := hdirs l
      obtain ⟨bp, hb⟩ := hρ l d hd
      obtain ⟨ρ, bp', hb', hle⟩ := h l d hd
      rw [hb] at hb'
      cases hb'
      rw [dotProduct_sub] at hle
      rw [hsq]
      linarith
  rw [← hnear]
  obtain ⟨⟨r1, h1, s1, t1⟩, r2, h2, s2, t2⟩ := C41_partial E G hn a [e] (by simpa using ha) (by simp) (by simpa using he) hcol x _ hx
  rcases hm with rfl | rfl
  · obtain ⟨b, rfl⟩ := hone r1 s1
    obtain ⟨b', hb, hbt⟩ := t1 0
    have : b' = b := by simpa using hb.symm
    subst this
    exact ⟨b', h1, by simpa using hbt⟩
  · obtain ⟨b, rfl⟩ := hone r2 s2
    obtain ⟨b', hb, hbt⟩ := t2 0
    have : b' = b := by simpa using hb.symm
    subst this
    exact ⟨b', h2, by simpa using hbt⟩

/-- The unit disc with its default tolerance and 200 points: accepted, and rejected when moved away twice. -/
example (E : Eigh) (G : Eig) (V : List (Fin 2 → ℝ)) (F : Option Faces) (hb : getBoundary E stableArgsort 0 discN.obj none true = .ok (some (V, F)))
    (x : Arr ℝ) (hx : IsPoints x (fun j : Fin V.length => discN.c + (2 : ℝ) • (V[j] - discN.c))) :
    ∃ r, isInternal E G ⟨[1, 1], [discN.obj], rfl⟩ x (some "u") = .ok r ∧ r.shape = [200, 1] ∧ ∀ b ∈ r.data, b = false :=
  (C108_plane E G stableArgsort 0 discN discN_nonDeg (by simp only [discN, stdProps, machEps]; norm_num) none 200 (by norm_num)
    (Or.inr ⟨rfl, by simp [discN, stdProps]⟩) true V F hb _ rfl ⟨1, 1, [], rfl, rfl⟩ 2 x hx "u" (Or.inl rfl)).2
    (by simp only [discN, stdProps]; norm_num)

end Ellipy.Ell
