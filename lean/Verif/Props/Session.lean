import Verif.Proofs.Session
import Verif.Props.EllCtor

/-! Property theorems C116 (objects take the settings that are in force when they are created). -/

namespace Ellipy.Session
open Ellipy.Config Ellipy.Ell Ellipy.Hyp

theorem ellNew_props {E : LA.Eigh} {args : List RawArg} {x0 x1 x2 x3 : ℝ} {e : EllObj} (h : ellNew E args x0 x1 x2 x3 = .ok e) :
    e.absTol = x0 ∧ e.relTol = x1 ∧ e.n2d = x2 ∧ e.n3d = x3 := by
  unfold ellNew at h
  split at h
  · cases h; exact ⟨rfl, rfl, rfl, rfl⟩
  · split at h
    · cases h
    · cases h; exact ⟨rfl, rfl, rfl, rfl⟩
  · split at h
    · cases h
    · split at h
      · cases h
      · split at h
        · cases h
        · cases h; exact ⟨rfl, rfl, rfl, rfl⟩

theorem hypNew_props {nrm : RawArg} {shift : ShiftArg} {t : Tols} {o : HypObj} (h : hypNew nrm shift t = .ok o) :
    o.absTol = t.absTol ∧ o.relTol = t.relTol := by
  unfold hypNew at h
  split at h
  · cases h
  · split at h
    · cases h
    · split at h
      · cases h
      · cases h; exact ⟨rfl, rfl⟩

/-- **C116** (ellipsoids, values). After any session, `Ellipsoid(*args, **kw)` raises if one of the four values — the keyword argument, else the
value stored last for that setting — is not admissible; otherwise the outcome is that of the constructor with exactly these four numbers. -/
theorem C116_ellipsoid (E : LA.Eigh) (acts : List Act) (hr : Regular E acts) (args : List RawArg) (kw : Dict)
    (va vr v2 v3 : Val) (ha : va = kwOr kw "abs_tol" (lastStored .absTol (confOps acts).reverse))
    (hrel : vr = kwOr kw "rel_tol" (lastStored .relTol (confOps acts).reverse))
    (h2 : v2 = kwOr kw "n_plot_2d_points" (lastStored .nPlot2dPoints (confOps acts).reverse))
    (h3 : v3 = kwOr kw "n_plot_3d_points" (lastStored .nPlot3dPoints (confOps acts).reverse)) :
    (¬ (Admissible "abs_tol" va ∧ Admissible "rel_tol" vr ∧ Admissible "n_plot_2d_points" v2 ∧ Admissible "n_plot_3d_points" v3) →
      Raises (ellConstruct E (play E acts).conf args kw).2) ∧
    (Admissible "abs_tol" va → Admissible "rel_tol" vr → Admissible "n_plot_2d_points" v2 → Admissible "n_plot_3d_points" v3 →
      ∀ a r n2 n3, Stands va a → Stands vr r → Stands v2 n2 → Stands v3 n3 →
        (ellConstruct E (play E acts).conf args kw).2 = (ellNew E args a r n2 n3).map some) := by
  obtain ⟨hv, hc, hg⟩ := get_play E acts hr
  have hp := parse_four hv (hg .absTol) (hg .relTol) (hg .nPlot2dPoints) (hg .nPlot3dPoints) kw
  rw [← ha, ← hrel, ← h2, ← h3] at hp
  constructor
  · intro hn
    obtain ⟨x, hx⟩ := hp.2 hn
    refine ⟨x, ?_⟩
    unfold ellConstruct
    dsimp only
    generalize hq : parseProp _ _ _ = q at hx ⊢
    obtain ⟨s', q⟩ := q
    change q = .error x at hx
    subst hx
    rfl
  · intro a0 a1 a2 a3 a r n2 n3 sa sr s2 s3
    obtain ⟨s', b, hq⟩ := hp.1 a0 a1 a2 a3
    unfold ellConstruct
    dsimp only
    rw [hq]
    dsimp only
    rw [stands_num.1 sa, stands_num.1 sr, stands_num.1 s2, stands_num.1 s3]
    dsimp only
    cases ellNew E args a r n2 n3 <;> rfl

/-- **C116** (hyperplanes, values). The same for `Hyperplane(nrm, shift, **kw)` and its two tolerances. -/
theorem C116_hyperplane (E : LA.Eigh) (acts : List Act) (hr : Regular E acts) (nrm : RawArg) (shift : ShiftArg) (kw : Dict)
    (va vr : Val) (ha : va = kwOr kw "abs_tol" (lastStored .absTol (confOps acts).reverse))
    (hrel : vr = kwOr kw "rel_tol" (lastStored .relTol (confOps acts).reverse)) :
    (¬ (Admissible "abs_tol" va ∧ Admissible "rel_tol" vr) → Raises (hypConstruct (play E acts).conf nrm shift kw).2) ∧
    (Admissible "abs_tol" va → Admissible "rel_tol" vr → ∀ a r, Stands va a → Stands vr r →
      (hypConstruct (play E acts).conf nrm shift kw).2 = (hypNew nrm shift ⟨a, r⟩).map some) := by
  obtain ⟨hv, hc, hg⟩ := get_play E acts hr
  have hp := parse_two hv (hg .absTol) (hg .relTol) kw
  rw [← ha, ← hrel] at hp
  constructor
  · intro hn
    obtain ⟨x, hx⟩ := hp.2 hn
    refine ⟨x, ?_⟩
    unfold hypConstruct
    dsimp only
    generalize hq : parseProp _ _ _ = q at hx ⊢
    obtain ⟨s', q⟩ := q
    change q = .error x at hx
    subst hx
    rfl
  · intro a0 a1 a r sa sr
    obtain ⟨s', b, hq⟩ := hp.1 a0 a1
    unfold hypConstruct
    dsimp only
    rw [hq]
    dsimp only
    rw [stands_num.1 sa, stands_num.1 sr]
    dsimp only
    cases hypNew nrm shift ⟨a, r⟩ <;> rfl

/-- **C116** (objects keep their properties). The next object of the session has the four properties chosen when it was created, and it stays what it is
whatever happens later: changed settings, a replaced repository, writes behind the setters' back, other objects. -/
theorem C116_kept (E : LA.Eigh) (acts later : List Act) (hr : Regular E acts) (args : List RawArg) (kw : Dict) (e : EllObj)
    (he : (ellConstruct E (play E acts).conf args kw).2 = .ok (some e)) :
    (play E (acts ++ .ell args kw :: later)).ells[(play E acts).ells.length]? = some e ∧
    Stands (kwOr kw "abs_tol" (lastStored .absTol (confOps acts).reverse)) e.absTol ∧
    Stands (kwOr kw "rel_tol" (lastStored .relTol (confOps acts).reverse)) e.relTol ∧
    Stands (kwOr kw "n_plot_2d_points" (lastStored .nPlot2dPoints (confOps acts).reverse)) e.n2d ∧
    Stands (kwOr kw "n_plot_3d_points" (lastStored .nPlot3dPoints (confOps acts).reverse)) e.n3d := by
  constructor
  · rw [play_append]
    have h1 := (objs_prefix E (act E (play E acts) (.ell args kw)) later).1
    have h2 : (act E (play E acts) (.ell args kw)).ells = (play E acts).ells ++ [e] := by
      simp only [act]
      generalize hq : ellConstruct E (play E acts).conf args kw = q at he
      obtain ⟨c, q⟩ := q
      change q = _ at he
      subst he
      rfl
    rw [h2] at h1
    obtain ⟨t, ht⟩ := h1
    rw [List.foldl_cons, ← ht]
    simp
  · obtain ⟨hv, hc, hg⟩ := get_play E acts hr
    have hp := parse_four hv (hg .absTol) (hg .relTol) (hg .nPlot2dPoints) (hg .nPlot3dPoints) kw
    generalize kwOr kw "abs_tol" _ = va at hp ⊢
    generalize kwOr kw "rel_tol" _ = vr at hp ⊢
    generalize kwOr kw "n_plot_2d_points" _ = v2 at hp ⊢
    generalize kwOr kw "n_plot_3d_points" _ = v3 at hp ⊢
    unfold ellConstruct at he
    dsimp only at he
    by_cases had : Admissible "abs_tol" va ∧ Admissible "rel_tol" vr ∧ Admissible "n_plot_2d_points" v2 ∧ Admissible "n_plot_3d_points" v3
    · obtain ⟨s', b, hq⟩ := hp.1 had.1 had.2.1 had.2.2.1 had.2.2.2
      rw [hq] at he
      dsimp only at he
      split at he
      · rename_i x0 x1 x2 x3 n0 n1 n2 n3
        cases hn : ellNew E args x0 x1 x2 x3 with
        | error x => rw [hn] at he; cases he
        | ok o =>
          rw [hn] at he
          cases he
          obtain ⟨p0, p1, p2, p3⟩ := ellNew_props hn
          rw [p0, p1, p2, p3]
          exact ⟨stands_num.2 n0, stands_num.2 n1, stands_num.2 n2, stands_num.2 n3⟩
      · cases he
    · obtain ⟨x, hx⟩ := hp.2 had
      generalize hq : parseProp _ _ _ = q at hx he
      obtain ⟨s', q⟩ := q
      change q = .error x at hx
      subst hx
      cases he

/-- **C116** (the same for hyperplanes). -/
theorem C116_kept_hyperplane (E : LA.Eigh) (acts later : List Act) (hr : Regular E acts) (nrm : RawArg) (shift : ShiftArg) (kw : Dict) (o : HypObj)
    (he : (hypConstruct (play E acts).conf nrm shift kw).2 = .ok (some o)) :
    (play E (acts ++ .hyp nrm shift kw :: later)).hyps[(play E acts).hyps.length]? = some o ∧
    Stands (kwOr kw "abs_tol" (lastStored .absTol (confOps acts).reverse)) o.absTol ∧
    Stands (kwOr kw "rel_tol" (lastStored .relTol (confOps acts).reverse)) o.relTol := by
  constructor
  · rw [play_append]
    have h1 := (objs_prefix E (act E (play E acts) (.hyp nrm shift kw)) later).2
    have h2 : (act E (play E acts) (.hyp nrm shift kw)).hyps = (play E acts).hyps ++ [o] := by
      simp only [act]
      generalize hq : hypConstruct (play E acts).conf nrm shift kw = q at he
      obtain ⟨c, q⟩ := q
      change q = _ at he
      subst he
      rfl
    rw [h2] at h1
    obtain ⟨t, ht⟩ := h1
    rw [List.foldl_cons, ← ht]
    simp
  · obtain ⟨hv, hc, hg⟩ := get_play E acts hr
    have hp := parse_two hv (hg .absTol) (hg .relTol) kw
    generalize kwOr kw "abs_tol" _ = va at hp ⊢
    generalize kwOr kw "rel_tol" _ = vr at hp ⊢
    unfold hypConstruct at he
    dsimp only at he
    by_cases had : Admissible "abs_tol" va ∧ Admissible "rel_tol" vr
    · obtain ⟨s', b, hq⟩ := hp.1 had.1 had.2
      rw [hq] at he
      dsimp only at he
      split at he
      · rename_i x0 x1 n0 n1
        cases hn : hypNew nrm shift ⟨x0, x1⟩ with
        | error x => rw [hn] at he; cases he
        | ok o =>
          rw [hn] at he
          cases he
          obtain ⟨p0, p1⟩ := hypNew_props hn
          rw [p0, p1]
          exact ⟨stands_num.2 n0, stands_num.2 n1⟩
      · cases he
    · obtain ⟨x, hx⟩ := hp.2 had
      generalize hq : parseProp _ _ _ = q at hx he
      obtain ⟨s', q⟩ := q
      change q = .error x at hx
      subst hx
      cases he

/-- **C116** (creating objects does not change the settings). Whatever the arguments and the outcome, every getter answers as before and no
dictionary that exists is changed. -/
theorem C116_settings_kept (E : LA.Eigh) (acts : List Act) (hr : Regular E acts) (args : List RawArg) (nrm : RawArg) (shift : ShiftArg) (kw : Dict) :
    (∀ g, Config.get (ellConstruct E (play E acts).conf args kw).1 g = Config.get (play E acts).conf g ∧
      Config.get (hypConstruct (play E acts).conf nrm shift kw).1 g = Config.get (play E acts).conf g) ∧
    ∀ a, a < (play E acts).conf.heap.length →
      (ellConstruct E (play E acts).conf args kw).1.dict a = (play E acts).conf.dict a ∧
      (hypConstruct (play E acts).conf nrm shift kw).1.dict a = (play E acts).conf.dict a := by
  obtain ⟨hv, hc, -⟩ := get_play E acts hr
  rw [ellConstruct_state, hypConstruct_state]
  obtain ⟨-, -, -, a1, a2⟩ := make_frame hv hc kw (some ["abs_tol", "rel_tol", "n_plot_2d_points", "n_plot_3d_points"])
  obtain ⟨-, -, -, b1, b2⟩ := make_frame hv hc kw (some ["abs_tol", "rel_tol"])
  exact ⟨fun g => ⟨a1 g, b1 g⟩, fun a ha => ⟨a2 a ha, b2 a ha⟩⟩

/-- **C116** (other keywords). Keyword arguments with other names are silently ignored: two calls whose keyword arguments agree on the names of the
properties have the same outcome (the same object or the same exception). -/
theorem C116_other_keywords (E : LA.Eigh) (s : State) (hs : ∀ a, s.conf = some a → a < s.heap.length) (args : List RawArg) (nrm : RawArg)
    (shift : ShiftArg) (kw kw' : Dict) (ha : dictGet kw "abs_tol" = dictGet kw' "abs_tol") (hr : dictGet kw "rel_tol" = dictGet kw' "rel_tol") :
    (hypConstruct s nrm shift kw).2 = (hypConstruct s nrm shift kw').2 ∧
    (dictGet kw "n_plot_2d_points" = dictGet kw' "n_plot_2d_points" → dictGet kw "n_plot_3d_points" = dictGet kw' "n_plot_3d_points" →
      (ellConstruct E s args kw).2 = (ellConstruct E s args kw').2) := by
  constructor
  · have h := parseProp_congr hs kw kw' ["abs_tol", "rel_tol"] (by
      intro n hn
      simp only [List.mem_cons, List.not_mem_nil, or_false] at hn
      rcases hn with rfl | rfl
      · exact ha
      · exact hr)
    unfold hypConstruct
    dsimp only
    generalize parseProp (alloc s kw).1 (alloc s kw).2 _ = p at h ⊢
    generalize parseProp (alloc s kw').1 (alloc s kw').2 _ = q at h ⊢
    obtain ⟨p1, _ | ⟨p2, p3⟩⟩ := p <;> obtain ⟨q1, _ | ⟨q2, q3⟩⟩ := q
    · cases h; rfl
    · cases h
    · cases h
    · cases h
      dsimp only
      split
      · split
        · split <;> rfl
        · rfl
      · rfl
  · intro h2 h3
    have h := parseProp_congr hs kw kw' ["abs_tol", "rel_tol", "n_plot_2d_points", "n_plot_3d_points"] (by
      intro n hn
      simp only [List.mem_cons, List.not_mem_nil, or_false] at hn
      rcases hn with rfl | rfl | rfl | rfl
      · exact ha
      · exact hr
      · exact h2
      · exact h3)
    unfold ellConstruct
    dsimp only
    generalize parseProp (alloc s kw).1 (alloc s kw).2 _ = p at h ⊢
    generalize parseProp (alloc s kw').1 (alloc s kw').2 _ = q at h ⊢
    obtain ⟨p1, _ | ⟨p2, p3⟩⟩ := p <;> obtain ⟨q1, _ | ⟨q2, q3⟩⟩ := q
    · cases h; rfl
    · cases h
    · cases h
    · cases h
      dsimp only
      split
      · split
        · split <;> rfl
        · rfl
      · rfl

/-- A concrete case: the tolerance is changed to 1/8 before the object is created and to 1/2 afterwards; the object has 1/8 and, given as keyword
argument, 50 points; a misspelt keyword is ignored. -/
example (E : LA.Eigh) : ∃ e : EllObj,
    (play E ([.conf (.set .absTol (.float (.fin (1/8))))] ++ .ell [] [("absTol", .none), ("n_plot_2d_points", .int 50)] ::
      [.conf (.set .absTol (.float (.fin (1/2)))), .conf (.setConfRepoMgr none)])).ells[0]? = some e ∧
    e.absTol = 1/8 ∧ e.relTol = 1/100000 ∧ e.n2d = 50 ∧ e.n3d = 200 := by
  have hreg : Regular E [.conf (.set .absTol (.float (.fin (1/8))))] := by
    intro b op a h
    cases b with
    | nil =>
      simp only [List.nil_append, List.cons.injEq, Act.conf.injEq] at h
      rw [← h.1]
      exact ⟨trivial, trivial⟩
    | cons x t =>
      have := congrArg List.length h
      simp at this
  have hc := (C116_ellipsoid E [.conf (.set .absTol (.float (.fin (1/8))))] hreg [] [("absTol", .none), ("n_plot_2d_points", .int 50)]
    (.float (.fin (1/8))) (.float (.fin (1/100000))) (.int 50) (.int 200) rfl rfl rfl rfl).2
    (.inr (.inr (.inl ⟨by simp, .inr ⟨_, by norm_num, rfl⟩⟩))) (.inr (.inr (.inl ⟨by simp, .inr ⟨_, by norm_num, rfl⟩⟩)))
    (.inr (.inr (.inr (.inr ⟨by simp, .inl ⟨_, rfl⟩⟩)))) (.inr (.inr (.inr (.inr ⟨by simp, .inl ⟨_, rfl⟩⟩))))
    _ _ _ _ (.float _) (.float _) (.int _) (.int _)
  refine ⟨_, (C116_kept E _ [.conf (.set .absTol (.float (.fin (1/2)))), .conf (.setConfRepoMgr none)] hreg [] _ _ hc).1, ?_⟩
  refine ⟨by norm_num, by norm_num, by norm_num, by norm_num⟩

end Ellipy.Session
