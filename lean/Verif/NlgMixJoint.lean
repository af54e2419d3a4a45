import Verif.NlgMixLemmas

/-!
# Helper lemmas for mixtures of non-linear Gaussians: the order of the variables of the joints
-/

namespace Verif.NlgMix
open Matrix Gauss Spec _root_.Verif.Fact _root_.Verif.NLG

/-- The order of the variables of a joint distribution: the conditioning factor's variables, in its order unless one
of them is observed, and then the conditional variables; in sorted order if one of the latter is observed. -/
def jointOrder (cv ys keys : List Var) : List Var :=
  let names := (if ∀ v ∈ cv, v ∉ keys then cv else pySorted (cv.filter (· ∉ keys)).dedup) ++ ys
  if ∀ v ∈ ys, v ∉ keys then names else pySorted (names.filter (· ∉ keys)).dedup

theorem unobserved_congr {vars o o' : List Var} (h : ∀ v ∈ vars, v ∈ o ↔ v ∈ o') : unobserved vars o = unobserved vars o' := by
  unfold unobserved
  have : vars.filter (· ∉ o) = vars.filter (· ∉ o') := List.filter_congr fun v hv => by simp [h v hv]
  rw [this]

theorem reducedCond_vars {hs : HashSeed} {g k : AnyG} {C : (Var → ℝ) → ℝ} (h : Den g (g.2.vars, C)) {ev : Dict Var ℝ}
    (hk : reducedCond hs ev g = .ok k) :
    k.2.vars = if ∀ v ∈ g.2.vars, v ∉ Dict.keys ev then g.2.vars else unobserved g.2.vars (Dict.keys ev) := by
  obtain ⟨c, hc, -, hcv⟩ := copyG_den h
  unfold reducedCond at hk
  rw [hc] at hk
  dsimp only [bind, Except.bind] at hk
  have hmem : ∀ v, v ∈ hs.strs.toList ((Dict.keys ev).filter (· ∈ c.2.vars)) ↔ v ∈ Dict.keys ev ∧ v ∈ c.2.vars := by
    intro v
    rw [SetOrder.mem, List.mem_filter, decide_eq_true_eq]
  obtain ⟨obs, ho⟩ : ∃ obs, obs = hs.strs.toList ((Dict.keys ev).filter (· ∈ c.2.vars)) := ⟨_, rfl⟩
  rw [← ho] at hmem hk
  rw [mapM_val fun v hv => ((hmem v).1 hv).1] at hk
  dsimp only at hk
  by_cases he : obs = []
  · rw [if_pos he] at hk
    cases hk
    rw [hcv, if_pos]
    intro v hv hkv
    have := (hmem v).2 ⟨hkv, hcv ▸ hv⟩
    rw [he] at this
    simp at this
  · rw [if_neg he] at hk
    obtain ⟨⟨c', r⟩, hr, hk⟩ := py_bind_eq_ok.1 hk
    cases hk
    obtain ⟨v, hv⟩ := List.exists_mem_of_ne_nil _ he
    rw [Mix.reduce_vars hr, hcv, if_neg fun hh => hh v (hcv ▸ ((hmem v).1 hv).2) ((hmem v).1 hv).1]
    exact unobserved_congr fun v hv => ⟨fun h => ((hmem v).1 h).1, fun h => (hmem v).2 ⟨h, hcv ▸ hv⟩⟩

theorem getCov_vars {n : ℕ} {a a' : Gauss n} {v : CovF n} (h : a.getCov = .ok (a', v)) : a'.vars = a.vars := by
  unfold Gauss.getCov updateCov at h
  split at h
  · cases h
  · split at h
    · rename_i w hw
      obtain ⟨b, hb, h⟩ := py_bind_eq_ok.1 h
      cases hb
      rw [hw] at h
      cases h
      rfl
    · split at h
      · cases h
      · obtain ⟨b, hb, h⟩ := py_bind_eq_ok.1 h
        obtain ⟨w, hw', hb⟩ := py_bind_eq_ok.1 hb
        cases hb
        cases h
        rfl

theorem transformed_vars {a : NLG} {k j : AnyG} {obs : List Var} {vals : List ℝ} (h : transformed a k obs vals = .ok j) :
    j.2.vars = k.2.vars ++ a.ys := by
  unfold transformed at h
  obtain ⟨⟨k', p⟩, h1, h⟩ := py_bind_eq_ok.1 h
  obtain ⟨⟨n, ⟨J, shape⟩, μ⟩, h2, h⟩ := py_bind_eq_ok.1 h
  obtain ⟨_, h3, h⟩ := py_bind_eq_ok.1 h
  obtain ⟨⟨C, m⟩, h4, h⟩ := py_bind_eq_ok.1 h
  obtain ⟨w, h5, h⟩ := py_bind_eq_ok.1 h
  unfold withNoise at h
  obtain ⟨C', h6, h⟩ := py_bind_eq_ok.1 h
  obtain ⟨m', h7, h⟩ := py_bind_eq_ok.1 h
  obtain ⟨j', h8, h⟩ := py_bind_eq_ok.1 h
  cases h
  obtain ⟨-, -, rfl⟩ := mkCov_eq_ok h8
  have hk : k'.vars = k.2.vars := by
    unfold Sigma.sigmaPoints at h1
    obtain ⟨⟨g, v⟩, h9, h1⟩ := py_bind_eq_ok.1 h1
    dsimp only at h1
    obtain ⟨_, -, h1⟩ := py_bind_eq_ok.1 h1
    cases h1
    exact getCov_vars h9
  show opVars (k'.vars ++ a.ys) a.ys = _
  rw [opVars, if_pos fun v hv => List.mem_append_right _ hv, hk]

theorem applyUpdate_vars {j r : AnyG} {p u : Option AnyG} {ys : List Var} {U : (Var → ℝ) → ℝ} (hp : Part p ys U)
    (hsub : ∀ v ∈ ys, v ∈ j.2.vars) (h : applyUpdate j p = .ok (u, r)) : r.2.vars = j.2.vars := by
  cases p with
  | none =>
    cases h
    rfl
  | some g =>
    unfold applyUpdate at h
    obtain ⟨⟨_, u', r'⟩, h1, h⟩ := py_bind_eq_ok.1 h
    cases h
    unfold Gauss.multiply absorbOrCancel at h1
    obtain ⟨⟨_, ca⟩, -, h1⟩ := py_bind_eq_ok.1 h1
    obtain ⟨⟨_, cb⟩, -, h1⟩ := py_bind_eq_ok.1 h1
    dsimp only at h1
    obtain ⟨_, -, h1⟩ := py_bind_eq_ok.1 h1
    obtain ⟨_, -, h1⟩ := py_bind_eq_ok.1 h1
    obtain ⟨r0, h2, h1⟩ := py_bind_eq_ok.1 h1
    cases h1
    obtain ⟨-, -, rfl⟩ := mkCan_eq_ok h2
    show opVars j.2.vars g.2.vars = _
    rw [opVars, if_pos fun v hv => hsub v (hp.2 v hv)]

theorem applyEvidence_vars {j r : AnyG} {ev : Dict Var ℝ} {ys : List Var} {vals : List ℝ}
    (h : applyEvidence j (observedIn ev ys) vals = .ok r) :
    r.2.vars = if ∀ v ∈ ys, v ∉ Dict.keys ev then j.2.vars else unobserved j.2.vars (observedIn ev ys) := by
  unfold applyEvidence at h
  by_cases he : observedIn ev ys = []
  · rw [if_pos he] at h
    cases h
    rw [if_pos]
    intro v hv hk
    have := mem_observedIn.2 ⟨hv, hk⟩
    rw [he] at this
    simp at this
  · rw [if_neg he] at h
    obtain ⟨⟨_, r'⟩, hr, h⟩ := py_bind_eq_ok.1 h
    cases h
    obtain ⟨v, hv⟩ := List.exists_mem_of_ne_nil _ he
    rw [Mix.reduce_vars hr, if_neg fun hh => hh v (mem_observedIn.1 hv).1 (mem_observedIn.1 hv).2]

theorem recompute_vars {hs : HashSeed} {a r : NLG} {U C : (Var → ℝ) → ℝ} (h : IsNLG a U C) (hc : Covered a)
    (hr : recompute hs a = .ok r) : r.joint.2.vars = jointOrder (condVars a.cond) a.ys (Dict.keys a.ev) := by
  rw [recompute_eq, if_neg (not_not.2 ((covered_iff h).2 hc))] at hr
  have hpc := h.cond
  cases hcond : a.cond with
  | none => rw [hcond] at hr; cases hr
  | some g =>
    rw [hcond] at hr hpc
    dsimp only at hr
    obtain ⟨k, hk, hr⟩ := py_bind_eq_ok.1 hr
    obtain ⟨j, hj, hr⟩ := py_bind_eq_ok.1 hr
    obtain ⟨⟨u, j2⟩, hu, hr⟩ := py_bind_eq_ok.1 hr
    dsimp only at hr
    obtain ⟨j3, he, hr⟩ := py_bind_eq_ok.1 hr
    cases hr
    have h1 := reducedCond_vars hpc.1 hk
    have h2 := transformed_vars hj
    have h3 := applyUpdate_vars h.upd (by rw [h2]; exact fun v hv => List.mem_append_right _ hv) hu
    have h4 := applyEvidence_vars he
    have hfree : ∀ v ∈ k.2.vars, v ∉ Dict.keys a.ev := by
      rw [h1]
      split
      · assumption
      · exact fun v hv => (mem_unobserved.1 hv).2
    show j3.2.vars = jointOrder g.2.vars a.ys (Dict.keys a.ev)
    have h5 : unobserved j2.2.vars (observedIn a.ev a.ys) = unobserved j2.2.vars (Dict.keys a.ev) :=
      unobserved_congr fun v hv => ⟨fun h => (mem_observedIn.1 h).2, fun h' => mem_observedIn.2 ⟨by
        rw [h3, h2] at hv
        exact (List.mem_append.1 hv).resolve_left fun h6 => hfree v h6 h', h'⟩⟩
    rw [h4, h5, h3, h2, h1]
    rfl

/-- The order of the variables of the joint. -/
theorem joint_vars {hs : HashSeed} {a : NLG} {U C : (Var → ℝ) → ℝ} (h : IsNLG a U C) (hc : Covered a) {j : AnyG}
    (hj : NLG.jointDistribution hs a = .ok j) : j.2.vars = jointOrder (condVars a.cond) a.ys (Dict.keys a.ev) := by
  obtain ⟨j0, u, c, e, hi, sc, -⟩ := copy_ok h
  unfold NLG.jointDistribution at hj
  rw [e] at hj
  obtain ⟨k, hk, hj⟩ := py_bind_eq_ok.1 hj
  cases hk
  obtain ⟨r, hr, hj⟩ := py_bind_eq_ok.1 hj
  cases hj
  have := recompute_vars hi (fun v hv => by
    show v ∈ condVars c ∨ _
    rw [sc]
    exact hc v hv) hr
  rw [this]
  show jointOrder (condVars c) a.ys (Dict.keys a.ev) = _
  rw [sc]

theorem jointOrder_congr {cv ys k k' : List Var} (h : ∀ v, v ∈ k ↔ v ∈ k') : jointOrder cv ys k = jointOrder cv ys k' := by
  have h1 : (∀ v ∈ cv, v ∉ k) ↔ ∀ v ∈ cv, v ∉ k' := by simp only [h]
  have h2 : (∀ v ∈ ys, v ∉ k) ↔ ∀ v ∈ ys, v ∉ k' := by simp only [h]
  have h3 : ∀ l : List Var, l.filter (· ∉ k) = l.filter (· ∉ k') := fun l => List.filter_congr fun v _ => by simp [h v]
  unfold jointOrder
  simp only [h1, h2, h3]

end Verif.NlgMix
