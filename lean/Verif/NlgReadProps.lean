import Verif.NlgReadModel
import Verif.NonLinProps4
import Verif.SampleProps

/-!
# C113: reading the parameters of a non-linear Gaussian, and comparing it
-/

namespace Verif.NLG
open Matrix Gauss Spec _root_.Verif.Fact _root_.Verif.Sigma

theorem copyG_twice {g k : AnyG} (h : Mix.copyG g = .ok k) : Mix.copyG k = .ok k := by
  obtain ⟨n, ⟨vars, can, cov, vac⟩⟩ := g
  unfold Mix.copyG Gauss.copy at h
  obtain ⟨x, hx, h⟩ := py_bind_eq_ok.1 h
  cases h
  unfold Mix.copyG Gauss.copy
  cases cov with
  | some v =>
    cases can with
    | some c =>
      obtain ⟨y, hy, hx⟩ := py_bind_eq_ok.1 hx
      cases hx
      obtain ⟨h1, h2, rfl⟩ := mkCov_eq_ok hy
      simp [mkCov_ok h1 h2, bind, Except.bind]
    | none =>
      obtain ⟨h1, h2, rfl⟩ := mkCov_eq_ok hx
      simp [mkCov_ok h1 h2, bind, Except.bind]
  | none =>
    cases can with
    | some c =>
      obtain ⟨h1, h2, rfl⟩ := mkCan_eq_ok hx
      simp [mkCan_ok h1 h2, bind, Except.bind]
    | none => cases hx

theorem reducedCond_copy (hs : HashSeed) (ev : Dict Var ℝ) {g k : AnyG} (h : Mix.copyG g = .ok k) :
    reducedCond hs ev k = reducedCond hs ev g := by
  unfold reducedCond
  rw [h, copyG_twice h]

theorem copy_cond {a r : NLG} (h : copy a = .ok r) : copyOpt a.cond = .ok r.cond := by
  unfold copy make at h
  obtain ⟨-, -, h⟩ := py_bind_eq_ok.1 h
  obtain ⟨-, -, h⟩ := py_bind_eq_ok.1 h
  obtain ⟨-, -, h⟩ := py_bind_eq_ok.1 h
  rw [dif_pos rfl] at h
  obtain ⟨c, hc, h⟩ := py_bind_eq_ok.1 h
  obtain ⟨u, -, h⟩ := py_bind_eq_ok.1 h
  obtain ⟨j, -, h⟩ := py_bind_eq_ok.1 h
  cases h
  exact hc

/-- The order of the variables after the update factor. -/
def updVars (vs : List Var) : Option AnyG → List Var
  | none => vs
  | some g => opVars vs g.2.vars

/-- The order of the variables of the joint after the update factor and the evidence. -/
def jointVars (vs : List Var) (u : Option AnyG) (obs : List Var) : List Var :=
  if obs = [] then updVars vs u else unobserved (updVars vs u) obs

theorem jointVars_congr {u u' : Option AnyG} (vs obs : List Var) (h : condVars u' = condVars u) (hn : u' = none ↔ u = none) :
    jointVars vs u' obs = jointVars vs u obs := by
  unfold jointVars
  cases u with
  | none =>
    rw [hn.2 rfl]
  | some g =>
    cases u' with
    | none => exact absurd (hn.1 rfl) (by simp)
    | some g' =>
      have : g'.2.vars = g.2.vars := h
      unfold updVars
      dsimp only
      rw [this]

theorem update_vars {j r : AnyG} {u u' : Option AnyG} (hj : Good j.2) (hu : ∀ g, u = some g → Good g.2)
    (h : applyUpdate j u = .ok (u', r)) : r.2.vars = updVars j.2.vars u := by
  unfold applyUpdate at h
  cases u with
  | none =>
    cases h
    rfl
  | some g =>
    obtain ⟨⟨a, b, c⟩, h1, h⟩ := py_bind_eq_ok.1 h
    cases h
    unfold Gauss.multiply at h1
    rw [absorbOrCancel_valid _ hj.toValid (hu g rfl).toValid] at h1
    cases h1
    rfl

theorem evidence_vars {j r : AnyG} {obs : List Var} {vals : List ℝ} (h : applyEvidence j obs vals = .ok r) :
    r.2.vars = if obs = [] then j.2.vars else unobserved j.2.vars obs := by
  unfold applyEvidence at h
  split at h
  · rename_i he
    rw [if_pos he]
    cases h
    rfl
  · rename_i he
    rw [if_neg he]
    obtain ⟨⟨a, b⟩, h1, h⟩ := py_bind_eq_ok.1 h
    cases h
    unfold Gauss.reduce at h1
    obtain ⟨-, -, h1⟩ := py_bind_eq_ok.1 h1
    obtain ⟨_, -, h1⟩ := py_bind_eq_ok.1 h1
    obtain ⟨_, -, h1⟩ := py_bind_eq_ok.1 h1
    obtain ⟨_, -, h1⟩ := py_bind_eq_ok.1 h1
    obtain ⟨_, -, h1⟩ := py_bind_eq_ok.1 h1
    dsimp only at h1
    split at h1
    · obtain ⟨x, hx, h1⟩ := py_bind_eq_ok.1 h1
      cases h1
      obtain ⟨-, -, rfl⟩ := mkCan_eq_ok hx
      rfl
    · obtain ⟨x, hx, h1⟩ := py_bind_eq_ok.1 h1
      cases h1
      obtain ⟨-, -, rfl⟩ := mkCan_eq_ok hx
      rfl

/-- What is computed for a factor with a proper conditioning factor: the function and the order of the variables. -/
theorem recompute_read (hs : HashSeed) {a : NLG} {U C : (Var → ℝ) → ℝ} (h : IsNLG a U C) {g : AnyG} (hp : Proper a g C)
    {vars : List Var} {k : Gauss vars.length} (hk : reducedCond hs a.ev g = .ok ⟨_, k⟩)
    (hmem : ∀ v, v ∈ vars ↔ v ∈ g.2.vars ∧ v ∉ Dict.keys a.ev) {j : AnyG} {M : (Var → ℝ) → ℝ}
    (hj : transformed a ⟨_, k⟩ (observedIn a.ev a.xs) ((observedIn a.ev a.xs).map (val a.ev)) = .ok j)
    (dj : Den j (vars ++ a.ys, M)) :
    ∃ u r, recompute hs a = .ok { a with joint := r, upd := u } ∧ IsNLG { a with joint := r, upd := u } U C ∧
      condVars u = condVars a.upd ∧ (u = none ↔ a.upd = none) ∧ Honest r ∧
      r.2.vars = jointVars j.2.vars a.upd (observedIn a.ev a.ys) ∧
      Den r (a.vars.filter (· ∉ Dict.keys a.ev), fun x => M (override a.ev x) + U (override a.ev x)) := by
  obtain ⟨u, r, hr, hi, su, nu, dr⟩ := recompute_proper hs h hp hk hmem hj dj
  have hh : Honest r := recompute_honest h hp.covered hr
  refine ⟨u, r, hr, hi, su, nu, hh, ?_, dr⟩
  rw [recompute_eq, if_neg (not_not.2 ((covered_iff h).2 hp.covered)), hp.cond] at hr
  dsimp only at hr
  rw [hk, py_bind_ok, hj, py_bind_ok] at hr
  obtain ⟨⟨u', j1⟩, h1, hr⟩ := py_bind_eq_ok.1 hr
  obtain ⟨j2, h2, hr⟩ := py_bind_eq_ok.1 hr
  injection hr with hr
  have hj2 : j2 = r := congrArg NLG.joint hr
  subst hj2
  rw [evidence_vars h2, update_vars dj.good (fun g' hg' => by
    have hu := h.upd
    rw [hg'] at hu
    exact hu.1.good) h1]
  rfl

/-- Reading the joint distribution, for the same conditioning factor and transform. -/
theorem joint_read (hs : HashSeed) {a : NLG} {U C : (Var → ℝ) → ℝ} (h : IsNLG a U C) {g : AnyG} (hp : Proper a g C)
    {vars : List Var} {k : Gauss vars.length} (hk : reducedCond hs a.ev g = .ok ⟨_, k⟩)
    (hmem : ∀ v, v ∈ vars ↔ v ∈ g.2.vars ∧ v ∉ Dict.keys a.ev) {j : AnyG} {M : (Var → ℝ) → ℝ}
    (hj : transformed a ⟨_, k⟩ (observedIn a.ev a.xs) ((observedIn a.ev a.xs).map (val a.ev)) = .ok j)
    (dj : Den j (vars ++ a.ys, M)) :
    ∃ r, jointDistribution hs a = .ok r ∧ r.2.vars = jointVars j.2.vars a.upd (observedIn a.ev a.ys) ∧
      Den r (a.vars.filter (· ∉ Dict.keys a.ev), fun x => M (override a.ev x) + U (override a.ev x)) := by
  obtain ⟨j0, u, c, e, hi, sc, su, nc, nu⟩ := copy_ok h
  have hc := copy_cond e
  rw [hp.cond] at hc
  unfold copyOpt at hc
  obtain ⟨g', hg', hc⟩ := py_bind_eq_ok.1 hc
  have hcc : c = some g' := by
    injection hc with hc
    exact hc.symm
  subst hcc
  obtain ⟨g2, hp2⟩ := proper_copy (j := j0) (u := u) hp sc nc
  have hg2 : g' = g2 := by
    have := hp2.cond
    injection this
  subst hg2
  have hgv : g'.2.vars = g.2.vars := by
    rw [hp.cond] at sc
    exact sc
  obtain ⟨u', r, hr, -, -, -, -, hv, dr⟩ := recompute_read hs hi hp2 (k := k) ((reducedCond_copy hs a.ev hg').trans hk)
    (fun v => by rw [hgv]; exact hmem v) hj dj
  refine ⟨r, ?_, hv.trans (jointVars_congr _ _ su nu), dr⟩
  unfold jointDistribution
  rw [e, py_bind_ok, hr, py_bind_ok]

/-! ### C113 -/

/-- The factor `a'` has the parts of `a`, and its joint distribution has the log potential `L` and the variables `vs`, in
this order. -/
structure Unchanged (hs : HashSeed) (a a' : NLG) (U C L : (Var → ℝ) → ℝ) (vs : List Var) : Prop where
  keeps : Keeps a' a
  parts : IsNLG a' U C
  cond : a'.cond = a.cond
  joint : ∃ j, jointDistribution hs a' = .ok j ∧ Denotes j.2 L ∧ j.2.vars = vs
  stored : Made a'.joint.2 ∧ Denotes a'.joint.2 L ∧ a'.joint.2.vars = vs

theorem read_all (hs : HashSeed) {a : NLG} {U C : (Var → ℝ) → ℝ} (h : IsNLG a U C) (hys : a.ys ≠ [])
    (hN : a.noise.PosDef) (hT : Total a.transform a.xs a.q) {g : AnyG} (hp : Proper a g C) :
    ∃ j L u r, jointDistribution hs a = .ok j ∧ Made j.2 ∧ Denotes j.2 L ∧
      recompute hs a = .ok { a with joint := r, upd := u } ∧ Honest r ∧ r.2.vars = j.2.vars ∧ Made r.2 ∧ Denotes r.2 L ∧
      ∀ r', Made r'.2 → Denotes r'.2 L → r'.2.vars = r.2.vars →
        Unchanged hs a { a with joint := r', upd := u } U C L j.2.vars := by
  obtain ⟨vars, k, h1, h2, h3, h4, h5, h6, h7, h8, h9⟩ := proper_cond hs h hp
  obtain ⟨j', M, hj, dj, hjv⟩ := transformed_den h hys hN h2 h3 h4 h5 (fun v hv => (mem_observedIn.1 hv).2)
    (fun v hv => ((h6 v).1 hv).2) h7 h8 hT
  obtain ⟨u, r, hr, hi, su, nu, hh, hv, dr⟩ := recompute_read hs h hp h1 h6 hj dj
  obtain ⟨j, hj1, hjv1, dj1⟩ := joint_read hs h hp h1 h6 hj dj
  refine ⟨j, _, u, r, hj1, dj1.made, dj1.den, hr, hh, hv.trans hjv1.symm, dr.made, dr.den, fun r' m' d' v' => ?_⟩
  have hI : IsNLG { a with joint := r', upd := u } U C :=
    ⟨h.nodup, h.q, hi.upd, h.cond, den_shape (i := (r'.2.vars, _)) ⟨m', d', fun _ => Iff.rfl⟩, h.ev⟩
  have hP : Proper { a with joint := r', upd := u } g C := ⟨hp.cond, hp.covered, hp.free, hp.pos⟩
  obtain ⟨j2, hj2, hjv2, dj2⟩ := joint_read hs hI hP h1 h6 hj dj
  refine ⟨keeps_parts a r' u a.cond, hI, rfl, ⟨j2, hj2, dj2.den, ?_⟩, m', d', v'.trans (hv.trans hjv1.symm)⟩
  rw [hjv2, hjv1]
  exact jointVars_congr _ _ su nu

theorem vecAt_vars {n : ℕ} {vs ws : List Var} (h : vs = ws) (hl : vs.length = n) (x : Var → ℝ) :
    vecAt vs hl x = vecAt ws (h ▸ hl) x := by
  subst h
  rfl

/-- **C113, reading parameters.** For every transform, the canonical parameters that a non-linear Gaussian returns are
those of its joint distribution, with rows in the order of the variables of `joint_distribution`; so are the covariance
parameters if the joint is strictly concave. Reading them does not change what the factor means: its parts stay and the
joint distribution has the same log potential afterwards. -/
theorem C113_parameters (hs : HashSeed) {a : NLG} {U C : (Var → ℝ) → ℝ} (h : IsNLG a U C) (hys : a.ys ≠ [])
    (hN : a.noise.PosDef) (hT : Total a.transform a.xs a.q) {g : AnyG} (hp : Proper a g C) :
    ∃ j L, jointDistribution hs a = .ok j ∧ Denotes j.2 L ∧
      (∃ a' k c, ∃ hl : j.2.vars.length = k, getCan hs a = .ok (a', ⟨k, c⟩) ∧ Unchanged hs a a' U C L j.2.vars ∧
        ∀ x : Var → ℝ, L x = -(1 / 2) * (vecAt j.2.vars hl x ⬝ᵥ c.prec *ᵥ vecAt j.2.vars hl x) +
          c.h ⬝ᵥ vecAt j.2.vars hl x + c.g) ∧
      (PosOn L (· ∈ j.2.vars) → ∃ a' k v, ∃ hl : j.2.vars.length = k, getCov hs a = .ok (a', ⟨k, v⟩) ∧
        Unchanged hs a a' U C L j.2.vars ∧ v.cov.PosDef ∧
        ∀ x : Var → ℝ, Real.exp (L x) = Real.exp v.lw * normalDensity v.cov v.mean (vecAt j.2.vars hl x)) := by
  obtain ⟨j, L, u, r, hj, mj, dj, hr, hh, hv, mr, dr, key⟩ := read_all hs h hys hN hT hp
  have hg := dr.good mr.inv
  refine ⟨j, L, hj, dj, ?_, fun hpos => ?_⟩
  · have hc := getCan_valid hg.toValid
    refine ⟨_, r.1, canOf r.2, hv ▸ hg.len, ?_, key ⟨_, ⟨r.2.vars, some (canOf r.2), r.2.cov, r.2.vac⟩⟩ (Made.getCan mr hc) (kept_can hg |>.den L dr) rfl, fun x => ?_⟩
    · unfold getCan
      rw [hr, py_bind_ok]
      dsimp only
      rw [hc, py_bind_ok]
    · rw [dr.eq hg]
      unfold logOf evalCan
      rw [dotProduct_comm _ (canOf r.2).h]
      rw [vecAt_vars hv hg.len x]
      ring
  · have hpd : (canOf r.2).prec.PosDef := by
      refine posDef_logOf hg ?_
      rw [← dr.eq hg, hv]
      exact hpos
    have hvac : r.2.vac = false := by
      by_contra hc
      have := hh (by simpa using hc)
      rw [vacParams_posDef hpd] at this
      cases this
    have hc := getCov_valid hg.toValid hvac hpd.det_pos
    refine ⟨_, r.1, toCov (canOf r.2), hv ▸ hg.len, ?_,
      key ⟨_, ⟨r.2.vars, r.2.can, some (toCov (canOf r.2)), r.2.vac⟩⟩ (Made.getCov mr hc) (kept_cov hg hpd.det_pos |>.den L dr) rfl,
      hpd.inv, fun x => ?_⟩
    · unfold getCov
      rw [hr, py_bind_ok]
      dsimp only
      rw [hc, py_bind_ok]
    · rw [dr.eq hg]
      unfold logOf
      have e := exp_evalCan_toCan (v := toCov (canOf r.2)) hpd.inv (vecAt r.2.vars hg.len x)
      rw [toCan_toCov hpd.det_pos] at e
      rw [e, vecAt_vars hv hg.len x]

end Verif.NLG
