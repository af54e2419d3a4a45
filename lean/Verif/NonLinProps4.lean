import Verif.NonLinProps3

/-!
# Properties of non-linear Gaussians (C96, C86): weights, and the marginal of the update factor
-/

namespace Verif.NLG
open Matrix Gauss Spec _root_.Verif.Fact _root_.Verif.Sigma

/-! ### C96 -/

theorem evalCan_weight {n : ℕ} (S : Matrix (Fin n) (Fin n) ℝ) (m : Fin n → ℝ) (l w : ℝ) (y : Fin n → ℝ) :
    evalCan (toCan ⟨S, m, l + w⟩) y = evalCan (toCan ⟨S, m, l⟩) y + w := by
  simp only [evalCan, toCan]
  ring

theorem transformed_weight {a : NLG} {U C : (Var → ℝ) → ℝ} (h : IsNLG a U C) (hys : a.ys ≠ []) (hN : a.noise.PosDef)
    {vars : List Var} {k : Gauss vars.length} (hkv : k.vars = vars) (hg : Good k) (hh : Honest ⟨_, k⟩)
    (hp : (canOf k).prec.PosDef) {obs : List Var} (ho : ∀ v ∈ obs, v ∈ Dict.keys a.ev) (hv : ∀ v ∈ vars, v ∉ Dict.keys a.ev)
    (hperm : (obs ++ vars).Perm a.xs) (hne : vars ≠ []) (hT : Total a.transform a.xs a.q) (w : ℝ) :
    ∃ j j' M, transformed a ⟨_, k⟩ obs (obs.map (val a.ev)) = .ok j ∧ Den j (vars ++ a.ys, M) ∧
      transformed (a.addLogWeight w) ⟨_, k⟩ obs (obs.map (val a.ev)) = .ok j' ∧ Den j' (vars ++ a.ys, fun x => M x + w) := by
  obtain ⟨L, hL, key⟩ := transformed_eq h.nodup h.q hys hkv hg hh hp ho hv hperm hne
  obtain ⟨L', hL', key'⟩ := transformed_eq (a := a.addLogWeight w) h.nodup h.q hys hkv hg hh hp ho hv hperm hne
  obtain rfl := hL.unique hL'
  obtain ⟨outs, h1, h2⟩ := hT _ hperm (((pointsOf (toCov (canOf k)).mean L).map (asgOf a.ev vars)).map
    fun x i => x (obs ++ vars)[i])
  rw [List.length_map, List.length_map] at h2
  have hnd := nodup_names h hperm
  have hpd := jCov_posDef hnd h.q (by simp [h.q]) h2 (by
    rw [pointsOf_cov, hL.prod]
    exact hL.posDef) hN
  refine ⟨_, _, _, key outs h1 h2, mkCov_den hnd hpd, key' outs h1 h2, (mkCov_den hnd hpd).congr (fun _ => Iff.rfl) fun x => ?_⟩
  dsimp only
  rw [← evalCan_weight]
  congr 3
  show a.lw + w + _ = _
  ring

/-- **C96.** Adding a log weight adds it to the log potential of the joint distribution, for every transform, and does not
change the rest of the factor. -/
theorem C96_weight (hs : HashSeed) {a : NLG} {U C : (Var → ℝ) → ℝ} (h : IsNLG a U C) (hys : a.ys ≠ [])
    (hN : a.noise.PosDef) (hT : Total a.transform a.xs a.q) {g : AnyG} (hp : Proper a g C) (w : ℝ) :
    ∃ j j' L, jointDistribution hs a = .ok j ∧ jointDistribution hs (a.addLogWeight w) = .ok j' ∧
      Made j.2 ∧ Made j'.2 ∧ Denotes j.2 L ∧ Denotes j'.2 (fun x => L x + w) ∧ ∀ v, v ∈ j'.2.vars ↔ v ∈ j.2.vars := by
  obtain ⟨j, u, c, e, hi, sc, su, nc, nu⟩ := copy_ok h
  have ew : copy (a.addLogWeight w) = .ok (addLogWeight { a with joint := j, upd := u, cond := c } w) := by
    unfold copy make at e ⊢
    obtain ⟨_, e1, e⟩ := py_bind_eq_ok.1 e
    obtain ⟨_, e2, e⟩ := py_bind_eq_ok.1 e
    obtain ⟨_, e3, e⟩ := py_bind_eq_ok.1 e
    rw [dif_pos rfl] at e
    obtain ⟨c', e4, e⟩ := py_bind_eq_ok.1 e
    obtain ⟨u', e5, e⟩ := py_bind_eq_ok.1 e
    obtain ⟨j', e6, e⟩ := py_bind_eq_ok.1 e
    injection e with e
    have hj : j' = j := congrArg NLG.joint e
    have hu : u' = u := congrArg NLG.upd e
    have hc : c' = c := congrArg NLG.cond e
    subst hj hu hc
    unfold addLogWeight
    dsimp only
    rw [e1, py_bind_ok, e2, py_bind_ok, e3, py_bind_ok, dif_pos rfl, e4, py_bind_ok, e5, py_bind_ok, e6, py_bind_ok]
  obtain ⟨g', hp'⟩ := proper_copy (j := j) (u := u) hp sc nc
  have hiw : IsNLG (addLogWeight { a with joint := j, upd := u, cond := c } w) U C :=
    ⟨hi.nodup, hi.q, hi.upd, hi.cond, hi.joint, hi.ev⟩
  have hpw : Proper (addLogWeight { a with joint := j, upd := u, cond := c } w) g' C :=
    ⟨hp'.cond, hp'.covered, hp'.free, hp'.pos⟩
  obtain ⟨vars, k, h1, h2, h3, h4, h5, h6, h7, h8, h9⟩ := proper_cond hs hi hp'
  obtain ⟨j1, j2, M, e1, d1, e2, d2⟩ := transformed_weight hi hys hN h2 h3 h4 h5 (fun v hv => (mem_observedIn.1 hv).2)
    (fun v hv => ((h6 v).1 hv).2) h7 h8 hT w
  obtain ⟨u1, r1, hr1, -, -, -, dr1⟩ := recompute_proper hs hi hp' h1 h6 e1 d1
  obtain ⟨u2, r2, hr2, -, -, -, dr2⟩ := recompute_proper hs hiw hpw h1 h6 e2 d2
  refine ⟨r1, r2, _, ?_, ?_, dr1.made, dr2.made, dr1.den, dr2.den.congr fun x => ?_, fun v => (dr2.vars v).trans (dr1.vars v).symm⟩
  · unfold jointDistribution
    rw [e, py_bind_ok, hr1, py_bind_ok]
  · unfold jointDistribution
    rw [ew, py_bind_ok, hr2, py_bind_ok]
  · show M (override a.ev x) + w + U (override a.ev x) = M (override a.ev x) + U (override a.ev x) + w
    ring

/-! ### C86, the marginal of the update factor -/

/-- **C86, variables of the update factor while the joint is vacuous.** If the conditioning factor and the evidence do not
cover the conditioning variables, the marginal over variables of the update factor is the integral of the update factor
over its other variables, times the weight. -/
theorem C86_update_marginal (hs : HashSeed) {a : NLG} {U C : (Var → ℝ) → ℝ} (h : IsNLG a U C) {g : AnyG}
    (hg : a.upd = some g) (hpos : PosOn U (· ∈ g.2.vars)) {vrs : List Var} (hn : vrs.Nodup) (hne : vrs ≠ [])
    (hv : ∀ v ∈ vrs, v ∈ g.2.vars) (hc : ∃ v ∈ a.xs, v ∉ condVars a.cond ∧ v ∉ Dict.keys a.ev) :
    ∃ r M, marginalize hs a vrs = .ok r ∧ r.2.vars = vrs ∧ Denotes r.2 M ∧
      ∀ out : List Var, out.Nodup → (∀ v, v ∈ out ↔ v ∈ g.2.vars ∧ v ∉ vrs) → ∀ x,
        IntegrableOut out (fun z => Real.exp (U z)) x ∧
        Real.exp a.lw * integrateOut out (fun z => Real.exp (U z)) x = Real.exp (M x) := by
  have hpu := h.upd
  rw [hg] at hpu
  have hnc : ¬ Covered a := by
    obtain ⟨v, h1, h2, h3⟩ := hc
    intro h'
    rcases h' v h1 with h4 | h4
    · exact h2 h4
    · exact h3 h4
  have hgg := hpu.1.good
  have hpd : (canOf g.2).prec.PosDef := by
    refine posDef_logOf hgg ?_
    rw [← hpu.1.den.eq hgg]
    exact hpos
  obtain ⟨k, hk, dk, hkv⟩ := copyG_den hpu.1
  have hvac : k.2.vac = false := by
    have hk' := hk
    unfold Mix.copyG at hk'
    obtain ⟨k', hk1, hk2⟩ := py_bind_eq_ok.1 hk'
    cases hk2
    exact copy_vac hgg hpd hk1
  have hpdk : (canOf k.2).prec.PosDef := by
    refine posDef_logOf dk.good ?_
    rw [← dk.den.eq dk.good, hkv]
    exact hpos
  obtain ⟨j, u, c, e, hi2, sc, -⟩ := copy_ok h
  have hcu : u = some k := by
    have e' := e
    unfold copy make at e'
    obtain ⟨-, -, e'⟩ := py_bind_eq_ok.1 e'
    obtain ⟨-, -, e'⟩ := py_bind_eq_ok.1 e'
    obtain ⟨-, -, e'⟩ := py_bind_eq_ok.1 e'
    rw [dif_pos rfl] at e'
    obtain ⟨c', -, e'⟩ := py_bind_eq_ok.1 e'
    obtain ⟨u', hu', e'⟩ := py_bind_eq_ok.1 e'
    obtain ⟨j', -, e'⟩ := py_bind_eq_ok.1 e'
    rw [hg] at hu'
    unfold copyOpt at hu'
    dsimp only at hu'
    rw [hk, py_bind_ok] at hu'
    cases hu'
    injection e' with e'
    exact (congrArg NLG.upd e').symm
  subst hcu
  have hys : ∀ v ∈ vrs, v ∈ a.ys := fun v hv' => hpu.2 v (hv v hv')
  have hxs : ¬ ∀ v ∈ vrs, v ∈ a.xs := by
    obtain ⟨v, hv'⟩ := List.exists_mem_of_ne_nil _ hne
    exact fun h' => (List.nodup_append.1 h.nodup).2.2 v (h' v hv') v (hys v hv') rfl
  obtain ⟨r, M, hr, hrv, -, hrm, dr, hint⟩ := C32_marginalize_partial hs dk.made dk.den (getCan_valid dk.good.toValid) hvac true
    hn (fun v hv' => hkv ▸ hv v hv') fun y hy _ => by
      have := hpdk.dotProduct_mulVec_pos hy
      simpa using this
  refine ⟨⟨_, r.addLogWeight a.lw⟩, fun x => M x + a.lw, ?_, hrv rfl, ?_, fun out ho hmo x => ?_⟩
  · rw [marginalize_uncovered hs hnc (fun v hv' => List.mem_append_right _ (hys v hv')) e sc hi2]
    unfold vacMarginal
    dsimp only
    rw [if_neg hxs]
    unfold updMarginal
    dsimp only
    rw [if_pos hys]
    unfold partMarginal
    dsimp only
    rw [if_pos fun v hv' => hkv ▸ hv v hv']
    dsimp only
    rw [hr, py_bind_ok, py_bind_ok]
  · exact (C38_copy_weight (.marginalize dk.made hr) dr).2 a.lw
  · obtain ⟨i1, i2⟩ := hint out ho (fun v => by rw [hmo, hkv, hrv rfl]) x
    refine ⟨i1, ?_⟩
    rw [i2, Real.exp_add, mul_comm]

/-! ### Concrete cases -/

/-- A weight for `c = a + 2 b + 3` with `b` observed. -/
example (hs : HashSeed) : ∃ j j' L, jointDistribution hs (exN (some ⟨_, std ["a", "b"]⟩) [("b", 2)]) = .ok j ∧
    jointDistribution hs (addLogWeight (exN (some ⟨_, std ["a", "b"]⟩) [("b", 2)]) 5) = .ok j' ∧
    Denotes j.2 L ∧ Denotes j'.2 fun x => L x + 5 := by
  obtain ⟨j, j', L, h1, h2, -, -, h3, h4, -⟩ := C96_weight hs exN_full (by simp [exN]) PosDef.one exNT_total exN_proper 5
  exact ⟨j, j', L, h1, h2, h3, h4⟩

/-- Nothing is known about `b`: the marginal over `c`. -/
example (hs : HashSeed) : ∃ r, marginalize hs (exN (some ⟨_, std ["a"]⟩) []) ["c"] = .ok r ∧ r.2.vars = ["c"] := by
  have h := exN_isNLG (part_std (vs := ["a"]) (scope := ["a", "b"]) (by decide) (by simp)) (ev := []) (by simp [Dict.keys])
  obtain ⟨r, M, hr, hv, -⟩ := C86_update_marginal hs h rfl (vrs := ["c"]) (by
      intro z hz hS
      obtain ⟨v, hv⟩ := Function.ne_iff.1 hz
      have hm : v = "c" := by
        by_contra hne
        refine hv (hS v ?_)
        intro h1
        have h1' : v ∈ (["c"] : List Var) := h1
        simp_all
      subst hm
      have hpos := sq_pos_of_ne_zero hv
      simp [stdItem]
      nlinarith) (by decide) (by decide) (fun v hv => hv)
    ⟨"b", by simp [exN], by show "b" ∉ (["a"] : List Var); decide, by simp [exN, Dict.keys]⟩
  exact ⟨r, hr, hv⟩

end Verif.NLG
