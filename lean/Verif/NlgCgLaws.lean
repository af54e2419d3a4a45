import Verif.NlgCgFacts

/-!
# Non-linear Gaussians in cluster graphs: marginals and the laws
-/

namespace Verif.CG
open Spec (override DependsOn intOut)
open Gauss (AnyG Made Denotes Good canOf vecAt)
open NLG (IsNLG Part Shape Computes Covered Proper)
open Fact (Den PosOn)
open Classical Matrix

variable {hs : HashSeed}

theorem posOn_of_posDef {n : ℕ} {k : Gauss n} (hg : Good k) (hp : (canOf k).prec.PosDef) {S : Var → Prop}
    (hS : ∀ v, S v → v ∈ k.vars) : PosOn (Gauss.logOf k hg.len) S := by
  intro z hz hzS
  have hc := Fact.curv_logOf hg z (-z)
  have hne : vecAt k.vars hg.len z ≠ 0 := by
    intro h0
    refine hz (funext fun v => ?_)
    by_cases hv : v ∈ k.vars
    · obtain ⟨i, hi, rfl⟩ := List.mem_iff_getElem.1 hv
      have := congrFun h0 ⟨i, hg.len ▸ hi⟩
      exact this
    · exact hzS v fun h => hv (hS v h)
  have hpos : 0 < vecAt k.vars hg.len z ⬝ᵥ (canOf k).prec *ᵥ vecAt k.vars hg.len z := by
    have := hp.dotProduct_mulVec_pos hne
    simpa using this
  have hneg : vecAt k.vars hg.len (-z) = -vecAt k.vars hg.len z := rfl
  rw [hneg, mulVec_neg, dotProduct_neg, neg_neg] at hc
  unfold Fact.curv at hc
  rw [add_neg_cancel] at hc
  linarith

/-- If the joint of a covered non-linear Gaussian can be computed, the conditioning factor is strictly concave in its
unobserved variables. -/
theorem proper_of_recompute {a r : NLG} {U C : (Var → ℝ) → ℝ} (h : IsNLG a U C)
    (hne : ∀ g, a.cond = some g → g.2.vars ≠ []) (hc : Covered a) (hr : NLG.recompute hs a = .ok r) :
    ∃ g, Proper a g C := by
  rw [NLG.recompute_eq, if_neg (not_not.2 ((NLG.covered_iff h).2 hc))] at hr
  have hp := h.cond
  cases hcond : a.cond with
  | none => rw [hcond] at hr; cases hr
  | some g =>
    rw [hcond] at hr hp
    dsimp only at hr
    obtain ⟨k, hk, hr⟩ := py_bind_eq_ok.1 hr
    obtain ⟨j, hj, hr⟩ := py_bind_eq_ok.1 hr
    have hfree : ∃ v ∈ g.2.vars, v ∉ Dict.keys a.ev := by
      by_contra hn
      push Not at hn
      rw [NLG.reducedCond_all hs hp.1 (hne g hcond) hn] at hk
      cases hk
    obtain ⟨k', hk', hh, dk⟩ := NLG.reducedCond_den hs hp.1 hfree
    rw [hk] at hk'
    cases hk'
    unfold NLG.transformed at hj
    obtain ⟨⟨k2, p⟩, hsig, -⟩ := py_bind_eq_ok.1 hj
    unfold Sigma.sigmaPoints at hsig
    obtain ⟨⟨k3, v⟩, hcov, hsig⟩ := py_bind_eq_ok.1 hsig
    dsimp only at hsig
    obtain ⟨L, hL, -⟩ := py_bind_eq_ok.1 hsig
    have hch := (Sigma.npChol_eq_ok hL).posDef
    obtain ⟨-, hd, rfl, -⟩ := Gauss.getCov_eq_ok dk.good.toValid hcov
    rw [Sigma.lowerSym_eq (S := (Gauss.toCov (canOf k.2)).cov) (Gauss.symm_inv dk.good.symm)] at hch
    have hpd : (canOf k.2).prec.PosDef := by
      have h2 := hch.inv
      rw [show ((Gauss.toCov (canOf k.2)).cov)⁻¹ = (canOf k.2).prec from nonsing_inv_nonsing_inv _ hd.ne'.isUnit] at h2
      exact h2
    refine ⟨g, hcond, hc, hfree, ?_⟩
    have he := dk.den.eq dk.good
    dsimp only at he
    rw [he]
    refine posOn_of_posDef dk.good hpd fun v hv => (dk.vars v).2 ?_
    exact List.mem_filter.2 ⟨hv.1, by simpa using hv.2⟩

/-! ### The joint -/

/-- If the Gaussian holds only a covariance matrix, that matrix is positive definite. -/
def CovOk (j : AnyG) : Prop := j.2.can = none → ∀ v, j.2.cov = some v → v.cov.PosDef

theorem applyUpdate_covOk {j r : AnyG} {p u : Option AnyG} (hj : CovOk j) (h : NLG.applyUpdate j p = .ok (u, r)) : CovOk r := by
  cases p with
  | none =>
    cases h
    exact hj
  | some g =>
    unfold NLG.applyUpdate Gauss.multiply Gauss.absorbOrCancel at h
    dsimp only at h
    obtain ⟨⟨a', u', r'⟩, h1, h2⟩ := py_bind_eq_ok.1 h
    obtain ⟨⟨b', cb⟩, -, h1⟩ := py_bind_eq_ok.1 h1
    dsimp only at h1
    obtain ⟨⟨g', cg⟩, h3, h1⟩ := py_bind_eq_ok.1 h1
    dsimp only at h1
    obtain ⟨prec, -, h1⟩ := py_bind_eq_ok.1 h1
    obtain ⟨hv, -, h1⟩ := py_bind_eq_ok.1 h1
    obtain ⟨m, hm, h1⟩ := py_bind_eq_ok.1 h1
    cases h1
    cases h2
    obtain ⟨-, -, rfl⟩ := Gauss.mkCan_eq_ok hm
    intro h
    cases h

theorem applyEvidence_covOk {j r : AnyG} {obs : List Var} {vals : List ℝ} (hj : CovOk j)
    (h : NLG.applyEvidence j obs vals = .ok r) : CovOk r := by
  unfold NLG.applyEvidence at h
  split at h
  · cases h
    exact hj
  · obtain ⟨⟨g', r'⟩, h1, h2⟩ := py_bind_eq_ok.1 h
    cases h2
    unfold Gauss.reduce at h1
    obtain ⟨-, -, h1⟩ := py_bind_eq_ok.1 h1
    obtain ⟨yy, -, h1⟩ := py_bind_eq_ok.1 h1
    obtain ⟨xx, -, h1⟩ := py_bind_eq_ok.1 h1
    obtain ⟨⟨b', c⟩, -, h1⟩ := py_bind_eq_ok.1 h1
    dsimp only at h1
    obtain ⟨y, -, h1⟩ := py_bind_eq_ok.1 h1
    split at h1
    all_goals
      obtain ⟨r, hr, h1⟩ := py_bind_eq_ok.1 h1
      cases h1
      obtain ⟨-, -, rfl⟩ := Gauss.mkCan_eq_ok hr
      intro h
      cases h

/-- The recomputed joint is a Gaussian in order, over all unobserved variables. -/
theorem joint_gauss {a r : NLG} (ha : NlgOk a) (hr : NLG.recompute hs a = .ok r) :
    GaussOk r.joint ∧ ∀ v ∈ nlgFree a, v ∈ r.joint.2.vars := by
  have h := ha.isNLG
  by_cases hc : Covered a
  · obtain ⟨g, hp⟩ := proper_of_recompute h (fun g hg => (ha.cond g hg).2.2) hc hr
    obtain ⟨vars, k, h1, h2, h3, h4, h5, h6, h7, h8, h9⟩ := NLG.proper_cond hs h hp
    obtain ⟨A, b, hT⟩ := ha.affine
    obtain ⟨j', hj, hjv, dj⟩ := NLG.transformed_affine h ha.ys ha.noise h2 h3 h4 h5 h9
      (fun v hv => (NLG.mem_observedIn.1 hv).2) (fun v hv => ((h6 v).1 hv).2) h7 h8 hT
    obtain ⟨u', r', hr', -, -, -, dr⟩ := NLG.recompute_proper hs h hp h1 h6 hj dj
    have hcov : CovOk j' := by
      obtain ⟨L, hL, key⟩ := NLG.transformed_eq h.nodup h.q ha.ys h2 h3 h4 h5 (fun v hv => (NLG.mem_observedIn.1 hv).2)
        (fun v hv => ((h6 v).1 hv).2) h7 h8
      have ht := hT _ h7 ((Sigma.pointsOf (Gauss.toCov (canOf k)).mean L).map (NLG.asgOf a.ev vars))
      have hl : (((Sigma.pointsOf (Gauss.toCov (canOf k)).mean L).map (NLG.asgOf a.ev vars)).map
          fun z i => (a.xs.map fun v => A i v * z v).sum + b i).length =
          (Sigma.pointsOf (Gauss.toCov (canOf k)).mean L).length := by
        rw [List.length_map, List.length_map]
      have := key _ ht hl
      rw [hj] at this
      cases this
      intro _ v hv
      injection hv with hv
      rw [← hv]
      refine NLG.jCov_posDef (NLG.nodup_names h h7) _ _ hl ?_ ha.noise
      rw [Sigma.pointsOf_cov, hL.prod]
      exact hL.posDef
    have hrc : CovOk r'  := by
      rw [NLG.recompute_eq, if_neg (not_not.2 ((NLG.covered_iff h).2 hc)), hp.cond] at hr'
      dsimp only at hr'
      rw [h1, py_bind_ok, hj, py_bind_ok] at hr'
      obtain ⟨⟨u, j2⟩, hu, hr'⟩ := py_bind_eq_ok.1 hr'
      dsimp only at hr'
      obtain ⟨j3, he, hr'⟩ := py_bind_eq_ok.1 hr'
      injection hr' with hr'
      rw [← show j3 = r' from congrArg NLG.joint hr']
      exact applyEvidence_covOk (applyUpdate_covOk hcov hu) he
    rw [hr] at hr'
    injection hr' with hr'
    subst hr'
    exact ⟨⟨dr.made, dr.good, hrc⟩, fun v hv => (dr.vars v).2 hv⟩
  · rw [NLG.recompute_uncovered hs h hc] at hr
    cases hr
    refine ⟨⟨.ofCan (vars := a.vars) (c := ⟨0, 0, 0⟩) Matrix.isSymm_zero ?_, Gauss.good_mkCan ha.nodup rfl _ Matrix.isSymm_zero,
      fun h => by cases h⟩, fun v hv => (List.mem_filter.1 hv).1⟩
    rw [Gauss.mkCan_ok (vars := a.vars) ha.nodup rfl]
    have hne : a.vars ≠ [] := by
      intro he
      refine hc fun v hv => ?_
      have : v ∈ a.vars := List.mem_append_left _ hv
      rw [he] at this
      simp at this
    rw [Gauss.vacParams_zero (List.length_pos_of_ne_nil hne)]

/-! ### Marginals -/

theorem gaussOk_addLogWeight {f : AnyG} (hf : GaussOk f) (w : ℝ) : GaussOk ⟨f.1, f.2.addLogWeight w⟩ := by
  have hm := Made.addLogWeight w hf.made
  have hc : (f.2.addLogWeight w).can = none → ∀ v, (f.2.addLogWeight w).cov = some v → v.cov.PosDef := by
    intro h v hv
    unfold Gauss.addLogWeight at h hv
    dsimp only at h hv
    obtain ⟨v', h1, rfl⟩ := Option.map_eq_some_iff.1 hv
    exact hf.cov (Option.map_eq_none_iff.1 h) v' h1
  exact ⟨hm, hm.inv.good fun h v hv => (hc h v hv).det_pos, hc⟩

theorem gaussOk_vacuous {vrs : List Var} {v : Gauss vrs.length} (h : Gauss.makeVacuous vrs = .ok v) :
    GaussOk ⟨_, v⟩ ∧ v.vars = vrs := by
  unfold Gauss.makeVacuous at h
  have hm : Made v := .ofCan Matrix.isSymm_zero h
  obtain ⟨h1, h2, rfl⟩ := Gauss.mkCan_eq_ok h
  exact ⟨⟨hm, Gauss.good_mkCan h1 h2 _ Matrix.isSymm_zero, fun h => by cases h⟩, rfl⟩

theorem partMarginal_gauss {p : Option AnyG} {vrs : List Var} {m : Py AnyG} {r : AnyG} (hp : ∀ g, p = some g → GaussOk g)
    (hn : vrs.Nodup) (h : NLG.partMarginal hs vrs p = some m) (hm : m = .ok r) : GaussOk r ∧ r.2.vars = vrs := by
  cases p with
  | none => cases h
  | some g =>
    unfold NLG.partMarginal at h
    dsimp only at h
    split at h
    · rename_i hsub
      injection h with h
      rw [← h] at hm
      obtain ⟨r', h1, h2⟩ := py_bind_eq_ok.1 hm
      cases h2
      exact gauss_marginalize (hp g rfl) hn hsub h1
    · cases h

theorem jointMarginal_gauss {a : NLG} {vrs : List Var} {r : AnyG} (hj : GaussOk a.joint) (hn : vrs.Nodup)
    (hv : ∀ v ∈ vrs, v ∈ a.joint.2.vars) (h : NLG.jointMarginal hs a vrs = .ok r) : GaussOk r ∧ r.2.vars = vrs := by
  obtain ⟨r', h1, h2⟩ := py_bind_eq_ok.1 (show (do
    let r ← a.joint.2.marginalize hs vrs true
    .ok ⟨_, r⟩ : Py AnyG) = _ from h)
  cases h2
  exact gauss_marginalize hj hn hv h1

theorem vacMarginal_gauss {a : NLG} {w : ℝ} {vrs : List Var} {r : AnyG} (hu : ∀ g, a.upd = some g → GaussOk g)
    (hc : ∀ g, a.cond = some g → GaussOk g) (hj : GaussOk a.joint) (hn : vrs.Nodup)
    (hv : ∀ v ∈ vrs, v ∈ a.joint.2.vars) (h : NLG.vacMarginal hs a w vrs = .ok r) : GaussOk r ∧ r.2.vars = vrs := by
  unfold NLG.vacMarginal at h
  split at h
  · rename_i m hm
    split at hm
    · exact partMarginal_gauss hc hn hm h
    · cases hm
  · unfold NLG.updMarginal at h
    split at h
    · split at h
      · rename_i m hm
        obtain ⟨r', h1, h2⟩ := py_bind_eq_ok.1 h
        cases h2
        obtain ⟨k1, k2⟩ := partMarginal_gauss hu hn hm h1
        exact ⟨gaussOk_addLogWeight k1 w, k2⟩
      · exact jointMarginal_gauss hj hn hv h
    · obtain ⟨v, h1, h2⟩ := py_bind_eq_ok.1 h
      cases h2
      exact gaussOk_vacuous h1

theorem nlg_marg {a : NLG} {vrs : List Var} {r : AnyG} (ha : NlgOk a) (hn : vrs.Nodup) (hv : ∀ v ∈ vrs, v ∈ nlgFree a)
    (h : NLG.marginalize hs a vrs true = .ok r) : GaussOk r ∧ r.2.vars = vrs := by
  obtain ⟨j, u, c, e, hi, -, -, gu, gc⟩ := nlg_copy ha
  have hk : NlgOk { a with joint := j, upd := u, cond := c } := .of hi ha.ys ha.noise ha.affine gu gc
  unfold NLG.marginalize at h
  dsimp only at h
  obtain ⟨-, -, h⟩ := py_bind_eq_ok.1 h
  rw [e, py_bind_ok] at h
  obtain ⟨k2, h2, h⟩ := py_bind_eq_ok.1 h
  obtain ⟨hj, hjv⟩ := joint_gauss hk h2
  have hv' : ∀ v ∈ vrs, v ∈ k2.joint.2.vars := fun v h => hjv v (hv v h)
  split at h
  · have gu' := recompute_upd hi gu h2
    obtain ⟨j2, u2, rfl, -⟩ := NLG.recompute_inv hi h2
    exact vacMarginal_gauss gu' (fun g hg => (gc g hg).1) hj hn hv' h
  · exact jointMarginal_gauss hj hn hv' h

/-! ### Marginals that are integrals -/

theorem nlgDen_exp {a : NLG} {U C : (Var → ℝ) → ℝ} (h : IsNLG a U C) (hN : a.noise.PosDef) {A : Fin a.q → Var → ℝ}
    {b : Fin a.q → ℝ} (hT : Computes a.transform a.xs a.q fun z i => (a.xs.map fun v => A i v * z v).sum + b i)
    (x : Var → ℝ) :
    nlgDen a x = Real.exp (
      let z := override a.ev x
      a.lw + C z + U z + Real.log (Spec.normalDensity a.noise (fun i => (a.xs.map fun v => A i v * z v).sum + b i)
        fun i => z (a.ys[i.1]'(h.q.symm ▸ i.2)))) := by
  dsimp only
  rw [nlgDen_eq h, Real.exp_add, Real.exp_add, Real.exp_add, Real.exp_log (Gauss.normalDensity_pos hN _ _), nlgMean_eq hT]
  congr 2
  funext i
  have hi : i.1 < a.ys.length := h.q.symm ▸ i.2
  rw [List.getD_eq_getElem?_getD, List.getElem?_eq_getElem hi, Option.getD_some]

theorem nlg_int {a : NLG} {vrs : List Var} {r : AnyG} (ha : NlgOk a) (hc : Covered a) (hn : vrs.Nodup)
    (hv : ∀ v ∈ vrs, v ∈ nlgFree a) (h : NLG.marginalize hs a vrs true = .ok r)
    (hint : ∃ x, intOut (nlgFree a).toFinset (fun y => .ofReal (nlgDen a y)) x ≠ ⊤) (x : Var → ℝ) :
    ENNReal.ofReal (gaussDen r x) = intOut ((nlgFree a).toFinset \ vrs.toFinset) (fun y => .ofReal (nlgDen a y)) x := by
  have hi := ha.isNLG
  obtain ⟨A, b, hT⟩ := ha.affine
  have hmemF : ∀ v, v ∈ nlgFree a ↔ (v ∈ a.xs ∨ v ∈ a.ys) ∧ v ∉ Dict.keys a.ev := by
    intro v
    unfold nlgFree NLG.vars
    rw [List.mem_filter, List.mem_append, decide_eq_true_eq]
  obtain ⟨g, hp⟩ : ∃ g, Proper a g fun z => Real.log (partDen a.cond z) := by
    obtain ⟨j, u, c, e, hk, sc, nc, gu, gc⟩ := nlg_copy ha
    unfold NLG.marginalize at h
    dsimp only at h
    obtain ⟨-, -, h⟩ := py_bind_eq_ok.1 h
    rw [e, py_bind_ok] at h
    obtain ⟨k2, h2, h⟩ := py_bind_eq_ok.1 h
    obtain ⟨g, hp⟩ := proper_of_recompute hk (fun g hg => (gc g hg).2) (fun v hv => by
      rcases hc v hv with h1 | h1
      · left
        show v ∈ NLG.condVars c
        rw [sc]
        exact h1
      · exact .inr h1) h2
    exact NLG.proper_copy (j := a.joint) (u := a.upd) (c := a.cond) hp sc.symm nc.symm
  obtain ⟨J, hJ⟩ : ∃ J : (Var → ℝ) → ℝ, J = fun x =>
        let z := override a.ev x
        a.lw + Real.log (partDen a.cond z) + Real.log (partDen a.upd z) +
          Real.log (Spec.normalDensity a.noise (fun i => (a.xs.map fun v => A i v * z v).sum + b i)
          fun i => z (a.ys[i.1]'(hi.q.symm ▸ i.2))) := ⟨_, rfl⟩
  have hden : ∀ x, nlgDen a x = Real.exp (J x) := fun x => by
    rw [nlgDen_exp hi ha.noise hT x, hJ]
  obtain ⟨j, hj, mj, hvj, dj⟩ := NLG.C84_affine hs hi ha.ys ha.noise hT hp
  rw [← hJ] at dj
  have hg := dj.good mj.inv
  have hset : j.2.vars.toFinset = (nlgFree a).toFinset := by
    ext v
    rw [List.mem_toFinset, List.mem_toFinset, hvj, hmemF]
  have hpd : (canOf j.2).prec.PosDef := by
    obtain ⟨y, hy⟩ := hint
    refine good_posDef (x := y) hg ?_
    rw [hset]
    refine ne_of_eq_of_ne ?_ hy
    congr 1
    funext z
    rw [gaussDen_of dj, hden]
  have hpos : PosOn J fun v => (v ∈ a.xs ∨ v ∈ a.ys) ∧ v ∉ Dict.keys a.ev := by
    rw [dj.eq hg]
    exact posOn_of_posDef hg hpd fun v hv => (hvj v).2 hv
  obtain ⟨r', M, h1, h2, h3, h4⟩ := NLG.C86_marginalize hs hi ha.ys ha.noise hT hp hJ hpos hn fun v h => (hmemF v).1 (hv v h)
  rw [h] at h1
  cases h1
  have hnd : ((nlgFree a).filter (· ∉ vrs)).Nodup := ((ha.nodup).filter _).filter _
  obtain ⟨i1, i2⟩ := h4 ((nlgFree a).filter (· ∉ vrs)) hnd (by
    intro v
    rw [List.mem_filter, hmemF, decide_eq_true_eq]) x
  have hs' : ((nlgFree a).filter (· ∉ vrs)).toFinset = (nlgFree a).toFinset \ vrs.toFinset := by
    ext v; simp
  have hfun : (fun z => Real.exp (J z)) = nlgDen a := funext fun z => (hden z).symm
  rw [hfun] at i1 i2
  rw [Spec.integrableOut_iff hnd (nlgDen_meas ha) (fun y => (nlgDen_pos ha y).le), hs'] at i1
  rw [Spec.integrateOut_eq_intOut hnd (nlgDen_meas ha) (fun y => (nlgDen_pos ha y).le), hs'] at i2
  rw [gaussDen_of h3, ← i2, ENNReal.ofReal_toReal i1]

/-! ### The laws -/

/-- The factors in order. -/
def GnOk : GN → Prop
  | .inl f => GaussOk f
  | .inr a => NlgOk a

theorem gnDen_pos {f : GN} (hf : GnOk f) (x : Var → ℝ) : 0 < gnDen f x := by
  cases f with
  | inl f => exact gaussDen_pos hf x
  | inr a => exact nlgDen_pos hf x

theorem gn_mul {f g r : GN} (hf : GnOk f) (hg : GnOk g) (h : (strictOps hs).multiply f g = .ok r) :
    GnOk r ∧ (∀ v, v ∈ gnVars r ↔ v ∈ gnVars f ∨ v ∈ gnVars g) ∧ ∀ x, gnDen r x = gnDen f x * gnDen g x := by
  by_cases hfit : Fits f g
  · rw [strict_mul hfit] at h
    cases g with
    | inr b => cases f <;> exact hfit.elim
    | inl g =>
      cases f with
      | inl f =>
        obtain ⟨r', h1, h2⟩ := py_bind_eq_ok.1
          (show (do let r ← (gaussOps hs).multiply f g; .ok (.inl r) : Py GN) = .ok r from h)
        cases h2
        exact gauss_mul hf hg h1
      | inr a =>
        obtain ⟨k, hk, h⟩ := py_bind_eq_ok.1 (show (do
          let k ← g.2.copy
          let (_, r) ← NLG.multiply a ⟨_, k⟩
          .ok (.inr r) : Py GN) = .ok r from h)
        obtain ⟨⟨g', r'⟩, h1, h2⟩ := py_bind_eq_ok.1 h
        cases h2
        obtain ⟨k1, k2, k3⟩ := nlg_mul hf hg (k := ⟨_, k⟩) (by
          unfold Mix.copyG
          rw [hk, py_bind_ok]) (hfit.1 k hk) hfit.2 h1
        refine ⟨k1, fun v => ?_, k3⟩
        show v ∈ nlgFree r' ↔ v ∈ nlgFree a ∨ v ∈ g.2.vars
        rw [k2]
        exact ⟨.inl, fun h => h.elim id (hfit.2 v)⟩
  · rw [show (strictOps hs).multiply f g = _ from if_neg hfit] at h
    cases h

theorem gn_cancel {f g r : GN} (hf : GnOk f) (hg : GnOk g) (hsub : ∀ v ∈ gnVars g, v ∈ gnVars f)
    (h : (strictOps hs).cancel f g = .ok r) :
    GnOk r ∧ (∀ v, v ∈ gnVars r ↔ v ∈ gnVars f) ∧ ∀ x, gnDen r x = gnDen f x / gnDen g x := by
  by_cases hfit : Fits f g
  · rw [strict_cancel hfit] at h
    cases g with
    | inr b => cases f <;> exact hfit.elim
    | inl g =>
      cases f with
      | inl f =>
        obtain ⟨r', h1, h2⟩ := py_bind_eq_ok.1
          (show (do let r ← (gaussOps hs).cancel f g; .ok (.inl r) : Py GN) = .ok r from h)
        cases h2
        obtain ⟨h1, h2, h3⟩ := gauss_cancel hf hg h1
        exact ⟨h1, fun v => (h2 v).trans ⟨fun h => h.elim id (hsub v), .inl⟩, h3⟩
      | inr a =>
        obtain ⟨k, hk, h⟩ := py_bind_eq_ok.1 (show (do
          let k ← g.2.copy
          let (_, r) ← NLG.divide hs a ⟨_, k⟩
          .ok (.inr r) : Py GN) = .ok r from h)
        obtain ⟨⟨g', r'⟩, h1, h2⟩ := py_bind_eq_ok.1 h
        cases h2
        obtain ⟨k1, k2, k3⟩ := nlg_cancel hf hg (k := ⟨_, k⟩) (by
          unfold Mix.copyG
          rw [hk, py_bind_ok]) (hfit.1 k hk) hfit.2 h1
        refine ⟨k1, fun v => ?_, k3⟩
        show v ∈ nlgFree r' ↔ v ∈ nlgFree a
        rw [k2]
  · rw [show (strictOps hs).cancel f g = _ from if_neg hfit] at h
    cases h

theorem gn_marg {f r : GN} {vrs : List Var} (hf : GnOk f) (hn : vrs.Nodup) (hv : ∀ v ∈ vrs, v ∈ gnVars f)
    (h : gnMarginalize hs f vrs = .ok r) : GnOk r ∧ gnVars r = vrs := by
  cases f with
  | inl f =>
    obtain ⟨r', h1, h2⟩ := py_bind_eq_ok.1
      (show (do let r ← (gaussOps hs).marginalize f vrs; .ok (.inl r) : Py GN) = .ok r from h)
    cases h2
    exact gauss_marg hf hn hv h1
  | inr a =>
    obtain ⟨r', h1, h2⟩ := py_bind_eq_ok.1
      (show (do let r ← NLG.marginalize hs a vrs true; .ok (.inl r) : Py GN) = .ok r from h)
    cases h2
    exact nlg_marg hf hn hv h1

/-- The operations that refuse to lose factors do what their names say. -/
noncomputable def strictLaws (hs : HashSeed) : PosLaws (strictOps hs) where
  Ok := GnOk
  den := gnDen
  val := id
  nonneg := fun hf x => (gnDen_pos hf x).le
  dep := by
    intro f hf
    cases f with
    | inl f => exact gaussDen_dep hf
    | inr a => exact nlg_dep hf
  nodup := by
    intro f hf
    cases f with
    | inl f => exact hf.good.nodup
    | inr a => exact (hf.nodup).filter _
  mul := gn_mul
  cancel := fun hf hg hsub _ h => gn_cancel hf hg hsub h
  marg := by
    intro f vrs r hf hn hv h
    obtain ⟨h1, h2⟩ := gn_marg hf hn hv h
    refine ⟨h1, fun v => by show v ∈ gnVars r ↔ _; rw [h2], fun x => ?_⟩
    exact ⟨fun h0 => absurd h0 (gnDen_pos h1 x).ne', fun h0 => absurd (h0 x fun _ _ => rfl) (gnDen_pos hf x).ne'⟩
  red := by
    intro f vs ks r hf hn hv hl h
    cases f with
    | inl f =>
      obtain ⟨r', h1, h2⟩ := py_bind_eq_ok.1
        (show (do let r ← (gaussOps hs).reduce f vs ks; .ok (.inl r) : Py GN) = .ok r from h)
      cases h2
      obtain ⟨h1, h2, h3⟩ := gauss_red hf hn hv hl h1
      exact ⟨h1, h2, fun x => by rw [List.map_id]; exact h3 x⟩
    | inr a =>
      obtain ⟨r', h1, h2⟩ := py_bind_eq_ok.1
        (show (do let r ← NLG.reduce a vs ks; .ok (.inr r) : Py GN) = .ok r from h)
      cases h2
      obtain ⟨h1, h2, h3⟩ := nlg_red hf hn hv hl h1
      exact ⟨h1, h2, fun x => by rw [List.map_id]; exact h3 x⟩
  pos := gnDen_pos
  meas := by
    intro f hf
    cases f with
    | inl f => exact gaussDen_meas hf
    | inr a => exact nlgDen_meas hf

end Verif.CG
