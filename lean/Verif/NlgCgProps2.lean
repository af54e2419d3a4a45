import Verif.NlgCgProps
import Verif.ClusterGaussTotal

/-!
# C124: where cluster graphs with non-linear Gaussians go wrong
-/

namespace Verif.CG
open Spec (override)
open Gauss (AnyG Made Denotes Good canOf)
open NLG (Covered exN exN_isNLG exNT_computes)
open Fact (std stdItem std_den std_mk)
open Classical Matrix

variable {hs : HashSeed}

theorem absorb_one {F V G : Type} {ops : Ops F V G} {f : F} : absorb ops [f] = .ok [f] := by
  simp [absorb, absorbInner, List.zipIdx, bind, Except.bind, pyAssert, Function.update, List.range, List.range.loop]

theorem getMarginal_one {F V G : Type} {ops : Ops F V G} {n m : ℕ} {g : Graph F V G n m} {f : F} (hn : n = 1)
    (hf : ∀ i, (g.cl i).factor = f) {vrs : List Var} (hv : ∀ v ∈ vrs, v ∈ ops.vars f) :
    getMarginal ops g vrs = (do
      let r ← observe ops g.special f
      ops.marginalize r vrs) := by
  subst hn
  rcases C53_get_marginal ops 1 m g vrs with ⟨h, -⟩ | ⟨i, -, -, h⟩
  · obtain ⟨v, h1, h2⟩ := h 0
    unfold scope at h2
    rw [hf] at h2
    exact absurd (hv v h1) h2
  · rw [h, hf]

/-! ### A Gaussian with a larger scope swallows a non-linear Gaussian -/

theorem good_zero {vars : List Var} (hn : vars.Nodup) (b : Bool) :
    Good (⟨vars, some ⟨0, 0, 0⟩, none, b⟩ : Gauss vars.length) :=
  ⟨⟨hn, rfl, .inl rfl, fun _ h => (nomatch h), fun _ _ h => (nomatch h)⟩, Matrix.isSymm_zero⟩

theorem gaussDen_zero {vars : List Var} (hn : vars.Nodup) (b : Bool) (x : Var → ℝ) :
    gaussDen ⟨vars.length, ⟨vars, some ⟨0, 0, 0⟩, none, b⟩⟩ x = 1 := by
  have hd : Denotes (⟨vars, some ⟨0, 0, 0⟩, none, b⟩ : Gauss vars.length) fun _ => 0 := by
    refine (good_zero hn b).denotes.congr fun x => ?_
    show Gauss.evalCan ⟨0, 0, 0⟩ _ = (0 : ℝ)
    simp [Gauss.evalCan]
  rw [gaussDen_of hd, Real.exp_zero]

theorem made_zero {vars : List Var} (hn : vars.Nodup) (hne : vars ≠ []) :
    GaussOk ⟨vars.length, ⟨vars, some ⟨0, 0, 0⟩, none, true⟩⟩ := by
  refine ⟨.ofCan (vars := vars) (c := ⟨0, 0, 0⟩) Matrix.isSymm_zero ?_, good_zero hn true, fun h => by cases h⟩
  rw [Gauss.mkCan_ok (vars := vars) hn rfl, Gauss.vacParams_zero (List.length_pos_of_ne_nil hne)]

/-- A non-linear Gaussian whose joint cannot be computed multiplies a Gaussian by one. -/
theorem mul_uncovered {f : AnyG} {a : NLG} (hf : GaussOk f) (ha : NlgOk a) (hc : ¬ Covered a) :
    ∃ r, gnMultiply hs (.inl f) (.inr a) = .ok (.inl r) ∧ GaussOk r ∧
      (∀ v, v ∈ r.2.vars ↔ v ∈ f.2.vars ∨ v ∈ a.vars) ∧ ∀ x, gaussDen r x = gaussDen f x := by
  have hne : a.vars ≠ [] := by
    intro h
    have := List.append_eq_nil_iff.1 h
    exact ha.ys this.2
  have hn : a.vars.Nodup := ha.nodup
  have hz := made_zero hn hne
  obtain ⟨r, hr⟩ := (gaussTotal hs).mul hf hz
  obtain ⟨h1, h2, h3⟩ := gauss_mul hf hz hr
  refine ⟨r, ?_, h1, h2, fun x => by rw [h3, gaussDen_zero hn, mul_one]⟩
  have hg : nlgAsGauss hs a = .ok ⟨a.vars.length, ⟨a.vars, some ⟨0, 0, 0⟩, none, false⟩⟩ := by
    unfold nlgAsGauss NLG.getCan
    rw [NLG.recompute_uncovered hs ha.isNLG hc]
    rfl
  have he : (gaussOps hs).multiply f ⟨a.vars.length, ⟨a.vars, some ⟨0, 0, 0⟩, none, false⟩⟩ = .ok r := by
    rw [← hr]
    show (do
        let (_, _, r) ← f.2.multiply (⟨a.vars, some ⟨0, 0, 0⟩, none, false⟩ : Gauss a.vars.length)
        .ok ⟨_, r⟩ : Py AnyG) =
      (do
        let (_, _, r) ← f.2.multiply (⟨a.vars, some ⟨0, 0, 0⟩, none, true⟩ : Gauss a.vars.length)
        .ok ⟨_, r⟩ : Py AnyG)
    unfold Gauss.multiply
    rw [Gauss.absorbOrCancel_valid _ hf.good.toValid (good_zero hn false).toValid,
      Gauss.absorbOrCancel_valid _ hf.good.toValid (good_zero hn true).toValid]
    rfl
  show (do
    let _ ← f.2.getCan
    let g ← nlgAsGauss hs a
    let r ← (gaussOps hs).multiply f g
    .ok (.inl r) : Py GN) = _
  rw [Gauss.getCan_valid hf.good.toValid, py_bind_ok, hg, py_bind_ok, he, py_bind_ok]

/-- **C124 violated (`NoneInside` is needed).** A Gaussian and a non-linear Gaussian about which nothing is known yet, over
some of the variables of the Gaussian: the graph is one cluster, whose factor is the Gaussian alone. -/
theorem C124_swallowed (hs : HashSeed) (f : AnyG) (a : NLG) (hf : GaussOk f) (ha : NlgOk a) (hev : a.ev = [])
    (hc : a.cond = none) (hxs : a.xs ≠ []) (hin : (∀ v ∈ a.vars, v ∈ f.2.vars) ∧ ∃ v ∈ f.2.vars, v ∉ a.vars)
    (special : Dict Var ℝ) :
    ∃ g r, new hs (gnOps hs) [.inl f, .inr a] none special = .ok g ∧ g.n = 1 ∧
      (∀ i, (g.graph.cl i).factor = .inl r) ∧ (∀ v, v ∈ r.2.vars ↔ v ∈ f.2.vars) ∧ ∀ x, gaussDen r x = gaussDen f x := by
  have hfree : nlgFree a = a.vars := by
    unfold nlgFree
    rw [hev]
    exact List.filter_eq_self.2 fun v _ => by simp [Dict.keys]
  have huc : ¬ Covered a := by
    intro h
    obtain ⟨v, hv⟩ := List.exists_mem_of_ne_nil _ hxs
    have := h v hv
    rw [hc, hev] at this
    simp [NLG.condVars, Dict.keys] at this
  obtain ⟨r, h1, h2, h3, h4⟩ := mul_uncovered (hs := hs) hf ha huc
  obtain ⟨g, e1, e2, -, -, e5⟩ := new_one (ops := gnOps hs) (special := special) (hs := hs)
    (absorb_first (ops := gnOps hs) (f := .inl f) (g := .inr a) (by
      rw [strictSubset_iff]
      show (∀ v ∈ nlgFree a, v ∈ f.2.vars) ∧ ∃ v ∈ f.2.vars, v ∉ nlgFree a
      rw [hfree]
      exact hin) h1)
  exact ⟨g, r, e1, e2, e5, fun v => (h3 v).trans ⟨fun h => h.elim id (hin.1 v), .inl⟩, h4⟩

/-! ### A single non-linear Gaussian -/

theorem reduce_gn {a : NLG} (ha : NlgOk a) (vs : List Var) (ks : List ℝ) :
    ∃ j u c, gnReduce hs (.inr a) vs ks = .ok (.inr { a with
      joint := j, upd := u, cond := c, ev := Dict.merge a.ev (Dict.ofPairs (vs.zip ks)) }) ∧
      (c = none ↔ a.cond = none) := by
  obtain ⟨j, u, c, e, -, -, nc, -⟩ := nlg_copy ha
  refine ⟨j, u, c, ?_, nc⟩
  show (do let r ← NLG.reduce a vs ks; .ok (.inr r) : Py GN) = _
  unfold NLG.reduce
  rw [e, py_bind_ok, py_bind_ok]

/-- A single non-linear Gaussian with evidence. -/
theorem one_nlg {a : NLG} (ha : NlgOk a) (hev : a.ev = []) (special : Dict Var ℝ) :
    ∃ g r, new hs (gnOps hs) [.inr a] none special = .ok g ∧ g.n = 1 ∧ NlgOk r ∧ r.xs = a.xs ∧ r.ys = a.ys ∧
      r.lw = a.lw ∧
      (r.cond = none ↔ a.cond = none) ∧ (∀ v ∈ a.vars, v ∈ Dict.keys r.ev ↔ v ∈ Dict.keys special) ∧
      ∀ vrs : List Var, (∀ v ∈ vrs, v ∈ a.vars) → getMarginal (gnOps hs) g.graph vrs = gnMarginalize hs (.inr r) vrs := by
  obtain ⟨g, e1, e2, -, e4, e5⟩ := new_one (ops := gnOps hs) (special := special) (hs := hs) (absorb_one (f := .inr a))
  have hfree : nlgFree a = a.vars := by
    unfold nlgFree
    rw [hev]
    exact List.filter_eq_self.2 fun v _ => by simp [Dict.keys]
  have hn : (nlgFree a).Nodup := by rw [hfree]; exact ha.nodup
  have hk := keys_subsetEvidence special hn
  have hmemk : ∀ v, v ∈ Dict.keys (subsetEvidence special (nlgFree a)) ↔ v ∈ a.vars ∧ v ∈ Dict.keys special := by
    intro v
    rw [hk, List.mem_filter, hfree, Option.isSome_iff_exists, Dict.get?_isSome_iff]
  obtain ⟨r, hr, o1, o2, o3, o3', o4, o5⟩ : ∃ r : NLG, observe (gnOps hs) special (.inr a) = .ok (.inr r) ∧ NlgOk r ∧ r.xs = a.xs ∧
      r.ys = a.ys ∧ r.lw = a.lw ∧ (r.cond = none ↔ a.cond = none) ∧ ∀ v ∈ a.vars, v ∈ Dict.keys r.ev ↔ v ∈ Dict.keys special := by
    unfold observe
    dsimp only
    split
    · obtain ⟨j, u, c, h1, h2⟩ := reduce_gn (hs := hs) ha (Dict.keys (subsetEvidence special (nlgFree a)))
        (Dict.values (subsetEvidence special (nlgFree a)))
      obtain ⟨r', k1, k2⟩ := py_bind_eq_ok.1 (show (do
        let r ← NLG.reduce a (Dict.keys (subsetEvidence special (nlgFree a))) (Dict.values (subsetEvidence special (nlgFree a)))
        .ok (.inr r) : Py GN) = _ from h1)
      injection k2 with k2
      injection k2 with k2
      obtain ⟨q1, q2, -⟩ := nlg_red ha (by rw [hk]; exact hn.filter _) (fun v hv => hfree ▸ ((hmemk v).1 hv).1)
        (by simp [Dict.keys, Dict.values]) k1
      subst k2
      refine ⟨_, h1, q1, rfl, rfl, rfl, h2, fun v hv => ?_⟩
      have h3 := q2 v
      rw [hmemk] at h3
      have h4 : v ∈ nlgFree a := hfree ▸ hv
      constructor
      · intro h
        by_contra h5
        have h6 := (List.mem_filter.1 (h3.2 ⟨h4, fun h6 => h5 h6.2⟩)).2
        rw [decide_eq_true_eq] at h6
        exact h6 h
      · intro h
        by_contra h5
        exact (h3.1 (List.mem_filter.2 ⟨hv, decide_eq_true h5⟩)).2 ⟨hv, h⟩
    · rename_i hl
      refine ⟨a, rfl, ha, rfl, rfl, rfl, Iff.rfl, fun v hv => ?_⟩
      have hiff : v ∈ Dict.keys special ↔ v ∈ Dict.keys (subsetEvidence special (nlgFree a)) :=
        (hmemk v).trans ⟨fun h => h.2, fun h => ⟨hv, h⟩⟩ |>.symm
      rw [hiff, hev]
      have : Dict.keys (subsetEvidence special (nlgFree a)) = [] := List.length_eq_zero_iff.1 (by
        have : ¬ 0 < (Dict.keys (subsetEvidence special (nlgFree a))).length := hl
        omega)
      rw [this]
      rfl
  refine ⟨g, r, e1, e2, o1, o2, o3, o3', o4, o5, fun vrs hv => ?_⟩
  rw [getMarginal_one e2 e5 (fun v h => by
    show v ∈ nlgFree a
    rw [hfree]
    exact hv v h), e4, hr, py_bind_ok]
  rfl

/-- **C124 violated, all inputs observed.** The conditioning variables of a single non-linear Gaussian are all observed:
no marginal can be queried. -/
theorem C124_inputs_observed (hs : HashSeed) (a : NLG) (ha : NlgOk a) (hev : a.ev = []) (hc : a.cond = none)
    (special : Dict Var ℝ) (hall : ∀ v ∈ a.xs, v ∈ Dict.keys special) :
    ∃ g, new hs (gnOps hs) [.inr a] none special = .ok g ∧ ∀ vrs : List Var, (∀ v ∈ vrs, v ∈ a.vars) →
      getMarginal (gnOps hs) g.graph vrs = .error .unboundLocalError := by
  obtain ⟨g, r, h1, -, hr, hx, hy, -, hcn, hk, hm⟩ := one_nlg (hs := hs) ha hev special
  refine ⟨g, h1, fun vrs hv => ?_⟩
  rw [hm vrs hv]
  obtain ⟨j, u, c, e, hi, -, nc, -⟩ := nlg_copy hr
  have hrc : c = none := nc.2 (hcn.2 hc)
  subst hrc
  have hcov : Covered { r with joint := j, upd := u, cond := none } := fun v hv =>
    .inr ((hk v (List.mem_append_left _ (hx ▸ hv))).2 (hall v (hx ▸ hv)))
  have hrec : NLG.recompute hs { r with joint := j, upd := u, cond := none } = .error .unboundLocalError := by
    rw [NLG.recompute_eq, if_neg (not_not.2 ((NLG.covered_iff hi).2 hcov))]
  have hvars : r.vars = a.vars := by
    unfold NLG.vars
    rw [hx, hy]
  show (do let r ← NLG.marginalize hs r vrs true; .ok (.inl r) : Py GN) = _
  unfold NLG.marginalize
  dsimp only
  rw [show pyAssert (decide (∀ v ∈ Sparse.marginalVars hs r.vars vrs true, v ∈ r.vars)) = .ok () by
    rw [pyAssert, if_pos]
    exact decide_eq_true fun v hv' => hvars ▸ hv v hv']
  rw [py_bind_ok, e, py_bind_ok, hrec]
  rfl

/-- **C124 violated, the conditional variables observed and nothing known about the inputs (`hknown` is needed).** The
marginal over the conditioning variables ignores the observation: it is flat. -/
theorem C124_flat (hs : HashSeed) (a : NLG) (ha : NlgOk a) (hev : a.ev = []) (hc : a.cond = none)
    (special : Dict Var ℝ) (vrs : List Var) (hn : vrs.Nodup) (hne : vrs ≠ []) (hv : ∀ v ∈ vrs, v ∈ a.xs ∧ v ∉ Dict.keys special) :
    ∃ g r, new hs (gnOps hs) [.inr a] none special = .ok g ∧ getMarginal (gnOps hs) g.graph vrs = .ok (.inl r) ∧
      r.2.vars = vrs ∧ ∀ x, gaussDen r x = 1 := by
  obtain ⟨g, r, h1, -, hr, hx, hy, -, hcn, hk, hm⟩ := one_nlg (hs := hs) ha hev special
  have hvars : r.vars = a.vars := by
    unfold NLG.vars
    rw [hx, hy]
  obtain ⟨w, hw⟩ := List.exists_mem_of_ne_nil _ hne
  have huc : ¬ Covered r := by
    intro h
    rcases h w (hx ▸ (hv w hw).1) with h | h
    · rw [hcn.2 hc] at h
      cases h
    · exact (hv w hw).2 ((hk w (List.mem_append_left _ (hv w hw).1)).1 h)
  obtain ⟨j, u, c, e, hi, sc, nc, -⟩ := nlg_copy hr
  have hrc : c = none := nc.2 (hcn.2 hc)
  subst hrc
  have hall : ∀ v ∈ vrs, v ∈ a.vars := fun v h => List.mem_append_left _ (hv v h).1
  have hnd : ¬ ∀ v ∈ vrs, v ∈ r.ys := by
    intro h
    have hd := List.disjoint_of_nodup_append ha.nodup
    exact hd (hv w hw).1 (hy ▸ h w hw)
  refine ⟨g, ⟨_, ⟨vrs, some ⟨0, 0, 0⟩, none, true⟩⟩, h1, ?_, rfl, gaussDen_zero hn true⟩
  rw [hm vrs hall]
  show (do let r ← NLG.marginalize hs r vrs true; .ok (.inl r) : Py GN) = _
  rw [NLG.marginalize_uncovered hs huc (fun v h => hvars ▸ hall v h) e sc hi]
  have hvm : Gauss.makeVacuous vrs = .ok (⟨vrs, some ⟨0, 0, 0⟩, none, true⟩ : Gauss vrs.length) := by
    unfold Gauss.makeVacuous
    rw [Gauss.mkCan_ok hn rfl, Gauss.vacParams_zero (List.length_pos_of_ne_nil hne)]
  unfold NLG.vacMarginal NLG.updMarginal
  have hp : (if ∀ v ∈ vrs, v ∈ r.xs then NLG.partMarginal hs vrs none else none) = none := by
    split <;> rfl
  dsimp only
  rw [hp]
  dsimp only
  rw [if_neg hnd, hvm]
  rfl

end Verif.CG
