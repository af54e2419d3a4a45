import Verif.NlgCgStrict

/-!
# Non-linear Gaussians in cluster graphs: multiplication, division and evidence
-/

namespace Verif.CG
open Spec (override DependsOn)
open Gauss (AnyG Made Denotes Good canOf)
open NLG (IsNLG Part Shape Computes Covered Proper)
open Fact (Den)
open Classical

/-- A non-linear Gaussian in order: the names are distinct and fit the noise, the noise covariance is positive definite,
the transform computes an affine function of the conditioning variables, the parts are Gaussians over some conditional
and some conditioning variables, and the joint can be copied. -/
structure NlgOk (a : NLG) : Prop where
  nodup : (a.xs ++ a.ys).Nodup
  q : a.ys.length = a.q
  ys : a.ys ≠ []
  noise : a.noise.PosDef
  affine : ∃ (A : Fin a.q → Var → ℝ) (b : Fin a.q → ℝ),
    Computes a.transform a.xs a.q fun z i => (a.xs.map fun v => A i v * z v).sum + b i
  upd : ∀ g, a.upd = some g → GaussOk g ∧ ∀ v ∈ g.2.vars, v ∈ a.ys
  cond : ∀ g, a.cond = some g → GaussOk g ∧ (∀ v ∈ g.2.vars, v ∈ a.xs) ∧ g.2.vars ≠ []
  joint : a.joint.2.vars.Nodup ∧ a.joint.2.vars.length = a.joint.1 ∧ (a.joint.2.can.isSome ∨ a.joint.2.cov.isSome)
  ev : (Dict.keys a.ev).Nodup

theorem GaussOk.toDen {g : AnyG} (h : GaussOk g) : Den g (g.2.vars, fun z => Real.log (gaussDen g z)) :=
  ⟨h.made, h.good.denotes.congr fun x => by
    dsimp only
    rw [gaussDen_of h.good.denotes, Real.log_exp], fun _ => Iff.rfl⟩

theorem part_den {p : Option AnyG} {scope : List Var} {L : (Var → ℝ) → ℝ} (h : Part p scope L) (x : Var → ℝ) :
    partDen p x = Real.exp (L x) := by
  cases p with
  | none => rw [h x, Real.exp_zero]; rfl
  | some g => exact gaussDen_of h.1.den x

theorem NlgOk.isNLG {a : NLG} (h : NlgOk a) :
    IsNLG a (fun z => Real.log (partDen a.upd z)) (fun z => Real.log (partDen a.cond z)) where
  nodup := h.nodup
  q := h.q
  upd := by
    cases hu : a.upd with
    | none => exact fun x => Real.log_one
    | some g => exact ⟨(h.upd g hu).1.toDen, (h.upd g hu).2⟩
  cond := by
    cases hu : a.cond with
    | none => exact fun x => Real.log_one
    | some g => exact ⟨(h.cond g hu).1.toDen, (h.cond g hu).2.1⟩
  joint := ⟨h.joint.1, h.joint.2.1, h.joint.2.2⟩
  ev := h.ev

theorem NlgOk.of {a : NLG} {U C : (Var → ℝ) → ℝ} (h : IsNLG a U C) (ys : a.ys ≠ []) (noise : a.noise.PosDef)
    (affine : ∃ (A : Fin a.q → Var → ℝ) (b : Fin a.q → ℝ),
      Computes a.transform a.xs a.q fun z i => (a.xs.map fun v => A i v * z v).sum + b i)
    (upd : ∀ g, a.upd = some g → GaussOk g) (cond : ∀ g, a.cond = some g → GaussOk g ∧ g.2.vars ≠ []) : NlgOk a where
  nodup := h.nodup
  q := h.q
  ys := ys
  noise := noise
  affine := affine
  upd := fun g hg => ⟨upd g hg, by
    have := h.upd
    rw [hg] at this
    exact this.2⟩
  cond := fun g hg => ⟨(cond g hg).1, by
    have := h.cond
    rw [hg] at this
    exact this.2, (cond g hg).2⟩
  joint := ⟨h.joint.1, h.joint.2, h.joint.3⟩
  ev := h.ev

theorem nlgDen_eq {a : NLG} {U C : (Var → ℝ) → ℝ} (h : IsNLG a U C) (x : Var → ℝ) :
    nlgDen a x = Real.exp a.lw * Real.exp (C (override a.ev x)) * Real.exp (U (override a.ev x)) *
      Spec.normalDensity a.noise (nlgMean a (override a.ev x)) fun i => override a.ev x (a.ys.getD i.1 "") := by
  unfold nlgDen
  dsimp only
  rw [part_den h.cond, part_den h.upd]

theorem nlgMean_eq {a : NLG} {f : (Var → ℝ) → Fin a.q → ℝ} (h : Computes a.transform a.xs a.q f) (z : Var → ℝ) :
    nlgMean a z = f z := by
  have := h a.xs (List.Perm.refl _) [z]
  unfold nlgMean
  have e : ([z].map fun x (i : Fin a.xs.length) => x a.xs[i]) = [fun i => z a.xs[i]] := rfl
  rw [e] at this
  rw [this]
  funext i
  show (if h : i.1 < a.q then (([z].map f).headD 0) ⟨i.1, h⟩ else 0) = _
  rw [dif_pos i.2]
  rfl

/-! ### Copies and parts -/

theorem copyG_gauss {g k : AnyG} (hg : GaussOk g) (h : Mix.copyG g = .ok k) : GaussOk k ∧ k.2.vars = g.2.vars := by
  obtain ⟨k', h1, h2, h3, -⟩ := gauss_copy hg
  unfold Mix.copyG at h
  rw [h1, py_bind_ok] at h
  cases h
  exact ⟨h2, h3⟩

theorem copy_parts {a k : NLG} (h : NLG.copy a = .ok k) :
    NLG.copyOpt a.upd = .ok k.upd ∧ NLG.copyOpt a.cond = .ok k.cond := by
  unfold NLG.copy NLG.make at h
  obtain ⟨-, -, h⟩ := py_bind_eq_ok.1 h
  obtain ⟨-, -, h⟩ := py_bind_eq_ok.1 h
  obtain ⟨-, -, h⟩ := py_bind_eq_ok.1 h
  rw [dif_pos rfl] at h
  obtain ⟨c', hc', h⟩ := py_bind_eq_ok.1 h
  obtain ⟨u', hu', h⟩ := py_bind_eq_ok.1 h
  obtain ⟨j', -, h⟩ := py_bind_eq_ok.1 h
  injection h with h
  subst h
  exact ⟨hu', hc'⟩

theorem copyOpt_some {p : Option AnyG} {k : AnyG} (h : NLG.copyOpt p = .ok (some k)) :
    ∃ g, p = some g ∧ Mix.copyG g = .ok k := by
  cases p with
  | none => cases h
  | some g =>
    obtain ⟨k', h1, h2⟩ := py_bind_eq_ok.1 (show (do let k ← Mix.copyG g; .ok (some k) : Py (Option AnyG)) = _ from h)
    cases h2
    exact ⟨g, rfl, h1⟩

/-- A copy. -/
theorem nlg_copy {a : NLG} (ha : NlgOk a) : ∃ j u c, NLG.copy a = .ok { a with joint := j, upd := u, cond := c } ∧
    IsNLG { a with joint := j, upd := u, cond := c } (fun z => Real.log (partDen a.upd z))
      (fun z => Real.log (partDen a.cond z)) ∧
    NLG.condVars c = NLG.condVars a.cond ∧ (c = none ↔ a.cond = none) ∧
    (∀ g, u = some g → GaussOk g) ∧ ∀ g, c = some g → GaussOk g ∧ g.2.vars ≠ [] := by
  obtain ⟨j, u, c, e, hi, sc, -, nc, -⟩ := NLG.copy_ok ha.isNLG
  obtain ⟨h1, h2⟩ := copy_parts e
  refine ⟨j, u, c, e, hi, sc, nc, fun g hg => ?_, fun g hg => ?_⟩
  · subst hg
    obtain ⟨p, hp, hk⟩ := copyOpt_some h1
    exact (copyG_gauss (ha.upd p hp).1 hk).1
  · subst hg
    obtain ⟨p, hp, hk⟩ := copyOpt_some h2
    obtain ⟨h3, h4⟩ := copyG_gauss (ha.cond p hp).1 hk
    exact ⟨h3, h4 ▸ (ha.cond p hp).2.2⟩

variable {hs : HashSeed}

theorem mulPart_gauss {p : Option AnyG} {g g' r : AnyG} (hp : ∀ f, p = some f → GaussOk f) (hg : GaussOk g)
    (h : NLG.mulPart g p = .ok (g', some r)) : GaussOk r := by
  cases p with
  | none =>
    obtain ⟨k, h1, h2⟩ := py_bind_eq_ok.1 (show (do
      let k ← Mix.copyG g
      .ok (g, some k) : Py (AnyG × Option AnyG)) = _ from h)
    cases h2
    exact (copyG_gauss hg h1).1
  | some f =>
    obtain ⟨⟨f', g'', r'⟩, h1, h2⟩ := py_bind_eq_ok.1 (show (do
      let (_, g', r) ← f.2.multiply g.2
      .ok (⟨_, g'⟩, some ⟨_, r⟩) : Py (AnyG × Option AnyG)) = _ from h)
    cases h2
    refine (gauss_mul (hs := ⟨⟨_, fun _ => List.Perm.refl _⟩, ⟨_, fun _ => List.Perm.refl _⟩⟩) (hp f rfl) hg ?_).1
    show (do let (_, _, r) ← f.2.multiply g.2; .ok ⟨_, r⟩ : Py AnyG) = _
    rw [h1]
    rfl

theorem divPart_gauss {e : PyErr} {p : Option AnyG} {g g' r : AnyG} (hp : ∀ f, p = some f → GaussOk f) (hg : GaussOk g)
    (h : NLG.divPart e g p = .ok (g', some r)) : GaussOk r := by
  cases p with
  | none => cases h
  | some f =>
    obtain ⟨⟨f', g'', r'⟩, h1, h2⟩ := py_bind_eq_ok.1 (show (do
      let (_, g', r) ← f.2.divide g.2
      .ok (⟨_, g'⟩, some ⟨_, r⟩) : Py (AnyG × Option AnyG)) = _ from h)
    cases h2
    refine (gauss_cancel (hs := ⟨⟨_, fun _ => List.Perm.refl _⟩, ⟨_, fun _ => List.Perm.refl _⟩⟩) (hp f rfl) hg ?_).1
    show (do let (_, _, r) ← f.2.divide g.2; .ok ⟨_, r⟩ : Py AnyG) = _
    rw [h1]
    rfl

theorem applyUpdate_gauss {j r : AnyG} {p u : Option AnyG} (hp : ∀ f, p = some f → GaussOk f)
    (h : NLG.applyUpdate j p = .ok (u, r)) : ∀ f, u = some f → GaussOk f := by
  cases p with
  | none =>
    cases h
    intro f hf
    cases hf
  | some g =>
    unfold NLG.applyUpdate Gauss.multiply Gauss.absorbOrCancel at h
    dsimp only at h
    obtain ⟨⟨a', u', r'⟩, h1, h2⟩ := py_bind_eq_ok.1 h
    obtain ⟨⟨b', cb⟩, -, h1⟩ := py_bind_eq_ok.1 h1
    dsimp only at h1
    obtain ⟨⟨g', cg⟩, h3, h1⟩ := py_bind_eq_ok.1 h1
    dsimp only at h1
    obtain ⟨prec, -, h1⟩ := py_bind_eq_ok.1 h1
    obtain ⟨hv, -, h1⟩ := py_bind_eq_ok.1 h1
    obtain ⟨m, hm, h1⟩ := py_bind_eq_ok.1 h1
    cases h1
    cases h2
    intro f hf
    cases hf
    have hg := (hp g rfl)
    have hmade := Made.getCan hg.made h3
    rw [Gauss.getCan_valid hg.good.toValid] at h3
    cases h3
    exact ⟨hmade, Gauss.good_can hg.good, fun h => by cases h⟩

/-- Recomputing the joint keeps the parts in order. -/
theorem recompute_upd {a r : NLG} {U C : (Var → ℝ) → ℝ} (h : IsNLG a U C) (hu : ∀ f, a.upd = some f → GaussOk f)
    (hr : NLG.recompute hs a = .ok r) : ∀ f, r.upd = some f → GaussOk f := by
  by_cases hc : Covered a
  · rw [NLG.recompute_eq, if_neg (not_not.2 ((NLG.covered_iff h).2 hc))] at hr
    cases hcond : a.cond with
    | none => rw [hcond] at hr; cases hr
    | some g =>
      rw [hcond] at hr
      dsimp only at hr
      obtain ⟨k, hk, hr⟩ := py_bind_eq_ok.1 hr
      obtain ⟨j, hj, hr⟩ := py_bind_eq_ok.1 hr
      obtain ⟨⟨u, j2⟩, hu', hr⟩ := py_bind_eq_ok.1 hr
      dsimp only at hr
      obtain ⟨j3, he, hr⟩ := py_bind_eq_ok.1 hr
      cases hr
      exact applyUpdate_gauss hu hu'
  · rw [NLG.recompute_uncovered hs h hc] at hr
    cases hr
    exact hu

/-! ### What the function depends on -/

theorem gaussDen_dep {g : AnyG} (hg : GaussOk g) : DependsOn (gaussDen g) g.2.vars := by
  intro x y h
  rw [hg.den, hg.den]
  congr 2
  funext i
  exact h _ (List.getElem_mem _)

/-- At unobserved variables the evidence does not matter. -/
theorem gaussDen_free {g : AnyG} (hg : GaussOk g) {a : NLG} (h : ∀ v ∈ g.2.vars, v ∈ nlgFree a) (x : Var → ℝ) :
    gaussDen g (override a.ev x) = gaussDen g x :=
  gaussDen_dep hg _ _ fun v hv => by
    have := h v hv
    unfold nlgFree at this
    rw [List.mem_filter, decide_eq_true_eq] at this
    exact NLG.override_free this.2 x

theorem nlg_dep {a : NLG} (ha : NlgOk a) : DependsOn (nlgDen a) (nlgFree a) := by
  intro x y h
  have hz : ∀ v ∈ a.xs ++ a.ys, override a.ev x v = override a.ev y v := by
    intro v hv
    by_cases hk : v ∈ Dict.keys a.ev
    · rw [NLG.override_key hk, NLG.override_key hk]
    · rw [NLG.override_free hk, NLG.override_free hk]
      exact h v (List.mem_filter.2 ⟨hv, by simpa using hk⟩)
  have hpart : ∀ p : Option AnyG, (∀ g, p = some g → GaussOk g ∧ ∀ v ∈ g.2.vars, v ∈ a.xs ++ a.ys) →
      partDen p (override a.ev x) = partDen p (override a.ev y) := by
    intro p hp
    cases p with
    | none => rfl
    | some g => exact gaussDen_dep (hp g rfl).1 _ _ fun v hv => hz v ((hp g rfl).2 v hv)
  obtain ⟨A, b, hT⟩ := ha.affine
  unfold nlgDen
  dsimp only
  rw [hpart a.cond fun g hg => ⟨(ha.cond g hg).1, fun v hv => List.mem_append_left _ ((ha.cond g hg).2.1 v hv)⟩,
    hpart a.upd fun g hg => ⟨(ha.upd g hg).1, fun v hv => List.mem_append_right _ ((ha.upd g hg).2 v hv)⟩,
    nlgMean_eq hT, nlgMean_eq hT]
  congr 2
  · funext i
    congr 2
    exact List.map_congr_left fun v hv => by rw [hz v (List.mem_append_left _ hv)]
  · funext i
    refine hz _ (List.mem_append_right _ ?_)
    have hi : i.1 < a.ys.length := ha.q.symm ▸ i.2
    rw [List.getD_eq_getElem?_getD, List.getElem?_eq_getElem hi, Option.getD_some]
    exact List.getElem_mem _

theorem nlgDen_pos {a : NLG} (ha : NlgOk a) (x : Var → ℝ) : 0 < nlgDen a x := by
  rw [nlgDen_eq ha.isNLG]
  have := Gauss.normalDensity_pos ha.noise (nlgMean a (override a.ev x)) fun i => override a.ev x (a.ys.getD i.1 "")
  positivity

theorem override_meas (ev : Dict Var ℝ) : Measurable (override ev) := by
  refine measurable_pi_lambda _ fun v => ?_
  by_cases h : v ∈ Dict.keys ev
  · rw [show (fun x => override ev x v) = fun _ => NLG.val ev v from funext fun x => NLG.override_key h x]
    exact measurable_const
  · rw [show (fun x => override ev x v) = fun x => x v from funext fun x => NLG.override_free h x]
    exact measurable_pi_apply v

theorem nlgDen_meas {a : NLG} (ha : NlgOk a) : Measurable (nlgDen a) := by
  obtain ⟨A, b, hT⟩ := ha.affine
  have hpart : ∀ p : Option AnyG, (∀ g, p = some g → GaussOk g) → Measurable (partDen p) := by
    intro p hp
    cases p with
    | none => exact measurable_const
    | some g => exact gaussDen_meas (hp g rfl)
  have h1 : Measurable fun z : Var → ℝ => Real.exp a.lw * partDen a.cond z * partDen a.upd z *
      Spec.normalDensity a.noise (nlgMean a z) fun i => z (a.ys.getD i.1 "") := by
    refine ((measurable_const.mul (hpart _ fun g hg => (ha.cond g hg).1)).mul (hpart _ fun g hg => (ha.upd g hg).1)).mul ?_
    simp only [nlgMean_eq hT]
    unfold Spec.normalDensity Matrix.mulVec dotProduct
    have hm : ∀ i, Measurable fun z : Var → ℝ => (a.xs.map fun v => A i v * z v).sum + b i := by
      intro i
      refine Measurable.add_const ?_ _
      generalize a.xs = l
      induction l with
      | nil => exact measurable_const
      | cons v l ih =>
        simp only [List.map_cons, List.sum_cons]
        exact (measurable_const.mul (measurable_pi_apply v)).add ih
    simp only [Pi.sub_apply]
    have hd : ∀ i : Fin a.q, Measurable fun z : Var → ℝ =>
        z (a.ys.getD i.1 "") - ((a.xs.map fun v => A i v * z v).sum + b i) := fun i => (measurable_pi_apply _).sub (hm i)
    refine Measurable.div_const (Real.measurable_exp.comp (Measurable.div_const (Measurable.neg ?_) _)) _
    refine Finset.measurable_sum _ fun i _ => (hd i).mul ?_
    exact Finset.measurable_sum _ fun j _ => (hd j).const_mul _
  exact h1.comp (override_meas a.ev)

/-! ### Multiplication and division -/

theorem nlg_mul {a r : NLG} {g k : AnyG} {g' : AnyG} (ha : NlgOk a) (hg : GaussOk g) (hk : Mix.copyG g = .ok k)
    (hu : k.2.vac = true → ∀ x, gaussDen g x = 1) (hv : ∀ v ∈ g.2.vars, v ∈ nlgFree a)
    (h : NLG.multiply a k = .ok (g', r)) :
    NlgOk r ∧ nlgFree r = nlgFree a ∧ ∀ x, nlgDen r x = nlgDen a x * gaussDen g x := by
  obtain ⟨hk1, hk2⟩ := copyG_gauss hg hk
  have hkd : ∀ x, gaussDen k x = gaussDen g x := by
    obtain ⟨k', h1, h2, h3, h4, h5, -⟩ := gauss_copy hg
    unfold Mix.copyG at hk
    rw [h1, py_bind_ok] at hk
    cases hk
    exact h5
  obtain ⟨j, u, c, e, hi, -, -, gu, gc⟩ := nlg_copy ha
  have hfree : ∀ x, Real.exp (Real.log (gaussDen k (override a.ev x))) = gaussDen g x := fun x => by
    rw [Real.exp_log (gaussDen_pos hk1 _), hkd, gaussDen_free hg hv]
  unfold NLG.multiply at h
  rw [e, py_bind_ok] at h
  split at h
  · rename_i hvac
    cases h
    refine ⟨.of hi ha.ys ha.noise ha.affine gu gc, rfl, fun x => ?_⟩
    rw [nlgDen_eq hi, nlgDen_eq ha.isNLG, hu hvac, mul_one]
    rfl
  · split at h
    · rename_i hsub
      obtain ⟨g'', r', hr, pr, -⟩ := NLG.mulPart_ok hi.upd hk1.toDen hsub
      dsimp only at h hr
      rw [hr] at h
      cases h
      have hi' : IsNLG { a with joint := j, upd := some r', cond := c } _ _ :=
        ⟨hi.nodup, hi.q, pr, hi.cond, hi.joint, hi.ev⟩
      refine ⟨.of hi' ha.ys ha.noise ha.affine (fun f hf => ?_) gc, rfl, fun x => ?_⟩
      · cases hf
        exact mulPart_gauss gu hk1 hr
      · rw [nlgDen_eq hi', nlgDen_eq ha.isNLG]
        dsimp only
        rw [Real.exp_add, hfree]
        show _ = Real.exp a.lw * _ * _ * Spec.normalDensity a.noise (nlgMean a (override a.ev x)) _ * _
        rw [show nlgMean { a with joint := j, upd := some r', cond := c } = nlgMean a from rfl]
        ring
    · split at h
      · rename_i hn hsub
        obtain ⟨g'', r', hr, pr, -, -, -, hm⟩ := NLG.mulPart_ok hi.cond hk1.toDen hsub
        dsimp only at h hr
        rw [hr] at h
        cases h
        have hi' : IsNLG { a with joint := j, upd := u, cond := some r' } _ _ :=
          ⟨hi.nodup, hi.q, hi.upd, pr, hi.joint, hi.ev⟩
        refine ⟨.of hi' ha.ys ha.noise ha.affine gu fun f hf => ?_, rfl, fun x => ?_⟩
        · cases hf
          refine ⟨mulPart_gauss (fun f hf => (gc f hf).1) hk1 hr, fun h0 => hn fun v hv' => ?_⟩
          have := (hm v).2 (.inr hv')
          rw [h0] at this
          simp at this
        · rw [nlgDen_eq hi', nlgDen_eq ha.isNLG]
          dsimp only
          rw [Real.exp_add, hfree]
          rw [show nlgMean { a with joint := j, upd := u, cond := some r' } = nlgMean a from rfl]
          ring
      · cases h

theorem nlg_cancel {a r : NLG} {g k : AnyG} {g' : AnyG} (ha : NlgOk a) (hg : GaussOk g) (hk : Mix.copyG g = .ok k)
    (hu : k.2.vac = true → ∀ x, gaussDen g x = 1) (hv : ∀ v ∈ g.2.vars, v ∈ nlgFree a)
    (h : NLG.divide hs a k = .ok (g', r)) :
    NlgOk r ∧ nlgFree r = nlgFree a ∧ ∀ x, nlgDen r x = nlgDen a x / gaussDen g x := by
  obtain ⟨hk1, hk2⟩ := copyG_gauss hg hk
  have hkd : ∀ x, gaussDen k x = gaussDen g x := by
    obtain ⟨k', h1, h2, h3, h4, h5, -⟩ := gauss_copy hg
    unfold Mix.copyG at hk
    rw [h1, py_bind_ok] at hk
    cases hk
    exact h5
  obtain ⟨j, u, c, e, hi, -, -, gu, gc⟩ := nlg_copy ha
  have hfree : ∀ x, Real.exp (Real.log (gaussDen k (override a.ev x))) = gaussDen g x := fun x => by
    rw [Real.exp_log (gaussDen_pos hk1 _), hkd, gaussDen_free hg hv]
  unfold NLG.divide at h
  rw [e, py_bind_ok] at h
  split at h
  · rename_i hvac
    cases h
    refine ⟨.of hi ha.ys ha.noise ha.affine gu gc, rfl, fun x => ?_⟩
    rw [nlgDen_eq hi, nlgDen_eq ha.isNLG, hu hvac, div_one]
    rfl
  · split at h
    · rename_i hsub
      cases u with
      | none => cases h
      | some p =>
        obtain ⟨g'', r', hr, pr, -⟩ := NLG.divPart_ok .attributeError hi.upd hk1.toDen hsub
        dsimp only at h hr
        rw [hr, py_bind_ok] at h
        dsimp only at h
        obtain ⟨r2, h2, h⟩ := py_bind_eq_ok.1 h
        cases h
        have hi' : IsNLG { a with joint := j, upd := some r', cond := c } _ _ :=
          ⟨hi.nodup, hi.q, pr, hi.cond, hi.joint, hi.ev⟩
        have gu' := recompute_upd hi' (fun f hf => by
          cases hf
          exact divPart_gauss gu hk1 hr) h2
        obtain ⟨j2, u2, rfl, hi2, -⟩ := NLG.recompute_inv hi' h2
        refine ⟨.of hi2 ha.ys ha.noise ha.affine gu' gc, rfl, fun x => ?_⟩
        rw [nlgDen_eq hi2, nlgDen_eq ha.isNLG]
        dsimp only
        rw [Real.exp_sub, hfree]
        rw [show nlgMean { a with joint := j2, upd := u2, cond := c } = nlgMean a from rfl]
        ring
    · split at h
      · rename_i hn hsub
        cases c with
        | none => cases h
        | some p =>
          obtain ⟨g'', r', hr, pr, -, -, -, hm, -⟩ := NLG.divPart_ok .notImplementedError hi.cond hk1.toDen hsub
          dsimp only at h hr
          rw [hr, py_bind_ok] at h
          dsimp only at h
          obtain ⟨r2, h2, h⟩ := py_bind_eq_ok.1 h
          cases h
          have hi' : IsNLG { a with joint := j, upd := u, cond := some r' } _ _ :=
            ⟨hi.nodup, hi.q, hi.upd, pr, hi.joint, hi.ev⟩
          have gu' := recompute_upd hi' gu h2
          obtain ⟨j2, u2, rfl, hi2, -⟩ := NLG.recompute_inv hi' h2
          refine ⟨.of hi2 ha.ys ha.noise ha.affine gu' fun f hf => ?_, rfl, fun x => ?_⟩
          · cases hf
            refine ⟨divPart_gauss (fun f hf => (gc f hf).1) hk1 hr, fun h0 => hn fun v hv' => ?_⟩
            have := (hm v).2 (.inr hv')
            rw [h0] at this
            simp at this
          · rw [nlgDen_eq hi2, nlgDen_eq ha.isNLG]
            dsimp only
            rw [Real.exp_sub, hfree]
            rw [show nlgMean { a with joint := j2, upd := u2, cond := some r' } = nlgMean a from rfl]
            ring
      · cases h

/-! ### Evidence -/

theorem nlg_red {a r : NLG} {vs : List Var} {ks : List ℝ} (ha : NlgOk a) (hn : vs.Nodup) (hv : ∀ v ∈ vs, v ∈ nlgFree a)
    (hl : ks.length = vs.length) (h : NLG.reduce a vs ks = .ok r) :
    NlgOk r ∧ (∀ v, v ∈ nlgFree r ↔ v ∈ nlgFree a ∧ v ∉ vs) ∧ ∀ x, nlgDen r x = nlgDen a (override (vs.zip ks) x) := by
  have hd : ∀ v ∈ vs, v ∉ Dict.keys a.ev := fun v h => by
    have := hv v h
    unfold nlgFree at this
    rw [List.mem_filter, decide_eq_true_eq] at this
    exact this.2
  obtain ⟨j, u, c, e, hi, -⟩ := NLG.reduce_ok ha.isNLG hn hl hd
  obtain ⟨j', u', c', e', -, -, -, gu, gc⟩ := nlg_copy ha
  have huc : u = u' ∧ c = c' := by
    unfold NLG.reduce at e
    rw [e', py_bind_ok] at e
    injection e with e
    exact ⟨(congrArg NLG.upd e).symm, (congrArg NLG.cond e).symm⟩
  obtain ⟨rfl, rfl⟩ := huc
  rw [e] at h
  cases h
  have hk : Dict.keys (a.ev ++ vs.zip ks) = Dict.keys a.ev ++ vs := by
    rw [NLG.keys_append]
    congr 1
    exact List.map_fst_zip hl.ge
  refine ⟨.of hi ha.ys ha.noise ha.affine gu gc, fun v => ?_, fun x => ?_⟩
  · unfold nlgFree
    dsimp only
    rw [List.mem_filter, List.mem_filter, decide_eq_true_eq, decide_eq_true_eq, hk, List.mem_append, not_or, ← and_assoc]
    rfl
  · rw [nlgDen_eq hi, nlgDen_eq ha.isNLG]
    dsimp only
    rw [NLG.override_append]
    rfl

end Verif.CG
