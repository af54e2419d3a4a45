import Verif.MixCgProps
import Verif.NlgCgExamples
import Verif.ClusterGaussTotal

/-!
# C125: a mixture and a Gaussian inside its scope
-/

namespace Verif.CG
open Spec (override intOut integrateOut IntegrableOut integrableOut_iff)
open Gauss (AnyG canOf)
open Mix (make copyG IsMix Comp exM)
open Fact (std stdItem)
open Classical
open scoped ENNReal

variable {hs : HashSeed} {approx : ℕ → Mix → Mix → Py (Mix × Mix × Mix)}

theorem observe_nil {F V G : Type} {ops : Ops F V G} {f : F} : observe ops [] f = .ok f := by
  unfold observe
  have h : ∀ vars, subsetEvidence ([] : Dict Var V) vars = [] := by
    intro vars
    unfold subsetEvidence
    induction vars with
    | nil => rfl
    | cons v vs ih => simp_all [Dict.get?]
  rw [h]
  rfl

theorem comps_comp {l : List AnyG} {vars : List Var} (h : ∀ c ∈ l, GaussOk c ∧ c.2.vars = vars) :
    List.Forall₂ (Comp vars) l (l.map fun c z => Real.log (gaussDen c z)) := by
  induction l with
  | nil => exact .nil
  | cons c l ih =>
    exact .cons (gauss_comp (h c (by simp)).1 (h c (by simp)).2) (ih fun c hc => h c (by simp [hc]))

/-- Every component of a mixture with a finite integral has a positive definite precision matrix. -/
theorem comps_posDef {a : Mix} (ha : MixOk a) {x : Var → ℝ}
    (hx : intOut a.vars.toFinset (fun y => .ofReal (mixDen a y)) x ≠ ∞) : ∀ c ∈ a.comps, (canOf c.2).prec.PosDef := by
  intro c hc
  rw [show mixDen a = _ from funext (mixDen_eq ha), sum_intOut fun c hc => (ha.comp c hc).1] at hx
  refine gauss_posDef (ha.comp c hc).1 (x := x) fun htop => hx ?_
  rw [(ha.comp c hc).2] at htop
  refine top_le_iff.1 (htop ▸ List.le_sum_of_mem (List.mem_map.2 ⟨c, hc, rfl⟩))

/-- A mixture with a finite integral can be marginalised. -/
theorem mix_marg_ok {a : Mix} (ha : MixOk a) {vrs : List Var} (hn : vrs.Nodup) (hv : ∀ v ∈ vrs, v ∈ a.vars) {x : Var → ℝ}
    (hx : intOut a.vars.toFinset (fun y => .ofReal (mixDen a y)) x ≠ ∞) :
    ∃ r, gmMarginalize hs (.inr a) vrs = .ok (.inr r) := by
  have hpd := comps_posDef ha hx
  have hall : ∀ c ∈ a.comps, (GaussOk c ∧ c.2.vars = a.vars) ∧ (canOf c.2).prec.PosDef := fun c hc => ⟨ha.comp c hc, hpd c hc⟩
  have h1 : ∃ cs, a.comps.mapM copyG = .ok cs ∧ cs.length = a.comps.length ∧
      ∀ c ∈ cs, (GaussOk c ∧ c.2.vars = a.vars) ∧ (canOf c.2).prec.PosDef := by
    clear hx
    generalize a.comps = l at hall
    induction l with
    | nil => exact ⟨[], rfl, rfl, fun c hc => by cases hc⟩
    | cons c l ih =>
      obtain ⟨cs, i1, i2, i3⟩ := ih fun c hc => hall c (by simp [hc])
      obtain ⟨⟨k1, k2⟩, k3⟩ := hall c (by simp)
      obtain ⟨k, e1, e2, e3, e4, -⟩ := gauss_copy k1
      refine ⟨⟨c.1, k⟩ :: cs, ?_, by simp [i2], ?_⟩
      · rw [List.mapM_cons, show copyG c = .ok ⟨c.1, k⟩ from by unfold copyG; rw [e1]; rfl, py_bind_ok, i1]
        rfl
      · intro d hd
        rcases List.mem_cons.1 hd with rfl | hd
        · exact ⟨⟨e2, e3.trans k2⟩, by dsimp only; rw [e4]; exact k3⟩
        · exact i3 d hd
  obtain ⟨cs, c1, c2, c3⟩ := h1
  have hne : cs ≠ [] := by
    rintro rfl
    exact ha.ne (List.length_eq_zero_iff.1 c2.symm)
  obtain ⟨k, k1, -, -, -, -⟩ := Mix.make_ok hne (comps_comp fun c hc => (c3 c hc).1)
  obtain ⟨-, k2, -⟩ := make_inv k1
  have h2 : ∃ rs, k.comps.mapM (Mix.marginalizeG hs vrs true) = .ok rs ∧ rs.length = cs.length ∧
      ∀ r ∈ rs, GaussOk r ∧ r.2.vars = vrs := by
    clear k1 c1 c2 hne
    generalize k.comps = ks at k2
    induction k2 with
    | nil => exact ⟨[], rfl, rfl, fun c hc => by cases hc⟩
    | @cons c c' cs ks hcc _ ih =>
      obtain ⟨rs, i1, i2, i3⟩ := ih fun c hc => c3 c (by simp [hc])
      obtain ⟨⟨j1, j2⟩, j3⟩ := c3 c (by simp)
      obtain ⟨r, hr, -⟩ := (gaussTotal hs).marg (f := c) (vrs := vrs) j1 ((gauss_norm j1).2 j3) hn (by
        show ∀ v ∈ vrs, v ∈ c.2.vars
        rw [j2]
        exact hv)
      obtain ⟨m1, m2⟩ := gauss_marg j1 hn (by rw [j2]; exact hv) hr
      have hr' : (do let k ← c.2.copy; let r ← k.marginalize hs vrs true; .ok ⟨_, r⟩ : Py AnyG) = .ok r := hr
      unfold copyG at hcc
      obtain ⟨k', e1, e2⟩ := py_bind_eq_ok.1 hcc
      cases e2
      rw [e1, py_bind_ok] at hr'
      refine ⟨r :: rs, ?_, by simp [i2], ?_⟩
      · rw [List.mapM_cons, show Mix.marginalizeG hs vrs true ⟨c.1, k'⟩ = .ok r from hr', py_bind_ok, i1]
        rfl
      · intro d hd
        rcases List.mem_cons.1 hd with rfl | hd
        · exact ⟨m1, m2⟩
        · exact i3 d hd
  obtain ⟨rs, r1, r2, r3⟩ := h2
  have hne' : rs ≠ [] := by
    rintro rfl
    exact hne (List.length_eq_zero_iff.1 r2.symm)
  obtain ⟨R, R1, -⟩ := Mix.make_ok hne' (comps_comp r3)
  refine ⟨R, ?_⟩
  show (do
    let k ← a.copy
    let r ← k.marginalize hs vrs true
    .ok (.inr r) : Py GM) = _
  unfold Mix.copy Mix.marginalize
  rw [c1, py_bind_ok, k1, py_bind_ok, r1, py_bind_ok, R1, py_bind_ok]

/-- **C125, a mixture with a Gaussian inside its scope.** If the variables of a Gaussian are some, but not all, of
those of a mixture, and their product has a finite integral, then the graph of the two can be built, and
`get_marginal` returns a positive multiple of the integral of the product. -/
theorem C125_mixture_and_gaussian (hs : HashSeed) (approx : ℕ → Mix → Mix → Py (Mix × Mix × Mix)) (b : Mix) (f : AnyG)
    (hb : MixOk b) (hf : GaussOk f) (hsub : ∀ v ∈ f.2.vars, v ∈ b.vars) (hne : ∃ v ∈ b.vars, v ∉ f.2.vars)
    (hint : ∃ x, IntegrableOut b.vars (fun y => mixDen b y * gaussDen f y) x) (vrs : List Var) (hn : vrs.Nodup)
    (hv : ∀ v ∈ vrs, v ∈ b.vars) :
    ∃ a r, new hs (gmOps hs approx) [.inr b, .inl f] none [] = .ok a ∧ getMarginal (gmOps hs approx) a.graph vrs = .ok r ∧
      ∃ c : ℝ, 0 < c ∧ ∀ out : List Var, out.Nodup → (∀ v, v ∈ out ↔ v ∈ b.vars ∧ v ∉ vrs) → ∀ x,
        IntegrableOut out (fun y => mixDen b y * gaussDen f y) x ∧
        gmDen r x = c * integrateOut out (fun y => mixDen b y * gaussDen f y) x := by
  have hs1 : strictSubset ((gmOps hs approx).vars (.inl f)) ((gmOps hs approx).vars (.inr b)) = true := by
    obtain ⟨v, h1, h2⟩ := hne
    unfold strictSubset
    simp only [Bool.and_eq_true, Bool.not_eq_true', decide_eq_true_eq, decide_eq_false_iff_not]
    exact ⟨hsub, fun h => h2 (h v h1)⟩
  obtain ⟨M', g', p, -, h1, -⟩ := Mix.C56_multiply_gaussian hb.isMix hf.made hf.good.denotes
  obtain ⟨p1, p2, p3⟩ := mix_mulG hb hf h1
  have hm : (gmOps hs approx).multiply (.inr b) (.inl f) = .ok (.inr p) := by
    show (do let (_, _, r) ← b.multiplyG f; .ok (.inr r) : Py GM) = _
    rw [show b.multiplyG f = _ from h1]
    rfl
  obtain ⟨a, e1, e2, e3, e4, e5⟩ := new_one (ops := gmOps hs approx) (special := ([] : Dict Var ℝ)) (hs := hs)
    (absorb_first hs1 hm)
  have hpv : ∀ v, v ∈ p.vars ↔ v ∈ b.vars := fun v => (p2 v).trans ⟨fun h => h.elim id (hsub v), .inl⟩
  have hfun : (fun y => mixDen b y * gaussDen f y) = mixDen p := funext fun y => (p3 y).symm
  rw [hfun] at hint ⊢
  obtain ⟨x0, hx0⟩ := hint
  have hset : p.vars.toFinset = b.vars.toFinset := by
    ext v
    rw [List.mem_toFinset, List.mem_toFinset, hpv]
  have hfin := (integrableOut_iff hb.nodup (mixDen_meas p1) (fun y => (mixDen_pos p1 y).le) x0).1 hx0
  obtain ⟨r, hr⟩ := mix_marg_ok (hs := hs) p1 hn (fun v h => (hpv v).2 (hv v h)) (x := x0) (by rw [hset]; exact hfin)
  have hg : getMarginal (gmOps hs approx) a.graph vrs = .ok (.inr r) := by
    rw [getMarginal_one e2 e5 (fun v h => (hpv v).2 (hv v h)), e4, observe_nil, py_bind_ok]
    exact hr
  refine ⟨a, _, e1, hg, ?_⟩
  obtain ⟨n, m, g⟩ := a
  dsimp only at *
  subst e2 e3
  obtain ⟨c, hc, hx⟩ := C125_exact_partial hs approx [.inr b, .inl f] (by
      intro k hk
      simp only [List.mem_cons, List.not_mem_nil, or_false] at hk
      rcases hk with rfl | rfl
      · exact hb
      · exact hf) none [] _ e1 (acyclic_of_two (show 1 ≤ 2 by decide) _) [] g .start (fun q => q.elim0)
    (fun i => ⟨b.vars, x0, hb.nodup, fun v => by
      rw [e5]
      show v ∈ b.vars ↔ v ∈ p.vars ∧ v ∉ ([] : List Var)
      rw [hpv]
      simp, by rw [e5]; exact hx0⟩) vrs hn (fun v _ => by simp [Dict.keys]) _ hg (mixDen p) (fun x => by
      show mixDen p x = mixDen b x * (gaussDen f x * 1)
      rw [mul_one, p3])
  refine ⟨c, hc, fun out ho hmem x => hx out ho (fun v => ?_) x⟩
  rw [hmem]
  simp only [List.mem_cons, List.not_mem_nil, or_false, exists_eq_or_imp, exists_eq_left, Dict.keys, Option.getD_none,
    List.map_nil, not_false_eq_true, true_and]
  show v ∈ b.vars ∧ _ ↔ (v ∈ b.vars ∨ v ∈ f.2.vars) ∧ _
  exact ⟨fun h => ⟨.inl h.1, h.2⟩, fun h => ⟨h.1.elim id (hsub v), h.2⟩⟩

theorem exM_ok : MixOk exM where
  ne := by simp [exM]
  comp := by
    intro c hc
    simp only [exM, List.mem_cons, List.not_mem_nil, or_false] at hc
    rcases hc with rfl | rfl
    · exact ⟨⟨Gauss.exA_made, Gauss.exA_good, fun _ v hv => by cases hv; exact Gauss.exS_posDef⟩, rfl⟩
    · exact ⟨⟨Mix.exA2_made, Mix.exA2_good, fun _ v hv => by cases hv; exact Gauss.exS_posDef⟩, rfl⟩

theorem exM_int (x : Var → ℝ) : IntegrableOut ["a", "b"] (mixDen exM) x := by
  rw [show mixDen exM = _ from funext (mixDen_pot Mix.exM_isMix.pot)]
  have hA : (canOf Gauss.exA).prec.PosDef := Gauss.exS_posDef.inv
  have hA2 : (canOf Mix.exA2).prec.PosDef := Gauss.exS_posDef.inv
  exact (Mix.integrateOut_mix (Ks := [fun _ => _, fun _ => _]) (.cons (Gauss.integrate_good Gauss.exA_good hA x)
    (.cons (Gauss.integrate_good Mix.exA2_good hA2 x) .nil))).1

theorem exM_prior_int (x : Var → ℝ) : IntegrableOut exM.vars (fun y => mixDen exM y * gaussDen ⟨_, std ["a"]⟩ y) x := by
  have hg : GaussOk ⟨_, std ["a"]⟩ := std_ok (by decide)
  have hle : ∀ y, gaussDen ⟨_, std ["a"]⟩ y ≤ 1 := by
    intro y
    rw [gaussDen_std (by decide), Real.exp_le_one_iff]
    simp [stdItem]
    positivity
  have hn : exM.vars.Nodup := exM_ok.nodup
  refine (integrableOut_iff hn ((mixDen_meas exM_ok).mul (gaussDen_meas hg))
    (fun y => (mul_pos (mixDen_pos exM_ok y) (gaussDen_pos hg y)).le) x).2 ?_
  have h1 := (integrableOut_iff hn (mixDen_meas exM_ok) (fun y => (mixDen_pos exM_ok y).le) x).1 (exM_int x)
  refine ne_top_of_le_ne_top h1 ?_
  unfold intOut
  refine MeasureTheory.lmarginal_mono (fun y => ENNReal.ofReal_le_ofReal ?_) x
  exact mul_le_of_le_one_right (mixDen_pos exM_ok y).le (hle y)

/-- C125 applies: a mixture over `a` and `b`, and a Gaussian over `a`. -/
example (hs : HashSeed) (approx : ℕ → Mix → Mix → Py (Mix × Mix × Mix)) : ∃ a r,
    new hs (gmOps hs approx) [.inr exM, .inl ⟨_, std ["a"]⟩] none [] = .ok a ∧
    getMarginal (gmOps hs approx) a.graph ["b"] = .ok r ∧
      ∃ c : ℝ, 0 < c ∧ ∀ out : List Var, out.Nodup → (∀ v, v ∈ out ↔ v ∈ exM.vars ∧ v ∉ ["b"]) → ∀ x,
        IntegrableOut out (fun y => mixDen exM y * gaussDen ⟨_, std ["a"]⟩ y) x ∧
        gmDen r x = c * integrateOut out (fun y => mixDen exM y * gaussDen ⟨_, std ["a"]⟩ y) x :=
  C125_mixture_and_gaussian hs approx exM ⟨_, std ["a"]⟩ exM_ok (std_ok (by decide))
    (by show ∀ v ∈ ["a"], v ∈ ["a", "b"]; decide) (by show ∃ v ∈ ["a", "b"], v ∉ ["a"]; decide)
    ⟨0, exM_prior_int 0⟩ ["b"] (by decide) (by show ∀ v ∈ ["b"], v ∈ ["a", "b"]; decide)

/-- C125 fails: a mixture over `a` and `b`, and a Gaussian over `b` and `c`. -/
theorem C125_violated_overlap_witness (hs : HashSeed) (approx : ℕ → Mix → Mix → Py (Mix × Mix × Mix)) :
    ∃ e, new hs (gmOps hs approx) [.inr exM, .inl ⟨_, std ["b", "c"]⟩] none [] = .error e := by
  refine C125_violated_overlap hs approx _ ?_ none [] exM (by simp) (.inl ⟨_, std ["b", "c"]⟩) (by simp) "b"
    (by show "b" ∈ ["a", "b"]; decide) (by show "b" ∈ ["b", "c"]; decide) (by simp [Dict.keys]) (by simp [Dict.keys]) ?_
  · intro f hf
    simp only [List.mem_cons, List.not_mem_nil, or_false] at hf
    rcases hf with rfl | rfl
    · exact exM_ok
    · exact std_ok (by decide)
  · intro k hk
    simp only [List.mem_cons, List.not_mem_nil, or_false] at hk
    rcases hk with rfl | rfl
    · exact ⟨"c", .inr (by show "c" ∈ ["b", "c"]; decide), by simp [Dict.keys], by show "c" ∉ ["a", "b"]; decide⟩
    · exact ⟨"a", .inl (by show "a" ∈ ["a", "b"]; decide), by simp [Dict.keys], by show "a" ∉ ["b", "c"]; decide⟩

/-- C125 fails: a Gaussian over `a`, `b` and `c`, and a mixture over `a` and `b`. -/
theorem C125_violated_inside_witness (hs : HashSeed) (approx : ℕ → Mix → Mix → Py (Mix × Mix × Mix)) :
    new hs (gmOps hs approx) [.inl ⟨_, std ["a", "b", "c"]⟩, .inr exM] none [] = .error .attributeError :=
  C125_violated_inside hs approx _ exM (std_ok (by decide)) (by show ∀ v ∈ ["a", "b"], v ∈ ["a", "b", "c"]; decide)
    (by show ∃ v ∈ ["a", "b", "c"], v ∉ ["a", "b"]; decide) []

end Verif.CG
