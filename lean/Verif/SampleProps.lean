import Verif.SampleLemmas
import Verif.MixProps

/-!
# C108: samples
-/

namespace Verif.Sampling
open MeasureTheory Matrix Spec GaussInt Gauss Mix

variable {d : ℕ}

/-- What is known of a Gaussian that can be sampled. -/
theorem ready {a a0 : Gauss d} {c : Can d} (ha : Made a) (hc : a.getCan = .ok (a0, c)) (hK : c.prec.PosDef)
    (hv : a.isVacuous = false) : ∃ a' v, ∃ hl : a.vars.length = d, a.getCov = .ok (a', v) ∧ a'.getCov = .ok (a', v) ∧
      v.cov.PosDef ∧ (∀ L, Denotes a L → Denotes a' L) ∧ a'.vars = a.vars ∧
      ∀ x, a.potential (a.vars.map x) = .ok (Real.exp v.lw * normalDensity v.cov v.mean (vecAt a.vars hl x)) := by
  obtain ⟨hg, -, rfl⟩ := getCan_inv ha.inv hc
  have hvac : a.vac = false := by
    unfold Gauss.isVacuous at hv
    exact (Bool.or_eq_false_iff.1 hv).1
  have hcov := getCov_valid hg.toValid hvac hK.det_pos
  refine ⟨_, _, hg.len, hcov, ?_, hK.inv, fun L hL => ?_, rfl, fun x => ?_⟩
  · unfold getCov updateCov
    rw [if_neg (by simp [hvac])]
    rfl
  · have h := (C38_accessors ha hL).2.2.1 _ _ (weight_good hg hK hvac)
    exact h.1
  · rw [(hg.denotes x).2.1]
    congr 1
    unfold logOf
    rw [exp_evalCan hK, normalDensity_eq]
    change _ = Real.exp (toCov (canOf a)).lw * dens (canOf a).prec⁻¹⁻¹ ((canOf a).prec⁻¹ *ᵥ (canOf a).h) _
    rw [nonsing_inv_nonsing_inv _ hK.det_pos.ne'.isUnit]

theorem sample_ready {a a' : Gauss d} {v : CovF d} (h : a.getCov = .ok (a', v)) (hp : v.cov.PosDef)
    (Z : List (Fin d → ℝ)) : a.sample Z = .ok (a', Z.map (aff v)) := by
  obtain ⟨L, -, e⟩ := Sigma.npChol_ok hp
  unfold Gauss.sample aff
  rw [h]
  dsimp only [bind, Except.bind]
  rw [e]

/-- **C108.** Sampling a Gaussian with positive definite precision that is not reported vacuous always returns, one
column for each column of standard normal numbers and row `i` for the variable `i` of the factor. Each column has the
probability density `p` and the columns are independent; the potential of the factor is `p` times its weight, which
`get_weight` returns. The factor keeps its function. -/
theorem C108_gaussian {a a0 : Gauss d} {c : Can d} (ha : Made a) (hc : a.getCan = .ok (a0, c)) (hK : c.prec.PosDef)
    (hv : a.isVacuous = false) :
    ∃ a' f w p, (∀ Z, a.sample Z = .ok (a', Z.map f)) ∧ Samples (Measure.pi fun _ => ProbabilityTheory.gaussianReal 0 1) f p ∧
      (a.getWeight = .ok (a', w) ∧ 0 < w) ∧
      (∃ hl : a.vars.length = d, ∀ x, a.potential (a.vars.map x) = .ok (w * p (vecAt a.vars hl x))) ∧
      (∀ L, Denotes a L → Denotes a' L) ∧ a'.vars = a.vars := by
  obtain ⟨a', v, hl, h1, -, h3, h4, h5, h6⟩ := ready ha hc hK hv
  refine ⟨a', aff v, Real.exp v.lw, normalDensity v.cov v.mean, sample_ready h1 h3, ?_, ⟨?_, Real.exp_pos _⟩,
    ⟨hl, h6⟩, h4, h5⟩
  · exact samples_of_law (P := stdNoise (Fin d)) (normalDensity_nonneg _ _) (measurable_normalDensity _ _)
      (measurable_aff v) (map_aff h3)
  · unfold getWeight
    rw [h1]
    rfl

/-- **C108, the other Gaussians.** If the covariance parameters cannot be read, the same exception is raised; if the
covariance is symmetric but not positive definite, a `LinAlgError` is. -/
theorem C108_raises {a : Gauss d} (Z : List (Fin d → ℝ)) :
    (∀ e, a.getCov = .error e → a.sample Z = .error e) ∧ (a.vac = true → a.sample Z = .error .exception) ∧
    (∀ a' v, a.getCov = .ok (a', v) → v.cov.IsSymm → ¬ v.cov.PosDef → a.sample Z = .error .linAlgError) := by
  refine ⟨fun e h => ?_, fun h => ?_, fun a' v h hs hp => ?_⟩
  · unfold Gauss.sample
    rw [h]
    rfl
  · unfold Gauss.sample getCov updateCov
    rw [if_pos h]
    rfl
  · unfold Gauss.sample
    rw [h]
    dsimp only [bind, Except.bind]
    rw [Sigma.npChol_error (by rwa [Sigma.lowerSym_eq hs])]

/-- The hypotheses of `C108_gaussian` can be met by a Gaussian over two variables that depend on each other. -/
example : Made exA ∧ (∃ a0 c, exA.getCan = .ok (a0, c) ∧ c.prec.PosDef) ∧ exA.isVacuous = false :=
  ⟨exA_made, ⟨_, _, exA_can, exS_posDef.inv⟩, rfl⟩

/-! ### Mixtures -/

/-- A component of dimension `n` with the covariance parameters `v`, which are stored. -/
def Stored (n : ℕ) (c : AnyG) (v : CovF n) : Prop := ∃ g : Gauss n, c = ⟨n, g⟩ ∧ g.getCov = .ok (g, v) ∧ v.cov.PosDef

theorem sampleG_stored {n : ℕ} {c : AnyG} {v : CovF n} (h : Stored n c v) (z : Fin n → ℝ) :
    Mix.sampleG n c z = .ok (c, aff v z) := by
  obtain ⟨g, rfl, h1, h2⟩ := h
  unfold Mix.sampleG
  dsimp only
  rw [dif_pos rfl, sample_ready h1 h2]
  rfl

theorem sampleLoop_stored {n : ℕ} {cs : List AnyG} {vs : List (CovF n)} (h : List.Forall₂ (Stored n) cs vs)
    (l : List (ℕ × (Fin n → ℝ))) (hl : ∀ q ∈ l, q.1 < vs.length) :
    Mix.sampleLoop n cs l = .ok (cs, l.map fun q =>
      match vs[q.1]? with
      | some v => aff v q.2
      | none => 0) := by
  induction l with
  | nil => rfl
  | cons q l ih =>
    obtain ⟨i, z⟩ := q
    have hi : i < vs.length := hl (i, z) List.mem_cons_self
    have hi' : i < cs.length := h.length_eq ▸ hi
    have hs : Stored n cs[i] vs[i] := h.get hi' hi
    unfold Mix.sampleLoop
    rw [List.getElem?_eq_getElem hi']
    dsimp only
    rw [sampleG_stored hs]
    dsimp only [bind, Except.bind]
    rw [List.set_getElem_self, ih fun q hq => hl q (List.mem_cons_of_mem _ hq)]
    simp only [List.map_cons, List.getElem?_eq_getElem hi]

theorem forall₂_exists {α β : Type} {R : α → β → Prop} {l : List α} (h : ∀ a ∈ l, ∃ b, R a b) :
    ∃ bs, List.Forall₂ R l bs := by
  induction l with
  | nil => exact ⟨[], .nil⟩
  | cons a l ih =>
    obtain ⟨b, hb⟩ := h a List.mem_cons_self
    obtain ⟨bs, hbs⟩ := ih fun x hx => h x (List.mem_cons_of_mem _ hx)
    exact ⟨b :: bs, .cons hb hbs⟩

/-- What is known of a component that can be sampled. -/
def Ready (vars : List Var) (c : AnyG) (v : CovF vars.length) : Prop := ∃ g g' : Gauss vars.length,
  c = ⟨_, g⟩ ∧ g.getCov = .ok (g', v) ∧ g'.getCov = .ok (g', v) ∧ v.cov.PosDef ∧ g'.vars = vars ∧ Made g' ∧
  (∀ L, Denotes g L → Denotes g' L) ∧
  ∀ x, g.potential (vars.map x) = .ok (Real.exp v.lw * normalDensity v.cov v.mean fun i => x vars[i])

theorem comp_ready {vars : List Var} {c : AnyG} {L : (Var → ℝ) → ℝ} (h : Comp vars c L)
    (hp : ∃ a0 k, c.2.getCan = .ok (a0, k) ∧ k.prec.PosDef) (hv : c.2.isVacuous = false) : ∃ v, Ready vars c v := by
  obtain ⟨n, g⟩ := c
  obtain ⟨a0, k, hk, hK⟩ := hp
  obtain ⟨g', v, hl, h1, h2, h3, h4, h5, h6⟩ := ready h.made hk hK hv
  have e := h.vars
  have hm := h.made
  dsimp only at e hl h6 h5 h1 h4 hm
  have hn : n = vars.length := by rw [← e, hl]
  subst hn
  have key : ∀ (ws : List Var) (hw : ws.length = vars.length) (x : Var → ℝ), ws = vars →
      vecAt ws hw x = fun i => x vars[i] := by
    rintro _ hw x rfl
    rfl
  refine ⟨v, g, g', rfl, h1, h2, h3, h5.trans e, .getCov hm h1, h4, fun x => ?_⟩
  rw [← key g.vars hl x e, ← h6, e]

theorem readG_ready {vars : List Var} {cs : List AnyG} {Ls : List ((Var → ℝ) → ℝ)} {vs : List (CovF vars.length)}
    (hc : List.Forall₂ (Comp vars) cs Ls) (h : List.Forall₂ (Ready vars) cs vs) :
    ∃ l, cs.mapM Mix.readG = .ok l ∧ (l.map fun p => Real.exp p.2.2.lw) = vs.map (fun v => Real.exp v.lw) ∧
      List.Forall₂ (Stored vars.length) (l.map fun p => ⟨p.1, p.2.1⟩) vs ∧
      List.Forall₂ (Comp vars) (l.map fun p => ⟨p.1, p.2.1⟩) Ls := by
  induction h generalizing Ls with
  | nil => cases hc; exact ⟨[], rfl, rfl, .nil, .nil⟩
  | cons h1 h2 ih =>
    cases hc with
    | cons c1 c2 =>
    obtain ⟨l, e1, e2, e3, e4⟩ := ih c2
    obtain ⟨g, g', rfl, k1, k2, k3, k4, k5, k6, -⟩ := h1
    rename_i v _ _ _ _
    refine ⟨⟨vars.length, g', v⟩ :: l, ?_, ?_, ?_, ?_⟩
    · rw [List.mapM_cons, e1]
      unfold Mix.readG
      dsimp only
      rw [k1]
      rfl
    · simp [e2]
    · exact .cons ⟨g', rfl, k2, k3⟩ e3
    · exact .cons ⟨k5, k6 _ c1.den, k4⟩ e4

theorem mixPotential {M : Mix} {vs : List (CovF M.vars.length)} (h : List.Forall₂ (Ready M.vars) M.comps vs)
    (x : Var → ℝ) : M.potential (M.vars.map x) =
      .ok (vs.map fun v => Real.exp v.lw * normalDensity v.cov v.mean fun i => x M.vars[i]).sum := by
  unfold Mix.potential
  rw [foldl_potential (f := fun c : AnyG => c.2.potential (M.vars.map x))
    (ys := vs.map fun v => Real.exp v.lw * normalDensity v.cov v.mean fun i => x M.vars[i]), zero_add]
  refine List.forall₂_map_right_iff.2 (h.imp fun c v hcv => ?_)
  obtain ⟨g, g', rfl, -, -, -, -, -, -, k⟩ := hcv
  exact k x

theorem zip_self {α β γ : Type} (f : α → β) (g : β → α → γ) (l : List α) :
    List.zipWith g (l.map f) l = l.map fun a => g (f a) a := by
  induction l with
  | nil => rfl
  | cons a l ih => simp [ih]

theorem mapM_choice {p : List ℝ} (hne : p ≠ []) (hp : ∀ t ∈ p, 0 ≤ t) (h1 : p.sum = 1) {α : Type} (ω : List (ℝ × α)) :
    (ω.mapM fun q => npChoice p q.1) = .ok (ω.map fun q => pick p q.1) := by
  induction ω with
  | nil => rfl
  | cons q ω ih =>
    rw [List.mapM_cons, ih, npChoice_ok hne hp h1]
    rfl

/-- **C108.** Sampling a mixture whose components have positive definite precisions and are not reported vacuous
returns for every positive number of samples, one column for each pair of a uniform number and standard normal numbers.
Each column has the probability density `p` and the columns are independent; the potential of the mixture is a positive
constant times `p`. The mixture keeps its function. -/
theorem C108_mixture {M : Mix} {Ls : List ((Var → ℝ) → ℝ)} (hM : IsMix M Ls)
    (hp : ∀ c ∈ M.comps, (∃ a0 k, c.2.getCan = .ok (a0, k) ∧ k.prec.PosDef) ∧ c.2.isVacuous = false) :
    ∃ M' f W p, (∀ ω, ω ≠ [] → (∀ q ∈ ω, 0 ≤ q.1 ∧ q.1 < 1) → M.sample ω = .ok (M', ω.map f)) ∧
      Samples ((volume.restrict (Set.Ico (0 : ℝ) 1)).prod
        (Measure.pi fun _ => ProbabilityTheory.gaussianReal 0 1)) f p ∧
      0 < W ∧ (∀ x, M.potential (M.vars.map x) = .ok (W * p fun i => x M.vars[i])) ∧
      IsMix M' Ls ∧ M'.vars = M.vars := by
  obtain ⟨vs, hvs⟩ : ∃ vs, List.Forall₂ (Ready M.vars) M.comps vs := by
    refine forall₂_exists fun c hc => ?_
    obtain ⟨L, hL⟩ : ∃ L, Comp M.vars c L := by
      obtain ⟨i, hi, rfl⟩ := List.mem_iff_getElem.1 hc
      exact ⟨_, hM.comps.get hi (hM.comps.length_eq ▸ hi)⟩
    exact comp_ready hL (hp c hc).1 (hp c hc).2
  obtain ⟨l, e1, e2, e3, e4⟩ := readG_ready hM.comps hvs
  have hvne : vs ≠ [] := by
    intro h
    rw [h] at hvs
    exact hM.ne (List.forall₂_nil_right_iff.1 hvs)
  obtain ⟨W, hW⟩ : ∃ W, W = (vs.map fun v => Real.exp v.lw).sum := ⟨_, rfl⟩
  have hWpos : 0 < W := by
    rw [hW]
    refine List.sum_pos _ (fun y hy => ?_) (by simpa using hvne)
    obtain ⟨v, -, rfl⟩ := List.mem_map.1 hy
    exact Real.exp_pos _
  obtain ⟨p, hpd⟩ : ∃ p, p = (vs.map fun v => Real.exp v.lw).map fun w => w / W := ⟨_, rfl⟩
  have hlen : p.length = vs.length := by simp [hpd]
  have hpne : p ≠ [] := by
    intro h
    rw [h] at hlen
    exact hvne (List.length_eq_zero_iff.1 hlen.symm)
  have hp0 : ∀ t ∈ p, 0 ≤ t := by
    intro t ht
    rw [hpd] at ht
    obtain ⟨w, hw, rfl⟩ := List.mem_map.1 ht
    obtain ⟨v, -, rfl⟩ := List.mem_map.1 hw
    positivity
  have hp1 : p.sum = 1 := by
    rw [hpd]
    simp only [div_eq_mul_inv]
    rw [List.sum_map_mul_right, List.map_id', ← hW, mul_inv_cancel₀ hWpos.ne']
  have hpos : ∀ v ∈ vs, v.cov.PosDef := by
    intro v hv
    obtain ⟨i, hi, rfl⟩ := List.mem_iff_getElem.1 hv
    obtain ⟨g, g', -, -, -, h, -⟩ := hvs.get (hvs.length_eq ▸ hi) hi
    exact h
  refine ⟨{ M with comps := l.map fun p => ⟨p.1, p.2.1⟩ }, mixFun p vs, W, mixDens p vs, fun ω hω hu => ?_,
    samples_mix hp0 hp1 hlen hpos, hWpos, fun x => ?_, ⟨?_, e4⟩, rfl⟩
  · unfold Mix.sample
    rw [e1]
    dsimp only [bind, Except.bind]
    rw [e2, ← hW, ← hpd, mapM_choice hpne hp0 hp1]
    dsimp only
    have ez : (ω.map fun q => pick p q.1).zip (ω.map Prod.snd) = ω.map fun q => (pick p q.1, q.2) := by
      rw [List.zip_map']
    rw [ez, sampleLoop_stored e3]
    · dsimp only
      rw [if_neg (by simpa using hω), List.map_map]
      rfl
    · intro q hq
      obtain ⟨r, hr, rfl⟩ := List.mem_map.1 hq
      obtain ⟨i, hi, h1, h2⟩ := exists_pick hp1 (hu r hr).1 (hu r hr).2
      rw [pick_eq hp0 hi h1 h2, ← hlen]
      exact hi
  · rw [mixPotential hvs]
    congr 1
    unfold mixDens
    rw [hpd, List.map_map, zip_self, ← List.sum_map_mul_left]
    refine congrArg List.sum (List.map_congr_left fun v _ => ?_)
    simp only [Function.comp]
    field_simp
  · intro h
    dsimp only at h
    rw [h] at e3
    exact hvne (List.forall₂_nil_left_iff.1 e3)

/-- **C108, no samples.** Asking a mixture for no samples raises `ValueError`, a single Gaussian returns an array without
columns. -/
theorem C108_none {M : Mix} {Ls : List ((Var → ℝ) → ℝ)} (hM : IsMix M Ls)
    (hp : ∀ c ∈ M.comps, (∃ a0 k, c.2.getCan = .ok (a0, k) ∧ k.prec.PosDef) ∧ c.2.isVacuous = false) :
    M.sample [] = .error .valueError ∧
    ∀ {d : ℕ} {a a0 : Gauss d} {c : Can d}, Made a → a.getCan = .ok (a0, c) → c.prec.PosDef → a.isVacuous = false →
      ∃ a', a.sample [] = .ok (a', []) := by
  constructor
  · obtain ⟨vs, hvs⟩ : ∃ vs, List.Forall₂ (Ready M.vars) M.comps vs := by
      refine forall₂_exists fun c hc => ?_
      obtain ⟨L, hL⟩ : ∃ L, Comp M.vars c L := by
        obtain ⟨i, hi, rfl⟩ := List.mem_iff_getElem.1 hc
        exact ⟨_, hM.comps.get hi (hM.comps.length_eq ▸ hi)⟩
      exact comp_ready hL (hp c hc).1 (hp c hc).2
    obtain ⟨l, e1, -⟩ := readG_ready hM.comps hvs
    unfold Mix.sample
    rw [e1]
    rfl
  · intro d a a0 c ha hc hK hv
    obtain ⟨a', f, w, p, h, -⟩ := C108_gaussian ha hc hK hv
    exact ⟨a', h []⟩

/-- The hypotheses of `C108_mixture` can be met by a mixture with two different components. -/
example : IsMix ⟨["a", "b"], [⟨2, exA⟩, ⟨2, exA2⟩], 0⟩ [logOf exA exA_good.len, logOf exA2 exA2_good.len] ∧
    ∀ c ∈ ([⟨2, exA⟩, ⟨2, exA2⟩] : List AnyG), (∃ a0 k, c.2.getCan = .ok (a0, k) ∧ k.prec.PosDef) ∧
      c.2.isVacuous = false := by
  refine ⟨⟨by simp, .cons ⟨exA_made, exA_good.denotes, rfl⟩ (.cons ⟨exA2_made, exA2_good.denotes, rfl⟩ .nil)⟩, ?_⟩
  intro c hc
  rcases List.mem_cons.1 hc with rfl | hc
  · exact ⟨⟨_, _, getCan_valid exA_good.toValid, exS_posDef.inv⟩, rfl⟩
  · obtain rfl := List.mem_singleton.1 hc
    exact ⟨⟨_, _, getCan_valid exA2_good.toValid, exS_posDef.inv⟩, rfl⟩

end Verif.Sampling
