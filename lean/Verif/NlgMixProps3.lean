import Verif.NlgMixProps2

/-!
# Properties of mixtures of non-linear Gaussians (C93 to C95): marginals, division, copies
-/

namespace Verif.NlgMix
open Matrix Gauss Spec _root_.Verif.Fact _root_.Verif.NLG

/-! ### C93 marginals -/

/-- **C93 is violated.** `marginalize` never returns, whatever the factor and the variables. -/
theorem C93_never_returns (hs : HashSeed) (a : NlgMix) (vrs : List Var) (keep : Bool) :
    ∃ e, marginalize hs a vrs keep = .error e := by
  unfold marginalize
  cases h : a.nlgs.mapM (fun f => f.marginalize hs vrs keep) with
  | error e => exact ⟨e, rfl⟩
  | ok rs =>
    dsimp only [bind, Except.bind]
    unfold makeFromGaussians
    cases rs with
    | nil => exact ⟨_, rfl⟩
    | cons g gs =>
      dsimp only [bind, Except.bind]
      cases pyGuard .valueError (decide g.2.vars.Nodup) with
      | error e => exact ⟨e, rfl⟩
      | ok _ => exact ⟨_, rfl⟩

theorem marginals_ok (hs : HashSeed) {fs : List NLG} {vrs : List Var} {keep : Bool}
    (h : ∀ f ∈ fs, ∃ g, f.marginalize hs vrs keep = .ok g ∧ g.2.vars.Nodup) :
    ∃ rs, fs.mapM (fun f => NLG.marginalize hs f vrs keep) = .ok rs ∧
      List.Forall₂ (fun (_ : NLG) (g : AnyG) => g.2.vars.Nodup) fs rs := by
  induction fs with
  | nil => exact ⟨[], rfl, .nil⟩
  | cons f fs ih =>
    obtain ⟨g, e, hg⟩ := h f List.mem_cons_self
    obtain ⟨rs, e', hr⟩ := ih fun f hf => h f (List.mem_cons_of_mem _ hf)
    refine ⟨g :: rs, ?_, .cons hg hr⟩
    rw [List.mapM_cons, e, py_bind_ok, e', py_bind_ok]
    rfl

/-- **C93 is violated: `TypeError`.** If the marginals of the components exist, the exception is `TypeError`. -/
theorem C93_type_error (hs : HashSeed) {a : NlgMix} (hne : a.nlgs ≠ []) {vrs : List Var} {keep : Bool}
    (h : ∀ f ∈ a.nlgs, ∃ g, f.marginalize hs vrs keep = .ok g ∧ g.2.vars.Nodup) :
    marginalize hs a vrs keep = .error .typeError := by
  obtain ⟨rs, e, h1⟩ : ∃ rs, a.nlgs.mapM (fun f => NLG.marginalize hs f vrs keep) = .ok rs ∧
      List.Forall₂ (fun (_ : NLG) (g : AnyG) => g.2.vars.Nodup) a.nlgs rs := marginals_ok hs h
  unfold marginalize
  rw [e]
  dsimp only [bind, Except.bind]
  have hl := h1.length_eq
  cases rs with
  | nil => exact absurd (List.length_eq_zero_iff.1 hl) hne
  | cons g gs =>
    obtain ⟨_, -, hg⟩ := forall₂_mem h1 (List.mem_cons_self (a := g) (l := gs))
    unfold makeFromGaussians
    dsimp only [bind, Except.bind]
    rw [pyGuard, if_pos (decide_eq_true hg)]

theorem make_vac' {gs : List AnyG} {cm : ℕ} {M : Mix} (h : Mix.make gs cm = .ok M)
    (hc : ∀ g ∈ gs, Good g.2 ∧ (canOf g.2).prec.PosDef) : ∀ c ∈ M.comps, c.2.vac = false := by
  unfold Mix.make at h
  cases gs with
  | nil => cases h
  | cons g gs =>
    dsimp only at h
    obtain ⟨cs, h1, h2⟩ := py_bind_eq_ok.1 h
    split at h2
    · cases h2
    · split at h2
      · cases h2
      · cases h2
        intro c hc'
        obtain ⟨a, ha, hk⟩ := mapM_mem h1 c hc'
        unfold Mix.copyG at hk
        obtain ⟨k, hk1, hk2⟩ := py_bind_eq_ok.1 hk
        cases hk2
        exact copy_vac (hc a ha).1 (hc a ha).2 hk1

/-- **C93 (part that holds).** The marginal can be had from the joint distribution: for affine transforms and joint
densities that are strictly concave in the unobserved variables, marginalizing the joint distribution integrates the
sum of the exact joint densities of the components over the other variables. What is missing for the full claim:
`marginalize` itself, `C93_never_returns`. -/
theorem C93_joint_marginal_partial (hs : HashSeed) {a : NlgMix} (hne : a.nlgs ≠ []) {Ds : List (Parts × ((Var → ℝ) → ℝ))}
    (h : AllAffine a Ds) (ho : ∀ f ∈ a.nlgs, ∀ f' ∈ a.nlgs, condVars f.cond = condVars f'.cond ∧ f.ys = f'.ys ∧
      ∀ v, v ∈ Dict.keys f.ev ↔ v ∈ Dict.keys f'.ev)
    (hpos : ∀ f ∈ a.nlgs, ∀ d ∈ Ds, PosOn d.2 fun v => v ∈ f.vars ∧ v ∉ Dict.keys f.ev)
    {vrs : List Var} (keep : Bool) (hn : vrs.Nodup) (hv : ∀ f ∈ a.nlgs, ∀ v ∈ vrs, v ∈ f.vars ∧ v ∉ Dict.keys f.ev) :
    ∃ M R F, jointDistribution hs a = .ok M ∧ M.marginalize hs vrs keep = .ok R ∧
      (∀ v, v ∈ R.vars ↔ v ∈ M.vars ∧ (v ∈ vrs ↔ keep = true)) ∧ Mix.Pot R F ∧
      ∀ out : List Var, out.Nodup → (∀ v, v ∈ out ↔ v ∈ M.vars ∧ v ∉ R.vars) → ∀ x,
        IntegrableOut out (Mix.mixFn (Ds.map Prod.snd)) x ∧ integrateOut out (Mix.mixFn (Ds.map Prod.snd)) x = F x := by
  obtain ⟨M, e, hM, -, hMv⟩ := C91_joint_partial hs hne h ho
  obtain ⟨f0, hf0⟩ := List.exists_mem_of_ne_nil _ hne
  have hposM : ∀ d ∈ Ds, PosOn d.2 fun v => v ∈ M.vars := fun d hd z hz hS =>
    hpos f0 hf0 d hd z hz fun v hv' => hS v fun hm => hv' (((hMv f0 hf0).2 v).1 hm)
  have hpd : ∀ {c : AnyG} {d}, d ∈ Ds → Mix.Comp M.vars c d.2 → (canOf c.2).prec.PosDef := by
    intro c d hd hc
    refine posDef_logOf hc.good ?_
    rw [← hc.den.eq hc.good, hc.vars]
    exact hposM d hd
  have hvac : ∀ c ∈ M.comps, c.2.vac = false := by
    unfold jointDistribution at e
    obtain ⟨js, h1, h2⟩ := py_bind_eq_ok.1 e
    refine make_vac' h2 fun j hj => ?_
    obtain ⟨f, hf, hjf⟩ := mapM_mem h1 j hj
    obtain ⟨d, hd, hA⟩ := forall₂_mem' h hf
    obtain ⟨j', e', hc, -⟩ := hA.joint hs
    rw [hjf] at e'
    cases e'
    have hc' : Mix.Comp M.vars j d.2 := ⟨hc.made, hc.den, hc.vars.trans (hMv f hf).1.symm⟩
    exact ⟨hc.good, hpd hd hc'⟩
  obtain ⟨R, Rs, e2, -, -, -, hRv, F, hF, hint⟩ := Mix.C57_marginalize_partial hs hM keep hn
    (fun v hv' => ((hMv f0 hf0).2 v).2 (hv f0 hf0 v hv')) hvac fun c hc a' k hk y hy _ => by
      obtain ⟨L, hL, hcL⟩ := forall₂_mem' hM.comps hc
      obtain ⟨d, hd, rfl⟩ := List.mem_map.1 hL
      have := hpd hd hcL
      rw [getCan_valid hcL.good.toValid] at hk
      cases hk
      have := this.dotProduct_mulVec_pos hy
      simpa using this
  exact ⟨M, R, F, e, e2, hRv, hF, hint⟩

/-! ### C94 division -/

theorem absorbOrCancel_operand {op : ℝ → ℝ → ℝ} {n m : ℕ} {a a' : Gauss n} {b b' : Gauss m}
    {r : Gauss (opVars a.vars b.vars).length} (h : absorbOrCancel op a b = .ok (a', b', r)) :
    b'.vars = b.vars ∧ b'.vac = b.vac := by
  have key : ∀ {k : Gauss m} {c : Can m}, b.getCan = .ok (k, c) → k.vars = b.vars ∧ k.vac = b.vac := by
    intro k c hk
    unfold Gauss.getCan updateCan at hk
    obtain ⟨k', h1, h2⟩ := py_bind_eq_ok.1 hk
    split at h1
    · cases h1
      split at h2
      · cases h2
        exact ⟨rfl, rfl⟩
      · cases h2
    · split at h1
      · cases h1
      · obtain ⟨w, -, h3⟩ := py_bind_eq_ok.1 h1
        cases h3
        cases h2
        exact ⟨rfl, rfl⟩
  unfold absorbOrCancel at h
  obtain ⟨⟨_, ca⟩, -, h⟩ := py_bind_eq_ok.1 h
  obtain ⟨⟨b1, cb⟩, h1, h⟩ := py_bind_eq_ok.1 h
  dsimp only at h
  obtain ⟨_, -, h⟩ := py_bind_eq_ok.1 h
  obtain ⟨_, -, h⟩ := py_bind_eq_ok.1 h
  obtain ⟨_, -, h⟩ := py_bind_eq_ok.1 h
  cases h
  exact key h1

theorem divide_operand {hs : HashSeed} {f r : NLG} {g g' : AnyG} (h : f.divide hs g = .ok (g', r)) :
    g'.2.vars = g.2.vars ∧ g'.2.vac = g.2.vac := by
  have key : ∀ {e : PyErr} {p u : Option AnyG} {g' : AnyG}, divPart e g p = .ok (g', u) →
      g'.2.vars = g.2.vars ∧ g'.2.vac = g.2.vac := by
    intro e p u g' hp
    cases p with
    | none => cases hp
    | some p =>
      unfold divPart at hp
      obtain ⟨⟨_, g1, r1⟩, h1, h2⟩ := py_bind_eq_ok.1 hp
      cases h2
      exact absorbOrCancel_operand h1
  unfold NLG.divide at h
  obtain ⟨k, -, h⟩ := py_bind_eq_ok.1 h
  split at h
  · cases h
    exact ⟨rfl, rfl⟩
  · split at h
    · obtain ⟨⟨g1, u⟩, h1, h⟩ := py_bind_eq_ok.1 h
      dsimp only at h
      obtain ⟨_, -, h⟩ := py_bind_eq_ok.1 h
      cases h
      exact key h1
    · split at h
      · obtain ⟨⟨g1, u⟩, h1, h⟩ := py_bind_eq_ok.1 h
        dsimp only at h
        obtain ⟨_, -, h⟩ := py_bind_eq_ok.1 h
        cases h
        exact key h1
      · cases h

theorem divAll_ok (hs : HashSeed) {vars : List Var} {fs : List NLG} {Ps : List Parts} (h : List.Forall₂ (Comp vars) fs Ps)
    {gv : List Var} {G : (Var → ℝ) → ℝ} : ∀ {g g' : AnyG} {rs : List NLG}, Mix.Comp gv g G → g.2.vac = false →
    divAll hs fs g = .ok (g', rs) →
    ∃ Qs, Mix.Comp gv g' G ∧ List.Forall₂ (Comp vars) rs Qs ∧ List.Forall₂ Keeps rs fs ∧
      ∀ K, Respects K → ∀ x, value K rs Qs x = value K fs Ps x / Real.exp (G x) := by
  induction h with
  | nil =>
    intro g g' rs hg hv e
    cases e
    exact ⟨[], hg, .nil, .nil, fun K _ x => by simp [value]⟩
  | @cons f p fs Ps h1 h2 ih =>
    intro g g' rs hg hv e
    unfold divAll at e
    obtain ⟨⟨g1, r⟩, e1, e⟩ := py_bind_eq_ok.1 e
    dsimp only at e
    obtain ⟨⟨g2, rs'⟩, e2, e⟩ := py_bind_eq_ok.1 e
    cases e
    have hd : Den g (g.2.vars, G) := ⟨hg.made, hg.den, fun _ => Iff.rfl⟩
    obtain ⟨kr, dg, hcase⟩ := (C71_divide hs h1.nlg hd hv).1 g1 r e1
    obtain ⟨o1, o2⟩ := divide_operand e1
    obtain ⟨Qs, hg', hrs, hk, hK⟩ := ih (g := g1) ⟨dg.made, dg.den, o1.trans hg.vars⟩ (o2.trans hv) e2
    obtain ⟨q, hq, hqs⟩ : ∃ q : Parts, IsNLG r q.1 q.2 ∧ ∀ x, q.1 x + q.2 x = p.1 x + p.2 x - G x := by
      rcases hcase with ⟨-, hi⟩ | ⟨-, -, hi⟩
      · exact ⟨(fun x => p.1 x - G x, p.2), hi, fun x => by ring⟩
      · exact ⟨(p.1, fun x => p.2 x - G x), hi, fun x => by ring⟩
    refine ⟨q :: Qs, hg', .cons ⟨hq, fun v => by rw [keeps_vars kr]; exact h1.vars v⟩ hrs, .cons kr hk, fun K hR x => ?_⟩
    rw [value_cons, value_cons, hK K hR x, hR _ _ kr, hqs, Real.exp_sub (p.1 x + p.2 x)]
    ring

/-- **C94, division by a Gaussian.** Whenever dividing a mixture of non-linear Gaussians by a Gaussian that is not flagged
vacuous returns, the function has been divided by the Gaussian, and the divisor keeps its function. -/
theorem C94_divide_gaussian (hs : HashSeed) {a : NlgMix} {Ps : List Parts} (ha : IsNlgMix a Ps) {n : ℕ} {g : Gauss n}
    {G : (Var → ℝ) → ℝ} (hm : Made g) (hG : Denotes g G) (hv : g.vac = false) {g' : AnyG} {r : NlgMix}
    (h : divideG hs a ⟨n, g⟩ = .ok (g', r)) :
    ∃ Rs, IsNlgMix r Rs ∧ (∀ v, v ∈ r.vars ↔ v ∈ a.vars) ∧ r.nlgs.length = a.nlgs.length ∧
      (∀ K, Respects K → ∀ x, value K r.nlgs Rs x = value K a.nlgs Ps x / Real.exp (G x)) ∧
      Denotes g'.2 G ∧ g'.2.vars = g.vars := by
  unfold divideG at h
  obtain ⟨⟨g1, rs⟩, e1, h⟩ := py_bind_eq_ok.1 h
  dsimp only at h
  obtain ⟨r', e2, h⟩ := py_bind_eq_ok.1 h
  cases h
  obtain ⟨Qs, hg', hrs, hk, hK⟩ := divAll_ok hs ha.comps (gv := g.vars) (g := ⟨n, g⟩) ⟨hm, hG, rfl⟩ hv e1
  have hne : rs ≠ [] := by
    rw [← List.length_pos_iff_ne_nil, hk.length_eq]
    exact List.length_pos_iff_ne_nil.2 ha.ne
  obtain ⟨r2, e3, hr2, -, hvs, hk2, hK2⟩ := make_ok hne hrs
  rw [e3] at e2
  cases e2
  exact ⟨Qs, hr2, hvs, hk2.length_eq.trans hk.length_eq, fun K hR x => (hK2 K hR x).trans (hK K hR x), hg'.den, hg'.vars⟩

/-- **C94, division by a Gaussian mixture.** Whenever dividing by a mixture of Gaussians with positive definite precisions
returns, the function has been divided by a single Gaussian with the integral, the first and the second moments of the
mixture. -/
theorem C94_divide_mixture (hs : HashSeed) {a : NlgMix} {Ps : List Parts} (ha : IsNlgMix a Ps) {m : Mix}
    {Ls : List ((Var → ℝ) → ℝ)} (hm : Mix.IsMix m Ls) (hp : ∀ c ∈ m.comps, Mix.Proper c) {m' : Mix} {r : NlgMix}
    (h : divide hs a m = .ok (m', r)) :
    ∃ Rs, ∃ L : (Var → ℝ) → ℝ, IsNlgMix r Rs ∧ (∀ v, v ∈ r.vars ↔ v ∈ a.vars) ∧ r.nlgs.length = a.nlgs.length ∧
      (∀ K, Respects K → ∀ x, value K r.nlgs Rs x = value K a.nlgs Ps x / Real.exp (L x)) ∧ Mix.IsMix m' Ls ∧
      Mix.SameMoment m.vars (fun _ => 1) (fun z => Real.exp (L z)) (Mix.mixFn Ls) ∧
      (∀ u ∈ m.vars, Mix.SameMoment m.vars (fun z => z u) (fun z => Real.exp (L z)) (Mix.mixFn Ls)) ∧
      ∀ u ∈ m.vars, ∀ v ∈ m.vars, Mix.SameMoment m.vars (fun z => z u * z v) (fun z => Real.exp (L z)) (Mix.mixFn Ls) := by
  obtain ⟨M', g, L, e1, ⟨hM', -⟩, mg, dg, -, h0, h1, h2⟩ := Mix.C59_moment_match hm hp
  have hvac : g.vac = false := by
    have e := e1
    unfold Mix.momentMatch at e
    obtain ⟨l, -, e⟩ := py_bind_eq_ok.1 e
    dsimp only at e
    split at e
    · cases e
    · obtain ⟨g0, hg0, e⟩ := py_bind_eq_ok.1 e
      cases e
      obtain ⟨-, -, rfl⟩ := mkCov_eq_ok hg0
      rfl
  unfold divide at h
  rw [e1] at h
  dsimp only [bind, Except.bind] at h
  obtain ⟨⟨g', r'⟩, e2, h⟩ := py_bind_eq_ok.1 h
  cases h
  obtain ⟨Rs, k1, k2, k3, k4, -⟩ := C94_divide_gaussian hs ha mg dg hvac e2
  exact ⟨Rs, L, k1, k2, k3, k4, hM', h0, h1, h2⟩

/-- The factor can be divided by something over conditional variables: it has an update factor, and its joint is vacuous or
can be computed. -/
def Divisible (vs : List Var) (f : NLG) (p : Parts) : Prop :=
  (∃ u, f.upd = some u) ∧ (∀ v ∈ vs, v ∈ f.ys) ∧
    (¬ Covered f ∨ f.ys ≠ [] ∧ f.noise.PosDef ∧ _root_.Verif.NLG.Total f.transform f.xs f.q ∧ ∃ q, NLG.Proper f q p.2)

theorem divide_returns (hs : HashSeed) {vars : List Var} {f : NLG} {p : Parts} (h : Comp vars f p) {gv : List Var}
    {G : (Var → ℝ) → ℝ} {g : AnyG} (hg : Mix.Comp gv g G) (hv : g.2.vac = false) (hd : Divisible gv f p) :
    ∃ g' r, f.divide hs g = .ok (g', r) := by
  obtain ⟨⟨u, hu⟩, hsub, hok⟩ := hd
  obtain ⟨g', j, u', c, e, hi, -, sc, nc⟩ := divide_ys hs h.nlg hu (g := g) ⟨hg.made, hg.den, fun _ => Iff.rfl⟩ hv
    (hg.vars ▸ hsub)
  obtain ⟨r, hr⟩ := recompute_returns hs hi (by
    rcases hok with hc | ⟨h1, h2, h3, q, hq⟩
    · refine .inl fun hc' => hc fun v hv' => ?_
      have := hc' v hv'
      dsimp only at this
      rwa [sc] at this
    · obtain ⟨q', hq'⟩ := proper_copy (j := j) (u := some u') hq sc nc
      exact .inr ⟨h1, h2, h3, q', hq'⟩)
  refine ⟨g', r, ?_⟩
  rw [e, hr]
  rfl

theorem divAll_returns (hs : HashSeed) {vars : List Var} {fs : List NLG} {Ps : List Parts}
    (h : List.Forall₂ (Comp vars) fs Ps) {gv : List Var} {G : (Var → ℝ) → ℝ}
    (hd : List.Forall₂ (Divisible gv) fs Ps) : ∀ {g : AnyG}, Mix.Comp gv g G → g.2.vac = false →
    ∃ g' rs, divAll hs fs g = .ok (g', rs) := by
  induction h with
  | nil => exact fun {g} _ _ => ⟨g, [], rfl⟩
  | @cons f p fs Ps h1 h2 ih =>
    intro g hg hv
    cases hd with
    | cons d1 d2 =>
      obtain ⟨g1, r, e1⟩ := divide_returns hs h1 hg hv d1
      obtain ⟨-, dg, -⟩ := (C71_divide hs h1.nlg (g := g) ⟨hg.made, hg.den, fun _ => Iff.rfl⟩ hv).1 g1 r e1
      obtain ⟨o1, o2⟩ := divide_operand e1
      obtain ⟨g2, rs, e2⟩ := ih d2 (g := g1) ⟨dg.made, dg.den, o1.trans hg.vars⟩ (o2.trans hv)
      refine ⟨g2, r :: rs, ?_⟩
      unfold divAll
      rw [e1, py_bind_ok]
      dsimp only
      rw [e2, py_bind_ok]

/-- **C94, division over conditional variables returns.** Dividing by a Gaussian over conditional variables returns, and
divides the function by it, if every component has an update factor and its joint is vacuous or can be computed. -/
theorem C94_divide_returns (hs : HashSeed) {a : NlgMix} {Ps : List Parts} (ha : IsNlgMix a Ps) {n : ℕ} {g : Gauss n}
    {G : (Var → ℝ) → ℝ} (hm : Made g) (hG : Denotes g G) (hv : g.vac = false)
    (hd : List.Forall₂ (Divisible g.vars) a.nlgs Ps) :
    ∃ g' r Rs, divideG hs a ⟨n, g⟩ = .ok (g', r) ∧ IsNlgMix r Rs ∧
      ∀ K, Respects K → ∀ x, value K r.nlgs Rs x = value K a.nlgs Ps x / Real.exp (G x) := by
  obtain ⟨g', rs, e⟩ := divAll_returns hs ha.comps hd (g := ⟨n, g⟩) ⟨hm, hG, rfl⟩ hv
  obtain ⟨Qs, hg', hrs, hk, hK⟩ := divAll_ok hs ha.comps (gv := g.vars) (g := ⟨n, g⟩) ⟨hm, hG, rfl⟩ hv e
  have hne : rs ≠ [] := by
    rw [← List.length_pos_iff_ne_nil, hk.length_eq]
    exact List.length_pos_iff_ne_nil.2 ha.ne
  obtain ⟨r, e3, hr, -⟩ := make_ok hne hrs
  have e4 : divideG hs a ⟨n, g⟩ = .ok (g', r) := by
    unfold divideG
    rw [e, py_bind_ok]
    dsimp only
    rw [e3, py_bind_ok]
  obtain ⟨Rs, k1, -, -, k4, -⟩ := C94_divide_gaussian hs ha hm hG hv e4
  exact ⟨g', r, Rs, e4, k1, k4⟩

/-! ### C95 copies and the flag for splitting -/

/-- **C95 (part that holds).** A copy has the components of the original and the same values. What is missing for the
full claim: `C95_flag`, `C95_violated`. -/
theorem C95_copy_partial {a : NlgMix} {Ps : List Parts} (ha : IsNlgMix a Ps) :
    ∃ c, copy a = .ok c ∧ IsNlgMix c Ps ∧ (∀ v, v ∈ c.vars ↔ v ∈ a.vars) ∧ c.nlgs.length = a.nlgs.length ∧
      ∀ K, Respects K → ∀ x, value K c.nlgs Ps x = value K a.nlgs Ps x := by
  obtain ⟨c, e, h1, -, h2, h3, h4⟩ := make_ok ha.ne ha.comps
  exact ⟨c, e, h1, h2, h3.length_eq, h4⟩

theorem make_split {fs : List NLG} {s : Bool} {r : NlgMix} (h : make fs s = .ok r) : r.split = s := by
  unfold make at h
  cases fs with
  | nil => cases h
  | cons f fs =>
    dsimp only at h
    obtain ⟨_, -, h⟩ := py_bind_eq_ok.1 h
    obtain ⟨_, -, h⟩ := py_bind_eq_ok.1 h
    cases h
    rfl

/-- **C95: the flag is lost.** Copies, products, quotients and reduced factors always have the flag for splitting set,
whether or not the original had it. -/
theorem C95_flag (hs : HashSeed) (a : NlgMix) :
    (∀ c, copy a = .ok c → c.split = true) ∧ (∀ m m' r, multiply a m = .ok (m', r) → r.split = true) ∧
    (∀ g g' r, divideG hs a g = .ok (g', r) → r.split = true) ∧ (∀ m m' r, divide hs a m = .ok (m', r) → r.split = true) ∧
    ∀ vrs vals r, reduce a vrs vals = .ok r → r.split = true := by
  have hg : ∀ g g' r, divideG hs a g = .ok (g', r) → r.split = true := by
    intro g g' r h
    unfold divideG at h
    obtain ⟨⟨_, rs⟩, -, h⟩ := py_bind_eq_ok.1 h
    dsimp only at h
    obtain ⟨r', e, h⟩ := py_bind_eq_ok.1 h
    cases h
    exact make_split e
  refine ⟨fun c h => make_split h, fun m m' r h => ?_, hg, fun m m' r h => ?_, fun vrs vals r h => ?_⟩
  · unfold multiply at h
    obtain ⟨⟨s, cs⟩, -, h⟩ := py_bind_eq_ok.1 h
    dsimp only at h
    obtain ⟨⟨_, rs⟩, -, h⟩ := py_bind_eq_ok.1 h
    dsimp only at h
    obtain ⟨r', e, h⟩ := py_bind_eq_ok.1 h
    cases h
    exact make_split e
  · unfold divide at h
    obtain ⟨⟨_, g⟩, -, h⟩ := py_bind_eq_ok.1 h
    dsimp only at h
    obtain ⟨⟨g', r'⟩, e, h⟩ := py_bind_eq_ok.1 h
    cases h
    exact hg _ _ _ e
  · unfold reduce at h
    obtain ⟨rs, -, h⟩ := py_bind_eq_ok.1 h
    exact make_split h

/-- **C95 is violated.** A factor that was asked not to split Gaussians before multiplying, and its copy, have different
products with the same Gaussian of one variable: the product of the copy has three times as many components. -/
theorem C95_violated {a : NlgMix} {Ps : List Parts} (ha : IsNlgMix a Ps) {m : Mix} {L : (Var → ℝ) → ℝ}
    (hm : Mix.IsMix m [L]) (hs : a.split = false) {v : Var} (hvar : m.vars = [v])
    (hp : ∀ g ∈ m.comps, g.2.isVacuous = false ∧ ∃ g0 c, g.2.getCan = .ok (g0, c) ∧ c.prec.PosDef)
    (hsc : ∀ f ∈ a.nlgs, v ∈ f.ys ∨ v ∈ f.xs) :
    ∃ c m1 r1 m2 r2, copy a = .ok c ∧ multiply a m = .ok (m1, r1) ∧ multiply c m = .ok (m2, r2) ∧
      r2.nlgs.length = 3 * r1.nlgs.length ∧ 0 < r1.nlgs.length := by
  obtain ⟨c, e, h1, hsp, h2, h3, -⟩ := make_ok ha.ne ha.comps
  have hlen : m.comps.length = 1 := hm.comps.length_eq
  obtain ⟨m1, r1, Rs1, e1, hr1, -, hl1, -⟩ := C90_multiply_partial ha hm (fun g hg => by
      have := (hp g hg).1
      unfold Gauss.isVacuous at this
      simp only [Bool.or_eq_false_iff] at this
      exact this.1) (by simpa [hvar] using hsc) (by simp [hs])
  obtain ⟨m2, r2, Rs2, F, e2, -, -, hl2, -⟩ := C90_split_partial h1 hm hsp hvar hp fun f hf => by
    obtain ⟨f', hf', hk⟩ := forall₂_mem' h3 hf
    rw [hk.ys, hk.xs]
    exact hsc f' hf'
  refine ⟨c, m1, r1, m2, r2, e, e1, e2, ?_, List.length_pos_iff_ne_nil.2 hr1.ne⟩
  rw [hl2, hl1, hlen, one_mul, h3.length_eq]

end Verif.NlgMix
