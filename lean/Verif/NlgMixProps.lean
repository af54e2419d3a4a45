import Verif.NlgMixLemmas

/-!
# Properties of mixtures of non-linear Gaussians (C90)

Multiplication by Gaussian mixtures.
-/

namespace Verif.NlgMix
open Matrix Gauss Spec _root_.Verif.Fact _root_.Verif.NLG

/-! ### C90 multiplication -/

theorem splitSingle_none {s : Bool} {m : Mix} (h : ¬ (s = true ∧ m.vars.length = 1 ∧ m.comps.length = 1)) :
    splitSingle s m = .ok (none, m.comps) := by
  obtain ⟨vars, comps, cm⟩ := m
  dsimp only at h
  unfold splitSingle
  dsimp only
  split
  · rename_i hs
    match comps with
    | [] => rfl
    | [g] => exact absurd ⟨hs.1, hs.2, rfl⟩ h
    | _ :: _ :: _ => rfl
  · rfl

/-- **C90 (part that holds: operands that are not split).** Multiplying a mixture of non-linear Gaussians by a mixture
of Gaussians over conditional variables only, or over conditioning variables only, multiplies the functions: whatever
the transforms, the noise, the weights and the evidence contribute to the components (`K`), the sum over the
components of the result is the product of the sums over the components of the operands. The operand keeps its
function. What is missing for the full claim: `C90_split_partial`, `C90_violated`. -/
theorem C90_multiply_partial {a : NlgMix} {Ps : List Parts} (ha : IsNlgMix a Ps) {m : Mix} {Gs : List ((Var → ℝ) → ℝ)}
    (hm : Mix.IsMix m Gs) (hv : ∀ g ∈ m.comps, g.2.vac = false)
    (hsc : ∀ f ∈ a.nlgs, (∀ v ∈ m.vars, v ∈ f.ys) ∨ ∀ v ∈ m.vars, v ∈ f.xs)
    (hsp : ¬ (a.split = true ∧ m.vars.length = 1 ∧ m.comps.length = 1)) :
    ∃ m' r Rs, multiply a m = .ok (m', r) ∧ IsNlgMix r Rs ∧ (∀ v, v ∈ r.vars ↔ v ∈ a.vars) ∧
      r.nlgs.length = m.comps.length * a.nlgs.length ∧
      (∀ K, Respects K → ∀ x, value K r.nlgs Rs x = value K a.nlgs Ps x * Mix.mixFn Gs x) ∧
      Mix.IsMix m' Gs ∧ m'.vars = m.vars := by
  obtain ⟨gs', rs, Qs, e, hg, hr, hl, -, hK⟩ := mulAll_ok ha.comps hsc hm.comps hv
  have hne : rs ≠ [] := by
    rw [← List.length_pos_iff_ne_nil, hl]
    exact Nat.mul_pos (List.length_pos_iff_ne_nil.2 hm.ne) (List.length_pos_iff_ne_nil.2 ha.ne)
  obtain ⟨r, e2, hr2, -, hvs, hk, hK2⟩ := make_ok hne hr
  refine ⟨{ m with comps := gs' }, r, Qs, ?_, hr2, hvs, hk.length_eq.trans hl, fun K hR x => (hK2 K hR x).trans (hK K hR x),
    ⟨?_, hg⟩, rfl⟩
  · unfold multiply
    rw [splitSingle_none hsp]
    dsimp only [bind, Except.bind]
    rw [e]
    dsimp only
    rw [e2]
  · have := hg.length_eq.trans hm.comps.length_eq.symm
    exact List.length_pos_iff_ne_nil.1 (this ▸ List.length_pos_iff_ne_nil.2 hm.ne)

theorem mulRow_scope {vars : List Var} {fs : List NLG} {Ps : List Parts} (h : List.Forall₂ (Comp vars) fs Ps) {gv : List Var}
    {G : (Var → ℝ) → ℝ} (hsc : ∃ f ∈ fs, (¬ ∀ v ∈ gv, v ∈ f.ys) ∧ ¬ ∀ v ∈ gv, v ∈ f.xs) :
    ∀ {g : AnyG}, Mix.Comp gv g G → g.2.vac = false → mulRow fs g = .error .valueError := by
  induction h with
  | nil => simp at hsc
  | @cons f p fs Ps h1 h2 ih =>
    intro g hg hv
    unfold mulRow
    by_cases hf : (¬ ∀ v ∈ gv, v ∈ f.ys) ∧ ¬ ∀ v ∈ gv, v ∈ f.xs
    · have := (C71_multiply h1.nlg (g := g) ⟨hg.made, hg.den, fun _ => Iff.rfl⟩ hv).2.2 (by rw [hg.vars]; exact hf.1)
        (by rw [hg.vars]; exact hf.2)
      rw [this]
      rfl
    · obtain ⟨g', r, q, e1, hg', hv', -⟩ := mulOne h1 hg hv (by
        by_contra hc
        exact hf (not_or.1 hc))
      have hex : ∃ f ∈ fs, (¬ ∀ v ∈ gv, v ∈ f.ys) ∧ ¬ ∀ v ∈ gv, v ∈ f.xs := by
        obtain ⟨f', hm, hf'⟩ := hsc
        rcases List.mem_cons.1 hm with rfl | hm
        · exact absurd hf' hf
        · exact ⟨f', hm, hf'⟩
      rw [e1]
      dsimp only [bind, Except.bind]
      rw [ih hex hg' hv']

/-- **C90, scopes.** If the variables of the operand are neither all conditional nor all conditioning variables of some
component, `ValueError` is raised. -/
theorem C90_scope {a : NlgMix} {Ps : List Parts} (ha : IsNlgMix a Ps) {m : Mix} {Gs : List ((Var → ℝ) → ℝ)}
    (hm : Mix.IsMix m Gs) (hv : ∀ g ∈ m.comps, g.2.vac = false)
    (hsc : ∃ f ∈ a.nlgs, (¬ ∀ v ∈ m.vars, v ∈ f.ys) ∧ ¬ ∀ v ∈ m.vars, v ∈ f.xs)
    (hsp : ¬ (a.split = true ∧ m.vars.length = 1 ∧ m.comps.length = 1)) :
    multiply a m = .error .valueError := by
  unfold multiply
  rw [splitSingle_none hsp]
  dsimp only [bind, Except.bind]
  have hc := hm.comps
  cases hcs : m.comps with
  | nil => exact absurd hcs hm.ne
  | cons g gs =>
    rw [hcs] at hc
    cases hc with
    | cons h1 h2 =>
      unfold mulAll
      rw [mulRow_scope ha.comps hsc h1 (hv g (by rw [hcs]; simp))]
      rfl

theorem copyG_cov_vac {g k : AnyG} (h : Mix.copyG g = .ok k) (hc : g.2.cov.isSome) : k.2.vac = false := by
  obtain ⟨n, ⟨vars, can, cov, vac⟩⟩ := g
  dsimp only at hc
  obtain ⟨v, rfl⟩ := Option.isSome_iff_exists.1 hc
  unfold Mix.copyG Gauss.copy at h
  obtain ⟨k', h1, h2⟩ := py_bind_eq_ok.1 h
  cases h2
  dsimp only at h1 ⊢
  cases can with
  | some c =>
    obtain ⟨b, h3, h4⟩ := py_bind_eq_ok.1 h1
    obtain ⟨-, -, rfl⟩ := mkCov_eq_ok h3
    cases h4
    rfl
  | none =>
    obtain ⟨-, -, rfl⟩ := mkCov_eq_ok h1
    rfl

theorem mapM_mem {α β : Type} {f : α → Py β} : ∀ {l : List α} {r : List β}, l.mapM f = .ok r → ∀ b ∈ r, ∃ a ∈ l, f a = .ok b
  | [], r, h => by
    cases h
    simp
  | a :: l, r, h => by
    rw [List.mapM_cons] at h
    obtain ⟨b, h1, h2⟩ := py_bind_eq_ok.1 h
    obtain ⟨bs, h3, h4⟩ := py_bind_eq_ok.1 h2
    cases h4
    intro c hc
    rcases List.mem_cons.1 hc with rfl | hc
    · exact ⟨a, by simp, h1⟩
    · obtain ⟨a', ha', h5⟩ := mapM_mem h3 c hc
      exact ⟨a', by simp [ha'], h5⟩

theorem make_vac {gs : List AnyG} {cm : ℕ} {M : Mix} (h : Mix.make gs cm = .ok M) (hc : ∀ g ∈ gs, g.2.cov.isSome) :
    ∀ c ∈ M.comps, c.2.vac = false := by
  unfold Mix.make at h
  cases gs with
  | nil => cases h
  | cons g gs =>
    dsimp only at h
    obtain ⟨cs, h1, h2⟩ := py_bind_eq_ok.1 h
    split at h2
    · cases h2
    · split at h2
      · cases h2
      · cases h2
        intro c hc'
        obtain ⟨a, ha, hk⟩ := mapM_mem h1 c hc'
        exact copyG_cov_vac hk (hc a ha)

/-- **C90, a single Gaussian of one variable.** If the flag for splitting is set and the operand has one variable and one
component, the function is not multiplied by the operand `exp L` but by a sum `F` of three Gaussians with weight one
that has the mean and the variance of the operand. -/
theorem C90_split_partial {a : NlgMix} {Ps : List Parts} (ha : IsNlgMix a Ps) {m : Mix} {L : (Var → ℝ) → ℝ}
    (hm : Mix.IsMix m [L]) (hs : a.split = true) {v : Var} (hvar : m.vars = [v])
    (hp : ∀ g ∈ m.comps, g.2.isVacuous = false ∧ ∃ g0 c, g.2.getCan = .ok (g0, c) ∧ c.prec.PosDef)
    (hsc : ∀ f ∈ a.nlgs, v ∈ f.ys ∨ v ∈ f.xs) :
    ∃ m' r Rs F, multiply a m = .ok (m', r) ∧ IsNlgMix r Rs ∧ (∀ v, v ∈ r.vars ↔ v ∈ a.vars) ∧
      r.nlgs.length = 3 * a.nlgs.length ∧
      (∀ K, Respects K → ∀ x, value K r.nlgs Rs x = value K a.nlgs Ps x * F x) ∧ (Mix.IsMix m' [L] ∧ m'.vars = m.vars) ∧
      ∀ x, integrateOut [v] F x = 1 ∧ 0 < integrateOut [v] (fun z => Real.exp (L z)) x ∧
        ∀ k ≤ 2, IntegrableOut [v] (fun z => z v ^ k * F z) x ∧
        integrateOut [v] (fun z => z v ^ k * F z) x =
          integrateOut [v] (fun z => z v ^ k * Real.exp (L z)) x / integrateOut [v] (fun z => Real.exp (L z)) x := by
  obtain ⟨mv, comps, cm⟩ := m
  dsimp only at hvar
  subst hvar
  have hc := hm.comps
  dsimp only at hc hp
  cases hc with
  | cons hg hnil =>
    cases hnil
    rename_i g
    obtain ⟨n, g⟩ := g
    have hlen : g.vars.length = n := hg.good.len
    have hgv : g.vars = [v] := hg.vars
    rw [hgv] at hlen
    have hn : n = 1 := by
      rw [← hlen]
      rfl
    subst hn
    obtain ⟨hnv, g0, c, hcan, hpos⟩ := hp ⟨1, g⟩ (by simp)
    dsimp only at hnv hcan
    obtain ⟨v', g', p, q, r, P, Q, R, hv', hsplit, ⟨hd', hvars'⟩, ⟨dP, dQ, dR⟩, ⟨vP, vQ, vR⟩, hint⟩ :=
      C62_split_partial hg.made hg.den hcan hpos hnv
    have hvv : v' = v := by
      rw [hgv] at hv'
      simpa using hv'.symm
    subst hvv
    have hcovs : ∀ k ∈ [p, q, r], k.cov.isSome := by
      obtain ⟨gg, -, rfl⟩ := getCan_inv hg.made.inv hcan
      have hvac : g.vac = false := by
        unfold Gauss.isVacuous at hnv
        simp only [Bool.or_eq_false_iff] at hnv
        exact hnv.1
      rw [split_ok gg hpos hvac] at hsplit
      cases hsplit
      simp
    have hmade : ∀ k ∈ [p, q, r], Made k := fun k hk => .split hg.made hsplit hk
    have hF : List.Forall₂ (Mix.Comp [v']) ([p, q, r].map fun c => (⟨1, c⟩ : AnyG)) [P, Q, R] :=
      .cons ⟨hmade p (by simp), dP, vP⟩ (.cons ⟨hmade q (by simp), dQ, vQ⟩ (.cons ⟨hmade r (by simp), dR, vR⟩ .nil))
    obtain ⟨M, e1, hM, hMv, -, hMl⟩ := Mix.make_ok (by simp) hF
    have hvac := make_vac e1 (by
      intro k hk
      obtain ⟨c, hc, rfl⟩ := List.mem_map.1 hk
      exact hcovs c hc)
    obtain ⟨gs', rs, Qs, e, -, hr, hl, -, hK⟩ := mulAll_ok ha.comps (gv := [v']) (fun f hf => by simpa using hsc f hf)
      (hMv ▸ hM.comps) hvac
    have hne : rs ≠ [] := by
      rw [← List.length_pos_iff_ne_nil, hl, hMl]
      exact Nat.mul_pos (by simp) (List.length_pos_iff_ne_nil.2 ha.ne)
    obtain ⟨res, e2, hr2, -, hvs, hk, hK2⟩ := make_ok hne hr
    refine ⟨⟨[v'], [⟨1, g'⟩], cm⟩, res, Qs, fun x => Real.exp (P x) + Real.exp (Q x) + Real.exp (R x), ?_, hr2, hvs,
      ?_, fun K hR x => ?_, ⟨⟨by simp, .cons ⟨.split_self hg.made hsplit, hd', hvars'.trans hgv⟩ .nil⟩, rfl⟩, fun x => ?_⟩
    · unfold multiply splitSingle
      rw [if_pos ⟨hs, rfl⟩]
      dsimp only [bind, Except.bind]
      rw [hsplit]
      dsimp only
      rw [e1]
      dsimp only
      rw [e]
      dsimp only
      rw [e2]
    · rw [hk.length_eq, hl, hMl]
      rfl
    · rw [hK2 K hR x, hK K hR x]
      congr 1
      simp [Mix.mixFn, add_assoc]
    · have hpos' : 0 < integrateOut [v'] (fun z => Real.exp (L z)) x := by
        obtain ⟨gg, -, rfl⟩ := getCan_inv hg.made.inv hcan
        rw [hg.den.eq gg, ← hgv, (integrate_good gg hpos x).2]
        exact Real.exp_pos _
      have h0 := (hint 0 (by norm_num) x).2.2
      simp only [pow_zero, one_mul] at h0
      refine ⟨mul_right_cancel₀ hpos'.ne' (h0.trans (one_mul _).symm), hpos', fun k hk => ⟨(hint k hk x).1, ?_⟩⟩
      rw [eq_div_iff hpos'.ne']
      exact (hint k hk x).2.2

/-- **C90 is violated for Gaussian operands:** multiplying any mixture by any Gaussian raises `TypeError`, although
multiplying each component by it may return. -/
theorem C90_gaussian_raises (a : NlgMix) (g : AnyG) : multiplyG a g = .error .typeError := rfl

/-- **C90 is violated for operands that are split.** Under the hypotheses of `C90_split_partial`, unless the weight of the
operand is one, there is a point at which the value of the result is not the product, for every contribution `K` of
the components under which the value of the factor is nowhere zero. -/
theorem C90_violated {a : NlgMix} {Ps : List Parts} (ha : IsNlgMix a Ps) {m : Mix} {L : (Var → ℝ) → ℝ}
    (hm : Mix.IsMix m [L]) (hs : a.split = true) {v : Var} (hvar : m.vars = [v])
    (hp : ∀ g ∈ m.comps, g.2.isVacuous = false ∧ ∃ g0 c, g.2.getCan = .ok (g0, c) ∧ c.prec.PosDef)
    (hsc : ∀ f ∈ a.nlgs, v ∈ f.ys ∨ v ∈ f.xs) {x0 : Var → ℝ} (hw : integrateOut [v] (fun z => Real.exp (L z)) x0 ≠ 1) :
    ∃ m' r Rs, multiply a m = .ok (m', r) ∧ IsNlgMix r Rs ∧ ∀ K, Respects K → (∀ x, value K a.nlgs Ps x ≠ 0) →
      ∃ x, value K r.nlgs Rs x ≠ value K a.nlgs Ps x * Mix.mixFn [L] x := by
  obtain ⟨m', r, Rs, F, e, hr, -, -, hK, -, hint⟩ := C90_split_partial ha hm hs hvar hp hsc
  refine ⟨m', r, Rs, e, hr, fun K hR hne => ?_⟩
  by_contra hall
  push Not at hall
  apply hw
  rw [← (hint x0).1]
  congr 1
  funext x
  have := (hK K hR x).symm.trans (hall x)
  have := mul_left_cancel₀ (hne x) this
  simpa [Mix.mixFn] using this.symm

end Verif.NlgMix
