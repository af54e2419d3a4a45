import Verif.NonLinState

/-!
# Helper lemmas for non-linear Gaussians: multiplication and division
-/

namespace Verif.NLG
open Matrix Gauss Spec _root_.Verif.Fact _root_.Verif.Sigma

/-! ### What is known of any result -/

theorem shape_mkCan {n : ℕ} {vars : List Var} {c : Can n} {r : Gauss n} (h : mkCan vars c = .ok r) : Shape ⟨n, r⟩ := by
  obtain ⟨h1, h2, rfl⟩ := mkCan_eq_ok h
  exact ⟨h1, h2, .inl rfl⟩

theorem shape_mkCov {n : ℕ} {vars : List Var} {v : CovF n} {r : Gauss n} (h : mkCov vars v = .ok r) : Shape ⟨n, r⟩ := by
  obtain ⟨h1, h2, rfl⟩ := mkCov_eq_ok h
  exact ⟨h1, h2, .inr rfl⟩

theorem shape_transformed {a : NLG} {k : AnyG} {obs : List Var} {vals : List ℝ} {j : AnyG}
    (h : transformed a k obs vals = .ok j) : Shape j := by
  unfold transformed at h
  obtain ⟨⟨k', p⟩, -, h⟩ := py_bind_eq_ok.1 h
  dsimp only at h
  obtain ⟨⟨n, ⟨J, shape⟩, μ⟩, -, h⟩ := py_bind_eq_ok.1 h
  dsimp only at h
  obtain ⟨-, -, h⟩ := py_bind_eq_ok.1 h
  obtain ⟨⟨C, m⟩, -, h⟩ := py_bind_eq_ok.1 h
  dsimp only at h
  obtain ⟨w, -, h⟩ := py_bind_eq_ok.1 h
  unfold withNoise at h
  obtain ⟨C', -, h⟩ := py_bind_eq_ok.1 h
  obtain ⟨m', -, h⟩ := py_bind_eq_ok.1 h
  obtain ⟨r, hr, h⟩ := py_bind_eq_ok.1 h
  cases h
  exact shape_mkCov hr

theorem applyUpdate_inv {j : AnyG} {p u : Option AnyG} {r : AnyG} {scope : List Var} {L : (Var → ℝ) → ℝ}
    (h : applyUpdate j p = .ok (u, r)) (hj : Shape j) (hp : Part p scope L) :
    Shape r ∧ Part u scope L ∧ condVars u = condVars p ∧ (u = none ↔ p = none) := by
  cases p with
  | none =>
    cases h
    exact ⟨hj, hp, rfl, Iff.rfl⟩
  | some g =>
    unfold applyUpdate Gauss.multiply absorbOrCancel at h
    dsimp only at h
    obtain ⟨⟨a', u', r'⟩, h1, h2⟩ := py_bind_eq_ok.1 h
    obtain ⟨⟨b', cb⟩, -, h1⟩ := py_bind_eq_ok.1 h1
    dsimp only at h1
    obtain ⟨⟨g', cg⟩, h3, h1⟩ := py_bind_eq_ok.1 h1
    dsimp only at h1
    obtain ⟨prec, -, h1⟩ := py_bind_eq_ok.1 h1
    obtain ⟨hv, -, h1⟩ := py_bind_eq_ok.1 h1
    obtain ⟨m, hm, h1⟩ := py_bind_eq_ok.1 h1
    cases h1
    cases h2
    have hg := hp.1.good
    rw [getCan_valid hg.toValid] at h3
    cases h3
    exact ⟨shape_mkCan hm, ⟨⟨.getCan hp.1.made (getCan_valid hg.toValid), denotes_of_canOf hg (good_can hg) rfl rfl hp.1.den,
      fun _ => Iff.rfl⟩, hp.2⟩, rfl, by simp⟩

theorem applyEvidence_inv {j r : AnyG} {obs : List Var} {vals : List ℝ} (h : applyEvidence j obs vals = .ok r)
    (hj : Shape j) : Shape r := by
  unfold applyEvidence at h
  split at h
  · cases h
    exact hj
  · obtain ⟨⟨g', r'⟩, h1, h2⟩ := py_bind_eq_ok.1 h
    cases h2
    unfold Gauss.reduce at h1
    obtain ⟨-, -, h1⟩ := py_bind_eq_ok.1 h1
    obtain ⟨yy, -, h1⟩ := py_bind_eq_ok.1 h1
    obtain ⟨xx, -, h1⟩ := py_bind_eq_ok.1 h1
    obtain ⟨⟨b', c⟩, -, h1⟩ := py_bind_eq_ok.1 h1
    dsimp only at h1
    obtain ⟨y, -, h1⟩ := py_bind_eq_ok.1 h1
    split at h1
    · obtain ⟨r, hr, h1⟩ := py_bind_eq_ok.1 h1
      cases h1
      exact shape_mkCan hr
    · obtain ⟨r, hr, h1⟩ := py_bind_eq_ok.1 h1
      cases h1
      exact shape_mkCan hr

theorem recompute_inv {hs : HashSeed} {a r : NLG} {U C : (Var → ℝ) → ℝ} (h : IsNLG a U C) (hr : recompute hs a = .ok r) :
    ∃ j u, r = { a with joint := j, upd := u } ∧ IsNLG { a with joint := j, upd := u } U C ∧
      condVars u = condVars a.upd ∧ (u = none ↔ a.upd = none) := by
  by_cases hc : Covered a
  · rw [recompute_eq, if_neg (not_not.2 ((covered_iff h).2 hc))] at hr
    have hpc := h.cond
    cases hcond : a.cond with
    | none => rw [hcond] at hr; cases hr
    | some g =>
      rw [hcond] at hr hpc
      dsimp only at hr
      obtain ⟨k, hk, hr⟩ := py_bind_eq_ok.1 hr
      obtain ⟨j, hj, hr⟩ := py_bind_eq_ok.1 hr
      obtain ⟨⟨u, j2⟩, hu, hr⟩ := py_bind_eq_ok.1 hr
      dsimp only at hr
      obtain ⟨j3, he, hr⟩ := py_bind_eq_ok.1 hr
      cases hr
      obtain ⟨s2, pu, vu, nu⟩ := applyUpdate_inv hu (shape_transformed hj) h.upd
      exact ⟨j3, u, by rw [← hcond], ⟨h.nodup, h.q, pu, hpc, applyEvidence_inv he s2, h.ev⟩, vu, nu⟩
  · rw [recompute_uncovered hs h hc] at hr
    cases hr
    exact ⟨_, a.upd, rfl, ⟨h.nodup, h.q, h.upd, h.cond, ⟨h.nodup, rfl, .inl rfl⟩, h.ev⟩, rfl, Iff.rfl⟩

/-! ### The parts -/

theorem mulPart_ok {p : Option AnyG} {scope : List Var} {L G : (Var → ℝ) → ℝ} (hp : Part p scope L) {g : AnyG}
    (hg : Den g (g.2.vars, G)) (hsub : ∀ v ∈ g.2.vars, v ∈ scope) :
    ∃ g' r, mulPart g p = .ok (g', some r) ∧ Part (some r) scope (fun x => L x + G x) ∧ Den g' (g.2.vars, G) ∧
      g'.2.vars = g.2.vars ∧ g'.2.vac = g.2.vac ∧ ∀ v, v ∈ r.2.vars ↔ v ∈ condVars p ∨ v ∈ g.2.vars := by
  cases p with
  | none =>
    obtain ⟨k, hk, dk, hv⟩ := copyG_den hg
    refine ⟨g, k, ?_, ⟨?_, hv ▸ hsub⟩, hg, rfl, rfl, fun v => by rw [hv]; simp [condVars]⟩
    · unfold mulPart
      dsimp only [bind, Except.bind]
      rw [hk]
    · exact (hv ▸ dk : Den k (k.2.vars, G)).congr (fun _ => Iff.rfl) fun x => by simp [hp x]
  | some f =>
    obtain ⟨f', g', r, e, -, dg, dr⟩ := multiply_den hp.1 hg
    have hgv : g' = ⟨g.2.vars, some (canOf g.2), g.2.cov, g.2.vac⟩ := by
      unfold Gauss.multiply at e
      rw [absorbOrCancel_valid _ hp.1.good.toValid hg.good.toValid] at e
      cases e
      rfl
    refine ⟨⟨_, g'⟩, ⟨_, r⟩, ?_, ⟨dr.congr (fun v => (dr.vars v).symm) fun x => rfl, fun v hv => ?_⟩, dg, ?_, ?_, fun v => ?_⟩
    · unfold mulPart
      dsimp only [bind, Except.bind]
      rw [e]
    · exact (List.mem_append.1 ((dr.vars v).1 hv)).elim (hp.2 v) (hsub v)
    · rw [hgv]
    · rw [hgv]
    · rw [dr.vars v, List.mem_append]
      rfl

theorem divPart_ok (e : PyErr) {p : AnyG} {scope : List Var} {L G : (Var → ℝ) → ℝ} (hp : Part (some p) scope L) {g : AnyG}
    (hg : Den g (g.2.vars, G)) (hsub : ∀ v ∈ g.2.vars, v ∈ scope) :
    ∃ g' r, divPart e g (some p) = .ok (g', some r) ∧ Part (some r) scope (fun x => L x - G x) ∧ Den g' (g.2.vars, G) ∧
      g'.2.vars = g.2.vars ∧ g'.2.vac = g.2.vac ∧ (∀ v, v ∈ r.2.vars ↔ v ∈ p.2.vars ∨ v ∈ g.2.vars) ∧ r.2.cov = none := by
  obtain ⟨f', g', r, e', -, dg, dr⟩ := divide_den hp.1 hg
  have hgv : g' = ⟨g.2.vars, some (canOf g.2), g.2.cov, g.2.vac⟩ ∧ r.cov = none := by
    unfold Gauss.divide at e'
    rw [absorbOrCancel_valid _ hp.1.good.toValid hg.good.toValid] at e'
    cases e'
    exact ⟨rfl, rfl⟩
  refine ⟨⟨_, g'⟩, ⟨_, r⟩, ?_, ⟨dr.congr (fun v => (dr.vars v).symm) fun x => rfl, fun v hv => ?_⟩, dg, ?_, ?_, fun v => ?_, hgv.2⟩
  · unfold divPart
    dsimp only [bind, Except.bind]
    rw [e']
  · exact (List.mem_append.1 ((dr.vars v).1 hv)).elim (hp.2 v) (hsub v)
  · rw [hgv.1]
  · rw [hgv.1]
  · rw [dr.vars v, List.mem_append]

/-! ### The flag of the joint -/

theorem honest_mkCan {n : ℕ} {vars : List Var} {c : Can n} {r : Gauss n} (h : mkCan vars c = .ok r) : Honest ⟨n, r⟩ := by
  obtain ⟨h1, h2, rfl⟩ := mkCan_eq_ok h
  exact id

theorem honest_mkCov {n : ℕ} {vars : List Var} {v : CovF n} {r : Gauss n} (h : mkCov vars v = .ok r) : Honest ⟨n, r⟩ := by
  obtain ⟨h1, h2, rfl⟩ := mkCov_eq_ok h
  intro h
  cases h

theorem honest_transformed {a : NLG} {k : AnyG} {obs : List Var} {vals : List ℝ} {j : AnyG}
    (h : transformed a k obs vals = .ok j) : Honest j := by
  unfold transformed at h
  obtain ⟨⟨k', p⟩, -, h⟩ := py_bind_eq_ok.1 h
  dsimp only at h
  obtain ⟨⟨n, ⟨J, shape⟩, μ⟩, -, h⟩ := py_bind_eq_ok.1 h
  dsimp only at h
  obtain ⟨-, -, h⟩ := py_bind_eq_ok.1 h
  obtain ⟨⟨C, m⟩, -, h⟩ := py_bind_eq_ok.1 h
  dsimp only at h
  obtain ⟨w, -, h⟩ := py_bind_eq_ok.1 h
  unfold withNoise at h
  obtain ⟨C', -, h⟩ := py_bind_eq_ok.1 h
  obtain ⟨m', -, h⟩ := py_bind_eq_ok.1 h
  obtain ⟨r, hr, h⟩ := py_bind_eq_ok.1 h
  cases h
  exact honest_mkCov hr

theorem honest_update {j : AnyG} {p u : Option AnyG} {r : AnyG} (h : applyUpdate j p = .ok (u, r)) (hj : Honest j) :
    Honest r := by
  cases p with
  | none =>
    cases h
    exact hj
  | some g =>
    unfold applyUpdate Gauss.multiply absorbOrCancel at h
    dsimp only at h
    obtain ⟨⟨a', u', r'⟩, h1, h2⟩ := py_bind_eq_ok.1 h
    obtain ⟨⟨b', cb⟩, -, h1⟩ := py_bind_eq_ok.1 h1
    dsimp only at h1
    obtain ⟨⟨g', cg⟩, h3, h1⟩ := py_bind_eq_ok.1 h1
    dsimp only at h1
    obtain ⟨prec, -, h1⟩ := py_bind_eq_ok.1 h1
    obtain ⟨hv, -, h1⟩ := py_bind_eq_ok.1 h1
    obtain ⟨m, hm, h1⟩ := py_bind_eq_ok.1 h1
    cases h1
    cases h2
    exact honest_mkCan hm

theorem honest_evidence {j r : AnyG} {obs : List Var} {vals : List ℝ} (h : applyEvidence j obs vals = .ok r)
    (hj : Honest j) : Honest r := by
  unfold applyEvidence at h
  split at h
  · cases h
    exact hj
  · obtain ⟨⟨g', r'⟩, h1, h2⟩ := py_bind_eq_ok.1 h
    cases h2
    unfold Gauss.reduce at h1
    obtain ⟨-, -, h1⟩ := py_bind_eq_ok.1 h1
    obtain ⟨yy, -, h1⟩ := py_bind_eq_ok.1 h1
    obtain ⟨xx, -, h1⟩ := py_bind_eq_ok.1 h1
    obtain ⟨⟨b', c⟩, -, h1⟩ := py_bind_eq_ok.1 h1
    dsimp only at h1
    obtain ⟨y, -, h1⟩ := py_bind_eq_ok.1 h1
    split at h1
    · obtain ⟨r, hr, h1⟩ := py_bind_eq_ok.1 h1
      cases h1
      exact honest_mkCan hr
    · obtain ⟨r, hr, h1⟩ := py_bind_eq_ok.1 h1
      cases h1
      exact honest_mkCan hr

theorem recompute_honest {hs : HashSeed} {a r : NLG} {U C : (Var → ℝ) → ℝ} (h : IsNLG a U C) (hc : Covered a)
    (hr : recompute hs a = .ok r) : Honest r.joint := by
  rw [recompute_eq, if_neg (not_not.2 ((covered_iff h).2 hc))] at hr
  cases hcond : a.cond with
  | none => rw [hcond] at hr; cases hr
  | some g =>
    rw [hcond] at hr
    dsimp only at hr
    obtain ⟨k, hk, hr⟩ := py_bind_eq_ok.1 hr
    obtain ⟨j, hj, hr⟩ := py_bind_eq_ok.1 hr
    obtain ⟨⟨u, j2⟩, hu, hr⟩ := py_bind_eq_ok.1 hr
    dsimp only at hr
    obtain ⟨j3, he, hr⟩ := py_bind_eq_ok.1 hr
    cases hr
    exact honest_evidence he (honest_update hu (honest_transformed hj))

/-! ### More evidence -/

/-- A Gaussian that is strictly concave in some variables at some evidence is so at any other evidence. -/
theorem posOn_evidence {g : AnyG} {i : Item} (hg : Den g i) {ev ev' : Dict Var ℝ} {S S' : Var → Prop}
    (h : PosOn (fun x => i.2 (override ev x)) S) (hS : ∀ v, S' v → S v) (hk : ∀ v, S v → v ∉ Dict.keys ev)
    (hk' : ∀ v, S' v → v ∉ Dict.keys ev') : PosOn (fun x => i.2 (override ev' x)) S' := by
  have hL := hg.den.eq hg.good
  have key : ∀ (e : Dict Var ℝ) (z : Var → ℝ), (∀ v ∈ Dict.keys e, z v = 0) →
      i.2 (override e z) + i.2 (override e (-z)) - 2 * i.2 (override e 0) =
        -(vecAt g.2.vars hg.good.len z ⬝ᵥ (canOf g.2).prec *ᵥ vecAt g.2.vars hg.good.len z) := by
    intro e z hz
    have e1 : override e z = override e 0 + z := by
      funext v
      by_cases hv : v ∈ Dict.keys e
      · rw [override_key hv, Pi.add_apply, override_key hv, hz v hv, add_zero]
      · rw [override_free hv, Pi.add_apply, override_free hv, Pi.zero_apply, zero_add]
    have e2 : override e (-z) = override e 0 + -z := by
      funext v
      by_cases hv : v ∈ Dict.keys e
      · rw [override_key hv, Pi.add_apply, override_key hv, Pi.neg_apply, hz v hv, neg_zero, add_zero]
      · rw [override_free hv, Pi.add_apply, override_free hv, Pi.zero_apply, zero_add]
    have c1 := curv_logOf hg.good (override e 0) z
    have c2 := curv_logOf hg.good (override e 0) (-z)
    have c3 := curv_logOf hg.good z (-z)
    rw [← hL] at c1 c2 c3
    unfold curv at c1 c2 c3
    rw [add_neg_cancel] at c3
    simp only [vecAt_neg, mulVec_neg, dotProduct_neg, neg_neg] at c1 c2 c3
    rw [e1, e2]
    linarith
  intro z hz hzS
  have h1 := h z hz fun v hv => hzS v fun h' => hv (hS v h')
  have k1 := key ev z fun v hv => hzS v fun h' => hk v (hS v h') hv
  have k2 := key ev' z fun v hv => hzS v fun h' => hk' v h' hv
  dsimp only at h1 ⊢
  linarith

theorem keys_append (a b : Dict Var ℝ) : Dict.keys (a ++ b) = Dict.keys a ++ Dict.keys b := List.map_append ..

theorem override_append (a b : Dict Var ℝ) (x : Var → ℝ) :
    override (a ++ b) x = override a (override b x) := by
  funext v
  unfold override
  rw [List.find?_append]
  cases List.find? (fun e => decide (e.1 = v)) a <;> rfl

theorem reduce_ok {a : NLG} {U C : (Var → ℝ) → ℝ} (h : IsNLG a U C) {vrs : List Var} {vals : List ℝ}
    (hn : vrs.Nodup) (hl : vals.length = vrs.length) (hd : ∀ v ∈ vrs, v ∉ Dict.keys a.ev) :
    ∃ j u c, reduce a vrs vals = .ok { a with joint := j, upd := u, cond := c, ev := a.ev ++ vrs.zip vals } ∧
      IsNLG { a with joint := j, upd := u, cond := c, ev := a.ev ++ vrs.zip vals } U C ∧ condVars c = condVars a.cond ∧
      (c = none ↔ a.cond = none) := by
  obtain ⟨j, u, c, e, hi, sc, -, nc, -⟩ := copy_ok h
  have hz : (vrs.zip vals).map Prod.fst = vrs := List.map_fst_zip hl.ge
  have hkn : (Dict.keys a.ev ++ (vrs.zip vals).map Prod.fst).Nodup := by
    rw [hz]
    exact List.nodup_append.2 ⟨h.ev, hn, fun v h1 w h2 e => hd w h2 (e ▸ h1)⟩
  have hm : Dict.merge a.ev (Dict.ofPairs (vrs.zip vals)) = a.ev ++ vrs.zip vals := by
    rw [Dict.ofPairs_eq (by rw [hz]; exact hn), Dict.merge, Dict.foldl_set_eq_append hkn]
  refine ⟨j, u, c, ?_, ⟨h.nodup, h.q, hi.upd, hi.cond, hi.joint, ?_⟩, sc, nc⟩
  · unfold reduce
    rw [e, py_bind_ok]
    dsimp only
    rw [hm]
  · dsimp only
    rw [keys_append]
    exact hkn

end Verif.NLG
