import Verif.NonLinDensity

/-!
# Helper lemmas for non-linear Gaussians: recomputing the joint
-/

namespace Verif.NLG
open Matrix Gauss Spec _root_.Verif.Fact _root_.Verif.Sigma

/-- A part: absent, or a Gaussian, after any history, over some of the variables of `scope`, with log potential `L`. -/
def Part (p : Option AnyG) (scope : List Var) (L : (Var → ℝ) → ℝ) : Prop :=
  match p with
  | none => ∀ x, L x = 0
  | some g => Den g (g.2.vars, L) ∧ ∀ v ∈ g.2.vars, v ∈ scope

/-- A Gaussian that can be copied. -/
structure Shape (j : AnyG) : Prop where
  nodup : j.2.vars.Nodup
  len : j.2.vars.length = j.1
  form : j.2.can.isSome ∨ j.2.cov.isSome

/-- A non-linear Gaussian with log potentials `U` of the conditional update factor and `C` of the conditioning
factor. -/
structure IsNLG (a : NLG) (U C : (Var → ℝ) → ℝ) : Prop where
  nodup : (a.xs ++ a.ys).Nodup
  q : a.ys.length = a.q
  upd : Part a.upd a.ys U
  cond : Part a.cond a.xs C
  joint : Shape a.joint
  ev : (Dict.keys a.ev).Nodup

/-- The conditioning factor and the evidence cover the conditioning variables. -/
def Covered (a : NLG) : Prop := ∀ v ∈ a.xs, v ∈ condVars a.cond ∨ v ∈ Dict.keys a.ev

/-- The conditioning factor has a variable that is not observed and is strictly concave in those. -/
structure Proper (a : NLG) (g : AnyG) (C : (Var → ℝ) → ℝ) : Prop where
  cond : a.cond = some g
  covered : Covered a
  free : ∃ v ∈ g.2.vars, v ∉ Dict.keys a.ev
  pos : PosOn (fun x => C (override a.ev x)) fun v => v ∈ g.2.vars ∧ v ∉ Dict.keys a.ev

theorem den_shape {j : AnyG} {i : Item} (h : Den j i) : Shape j := ⟨h.good.nodup, h.good.len, h.good.form⟩

theorem Shape.copy {j : AnyG} (h : Shape j) : ∃ k, Mix.copyG j = .ok k ∧ Shape k := by
  obtain ⟨n, ⟨vars, can, cov, vac⟩⟩ := j
  obtain ⟨h1, h2, h3⟩ := h
  dsimp only at h1 h2 h3
  unfold Mix.copyG Gauss.copy
  cases cov with
  | some v =>
    cases can with
    | some c => exact ⟨⟨n, ⟨vars, some c, some v, false⟩⟩, by simp [mkCov_ok h1 h2, bind, Except.bind], h1, h2, .inl rfl⟩
    | none => exact ⟨⟨n, ⟨vars, none, some v, false⟩⟩, by simp [mkCov_ok h1 h2, bind, Except.bind], h1, h2, .inr rfl⟩
  | none =>
    cases can with
    | some c =>
      exact ⟨⟨n, ⟨vars, some c, none, vacParams c.prec⟩⟩, by simp [mkCan_ok h1 h2, bind, Except.bind], h1, h2, .inl rfl⟩
    | none => simp at h3

theorem copyOpt_part {p : Option AnyG} {scope : List Var} {L : (Var → ℝ) → ℝ} (h : Part p scope L) :
    ∃ k, copyOpt p = .ok k ∧ Part k scope L ∧ condVars k = condVars p ∧ (k = none ↔ p = none) := by
  cases p with
  | none => exact ⟨none, rfl, h, rfl, Iff.rfl⟩
  | some g =>
    obtain ⟨k, hk, dk, hv⟩ := copyG_den h.1
    refine ⟨some k, ?_, ⟨hv ▸ dk, hv ▸ h.2⟩, hv, by simp⟩
    unfold copyOpt
    dsimp only [bind, Except.bind]
    rw [hk]

theorem copy_ok {a : NLG} {U C : (Var → ℝ) → ℝ} (h : IsNLG a U C) :
    ∃ j u c, copy a = .ok { a with joint := j, upd := u, cond := c } ∧
      IsNLG { a with joint := j, upd := u, cond := c } U C ∧ condVars c = condVars a.cond ∧ condVars u = condVars a.upd ∧
      (c = none ↔ a.cond = none) ∧ (u = none ↔ a.upd = none) := by
  obtain ⟨j, hj, sj⟩ := h.joint.copy
  obtain ⟨u, hu, pu, su, nu⟩ := copyOpt_part h.upd
  obtain ⟨c, hc, pc, sc, nc⟩ := copyOpt_part h.cond
  refine ⟨j, u, c, ?_, ⟨h.nodup, h.q, pu, pc, sj, h.ev⟩, sc, su, nc, nu⟩
  unfold copy make
  have g1 : pyGuard .valueError (decide (∀ v ∈ a.xs, v ∉ a.ys)) = .ok () := by
    have hd : ∀ v ∈ a.xs, v ∉ a.ys := fun v h1 h2 => (List.nodup_append.1 h.nodup).2.2 v h1 v h2 rfl
    rw [pyGuard, if_pos (decide_eq_true hd)]
  have g2 : pyGuard .valueError (decide (a.xs ++ a.ys).Nodup) = .ok () := by rw [pyGuard, if_pos (decide_eq_true h.nodup)]
  have g3 : pyGuard .valueError (decide (a.q = a.ys.length)) = .ok () := by rw [pyGuard, if_pos (decide_eq_true h.q.symm)]
  rw [g1, g2, g3]
  dsimp only [bind, Except.bind]
  rw [dif_pos rfl]
  rw [hc, hu]
  dsimp only [initJoint]
  rw [hj]

/-! ### The conditioning factor -/

theorem proper_cond (hs : HashSeed) {a : NLG} {U C : (Var → ℝ) → ℝ} (h : IsNLG a U C) {g : AnyG} (hp : Proper a g C) :
    ∃ (vars : List Var) (k : Gauss vars.length), reducedCond hs a.ev g = .ok ⟨_, k⟩ ∧ k.vars = vars ∧ Good k ∧
      Honest ⟨_, k⟩ ∧ (canOf k).prec.PosDef ∧ (∀ v, v ∈ vars ↔ v ∈ g.2.vars ∧ v ∉ Dict.keys a.ev) ∧
      (observedIn a.ev a.xs ++ vars).Perm a.xs ∧ vars ≠ [] ∧ Denotes k (fun x => C (override a.ev x)) := by
  have hc := h.cond
  rw [hp.cond] at hc
  obtain ⟨k, hk, hh, dk⟩ := reducedCond_den hs hc.1 hp.free
  obtain ⟨n, ⟨vars, can, cov, vac⟩⟩ := k
  have hl : vars.length = n := dk.good.len
  subst hl
  have hmem : ∀ v, v ∈ vars ↔ v ∈ g.2.vars ∧ v ∉ Dict.keys a.ev := by
    intro v
    rw [dk.vars v, List.mem_filter, decide_eq_true_eq]
  have hndx := (List.nodup_append.1 h.nodup).1
  refine ⟨vars, ⟨vars, can, cov, vac⟩, hk, rfl, dk.good, hh, ?_, hmem, ?_, ?_, dk.den⟩
  · refine posDef_logOf dk.good ?_
    rw [dk.good.denotes.unique dk.den]
    exact fun z hz hS => hp.pos z hz fun v hv => hS v fun hm => hv ((hmem v).1 hm)
  · have hnd : (observedIn a.ev a.xs ++ vars).Nodup := List.nodup_append.2 ⟨nodup_observedIn h.ev _, dk.good.nodup,
      fun v h1 w h2 e => ((hmem w).1 h2).2 (e ▸ (mem_observedIn.1 h1).2)⟩
    refine (List.perm_ext_iff_of_nodup hnd hndx).2 fun v => ?_
    rw [List.mem_append, mem_observedIn, hmem]
    constructor
    · rintro (h1 | h1)
      · exact h1.1
      · exact hc.2 v h1.1
    · intro hv
      by_cases hk' : v ∈ Dict.keys a.ev
      · exact .inl ⟨hv, hk'⟩
      · refine .inr ⟨?_, hk'⟩
        have := hp.covered v hv
        rw [hp.cond] at this
        exact this.resolve_right hk'
  · rintro rfl
    obtain ⟨v, h1, h2⟩ := hp.free
    exact absurd ((hmem v).2 ⟨h1, h2⟩) (by simp)

/-! ### The joint of conditioning and conditional variables -/

theorem nodup_names {a : NLG} {U C : (Var → ℝ) → ℝ} (h : IsNLG a U C) {obs vars : List Var} (hperm : (obs ++ vars).Perm a.xs) :
    (vars ++ a.ys).Nodup := by
  have hndx := hperm.nodup_iff.2 (List.nodup_append.1 h.nodup).1
  refine List.nodup_append.2 ⟨(List.nodup_append.1 hndx).2.1, (List.nodup_append.1 h.nodup).2.1, fun v h1 w h2 => ?_⟩
  exact (List.nodup_append.1 h.nodup).2.2 v (hperm.mem_iff.1 (List.mem_append_right _ h1)) w h2

theorem mkCov_den {names : List Var} (hn : names.Nodup) {v : CovF names.length} (hp : v.cov.PosDef) :
    Den ⟨_, ⟨names, none, some v, false⟩⟩ (names, fun x => evalCan (toCan v) (vecAt names rfl x)) :=
  ⟨.ofCov hp (mkCov_ok hn rfl), (good_mkCov hn rfl false (posDef_symm hp) hp.det_pos).denotes, fun _ => Iff.rfl⟩

theorem transformed_den {a : NLG} {U C : (Var → ℝ) → ℝ} (h : IsNLG a U C) (hys : a.ys ≠ []) (hN : a.noise.PosDef)
    {vars : List Var} {k : Gauss vars.length} (hkv : k.vars = vars) (hg : Good k) (hh : Honest ⟨_, k⟩)
    (hp : (canOf k).prec.PosDef) {obs : List Var} (ho : ∀ v ∈ obs, v ∈ Dict.keys a.ev) (hv : ∀ v ∈ vars, v ∉ Dict.keys a.ev)
    (hperm : (obs ++ vars).Perm a.xs) (hne : vars ≠ []) (hT : Total a.transform a.xs a.q) :
    ∃ j M, transformed a ⟨_, k⟩ obs (obs.map (val a.ev)) = .ok j ∧ Den j (vars ++ a.ys, M) ∧ j.2.vars = vars ++ a.ys := by
  obtain ⟨L, hL, key⟩ := transformed_eq h.nodup h.q hys hkv hg hh hp ho hv hperm hne
  obtain ⟨outs, h1, h2⟩ := hT _ hperm (((pointsOf (toCov (canOf k)).mean L).map (asgOf a.ev vars)).map
    fun x i => x (obs ++ vars)[i])
  rw [List.length_map, List.length_map] at h2
  have hnd := nodup_names h hperm
  refine ⟨_, _, key outs h1 h2, mkCov_den hnd ?_, rfl⟩
  refine jCov_posDef hnd _ _ h2 ?_ hN
  rw [pointsOf_cov, hL.prod]
  exact hL.posDef

/-- The function with the coefficients `A` and the constants `b`. -/
def affine {q : ℕ} (xs : List Var) (A : Fin q → Var → ℝ) (b : Fin q → ℝ) (z : Var → ℝ) (i : Fin q) : ℝ :=
  (xs.map fun v => A i v * z v).sum + b i

theorem affine_split {q : ℕ} {xs obs vars : List Var} (hperm : (obs ++ vars).Perm xs) (A : Fin q → Var → ℝ) (b : Fin q → ℝ)
    (w z : Var → ℝ) (hz : ∀ v ∈ obs, z v = w v) :
    affine xs A b z = (Matrix.of fun i (j : Fin vars.length) => A i vars[j]) *ᵥ vecAt vars rfl z +
      fun i => (obs.map fun v => A i v * w v).sum + b i := by
  funext i
  unfold affine
  rw [← (hperm.map _).sum_eq, List.map_append, List.sum_append, Pi.add_apply]
  have e1 : obs.map (fun v => A i v * z v) = obs.map fun v => A i v * w v :=
    List.map_congr_left fun v hv => by rw [hz v hv]
  have e2 : (vars.map fun v => A i v * z v).sum =
      ((Matrix.of fun i (j : Fin vars.length) => A i vars[j]) *ᵥ vecAt vars rfl z) i := by
    rw [mulVec, dotProduct, ← List.sum_ofFn]
    congr 1
    refine List.ext_getElem (by simp) fun n h1 h2 => ?_
    simp [vecAt]
  rw [e1, e2]
  ring

theorem transformed_affine {a : NLG} {U C : (Var → ℝ) → ℝ} (h : IsNLG a U C) (hys : a.ys ≠ []) (hN : a.noise.PosDef)
    {vars : List Var} {k : Gauss vars.length} (hkv : k.vars = vars) (hg : Good k) (hh : Honest ⟨_, k⟩)
    (hp : (canOf k).prec.PosDef) (hC : Denotes k (fun x => C (override a.ev x)))
    {obs : List Var} (ho : ∀ v ∈ obs, v ∈ Dict.keys a.ev) (hv : ∀ v ∈ vars, v ∉ Dict.keys a.ev)
    (hperm : (obs ++ vars).Perm a.xs) (hne : vars ≠ []) {A : Fin a.q → Var → ℝ} {b : Fin a.q → ℝ}
    (hT : Computes a.transform a.xs a.q (affine a.xs A b)) :
    ∃ j, transformed a ⟨_, k⟩ obs (obs.map (val a.ev)) = .ok j ∧ j.2.vars = vars ++ a.ys ∧
      Den j (vars ++ a.ys, fun x => a.lw + C (override a.ev x) +
        Real.log (normalDensity a.noise (affine a.xs A b (override a.ev x)) (vecAt a.ys h.q x))) := by
  obtain ⟨L, hL, key⟩ := transformed_eq h.nodup h.q hys hkv hg hh hp ho hv hperm hne
  have hnd := nodup_names h hperm
  have hndv := (List.nodup_append.1 hnd).1
  obtain ⟨A', hA'⟩ : ∃ A' : Matrix (Fin a.q) (Fin vars.length) ℝ, A' = Matrix.of fun i j => A i vars[j] := ⟨_, rfl⟩
  obtain ⟨b', hb'⟩ : ∃ b' : Fin a.q → ℝ, b' = fun i => (obs.map fun v => A i v * val a.ev v).sum + b i := ⟨_, rfl⟩
  have hsplit : ∀ x, affine a.xs A b (override a.ev x) = A' *ᵥ vecAt vars rfl x + b' := by
    intro x
    rw [affine_split hperm A b (val a.ev) _ fun v hv' => override_key (ho v hv') x, hA', hb']
    congr 2
    funext j
    unfold vecAt
    exact override_free (hv _ (List.getElem_mem _)) x
  have hasg : ∀ p, affine a.xs A b (asgOf a.ev vars p) = A' *ᵥ p + b' := by
    intro p
    unfold asgOf
    rw [hsplit]
    congr 2
    funext j
    exact entryV_get hndv rfl p j
  obtain ⟨pts, hpe⟩ : ∃ pts, pts = pointsOf (toCov (canOf k)).mean L := ⟨_, rfl⟩
  have h1 := hT _ hperm (pts.map (asgOf a.ev vars))
  rw [List.map_map (f := asgOf a.ev vars) (g := affine a.xs A b)] at h1
  have h2 : List.map (affine a.xs A b ∘ asgOf a.ev vars) pts = pts.map fun p => A' *ᵥ p + b' :=
    List.map_congr_left fun p _ => hasg p
  rw [h2] at h1
  have hlen : (pts.map fun p => A' *ᵥ p + b').length = pts.length := List.length_map ..
  rw [hpe] at h1 hlen
  have hcov : (covOf (pointsOf (toCov (canOf k)).mean L)).PosDef := by
    rw [pointsOf_cov, hL.prod]
    exact hL.posDef
  have hJ := jCov_posDef hnd h.q (by simp [h.q]) hlen hcov hN
  refine ⟨_, key _ h1 hlen, rfl, (mkCov_den hnd hJ).congr (fun _ => Iff.rfl) fun x => ?_⟩
  dsimp only
  apply Real.exp_injective
  rw [exp_evalCan_toCan hJ]
  dsimp only
  have hS : (L * Lᵀ).PosDef := by
    rw [hL.prod]
    exact hL.posDef
  have hd := joint_density (m := (toCov (canOf k)).mean) hnd h.q (by simp [h.q]) hS hN A' b' x
  dsimp only at hd
  rw [hd, Real.exp_add, Real.exp_add, Real.exp_log (normalDensity_pos hN _ _), Real.exp_add, hsplit]
  have hk : C (override a.ev x) = evalCan (toCan (toCov (canOf k))) (vecAt vars rfl x) := by
    have e := congrFun (hC.unique hg.denotes) x
    rw [e, toCan_toCov hp.det_pos]
    unfold logOf
    congr 1
    funext i
    unfold vecAt
    simp only [hkv]
  rw [hk, exp_evalCan_toCan hp.inv, hL.prod]
  ring

/-! ### The update factor and the evidence about conditional variables -/

theorem applyUpdate_ok {j : AnyG} {vs ys : List Var} {M U : (Var → ℝ) → ℝ} (hj : Den j (vs, M)) {p : Option AnyG}
    (hp : Part p ys U) (hsub : ∀ v ∈ ys, v ∈ vs) :
    ∃ u r, applyUpdate j p = .ok (u, r) ∧ Part u ys U ∧ condVars u = condVars p ∧ (u = none ↔ p = none) ∧
      Den r (vs, fun x => M x + U x) := by
  cases p with
  | none => exact ⟨none, j, rfl, hp, rfl, Iff.rfl, hj.congr (fun _ => Iff.rfl) fun x => by simp [hp x]⟩
  | some u =>
    obtain ⟨f', g', r, e, -, dg, dr⟩ := multiply_den hj hp.1
    have hgv : g'.vars = u.2.vars := by
      unfold Gauss.multiply at e
      rw [absorbOrCancel_valid _ hj.good.toValid hp.1.good.toValid] at e
      cases e
      rfl
    refine ⟨some ⟨_, g'⟩, ⟨_, r⟩, ?_, ⟨?_, ?_⟩, hgv, by simp, dr.congr (fun v => ?_) fun x => rfl⟩
    · unfold applyUpdate
      dsimp only [bind, Except.bind]
      rw [e]
    · dsimp only
      rw [hgv]
      exact dg
    · dsimp only
      rw [hgv]
      exact hp.2
    · dsimp only
      rw [List.mem_append]
      exact ⟨fun hv => hv.elim id fun hv => hsub v (hp.2 v hv), .inl⟩

theorem applyEvidence_ok {j : AnyG} {vs : List Var} {M : (Var → ℝ) → ℝ} (hj : Den j (vs, M)) {ev : Dict Var ℝ}
    (hev : (Dict.keys ev).Nodup) {ys : List Var} (hsub : ∀ v ∈ ys, v ∈ vs) (hfree : ∃ v ∈ vs, v ∉ Dict.keys ev)
    (hall : ∀ v ∈ vs, v ∈ Dict.keys ev → v ∈ ys) :
    ∃ r, applyEvidence j (observedIn ev ys) ((observedIn ev ys).map (val ev)) = .ok r ∧
      Den r (vs.filter (· ∉ Dict.keys ev), fun x => M (override ev x)) := by
  unfold applyEvidence
  by_cases he : observedIn ev ys = []
  · rw [if_pos he]
    have hno : ∀ v ∈ vs, v ∉ Dict.keys ev := fun v hv hk => by
      have := mem_observedIn.2 ⟨hall v hv hk, hk⟩
      rw [he] at this
      simp at this
    refine ⟨j, rfl, hj.congr (fun v => ?_) fun x => den_local hj fun v hv => ?_⟩
    · rw [List.mem_filter, decide_eq_true_eq]
      exact ⟨fun h => ⟨h, hno v h⟩, fun h => h.1⟩
    · exact (override_free (hno v ((hj.vars v).1 hv)) x).symm
  · rw [if_neg he]
    obtain ⟨u, hu1, hu2⟩ := hfree
    obtain ⟨g', r, hr, -, hd⟩ := reduce_den hj (nodup_observedIn hev ys)
      (fun v hv => (hj.vars v).2 (hsub v (mem_observedIn.1 hv).1)) (fun v hv => (mem_observedIn.1 hv).2)
      ⟨u, (hj.vars u).2 hu1, fun hm => hu2 (mem_observedIn.1 hm).2⟩
      fun v hv hk => mem_observedIn.2 ⟨hall v ((hj.vars v).1 hv) hk, hk⟩
    rw [hr]
    exact ⟨r, rfl, hd⟩

theorem override_twice (ev : Dict Var ℝ) (x : Var → ℝ) : override ev (override ev x) = override ev x := by
  funext v
  by_cases h : v ∈ Dict.keys ev
  · rw [override_key h, override_key h]
  · rw [override_free h]

/-! ### Recomputing -/

theorem covered_iff {a : NLG} {U C : (Var → ℝ) → ℝ} (h : IsNLG a U C) :
    sameSet (condVars a.cond ++ observedIn a.ev a.xs) a.xs = true ↔ Covered a := by
  rw [sameSet_iff]
  unfold Covered
  have hsub : ∀ v ∈ condVars a.cond, v ∈ a.xs := by
    have := h.cond
    cases hc : a.cond with
    | none => simp [condVars]
    | some g =>
      rw [hc] at this
      exact this.2
  constructor
  · intro hh v hv
    have := (hh v).2 hv
    rw [List.mem_append, mem_observedIn] at this
    exact this.imp id fun h => h.2
  · intro hh v
    rw [List.mem_append, mem_observedIn]
    constructor
    · rintro (h1 | h1)
      · exact hsub v h1
      · exact h1.1
    · intro hv
      exact (hh v hv).imp id fun h => ⟨hv, h⟩

/-- What is computed once the evidence has been looked up. -/
theorem recompute_eq (hs : HashSeed) (a : NLG) :
    recompute hs a = (if ¬ sameSet (condVars a.cond ++ observedIn a.ev a.xs) a.xs then do
        let v ← makeVacuous a.vars
        .ok { a with joint := ⟨_, v⟩ }
      else match a.cond with
      | none => .error .unboundLocalError
      | some g => do
        let k ← reducedCond hs a.ev g
        let j ← transformed a k (observedIn a.ev a.xs) ((observedIn a.ev a.xs).map (val a.ev))
        let (u, j) ← applyUpdate j a.upd
        let j ← applyEvidence j (observedIn a.ev a.ys) ((observedIn a.ev a.ys).map (val a.ev))
        .ok { a with joint := j, upd := u }) := by
  have h1 : ∀ vs, (observedIn a.ev vs).mapM (Dict.getItem a.ev) = .ok ((observedIn a.ev vs).map (val a.ev)) :=
    fun vs => mapM_val fun v hv => (mem_observedIn.1 hv).2
  unfold recompute
  dsimp only
  rw [h1, h1]
  rfl

theorem recompute_uncovered (hs : HashSeed) {a : NLG} {U C : (Var → ℝ) → ℝ} (h : IsNLG a U C) (hc : ¬ Covered a) :
    recompute hs a = .ok { a with joint := ⟨a.vars.length, ⟨a.vars, some ⟨0, 0, 0⟩, none, true⟩⟩ } := by
  rw [recompute_eq, if_pos fun h' => hc ((covered_iff h).1 h')]
  unfold makeVacuous
  rw [mkCan_ok (vars := a.vars) h.nodup rfl]
  have hne : a.vars ≠ [] := by
    intro he
    apply hc
    intro v hv
    have : v ∈ a.vars := List.mem_append_left _ hv
    rw [he] at this
    simp at this
  have hvac := vacParams_zero (List.length_pos_of_ne_nil hne)
  dsimp only [bind, Except.bind]
  rw [hvac]

/-- The joint, given what is computed for conditioning and conditional variables. -/
theorem recompute_proper (hs : HashSeed) {a : NLG} {U C : (Var → ℝ) → ℝ} (h : IsNLG a U C) {g : AnyG} (hp : Proper a g C)
    {vars : List Var} {k : Gauss vars.length} (hk : reducedCond hs a.ev g = .ok ⟨_, k⟩)
    (hmem : ∀ v, v ∈ vars ↔ v ∈ g.2.vars ∧ v ∉ Dict.keys a.ev) {j : AnyG} {M : (Var → ℝ) → ℝ}
    (hj : transformed a ⟨_, k⟩ (observedIn a.ev a.xs) ((observedIn a.ev a.xs).map (val a.ev)) = .ok j)
    (dj : Den j (vars ++ a.ys, M)) :
    ∃ u r, recompute hs a = .ok { a with joint := r, upd := u } ∧ IsNLG { a with joint := r, upd := u } U C ∧
      condVars u = condVars a.upd ∧ (u = none ↔ a.upd = none) ∧
      Den r (a.vars.filter (· ∉ Dict.keys a.ev), fun x => M (override a.ev x) + U (override a.ev x)) := by
  obtain ⟨u, r, hu, pu, su, nu, dr⟩ := applyUpdate_ok dj h.upd fun v hv => List.mem_append_right _ hv
  obtain ⟨w, hw1, hw2⟩ := hp.free
  obtain ⟨r', hr', dr'⟩ := applyEvidence_ok dr h.ev (ys := a.ys) (fun v hv => List.mem_append_right _ hv)
    ⟨w, List.mem_append_left _ ((hmem w).2 ⟨hw1, hw2⟩), hw2⟩ fun v hv hk' =>
      (List.mem_append.1 hv).resolve_left fun h1 => ((hmem v).1 h1).2 hk'
  refine ⟨u, r', ?_, ⟨h.nodup, h.q, pu, h.cond, den_shape dr', h.ev⟩, su, nu, dr'.congr (fun v => ?_) fun x => rfl⟩
  · rw [recompute_eq, if_neg (not_not.2 ((covered_iff h).2 hp.covered)), hp.cond]
    dsimp only [bind, Except.bind]
    rw [hk]
    dsimp only
    rw [hj]
    dsimp only
    rw [hu]
    dsimp only
    rw [hr']
  · dsimp only
    rw [List.mem_filter, List.mem_filter, decide_eq_true_eq, List.mem_append, NLG.vars, List.mem_append]
    refine and_congr_left fun hk' => or_congr_left' fun _ => ?_
    rw [hmem]
    have hc := h.cond
    rw [hp.cond] at hc
    refine ⟨fun h1 => hc.2 v h1.1, fun hv => ⟨?_, hk'⟩⟩
    have := hp.covered v hv
    rw [hp.cond] at this
    exact this.resolve_right hk'

end Verif.NLG
