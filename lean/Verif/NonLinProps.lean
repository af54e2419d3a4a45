import Verif.NonLinState
import Verif.FactProps5

/-!
# Properties of non-linear Gaussians (C72, C84)

The theorems are about every non-linear Gaussian whose parts are Gaussians a program can hold after any history
(`IsNLG a U C`: `U` and `C` are the log potentials of the conditional update factor and of the conditioning factor).
-/

namespace Verif.NLG
open Matrix Gauss Spec _root_.Verif.Fact _root_.Verif.Sigma

/-! ### C72 -/

theorem proper_copy {a : NLG} {C : (Var → ℝ) → ℝ} {g : AnyG} (hp : Proper a g C) {j : AnyG} {u c : Option AnyG}
    (hc : condVars c = condVars a.cond) (hn : c = none ↔ a.cond = none) :
    ∃ g', Proper { a with joint := j, upd := u, cond := c } g' C := by
  have h1 := hp.cond
  cases c with
  | none =>
    have := hn.1 rfl
    rw [h1] at this
    cases this
  | some g' =>
    rw [h1] at hc
    have hv : g'.2.vars = g.2.vars := hc
    refine ⟨g', rfl, fun v hv' => ?_, ?_, ?_⟩
    · have := hp.covered v hv'
      rw [h1] at this
      dsimp only [condVars] at this ⊢
      rwa [hv]
    · rw [hv]
      exact hp.free
    · rw [hv]
      exact hp.pos

/-- **C72, the joint is vacuous.** If the conditioning factor and the evidence do not cover the conditioning variables,
the joint distribution is the vacuous factor over all the variables. (Evidence and update factor do not appear in
it.) -/
theorem C72_vacuous (hs : HashSeed) {a : NLG} {U C : (Var → ℝ) → ℝ} (h : IsNLG a U C)
    (hc : ∃ v ∈ a.xs, v ∉ condVars a.cond ∧ v ∉ Dict.keys a.ev) :
    ∃ j, jointDistribution hs a = .ok j ∧ j.2.vac = true ∧ j.2.vars = a.vars ∧ Denotes j.2 fun _ => 0 := by
  obtain ⟨j, u, c, e, hi, sc, su, nc, nu⟩ := copy_ok h
  have hnc : ¬ Covered { a with joint := j, upd := u, cond := c } := by
    obtain ⟨v, h1, h2, h3⟩ := hc
    intro h'
    rcases h' v h1 with h4 | h4
    · dsimp only at h4
      exact h2 (sc ▸ h4)
    · exact h3 h4
  refine ⟨⟨a.vars.length, ⟨a.vars, some ⟨0, 0, 0⟩, none, true⟩⟩, ?_, rfl, rfl, ?_⟩
  · unfold jointDistribution
    rw [e]
    dsimp only [bind, Except.bind]
    rw [recompute_uncovered hs hi hnc]
    rfl
  · have hg := good_mkCan (n := a.vars.length) (vars := a.vars) (c := ⟨0, 0, 0⟩) h.nodup rfl true (by simp)
    refine hg.denotes.congr fun x => ?_
    unfold logOf evalCan
    rw [canOf_mk]
    simp

/-- **C72, the joint is computed (part that holds).** If the conditioning factor and the evidence cover the conditioning
variables, a variable of the conditioning factor is not observed and at the evidence that factor is strictly concave in
the unobserved ones, the transform returns a column of the right height for every point, and the noise covariance is
positive definite, then the joint distribution is computed. It is a proper Gaussian object over the variables that
are not observed.
What is missing for the full claim: `C72_all_observed`, `C72_factor_observed`. -/
theorem C72_computed_partial (hs : HashSeed) {a : NLG} {U C : (Var → ℝ) → ℝ} (h : IsNLG a U C) (hys : a.ys ≠ [])
    (hN : a.noise.PosDef) (hT : Total a.transform a.xs a.q) {g : AnyG} (hp : Proper a g C) :
    ∃ j L, jointDistribution hs a = .ok j ∧ Made j.2 ∧ Denotes j.2 L ∧
      ∀ v, v ∈ j.2.vars ↔ (v ∈ a.xs ∨ v ∈ a.ys) ∧ v ∉ Dict.keys a.ev := by
  obtain ⟨j, u, c, e, hi, sc, su, nc, nu⟩ := copy_ok h
  obtain ⟨g', hp'⟩ := proper_copy (j := j) (u := u) hp sc nc
  obtain ⟨vars, k, h1, h2, h3, h4, h5, h6, h7, h8, h9⟩ := proper_cond hs hi hp'
  obtain ⟨j', M, hj, dj, hjv⟩ := transformed_den hi hys hN h2 h3 h4 h5 (fun v hv => (mem_observedIn.1 hv).2)
    (fun v hv => ((h6 v).1 hv).2) h7 h8 hT
  obtain ⟨u', r, hr, -, -, -, dr⟩ := recompute_proper hs hi hp' h1 h6 hj dj
  refine ⟨r, _, ?_, dr.made, dr.den, fun v => ?_⟩
  · unfold jointDistribution
    rw [e]
    dsimp only [bind, Except.bind]
    rw [hr]
  · rw [dr.vars v, List.mem_filter, decide_eq_true_eq, NLG.vars, List.mem_append]

/-- **C72 is violated: all conditioning variables observed.** Without a conditioning factor and with every
conditioning variable observed, so that the conditioning variables are determined, reading the joint distribution
raises `UnboundLocalError`. -/
theorem C72_all_observed (hs : HashSeed) {a : NLG} {U C : (Var → ℝ) → ℝ} (h : IsNLG a U C) (hc : a.cond = none)
    (hall : ∀ v ∈ a.xs, v ∈ Dict.keys a.ev) : jointDistribution hs a = .error .unboundLocalError := by
  obtain ⟨j, u, c, e, hi, sc, su, nc, nu⟩ := copy_ok h
  have hc' := nc.2 hc
  unfold jointDistribution
  rw [e]
  dsimp only [bind, Except.bind]
  rw [recompute_eq, if_neg (not_not.2 ((covered_iff hi).2 fun v hv => .inr (hall v hv)))]
  dsimp only
  rw [hc']

/-- **C72 is violated: the conditioning factor observed.** If every variable of the conditioning factor is observed as
well, an `AssertionError` is raised. -/
theorem C72_factor_observed (hs : HashSeed) {a : NLG} {U C : (Var → ℝ) → ℝ} (h : IsNLG a U C) {g : AnyG}
    (hc : a.cond = some g) (hne : g.2.vars ≠ []) (hall : ∀ v ∈ a.xs, v ∈ Dict.keys a.ev) :
    jointDistribution hs a = .error .assertionError := by
  obtain ⟨j, u, c, e, hi, sc, su, nc, nu⟩ := copy_ok h
  unfold jointDistribution
  rw [e]
  dsimp only [bind, Except.bind]
  rw [recompute_eq, if_neg (not_not.2 ((covered_iff hi).2 fun v hv => .inr (hall v hv)))]
  dsimp only
  cases c with
  | none =>
    have := nc.1 rfl
    rw [hc] at this
    cases this
  | some g' =>
    have hp := hi.cond
    rw [hc] at sc
    have hv : g'.2.vars = g.2.vars := sc
    dsimp only [bind, Except.bind]
    rw [reducedCond_all hs hp.1 (hv ▸ hne) fun v hv' => hall v (hp.2 v hv')]

/-! ### C84 -/

/-- **C84.** If the transform computes an affine function of the conditioning variables, in whatever order they are
given to it, then the joint distribution is exact: its density is the conditioning factor times the normal density of
the conditional variables around the affine function, times the update factor, times the weight, all at the
evidence. -/
theorem C84_affine (hs : HashSeed) {a : NLG} {U C : (Var → ℝ) → ℝ} (h : IsNLG a U C) (hys : a.ys ≠ [])
    (hN : a.noise.PosDef) {A : Fin a.q → Var → ℝ} {b : Fin a.q → ℝ}
    (hT : Computes a.transform a.xs a.q fun z i => (a.xs.map fun v => A i v * z v).sum + b i) {g : AnyG}
    (hp : Proper a g C) :
    ∃ j, jointDistribution hs a = .ok j ∧ Made j.2 ∧
      (∀ v, v ∈ j.2.vars ↔ (v ∈ a.xs ∨ v ∈ a.ys) ∧ v ∉ Dict.keys a.ev) ∧
      Denotes j.2 fun x =>
        let z := override a.ev x
        a.lw + C z + U z + Real.log (normalDensity a.noise (fun i => (a.xs.map fun v => A i v * z v).sum + b i)
          fun i => z (a.ys[i.1]'(h.q.symm ▸ i.2))) := by
  obtain ⟨j, u, c, e, hi, sc, su, nc, nu⟩ := copy_ok h
  obtain ⟨g', hp'⟩ := proper_copy (j := j) (u := u) hp sc nc
  obtain ⟨vars, k, h1, h2, h3, h4, h5, h6, h7, h8, h9⟩ := proper_cond hs hi hp'
  obtain ⟨j', hj, hjv, dj⟩ := transformed_affine hi hys hN h2 h3 h4 h5 h9 (fun v hv => (mem_observedIn.1 hv).2)
    (fun v hv => ((h6 v).1 hv).2) h7 h8 (A := A) (b := b) hT
  obtain ⟨u', r, hr, -, -, -, dr⟩ := recompute_proper hs hi hp' h1 h6 hj dj
  refine ⟨r, ?_, dr.made, fun v => ?_, dr.den.congr fun x => ?_⟩
  · unfold jointDistribution
    rw [e]
    dsimp only [bind, Except.bind]
    rw [hr]
  · rw [dr.vars v, List.mem_filter, decide_eq_true_eq, NLG.vars, List.mem_append]
  · dsimp only
    rw [override_twice, add_right_comm]
    rfl

/-! ### A concrete case -/

/-- The value in the row of a name. -/
def rowOf (names : List Var) {d : ℕ} (x : Fin d → ℝ) (v : Var) : ℝ := (List.ofFn x).getD (names.idxOf v) 0

/-- The transform `y = a + 2 b + 3`, which finds its arguments by their names. -/
def exNT : Transform := fun names p => .ok ⟨1, p.cols.map fun x _ => rowOf names x "a" + 2 * rowOf names x "b" + 3⟩

theorem rowOf_eq {names : List Var} {v : Var} (h : v ∈ names) (x : Var → ℝ) :
    rowOf names (fun i : Fin names.length => x names[i]) v = x v := by
  have hi := List.idxOf_lt_length_iff.2 h
  unfold rowOf
  rw [List.getD_eq_getElem?_getD, List.getElem?_eq_getElem (by simpa using hi)]
  simp

theorem exNT_computes : Computes exNT ["a", "b"] 1
    fun z i => ((["a", "b"] : List Var).map fun v => (fun _ w => if w = "a" then 1 else 2 : Fin 1 → Var → ℝ) i v * z v).sum +
      (fun _ => 3 : Fin 1 → ℝ) i := by
  intro names hp asgs
  unfold exNT
  dsimp only
  rw [List.map_map]
  congr 2
  refine List.map_congr_left fun x _ => ?_
  funext i
  have ha : "a" ∈ names := hp.mem_iff.2 (by simp)
  have hb : "b" ∈ names := hp.mem_iff.2 (by simp)
  simp only [Function.comp_apply]
  rw [rowOf_eq ha, rowOf_eq hb]
  simp

theorem exNT_total : Total exNT ["a", "b"] 1 := fun names _ pts => ⟨_, rfl, by simp⟩

/-- Conditioning variables `a`, `b` with the given factor, conditional variable `c` with a standard update factor, and
the given evidence. -/
noncomputable def exN (cond : Option AnyG) (ev : Dict Var ℝ) : NLG where
  xs := ["a", "b"]
  ys := ["c"]
  transform := exNT
  q := 1
  noise := 1
  lw := 0
  joint := ⟨_, std ["a", "b", "c"]⟩
  upd := some ⟨_, std ["c"]⟩
  cond := cond
  ev := ev

theorem exN_isNLG {cond : Option AnyG} {C : (Var → ℝ) → ℝ} (h : Part cond ["a", "b"] C) {ev : Dict Var ℝ}
    (he : (Dict.keys ev).Nodup) : IsNLG (exN cond ev) (stdItem ["c"]).2 C where
  nodup := by
    show (["a", "b", "c"] : List Var).Nodup
    decide
  q := rfl
  upd := ⟨(std_den (by simp)).1, fun v hv => hv⟩
  cond := h
  joint := ⟨by show (["a", "b", "c"] : List Var).Nodup; decide, rfl, .inl rfl⟩
  ev := he

theorem part_std {vs scope : List Var} (h : vs.Nodup) (hs : ∀ v ∈ vs, v ∈ scope) :
    Part (some ⟨_, std vs⟩) scope (stdItem vs).2 := ⟨(std_den h).1, hs⟩

theorem exN_proper : Proper (exN (some ⟨_, std ["a", "b"]⟩) [("b", 2)]) ⟨_, std ["a", "b"]⟩ (stdItem ["a", "b"]).2 where
  cond := rfl
  covered := fun v hv => .inl hv
  free := ⟨"a", by show "a" ∈ (["a", "b"] : List Var); decide, by show "a" ∉ (["b"] : List Var); decide⟩
  pos := by
    intro z hz hS
    obtain ⟨v, hv⟩ := Function.ne_iff.1 hz
    have hm : v = "a" := by
      by_contra hne
      refine hv (hS v ?_)
      rintro ⟨h1, h2⟩
      have h1' : v ∈ (["a", "b"] : List Var) := h1
      have h2' : v ∉ (["b"] : List Var) := h2
      simp_all
    subst hm
    have hpos := sq_pos_of_ne_zero hv
    simp [exN, stdItem, override]
    nlinarith

/-- `c = a + 2 b + 3` with `b` observed: the hypotheses of `C72_computed_partial` and `C84_affine` hold. -/
example (hs : HashSeed) : ∃ j, jointDistribution hs (exN (some ⟨_, std ["a", "b"]⟩) [("b", 2)]) = .ok j ∧
    ∀ v, v ∈ j.2.vars ↔ v = "a" ∨ v = "c" := by
  have h := exN_isNLG (part_std (vs := ["a", "b"]) (scope := ["a", "b"]) (by decide) fun v h => h) (ev := [("b", 2)])
    (by show (["b"] : List Var).Nodup; decide)
  obtain ⟨j, L, hj, -, -, hv⟩ := C72_computed_partial hs h (by simp [exN]) PosDef.one exNT_total exN_proper
  obtain ⟨j', hj', -, -⟩ := C84_affine hs h (by simp [exN]) PosDef.one exNT_computes exN_proper
  refine ⟨j, hj, fun v => ?_⟩
  rw [hv]
  show (v ∈ (["a", "b"] : List Var) ∨ v ∈ (["c"] : List Var)) ∧ v ∉ (["b"] : List Var) ↔ _
  simp only [List.mem_cons, List.not_mem_nil, or_false]
  constructor
  · rintro ⟨(h1 | h1) | h1, h2⟩
    · exact .inl h1
    · exact absurd h1 h2
    · exact .inr h1
  · rintro (rfl | rfl) <;> simp

/-- Nothing is known about `b`: the joint is vacuous. -/
example (hs : HashSeed) : ∃ j, jointDistribution hs (exN (some ⟨_, std ["a"]⟩) [("c", 1)]) = .ok j ∧ j.2.vac = true := by
  obtain ⟨j, hj, hv, -⟩ := C72_vacuous hs (exN_isNLG (part_std (vs := ["a"]) (scope := ["a", "b"]) (by decide) (by simp))
    (ev := [("c", 1)]) (by show (["c"] : List Var).Nodup; decide)) ⟨"b", by simp [exN], by
      show "b" ∉ (["a"] : List Var)
      decide, by
      show "b" ∉ (["c"] : List Var)
      decide⟩
  exact ⟨j, hj, hv⟩

/-- Both conditioning variables observed. -/
example (hs : HashSeed) : jointDistribution hs (exN none [("b", 2), ("a", 1)]) = .error .unboundLocalError ∧
    jointDistribution hs (exN (some ⟨_, std ["a"]⟩) [("b", 2), ("a", 1)]) = .error .assertionError := by
  have hn : (Dict.keys ([("b", 2), ("a", 1)] : Dict Var ℝ)).Nodup := by
    show (["b", "a"] : List Var).Nodup
    decide
  have hall : ∀ v ∈ (["a", "b"] : List Var), v ∈ Dict.keys ([("b", 2), ("a", 1)] : Dict Var ℝ) := by
    show ∀ v ∈ (["a", "b"] : List Var), v ∈ (["b", "a"] : List Var)
    decide
  refine ⟨C72_all_observed hs (exN_isNLG (cond := none) (C := fun _ => 0) (fun _ => rfl) hn) rfl hall,
    C72_factor_observed hs (exN_isNLG (part_std (vs := ["a"]) (scope := ["a", "b"]) (by decide) (by simp)) hn) rfl (by simp [std])
      hall⟩

end Verif.NLG
