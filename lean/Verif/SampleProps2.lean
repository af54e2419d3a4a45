import Verif.SampleProps
import Verif.NlgMixExamples

/-!
# C109: samples of non-linear Gaussians
-/

namespace Verif.Sampling
open MeasureTheory Matrix Spec GaussInt Gauss _root_.Verif.NLG _root_.Verif.NlgMix _root_.Verif.Fact

/-- The joint of an affine non-linear Gaussian after `_recompute_joint`. -/
theorem recompute_exact (hs : HashSeed) {a : NLG} {U C : (Var → ℝ) → ℝ} (h : IsNLG a U C) (hys : a.ys ≠ [])
    (hN : a.noise.PosDef) {A : Fin a.q → Var → ℝ} {b : Fin a.q → ℝ}
    (hT : Computes a.transform a.xs a.q fun z i => (a.xs.map fun v => A i v * z v).sum + b i) {p : AnyG}
    (hp : Proper a p C) {J : (Var → ℝ) → ℝ}
    (hJ : J = fun x =>
        let z := override a.ev x
        a.lw + C z + U z + Real.log (normalDensity a.noise (fun i => (a.xs.map fun v => A i v * z v).sum + b i)
          fun i => z (a.ys[i.1]'(h.q.symm ▸ i.2))))
    (hpos : PosOn J fun v => (v ∈ a.xs ∨ v ∈ a.ys) ∧ v ∉ Dict.keys a.ev) :
    ∃ u r, NLG.recompute hs a = .ok { a with joint := r, upd := u } ∧ IsNLG { a with joint := r, upd := u } U C ∧
      r.2.vac = false ∧ Made r.2 ∧ Denotes r.2 J ∧
      (∀ v, v ∈ r.2.vars ↔ (v ∈ a.xs ∨ v ∈ a.ys) ∧ v ∉ Dict.keys a.ev) ∧ (canOf r.2).prec.PosDef := by
  obtain ⟨vars, k, h1, h2, h3, h4, h5, h6, h7, h8, h9⟩ := proper_cond hs h hp
  obtain ⟨j', hj, hjv, dj⟩ := transformed_affine h hys hN h2 h3 h4 h5 h9 (fun v hv => (mem_observedIn.1 hv).2)
    (fun v hv => ((h6 v).1 hv).2) h7 h8 (A := A) (b := b) hT
  obtain ⟨u', r, hr, hi, -, -, dr⟩ := recompute_proper hs h hp h1 h6 hj dj
  have hvr : ∀ v, v ∈ r.2.vars ↔ (v ∈ a.xs ∨ v ∈ a.ys) ∧ v ∉ Dict.keys a.ev := fun v => by
    rw [dr.vars v, List.mem_filter, decide_eq_true_eq, NLG.vars, List.mem_append]
  have hd : Denotes r.2 J := by
    rw [hJ]
    refine dr.den.congr fun x => ?_
    dsimp only
    rw [override_twice, add_right_comm]
    rfl
  have hg := hd.good dr.made.inv
  have hpd : (canOf r.2).prec.PosDef := by
    refine posDef_logOf hg ?_
    rw [← hd.eq hg]
    exact fun z hz hS => hpos z hz fun v hv' => hS v fun hm => hv' ((hvr v).1 hm)
  have hh : Honest r := recompute_honest h hp.covered hr
  have hvac : r.2.vac = false := by
    by_contra hc
    have := hh (by simpa using hc)
    rw [vacParams_posDef hpd] at this
    cases this
  exact ⟨u', r, hr, hi, hvac, dr.made, hd, hvr, hpd⟩

theorem isVacuous_posDef {n : ℕ} {a : Gauss n} (hv : a.vac = false) (hK : (canOf a).prec.PosDef) :
    a.isVacuous = false := by
  unfold Gauss.isVacuous
  rw [hv]
  cases hc : a.can with
  | none => rfl
  | some c =>
    rw [canOf_can hc] at hK
    simp [vacParams_posDef hK]

theorem vecAt_of_eq {ws vars : List Var} (hw : ws.length = vars.length) (x : Var → ℝ) (h : ws = vars) :
    vecAt ws hw x = fun i => x vars[i] := by
  subst h
  rfl

/-- Sampling once the joint has been recomputed. -/
theorem nlg_sample {hs : HashSeed} {a r : NLG} (hr : a.recompute hs = .ok r) (hm : Made r.joint.2) {c0 : Gauss r.joint.1}
    {c : Can r.joint.1} (hc : r.joint.2.getCan = .ok (c0, c)) (hK : c.prec.PosDef) (hv : r.joint.2.isVacuous = false) :
    ∃ a' f w p, (∀ Z, NLG.sample hs a Z = .ok (a', ⟨r.joint.1, (Z r.joint.1).map f⟩)) ∧
      Samples (Measure.pi fun _ => ProbabilityTheory.gaussianReal 0 1) f p ∧ 0 < w ∧
      (∃ hl : r.joint.2.vars.length = r.joint.1, ∀ x,
        r.joint.2.potential (r.joint.2.vars.map x) = .ok (w * p (vecAt r.joint.2.vars hl x))) := by
  obtain ⟨j', f, w, p, h1, h2, h3, h4, h5, h6⟩ := C108_gaussian hm hc hK hv
  refine ⟨{ r with joint := ⟨_, j'⟩ }, f, w, p, fun Z => ?_, h2, h3.2, h4⟩
  unfold NLG.sample
  rw [hr]
  dsimp only [bind, Except.bind]
  rw [h1]

/-- **C109.** For affine transforms whose exact joint is strictly concave in the unobserved variables, sampling a
non-linear Gaussian always returns. The rows belong to the variables of the joint distribution, which are the
unobserved ones: the variables of the conditioning factor, then the conditional variables. Each column has a
probability density that is the exact joint up to a constant factor, and the columns are independent. -/
theorem C109_nonlinear_partial (hs : HashSeed) {a : NLG} {P : Parts} {J : (Var → ℝ) → ℝ} (h : Affine a P J)
    (hpos : PosOn J fun v => v ∈ a.vars ∧ v ∉ Dict.keys a.ev) :
    ∃ a' vars f w p, (∀ Z, NLG.sample hs a Z = .ok (a', ⟨vars.length, (Z vars.length).map f⟩)) ∧
      Samples (Measure.pi fun _ => ProbabilityTheory.gaussianReal 0 1) f p ∧ 0 < w ∧
      (∀ x, Real.exp (J x) = w * p fun i => x vars[i]) ∧
      vars = order a ∧ (∀ v, v ∈ vars ↔ v ∈ a.vars ∧ v ∉ Dict.keys a.ev) ∧ vars.Nodup := by
  have hc := h.covered
  obtain ⟨hn, hy, hN, A, b, g, hT, hp, hJ⟩ := h
  have hv : ∀ v, v ∈ a.vars ↔ v ∈ a.xs ∨ v ∈ a.ys := fun v => List.mem_append
  simp only [hv] at hpos ⊢
  obtain ⟨u, r, hr, hi, hvac, hm, hd, hvr, hK⟩ := recompute_exact hs hn hy hN hT hp hJ hpos
  have ho := recompute_vars hn hc hr
  have hg := hd.good hm.inv
  obtain ⟨a', f, w, p, h1, h2, h3, hl, h4⟩ := nlg_sample hr hm (getCan_valid hg.toValid) hK (isVacuous_posDef hvac hK)
  obtain ⟨n, r⟩ := r
  have hnd := hg.nodup
  dsimp only at ho hg hl h1 h2 h3 h4 hvr hd hnd
  have hall : ∀ x, Real.exp (J x) = w * p (vecAt r.vars hl x) := by
    intro x
    have h5 := (hd x).2.1
    rw [h4] at h5
    injection h5 with h5
    exact h5.symm
  clear hd hi hm hvac hK hr hg h4
  obtain ⟨vs, hvs⟩ : ∃ vs, vs = r.vars := ⟨_, rfl⟩
  rw [← hvs] at ho hvr hnd
  have hn' : n = vs.length := by rw [hvs, hl]
  subst hn'
  refine ⟨a', vs, f, w, p, h1, h2, h3, fun x => ?_, ho, hvr, hnd⟩
  rw [hall, vecAt_of_eq hl x hvs.symm]

/-! ### Mixtures -/

/-- The arrays of the components. -/
theorem sampleAll_ok {hs : HashSeed} {fs : List NLG} {ds : List ℕ}
    (h : List.Forall₂ (fun f d => ∀ Z, ∃ f' y, NLG.sample hs f Z = .ok (f', ⟨d, y⟩) ∧ y.length = (Z d).length) fs ds)
    (n : ℕ) (Z : ℕ → ∀ k, List (Fin k → ℝ)) (hZ : ∀ i k, (Z i k).length = n) :
    ∃ fs' ys, NlgMix.sampleAll hs fs Z = .ok (fs', ys) ∧ ys.map Sigma.fst = ds ∧ ∀ y ∈ ys, y.2.length = n := by
  induction h generalizing Z with
  | nil => exact ⟨[], [], rfl, rfl, by simp⟩
  | cons h1 h2 ih =>
    obtain ⟨f', y, e, hy⟩ := h1 (Z 0)
    obtain ⟨fs', ys, e', hd, hl⟩ := ih (fun i => Z (i + 1)) fun i k => hZ (i + 1) k
    refine ⟨f' :: fs', ⟨_, y⟩ :: ys, ?_, by simp [hd], ?_⟩
    · unfold NlgMix.sampleAll
      rw [e]
      dsimp only [bind, Except.bind]
      rw [e']
    · intro z hz
      rcases List.mem_cons.1 hz with rfl | hz
      · rw [hy, hZ]
      · exact hl z hz

theorem concat_ok (n : ℕ) (ys : List (Σ k, List (Fin k → ℝ))) (y : Σ k, List (Fin k → ℝ)) (hy : y.2.length = n)
    (hl : ∀ z ∈ ys, z.2.length = n) : ∃ r, ys.foldlM npConcat0 y = .ok r ∧ r.1 = y.1 + (ys.map Sigma.fst).sum ∧
      r.2.length = n := by
  induction ys generalizing y with
  | nil => exact ⟨y, rfl, by simp, hy⟩
  | cons z ys ih =>
    have hz := hl z List.mem_cons_self
    obtain ⟨r, e, h1, h2⟩ := ih ⟨y.1 + z.1, List.zipWith Fin.append y.2 z.2⟩ (by simp [hy, hz])
      fun w hw => hl w (List.mem_cons_of_mem _ hw)
    refine ⟨r, ?_, ?_, h2⟩
    · rw [List.foldlM_cons]
      unfold npConcat0
      rw [if_pos (hy.trans hz.symm)]
      exact e
    · rw [h1]
      simp [add_assoc]

/-- **C109 is violated for mixtures.** The arrays sampled from the components are stacked below each other: for a
mixture with `k` components over `d` unobserved variables the returned array has `k * d` rows, so that for more than one
component no column is a point. -/
theorem C109_mixture_violated (hs : HashSeed) {a : NlgMix} {js : List (Parts × ((Var → ℝ) → ℝ))} (ha : AllAffine a js)
    (hne : a.nlgs ≠ []) (hpos : ∀ f ∈ a.nlgs, ∀ j ∈ js, PosOn j.2 fun v => v ∈ f.vars ∧ v ∉ Dict.keys f.ev) {d : ℕ}
    (hd : ∀ f ∈ a.nlgs, (order f).length = d) {n : ℕ} (Z : ℕ → ∀ k, List (Fin k → ℝ)) (hZ : ∀ i k, (Z i k).length = n) :
    ∃ a' A, NlgMix.sample hs a Z = .ok (a', A) ∧ A.1 = a.nlgs.length * d ∧ A.2.length = n ∧
      (1 < a.nlgs.length → 0 < d → A.1 ≠ d) := by
  have hf : List.Forall₂ (fun f d => ∀ Z, ∃ f' y, NLG.sample hs f Z = .ok (f', ⟨d, y⟩) ∧ y.length = (Z d).length) a.nlgs
      (a.nlgs.map fun _ => d) := by
    refine List.forall₂_map_right_iff.2 (List.forall₂_same.2 fun f hf Z => ?_)
    obtain ⟨i, hi, rfl⟩ := List.mem_iff_getElem.1 hf
    have h1 := ha.get hi (ha.length_eq ▸ hi)
    obtain ⟨a', vars, g, w, p, e, -, -, -, ho, -⟩ := C109_nonlinear_partial hs h1 (hpos _ hf _ (List.getElem_mem _))
    have hl : vars.length = d := by rw [ho]; exact hd _ hf
    subst hl
    exact ⟨a', _, e Z, by simp⟩
  obtain ⟨fs', ys, e1, e2, e3⟩ := sampleAll_ok hf n Z hZ
  cases ys with
  | nil =>
    have := congrArg List.length e2
    simp only [List.map_nil, List.length_nil, List.length_map] at this
    exact absurd (List.length_eq_zero_iff.1 this.symm) hne
  | cons y ys =>
    obtain ⟨r, e4, e5, e6⟩ := concat_ok n ys y (e3 y List.mem_cons_self) fun z hz => e3 z (List.mem_cons_of_mem _ hz)
    have hsum : r.1 = a.nlgs.length * d := by
      have := congrArg List.sum e2
      rw [List.map_cons, List.sum_cons] at this
      rw [e5, this]
      simp
    refine ⟨{ a with nlgs := fs' }, r, ?_, hsum, e6, fun h1 h2 h3 => ?_⟩
    · unfold NlgMix.sample
      rw [e1]
      dsimp only [bind, Except.bind]
      rw [e4]
    · rw [hsum] at h3
      nlinarith

/-- Two components, two unobserved variables: an array with four rows. -/
theorem C109_mixture_rows (hs : HashSeed) {n : ℕ} (Z : ℕ → ∀ k, List (Fin k → ℝ)) (hZ : ∀ i k, (Z i k).length = n) :
    ∃ a' A, NlgMix.sample hs (NlgMix.exA [("b", 2)] true) Z = .ok (a', A) ∧ A.1 = 4 ∧ A.2.length = n := by
  obtain ⟨a', A, h1, h2, h3, -⟩ := C109_mixture_violated hs (exA_all true) (by simp [NlgMix.exA]) (fun f hf j hj => by
      rw [(exA_vars _ _ f hf).2.1, (exA_vars _ _ f hf).1]
      simp at hj
      rcases hj with rfl | rfl <;> exact exJ_pos _) (d := 2) (fun f hf => by
      simp [NlgMix.exA] at hf
      rcases hf with rfl | rfl
      · show (jointOrder (["a", "b"] : List Var) ["c"] ["b"]).length = 2
        simp [jointOrder, pySorted]
      · show (jointOrder (["a", "b"] : List Var) ["c"] ["b"]).length = 2
        simp [jointOrder, pySorted]) Z hZ
  exact ⟨a', A, h1, h2, h3⟩

/-- A factor that meets the hypotheses of `C109_nonlinear_partial`. -/
example : Affine (exN (some ⟨_, std ["a", "b"]⟩) [("b", 2)]) exP (exJ [("b", 2)] 0) ∧
    PosOn (exJ [("b", 2)] 0) fun v => v ∈ (["a", "b", "c"] : List Var) ∧ v ∉ (["b"] : List Var) := ⟨exA_affine, exJ_pos 0⟩

theorem exN_pos : ∃ J, Affine (exN (some ⟨_, std ["b", "a"]⟩) []) ((stdItem ["c"]).2, (stdItem ["b", "a"]).2) J ∧
    PosOn J fun v => v ∈ (["a", "b", "c"] : List Var) ∧ v ∉ ([] : List Var) := by
  refine ⟨_, ⟨exN_isNLG (part_std (vs := ["b", "a"]) (scope := ["a", "b"]) (by decide) (by decide)) (by simp [Dict.keys]),
    by simp [exN], PosDef.one, _, _, _, exNT_computes, exN_proper_all (.inr rfl), rfl⟩, ?_⟩
  intro z hz hS
  obtain ⟨v, hv⟩ := Function.ne_iff.1 hz
  have hm : v = "a" ∨ v = "b" ∨ v = "c" := by
    by_contra hne
    refine hv (hS v ?_)
    rintro ⟨h1, h2⟩
    simp_all
  have hpos : 0 < z "a" ^ 2 + z "b" ^ 2 + z "c" ^ 2 := by
    rcases hm with rfl | rfl | rfl <;>
    · have := sq_pos_of_ne_zero hv
      positivity
  obtain ⟨K, hK⟩ : ∃ K, ∀ m y : Fin 1 → ℝ, Real.log (normalDensity (1 : Matrix (Fin 1) (Fin 1) ℝ) m y) =
    K - 1 / 2 * (y 0 - m 0) ^ 2 := ⟨_, log_normalDensity_one⟩
  have e1 := hK (fun _ => 3) fun _ => 0
  have e2 := hK (fun _ => z "a" + 2 * z "b" + 3) fun _ => z "c"
  have e3 := hK (fun _ => -z "a" + -(2 * z "b") + 3) fun _ => -z "c"
  simp [exN, stdItem, override]
  erw [e1, e2, e3]
  nlinarith [sq_nonneg (z "c" - z "a" - 2 * z "b")]

/-- **C109, the order of the rows** is not the order of `var_names` if the conditioning factor lists its variables in
another order: for a conditioning factor over `b`, `a` the first row belongs to `b`. -/
theorem C109_order (hs : HashSeed) : ∃ (a : NLG) (P : Parts) (J : (Var → ℝ) → ℝ) (a' : NLG) (f : (Fin 3 → ℝ) → Fin 3 → ℝ) (w : ℝ)
    (p : (Fin 3 → ℝ) → ℝ), a.vars = ["a", "b", "c"] ∧ Affine a P J ∧ (∀ Z, NLG.sample hs a Z = .ok (a', ⟨3, (Z 3).map f⟩)) ∧
      Samples (Measure.pi fun _ => ProbabilityTheory.gaussianReal 0 1) f p ∧ 0 < w ∧
      ∀ x, Real.exp (J x) = w * p ![x "b", x "a", x "c"] := by
  obtain ⟨J, hA, hp⟩ := exN_pos
  obtain ⟨a', vars, f, w, p, h1, h2, h3, h4, h5, -⟩ := C109_nonlinear_partial hs hA hp
  have h6 : vars = ["b", "a", "c"] := h5
  subst h6
  refine ⟨_, _, J, a', f, w, p, rfl, hA, h1, h2, h3, fun x => ?_⟩
  rw [h4]
  congr 2
  funext i
  fin_cases i <;> rfl

end Verif.Sampling
