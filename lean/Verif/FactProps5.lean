import Verif.FactProps4
import Mathlib.Analysis.SpecialFunctions.Gaussian.GaussianIntegral

/-!
# Properties of factorised factors (C65): instances and violations
-/

namespace Verif.Fact
open Matrix Gauss Spec MeasureTheory

/-! ### Standard factors -/

/-- The factor `exp(-½ Σ v²)`. -/
def std (vs : List Var) : Gauss vs.length := ⟨vs, some ⟨1, 0, 0⟩, none, false⟩

/-- The variables and the log potential of the standard factor. -/
noncomputable def stdItem (vs : List Var) : Item := (vs, fun x => -(1 / 2) * (vs.map fun v => x v ^ 2).sum)

theorem std_mk {vs : List Var} (h : vs.Nodup) : mkCan vs ⟨1, 0, 0⟩ = .ok (std vs) := by
  rw [mkCan_ok h rfl, vacParams_posDef PosDef.one]
  rfl

theorem sum_vecAt (vs : List Var) (F : Var → ℝ) : ∑ i : Fin vs.length, F vs[i.1] = (vs.map F).sum := by
  rw [← List.sum_ofFn, List.ofFn_getElem_eq_map]

theorem std_den {vs : List Var} (h : vs.Nodup) : DenH ⟨_, std vs⟩ (stdItem vs) := by
  have hg : Good (std vs) := good_mkCan h rfl _ (by simp)
  refine ⟨⟨.ofCan (by simp) (std_mk h), hg.denotes.congr fun x => ?_, fun _ => Iff.rfl⟩, fun h => by cases h⟩
  unfold logOf evalCan stdItem
  have : canOf (std vs) = ⟨1, 0, 0⟩ := rfl
  rw [this]
  simp only [one_mulVec, dotProduct_zero, add_zero]
  rw [dotProduct, ← sum_vecAt vs fun v => x v ^ 2]
  simp only [vecAt, std]
  congr 1
  · norm_num
  · exact Finset.sum_congr rfl fun i _ => (sq _).symm

theorem sum_sq_nonneg (vs : List Var) (x : Var → ℝ) : 0 ≤ (vs.map fun v => x v ^ 2).sum :=
  List.sum_nonneg (by simp only [List.mem_map]; rintro _ ⟨v, -, rfl⟩; positivity)

theorem sum_sq_pos {vs : List Var} {x : Var → ℝ} {v : Var} (hv : v ∈ vs) (hx : x v ≠ 0) :
    0 < (vs.map fun v => x v ^ 2).sum := by
  have h1 : x v ^ 2 ≤ (vs.map fun v => x v ^ 2).sum :=
    List.single_le_sum (by simp only [List.mem_map]; rintro _ ⟨v, -, rfl⟩; positivity) _ (List.mem_map_of_mem hv)
  have := sq_pos_of_ne_zero hx
  linarith

theorem std_pos (vs : List Var) : PosOn (stdItem vs).2 (· ∈ (stdItem vs).1) := by
  intro z hz hS
  obtain ⟨v, hv⟩ := Function.ne_iff.1 hz
  have hm : v ∈ vs := by
    by_contra h
    exact hv (hS v h)
  have := sum_sq_pos hm hv
  simp only [stdItem, Pi.neg_apply, neg_sq, Pi.zero_apply]
  simp
  linarith

/-- Two factors that share `b`. -/
def exP : Fact := ⟨["c", "a", "b"], [⟨_, std ["a", "b"]⟩, ⟨_, std ["b", "c"]⟩]⟩

theorem exP_isFact : IsFact exP [stdItem ["a", "b"], stdItem ["b", "c"]] :=
  .cons (std_den (by decide)).toDen (.cons (std_den (by decide)).toDen .nil)

theorem exP_covers : Covers exP := by
  intro v
  simp [exP, std]
  tauto

/-- The hypotheses of `C65_one_variable` (and with it those of `C65_proper` and `C65_marginalize_partial`) can be
met. -/
example : IsFact exP [stdItem ["a", "b"], stdItem ["b", "c"]] ∧ Covers exP ∧
    (∀ i ∈ [stdItem ["a", "b"], stdItem ["b", "c"]], PosOn i.2 (· ∈ i.1)) ∧ "b" ∈ exP.vars ∧ ∃ w ∈ exP.vars, w ≠ "b" := by
  refine ⟨exP_isFact, exP_covers, ?_, by simp [exP], "a", by simp [exP], by decide⟩
  simp only [List.mem_cons, List.not_mem_nil, or_false]
  rintro i (rfl | rfl)
  · exact std_pos _
  · exact std_pos _

/-- The hypotheses of `C65_raises` can be met. -/
example : ∀ f ∈ exP.factors, ∀ v ∈ f.2.vars, ¬ (v ∈ exP.vars ∧ (v ∈ ["a", "b", "c"] ↔ false = true)) := by
  simp [exP, std]

/-! ### Integrals over one variable -/

theorem integrateOut_single (v : Var) (F : (Var → ℝ) → ℝ) (x : Var → ℝ) :
    integrateOut [v] F x = ∫ t : ℝ, F (Function.update x v t) := by
  have hm := volume_preserving_funUnique (Fin 1) ℝ
  unfold integrateOut
  rw [← hm.integral_comp (MeasurableEquiv.measurableEmbedding _)]
  congr 1
  funext y
  congr 1
  funext u
  unfold setVars
  by_cases h : u = v
  · subst h
    simp [MeasurableEquiv.funUnique]
  · simp [h]

theorem integrate_gauss (v : Var) (b : ℝ) (x : Var → ℝ) :
    integrateOut [v] (fun z => Real.exp (-b * z v ^ 2)) x = √(Real.pi / b) := by
  rw [integrateOut_single]
  simp only [Function.update_self]
  exact integral_gaussian b

/-! ### Overlap through a third factor -/

/-- The factors `exp(-½y²)`, `exp(-½(y²+z²))`, `exp(-½z²)`, `exp(-½x²)`, in this order. -/
def exChain : Fact :=
  ⟨["x", "y", "z"], [⟨_, std ["y"]⟩, ⟨_, std ["y", "z"]⟩, ⟨_, std ["z"]⟩, ⟨_, std ["x"]⟩]⟩

/-- Their variables and log potentials. -/
noncomputable def chainItems : List Item := [stdItem ["y"], stdItem ["y", "z"], stdItem ["z"], stdItem ["x"]]

theorem exChain_isFact : IsFact exChain chainItems :=
  .cons (std_den (by decide)).toDen (.cons (std_den (by decide)).toDen
    (.cons (std_den (by decide)).toDen (.cons (std_den (by decide)).toDen .nil)))

theorem exChain_covers : Covers exChain := by
  intro v
  simp [exChain, std]
  tauto

/-- The merge stops after one pass: the third factor shares `z` with the second but stays alone. -/
theorem chain_merge {out : List Var} (ho : ∀ v, v ∈ out ↔ v = "y" ∨ v = "z") {fs : List AnyG} (h : List.Forall₂ DenH fs chainItems) :
    ∃ ms, merge out fs = .ok ms ∧ List.Forall₂ DenH ms
      [(["y", "y", "z"], fun x => -(1 / 2) * x "y" ^ 2 + -(1 / 2) * (x "y" ^ 2 + x "z" ^ 2)), stdItem ["z"], stdItem ["x"]] := by
  unfold chainItems at h
  cases h with
  | @cons f1 _ fs _ h1 h =>
  cases h with
  | @cons f2 _ fs _ h2 h =>
  cases h with
  | @cons f3 _ fs _ h3 h =>
  cases h with
  | @cons f4 _ fs _ h4 h =>
  cases h
  obtain ⟨g1, g2, r, e1, d1⟩ := multiply_denH h1 h2
  have s12 := share_iff (out := out) h1.toDen h2.toDen
  have s13 := share_iff (out := out) h1.toDen h3.toDen
  have s14 := share_iff (out := out) h1.toDen h4.toDen
  have s34 := share_iff (out := out) h3.toDen h4.toDen
  simp only [Share, stdItem, List.mem_cons, List.not_mem_nil, or_false, ho] at s12 s13 s14 s34
  have t12 : ∃ v ∈ inScope out f1, v ∈ inScope out f2 := s12.2 ⟨"y", by simp⟩
  have t13 : ¬ ∃ v ∈ inScope out f1, v ∈ inScope out f3 := fun h => by
    obtain ⟨v, -, rfl, h⟩ := s13.1 h
    simp at h
  have t14 : ¬ ∃ v ∈ inScope out f1, v ∈ inScope out f4 := fun h => by
    obtain ⟨v, -, rfl, h⟩ := s14.1 h
    simp at h
  have t34 : ¬ ∃ v ∈ inScope out f3, v ∈ inScope out f4 := fun h => by
    obtain ⟨v, -, rfl, h⟩ := s34.1 h
    simp at h
  refine ⟨[⟨_, r⟩, f3, f4], ?_, .cons (d1.congr (by simp [stdItem]) (by simp [stdItem])) (.cons h3 (.cons h4 .nil))⟩
  have hz : (List.range [f1, f2, f3, f4].length).zip [f1, f2, f3, f4] = [(0, f1), (1, f2), (2, f3), (3, f4)] := by
    simp [List.range_succ]
  unfold merge
  rw [hz, mergeOuter, if_neg (by simp), mergeInner, if_pos ⟨by simp, t12⟩, e1]
  dsimp only [bind, Except.bind]
  rw [mergeInner, if_neg (fun h => t13 h.2), mergeInner, if_neg (fun h => t14 h.2), mergeInner]
  dsimp only
  rw [mergeOuter, if_pos (by simp), mergeOuter, if_neg (by simp), mergeInner, if_neg (fun h => t34 h.2), mergeInner]
  dsimp only [bind, Except.bind]
  rw [mergeOuter, if_neg (by simp), mergeInner]
  dsimp only [bind, Except.bind]
  rw [mergeOuter]

theorem indep_one {v : Var} {vs : List Var} (h : v ∉ vs) (b : ℝ) : IndepOf (fun z => Real.exp (-b * z v ^ 2)) vs :=
  fun x y hxy => by
    dsimp only
    rw [hxy v h]

theorem integrate_two (b c : ℝ) (x : Var → ℝ) :
    integrateOut ["y", "z"] (fun z => Real.exp (-b * z "y" ^ 2) * Real.exp (-c * z "z" ^ 2)) x =
      √(Real.pi / b) * √(Real.pi / c) := by
  have := (integrateOut_mul (vs := ["y"]) (ws := ["z"]) (by decide) (indep_one (v := "y") (by decide) b)
    (indep_one (v := "z") (by decide) c) (x := x)).1
  rw [integrate_gauss, integrate_gauss] at this
  exact this

/-- The integral that the marginal of `exChain` should be. -/
theorem chain_true (x : Var → ℝ) :
    integrateOut ["y", "z"] (fun z => Real.exp (total chainItems z)) x = Real.pi * Real.exp (-(1 / 2) * x "x" ^ 2) := by
  have e : (fun z : Var → ℝ => Real.exp (total chainItems z)) = fun z =>
      (Real.exp (-1 * z "y" ^ 2) * Real.exp (-1 * z "z" ^ 2)) * Real.exp (-(1 / 2) * z "x" ^ 2) := by
    funext z
    rw [← Real.exp_add, ← Real.exp_add]
    congr 1
    simp [total, chainItems, stdItem]
    ring
  rw [e]
  unfold integrateOut
  have h : ∀ y : Fin ["y", "z"].length → ℝ, setVars ["y", "z"] y x "x" = x "x" := fun y => by simp [setVars]
  simp only [h]
  rw [integral_mul_const]
  have := integrate_two 1 1 x
  unfold integrateOut at this
  rw [this, div_one, Real.mul_self_sqrt Real.pi_pos.le]

/-- **C65 (violation).** The factorised factor with the factors `exp(-½y²)`, `exp(-½(y²+z²))`, `exp(-½z²)` and
`exp(-½x²)`: its marginal over `x` comes out too large by the factor `2√π`, because the first and the third factor
share no variable and are integrated separately although the second links them. -/
theorem C65_chain (hs : HashSeed) :
    IsFact exChain chainItems ∧ Covers exChain ∧ (∀ i ∈ chainItems, PosOn i.2 (· ∈ i.1)) ∧
    ∃ g M, marginalize hs exChain ["x"] = .ok (.gauss g) ∧ Denotes g.2 M ∧
      ∀ x, 0 < integrateOut ["y", "z"] (fun z => Real.exp (total chainItems z)) x ∧
        Real.exp (M x) = 2 * √Real.pi * integrateOut ["y", "z"] (fun z => Real.exp (total chainItems z)) x := by
  refine ⟨exChain_isFact, exChain_covers, ?_, ?_⟩
  · simp only [chainItems, List.mem_cons, List.not_mem_nil, or_false]
    rintro i (rfl | rfl | rfl | rfl) <;> exact std_pos _
  set out := exChain.vars.filter (· ∉ Sparse.marginalVars hs exChain.vars ["x"] true) with hout
  have ho : ∀ v, v ∈ out ↔ v = "y" ∨ v = "z" := by
    intro v
    rw [hout]
    simp only [exChain, Sparse.marginalVars, List.mem_filter, if_true, List.mem_cons, List.not_mem_nil, or_false,
      decide_eq_true_eq]
    constructor
    · rintro ⟨h1 | h1, h2⟩
      · exact absurd h1 h2
      · exact h1
    · rintro (rfl | rfl) <;> decide
  obtain ⟨k, e1, d1⟩ := copy_denH hs exChain_isFact
  obtain ⟨ms, e2, d2⟩ := chain_merge ho d1
  cases d2 with
  | @cons m1 _ _ _ h1 d2 =>
  cases d2 with
  | @cons m2 _ _ _ h2 d2 =>
  cases d2 with
  | @cons m3 _ _ _ h3 d2 =>
  cases d2
  obtain ⟨_, v1, c1, i1⟩ := full_den h1 (by
    intro z hz hS
    obtain ⟨v, hv⟩ := Function.ne_iff.1 hz
    have hm : v = "y" ∨ v = "z" := by
      by_contra h
      exact hv (hS v (by simpa using h))
    have : 0 < z "y" ^ 2 + z "z" ^ 2 := by
      rcases hm with rfl | rfl
      · have := sq_pos_of_ne_zero hv; have := sq_nonneg (z "z"); simp at *; linarith
      · have := sq_pos_of_ne_zero hv; have := sq_nonneg (z "y"); simp at *; linarith
    have := sq_nonneg (z "y")
    simp only [Pi.neg_apply, neg_sq, Pi.zero_apply]
    linarith)
  obtain ⟨_, v2, c2, i2⟩ := full_den h2 (std_pos _)
  obtain ⟨r, j, c3, d3, -, i3⟩ := part_den hs (out := out) h3 (by
    intro z hz hS
    refine absurd (funext fun v => hS v ?_) hz
    rintro ⟨h4, h5⟩
    rw [ho] at h4
    simp [stdItem] at h5
    subst h5
    simp at h4) (.inr (std_pos _))
  have hfull1 : ∀ v ∈ m1.2.vars, v ∈ out := by
    intro v hv
    rw [h1.vars] at hv
    rw [ho]
    simpa using hv
  have hfull2 : ∀ v ∈ m2.2.vars, v ∈ out := by
    intro v hv
    rw [h2.vars] at hv
    rw [ho]
    simp [stdItem] at hv
    exact .inr hv
  have hpart : ¬ ∀ v ∈ m3.2.vars, v ∈ out := by
    intro h
    have := h "x" ((h3.vars _).2 (by simp [stdItem]))
    rw [ho] at this
    simp at this
  refine ⟨⟨_, r.addLogWeight (v1.lw + (v2.lw + 0))⟩, _, ?_, (C38_copy_weight d3.made d3.den).2 _, fun x => ?_⟩
  · unfold marginalize
    dsimp only [bind, Except.bind]
    have hg : (exChain.factors.any fun f => decide (∃ v ∈ Sparse.marginalVars hs exChain.vars ["x"] true, v ∈ f.2.vars)) =
        true := by
      rw [List.any_eq_true]
      exact ⟨⟨_, std ["x"]⟩, by simp [exChain], by simp [std, Sparse.marginalVars]⟩
    rw [hg, e1]
    dsimp only [pyGuard, if_true]
    rw [← hout, e2]
    dsimp only
    rw [margLoop, if_pos hfull1, c1]
    dsimp only [bind, Except.bind]
    rw [margLoop, if_pos hfull2, c2]
    dsimp only [bind, Except.bind]
    rw [margLoop, if_neg hpart, c3]
    dsimp only [bind, Except.bind]
    rw [margLoop]
    rfl
  · rw [chain_true]
    have q1 := (i1 ["y", "z"] (by decide) (by simp) x).2
    have q2 := (i2 ["z"] (by decide) (by simp [stdItem]) x).2
    have q3 := (i3 [] .nil (by
      intro v
      simp only [ho, stdItem, List.mem_singleton, List.not_mem_nil, false_iff]
      rintro ⟨h, rfl⟩
      simp at h) x).2
    have e4 : (fun z : Var → ℝ => Real.exp (-(1 / 2) * z "y" ^ 2 + -(1 / 2) * (z "y" ^ 2 + z "z" ^ 2))) =
        fun z => Real.exp (-1 * z "y" ^ 2) * Real.exp (-(1 / 2) * z "z" ^ 2) := by
      funext z
      rw [← Real.exp_add]
      congr 1
      ring
    dsimp only at q1
    rw [e4, integrate_two] at q1
    simp only [stdItem, List.map_cons, List.map_nil, List.sum_cons, List.sum_nil, add_zero] at q2 q3
    rw [integrate_gauss] at q2
    have q3' : Real.exp (j.2 x) = Real.exp (-(1 / 2) * x "x" ^ 2) := by
      rw [← q3]
      unfold integrateOut
      simp [setVars, Measure.real, volume_pi]
    refine ⟨by positivity, ?_⟩
    rw [Real.exp_add, Real.exp_add, Real.exp_add, Real.exp_zero, q3', ← q1, ← q2]
    have h5 : √(Real.pi / (1 / 2)) * √(Real.pi / (1 / 2)) = 2 * Real.pi := by
      rw [Real.mul_self_sqrt (by positivity)]
      ring
    rw [div_one]
    linear_combination (√Real.pi * Real.exp (-(1 / 2) * x "x" ^ 2)) * h5

/-! ### Variables that are not listed -/

/-- **C65 (violation).** A variable that a factor has but `var_names` does not list (after a product with a factor over
a new variable, `C63_new_variable`) is never integrated out: it stays in the result although another variable is
asked for. -/
theorem C65_unlisted (hs : HashSeed) {a : Fact} {is : List Item} (ha : IsFact a is)
    (hP : ∀ i ∈ is, PosOn i.2 (· ∈ i.1)) {u v : Var} (hu : u ∉ a.vars) (hui : ∃ i ∈ is, u ∈ i.1) (hv : v ∈ a.vars)
    (hvi : ∃ i ∈ is, v ∈ i.1) (hall : ∀ w ∈ a.vars, w = v) :
    ∃ r M S, marginalize hs a [v] = .ok r ∧ Yields r M S ∧ S u ∧ u ≠ v := by
  obtain ⟨r, M, h1, h2, -⟩ := marginalize_den hs ha (vrs := [v]) true (by simpa using hv) (by
      obtain ⟨i, hi, hvi⟩ := hvi
      exact ⟨i, hi, v, hvi, hv, by simp⟩) (out := []) .nil (by
      intro w
      simp only [List.not_mem_nil, List.mem_singleton, iff_true, false_iff]
      exact fun h => h.1.2 (hall w h.1.1))
    (by rintro i - j - k - ⟨w, hw, -⟩; simp at hw)
    (by
      intro z hz hS
      exact absurd (funext fun w => hS w (by simp)) hz)
    (fun g _ hg => .inr (by
      obtain ⟨fs', h⟩ := forall₂_sublist ha hg
      intro z hz hS
      exact posOn_total h (fun i hi => hP i (hg.subset hi)) z hz fun v hv => hS v fun h => hv (List.mem_flatMap.1 h)))
  exact ⟨r, M, _, h1, h2, ⟨hui, by simp⟩, fun h => hu (h ▸ hv)⟩

/-- The hypotheses of `C65_unlisted` are met by the product of a factorised factor over `a` and a Gaussian over
`b`. -/
example (hs : HashSeed) : ∃ g r is, multiply hs ⟨["a"], [⟨_, std ["a"]⟩]⟩ ⟨_, std ["b"]⟩ = .ok (g, r) ∧ IsFact r is ∧
    (∀ i ∈ is, PosOn i.2 (· ∈ i.1)) ∧ "b" ∉ r.vars ∧ (∃ i ∈ is, "b" ∈ i.1) ∧ "a" ∈ r.vars ∧ (∃ i ∈ is, "a" ∈ i.1) ∧
    ∀ w ∈ r.vars, w = "a" := by
  have ha : IsFact ⟨["a"], [⟨_, std ["a"]⟩]⟩ [stdItem ["a"]] := .cons (std_den (by decide)).toDen .nil
  obtain ⟨k, e, d, hc, -, hv⟩ := copy_den hs ha
  have hkv : ∀ v, v ∈ k.vars ↔ v = "a" := by
    intro v
    rw [hc, mem_scope d]
    simp [stdItem]
  have hno : firstIndex k.factors (std ["b"]).vars = none := by
    rw [firstIndex_none]
    intro f hf h
    have h1 := h "b" (by simp [std])
    have h2 : f.2.vars ∈ k.factors.map fun k => k.2.vars := List.mem_map_of_mem (f := fun k : AnyG => k.2.vars) hf
    rw [hv] at h2
    simp [std] at h2
    rw [h2] at h1
    simp at h1
  refine ⟨⟨_, std ["b"]⟩, { k with factors := k.factors ++ [⟨_, std ["b"]⟩] }, [stdItem ["a"], stdItem ["b"]], ?_,
    List.rel_append d (.cons (std_den (by decide)).toDen .nil), ?_, ?_, ?_, ?_, ?_, ?_⟩
  · unfold multiply
    rw [e]
    dsimp only [bind, Except.bind]
    rw [hno]
  · simp only [List.mem_cons, List.not_mem_nil, or_false]
    rintro i (rfl | rfl) <;> exact std_pos _
  · simp [hkv]
  · simp [stdItem]
  · simp [hkv]
  · simp [stdItem]
  · simp [hkv]

end Verif.Fact
