import Verif.NlgMixProps3
import Verif.NonLinProps4

/-!
# Concrete mixtures of non-linear Gaussians that meet the hypotheses of C90 to C95
-/

namespace Verif.NlgMix
open Matrix Gauss Spec _root_.Verif.Fact _root_.Verif.NLG

/-- Two components with `c = a + 2 b + 3`, standard conditioning factors over `a`, `b` and standard update factors. The
second has weight `exp 1`. -/
noncomputable def exA (ev : Dict Var ℝ) (s : Bool) : NlgMix :=
  ⟨["a", "b", "c"], [exN (some ⟨_, std ["a", "b"]⟩) ev, NLG.addLogWeight (exN (some ⟨_, std ["a", "b"]⟩) ev) 1], s⟩

/-- The parts of a component. -/
noncomputable def exP : Parts := ((stdItem ["c"]).2, (stdItem ["a", "b"]).2)

theorem exC {ev : Dict Var ℝ} (he : (Dict.keys ev).Nodup) (w : ℝ) :
    Comp ["a", "b", "c"] (NLG.addLogWeight (exN (some ⟨_, std ["a", "b"]⟩) ev) w) exP := by
  have h := exN_isNLG (part_std (vs := ["a", "b"]) (scope := ["a", "b"]) (by decide) fun v h => h) he
  exact ⟨⟨h.nodup, h.q, h.upd, h.cond, h.joint, h.ev⟩, fun v => Iff.rfl⟩

theorem exC0 {ev : Dict Var ℝ} (he : (Dict.keys ev).Nodup) :
    Comp ["a", "b", "c"] (exN (some ⟨_, std ["a", "b"]⟩) ev) exP :=
  ⟨exN_isNLG (part_std (vs := ["a", "b"]) (scope := ["a", "b"]) (by decide) fun v h => h) he, fun v => Iff.rfl⟩

theorem exA_ok {ev : Dict Var ℝ} (he : (Dict.keys ev).Nodup) (s : Bool) : IsNlgMix (exA ev s) [exP, exP] :=
  ⟨by simp [exA], by simp [exA], .cons (exC0 he) (.cons (exC he 1) .nil)⟩

theorem keysB : (Dict.keys ([("b", 2)] : Dict Var ℝ)).Nodup := by
  show (["b"] : List Var).Nodup
  decide

/-- Two components over `a`. -/
noncomputable def exG : Mix := ⟨["a"], [⟨1, exOne⟩, ⟨1, std ["a"]⟩], 0⟩

theorem exOne_comp : Mix.Comp ["a"] ⟨1, exOne⟩ (logOf exOne exOne_good.len) :=
  ⟨.ofCov (vars := ["a"]) (v := ⟨1, ![4], 3⟩) PosDef.one (mkCov_ok (by decide) rfl), exOne_good.denotes, rfl⟩

theorem exG_ok : Mix.IsMix exG [logOf exOne exOne_good.len, (stdItem ["a"]).2] :=
  ⟨by simp [exG], .cons exOne_comp (.cons (std_den (vs := ["a"]) (by decide)).1.comp .nil)⟩

/-- One component over `a`, with weight `exp 3`. -/
noncomputable def exS : Mix := ⟨["a"], [⟨1, exOne⟩], 0⟩

theorem exS_ok : Mix.IsMix exS [logOf exOne exOne_good.len] := ⟨by simp [exS], .cons exOne_comp .nil⟩

theorem exS_proper : ∀ g ∈ exS.comps, Gauss.isVacuous g.2 = false ∧ ∃ g0 c, g.2.getCan = .ok (g0, c) ∧ c.prec.PosDef := by
  intro g hg
  obtain rfl : g = ⟨1, exOne⟩ := by simpa [exS] using hg
  exact ⟨rfl, _, _, getCan_valid exOne_good.toValid, PosDef.one.inv⟩

/-- C90: four components. -/
example : ∃ m' r, multiply (exA [("b", 2)] true) exG = .ok (m', r) ∧ r.nlgs.length = 4 := by
  obtain ⟨m', r, Rs, e, -, -, hl, -⟩ := C90_multiply_partial (exA_ok keysB true) exG_ok (by
    intro g hg
    simp [exG] at hg
    rcases hg with rfl | rfl <;> rfl) (fun f hf => .inr (by
    simp [exA] at hf
    rcases hf with rfl | rfl <;> simp [exG, exN, NLG.addLogWeight])) (by simp [exG])
  exact ⟨m', r, e, hl⟩

/-- C90: six components for one. -/
example : ∃ m' r, multiply (exA [("b", 2)] true) exS = .ok (m', r) ∧ r.nlgs.length = 6 := by
  obtain ⟨m', r, Rs, F, e, -, -, hl, -⟩ := C90_split_partial (exA_ok keysB true) exS_ok rfl rfl exS_proper (fun f hf => .inr (by
    simp [exA] at hf
    rcases hf with rfl | rfl <;> simp [exN, NLG.addLogWeight]))
  exact ⟨m', r, e, hl⟩

theorem exOne_integral (x : Var → ℝ) : integrateOut ["a"] (fun z => Real.exp (logOf exOne exOne_good.len z)) x = Real.exp 3 := by
  rw [show ["a"] = exOne.vars from rfl, (integrate_good exOne_good PosDef.one.inv x).2]
  have : toCov (canOf exOne) = ⟨1, ![4], 3⟩ := toCov_toCan (v := ⟨1, ![4], 3⟩) (by simp)
  rw [this]

/-- C90: the weight of the operand is lost. -/
example : ∃ m' r Rs, multiply (exA [("b", 2)] true) exS = .ok (m', r) ∧ ∃ x,
    value (fun _ _ => 1) r.nlgs Rs x ≠ value (fun _ _ => 1) (exA [("b", 2)] true).nlgs [exP, exP] x *
      Mix.mixFn [logOf exOne exOne_good.len] x := by
  obtain ⟨m', r, Rs, e, -, h⟩ := C90_violated (exA_ok keysB true) exS_ok rfl rfl exS_proper (fun f hf => .inr (by
    simp [exA] at hf
    rcases hf with rfl | rfl <;> simp [exN, NLG.addLogWeight])) (x0 := fun _ => 0) (by
      rw [exOne_integral]
      exact (Real.one_lt_exp_iff.2 (by norm_num)).ne')
  refine ⟨m', r, Rs, e, h (fun _ _ => 1) (fun _ _ _ => rfl) fun x => ?_⟩
  simp only [exA, value, List.zipWith, List.sum_cons, List.sum_nil]
  positivity

/-- C90: a scope that belongs to neither part. -/
example : multiply (exA [] true) ⟨["c", "a"], [⟨2, std ["c", "a"]⟩], 0⟩ = .error .valueError :=
  C90_scope (exA_ok (by simp [Dict.keys]) true) (m := ⟨["c", "a"], [⟨2, std ["c", "a"]⟩], 0⟩)
    (Gs := [(stdItem ["c", "a"]).2]) ⟨by simp, .cons (std_den (vs := ["c", "a"]) (by decide)).1.comp .nil⟩ (by
      intro g hg
      obtain rfl : g = ⟨2, std ["c", "a"]⟩ := by simpa using hg
      rfl) ⟨exN (some ⟨_, std ["a", "b"]⟩) [], by simp [exA], by simp [exN], by simp [exN]⟩ (by simp)

/-- The exact joint of a component with weight `exp w`, at the evidence. -/
noncomputable def exJ (ev : Dict Var ℝ) (w : ℝ) : (Var → ℝ) → ℝ := fun x =>
  let z := override ev x
  w + exP.2 z + exP.1 z + Real.log (normalDensity (1 : Matrix (Fin 1) (Fin 1) ℝ)
    (fun i => ((["a", "b"] : List Var).map fun v => (fun _ w => if w = "a" then 1 else 2 : Fin 1 → Var → ℝ) i v * z v).sum +
      (fun _ => 3 : Fin 1 → ℝ) i) fun i => z ((["c"] : List Var)[i.1]))

theorem exA_affine : Affine (exN (some ⟨_, std ["a", "b"]⟩) [("b", 2)]) exP (exJ [("b", 2)] 0) :=
  ⟨(exC0 keysB).nlg, by simp [exN], PosDef.one, _, _, _, exNT_computes, exN_proper, rfl⟩

theorem exA_affine' (w : ℝ) : Affine (NLG.addLogWeight (exN (some ⟨_, std ["a", "b"]⟩) [("b", 2)]) w) exP (exJ [("b", 2)] w) := by
  refine ⟨(exC keysB w).nlg, by simp [exN, NLG.addLogWeight], PosDef.one, _, _, _, exNT_computes,
    ⟨exN_proper.cond, exN_proper.covered, exN_proper.free, exN_proper.pos⟩, ?_⟩
  funext x
  simp [exJ, NLG.addLogWeight, exN]

theorem exA_all (s : Bool) : AllAffine (exA [("b", 2)] s) [(exP, exJ [("b", 2)] 0), (exP, exJ [("b", 2)] 1)] :=
  .cons exA_affine (.cons (exA_affine' 1) .nil)

theorem exA_same (ev : Dict Var ℝ) (s : Bool) : ∀ f ∈ (exA ev s).nlgs, ∀ f' ∈ (exA ev s).nlgs,
    condVars f.cond = condVars f'.cond ∧ f.ys = f'.ys ∧ ∀ v, v ∈ Dict.keys f.ev ↔ v ∈ Dict.keys f'.ev := by
  have key : ∀ f ∈ (exA ev s).nlgs, condVars f.cond = ["a", "b"] ∧ f.ys = ["c"] ∧ f.ev = ev := by
    intro f hf
    simp [exA] at hf
    rcases hf with rfl | rfl <;> exact ⟨rfl, rfl, rfl⟩
  intro f hf f' hf'
  obtain ⟨h1, h2, h3⟩ := key f hf
  obtain ⟨h1', h2', h3'⟩ := key f' hf'
  exact ⟨h1.trans h1'.symm, h2.trans h2'.symm, fun v => by rw [h3, h3']⟩

/-- C91: the joint with `b` observed. -/
example (hs : HashSeed) : ∃ M, jointDistribution hs (exA [("b", 2)] true) = .ok M ∧ M.vars = ["a", "c"] ∧
    Mix.Pot M (Mix.mixFn [exJ [("b", 2)] 0, exJ [("b", 2)] 1]) := by
  obtain ⟨M, e, -, hP, hv⟩ := C91_joint_partial hs (by simp [exA]) (exA_all true) (exA_same _ _)
  refine ⟨M, e, ?_, hP⟩
  rw [(hv (exN (some ⟨_, std ["a", "b"]⟩) [("b", 2)]) (by simp [exA])).1]
  show jointOrder (["a", "b"] : List Var) ["c"] ["b"] = _
  simp [jointOrder, pySorted]

/-- With nothing observed. -/
theorem exN_proper_all {vs : List Var} (h : vs = ["a", "b"] ∨ vs = ["b", "a"]) :
    NLG.Proper (exN (some ⟨_, std vs⟩) []) ⟨_, std vs⟩ (stdItem vs).2 where
  cond := rfl
  covered := by
    intro v hv
    have hv' : v ∈ (["a", "b"] : List Var) := hv
    left
    show v ∈ vs
    rcases h with rfl | rfl <;> simp_all [or_comm]
  free := ⟨"a", by show "a" ∈ vs; rcases h with rfl | rfl <;> decide, by simp [exN, Dict.keys]⟩
  pos := by
    intro z hz hS
    obtain ⟨v, hv⟩ := Function.ne_iff.1 hz
    have hm : v = "a" ∨ v = "b" := by
      by_contra hne
      refine hv (hS v ?_)
      rintro ⟨h1, -⟩
      have h1' : v ∈ vs := h1
      rcases h with rfl | rfl <;> simp_all
    have hpos : 0 < z "a" ^ 2 + z "b" ^ 2 := by
      rcases hm with rfl | rfl
      · have := sq_pos_of_ne_zero hv
        positivity
      · have := sq_pos_of_ne_zero hv
        positivity
    rcases h with rfl | rfl <;> simp [exN, stdItem, override] <;> nlinarith

theorem exN_affine {vs : List Var} (h : vs = ["a", "b"] ∨ vs = ["b", "a"]) :
    ∃ J, Affine (exN (some ⟨_, std vs⟩) []) ((stdItem ["c"]).2, (stdItem vs).2) J :=
  ⟨_, exN_isNLG (part_std (vs := vs) (scope := ["a", "b"]) (by rcases h with rfl | rfl <;> decide)
    (by rcases h with rfl | rfl <;> decide)) (by simp [Dict.keys]), by simp [exN], PosDef.one, _, _, _, exNT_computes,
    exN_proper_all h, rfl⟩

/-- C91: conditioning factors over the same variables in a different order. -/
example (hs : HashSeed) : jointDistribution hs
    ⟨["a", "b", "c"], [exN (some ⟨_, std ["a", "b"]⟩) [], exN (some ⟨_, std ["b", "a"]⟩) []], true⟩ = .error .valueError := by
  obtain ⟨J1, h1⟩ := exN_affine (vs := ["a", "b"]) (.inl rfl)
  obtain ⟨J2, h2⟩ := exN_affine (vs := ["b", "a"]) (.inr rfl)
  refine C91_order hs (Ds := [(_, J1), (_, J2)]) (.cons h1 (.cons h2 .nil)) ⟨_, List.mem_singleton_self _, ?_⟩
  show jointOrder (["b", "a"] : List Var) ["c"] [] ≠ jointOrder (["a", "b"] : List Var) ["c"] []
  decide

theorem exA_vars (ev : Dict Var ℝ) (s : Bool) : ∀ f ∈ (exA ev s).nlgs,
    f.vars = ["a", "b", "c"] ∧ f.ev = ev ∧ condVars f.cond = ["a", "b"] := by
  intro f hf
  simp [exA] at hf
  rcases hf with rfl | rfl <;> exact ⟨rfl, rfl, rfl⟩

/-- C92: `c` is observed as well. -/
example (hs : HashSeed) : ∃ r R, reduce (exA [("b", 2)] true) ["c"] [5] = .ok r ∧ jointDistribution hs r = .ok R ∧
    Mix.Pot R fun x => Mix.mixFn [exJ [("b", 2)] 0, exJ [("b", 2)] 1] (override [("c", 5)] x) := by
  obtain ⟨M, r, R, -, -, h1, h2, -, h3⟩ := C92_reduce hs (a := exA [("b", 2)] true) (by simp [exA]) (exA_all true) (exA_same _ _)
    (fun f hf v => by rw [(exA_vars _ _ f hf).1]; rfl) (vrs := ["c"]) (vals := [5]) (by decide) rfl
    (fun f hf => by
      rw [(exA_vars _ _ f hf).2.1]
      show ∀ v ∈ (["c"] : List Var), v ∉ (["b"] : List Var)
      decide)
    (fun f hf => by
      rw [(exA_vars _ _ f hf).2.1, (exA_vars _ _ f hf).2.2]
      exact ⟨"a", by decide, by show "a" ∉ (["b"] : List Var); decide, by decide⟩)
  exact ⟨r, R, h1, h2, h3⟩

theorem exJ_pos (w : ℝ) : PosOn (exJ [("b", 2)] w) fun v => v ∈ (["a", "b", "c"] : List Var) ∧ v ∉ (["b"] : List Var) := by
  intro z hz hS
  obtain ⟨v, hv⟩ := Function.ne_iff.1 hz
  have hm : v = "a" ∨ v = "c" := by
    by_contra hne
    refine hv (hS v ?_)
    rintro ⟨h1, h2⟩
    simp_all
  have hpos : 0 < z "a" ^ 2 + z "c" ^ 2 := by
    rcases hm with rfl | rfl
    · have := sq_pos_of_ne_zero hv
      positivity
    · have := sq_pos_of_ne_zero hv
      positivity
  obtain ⟨K, hK⟩ : ∃ K, ∀ m y : Fin 1 → ℝ, Real.log (normalDensity (1 : Matrix (Fin 1) (Fin 1) ℝ) m y) =
    K - 1 / 2 * (y 0 - m 0) ^ 2 := ⟨_, log_normalDensity_one⟩
  simp only [exJ, exP, hK]
  simp [stdItem, override]
  nlinarith [sq_nonneg (z "c" - z "a")]

/-- C93: `marginalize` raises; the joint can be marginalized. -/
example (hs : HashSeed) : (∃ e, marginalize hs (exA [("b", 2)] true) ["c"] = .error e) ∧
    ∃ M R, jointDistribution hs (exA [("b", 2)] true) = .ok M ∧ M.marginalize hs ["c"] true = .ok R := by
  refine ⟨C93_never_returns .., ?_⟩
  obtain ⟨M, R, F, h1, h2, -⟩ := C93_joint_marginal_partial hs (by simp [exA]) (exA_all true) (exA_same _ _)
    (fun f hf d hd => by
      rw [(exA_vars _ _ f hf).2.1, (exA_vars _ _ f hf).1]
      simp at hd
      rcases hd with rfl | rfl <;> exact exJ_pos _) (vrs := ["c"]) true (by decide) (fun f hf => by
      rw [(exA_vars _ _ f hf).2.1, (exA_vars _ _ f hf).1]
      show ∀ v ∈ (["c"] : List Var), v ∈ (["a", "b", "c"] : List Var) ∧ v ∉ (["b"] : List Var)
      decide)
  exact ⟨M, R, h1, h2⟩

/-- C94: division by a factor over `c`. -/
example (hs : HashSeed) : ∃ g' r, divideG hs (exA [("b", 2)] true) ⟨_, std ["c"]⟩ = .ok (g', r) := by
  have hd := (std_den (vs := ["c"]) (by decide)).1
  obtain ⟨g', r, Rs, e, -⟩ := C94_divide_returns hs (exA_ok keysB true) hd.made hd.den rfl
    (.cons ⟨⟨_, rfl⟩, fun v hv => hv, .inr ⟨by simp [exN], PosDef.one, exNT_total, _, exN_proper⟩⟩
      (.cons ⟨⟨_, rfl⟩, fun v hv => hv, .inr ⟨by simp [exN, NLG.addLogWeight], PosDef.one, exNT_total, _,
        exN_proper.cond, exN_proper.covered, exN_proper.free, exN_proper.pos⟩⟩ .nil))
  exact ⟨g', r, e⟩

/-- C95: the factor that was told not to split. -/
example : ∃ c m1 r1 m2 r2, copy (exA [("b", 2)] false) = .ok c ∧ multiply (exA [("b", 2)] false) exS = .ok (m1, r1) ∧
    multiply c exS = .ok (m2, r2) ∧ r2.nlgs.length = 3 * r1.nlgs.length ∧ 0 < r1.nlgs.length :=
  C95_violated (exA_ok keysB false) exS_ok rfl rfl exS_proper fun f hf => .inr (by
    simp [exA] at hf
    rcases hf with rfl | rfl <;> simp [exN, NLG.addLogWeight])

end Verif.NlgMix
