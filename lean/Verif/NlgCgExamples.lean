import Verif.NlgCgProps2
import Verif.ClusterExamples

/-!
# C124: concrete cluster graphs with non-linear Gaussians
-/

namespace Verif.CG
open Spec (override IntegrableOut integrateOut normalDensity)
open Gauss (AnyG Made Denotes Good canOf)
open NLG (Covered exN exN_isNLG exNT_computes part_std log_normalDensity_one)
open Fact (std stdItem std_den std_mk PosOn)
open Classical Matrix

variable {hs : HashSeed}

theorem std_ok {vs : List Var} (h : vs.Nodup) : GaussOk ⟨_, std vs⟩ :=
  ⟨(std_den h).1.made, (std_den h).1.good, fun h => by cases h⟩

theorem std_copy {vs : List Var} (h : vs.Nodup) : (std vs).copy = .ok (std vs) := std_mk h

theorem copyG_std {vs : List Var} (h : vs.Nodup) : Mix.copyG ⟨_, std vs⟩ = .ok ⟨_, std vs⟩ := by
  unfold Mix.copyG
  dsimp only
  rw [std_copy h]
  rfl

theorem gaussDen_std {vs : List Var} (h : vs.Nodup) (x : Var → ℝ) : gaussDen ⟨_, std vs⟩ x = Real.exp ((stdItem vs).2 x) :=
  gaussDen_of (std_den h).1.den x

theorem exN_ok {cond : Option AnyG} {C : (Var → ℝ) → ℝ} (h : NLG.Part cond ["a", "b"] C)
    (hc : ∀ g, cond = some g → GaussOk g ∧ g.2.vars ≠ []) {ev : Dict Var ℝ} (he : (Dict.keys ev).Nodup) : NlgOk (exN cond ev) :=
  .of (exN_isNLG h he) (by simp [exN]) PosDef.one ⟨_, _, exNT_computes⟩
    (by rintro g ⟨⟩; exact std_ok (by decide)) hc

theorem exN_ok_none : NlgOk (exN none []) :=
  exN_ok (cond := none) (C := fun _ => 0) (fun _ => rfl) (fun g h => by cases h) (by simp [Dict.keys])

theorem exN_ok_ab {ev : Dict Var ℝ} (he : (Dict.keys ev).Nodup) : NlgOk (exN (some ⟨_, std ["a", "b"]⟩) ev) :=
  exN_ok (part_std (by decide) fun _ h => h) (by rintro g ⟨⟩; exact ⟨std_ok (by decide), by simp [std]⟩) he

theorem exN_den {cond : Option AnyG} {C : (Var → ℝ) → ℝ} (h : NLG.Part cond ["a", "b"] C) {ev : Dict Var ℝ}
    (he : (Dict.keys ev).Nodup) (x : Var → ℝ) : nlgDen (exN cond ev) x = Real.exp (
      C (override ev x) + -(1 / 2) * override ev x "c" ^ 2 + Real.log (normalDensity (1 : Matrix (Fin 1) (Fin 1) ℝ) 0 0) -
        1 / 2 * (override ev x "c" - (override ev x "a" + 2 * override ev x "b" + 3)) ^ 2) := by
  rw [nlgDen_exp (exN_isNLG h he) PosDef.one exNT_computes]
  congr 1
  show (0 : ℝ) + C (override ev x) + (stdItem ["c"]).2 (override ev x) + Real.log (normalDensity (1 : Matrix (Fin 1) (Fin 1) ℝ)
    (fun i => ((["a", "b"] : List Var).map fun v => (fun _ w => if w = "a" then 1 else 2 : Fin 1 → Var → ℝ) i v *
      override ev x v).sum + (fun _ => 3 : Fin 1 → ℝ) i) fun i => override ev x ((["c"] : List Var)[i.1])) = _
  rw [log_normalDensity_one]
  simp [stdItem]
  ring

theorem copy_exN {cond : Option AnyG} (hc : cond = none ∨ cond = some ⟨_, std ["a", "b"]⟩) (ev : Dict Var ℝ) :
    NLG.copy (exN cond ev) = .ok (exN cond ev) := by
  have h1 : Mix.copyG ⟨_, std ["a", "b", "c"]⟩ = .ok ⟨_, std ["a", "b", "c"]⟩ := copyG_std (by decide)
  have h2 : Mix.copyG ⟨_, std ["c"]⟩ = .ok ⟨_, std ["c"]⟩ := copyG_std (by decide)
  have h3 : Mix.copyG ⟨_, std ["a", "b"]⟩ = .ok ⟨_, std ["a", "b"]⟩ := copyG_std (by decide)
  have h4 : NLG.copyOpt cond = .ok cond := by
    rcases hc with rfl | rfl
    · rfl
    · unfold NLG.copyOpt
      dsimp only
      rw [h3]
      rfl
  have h5 : NLG.copyOpt (some ⟨_, std ["c"]⟩) = .ok (some ⟨_, std ["c"]⟩) := by
    unfold NLG.copyOpt
    dsimp only
    rw [h2]
    rfl
  have h6 : NLG.initJoint (["a", "b"] ++ ["c"]) (some ⟨_, std ["a", "b", "c"]⟩) = .ok ⟨_, std ["a", "b", "c"]⟩ := h1
  have g1 : pyGuard .valueError (decide (∀ v ∈ (["a", "b"] : List Var), v ∉ (["c"] : List Var))) = .ok () := by simp [pyGuard]
  have g2 : pyGuard .valueError (decide ((["a", "b"] : List Var) ++ ["c"]).Nodup) = .ok () := by simp [pyGuard]
  have g3 : pyGuard .valueError (decide (1 = (["c"] : List Var).length)) = .ok () := by simp [pyGuard]
  unfold NLG.copy NLG.make exN
  dsimp only
  rw [g1, py_bind_ok, g2, py_bind_ok, g3, py_bind_ok, dif_pos rfl, h4, py_bind_ok, h5, py_bind_ok, h6, py_bind_ok]

theorem mul_exN : gnMultiply hs (.inr (exN none [])) (.inl ⟨_, std ["a", "b"]⟩) =
    .ok (.inr (exN (some ⟨_, std ["a", "b"]⟩) [])) := by
  have h3 : Mix.copyG ⟨_, std ["a", "b"]⟩ = .ok ⟨_, std ["a", "b"]⟩ := copyG_std (by decide)
  show (do
    let k ← (std ["a", "b"]).copy
    let (_, r) ← NLG.multiply (exN none []) ⟨_, k⟩
    .ok (.inr r) : Py GN) = _
  rw [std_copy (by decide), py_bind_ok]
  unfold NLG.multiply
  rw [copy_exN (.inl rfl), py_bind_ok, if_neg (by simp [std]), if_neg (by simp [std, exN]), if_pos (by simp [std, exN])]
  unfold NLG.mulPart
  rw [show (exN none []).cond = none from rfl]
  dsimp only
  rw [h3]
  rfl

theorem reduce_exN (v : ℝ) : gnReduce hs (.inr (exN (some ⟨_, std ["a", "b"]⟩) [])) ["c"] [v] =
    .ok (.inr (exN (some ⟨_, std ["a", "b"]⟩) [("c", v)])) := by
  show (do let r ← NLG.reduce (exN (some ⟨_, std ["a", "b"]⟩) []) ["c"] [v]; .ok (.inr r) : Py GN) = _
  unfold NLG.reduce
  rw [copy_exN (.inr rfl), py_bind_ok, py_bind_ok]
  rfl

theorem exN_c_proper (v : ℝ) :
    NLG.Proper (exN (some ⟨_, std ["a", "b"]⟩) [("c", v)]) ⟨_, std ["a", "b"]⟩ (stdItem ["a", "b"]).2 where
  cond := rfl
  covered := fun v hv => .inl hv
  free := ⟨"a", by show "a" ∈ (["a", "b"] : List Var); decide, by show "a" ∉ (["c"] : List Var); decide⟩
  pos := by
    intro z hz hS
    obtain ⟨w, hw⟩ := Function.ne_iff.1 hz
    have hm : w = "a" ∨ w = "b" := by
      by_contra hne
      refine hw (hS w ?_)
      rintro ⟨h1, -⟩
      have h1' : w ∈ (["a", "b"] : List Var) := h1
      simp_all
    have hpos : 0 < z "a" ^ 2 + z "b" ^ 2 := by
      rcases hm with rfl | rfl
      · have := sq_pos_of_ne_zero hw
        positivity
      · have := sq_pos_of_ne_zero hw
        positivity
    simp [exN, stdItem, override, Dict.get?]
    nlinarith

theorem override_c (v : ℝ) (x : Var → ℝ) : override ([("c", v)] : Dict Var ℝ) x "a" = x "a" ∧
    override ([("c", v)] : Dict Var ℝ) x "b" = x "b" ∧ override ([("c", v)] : Dict Var ℝ) x "c" = v := by
  refine ⟨?_, ?_, ?_⟩ <;> simp [override, Dict.get?]

theorem exN_J (z : Var → ℝ) : (0 : ℝ) + (stdItem ["a", "b"]).2 z + (stdItem ["c"]).2 z +
      Real.log (normalDensity (1 : Matrix (Fin 1) (Fin 1) ℝ)
          (fun i => ((["a", "b"] : List Var).map fun v =>
            (fun _ w => if w = "a" then 1 else 2 : Fin 1 → Var → ℝ) i v * z v).sum + (fun _ => 3 : Fin 1 → ℝ) i)
          fun i => z ((["c"] : List Var)[i.1])) = -(1 / 2) * (z "a" ^ 2 + z "b" ^ 2) + -(1 / 2) * z "c" ^ 2 +
      Real.log (normalDensity (1 : Matrix (Fin 1) (Fin 1) ℝ) 0 0) - 1 / 2 * (z "c" - (z "a" + 2 * z "b" + 3)) ^ 2 := by
  rw [log_normalDensity_one]
  simp [stdItem]
  ring

/-- C124 applies: a prior over `a` and `b`, and `c`, which depends on them and is observed. -/
example (hs : HashSeed) : ∃ a r, new hs (gnOps hs) [.inl ⟨_, std ["a", "b"]⟩, .inr (exN none [])] none [("c", 5)] = .ok a ∧
    getMarginal (gnOps hs) a.graph ["a"] = .ok r ∧ ∃ c : ℝ, 0 < c ∧ ∀ x,
      IntegrableOut ["b"] (fun z => gaussDen ⟨_, std ["a", "b"]⟩ (override [("c", 5)] z) *
        nlgDen (exN none []) (override [("c", 5)] z)) x ∧
      gnDen r x = c * integrateOut ["b"] (fun z => gaussDen ⟨_, std ["a", "b"]⟩ (override [("c", 5)] z) *
        nlgDen (exN none []) (override [("c", 5)] z)) x := by
  have hsub : strictSubset ((gnOps hs).vars (.inl ⟨_, std ["a", "b"]⟩)) ((gnOps hs).vars (.inr (exN none []))) = true := by
    show strictSubset ["a", "b"] ["a", "b", "c"] = true
    decide
  obtain ⟨a, e1, e2, e3, e4, e5⟩ := new_one (ops := gnOps hs) (special := [("c", (5 : ℝ))]) (hs := hs)
    (absorb_second hsub (mul_exN (hs := hs)))
  have hi := exN_isNLG (part_std (vs := ["a", "b"]) (scope := ["a", "b"]) (by decide) fun _ h => h)
    (ev := [("c", (5 : ℝ))]) (by show (["c"] : List Var).Nodup; decide)
  have hcases : ∀ v, v ∈ (["a", "b", "c"] : List Var) ↔ v = "a" ∨ v = "b" ∨ v = "c" := by simp
  obtain ⟨J, hJ⟩ : ∃ J : (Var → ℝ) → ℝ, J = fun x =>
        let z := override (exN (some ⟨_, std ["a", "b"]⟩) [("c", 5)]).ev x
        (0 : ℝ) + (stdItem ["a", "b"]).2 z + (stdItem ["c"]).2 z + Real.log (normalDensity (1 : Matrix (Fin 1) (Fin 1) ℝ)
          (fun i => ((["a", "b"] : List Var).map fun v =>
            (fun _ w => if w = "a" then 1 else 2 : Fin 1 → Var → ℝ) i v * z v).sum + (fun _ => 3 : Fin 1 → ℝ) i)
          fun i => z ((["c"] : List Var)[i.1])) := ⟨_, rfl⟩
  have hpos : PosOn J fun v => (v ∈ (["a", "b"] : List Var) ∨ v ∈ (["c"] : List Var)) ∧
      v ∉ Dict.keys (exN (some ⟨_, std ["a", "b"]⟩) [("c", 5)]).ev := by
    intro z hz hS
    obtain ⟨w, hw⟩ := Function.ne_iff.1 hz
    have hm : w = "a" ∨ w = "b" := by
      by_contra hne
      refine hw (hS w ?_)
      rintro ⟨h1, h2⟩
      have h2' : w ∉ (["c"] : List Var) := h2
      simp_all
    have hpos : 0 < z "a" ^ 2 + z "b" ^ 2 := by
      rcases hm with rfl | rfl
      · have := sq_pos_of_ne_zero hw
        positivity
      · have := sq_pos_of_ne_zero hw
        positivity
    rw [hJ]
    dsimp only
    simp only [exN_J]
    rw [show (exN (some ⟨_, std ["a", "b"]⟩) [("c", 5)]).ev = [("c", 5)] from rfl]
    simp only [override_c, Pi.neg_apply, Pi.zero_apply]
    nlinarith [sq_nonneg (z "a" + 2 * z "b")]
  have hfr : ∀ v, (v ∈ (["a", "b"] : List Var) ∨ v ∈ (["c"] : List Var)) ∧ v ∉ Dict.keys ([("c", 5)] : Dict Var ℝ) ↔
      v ∈ (["a", "b"] : List Var) := by
    intro v
    show _ ∧ v ∉ (["c"] : List Var) ↔ _
    simp only [List.mem_cons, List.not_mem_nil, or_false]
    constructor
    · rintro ⟨h1 | h1, h2⟩
      · exact h1
      · exact absurd h1 h2
    · rintro (rfl | rfl) <;> simp
  obtain ⟨r, M, hr, -⟩ := NLG.C86_marginalize hs hi (by simp [exN]) PosDef.one exNT_computes (exN_c_proper 5) hJ hpos
    (vrs := ["a"]) (by decide) (fun v hv => (hfr v).2 (by simp_all))
  obtain ⟨r2, M2, -, -, -, hall⟩ := NLG.C86_marginalize hs hi (by simp [exN]) PosDef.one exNT_computes (exN_c_proper 5) hJ hpos
    (vrs := []) (by decide) (fun v hv => by cases hv)
  have hobs : observe (gnOps hs) [("c", 5)] (.inr (exN (some ⟨_, std ["a", "b"]⟩) [])) =
      .ok (.inr (exN (some ⟨_, std ["a", "b"]⟩) [("c", 5)])) := reduce_exN (hs := hs) 5
  have hm : getMarginal (gnOps hs) a.graph ["a"] = .ok (.inl r) := by
    rw [getMarginal_one e2 e5 (by show ∀ v ∈ ["a"], v ∈ ["a", "b", "c"]; decide), e4, hobs, py_bind_ok]
    show (do let r ← NLG.marginalize hs _ ["a"] true; .ok (.inl r) : Py GN) = _
    rw [hr, py_bind_ok]
  have hden : ∀ y, nlgDen (exN (some ⟨_, std ["a", "b"]⟩) []) (override [("c", 5)] y) = Real.exp (J y) := by
    intro y
    rw [exN_den (part_std (by decide) fun _ h => h) (by simp [Dict.keys]), hJ]
    dsimp only
    rw [exN_J, show (exN (some ⟨_, std ["a", "b"]⟩) [("c", 5)]).ev = [("c", 5)] from rfl]
    rw [show override ([] : Dict Var ℝ) (override [("c", 5)] y) = override [("c", 5)] y from rfl]
    simp only [override_c]
    simp [stdItem, override_c]
  refine ⟨a, _, e1, hm, ?_⟩
  obtain ⟨n, m, g⟩ := a
  dsimp only at *
  subst e2 e3
  obtain ⟨c, hc, hx⟩ := C124_exact_partial hs _ (by
      intro f hf
      simp only [List.mem_cons, List.not_mem_nil, or_false] at hf
      rcases hf with rfl | rfl
      · exact std_ok (by decide)
      · exact exN_ok_none) (by
      intro b hb
      simp only [List.mem_cons, List.not_mem_nil, or_false] at hb
      rcases hb with hb | hb
      · cases hb
      · injection hb with hb
        rw [hb]
        rfl) (by
      rintro f b hf hb ⟨-, v, h1, h2⟩
      simp only [List.mem_cons, List.not_mem_nil, or_false] at hf hb
      rcases hf with hf | hf
      · rcases hb with hb | hb
        · cases hb
        · injection hf with hf
          injection hb with hb
          subst hf hb
          have h1' : v ∈ (["a", "b"] : List Var) := h1
          have h2' : v ∉ (["a", "b", "c"] : List Var) := h2
          simp only [List.mem_cons, List.not_mem_nil, or_false] at h1' h2'
          tauto
      · cases hf) (by
      intro f hf k hk hv
      simp only [List.mem_cons, List.not_mem_nil, or_false] at hf
      rcases hf with hf | hf
      · injection hf with hf
        subst hf
        rw [show (std ["a", "b"]).copy = _ from std_copy (by decide)] at hk
        cases hk
        cases hv
      · cases hf) [("c", 5)] _ e1 (acyclic_of_two (show 1 ≤ 2 by decide) _) [] g .start (fun e he => by cases he)
    (fun q => q.elim0) (fun i => ⟨["a", "b"], 0, by decide, fun v => by
      unfold scope
      rw [e5]
      show v ∈ (["a", "b"] : List Var) ↔ v ∈ (["a", "b", "c"] : List Var) ∧ v ∉ (["c"] : List Var)
      simp only [List.mem_cons, List.not_mem_nil, or_false]
      constructor
      · rintro (rfl | rfl) <;> simp
      · tauto, by
      rw [e5]
      rw [show (fun y => gnDen (.inr (exN (some ⟨_, std ["a", "b"]⟩) [])) (override [("c", 5)] y)) =
        fun y => Real.exp (J y) from funext hden]
      exact ((hall ["a", "b"] (by decide) fun v => by
        rw [and_iff_left (by simp : v ∉ ([] : List Var))]
        exact (hfr v).symm) 0).1⟩) (fun i b hb v hv => by
      rw [e5] at hb
      injection hb with hb
      subst hb
      exact .inl hv) ["a"] (by decide) (by
      show ∀ v ∈ (["a"] : List Var), v ∉ (["c"] : List Var)
      decide) _ hm _ (fun x => rfl)
  refine ⟨c, hc, fun x => ?_⟩
  have := hx ["b"] (by decide) (fun v => ?_) x
  · simpa [gnDen] using this
  · simp only [List.mem_cons, List.not_mem_nil, or_false, exists_eq_or_imp, exists_eq_left]
    show v = "b" ↔ (v ∈ (["a", "b"] : List Var) ∨ v ∈ (["a", "b", "c"] : List Var)) ∧ v ∉ (["c"] : List Var) ∧ ¬ v = "a"
    simp only [List.mem_cons, List.not_mem_nil, or_false]
    constructor
    · rintro rfl
      simp
    · tauto

/-- The product of the factors is no multiple of a factor of its own: `exN` is not constant. -/
theorem exN_not_const (c : ℝ) : ∃ x : Var → ℝ, nlgDen (exN none []) x ≠ c := by
  by_contra h
  push Not at h
  have h1 := h fun _ => 0
  have h2 := h fun v => if v = "a" then 1 else 0
  rw [← h1, exN_den (cond := none) (C := fun _ => 0) (fun _ => rfl) (by simp [Dict.keys]),
    exN_den (cond := none) (C := fun _ => 0) (fun _ => rfl) (by simp [Dict.keys]), Real.exp_eq_exp] at h2
  simp [override] at h2
  norm_num at h2

/-- `C124_swallowed` applies: no trace is left of the non-linear Gaussian, so the cluster is no multiple of the
product. -/
theorem C124_swallowed_witness (hs : HashSeed) : ∃ g r,
    new hs (gnOps hs) [.inl ⟨_, std ["a", "b", "c", "d"]⟩, .inr (exN none [])] none [] = .ok g ∧ g.n = 1 ∧
    (∀ i, (g.graph.cl i).factor = .inl r) ∧
    ¬ ∃ c : ℝ, ∀ x, gaussDen r x = c * (gaussDen ⟨_, std ["a", "b", "c", "d"]⟩ x * nlgDen (exN none []) x) := by
  obtain ⟨g, r, h1, h2, h3, -, h4⟩ := C124_swallowed hs ⟨_, std ["a", "b", "c", "d"]⟩ (exN none []) (std_ok (by decide))
    exN_ok_none rfl rfl (by simp [exN]) ⟨by
      show ∀ v ∈ (["a", "b", "c"] : List Var), v ∈ (["a", "b", "c", "d"] : List Var)
      decide, by
      show ∃ v ∈ (["a", "b", "c", "d"] : List Var), v ∉ (["a", "b", "c"] : List Var)
      decide⟩ []
  refine ⟨g, r, h1, h2, h3, ?_⟩
  rintro ⟨c, hc⟩
  obtain ⟨x, hx⟩ := exN_not_const c⁻¹
  have hp := gaussDen_pos (std_ok (vs := ["a", "b", "c", "d"]) (by decide)) x
  have := hc x
  rw [h4] at this
  refine hx (eq_inv_of_mul_eq_one_right ?_)
  have h5 : gaussDen ⟨_, std ["a", "b", "c", "d"]⟩ x * (c * nlgDen (exN none []) x) =
      gaussDen ⟨_, std ["a", "b", "c", "d"]⟩ x * 1 := by
    rw [mul_one]
    conv_rhs => rw [this]
    ring
  exact mul_left_cancel₀ hp.ne' h5

/-- `C124_inputs_observed` applies. -/
example (hs : HashSeed) : ∃ g, new hs (gnOps hs) [.inr (exN none [])] none [("a", 1), ("b", 2)] = .ok g ∧
    getMarginal (gnOps hs) g.graph ["c"] = .error .unboundLocalError := by
  obtain ⟨g, h1, h2⟩ := C124_inputs_observed hs (exN none []) exN_ok_none rfl rfl [("a", 1), ("b", 2)] (by
    show ∀ v ∈ (["a", "b"] : List Var), v ∈ (["a", "b"] : List Var)
    exact fun _ h => h)
  exact ⟨g, h1, h2 ["c"] (by show ∀ v ∈ (["c"] : List Var), v ∈ (["a", "b", "c"] : List Var); decide)⟩

/-- `C124_flat` applies: `b` and `c` are observed, the marginal over `a` is flat, the product is not. -/
theorem C124_flat_witness (hs : HashSeed) : ∃ g r,
    new hs (gnOps hs) [.inr (exN none [])] none [("b", 2), ("c", 5)] = .ok g ∧
    getMarginal (gnOps hs) g.graph ["a"] = .ok r ∧
    ¬ ∃ c : ℝ, ∀ x, gnDen r x = c * nlgDen (exN none []) (override [("b", 2), ("c", 5)] x) := by
  obtain ⟨g, r, h1, h2, -, h3⟩ := C124_flat hs (exN none []) exN_ok_none rfl rfl [("b", 2), ("c", 5)] ["a"] (by decide)
    (by decide) (by
      show ∀ v ∈ (["a"] : List Var), v ∈ (["a", "b"] : List Var) ∧ v ∉ (["b", "c"] : List Var)
      decide)
  refine ⟨g, _, h1, h2, ?_⟩
  rintro ⟨c, hc⟩
  have k1 := hc fun _ => 0
  have k2 := hc fun _ => 1
  rw [show gnDen (.inl r) _ = 1 from h3 _] at k1 k2
  have hc0 : c ≠ 0 := by
    rintro rfl
    simp at k1
  have k3 := mul_left_cancel₀ hc0 (k1.symm.trans k2)
  rw [exN_den (cond := none) (C := fun _ => 0) (fun _ => rfl) (by simp [Dict.keys]),
    exN_den (cond := none) (C := fun _ => 0) (fun _ => rfl) (by simp [Dict.keys]), Real.exp_eq_exp] at k3
  simp [override] at k3
  norm_num at k3

end Verif.CG
