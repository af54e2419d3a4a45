import Verif.ClusterProps10
import Verif.ClusterGaussExamples

/-!
# A concrete linear Gaussian network

The conditional distributions of `b` given `a` and of `y` given `b`, with `y` observed, meet the hypotheses of C116,
C117 and C118. Neither can be normalised. None of this is used elsewhere.
-/

namespace Verif.CG
open Spec (override IntegrableOut integrateOut setVars)
open Gauss (AnyG Made Denotes Good canOf)
open Classical Matrix MeasureTheory

/-- The precision of `w - v`, a standard normal. -/
def stepK : Matrix (Fin 2) (Fin 2) ℝ := !![1, -1; -1, 1]

/-- The canonical parameters. -/
def stepC : Can 2 := ⟨stepK, 0, 0⟩

/-- The distribution of `w` given `v` with mean `v` and variance one, up to a constant. -/
noncomputable def stepG (v w : Var) : Gauss 2 := ⟨[v, w], some stepC, none, Gauss.vacParams stepK⟩

theorem stepK_symm : stepK.IsSymm := by
  ext i j
  fin_cases i <;> fin_cases j <;> simp [stepK]

theorem stepG_made {v w : Var} (h : v ≠ w) : Made (stepG v w) :=
  .ofCan (vars := [v, w]) (c := stepC) stepK_symm (by
    rw [Gauss.mkCan_ok (by simpa using h) rfl]
    rfl)

theorem stepG_good {v w : Var} (h : v ≠ w) : Good (stepG v w) :=
  Gauss.good_mkCan (by simpa using h) rfl _ stepK_symm

theorem stepG_den {v w : Var} (h : v ≠ w) (x : Var → ℝ) :
    Real.log (gaussDen ⟨2, stepG v w⟩ x) = -(x w - x v) ^ 2 / 2 := by
  rw [gaussDen_of (f := ⟨2, stepG v w⟩) (stepG_good h).denotes, Real.log_exp]
  unfold Gauss.logOf Gauss.evalCan
  rw [Gauss.canOf_can rfl]
  have e : Gauss.vecAt (stepG v w).vars (stepG_good h).len x = ![x v, x w] := by
    funext i
    fin_cases i <;> rfl
  rw [e]
  simp [stepC, stepK, dotProduct, mulVec, Fin.sum_univ_two]
  ring

theorem stepG_denotes {v w : Var} (h : v ≠ w) : Denotes (stepG v w) (exD ⟨2, stepG v w⟩) := by
  have hd : exD ⟨2, stepG v w⟩ = Gauss.logOf (stepG v w) (stepG_good h).len := by
    funext x
    unfold exD
    rw [gaussDen_of (f := ⟨2, stepG v w⟩) (stepG_good h).denotes, Real.log_exp]
  rw [hd]
  exact (stepG_good h).denotes

/-- A shifted square in one variable. -/
theorem int_one (v : Var) (F : (Var → ℝ) → ℝ) (x : Var → ℝ) (c : ℝ)
    (hF : ∀ y : Fin 1 → ℝ, F (setVars [v] y x) = Real.exp (-(y 0 - c) ^ 2 / 2)) : IntegrableOut [v] F x := by
  unfold IntegrableOut
  refine Integrable.congr (GaussInt.integrable_quad (K := (1 : Matrix (Fin 1) (Fin 1) ℝ)) PosDef.one (fun _ => c)
    (-c ^ 2 / 2)) (Filter.Eventually.of_forall fun y => ?_)
  dsimp only
  rw [hF y]
  congr 1
  simp [dotProduct]
  ring

/-- The two conditional distributions. -/
noncomputable def lgFs : List AnyG := [⟨2, stepG "a" "b"⟩, ⟨2, stepG "b" "y"⟩]

theorem lgFs_local : ∀ f ∈ lgFs, Local exD none [("y", 1)] f := by
  intro f hf
  simp only [lgFs, List.mem_cons, List.not_mem_nil, or_false] at hf
  rcases hf with rfl | rfl
  · have hd := stepG_den (v := "a") (w := "b") (by decide)
    refine ⟨stepG_made (by decide), stepG_denotes (by decide), (by intro h; cases h), ⟨"a", by simp [stepG], by simp [Dict.keys],
      by simp [Dict.keys]⟩, ⟨0, fun x => ?_⟩, fun v hv _ _ => ?_, ⟨"a", ?_⟩⟩
    · unfold exD
      rw [hd]
      nlinarith [sq_nonneg (override ((none : Option (Dict Var ℝ)).getD []) (override [("y", 1)] x) "b" -
        override ((none : Option (Dict Var ℝ)).getD []) (override [("y", 1)] x) "a")]
    · simp only [stepG, List.mem_cons, List.not_mem_nil, or_false] at hv
      rcases hv with rfl | rfl
      · refine ⟨["b"], 0, by simp, fun w => ?_, int_one "b" _ 0 0 fun y => ?_⟩
        · simp only [stepG, Dict.keys, Option.getD_none, List.mem_cons, List.not_mem_nil, or_false, List.map_cons,
            List.map_nil]
          constructor
          · rintro rfl; decide
          · rintro ⟨h1, -, -, h4⟩
            exact h1.resolve_left h4
        · unfold exD
          rw [hd]
          simp [override, setVars]
      · refine ⟨["a"], 0, by simp, fun w => ?_, int_one "a" _ 0 0 fun y => ?_⟩
        · simp only [stepG, Dict.keys, Option.getD_none, List.mem_cons, List.not_mem_nil, or_false, List.map_cons,
            List.map_nil]
          constructor
          · rintro rfl; decide
          · rintro ⟨h1, -, -, h4⟩
            exact h1.resolve_right h4
        · unfold exD
          rw [hd]
          simp [override, setVars]
    · unfold exD
      rw [hd, hd, hd]
      simp [override]
      norm_num
  · have hd := stepG_den (v := "b") (w := "y") (by decide)
    refine ⟨stepG_made (by decide), stepG_denotes (by decide), (by intro h; cases h), ⟨"b", by simp [stepG], by simp [Dict.keys],
      by simp [Dict.keys]⟩, ⟨0, fun x => ?_⟩, fun v hv _ h2 => ?_, ⟨"b", ?_⟩⟩
    · unfold exD
      rw [hd]
      nlinarith [sq_nonneg (override ((none : Option (Dict Var ℝ)).getD []) (override [("y", 1)] x) "y" -
        override ((none : Option (Dict Var ℝ)).getD []) (override [("y", 1)] x) "b")]
    · simp only [stepG, List.mem_cons, List.not_mem_nil, or_false] at hv
      rcases hv with rfl | rfl
      · refine ⟨[], 0, by simp, fun w => ?_, ?_⟩
        · simp only [stepG, Dict.keys, Option.getD_none, List.mem_cons, List.not_mem_nil, or_false, List.map_cons,
            List.map_nil]
          constructor
          · rintro ⟨⟩
          · rintro ⟨h1, -, h3, h4⟩
            rcases h1 with h1 | h1
            · exact h4 h1
            · exact h3 h1
        · unfold IntegrableOut
          have e : ∀ y : Fin ([] : List Var).length → ℝ, setVars [] y (0 : Var → ℝ) = 0 := fun y => by
            funext v
            simp [setVars]
          simp only [e]
          have : IsFiniteMeasure (volume : Measure (Fin ([] : List Var).length → ℝ)) := by
            constructor
            simp [volume_pi]
          exact integrable_const _
      · simp [Dict.keys] at h2
    · unfold exD
      rw [hd, hd, hd]
      simp [override]
      norm_num

theorem lgFs_shared : FewShared lgFs none [("y", 1)] := by
  unfold FewShared lgFs
  rw [List.pairwise_pair]
  intro u v h1 h2 h3 h4 _ h6 _ h8
  simp only [stepG, Dict.keys, List.mem_cons, List.not_mem_nil, or_false, List.map_cons, List.map_nil] at *
  rcases h2 with rfl | rfl
  · rcases h4 with rfl | rfl
    · rfl
    · exact absurd rfl h8
  · exact absurd rfl h6

/-- The joint of the two factors with `y = 1`. -/
noncomputable def lgP : (Var → ℝ) → ℝ := fun x => Real.exp ((lgFs.map fun f =>
  exD f (override ((none : Option (Dict Var ℝ)).getD []) (override [("y", 1)] x))).sum)

/-- The precision of the joint. -/
def lgK : Matrix (Fin 2) (Fin 2) ℝ := !![1, -1; -1, 2]

theorem lgK_posDef : lgK.PosDef := by
  refine PosDef.of_dotProduct_mulVec_pos ?_ fun z hz => ?_
  · ext i j
    fin_cases i <;> fin_cases j <;> simp [lgK]
  · simp only [lgK, star_trivial, dotProduct, mulVec, Fin.sum_univ_two]
    simp
    have : z 0 ≠ 0 ∨ z 1 ≠ 0 := by
      by_contra hc
      push Not at hc
      exact hz (by funext i; fin_cases i <;> simp [hc])
    rcases this with h | h
    · have h1 := sq_nonneg (z 1 - z 0 / 2)
      have h2 := mul_self_pos.2 h
      nlinarith
    · have h1 := sq_nonneg (z 0 - z 1)
      have h2 := mul_self_pos.2 h
      nlinarith

theorem lgP_int : IntegrableOut ["a", "b"] lgP 0 := by
  unfold IntegrableOut
  refine Integrable.congr (GaussInt.integrable_quad lgK_posDef ![0, 1] (-1 / 2))
    (Filter.Eventually.of_forall fun y => ?_)
  dsimp only
  unfold lgP lgFs exD
  congr 1
  simp only [List.map_cons, List.map_nil, List.sum_cons, List.sum_nil]
  rw [stepG_den (by decide), stepG_den (by decide)]
  simp [lgK, override, setVars, dotProduct, mulVec, Fin.sum_univ_two]
  ring

theorem lg_hidden (v : Var) : v ∈ ["a", "b"] ↔ Hidden lgFs none [("y", 1)] v := by
  simp only [Hidden, lgFs, stepG, Dict.keys, List.mem_cons, List.not_mem_nil, or_false, exists_eq_or_imp,
    exists_eq_left, List.map_cons, List.map_nil, Option.getD_none]
  constructor
  · rintro (rfl | rfl) <;> decide
  · rintro ⟨h1, -, h3⟩
    rcases h1 with (h1 | h1) | (h1 | h1)
    · exact Or.inl h1
    · exact Or.inr h1
    · exact Or.inr h1
    · exact absurd h1 h3

/-- The graph has at most two clusters. -/
theorem lg_two {hs : HashSeed} {a : Any AnyG ℝ EReal}
    (h : new hs (gaussOps hs) lgFs none [("y", 1)] = .ok a) : a.n = 2 := by
  have hok : ∀ f ∈ lgFs, (gaussLaws hs).Ok f := fun f hf => (lgFs_local f hf).ok
  have h1 : a.n ≤ 2 := new_le h
  obtain ⟨i, hi⟩ := new_covers (gaussLaws hs).toLaws hok h (f := ⟨2, stepG "a" "b"⟩) (by simp [lgFs])
  obtain ⟨j, hj⟩ := new_covers (gaussLaws hs).toLaws hok h (f := ⟨2, stepG "b" "y"⟩) (by simp [lgFs])
  have hij : i ≠ j := by
    rintro rfl
    obtain ⟨f, hf, hs⟩ := (C44_evidence (gaussLaws hs).toLaws hs lgFs hok none [("y", 1)] a h).2.2 i
    have ha : "a" ∈ f.2.vars := ((hs "a").1 (hi "a" (by simp [gaussOps, stepG]) (by simp [Dict.keys]))).1
    have hc : "y" ∈ f.2.vars := ((hs "y").1 (hj "y" (by simp [gaussOps, stepG]) (by simp [Dict.keys]))).1
    simp only [lgFs, List.mem_cons, List.not_mem_nil, or_false] at hf
    rcases hf with rfl | rfl
    · simp [stepG] at hc
    · simp [stepG] at ha
  have := i.2
  have := j.2
  have : (i : Nat) ≠ j := fun h => hij (Fin.ext h)
  omega

/-- C116, C117 and C118 apply: the graph can be built, a bounded number of messages brings it to convergence, and
the marginal of `a` is then exact. -/
example (hs : HashSeed) : ∃ a tr g r, new hs (gaussOps hs) lgFs none [("y", 1)] = .ok a ∧ a.n = 2 ∧
    Run (gaussOps hs) a.graph tr g ∧ getMarginal (gaussOps hs) g ["a"] = .ok r ∧
    ∃ c : ℝ, 0 < c ∧ ∀ x, IntegrableOut ["b"] lgP x ∧ gaussDen r x = c * integrateOut ["b"] lgP x := by
  obtain ⟨a, ha, -⟩ := C116_linear_gaussian_never_fails_partial hs lgFs exD none [("y", 1)] lgFs_local lgFs_shared
  have hn := lg_two ha
  have htree : (SimpleGraph.fromRel fun i j => ∃ s, sepset a.graph i j = some s).IsAcyclic :=
    acyclic_of_two (by omega) _
  obtain ⟨tr, g, -, hr, hc⟩ := C117_exact_convergence hs lgFs exD none [("y", 1)] lgFs_local lgFs_shared a ha
    htree [] a.graph .start
  obtain ⟨r, hm, c, hc0, hx⟩ := C118_linear_gaussian_exact hs lgFs exD none [("y", 1)] lgFs_local lgFs_shared lgP
    (fun _ => rfl) ⟨["a", "b"], 0, by simp, lg_hidden, lgP_int⟩ a ha htree _ g hr hc ⟨2, stepG "a" "b"⟩
    (by simp [lgFs]) ["a"] (by simp) (by simp) (by
      intro v hv
      simp only [List.mem_cons, List.not_mem_nil, or_false] at hv
      subst hv
      exact ⟨by simp [stepG], by simp [Dict.keys], by simp [Dict.keys]⟩)
  refine ⟨a, _, g, r, ha, hn, hr, hm, c, hc0, fun x => hx ["b"] (by simp) (fun v => ?_) x⟩
  rw [← lg_hidden]
  simp only [List.mem_cons, List.not_mem_nil, or_false]
  constructor
  · rintro rfl; decide
  · rintro ⟨h1 | h1, h2⟩
    · exact absurd h1 h2
    · exact h1

/-- C117 applies: `process_graph` converges with `tol = 0` and two rounds. -/
example (hs : HashSeed) : ∃ a g, new hs (gaussOps hs) lgFs none [("y", 1)] = .ok a ∧
    processGraph (gaussOps hs) 0 2 a.graph = .ok g ∧ ∀ q, (g.path q).gain ≤ 0 := by
  obtain ⟨a, ha, -⟩ := C116_linear_gaussian_never_fails_partial hs lgFs exD none [("y", 1)] lgFs_local lgFs_shared
  have hn := lg_two ha
  obtain ⟨g, h1, h2⟩ := C117_linear_gaussian_converges hs lgFs exD none [("y", 1)] lgFs_local lgFs_shared a ha (by omega)
    (acyclic_of_two (by omega) _) 0 le_rfl 2 (by omega) [] a.graph .start
  exact ⟨a, g, ha, h1, h2⟩

end Verif.CG
