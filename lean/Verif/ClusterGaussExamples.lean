import Verif.ClusterProps8

/-!
# A concrete cluster graph of Gaussian factors

Two Gaussians over `a, b` and `b, c` meet the hypotheses of C87, C88 and C89. None of this is used elsewhere.
-/

namespace Verif.CG
open Spec (override IntegrableOut integrateOut)
open Gauss (AnyG Made Denotes Good canOf exA exV exS exA_made exA_good exS_posDef)
open Classical

/-- A Gaussian over `b`, `c` in covariance form. -/
def exA2 : Gauss 2 := ⟨["b", "c"], none, some exV, false⟩

theorem exA2_made : Made exA2 := .ofCov (vars := ["b", "c"]) (v := exV) exS_posDef (by
  rw [Gauss.mkCov_ok (by decide) rfl]
  rfl)

theorem exA2_good : Good exA2 :=
  Gauss.good_mkCov (by decide) rfl _ (Gauss.posDef_symm exS_posDef) exS_posDef.det_pos

/-- The log potentials of the two factors. -/
noncomputable def exD (f : AnyG) : (Var → ℝ) → ℝ := fun x => Real.log (gaussDen f x)

theorem exD_proper {a : Gauss 2} (hm : Made a) (hg : Good a) (hcov : a.cov = some exV) :
    Proper ⟨2, a⟩ exD := by
  have hd : exD ⟨2, a⟩ = Gauss.logOf a hg.len := by
    funext x
    unfold exD
    rw [gaussDen_of (f := ⟨2, a⟩) hg.denotes, Real.log_exp]
  refine ⟨hm, by rw [hd]; exact hg.denotes, 0, ?_⟩
  rw [hd]
  refine (Gauss.integrate_good hg ?_ 0).1
  rw [Gauss.canOf_cov hg.toValid hcov]
  exact exS_posDef.inv

/-- The two factors. -/
def exFs : List AnyG := [⟨2, exA⟩, ⟨2, exA2⟩]

theorem exFs_proper : ∀ f ∈ exFs, Proper f exD := by
  intro f hf
  simp only [exFs, List.mem_cons, List.not_mem_nil, or_false] at hf
  rcases hf with rfl | rfl
  · exact exD_proper exA_made exA_good rfl
  · exact exD_proper exA2_made exA2_good rfl

theorem exFs_free : ∀ f ∈ exFs, ∃ v ∈ f.2.vars, v ∉ Dict.keys ((none : Option (Dict Var ℝ)).getD []) ∧
    v ∉ Dict.keys [("c", (1 : ℝ))] := by
  intro f hf
  simp only [exFs, List.mem_cons, List.not_mem_nil, or_false] at hf
  rcases hf with rfl | rfl <;> exact ⟨"b", by simp [exA, exA2], by simp [Dict.keys], by simp [Dict.keys]⟩

/-- The graph has two clusters. -/
theorem exFs_two {hs : HashSeed} {special : Dict Var ℝ} {a : Any AnyG ℝ EReal}
    (h : new hs (gaussOps hs) exFs none special = .ok a) : a.n = 2 := by
  have hok : ∀ f ∈ exFs, (gaussLaws hs).Ok f := fun f hf => (exFs_proper f hf).ok.1
  have h1 : a.n ≤ 2 := new_le h
  obtain ⟨i, hi⟩ := new_covers (gaussLaws hs).toLaws hok h (f := ⟨2, exA⟩) (by simp [exFs])
  obtain ⟨j, hj⟩ := new_covers (gaussLaws hs).toLaws hok h (f := ⟨2, exA2⟩) (by simp [exFs])
  have hij : i ≠ j := by
    rintro rfl
    obtain ⟨f, hf, hs⟩ := (C44_evidence (gaussLaws hs).toLaws hs exFs hok none special a h).2.2 i
    have ha : "a" ∈ f.2.vars := ((hs "a").1 (hi "a" (by simp [gaussOps, exA]) (by simp [Dict.keys]))).1
    have hc : "c" ∈ f.2.vars := ((hs "c").1 (hj "c" (by simp [gaussOps, exA2]) (by simp [Dict.keys]))).1
    simp only [exFs, List.mem_cons, List.not_mem_nil, or_false] at hf
    rcases hf with rfl | rfl
    · simp [exA] at hc
    · simp [exA2] at ha
  have := i.2
  have := j.2
  have : (i : Nat) ≠ j := fun h => hij (Fin.ext h)
  omega

/-- The joint of the two factors with `c = 1`. -/
noncomputable def exPG : (Var → ℝ) → ℝ := fun x => Real.exp ((exFs.map fun f =>
  exD f (override ((none : Option (Dict Var ℝ)).getD []) (override [("c", 1)] x))).sum)

/-- C87, C88 and C89 apply: the graph can be built, a bounded number of messages brings it to convergence, and the
marginal of `b` is then exact. -/
example (hs : HashSeed) : ∃ a tr g r, new hs (gaussOps hs) exFs none [("c", 1)] = .ok a ∧ a.n = 2 ∧
    Run (gaussOps hs) a.graph tr g ∧ getMarginal (gaussOps hs) g ["b"] = .ok r ∧
    ∃ c : ℝ, 0 < c ∧ ∀ x, IntegrableOut ["a"] exPG x ∧ gaussDen r x = c * integrateOut ["a"] exPG x := by
  obtain ⟨a, ha, hall⟩ := C87_gaussian_tree_inference hs exFs exD exFs_proper none [("c", 1)] exFs_free exPG fun _ => rfl
  have hn := exFs_two ha
  have htree : (SimpleGraph.fromRel fun i j => ∃ s, sepset a.graph i j = some s).IsAcyclic :=
    acyclic_of_two (by omega) _
  obtain ⟨tr, g, -, hr, hc⟩ := C89_gaussian_exact_convergence hs exFs exD exFs_proper none [("c", 1)] exFs_free a ha
    htree [] a.graph .start
  obtain ⟨r, hm, c, hc0, hx⟩ := hall htree _ g hr hc ⟨2, exA⟩ (by simp [exFs]) ["b"] (by simp) (by
    intro v hv
    simp only [List.mem_cons, List.not_mem_nil, or_false] at hv
    subst hv
    exact ⟨by simp [exA], by simp [Dict.keys], by simp [Dict.keys]⟩)
  refine ⟨a, _, g, r, ha, hn, hr, hm, c, hc0, fun x => hx ["a"] (by simp) (fun v => ?_) x⟩
  simp only [Hidden, exFs, exA, exA2, Dict.keys, List.mem_cons, List.not_mem_nil, or_false, exists_eq_or_imp,
    exists_eq_left, List.map_cons, List.map_nil, Option.getD_none]
  constructor
  · rintro rfl
    decide
  · rintro ⟨⟨h1, -, h3⟩, h4⟩
    rcases h1 with (h1 | h1) | (h1 | h1)
    · exact h1
    · exact absurd h1 h4
    · exact absurd h1 h4
    · exact absurd h1 h3

/-- C89 applies: `process_graph` converges with `tol = 0` and two rounds. -/
example (hs : HashSeed) : ∃ a g, new hs (gaussOps hs) exFs none [("c", 1)] = .ok a ∧
    processGraph (gaussOps hs) 0 2 a.graph = .ok g ∧ ∀ q, (g.path q).gain ≤ 0 := by
  obtain ⟨a, ha, -⟩ := C88_gaussian_never_fails hs exFs exD exFs_proper none [("c", 1)] exFs_free
  have hn := exFs_two ha
  obtain ⟨g, h1, h2⟩ := C89_gaussian_tree_converges hs exFs exD exFs_proper none [("c", 1)] exFs_free a ha (by omega)
    (acyclic_of_two (by omega) _) 0 le_rfl 2 (by omega) [] a.graph .start
  exact ⟨a, g, ha, h1, h2⟩

end Verif.CG
