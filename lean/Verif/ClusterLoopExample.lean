import Verif.ClusterAgree
import Verif.ClusterGaussExamples

/-!
# A cluster graph with a cycle that has converged

Three factors over `a, b`, over `b, c` and over `c, a` that are not constant but have constant marginals.
-/

namespace Verif.CG
open Spec (override Asg sumOut sumVar)
open Classical

/-- A factor over two variables that prefers different values. -/
def tF (u w : Var) : Sparse ℝ :=
  ⟨[u, w], [2, 2], [([0, 0], .fin 0), ([1, 1], .fin 0), ([0, 1], .fin 1), ([1, 0], .fin 1)], .ninf⟩

/-- Every variable has two values. -/
def tC : Var → Nat := fun _ => 2

/-- The three factors. -/
def tri : List (Sparse ℝ) := [tF "a" "b", tF "b" "c", tF "c" "a"]

theorem tF_ok {u w : Var} (h : u ≠ w) : Sparse.Regular (tF u w) ∧ ∀ v ∈ (tF u w).vars, (tF u w).card v = tC v := by
  refine ⟨⟨⟨by simpa [tF] using h, by simp [tF], by simp [tF, Dict.keys], by simp [tF, Dict.keys]⟩, by simp [tF, XF.Proper], rfl⟩, ?_⟩
  intro v hv
  simp only [tF, List.mem_cons, List.not_mem_nil, or_false] at hv
  rcases hv with rfl | rfl <;> simp [tF, Sparse.card, Sparse.varCards, Dict.get?, tC, h]

theorem tri_ok : ∀ f ∈ tri, Sparse.Regular f ∧ ∀ v ∈ f.vars, f.card v = tC v := by
  intro f hf
  simp only [tri, List.mem_cons, List.not_mem_nil, or_false] at hf
  rcases hf with rfl | rfl | rfl <;> exact tF_ok (by decide)

theorem tri_pos : ∀ f ∈ tri, f.prob (override ((none : Option (Dict Var Nat)).getD []) (override [] fun _ => 0)) ≠ 0 := by
  intro f hf
  simp only [tri, List.mem_cons, List.not_mem_nil, or_false] at hf
  rcases hf with rfl | rfl | rfl <;> simp [tF, Sparse.prob, Sparse.val, Dict.get?, XF.prob, override]

theorem tF_sum {u w : Var} (h : u ≠ w) {x : Asg} (hx : x w < 2) : sumVar u 2 (tF u w).prob x = 1 + Real.exp 1 := by
  unfold sumVar
  have : x w = 0 ∨ x w = 1 := by omega
  rcases this with h1 | h1 <;>
    simp [Finset.sum_range_succ, tF, Sparse.prob, Sparse.val, Dict.get?, XF.prob, h1, Function.update_of_ne (Ne.symm h), add_comm]

theorem tF_sum' {u w : Var} (h : u ≠ w) {x : Asg} (hx : x u < 2) : sumVar w 2 (tF u w).prob x = 1 + Real.exp 1 := by
  unfold sumVar
  have : x u = 0 ∨ x u = 1 := by omega
  rcases this with h1 | h1 <;>
    simp [Finset.sum_range_succ, tF, Sparse.prob, Sparse.val, Dict.get?, XF.prob, h1, Function.update_of_ne h, add_comm]

/-- A marginal is constant. -/
theorem uniform {F : Asg → ℝ} {u w : Var} {K : ℝ} (hK : 0 < K) (h : u ≠ w) (hF : ∀ x, x w < 2 → sumVar u 2 F x = K)
    {S : Finset Var} (hS : S ⊆ {w}) :
    ∃ c : ℝ, 0 < c ∧ ∀ x, (∀ v ∈ S, x v < tC v) → sumOut tC ({u, w} \ S) F x = c := by
  rcases Finset.subset_singleton_iff.1 hS with rfl | rfl
  · refine ⟨2 * K, by positivity, fun x _ => ?_⟩
    rw [Finset.sdiff_empty, Finset.pair_comm, Spec.sumOut_insert (by simpa using Ne.symm h)]
    have : sumOut tC {u} F = sumVar u 2 F := by
      rw [← insert_empty_eq, Spec.sumOut_insert (by simp), Spec.sumOut_empty]; rfl
    rw [this]
    show sumVar w 2 _ x = _
    rw [sumVar, Finset.sum_congr rfl (fun k hk => hF _ (by simpa using hk))]
    simp
  · refine ⟨K, hK, fun x hx => ?_⟩
    have : ({u, w} : Finset Var) \ {w} = {u} := by
      ext v; simp only [Finset.mem_sdiff, Finset.mem_insert, Finset.mem_singleton]
      constructor
      · rintro ⟨h1 | h1, h2⟩
        · exact h1
        · exact absurd h1 h2
      · rintro rfl; exact ⟨Or.inl rfl, h⟩
    rw [this, ← insert_empty_eq, Spec.sumOut_insert (by simp), Spec.sumOut_empty]
    exact hF x (hx w (by simp))

theorem absorb_tri (hs : HashSeed) : absorb (sparseOps hs) tri = .ok tri := by
  have e : (sparseOps hs).vars = fun f => f.vars := rfl
  have h1 : ∀ u w : Var, (tF u w).vars = [u, w] := fun _ _ => rfl
  simp [tri, absorb, absorbInner, List.zipIdx, e, h1, strictSubset, pure, Except.pure, bind, Except.bind, pyAssert, Function.update,
    List.range, List.range.loop]

/-- The graph has a cycle, and no message carries information. -/
theorem tri_converged (hs : HashSeed) : ∃ a, new hs (sparseOps hs) tri none [] = .ok a ∧
    ¬ (SimpleGraph.fromRel fun i j => ∃ s, sepset a.graph i j = some s).IsAcyclic ∧
    (∀ q, (a.graph.path q).gain ≤ 0) ∧
    ∃ i j, i ≠ j ∧ "b" ∈ scope (sparseOps hs) a.graph i ∧ "b" ∈ scope (sparseOps hs) a.graph j := by
  obtain ⟨a, ha, _⟩ := C78_inference_never_fails hs tC tri tri_ok none [] ⟨_, tri_pos⟩
  obtain ⟨w, hsp, _⟩ := wired_new ha
  have hrun : Run (sparseOps hs) a.graph [] a.graph := .start
  have inv := hrun.inv w
  have b := hrun.bel (L := (sparseLaws hs tC).toLaws) w (new_ok (sparseLaws hs tC).toLaws tri_ok ha)
  have hx := new_pos (sparseLaws hs tC).toLaws tri_ok ha (possible_sparse tri_pos)
  have rip := rip_free (sparseLaws hs tC).toLaws tri_ok ha
  obtain ⟨fs, h1, h2⟩ := new_factors ha
  unfold clusterFactors at h1
  obtain ⟨es, h3, h4⟩ := py_bind_eq_ok.1 h1
  rw [evidenceReduce_none h3, absorb_tri] at h4
  simp only [Except.ok.injEq] at h4
  rw [← h4] at h2
  have hn : a.n = 3 := by simpa [tri] using congrArg List.length h2
  obtain ⟨n, m, g⟩ := a
  dsimp only at hn h2 w inv b hx rip hsp
  subst hn
  have hf : (g.cl 0).factor = tF "a" "b" ∧ (g.cl 1).factor = tF "b" "c" ∧ (g.cl 2).factor = tF "c" "a" := by
    simpa [tri, List.ofFn_succ] using h2
  obtain ⟨f0, f1, f2⟩ := hf
  have s0 : scope (sparseOps hs) g 0 = ["a", "b"] := by unfold scope; rw [f0]; rfl
  have s1 : scope (sparseOps hs) g 1 = ["b", "c"] := by unfold scope; rw [f1]; rfl
  have s2 : scope (sparseOps hs) g 2 = ["c", "a"] := by unfold scope; rw [f2]; rfl
  have free : ∀ i, freeVars (sparseOps hs) g i = (scope (sparseOps hs) g i).toFinset := by
    intro i
    unfold freeVars
    rw [hsp]
    simp [Dict.keys]
  have hadj : ∀ (v : Var) (i j : Fin 3), i ≠ j → v ∈ scope (sparseOps hs) g i → v ∈ scope (sparseOps hs) g j →
      (∀ k, v ∈ scope (sparseOps hs) g k → k = i ∨ k = j) → (edgeGraph g).Adj i j := by
    intro v i j hij hi hj hk
    have := rip v i j (by rw [free]; simpa using hi) (by rw [free]; simpa using hj)
    rcases Relation.ReflTransGen.cases_head this with h | ⟨k, ⟨hik, hv⟩, _⟩
    · exact absurd h hij
    · obtain ⟨s, hs'⟩ := w.edge_adj.1 hik
      unfold edgeSep at hv
      rw [hs'] at hv
      have := ((w.sepOk _ _ _ hs').2 v (by simpa using hv)).2.1
      rcases hk k this with rfl | rfl
      · exact absurd hik (edgeGraph g).irrefl
      · exact hik
  have h01 : (edgeGraph g).Adj 0 1 := hadj "b" 0 1 (by decide) (by rw [s0]; decide) (by rw [s1]; decide) (by
    intro k hk
    fin_cases k
    · exact Or.inl rfl
    · exact Or.inr rfl
    · exact absurd hk (by show "b" ∉ scope (sparseOps hs) g 2; rw [s2]; decide))
  have h12 : (edgeGraph g).Adj 1 2 := hadj "c" 1 2 (by decide) (by rw [s1]; decide) (by rw [s2]; decide) (by
    intro k hk
    fin_cases k
    · exact absurd hk (by show "c" ∉ scope (sparseOps hs) g 0; rw [s0]; decide)
    · exact Or.inl rfl
    · exact Or.inr rfl)
  have h20 : (edgeGraph g).Adj 2 0 := hadj "a" 2 0 (by decide) (by rw [s2]; decide) (by rw [s0]; decide) (by
    intro k hk
    fin_cases k
    · exact Or.inr rfl
    · exact absurd hk (by show "a" ∉ scope (sparseOps hs) g 1; rw [s1]; decide)
    · exact Or.inl rfl)
  refine ⟨_, ha, ?_, fun q => ?_, (0 : Fin 3), (1 : Fin 3), fun h => absurd (show (0 : Fin 3) = 1 from h) (by decide), by rw [s0]; decide, by rw [s1]; decide⟩
  · intro hac
    have hac' : (edgeGraph g).IsAcyclic := hac
    refine hac' (.cons h01 (.cons h12 (.cons h20 .nil))) ?_
    rw [SimpleGraph.Walk.isCycle_def]
    refine ⟨?_, by simp, ?_⟩
    · rw [SimpleGraph.Walk.isTrail_def]
      simp only [SimpleGraph.Walk.edges_cons, SimpleGraph.Walk.edges_nil]
      decide
    · simp only [SimpleGraph.Walk.support_cons, SimpleGraph.Walk.support_nil, List.tail_cons]
      decide
  · refine clean_gain (C := tC) w inv b hx ?_
    obtain ⟨r, hr1, hr2, hr3⟩ := w.rev q
    obtain ⟨_, _, red, M, m1, m2, m3, m4, m5, m6⟩ := b.next w inv hr1 hr2 hr3
    have hsum := (sparseLaws hs tC).sum m1 (w.sepOk _ _ _ (w.sepOf_eq q)).1
      (fun v hv => (m2 v).2 ⟨(w.sepOf_mem q hv).1, (w.sepOf_mem q hv).2.2⟩) m4
    have hset : ((sparseOps hs).vars red).toFinset = (scope (sparseOps hs) g (g.path q).snd).toFinset := by
      ext v; rw [List.mem_toFinset, m2, hsp, List.mem_toFinset]; simp [Dict.keys]
    have hden : (sparseLaws hs tC).den red = (g.cl (g.path q).snd).factor.prob := by
      funext x
      rw [m3, hsp]
      rfl
    rw [hset, hden] at hsum
    have hsub : ∀ v ∈ sepOf g q, v ∈ scope (sparseOps hs) g (g.path q).snd ∧ v ∈ scope (sparseOps hs) g (g.path q).rcv :=
      fun v hv => ⟨(w.sepOf_mem q hv).1, (w.sepOf_mem q hv).2.1⟩
    have hne := w.ne q
    have hK : (0 : ℝ) < 1 + Real.exp 1 := by positivity
    have key : ∃ c : ℝ, 0 < c ∧ ∀ x, (∀ v ∈ (sepOf g q).toFinset, x v < tC v) →
        sumOut tC ((scope (sparseOps hs) g (g.path q).snd).toFinset \ (sepOf g q).toFinset)
          (g.cl (g.path q).snd).factor.prob x = c := by
      generalize (g.path q).snd = i at hsub hne ⊢
      generalize (g.path q).rcv = j at hsub hne
      generalize sepOf g q = S at hsub ⊢
      have fin : ∀ (u v : Var), u ≠ v → (∀ z ∈ S, z = v) → (∃ p : Var × Var, (p = (u, v) ∨ p = (v, u)) ∧
          (g.cl i).factor = tF p.1 p.2 ∧ scope (sparseOps hs) g i = [p.1, p.2]) →
          ∃ c : ℝ, 0 < c ∧ ∀ x, (∀ v ∈ S.toFinset, x v < tC v) →
            sumOut tC ((scope (sparseOps hs) g i).toFinset \ S.toFinset) (g.cl i).factor.prob x = c := by
        rintro u v huv hz ⟨p, hp, hfi, hsi⟩
        have hS : S.toFinset ⊆ {v} := fun z h => by simpa using hz z (by simpa using h)
        have := uniform (F := (g.cl i).factor.prob) hK huv (fun x hx => by
          rw [hfi]
          rcases hp with rfl | rfl
          · exact tF_sum huv hx
          · exact tF_sum' (Ne.symm huv) hx) hS
        have e : (scope (sparseOps hs) g i).toFinset = {u, v} := by
          rw [hsi]
          rcases hp with rfl | rfl
          · simp
          · simp [Finset.pair_comm]
        rw [e]
        exact this
      fin_cases i <;> fin_cases j
      · exact absurd rfl hne
      · refine fin "a" "b" (by decide) (fun z hz => ?_) ⟨("a", "b"), Or.inl rfl, f0, s0⟩
        obtain ⟨h1, h2⟩ : z ∈ scope (sparseOps hs) g 0 ∧ z ∈ scope (sparseOps hs) g 1 := hsub z hz
        rw [s0] at h1
        rw [s1] at h2
        simp only [List.mem_cons, List.not_mem_nil, or_false] at h1 h2
        rcases h1 with rfl | rfl
        · first | rfl | exact absurd h2 (by decide)
        · first | rfl | exact absurd h2 (by decide)
      · refine fin "b" "a" (by decide) (fun z hz => ?_) ⟨("a", "b"), Or.inr rfl, f0, s0⟩
        obtain ⟨h1, h2⟩ : z ∈ scope (sparseOps hs) g 0 ∧ z ∈ scope (sparseOps hs) g 2 := hsub z hz
        rw [s0] at h1
        rw [s2] at h2
        simp only [List.mem_cons, List.not_mem_nil, or_false] at h1 h2
        rcases h1 with rfl | rfl
        · first | rfl | exact absurd h2 (by decide)
        · first | rfl | exact absurd h2 (by decide)
      · refine fin "c" "b" (by decide) (fun z hz => ?_) ⟨("b", "c"), Or.inr rfl, f1, s1⟩
        obtain ⟨h1, h2⟩ : z ∈ scope (sparseOps hs) g 1 ∧ z ∈ scope (sparseOps hs) g 0 := hsub z hz
        rw [s1] at h1
        rw [s0] at h2
        simp only [List.mem_cons, List.not_mem_nil, or_false] at h1 h2
        rcases h1 with rfl | rfl
        · first | rfl | exact absurd h2 (by decide)
        · first | rfl | exact absurd h2 (by decide)
      · exact absurd rfl hne
      · refine fin "b" "c" (by decide) (fun z hz => ?_) ⟨("b", "c"), Or.inl rfl, f1, s1⟩
        obtain ⟨h1, h2⟩ : z ∈ scope (sparseOps hs) g 1 ∧ z ∈ scope (sparseOps hs) g 2 := hsub z hz
        rw [s1] at h1
        rw [s2] at h2
        simp only [List.mem_cons, List.not_mem_nil, or_false] at h1 h2
        rcases h1 with rfl | rfl
        · first | rfl | exact absurd h2 (by decide)
        · first | rfl | exact absurd h2 (by decide)
      · refine fin "c" "a" (by decide) (fun z hz => ?_) ⟨("c", "a"), Or.inl rfl, f2, s2⟩
        obtain ⟨h1, h2⟩ : z ∈ scope (sparseOps hs) g 2 ∧ z ∈ scope (sparseOps hs) g 0 := hsub z hz
        rw [s2] at h1
        rw [s0] at h2
        simp only [List.mem_cons, List.not_mem_nil, or_false] at h1 h2
        rcases h1 with rfl | rfl
        · first | rfl | exact absurd h2 (by decide)
        · first | rfl | exact absurd h2 (by decide)
      · refine fin "a" "c" (by decide) (fun z hz => ?_) ⟨("c", "a"), Or.inr rfl, f2, s2⟩
        obtain ⟨h1, h2⟩ : z ∈ scope (sparseOps hs) g 2 ∧ z ∈ scope (sparseOps hs) g 1 := hsub z hz
        rw [s2] at h1
        rw [s1] at h2
        simp only [List.mem_cons, List.not_mem_nil, or_false] at h1 h2
        rcases h1 with rfl | rfl
        · first | rfl | exact absurd h2 (by decide)
        · first | rfl | exact absurd h2 (by decide)
      · exact absurd rfl hne
    obtain ⟨c, hc, hcx⟩ := key
    refine ⟨c, hc, fun x hx => ?_⟩
    rw [m6, hsum]
    have : ∀ q : Fin m, mval (sparseLaws hs tC).toLaws [] q x = 1 := fun q => by simp [mval, lastMsg]
    rw [this, this, div_one, mul_one]
    exact hcx x fun v hv => hx v (by simpa using hv)

/-- The hypotheses of `C101_sparse_consistent` are met on a graph with a cycle. -/
example (hs : HashSeed) : ∃ (a : Any (Sparse ℝ) Nat EReal) (i j : Fin a.n) (ri rj : Sparse ℝ), i ≠ j ∧
    ¬ (SimpleGraph.fromRel fun i j => ∃ s, sepset a.graph i j = some s).IsAcyclic ∧
    Answers (sparseOps hs) a.graph i ["b"] ri ∧ Answers (sparseOps hs) a.graph j ["b"] rj ∧
    ∃ c : ℝ, 0 < c ∧ ∀ x, ri.prob x = c * rj.prob x := by
  obtain ⟨a, ha, hc, hg, i, j, hij, hi, hj⟩ := tri_converged hs
  obtain ⟨ri, rj, h⟩ := (C101_sparse_consistent hs tC tri tri_ok none [] a ha ⟨_, tri_pos⟩ [] a.graph .start hg i j).1
    "b" hi hj (by simp [Dict.keys])
  exact ⟨a, i, j, ri, rj, hij, hc, h⟩

/-- The hypotheses of `C101_gaussian_consistent` are met by two clusters sharing `b`. -/
example (hs : HashSeed) : ∃ (a : Any Gauss.AnyG ℝ EReal) (g : Graph Gauss.AnyG ℝ EReal a.n a.m) (i j : Fin a.n) (ri rj : Gauss.AnyG),
    i ≠ j ∧ Answers (gaussOps hs) g i ["b"] ri ∧ Answers (gaussOps hs) g j ["b"] rj ∧
    ∃ c : ℝ, 0 < c ∧ ∀ x, gaussDen ri x = c * gaussDen rj x := by
  obtain ⟨a, ha, -⟩ := C88_gaussian_never_fails hs exFs exD exFs_proper none [("c", 1)] exFs_free
  have hn := exFs_two ha
  have hok : ∀ f ∈ exFs, (gaussLaws hs).Ok f := fun f hf => (exFs_proper f hf).ok.1
  obtain ⟨tr, g, -, hr, hc⟩ := C89_gaussian_exact_convergence hs exFs exD exFs_proper none [("c", 1)] exFs_free a ha
    (acyclic_of_two (by omega) _) [] a.graph .start
  obtain ⟨i, hi⟩ := new_covers (gaussLaws hs).toLaws hok ha (f := ⟨2, Gauss.exA⟩) (by simp [exFs])
  obtain ⟨j, hj⟩ := new_covers (gaussLaws hs).toLaws hok ha (f := ⟨2, exA2⟩) (by simp [exFs])
  have hij : i ≠ j := by
    rintro rfl
    obtain ⟨f, hf, hs⟩ := (C44_evidence (gaussLaws hs).toLaws hs exFs hok none [("c", 1)] a ha).2.2 i
    have ha : "a" ∈ f.2.vars := ((hs "a").1 (hi "a" (by simp [gaussOps, Gauss.exA]) (by simp [Dict.keys]))).1
    have hc : "c" ∈ f.2.vars := ((hs "c").1 (hj "c" (by simp [gaussOps, exA2]) (by simp [Dict.keys]))).1
    simp only [exFs, List.mem_cons, List.not_mem_nil, or_false] at hf
    rcases hf with rfl | rfl
    · simp [Gauss.exA] at hc
    · simp [exA2] at ha
  obtain ⟨ri, rj, h⟩ := (C101_gaussian_consistent hs exFs exD exFs_proper none [("c", 1)] exFs_free a ha _ g hr hc i j).1
    "b" (hi "b" (by simp [gaussOps, Gauss.exA]) (by simp [Dict.keys])) (hj "b" (by simp [gaussOps, exA2]) (by simp [Dict.keys]))
    (by simp [Dict.keys])
  exact ⟨a, g, i, j, ri, rj, hij, h⟩

end Verif.CG
