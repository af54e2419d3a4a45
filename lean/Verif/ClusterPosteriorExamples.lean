import Verif.ClusterPosterior
import Verif.ClusterGaussExamples

/-!
# Concrete graphs for C102
-/

namespace Verif.CG
open Spec (override Asg sumOut)
open Sparse (exF exG exF_regular exG_regular)
open Classical

/-- A graph without cycles of possible sparse factors can be brought to convergence. -/
theorem settle {hs : HashSeed} {C : Var → Nat} {factors : List (Sparse ℝ)}
    (hok : ∀ f ∈ factors, Sparse.Regular f ∧ ∀ v ∈ f.vars, f.card v = C v)
    {evidence : Option (Dict Var Nat)} {special : Dict Var Nat}
    (hpos : ∃ x : Asg, ∀ f ∈ factors, f.prob (override (evidence.getD []) (override special x)) ≠ 0)
    {a : Any (Sparse ℝ) Nat EReal} (h : new hs (sparseOps hs) factors evidence special = .ok a)
    (htree : (SimpleGraph.fromRel fun i j => ∃ s, sepset a.graph i j = some s).IsAcyclic) :
    ∃ tr g, Run (sparseOps hs) a.graph tr g ∧ ∀ q, (g.path q).gain ≤ 0 := by
  obtain ⟨w, _⟩ := wired_new h
  by_cases hn : a.n = 1
  · refine ⟨[], a.graph, .start, fun q => absurd ?_ (w.ne q)⟩
    have h1 := (a.graph.path q).snd.2
    have h2 := (a.graph.path q).rcv.2
    exact Fin.ext (by omega)
  · have hS : ∃ S, ∀ i j s, sepset a.graph i j = some s → (s.map C).prod ≤ S := by
      refine ⟨∑ p : Fin a.n × Fin a.n, (((sepset a.graph p.1 p.2).getD []).map C).prod, fun i j s hs => ?_⟩
      have := Finset.single_le_sum (f := fun p : Fin a.n × Fin a.n => (((sepset a.graph p.1 p.2).getD []).map C).prod)
        (fun _ _ => Nat.zero_le _) (Finset.mem_univ (i, j))
      simpa [hs] using this
    obtain ⟨S, hS⟩ := hS
    obtain ⟨g, hg, hgain⟩ := C79_tree_converges hs C factors hok evidence special hpos a h hn htree 0 le_rfl S _ hS le_rfl []
      a.graph .start
    obtain ⟨tr, hgr, _⟩ := Greedy.process w hn .start hg
    exact ⟨_, g, hgr.run .start, hgain⟩

/-- There are at most as many clusters as factors. -/
theorem new_le' {F V G : Type} {ops : Ops F V G} {hs : HashSeed} {factors : List F} {evidence : Option (Dict Var V)}
    {special : Dict Var V} {a : Any F V G} (h : new hs ops factors evidence special = .ok a) : a.n ≤ factors.length := by
  obtain ⟨fs, h1, h2⟩ := new_factors h
  unfold clusterFactors at h1
  obtain ⟨rs, h3, h4⟩ := py_bind_eq_ok.1 h1
  have hlen : rs.length = factors.length := by
    unfold evidenceReduce at h3
    exact (Cat.mapM_inv h3).length_eq.symm
  obtain ⟨groups, hp, hf⟩ := C43_absorb_partitions ops rs fs h4
  have hn : a.n = fs.length := by rw [← h2, List.length_ofFn]
  have hl : ∀ (gs : List (List (F × Nat))) (fs : List F), List.Forall₂ (fun grp f => ∃ e t, grp = e :: t ∧
      Absorbs ops e.1 (t.map Prod.fst) f) gs fs → fs.length ≤ gs.flatten.length := by
    intro gs fs hf
    induction hf with
    | nil => simp
    | @cons grp f gs fs hg _ ih =>
      obtain ⟨e, t, rfl, _⟩ := hg
      simp only [List.flatten_cons, List.length_append, List.length_cons]
      omega
  have := hl groups fs hf
  rw [hp.length_eq, List.length_zipIdx] at this
  omega

theorem ex_pos' : ∀ f ∈ [exG, exF], f.prob (override ((some [("c", 0)] : Option (Dict Var Nat)).getD []) (override [] exX)) ≠ 0 := by
  intro f hf
  simp only [List.mem_cons, List.not_mem_nil, or_false] at hf
  rcases hf with rfl | rfl <;> simp [exF, exG, Sparse.prob, Sparse.val, Dict.get?, XF.prob, exX, override]

/-- C102 applies: `c = 0` as special evidence of one graph, as evidence of another one with another hash seed whose factors
come in another order. -/
example (hs₁ hs₂ : HashSeed) : ∃ (a₁ a₂ : Any (Sparse ℝ) Nat EReal) (tr₁ : _) (tr₂ : _) (g₁ : _) (g₂ : _) (r₁ r₂ s₁ s₂ : Sparse ℝ),
    new hs₁ (sparseOps hs₁) [exF, exG] none [("c", 0)] = .ok a₁ ∧ new hs₂ (sparseOps hs₂) [exG, exF] (some [("c", 0)]) [] = .ok a₂ ∧
    Run (sparseOps hs₁) a₁.graph tr₁ g₁ ∧ Run (sparseOps hs₂) a₂.graph tr₂ g₂ ∧
    getMarginal (sparseOps hs₁) g₁ ["a", "b"] = .ok r₁ ∧ getMarginal (sparseOps hs₂) g₂ ["b", "a"] = .ok r₂ ∧
    Sparse.normalize r₁ = .ok s₁ ∧ Sparse.normalize r₂ = .ok s₂ ∧ ∀ x, s₁.prob x = s₂.prob x := by
  have ok2 : ∀ f ∈ [exG, exF], Sparse.Regular f ∧ ∀ v ∈ f.vars, f.card v = exC v := fun f hf => ex_ok f (by
    simp only [List.mem_cons, List.not_mem_nil, or_false] at hf ⊢
    exact hf.symm)
  have pos1 : ∃ x : Asg, ∀ f ∈ [exF, exG], f.prob (override ((none : Option (Dict Var Nat)).getD []) (override [("c", 0)] x)) ≠ 0 :=
    ⟨exX, ex_pos _ (Or.inr rfl)⟩
  have pos2 : ∃ x : Asg, ∀ f ∈ [exG, exF], f.prob (override ((some [("c", 0)] : Option (Dict Var Nat)).getD []) (override [] x)) ≠ 0 :=
    ⟨exX, ex_pos'⟩
  obtain ⟨a₁, h1, all1⟩ := C78_inference_never_fails hs₁ exC [exF, exG] ex_ok none [("c", 0)] pos1
  obtain ⟨a₂, h2, all2⟩ := C78_inference_never_fails hs₂ exC [exG, exF] ok2 (some [("c", 0)]) [] pos2
  have t1 : (SimpleGraph.fromRel fun i j => ∃ s, sepset a₁.graph i j = some s).IsAcyclic := acyclic_of_two (new_le' h1) _
  have t2 : (SimpleGraph.fromRel fun i j => ∃ s, sepset a₂.graph i j = some s).IsAcyclic := acyclic_of_two (new_le' h2) _
  obtain ⟨tr₁, g₁, run1, gain1⟩ := settle ex_ok pos1 h1 t1
  obtain ⟨tr₂, g₂, run2, gain2⟩ := settle ok2 pos2 h2 t2
  have free : ∀ v ∈ ["a", "b"], v ∈ exF.vars ∧ v ≠ "c" := by decide
  obtain ⟨r₁, m1⟩ := (all1 _ g₁ run1).2.2 exF (by simp) ["a", "b"] (by simp) (fun v hv =>
    ⟨(free v hv).1, by simp [Dict.keys], by simpa [Dict.keys] using (free v hv).2⟩)
  obtain ⟨r₂, m2⟩ := (all2 _ g₂ run2).2.2 exF (by simp) ["b", "a"] (by simp) (fun v hv => by
    have hv' : v ∈ ["a", "b"] := by
      simp only [List.mem_cons, List.not_mem_nil, or_false] at hv ⊢
      exact hv.symm
    exact ⟨(free v hv').1, by simpa [Dict.keys] using (free v hv').2, by simp [Dict.keys]⟩)
  obtain ⟨s₁, s₂, n1, n2, -, hx⟩ := C102_order_independent exC hs₁ hs₂ [exF, exG] [exG, exF] (List.Perm.swap _ _ _) ex_ok none
    (some [("c", 0)]) [("c", 0)] [] (fun x => rfl) pos1 a₁ a₂ h1 h2 t1 t2 tr₁ g₁ tr₂ g₂ run1 run2 gain1 gain2 ["a", "b"] ["b", "a"]
    (by simp) (List.Perm.swap _ _ _) (fun v hv => ⟨by simpa [Dict.keys] using (free v hv).2, by simp [Dict.keys]⟩) r₁ r₂ m1 m2
  exact ⟨a₁, a₂, tr₁, tr₂, g₁, g₂, r₁, r₂, s₁, s₂, h1, h2, run1, run2, m1, m2, n1, n2, hx⟩

/-- The same for Gaussian factors. -/
example (hs₁ hs₂ : HashSeed) : ∃ (a₁ a₂ : Any Gauss.AnyG ℝ EReal) (tr₁ : _) (tr₂ : _) (g₁ : _) (g₂ : _) (r₁ r₂ : Gauss.AnyG)
    (s₁ : Gauss r₁.1) (s₂ : Gauss r₂.1) (N : (Var → ℝ) → ℝ),
    new hs₁ (gaussOps hs₁) exFs none [("c", 1)] = .ok a₁ ∧ new hs₂ (gaussOps hs₂) exFs.reverse none [("c", 1)] = .ok a₂ ∧
    Run (gaussOps hs₁) a₁.graph tr₁ g₁ ∧ Run (gaussOps hs₂) a₂.graph tr₂ g₂ ∧
    getMarginal (gaussOps hs₁) g₁ ["a", "b"] = .ok r₁ ∧ getMarginal (gaussOps hs₂) g₂ ["b", "a"] = .ok r₂ ∧
    r₁.2.normalize = .ok s₁ ∧ r₂.2.normalize = .ok s₂ ∧ Gauss.Denotes s₁ N ∧ Gauss.Denotes s₂ N := by
  have hp2 : ∀ f ∈ exFs.reverse, Proper f exD := fun f hf => exFs_proper f (by simpa using hf)
  have hf2 : ∀ f ∈ exFs.reverse, ∃ v ∈ f.2.vars, v ∉ Dict.keys ((none : Option (Dict Var ℝ)).getD []) ∧
    v ∉ Dict.keys [("c", (1 : ℝ))] := fun f hf => exFs_free f (by simpa using hf)
  obtain ⟨a₁, h1, all1⟩ := C88_gaussian_never_fails hs₁ exFs exD exFs_proper none [("c", 1)] exFs_free
  obtain ⟨a₂, h2, all2⟩ := C88_gaussian_never_fails hs₂ exFs.reverse exD hp2 none [("c", 1)] hf2
  have t1 : (SimpleGraph.fromRel fun i j => ∃ s, sepset a₁.graph i j = some s).IsAcyclic := acyclic_of_two (new_le' h1) _
  have t2 : (SimpleGraph.fromRel fun i j => ∃ s, sepset a₂.graph i j = some s).IsAcyclic := acyclic_of_two (new_le' h2) _
  obtain ⟨tr₁, g₁, -, run1, conv1⟩ := C89_gaussian_exact_convergence hs₁ exFs exD exFs_proper none [("c", 1)] exFs_free a₁ h1
    t1 [] a₁.graph .start
  obtain ⟨tr₂, g₂, -, run2, conv2⟩ := C89_gaussian_exact_convergence hs₂ exFs.reverse exD hp2 none [("c", 1)] hf2 a₂ h2
    t2 [] a₂.graph .start
  have free : ∀ v ∈ ["a", "b"], v ∈ Gauss.exA.vars ∧ v ≠ "c" := by simp [Gauss.exA]
  obtain ⟨r₁, m1⟩ := (all1 _ g₁ run1).2.2.1 ⟨2, Gauss.exA⟩ (by simp [exFs]) ["a", "b"] (by simp) (fun v hv =>
    ⟨(free v hv).1, by simp [Dict.keys], by simpa [Dict.keys] using (free v hv).2⟩)
  obtain ⟨r₂, m2⟩ := (all2 _ g₂ run2).2.2.1 ⟨2, Gauss.exA⟩ (by simp [exFs]) ["b", "a"] (by simp) (fun v hv => by
    have hv' : v ∈ ["a", "b"] := by
      simp only [List.mem_cons, List.not_mem_nil, or_false] at hv ⊢
      exact hv.symm
    exact ⟨(free v hv').1, by simp [Dict.keys], by simpa [Dict.keys] using (free v hv').2⟩)
  obtain ⟨s₁, s₂, N, n1, n2, -, d1, d2⟩ := C102_gaussian_order_independent hs₁ hs₂ exFs exFs.reverse exD (List.reverse_perm _).symm
    exFs_proper none none [("c", 1)] [("c", 1)] (fun x => rfl) exFs_free a₁ a₂ h1 h2 t1 t2 _ g₁ _ g₂ run1 run2 conv1 conv2
    ["a", "b"] ["b", "a"] (by simp) (List.Perm.swap _ _ _) (fun v hv => ⟨by simpa [Dict.keys] using (free v hv).2,
      by simpa [Dict.keys] using (free v hv).2⟩) r₁ r₂ m1 m2
  exact ⟨a₁, a₂, _, _, g₁, g₂, r₁, r₂, s₁, s₂, N, h1, h2, run1, run2, m1, m2, n1, n2, d1, d2⟩

end Verif.CG
