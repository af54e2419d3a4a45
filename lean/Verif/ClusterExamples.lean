import Verif.ClusterProps7

/-!
# Concrete cluster graphs

Two sparse factors over `a, b` and `b, c` (with a zero entry) meet the hypotheses of the theorems about cluster
graphs. None of this is used elsewhere.
-/

namespace Verif.CG
open Spec (override Asg sumOut)
open Sparse (exF exG exF_regular exG_regular)
open Classical

/-- The cardinalities of `exF` and `exG`. -/
def exC : Var → Nat := fun v => if v = "b" then 3 else 2

/-- A possible assignment. -/
def exX : Asg := fun v => if v = "b" then 1 else 0

theorem ex_ok : ∀ f ∈ [exF, exG], Sparse.Regular f ∧ ∀ v ∈ f.vars, f.card v = exC v := by
  intro f hf
  simp only [List.mem_cons, List.not_mem_nil, or_false] at hf
  rcases hf with rfl | rfl
  · exact ⟨exF_regular, by decide +kernel⟩
  · exact ⟨exG_regular, by decide +kernel⟩

theorem ex_pos (special : Dict Var Nat) (h : special = [] ∨ special = [("c", 0)]) :
    ∀ f ∈ [exF, exG], f.prob (override ((none : Option (Dict Var Nat)).getD []) (override special exX)) ≠ 0 := by
  intro f hf
  simp only [List.mem_cons, List.not_mem_nil, or_false] at hf
  rcases hf with rfl | rfl <;> rcases h with rfl | rfl <;>
    simp [exF, exG, Sparse.prob, Sparse.val, Dict.get?, XF.prob, exX, override]

/-- The graph can be built, for example with special evidence on `c`. -/
theorem ex_new (special : Dict Var Nat) (h : special = [] ∨ special = [("c", 0)]) :
    ∃ a, new HashSeed.example (sparseOps HashSeed.example) [exF, exG] none special = .ok a := by
  obtain ⟨a, ha, _⟩ := C78_inference_never_fails HashSeed.example exC [exF, exG] ex_ok none special
    ⟨exX, ex_pos special h⟩
  exact ⟨a, ha⟩

theorem evidenceReduce_length {F V G : Type} {ops : Ops F V G} {factors rs : List F}
    (h : evidenceReduce ops factors none = .ok rs) : rs.length = factors.length := by
  rw [evidenceReduce_none h]

/-- Without evidence there are at most as many clusters as factors. -/
theorem new_le {F V G : Type} {ops : Ops F V G} {hs : HashSeed} {factors : List F} {special : Dict Var V}
    {a : Any F V G} (h : new hs ops factors none special = .ok a) : a.n ≤ factors.length := by
  obtain ⟨fs, h1, h2⟩ := new_factors h
  unfold clusterFactors at h1
  obtain ⟨rs, h3, h4⟩ := py_bind_eq_ok.1 h1
  rw [evidenceReduce_none h3] at h4
  obtain ⟨groups, hp, hf⟩ := C43_absorb_partitions ops factors fs h4
  have hn : a.n = fs.length := by rw [← h2, List.length_ofFn]
  have hl : ∀ (gs : List (List (F × Nat))) (fs : List F), List.Forall₂ (fun grp f => ∃ e t, grp = e :: t ∧
      Absorbs ops e.1 (t.map Prod.fst) f) gs fs → fs.length ≤ gs.flatten.length := by
    intro gs fs hf
    induction hf with
    | nil => simp
    | @cons grp f gs fs hg _ ih =>
      obtain ⟨e, t, rfl, _⟩ := hg
      simp only [List.flatten_cons, List.length_append, List.length_cons]
      omega
  have := hl groups fs hf
  rw [hp.length_eq, List.length_zipIdx] at this
  omega

theorem acyclic_of_two {n : Nat} (hn : n ≤ 2) (T : SimpleGraph (Fin n)) : T.IsAcyclic := by
  intro v c hc
  have h1 := hc.three_le_length
  have h2 : c.support.tail.length ≤ Fintype.card (Fin n) := List.Nodup.length_le_card hc.support_nodup
  rw [List.length_tail, SimpleGraph.Walk.length_support, Fintype.card_fin] at h2
  omega

/-- The graph has two clusters, so it is a tree. -/
theorem ex_two {special : Dict Var Nat} {a : Any (Sparse ℝ) Nat EReal}
    (h : new HashSeed.example (sparseOps HashSeed.example) [exF, exG] none special = .ok a) : a.n = 2 := by
  have h1 : a.n ≤ 2 := new_le h
  obtain ⟨i, hi⟩ := new_covers (sparseLaws HashSeed.example exC).toLaws ex_ok h (f := exF) (by simp)
  obtain ⟨j, hj⟩ := new_covers (sparseLaws HashSeed.example exC).toLaws ex_ok h (f := exG) (by simp)
  have hij : i ≠ j := by
    rintro rfl
    obtain ⟨f, hf, hs⟩ := (C44_evidence (sparseLaws HashSeed.example exC).toLaws HashSeed.example [exF, exG] ex_ok none
      special a h).2.2 i
    have ha : "a" ∈ f.vars := ((hs "a").1 (hi "a" (by decide) (by simp [Dict.keys]))).1
    have hc : "c" ∈ f.vars := ((hs "c").1 (hj "c" (by decide) (by simp [Dict.keys]))).1
    simp only [List.mem_cons, List.not_mem_nil, or_false] at hf
    rcases hf with rfl | rfl
    · exact absurd hc (by decide)
    · exact absurd ha (by decide)
  have := i.2
  have := j.2
  have : (i : Nat) ≠ j := fun h => hij (Fin.ext h)
  omega

/-- The sepset is `b`: there are message paths. -/
theorem ex_paths {special : Dict Var Nat} {a : Any (Sparse ℝ) Nat EReal} (hb : "b" ∉ Dict.keys special)
    (h : new HashSeed.example (sparseOps HashSeed.example) [exF, exG] none special = .ok a) : 0 < a.m := by
  obtain ⟨w, hsp, _⟩ := wired_new h
  obtain ⟨i, hi⟩ := new_covers (sparseLaws HashSeed.example exC).toLaws ex_ok h (f := exF) (by simp)
  obtain ⟨j, hj⟩ := new_covers (sparseLaws HashSeed.example exC).toLaws ex_ok h (f := exG) (by simp)
  have hn := ex_two h
  have hij : i ≠ j := by
    rintro rfl
    obtain ⟨f, hf, hs⟩ := (C44_evidence (sparseLaws HashSeed.example exC).toLaws HashSeed.example [exF, exG] ex_ok none
      special a h).2.2 i
    have ha : "a" ∈ f.vars := ((hs "a").1 (hi "a" (by decide) (by simp [Dict.keys]))).1
    have hc : "c" ∈ f.vars := ((hs "c").1 (hj "c" (by decide) (by simp [Dict.keys]))).1
    simp only [List.mem_cons, List.not_mem_nil, or_false] at hf
    rcases hf with rfl | rfl
    · exact absurd hc (by decide)
    · exact absurd ha (by decide)
  have hbi : "b" ∈ freeVars (sparseOps HashSeed.example) a.graph i :=
    mem_freeVars.2 ⟨hi "b" (by decide) (by simp [Dict.keys]), by rw [hsp]; exact hb⟩
  have hbj : "b" ∈ freeVars (sparseOps HashSeed.example) a.graph j :=
    mem_freeVars.2 ⟨hj "b" (by decide) (by simp [Dict.keys]), by rw [hsp]; exact hb⟩
  have hrip := rip_free (sparseLaws HashSeed.example exC).toLaws ex_ok h "b" i j hbi hbj
  rcases Relation.ReflTransGen.cases_head hrip with hh | ⟨k, ⟨hk, _⟩, _⟩
  · exact absurd hh hij
  · obtain ⟨s, hs⟩ := w.edge_adj.1 hk
    obtain ⟨q, _⟩ := (w.pathSep _ _).2 ⟨s, hs⟩
    exact lt_of_le_of_lt (Nat.zero_le _) q.2

/-- A graph, a state after passing a message, and the state after `process_graph` from there: the hypotheses of
C45-C50, C53, C54 and C55. -/
theorem ex_run : ∃ (a : Any (Sparse ℝ) Nat EReal) (tr : List (Fin a.m × Sparse ℝ)) (g g' : Graph (Sparse ℝ) Nat EReal a.n a.m),
    new HashSeed.example (sparseOps HashSeed.example) [exF, exG] none [("c", 0)] = .ok a ∧ a.n = 2 ∧ tr ≠ [] ∧
    Run (sparseOps HashSeed.example) a.graph tr g ∧
    processGraph (sparseOps HashSeed.example) 0 5 g = .ok g' := by
  obtain ⟨a, ha, hall⟩ := C78_inference_never_fails HashSeed.example exC [exF, exG] ex_ok none [("c", 0)]
    ⟨exX, ex_pos _ (Or.inr rfl)⟩
  have hn := ex_two ha
  have hm := ex_paths (by simp [Dict.keys]) ha
  obtain ⟨g, hg⟩ := (hall [] a.graph .start).1 ⟨0, hm⟩
  have hr := Run.pass ⟨0, hm⟩ .start hg
  obtain ⟨g', hg'⟩ := (hall _ g hr).2.1 (by omega) 0 5
  exact ⟨a, _, g, g', ha, hn, by simp, hr, hg'⟩

/-- The joint of the two factors with `c = 0`. -/
noncomputable def exP : Asg → ℝ := fun x => ([exF, exG].map fun f => f.prob (override ((none : Option (Dict Var Nat)).getD [])
  (override [("c", 0)] x))).prod

theorem exP_pos : ∃ x, exP x ≠ 0 := by
  refine ⟨exX, List.prod_ne_zero fun h0 => ?_⟩
  obtain ⟨f, hf, h⟩ := List.mem_map.1 h0
  exact ex_pos _ (Or.inr rfl) f hf h

/-- C52 and C79 apply: with some budget, the marginal of `b` is exact. -/
example : ∃ a maxIter g r, new HashSeed.example (sparseOps HashSeed.example) [exF, exG] none [("c", 0)] = .ok a ∧
    processGraph (sparseOps HashSeed.example) 0 maxIter a.graph = .ok g ∧
    getMarginal (sparseOps HashSeed.example) g ["b"] = .ok r ∧ ∃ c : ℝ, 0 < c ∧ ∀ x, r.prob x = c * sumOut exC
      ((([exF, exG].flatMap fun f => f.vars).toFinset.filter fun v =>
        v ∉ Dict.keys ((none : Option (Dict Var Nat)).getD []) ∧ v ∉ Dict.keys [("c", 0)]) \ ["b"].toFinset) exP x := by
  obtain ⟨a, ha, h⟩ := C52_tree_inference HashSeed.example exC [exF, exG] ex_ok none [("c", 0)] exP (fun _ => rfl) exP_pos
  have hn := ex_two ha
  have hS : ∃ S, ∀ i j s, sepset a.graph i j = some s → (s.map exC).prod ≤ S := by
    refine ⟨∑ p : Fin a.n × Fin a.n, (((sepset a.graph p.1 p.2).getD []).map exC).prod, fun i j s hs => ?_⟩
    have := Finset.single_le_sum (f := fun p : Fin a.n × Fin a.n => (((sepset a.graph p.1 p.2).getD []).map exC).prod)
      (fun _ _ => Nat.zero_le _) (Finset.mem_univ (i, j))
    simpa [hs] using this
  obtain ⟨S, hS⟩ := hS
  obtain ⟨g, hg, hall⟩ := h (by omega) (acyclic_of_two (by omega) _) S _ hS le_rfl
  obtain ⟨r, hr, hc⟩ := hall exG (by simp) ["b"] (by simp) (by
    intro v hv
    simp only [List.mem_cons, List.not_mem_nil, or_false] at hv
    subst hv
    exact ⟨by decide, by simp [Dict.keys], by simp [Dict.keys]⟩)
  exact ⟨a, _, g, r, ha, hg, hr, hc⟩

/-! ### One cluster -/

theorem ex1_ok : ∀ f ∈ [exF], Sparse.Regular f ∧ ∀ v ∈ f.vars, f.card v = exC v := by
  intro f hf
  exact ex_ok f (by simp at hf; simp [hf])

theorem ex1_pos : ∀ f ∈ [exF], f.prob (override ((none : Option (Dict Var Nat)).getD []) (override [("b", 1)] exX)) ≠ 0 := by
  intro f hf
  simp only [List.mem_cons, List.not_mem_nil, or_false] at hf
  subst hf
  simp [exF, Sparse.prob, Sparse.val, Dict.get?, XF.prob, exX, override]

/-- A graph with one cluster and special evidence in its scope: the hypotheses of `C52_single_cluster` and of
`C54_single_cluster_violation`. -/
theorem ex_single : ∃ (a : Any (Sparse ℝ) Nat EReal) (g : Graph (Sparse ℝ) Nat EReal a.n a.m),
    new HashSeed.example (sparseOps HashSeed.example) [exF] none [("b", 1)] = .ok a ∧ a.n = 1 ∧
    a.graph.special ≠ [] ∧
    (∀ i, ∀ v ∈ Dict.keys [("b", 1)], v ∈ scope (sparseOps HashSeed.example) a.graph i) ∧
    processGraph (sparseOps HashSeed.example) 0 5 a.graph = .ok g := by
  obtain ⟨a, ha, hall⟩ := C78_inference_never_fails HashSeed.example exC [exF] ex1_ok none [("b", 1)] ⟨exX, ex1_pos⟩
  obtain ⟨w, hsp, _⟩ := wired_new ha
  have L := sparseLaws HashSeed.example exC
  have hle : a.n ≤ 1 := new_le ha
  obtain ⟨i, hi⟩ := new_covers (sparseLaws HashSeed.example exC).toLaws ex1_ok ha (f := exF) (by simp)
  have hn : a.n = 1 := by have := i.2; omega
  have hall' : ∀ j : Fin a.n, j = i := fun j => Fin.ext (by have := i.2; have := j.2; omega)
  have hsc : ∀ i, ∀ v ∈ Dict.keys [("b", 1)], v ∈ scope (sparseOps HashSeed.example) a.graph i := by
    intro j v hv
    rw [hall' j]
    simp only [Dict.keys, List.map_cons, List.map_nil, List.mem_cons, List.not_mem_nil, or_false] at hv
    subst hv
    exact hi "b" (by decide) (by simp [Dict.keys])
  have hred := (sparseTotal HashSeed.example exC).red (f := (a.graph.cl ⟨0, by omega⟩).factor) (vs := Dict.keys [("b", 1)])
    (ks := Dict.values [("b", 1)]) (new_ok (sparseLaws HashSeed.example exC).toLaws ex1_ok ha _) (by simp [Dict.keys])
    (hsc _) (by simp [Dict.keys, Dict.values])
    ⟨exX, by
      have := new_pos (sparseLaws HashSeed.example exC).toLaws ex1_ok ha (possible ex1_pos) ⟨0, by omega⟩
      rw [hsp] at this
      exact this⟩
  obtain ⟨r, hr⟩ := hred
  have hex : ∃ g, processGraph (sparseOps HashSeed.example) 0 5 a.graph = .ok g := by
    unfold processGraph
    dsimp only
    rw [dif_pos hn]
    unfold processSingle
    dsimp only
    rw [if_neg (by rw [hsp]; simp), hsp, hr]
    exact ⟨_, rfl⟩
  obtain ⟨g, hg⟩ := hex
  exact ⟨a, g, ha, hn, by rw [hsp]; simp, hsc, hg⟩

end Verif.CG
