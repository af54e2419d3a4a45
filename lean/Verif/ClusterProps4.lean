import Verif.ClusterExact
import Verif.ClusterProps2

/-!
# Exact marginals at convergence (C52)
-/

namespace Verif.CG
open Spec (override Asg sumOut)
open Classical
variable {F V G : Type} {ops : Ops F V G}

/-- Every input scope lies inside the scope of some cluster factor. -/
theorem absorb_covers {D : Type} (L : Laws ops D) {factors r : List F} (hok : ∀ f ∈ factors, L.Ok f)
    (h : absorb ops factors = .ok r) : ∀ f' ∈ factors, ∃ f ∈ r, ∀ v ∈ ops.vars f', v ∈ ops.vars f := by
  obtain ⟨groups, hperm, hprod⟩ := absorb_groups h
  have hmem : ∀ a ∈ groups.flatten, L.Ok a.1 := by
    rintro ⟨f, k⟩ ha
    exact hok f (List.fst_mem_of_mem_zipIdx (hperm.mem_iff.1 ha))
  have key : ∀ (groups : List (List (F × Nat))) (r : List F), (∀ a ∈ groups.flatten, L.Ok a.1) →
      List.Forall₂ (IsProduct ops) groups r →
      ∀ a ∈ groups.flatten, ∃ f ∈ r, ∀ v ∈ ops.vars a.1, v ∈ ops.vars f := by
    intro groups r hmem hprod
    induction hprod with
    | nil => simp
    | @cons grp f groups r hp _ ih =>
      obtain ⟨e, t, rfl, hp⟩ := hp
      simp only [List.flatten_cons, List.mem_append] at hmem
      intro a ha
      rw [List.flatten_cons, List.mem_append] at ha
      rcases ha with ha | ha
      · have het : ∀ g ∈ t.map Prod.fst, L.Ok g := by
          intro g hg
          obtain ⟨c, hc, rfl⟩ := List.mem_map.1 hg
          exact hmem c (Or.inl (by simp [hc]))
        obtain ⟨_, hv, _⟩ := L.productFrom (hmem e (Or.inl (by simp))) het hp.product
        refine ⟨f, by simp, fun v hva => (hv v).2 ?_⟩
        rcases List.mem_cons.1 ha with rfl | ha
        · exact Or.inl hva
        · exact Or.inr ⟨a.1, List.mem_map.2 ⟨a, ha, rfl⟩, hva⟩
      · obtain ⟨f', hf', hv⟩ := ih (fun a ha => hmem a (Or.inr ha)) a ha
        exact ⟨f', by simp [hf'], hv⟩
  intro f' hf'
  have : f' ∈ factors.zipIdx.map Prod.fst := by rw [List.zipIdx_map_fst]; exact hf'
  obtain ⟨a, ha, rfl⟩ := List.mem_map.1 this
  exact key groups r hmem hprod a (hperm.mem_iff.2 ha)

/-- Every unobserved variable of an input factor is in the scope of some cluster. -/
theorem new_covers {D : Type} (L : Laws ops D) {hs : HashSeed} {factors : List F} (hok : ∀ f ∈ factors, L.Ok f)
    {evidence : Option (Dict Var V)} {special : Dict Var V} {a : Any F V G}
    (h : new hs ops factors evidence special = .ok a) {f : F} (hf : f ∈ factors) :
    ∃ i, ∀ v ∈ ops.vars f, v ∉ Dict.keys (evidence.getD []) → v ∈ scope ops a.graph i := by
  obtain ⟨fs, h1, h2⟩ := new_factors h
  unfold clusterFactors at h1
  obtain ⟨rs, h3, h4⟩ := py_bind_eq_ok.1 h1
  have hrs : (∀ f ∈ rs, L.Ok f) ∧ ∃ f' ∈ rs, ∀ v ∈ ops.vars f, v ∉ Dict.keys (evidence.getD []) → v ∈ ops.vars f' := by
    cases evidence with
    | none =>
      rw [evidenceReduce_none h3]
      exact ⟨hok, f, hf, fun v hv _ => hv⟩
    | some ev =>
      have h5 := L.evidenceReduce hok ev h3
      have hall : ∀ (l l' : List F), List.Forall₂ (fun f f' => L.Ok f' ∧ (∀ v, v ∈ ops.vars f' ↔ v ∈ ops.vars f ∧
          v ∉ Dict.keys ev) ∧ ∀ x, L.den f' x = L.den f (override (evPairs L ev) x)) l l' → ∀ d ∈ l', L.Ok d := by
        intro l l' hll
        induction hll with
        | nil => simp
        | cons hcc _ ih =>
          intro d hd
          rcases List.mem_cons.1 hd with rfl | hd
          · exact hcc.1
          · exact ih d hd
      refine ⟨hall _ _ h5, ?_⟩
      clear h h1 h2 h3 h4 hok
      induction h5 with
      | nil => simp at hf
      | @cons c c' l l' hcc hll ih =>
        rcases List.mem_cons.1 hf with rfl | hf
        · exact ⟨c', by simp, fun v hv hk => (hcc.2.1 v).2 ⟨hv, hk⟩⟩
        · obtain ⟨f', hf', hv⟩ := ih hf
          exact ⟨f', by simp [hf'], hv⟩
  obtain ⟨hrok, f', hf', hv⟩ := hrs
  obtain ⟨c, hc, hcv⟩ := absorb_covers L hrok h4 f' hf'
  rw [← h2] at hc
  obtain ⟨i, rfl⟩ := (List.mem_ofFn' _ _).1 hc
  exact ⟨i, fun v hvf hk => hcv v (hv v hvf hk)⟩

/-- The product of the input factors, as a function of the unobserved variables: evidence and special
evidence are substituted. -/
noncomputable def posterior (L : SumLaws ops) (factors : List F) (evidence : Option (Dict Var V))
    (special : Dict Var V) (x : Asg) : ℝ :=
  (factors.map fun f => L.den f (override ((evidence.getD []).map fun e => (e.1, L.val e.2))
    (override (special.map fun e => (e.1, L.val e.2)) x))).prod

/-- The variables of the input factors that are not observed. -/
noncomputable def hiddenVars (ops : Ops F V G) (factors : List F) (evidence : Option (Dict Var V))
    (special : Dict Var V) : Finset Var :=
  (factors.flatMap ops.vars).toFinset.filter fun v => v ∉ Dict.keys (evidence.getD []) ∧ v ∉ Dict.keys special

theorem rip_free {D : Type} (L : Laws ops D) {hs : HashSeed} {factors : List F} (hok : ∀ f ∈ factors, L.Ok f)
    {evidence : Option (Dict Var V)} {special : Dict Var V} {a : Any F V G}
    (h : new hs ops factors evidence special = .ok a) (v : Var) (i j : Fin a.n)
    (hi : v ∈ freeVars ops a.graph i) (hj : v ∈ freeVars ops a.graph j) :
    Relation.ReflTransGen (fun i j => (edgeGraph a.graph).Adj i j ∧ v ∈ edgeSep a.graph i j) i j := by
  obtain ⟨w, hsp, _⟩ := wired_new h
  rw [mem_freeVars, hsp] at hi hj
  have hev := (C44_evidence L hs factors hok evidence special a h).2.1 i v hi.1
  have hobs : ¬ Observed evidence special v := by
    rintro (h1 | ⟨ev, rfl, h1⟩)
    · exact hi.2 h1
    · exact hev h1
  obtain ⟨_, htree⟩ := C45_running_intersection hs ops factors evidence special a h v hobs ⟨i, hi.1⟩
  have hreach := htree.connected.preconnected ⟨i, hi.1⟩ ⟨j, hj.1⟩
  rw [SimpleGraph.reachable_iff_reflTransGen] at hreach
  have hmap : Relation.ReflTransGen (fun i j => (sepGraph a.graph v).Adj i j) i j := by
    have := Relation.ReflTransGen.lift (p := fun i j => (sepGraph a.graph v).Adj i j) Subtype.val
      (fun a b hab => hab) _ _ hreach
    exact this
  refine Relation.ReflTransGen.mono (fun i j hij => ?_) _ _ hmap
  unfold sepGraph at hij
  rw [SimpleGraph.fromRel_adj] at hij
  obtain ⟨_, ⟨s, hs1, hs2⟩ | ⟨s, hs1, hs2⟩⟩ := hij
  · exact ⟨w.edge_adj.2 ⟨s, hs1⟩, by unfold edgeSep; rw [hs1]; simpa using hs2⟩
  · rw [w.sepSymm] at hs1
    exact ⟨w.edge_adj.2 ⟨s, hs1⟩, by unfold edgeSep; rw [hs1]; simpa using hs2⟩

theorem biUnion_free {D : Type} (L : Laws ops D) {hs : HashSeed} {factors : List F} (hok : ∀ f ∈ factors, L.Ok f)
    {evidence : Option (Dict Var V)} {special : Dict Var V} {a : Any F V G}
    (h : new hs ops factors evidence special = .ok a) :
    Finset.univ.biUnion (freeVars ops a.graph) = hiddenVars ops factors evidence special := by
  obtain ⟨w, hsp, _⟩ := wired_new h
  ext v
  simp only [Finset.mem_biUnion, Finset.mem_univ, true_and, mem_freeVars, hiddenVars, Finset.mem_filter,
    List.mem_toFinset, List.mem_flatMap, hsp]
  constructor
  · rintro ⟨i, h1, h2⟩
    obtain ⟨f, hf, hv⟩ := (C44_evidence L hs factors hok evidence special a h).2.2 i
    exact ⟨⟨f, hf, ((hv v).1 h1).1⟩, ((hv v).1 h1).2, h2⟩
  · rintro ⟨⟨f, hf, hv⟩, h1, h2⟩
    obtain ⟨i, hi⟩ := new_covers L hok h hf
    exact ⟨i, hi v hv h1, h2⟩

/-- **C52.** If the edges of the cluster graph form no cycle, message passing (in any order) has converged,
and the posterior is not identically zero, then `get_marginal` of unobserved variables returns a positive
multiple of the exact posterior marginal: the product of all input factors with all evidence substituted,
summed over all other unobserved variables. Converged means: on the range of the sepset, the next message of
every path is a positive multiple of the last one sent (of 1, if none was sent). -/
theorem C52_exact_marginals [Zero G] (L : SumLaws ops) (hs : HashSeed) (factors : List F)
    (hok : ∀ f ∈ factors, L.Ok f) (evidence : Option (Dict Var V)) (special : Dict Var V) (a : Any F V G)
    (h : new hs ops factors evidence special = .ok a)
    (htree : (SimpleGraph.fromRel fun i j => ∃ s, sepset a.graph i j = some s).IsAcyclic)
    (tr : List (Fin a.m × F)) (g : Graph F V G a.n a.m) (hr : Run ops a.graph tr g)
    (hconv : ∀ q s, sepset a.graph (a.graph.path q).snd (a.graph.path q).rcv = some s →
      ∃ c : ℝ, 0 < c ∧ ∀ x : Asg, (∀ v ∈ s, x v < L.C v) →
        L.den (g.path q).next.factor x = c * ((lastMsg tr q).map fun f => L.den f x).getD 1)
    (hpos : ∃ x, posterior L factors evidence special x ≠ 0)
    (vrs : List Var) (hn : vrs.Nodup) (hun : ∀ v ∈ vrs, v ∉ Dict.keys special) (r : F)
    (hm : getMarginal ops g vrs = .ok r) :
    ∃ c : ℝ, 0 < c ∧ ∀ x, L.den r x = c * sumOut L.C (hiddenVars ops factors evidence special \ vrs.toFinset)
      (posterior L factors evidence special) x := by
  obtain ⟨w, hsp, _⟩ := wired_new h
  have inv := hr.inv w
  have b := hr.bel w (new_ok L.toLaws hok h)
  have hconv' : Converged L a.graph tr g := by
    intro q
    obtain ⟨c, hc, hx⟩ := hconv q _ (w.sepOf_eq q)
    refine ⟨c, hc, fun x hxr => ?_⟩
    rw [hx x hxr]
    unfold mval
    cases lastMsg tr q <;> rfl
  have hpost : ∀ y, ∏ i, L.den (a.graph.cl i).factor (override (evPairs L.toLaws a.graph.special) y) =
      posterior L factors evidence special y := by
    intro y
    rw [(C44_evidence L.toLaws hs factors hok evidence special a h).1, hsp]
    rfl
  rcases C53_get_marginal ops a.n a.m g vrs with ⟨_, he⟩ | ⟨i, hi, _, he⟩
  · rw [he] at hm; cases hm
  rw [he] at hm
  obtain ⟨f, h1, h2⟩ := py_bind_eq_ok.1 hm
  obtain ⟨f1, f2, f3⟩ := L.toLaws.observe (b.ok i) g.special h1
  rw [inv.special] at f2 f3
  have hsub : ∀ v ∈ vrs, v ∈ ops.vars f := fun v hv => (f2 v).2 ⟨hi v hv, by rw [hsp]; exact hun v hv⟩
  have hsum := L.sum f1 hn hsub h2
  have hset : (ops.vars f).toFinset = freeVars ops a.graph i := by
    ext v; rw [List.mem_toFinset, f2, mem_freeVars, b.vars]
  have hB : L.den f = belief L a.graph g i := funext f3
  rw [hset, hB] at hsum
  obtain ⟨c, hc, hex⟩ := belief_exact L w inv b hconv' htree (rip_free L.toLaws hok h) (by
    obtain ⟨x, hx⟩ := hpos
    rw [← hpost x] at hx
    exact ⟨x, fun i => (Finset.prod_ne_zero_iff.1 hx) i (Finset.mem_univ i)⟩) i
  have hJ : (fun y => ∏ i, L.den (a.graph.cl i).factor (override (evPairs L.toLaws a.graph.special) y)) =
      posterior L factors evidence special := funext hpost
  rw [hJ, biUnion_free L.toLaws hok h] at hex
  refine ⟨c, hc, fun x => ?_⟩
  have hvf : ∀ v ∈ vrs, v ∈ freeVars ops a.graph i := fun v hv => by rw [← hset]; simpa using hsub v hv
  have hfh : freeVars ops a.graph i ⊆ hiddenVars ops factors evidence special := by
    rw [← biUnion_free L.toLaws hok h]; exact Finset.subset_biUnion_of_mem (freeVars ops a.graph) (Finset.mem_univ i)
  have hsplit : hiddenVars ops factors evidence special \ vrs.toFinset =
      (freeVars ops a.graph i \ vrs.toFinset) ∪ (hiddenVars ops factors evidence special \ freeVars ops a.graph i) := by
    ext v
    simp only [Finset.mem_sdiff, Finset.mem_union, List.mem_toFinset]
    constructor
    · rintro ⟨h1, h2⟩
      by_cases h3 : v ∈ freeVars ops a.graph i
      · exact Or.inl ⟨h3, h2⟩
      · exact Or.inr ⟨h1, h3⟩
    · rintro (⟨h1, h2⟩ | ⟨h1, h2⟩)
      · exact ⟨hfh h1, h2⟩
      · exact ⟨h1, fun hv => h2 (hvf v hv)⟩
  have hdisj : Disjoint (freeVars ops a.graph i \ vrs.toFinset)
      (hiddenVars ops factors evidence special \ freeVars ops a.graph i) := by
    rw [Finset.disjoint_left]
    intro v h1 h2
    exact (Finset.mem_sdiff.1 h2).2 (Finset.mem_sdiff.1 h1).1
  rw [hsum, hsplit, Spec.sumOut_union hdisj, ← Spec.sumOut_const_mul]
  exact Spec.sumOut_congr fun y _ => hex y

end Verif.CG
