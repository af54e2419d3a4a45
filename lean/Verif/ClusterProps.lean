import Verif.ClusterRip

/-!
# Structure of cluster graphs (C42, C45, C46)

All statements hold for every factor class (`Ops`), all factor lists, all evidence and all hash seeds.
-/

namespace Verif.CG
variable {F V G : Type}

/-! ### C42 unique ids -/

/-- **C42.** The cluster ids are pairwise different, whatever the variables are called. -/
theorem C42_ids_unique (ops : Ops F V G) (special : Dict Var V) (fs : List F) :
    ((mkClusters ops special fs).map fun c => c.id).Nodup := by
  unfold mkClusters
  rw [List.map_map]
  have hz : (fs.zipIdx.map Prod.snd).Nodup := by
    rw [List.zipIdx_map_snd]; exact List.nodup_range'
  have hzz : fs.zipIdx.Nodup := List.Nodup.of_map _ hz
  rw [List.nodup_map_iff_inj_on hzz]
  intro a ha b hb hab
  have h2 : a.2 = b.2 := id_inj hab
  exact List.inj_on_of_nodup_map hz ha hb h2

/-- **C42**, as seen from the constructor: the check for duplicate ids never raises. -/
theorem C42_no_id_error (hs : HashSeed) (ops : Ops F V G) (special : Dict Var V) (fs : List F)
    (evVars : List Var) :
    buildGraph (n := (mkClusters ops special fs).length) hs ops (fun i => (mkClusters ops special fs)[i]) evVars =
      buildLoop (n := (mkClusters ops special fs).length) hs ops (fun i => (mkClusters ops special fs)[i]) evVars := by
  unfold buildGraph
  dsimp only
  have h1 : (List.finRange (mkClusters ops special fs).length).map
      (fun i => ((mkClusters ops special fs)[i]).id) = (mkClusters ops special fs).map fun c => c.id := by
    apply List.ext_getElem
    · simp
    · intro i h1 h2; simp
  rw [h1, List.Nodup.dedup (C42_ids_unique ops special fs)]
  simp [pyGuard]

/-! ### The built graph -/

/-- `Cluster.get_sepset` (_cluster.py 121-130) of cluster `i` for the id of cluster `j`; `none` when they
are not neighbours. -/
def sepset {n m : Nat} (g : Graph F V G n m) (i j : Fin n) : Option (List Var) :=
  Dict.get? (g.cl i).sepsets (g.cl j).id

/-- The scope of cluster `i` (`Cluster.var_names`). -/
def scope {n m : Nat} (ops : Ops F V G) (g : Graph F V G n m) (i : Fin n) : List Var :=
  ops.vars (g.cl i).factor

/-- The variable has evidence or special evidence. -/
def Observed (evidence : Option (Dict Var V)) (special : Dict Var V) (v : Var) : Prop :=
  v ∈ Dict.keys special ∨ ∃ ev, evidence = some ev ∧ v ∈ Dict.keys ev

theorem mem_evidenceVars {evidence : Option (Dict Var V)} {special : Dict Var V} {v : Var} :
    v ∈ evidenceVars evidence special ↔ Observed evidence special v := by
  unfold evidenceVars Observed
  cases evidence <;> simp

/-- What `ClusterGraph.__init__` leaves behind. -/
theorem new_inv {hs : HashSeed} {ops : Ops F V G} {factors : List F} {evidence : Option (Dict Var V)}
    {special : Dict Var V} {a : Any F V G} (h : new hs ops factors evidence special = .ok a) :
    ∃ fs, clusterFactors ops factors evidence = .ok fs ∧
    ∃ b, BuildInv (n := (mkClusters ops special fs).length) ops (fun i => (mkClusters ops special fs)[i])
        (ripSepsets hs (fun i : Fin (mkClusters ops special fs).length =>
          ops.vars ((mkClusters ops special fs)[i]).factor) (evidenceVars evidence special))
        (pairs (mkClusters ops special fs).length) b ∧
      Function.Injective (fun i : Fin (mkClusters ops special fs).length => ((mkClusters ops special fs)[i]).id) ∧
      a = ⟨_, _, b.graph special⟩ := by
  unfold new at h
  obtain ⟨fs, h1, h⟩ := py_bind_eq_ok.1 h
  obtain ⟨b, h2, h⟩ := py_bind_eq_ok.1 h
  simp only [Except.ok.injEq] at h
  obtain ⟨h3, h4⟩ := buildGraph_inv h2
  exact ⟨fs, h1, b, h4, h3, h.symm⟩

/-- The facts about the sepsets of a new graph that everything below uses. -/
theorem sepset_new {hs : HashSeed} {ops : Ops F V G} {n : Nat} {cl : Fin n → Cl F V} {evVars : List Var}
    {b : Build F V G n} {special : Dict Var V}
    (inv : BuildInv ops cl (ripSepsets hs (fun i => ops.vars (cl i).factor) evVars) (pairs n) b)
    (i j : Fin n) (v : Var) :
    (∃ s, sepset (b.graph special) i j = some s ∧ v ∈ s) ↔
      (graphOf (kruskal (varEdges (scope ops (b.graph special)) evVars v))).Adj i j := by
  have hsc : scope ops (b.graph special) = fun i => ops.vars (cl i).factor := by
    funext i; show ops.vars (b.cl i).factor = _; rw [inv.factor]
  rw [hsc]
  have hsep : sepset (b.graph special) i j = if i < j then
      Dict.get? (ripSepsets hs (fun i => ops.vars (cl i).factor) evVars) (i, j) else if j < i then
      Dict.get? (ripSepsets hs (fun i => ops.vars (cl i).factor) evVars) (j, i) else none := by
    show Dict.get? (b.cl i).sepsets (b.cl j).id = _
    rw [inv.id, inv.sep]
    simp only [mem_pairs]
  have hmem : ∀ i j : Fin n, (∃ s, Dict.get? (ripSepsets hs (fun i => ops.vars (cl i).factor) evVars) (i, j)
      = some s ∧ v ∈ s) ↔ (i, j) ∈ kruskal (varEdges (fun i => ops.vars (cl i).factor) evVars v) := by
    intro i j
    rw [get?_ripSepsets]
    have hu : (i, j) ∈ kruskal (varEdges (fun i => ops.vars (cl i).factor) evVars v) →
        v ∈ uniqueVars hs (fun i => ops.vars (cl i).factor) := by
      intro h
      have := mem_varEdges.1 ((kruskal_sublist _).subset h)
      unfold uniqueVars
      rw [SetOrder.mem, List.mem_flatMap]
      exact ⟨i, List.mem_finRange i, this.2.1⟩
    constructor
    · rintro ⟨s, h1, h2⟩
      split at h1
      · simp at h1
      · simp only [Option.some.injEq] at h1
        rw [← h1, List.mem_filter] at h2
        simpa using h2.2
    · intro h
      have hm : v ∈ (uniqueVars hs (fun i => ops.vars (cl i).factor)).filter
          (fun v => decide ((i, j) ∈ kruskal (varEdges (fun i => ops.vars (cl i).factor) evVars v))) :=
        List.mem_filter.2 ⟨hu h, by simpa using h⟩
      rw [if_neg (List.ne_nil_of_mem hm)]
      exact ⟨_, rfl, hm⟩
  rw [graphOf_adj, hsep]
  have hlt : ∀ i j : Fin n, (i, j) ∈ kruskal (varEdges (fun i => ops.vars (cl i).factor) evVars v) → i < j :=
    fun i j h => (mem_varEdges.1 ((kruskal_sublist _).subset h)).1
  rcases lt_trichotomy i j with h | h | h
  · rw [if_pos h, hmem]
    have : (j, i) ∉ kruskal (varEdges (fun i => ops.vars (cl i).factor) evVars v) :=
      fun hm => absurd (hlt j i hm) (not_lt.2 h.le)
    simp [this, h.ne]
  · subst h; simp
  · rw [if_neg (not_lt.2 h.le), if_pos h, hmem]
    have : (i, j) ∉ kruskal (varEdges (fun i => ops.vars (cl i).factor) evVars v) :=
      fun hm => absurd (hlt i j hm) (not_lt.2 h.le)
    simp [this, h.ne']

/-! ### C45 running intersection -/

/-- Clusters `i` and `j` are joined by an edge whose sepset (in one direction or the other) contains
`v`. -/
def sepGraph {n m : Nat} (g : Graph F V G n m) (v : Var) : SimpleGraph (Fin n) :=
  SimpleGraph.fromRel fun i j => ∃ s, sepset g i j = some s ∧ v ∈ s

theorem sepGraph_new {hs : HashSeed} {ops : Ops F V G} {n : Nat} {cl : Fin n → Cl F V} {evVars : List Var}
    {b : Build F V G n} {special : Dict Var V}
    (inv : BuildInv ops cl (ripSepsets hs (fun i => ops.vars (cl i).factor) evVars) (pairs n) b) (v : Var) :
    sepGraph (b.graph special) v = graphOf (kruskal (varEdges (scope ops (b.graph special)) evVars v)) := by
  ext i j
  rw [sepGraph, SimpleGraph.fromRel_adj, sepset_new inv, sepset_new inv]
  constructor
  · rintro ⟨_, h | h⟩
    · exact h
    · exact h.symm
  · intro h; exact ⟨h.ne, Or.inl h⟩

/-- **C45.** In a new cluster graph, for every variable without evidence that occurs in some cluster, the
edges whose sepset contains it form a tree on exactly the clusters whose scope contains it. -/
theorem C45_running_intersection (hs : HashSeed) (ops : Ops F V G) (factors : List F)
    (evidence : Option (Dict Var V)) (special : Dict Var V) (a : Any F V G)
    (h : new hs ops factors evidence special = .ok a) (v : Var) (hv : ¬ Observed evidence special v)
    (hex : ∃ i, v ∈ scope ops a.graph i) :
    (∀ i j, (sepGraph a.graph v).Adj i j → v ∈ scope ops a.graph i ∧ v ∈ scope ops a.graph j) ∧
    ((sepGraph a.graph v).induce {i | v ∈ scope ops a.graph i}).IsTree := by
  obtain ⟨fs, _, b, inv, hid, rfl⟩ := new_inv h
  have hg := sepGraph_new (special := special) inv v
  dsimp only at *
  rw [hg]
  set T := kruskal (varEdges (scope ops (b.graph special)) (evidenceVars evidence special) v) with hT
  have hin : ∀ i j, (graphOf T).Adj i j →
      v ∈ scope ops (b.graph special) i ∧ v ∈ scope ops (b.graph special) j := by
    intro i j hij
    rcases (graphOf_adj.1 hij).2 with hm | hm
    · have := mem_varEdges.1 ((kruskal_sublist _).subset hm)
      exact ⟨this.2.1, this.2.2.1⟩
    · have := mem_varEdges.1 ((kruskal_sublist _).subset hm)
      exact ⟨this.2.2.1, this.2.1⟩
  refine ⟨hin, ?_⟩
  refine { connected := ?_, isAcyclic := (kruskal_acyclic _).induce _ }
  obtain ⟨i0, hi0⟩ := hex
  have : Nonempty {i | v ∈ scope ops (b.graph special) i} := ⟨⟨i0, hi0⟩⟩
  refine SimpleGraph.Connected.mk ?_
  rintro ⟨i, hi⟩ ⟨j, hj⟩
  have hr : (graphOf T).Reachable i j := by
    have hv' : v ∉ evidenceVars evidence special := fun hm => hv (mem_evidenceVars.1 hm)
    rcases lt_trichotomy i j with hij | hij | hij
    · exact kruskal_reachable _ (e := (i, j)) (mem_varEdges.2 ⟨hij, hi, hj, hv'⟩)
    · subst hij; exact SimpleGraph.Reachable.refl _
    · exact (kruskal_reachable _ (e := (j, i)) (mem_varEdges.2 ⟨hij, hj, hi, hv'⟩)).symm
  rw [SimpleGraph.reachable_iff_reflTransGen] at hr
  suffices ∀ k, Relation.ReflTransGen (graphOf T).Adj i k → ∀ hk : k ∈ {i | v ∈ scope ops (b.graph special) i},
      ((graphOf T).induce {i | v ∈ scope ops (b.graph special) i}).Reachable ⟨i, hi⟩ ⟨k, hk⟩ from this j hr hj
  intro k hk
  induction hk with
  | refl => intro _; exact SimpleGraph.Reachable.refl _
  | @tail c d _ hcd ih =>
    intro hd
    have hc := (hin c d hcd).1
    refine (ih hc).trans (SimpleGraph.Adj.reachable ?_)
    exact hcd

/-! ### C46 sepsets -/

theorem nodup_refs {m : Nat} {l : List Nat} (h : l.Nodup) : (refs m l).Nodup := by
  unfold refs
  refine List.Nodup.filterMap ?_ h
  intro a b c h1 h2
  simp only [Option.mem_def] at h1 h2
  split at h1 <;> split at h2 <;> simp_all
  exact (congrArg Fin.val h1).trans (congrArg Fin.val h2).symm

theorem mem_refs {m : Nat} {l : List Nat} {q : Fin m} : q ∈ refs m l ↔ (q : Nat) ∈ l := by
  unfold refs
  rw [List.mem_filterMap]
  constructor
  · rintro ⟨k, hk, h⟩
    split at h
    · simp only [Option.some.injEq] at h; subst h; exact hk
    · simp at h
  · intro h
    exact ⟨q, h, by simp⟩

/-- The two paths of every edge. -/
theorem path_new {hs : HashSeed} {ops : Ops F V G} {n : Nat} {cl : Fin n → Cl F V} {evVars : List Var}
    {b : Build F V G n} {special : Dict Var V}
    (inv : BuildInv ops cl (ripSepsets hs (fun i => ops.vars (cl i).factor) evVars) (pairs n) b) :
    (∀ q r : Fin b.paths.length, ((b.graph special).path q).snd = ((b.graph special).path r).snd →
      ((b.graph special).path q).rcv = ((b.graph special).path r).rcv → q = r) ∧
    (∀ i j, (∃ q, ((b.graph special).path q).snd = i ∧ ((b.graph special).path q).rcv = j) ↔
      ∃ s, sepset (b.graph special) i j = some s) ∧
    (∀ i j, sepset (b.graph special) i j = sepset (b.graph special) j i) ∧
    (∀ i, sepset (b.graph special) i i = none) := by
  have hsep : ∀ i j, sepset (b.graph special) i j = if i < j then
      Dict.get? (ripSepsets hs (fun i => ops.vars (cl i).factor) evVars) (i, j) else if j < i then
      Dict.get? (ripSepsets hs (fun i => ops.vars (cl i).factor) evVars) (j, i) else none := by
    intro i j
    show Dict.get? (b.cl i).sepsets (b.cl j).id = _
    rw [inv.id, inv.sep]
    simp only [mem_pairs]
  have hends := inv.ends
  set rip := ripSepsets hs (fun i => ops.vars (cl i).factor) evVars with hrip
  have hnd : (b.paths.map fun p => (p.snd, p.rcv)).Nodup := by
    rw [hends]
    refine List.nodup_flatMap.2 ⟨fun e he => ?_, ?_⟩
    · have : e.1 < e.2 := mem_pairs.1 (List.mem_filter.1 he).1
      simp only [List.nodup_cons, List.mem_singleton, List.not_mem_nil, not_false_eq_true,
        List.nodup_nil, and_self, and_true]
      intro h
      exact this.ne (congrArg Prod.fst h)
    · refine List.Pairwise.imp_of_mem ?_ ((nodup_pairs n).filter _)
      intro e e' he he' hne x hx hx'
      have h1 : e.1 < e.2 := mem_pairs.1 (List.mem_filter.1 he).1
      have h2 : e'.1 < e'.2 := mem_pairs.1 (List.mem_filter.1 he').1
      simp only [List.mem_cons, List.not_mem_nil, or_false] at hx hx'
      rcases hx with rfl | rfl <;> rcases hx' with h | h
      · exact hne h
      · rw [h] at h1; exact absurd h1 (not_lt.2 h2.le)
      · rw [← h] at h2; exact absurd h2 (not_lt.2 h1.le)
      · simp only [Prod.mk.injEq] at h
        exact hne (Prod.ext h.2 h.1)
  refine ⟨fun q r h1 h2 => ?_, fun i j => ?_, fun i j => ?_, fun i => ?_⟩
  · have hq : (b.paths.map fun p => (p.snd, p.rcv))[(q : Nat)]'(by simp) =
        (b.paths.map fun p => (p.snd, p.rcv))[(r : Nat)]'(by simp) := by
      simp only [List.getElem_map]
      exact Prod.ext h1 h2
    exact Fin.ext ((List.Nodup.getElem_inj_iff hnd).1 hq)
  · have hex : (∃ q, ((b.graph special).path q).snd = i ∧ ((b.graph special).path q).rcv = j) ↔
        (i, j) ∈ b.paths.map fun p => (p.snd, p.rcv) := by
      rw [List.mem_map]
      constructor
      · rintro ⟨q, rfl, rfl⟩
        exact ⟨b.paths[q], List.getElem_mem _, rfl⟩
      · rintro ⟨p, hp, he⟩
        obtain ⟨k, hk, rfl⟩ := List.mem_iff_getElem.1 hp
        exact ⟨⟨k, hk⟩, congrArg Prod.fst he, congrArg Prod.snd he⟩
    rw [hex, hends, List.mem_flatMap, hsep]
    constructor
    · rintro ⟨e, he, hm⟩
      obtain ⟨he1, he2⟩ := List.mem_filter.1 he
      have hlt : e.1 < e.2 := mem_pairs.1 he1
      obtain ⟨s, hs'⟩ := Option.isSome_iff_exists.1 he2
      simp only [List.mem_cons, List.not_mem_nil, or_false] at hm
      rcases hm with h | h
      · subst h; exact ⟨s, by rw [if_pos hlt]; exact hs'⟩
      · obtain ⟨e1, e2⟩ := e
        simp only [Prod.mk.injEq] at h
        obtain ⟨rfl, rfl⟩ := h
        exact ⟨s, by rw [if_neg (not_lt.2 hlt.le), if_pos hlt]; exact hs'⟩
    · rintro ⟨s, hs'⟩
      split at hs'
      · rename_i hlt
        exact ⟨(i, j), List.mem_filter.2 ⟨mem_pairs.2 hlt, by rw [hs']; rfl⟩, by simp⟩
      · split at hs'
        · rename_i hlt
          exact ⟨(j, i), List.mem_filter.2 ⟨mem_pairs.2 hlt, by rw [hs']; rfl⟩, by simp⟩
        · simp at hs'
  · rw [hsep, hsep]
    rcases lt_trichotomy i j with h | h | h
    · rw [if_pos h, if_neg (not_lt.2 h.le), if_pos h]
    · subst h; rfl
    · rw [if_neg (not_lt.2 h.le), if_pos h, if_pos h]
  · rw [hsep]; simp

/-- **C46.** In a new cluster graph every sepset is non-empty and duplicate-free, lies in both cluster
scopes, contains no evidence variable and is the same in both directions; there is a message path from
`i` to `j` exactly if they have a sepset, and at most one. -/
theorem C46_sepsets (hs : HashSeed) (ops : Ops F V G) (factors : List F)
    (evidence : Option (Dict Var V)) (special : Dict Var V) (a : Any F V G)
    (h : new hs ops factors evidence special = .ok a) :
    (∀ i j s, sepset a.graph i j = some s →
      s ≠ [] ∧ s.Nodup ∧ i ≠ j ∧ sepset a.graph j i = some s ∧
      (∀ v ∈ s, v ∈ scope ops a.graph i ∧ v ∈ scope ops a.graph j ∧ ¬ Observed evidence special v) ∧
      (∃! q, (a.graph.path q).snd = i ∧ (a.graph.path q).rcv = j)) ∧
    (∀ q, ∃ s, sepset a.graph (a.graph.path q).snd (a.graph.path q).rcv = some s) := by
  obtain ⟨fs, _, b, inv, hid, rfl⟩ := new_inv h
  obtain ⟨h1, h2, h3, h4⟩ := path_new (special := special) inv
  dsimp only at *
  refine ⟨fun i j s hs' => ?_, fun q => (h2 _ _).1 ⟨q, rfl, rfl⟩⟩
  have hij : i ≠ j := by
    rintro rfl
    rw [h4] at hs'; cases hs'
  have hsep : sepset (b.graph special) i j = if i < j then
      Dict.get? (ripSepsets hs (fun i : Fin (mkClusters ops special fs).length =>
        ops.vars ((mkClusters ops special fs)[i]).factor) (evidenceVars evidence special)) (i, j) else if j < i then
      Dict.get? (ripSepsets hs (fun i : Fin (mkClusters ops special fs).length =>
        ops.vars ((mkClusters ops special fs)[i]).factor) (evidenceVars evidence special)) (j, i) else none := by
    show Dict.get? (b.cl i).sepsets (b.cl j).id = _
    rw [inv.id, inv.sep]
    simp only [mem_pairs]
  have hlist : s ≠ [] ∧ s.Nodup := by
    rw [hsep] at hs'
    have key : ∀ e, Dict.get? (ripSepsets hs (fun i : Fin (mkClusters ops special fs).length =>
        ops.vars ((mkClusters ops special fs)[i]).factor) (evidenceVars evidence special)) e = some s →
        s ≠ [] ∧ s.Nodup := by
      intro e he
      rw [get?_ripSepsets] at he
      split at he
      · cases he
      · rename_i hne
        simp only [Option.some.injEq] at he
        rw [← he]
        exact ⟨hne, (hs.strs.nodup _).filter _⟩
    split at hs'
    · exact key _ hs'
    · split at hs'
      · exact key _ hs'
      · cases hs'
  refine ⟨hlist.1, hlist.2, hij, by rw [← h3]; exact hs', fun v hv => ?_, ?_⟩
  · have hadj := (sepset_new (special := special) inv i j v).1 ⟨s, hs', hv⟩
    rcases (graphOf_adj.1 hadj).2 with hm | hm
    · have := mem_varEdges.1 ((kruskal_sublist _).subset hm)
      exact ⟨this.2.1, this.2.2.1, fun ho => this.2.2.2 (mem_evidenceVars.2 ho)⟩
    · have := mem_varEdges.1 ((kruskal_sublist _).subset hm)
      exact ⟨this.2.2.1, this.2.1, fun ho => this.2.2.2 (mem_evidenceVars.2 ho)⟩
  · obtain ⟨q, hq1, hq2⟩ := (h2 i j).2 ⟨s, hs'⟩
    exact ⟨q, ⟨hq1, hq2⟩, fun r hr => h1 r q (hr.1.trans hq1.symm) (hr.2.trans hq2.symm)⟩

end Verif.CG
