import Verif.ClusterBuild
import Mathlib.Combinatorics.SimpleGraph.Acyclic

/-! Cluster ids, Kruskal's algorithm and the sepset dictionary. -/

namespace Verif.CG
variable {F V G : Type} {n : Nat}

/-! ### Ids -/

theorem id_inj {i j : Nat} {a b : String}
    (h : "c" ++ toString i ++ "#" ++ a = "c" ++ toString j ++ "#" ++ b) : i = j := by
  have h' := congrArg String.toList h
  simp only [String.toList_append] at h'
  have e1 : "c".toList = ['c'] := rfl
  have e2 : "#".toList = ['#'] := rfl
  have e3 : ∀ k : Nat, (toString k).toList = Nat.toDigits 10 k := fun k => Nat.toList_repr
  rw [e1, e2, e3, e3] at h'
  simp only [List.cons_append, List.append_assoc, List.cons.injEq,
    true_and, List.nil_append] at h'
  have hd : ∀ k : Nat, ∀ c ∈ Nat.toDigits 10 k, (c != '#') = true := by
    intro k c hc
    have := Nat.isDigit_of_mem_toDigits (by decide) (by decide) hc
    simp only [bne_iff_ne, ne_eq]
    rintro rfl
    exact absurd this (by decide)
  have ht : ∀ (k : Nat) (l : List Char),
      (Nat.toDigits 10 k ++ '#' :: l).takeWhile (fun c => c != '#') = Nat.toDigits 10 k := by
    intro k l
    rw [List.takeWhile_append_of_pos (hd k)]
    simp
  have h2 := congrArg (List.takeWhile fun c => c != '#') h'
  rw [ht, ht] at h2
  have h3 := congrArg (fun l => Nat.ofDigitChars 10 l 0) h2
  simpa [Nat.ofDigitChars_ten_toDigits] using h3

/-! ### Kruskal -/

/-- The undirected graph of a list of edges. -/
def graphOf (es : List (Fin n × Fin n)) : SimpleGraph (Fin n) := SimpleGraph.fromRel fun i j => (i, j) ∈ es

theorem graphOf_adj {es : List (Fin n × Fin n)} {i j : Fin n} :
    (graphOf es).Adj i j ↔ i ≠ j ∧ ((i, j) ∈ es ∨ (j, i) ∈ es) := SimpleGraph.fromRel_adj _ _ _

theorem graphOf_snoc (es : List (Fin n × Fin n)) (e : Fin n × Fin n) :
    graphOf (es ++ [e]) = graphOf es ⊔ SimpleGraph.edge e.1 e.2 := by
  ext i j
  obtain ⟨a, b⟩ := e
  rw [SimpleGraph.sup_adj, graphOf_adj, graphOf_adj, SimpleGraph.edge_adj]
  simp only [List.mem_append, List.mem_singleton, Prod.mk.injEq]
  tauto

/-- The loop invariant of Kruskal's algorithm. -/
structure KInv (l : List (Fin n × Fin n)) (s : List (Fin n × Fin n) × (Fin n → Fin n)) : Prop where
  sub : s.1.Sublist l
  acyclic : (graphOf s.1).IsAcyclic
  comp : ∀ a b, s.2 a = s.2 b ↔ (graphOf s.1).Reachable a b
  edge : ∀ e ∈ l, s.2 e.1 = s.2 e.2

theorem KInv.step {l : List (Fin n × Fin n)} {s : List (Fin n × Fin n) × (Fin n → Fin n)} (h : KInv l s)
    {e : Fin n × Fin n} : KInv (l ++ [e]) (kruskalStep s e) := by
  unfold kruskalStep
  split
  · rename_i he
    refine ⟨h.sub.trans (List.sublist_append_left _ _), h.acyclic, h.comp, fun e' he' => ?_⟩
    simp only [List.mem_append, List.mem_singleton] at he'
    rcases he' with h' | rfl
    · exact h.edge _ h'
    · exact he
  · rename_i hne
    have hnr : ¬ (graphOf s.1).Reachable e.1 e.2 := fun hr => hne ((h.comp _ _).2 hr)
    have hee : e.1 ≠ e.2 := fun he => hne (by rw [he])
    have hle : graphOf s.1 ≤ graphOf (s.1 ++ [e]) := by rw [graphOf_snoc]; exact le_sup_left
    have hadj : (graphOf (s.1 ++ [e])).Adj e.1 e.2 := graphOf_adj.2 ⟨hee, Or.inl (by simp)⟩
    refine ⟨List.Sublist.append h.sub (List.Sublist.refl _), ?_, fun a b => ⟨fun hab => ?_, fun hr => ?_⟩, ?_⟩
    · show (graphOf (s.1 ++ [e])).IsAcyclic
      rw [graphOf_snoc]; exact h.acyclic.sup_edge_of_not_reachable hnr
    · dsimp only at hab
      have up : ∀ a b, s.2 a = s.2 b → (graphOf (s.1 ++ [e])).Reachable a b :=
        fun a b hc => ((h.comp a b).1 hc).mono hle
      split at hab <;> split at hab
      · rename_i h1 h2; exact up a b (h1.trans h2.symm)
      · rename_i h1 _
        exact (up a e.2 h1).trans (hadj.symm.reachable.trans (up e.1 b hab))
      · rename_i _ h2
        exact (up a e.1 hab).trans (hadj.reachable.trans (up e.2 b h2.symm))
      · exact up a b hab
    · rw [SimpleGraph.reachable_iff_reflTransGen] at hr
      induction hr with
      | refl => rfl
      | @tail c d _ hcd ih =>
        refine ih.trans ?_
        rw [graphOf_snoc, SimpleGraph.sup_adj, SimpleGraph.edge_adj] at hcd
        dsimp only
        rcases hcd with hcd | ⟨⟨rfl, rfl⟩ | ⟨rfl, rfl⟩, _⟩
        · rw [(h.comp c d).2 hcd.reachable]
        · simp
        · simp
    · intro e' he'
      dsimp only
      simp only [List.mem_append, List.mem_singleton] at he'
      rcases he' with h' | rfl
      · rw [h.edge _ h']
      · simp

theorem kruskal_inv (l : List (Fin n × Fin n)) : KInv l (l.foldl kruskalStep ([], id)) := by
  suffices ∀ (l' l : List (Fin n × Fin n)) (s), KInv l s → KInv (l ++ l') (l'.foldl kruskalStep s) by
    refine this l [] _ ⟨List.Sublist.refl _, ?_, fun a b => ?_, by simp⟩
    · have : graphOf ([] : List (Fin n × Fin n)) = ⊥ := by ext; simp [graphOf_adj]
      rw [this]; exact SimpleGraph.isAcyclic_bot
    · have : graphOf ([] : List (Fin n × Fin n)) = ⊥ := by ext; simp [graphOf_adj]
      rw [this, SimpleGraph.reachable_bot]; rfl
  intro l'
  induction l' with
  | nil => intro l s h; simpa using h
  | cons e l' ih =>
    intro l s h
    have := ih (l ++ [e]) _ (h.step (e := e))
    simpa using this

theorem kruskal_sublist (l : List (Fin n × Fin n)) : (kruskal l).Sublist l := (kruskal_inv l).sub

theorem kruskal_acyclic (l : List (Fin n × Fin n)) : (graphOf (kruskal l)).IsAcyclic := (kruskal_inv l).acyclic

theorem kruskal_reachable (l : List (Fin n × Fin n)) {e : Fin n × Fin n} (he : e ∈ l) :
    (graphOf (kruskal l)).Reachable e.1 e.2 :=
  ((kruskal_inv l).comp _ _).1 ((kruskal_inv l).edge e he)

/-! ### The sepset dictionary -/

/-- Adding one variable to the sepsets of its tree edges. -/
theorem get?_addVar (v : Var) (T : List (Fin n × Fin n)) (hT : T.Nodup) (d : Dict (Fin n × Fin n) (List Var))
    (e : Fin n × Fin n) :
    Dict.get? (T.foldl (addSepVar v) d) e =
    if e ∈ T then some ((Dict.get? d e).getD [] ++ [v]) else Dict.get? d e := by
  induction T generalizing d with
  | nil => simp
  | cons a T ih =>
    rw [List.nodup_cons] at hT
    rw [List.foldl_cons, ih hT.2]
    have hset : Dict.get? (addSepVar v d a) e =
        if a = e then some ((Dict.get? d a).getD [] ++ [v]) else Dict.get? d e := by
      unfold addSepVar
      split <;> rename_i h <;> rw [Dict.get?_set] <;> split <;> simp [h]
    rw [hset]
    by_cases hae : a = e
    · subst hae; simp [hT.1]
    · have : e ≠ a := fun h => hae h.symm
      simp [hae, this]

/-- The entry of an edge lists the variables whose spanning tree uses it. -/
theorem get?_ripSepsets (hs : HashSeed) (scope : Fin n → List Var) (evVars : List Var)
    (e : Fin n × Fin n) :
    Dict.get? (ripSepsets hs scope evVars) e =
      if (uniqueVars hs scope).filter (fun v => decide (e ∈ kruskal (varEdges scope evVars v))) = [] then none
      else some ((uniqueVars hs scope).filter fun v => decide (e ∈ kruskal (varEdges scope evVars v))) := by
  unfold ripSepsets
  suffices ∀ (vs : List Var) (d : Dict (Fin n × Fin n) (List Var)),
      Dict.get? (vs.foldl (fun d v => (kruskal (varEdges scope evVars v)).foldl (addSepVar v) d) d) e =
      if vs.filter (fun v => decide (e ∈ kruskal (varEdges scope evVars v))) = [] then Dict.get? d e
      else some ((Dict.get? d e).getD [] ++
        vs.filter fun v => decide (e ∈ kruskal (varEdges scope evVars v))) by
    rw [this]; simp [Dict.get?]
  intro vs
  induction vs with
  | nil => intro d; simp
  | cons v vs ih =>
    intro d
    have hT : (kruskal (varEdges scope evVars v)).Nodup :=
      (kruskal_sublist _).nodup ((nodup_pairs n).filter _)
    rw [List.foldl_cons, ih, get?_addVar v _ hT]
    by_cases he : e ∈ kruskal (varEdges scope evVars v)
    · simp only [he, if_true, decide_true, List.filter_cons_of_pos, reduceCtorEq, if_false,
        Option.getD_some, List.append_assoc]
      split <;> rename_i h <;> simp [h]
    · simp [he]

theorem mem_varEdges {scope : Fin n → List Var} {evVars : List Var} {v : Var} {i j : Fin n} :
    (i, j) ∈ varEdges scope evVars v ↔ i < j ∧ v ∈ scope i ∧ v ∈ scope j ∧ v ∉ evVars := by
  simp only [varEdges, List.mem_filter, mem_pairs, nonRipSepset, decide_eq_true_eq]
  tauto

end Verif.CG
