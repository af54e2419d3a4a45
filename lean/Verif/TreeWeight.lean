import Mathlib.Combinatorics.SimpleGraph.Acyclic

/-!
# Sizes of the sides of the edges of a forest

Specification-level facts about finite graphs, used to bound the number of messages passed on trees.
-/

namespace Verif.TreeWeight
open Classical
variable {n : Nat} (G : SimpleGraph (Fin n))

/-- The vertices reachable from `j` without entering `i`. -/
def Side (i j v : Fin n) : Prop := Relation.ReflTransGen (fun a b => G.Adj a b ∧ b ≠ i) j v

theorem Side.ne {i j v : Fin n} (hij : j ≠ i) (h : Side G i j v) : v ≠ i := by
  rcases Relation.ReflTransGen.cases_tail h with h | ⟨_, _, h⟩
  · rw [h]; exact hij
  · exact h.2

/-- In a forest, two neighbours of `j` are not connected around `j`. -/
theorem Side.eq {G : SimpleGraph (Fin n)} (hG : G.IsAcyclic) {j l l' : Fin n} (hl : G.Adj j l) (hl' : G.Adj j l')
    (h : Side G j l l') : l' = l := by
  by_contra hne
  have hb := SimpleGraph.isAcyclic_iff_forall_adj_isBridge.1 hG hl
  rw [SimpleGraph.isBridge_iff] at hb
  apply hb
  have key : ∀ v, Side G j l v → (G.deleteEdges {s(j, l)}).Reachable l v := by
    intro v hv
    induction hv with
    | refl => exact SimpleGraph.Reachable.refl _
    | @tail b c hb hc ih =>
      refine ih.trans (SimpleGraph.Adj.reachable ?_)
      have hbj : b ≠ j := Side.ne G hl.ne' hb
      simp only [SimpleGraph.deleteEdges_adj, Set.mem_singleton_iff, Sym2.eq_iff]
      exact ⟨hc.1, by rintro (⟨h1, _⟩ | ⟨_, h2⟩); exacts [hbj h1, hc.2 h2]⟩
  have h1 := key l' h
  refine SimpleGraph.Reachable.symm (h1.trans (SimpleGraph.Adj.reachable ?_))
  simp only [SimpleGraph.deleteEdges_adj, Set.mem_singleton_iff, Sym2.eq_iff]
  exact ⟨hl'.symm, by rintro (⟨h1, _⟩ | ⟨h2, _⟩); exacts [hl'.ne h1.symm, hne h2]⟩

/-- The number of vertices on `j`'s side of the edge `i j`. -/
noncomputable def weight (i j : Fin n) : Nat := (Finset.univ.filter fun v => Side G i j v).card

theorem weight_lt {i j : Fin n} (h : j ≠ i) : weight G i j < n := by
  unfold weight
  refine lt_of_lt_of_eq (Finset.card_lt_card ?_) (Finset.card_fin n)
  rw [Finset.filter_ssubset]
  exact ⟨i, Finset.mem_univ i, fun hs => Side.ne G h hs rfl⟩

/-- The side of an edge holds its head and the sides of all further edges. -/
theorem weight_step {G : SimpleGraph (Fin n)} (hG : G.IsAcyclic) {i j : Fin n} (hij : G.Adj i j) :
    1 + ∑ l with G.Adj j l ∧ l ≠ i, weight G j l ≤ weight G i j := by
  have hdisj : ((Finset.univ.filter fun l => G.Adj j l ∧ l ≠ i : Finset (Fin n)) : Set (Fin n)).PairwiseDisjoint
      fun l => Finset.univ.filter fun v => Side G j l v := by
    intro l hl l' hl' hne
    rw [Function.onFun, Finset.disjoint_left]
    intro v hv hv'
    simp only [Finset.coe_filter, Finset.mem_univ, true_and, Set.mem_ofPred_eq] at hl hl'
    simp only [Finset.mem_filter, Finset.mem_univ, true_and] at hv hv'
    have hrev : ∀ v, Side G j l' v → Relation.ReflTransGen (fun a b => G.Adj a b ∧ b ≠ j) v l' := by
      intro v hv
      induction hv with
      | refl => exact .refl
      | @tail b c hb hc ih => exact Relation.ReflTransGen.head ⟨hc.1.symm, Side.ne G hl'.1.ne' hb⟩ ih
    exact hne (Side.eq hG hl.1 hl'.1 (hv.trans (hrev v hv'))).symm
  unfold weight
  rw [← Finset.card_biUnion hdisj, add_comm, ← Finset.card_insert_of_notMem (a := j)]
  · apply Finset.card_le_card
    intro v hv
    simp only [Finset.mem_insert, Finset.mem_biUnion, Finset.mem_filter, Finset.mem_univ, true_and] at hv ⊢
    rcases hv with rfl | ⟨l, ⟨hjl, hli⟩, hv⟩
    · exact .refl
    · induction hv with
      | refl => exact .single ⟨hjl, hli⟩
      | @tail b c hb hc ih =>
        refine ih.tail ⟨hc.1, fun hci => ?_⟩
        have hi : Side G j l i := hci ▸ hb.tail hc
        exact hli (Side.eq hG hjl hij.symm hi).symm
  · simp only [Finset.mem_biUnion, Finset.mem_filter, Finset.mem_univ, true_and, not_exists, not_and]
    intro l hl hs
    exact Side.ne G hl.1.ne' hs rfl

end Verif.TreeWeight
