import Verif.SortModel
import Mathlib.Tactic.NormNum

/-!
# Sorting an almost sorted queue (C105)
-/

namespace Verif.CG
variable {α : Type}

theorem sortedDesc_perm (key : α → ℝ) (l : List α) : (sortedDesc key l).Perm l := List.mergeSort_perm _ _

theorem sortedDesc_sorted (key : α → ℝ) (l : List α) : (sortedDesc key l).Pairwise fun x y => key y ≤ key x := by
  have := List.pairwise_mergeSort (le := fun x y => decide (key y ≤ key x))
    (fun a b c hab hbc => by simp only [decide_eq_true_eq] at *; exact hbc.trans hab)
    (fun a b => by simp only [Bool.or_eq_true, decide_eq_true_eq]; exact le_total _ _) l
  exact this.imp fun h => by simpa using h

/-- A list whose elements but the last descend, and whose last element is not above the one before. -/
theorem pairwise_concat {key : α → ℝ} {x y : α} {r : List α}
    (h : (x :: r).reverse.Pairwise fun x y => key y ≤ key x) (hy : key y ≤ key x) :
    (y :: x :: r).reverse.Pairwise fun x y => key y ≤ key x := by
  rw [List.reverse_cons, List.pairwise_append]
  refine ⟨h, by simp, fun a ha b hb => ?_⟩
  rw [List.mem_singleton] at hb
  subst hb
  rw [List.reverse_cons, List.mem_append, List.mem_singleton] at ha
  rcases ha with ha | rfl
  · refine hy.trans ?_
    rw [List.reverse_cons, List.pairwise_append] at h
    exact h.2.2 a ha x (by simp)
  · exact hy

/-- **C105 (part that holds).** Of a queue with at least two elements in which all elements but the first descend, or all
but the last, the result has the same elements in descending order. What is missing: shorter queues
(`C105_short`). -/
theorem C105_sort_almost_sorted_partial (key : α → ℝ) (l : List α) (hl : 2 ≤ l.length)
    (h : (l.tail.Pairwise fun x y => key y ≤ key x) ∨ l.dropLast.Pairwise fun x y => key y ≤ key x) :
    ∃ l' r, sortAlmostSorted key l = .ok (l', r) ∧ r.Perm l ∧ r.Pairwise (fun x y => key y ≤ key x) ∧ l'.Perm l := by
  match l, hl with
  | a :: b :: t, _ =>
    obtain ⟨l', hl'⟩ : ∃ l', l' = if key a < key b then b :: t ++ [a] else a :: b :: t := ⟨_, rfl⟩
    have hp : l'.Perm (a :: b :: t) := by
      rw [hl']
      split
      · exact (List.perm_append_comm (l₁ := b :: t) (l₂ := [a]))
      · exact .refl _
    have hd : l'.dropLast.Pairwise fun x y => key y ≤ key x := by
      rw [hl']
      rcases h with h | h
      · split
        · rw [List.dropLast_concat]; exact h
        · rename_i hab
          have : (a :: b :: t).Pairwise fun x y => key y ≤ key x := by
            refine List.pairwise_cons.2 ⟨fun x hx => ?_, h⟩
            rcases List.mem_cons.1 hx with rfl | hx
            · exact not_lt.1 hab
            · exact ((List.pairwise_cons.1 h).1 x hx).trans (not_lt.1 hab)
          exact this.sublist (List.dropLast_sublist _)
      · split
        · rename_i hab
          rw [List.dropLast_concat]
          cases t with
          | nil => simp
          | cons c t =>
            have := (List.pairwise_cons.1 h).1 b (by simp)
            exact absurd hab (not_lt.2 this)
        · exact h
    have hlen : l'.reverse.length = t.length + 2 := by rw [List.length_reverse, hp.length_eq]; rfl
    unfold sortAlmostSorted
    simp only
    rw [← hl']
    match hr : l'.reverse, hlen with
    | y :: x :: r, _ =>
      simp only
      have hle : l' = (y :: x :: r).reverse := by rw [← hr, List.reverse_reverse]
      split
      · rename_i hyx
        refine ⟨l', l', rfl, hp, ?_, hp⟩
        rw [hle]
        refine pairwise_concat ?_ hyx
        rw [hle, List.reverse_cons, List.dropLast_concat] at hd
        exact hd
      · exact ⟨l', _, rfl, (sortedDesc_perm key l').trans hp, sortedDesc_sorted key l', hp⟩

/-- **C105 violated for short queues.** An empty queue and a queue with one element, which are sorted, raise. -/
theorem C105_short (key : α → ℝ) (a : α) : sortAlmostSorted key [] = .error .indexError ∧
    sortAlmostSorted key [a] = .error .indexError := ⟨rfl, rfl⟩

/-- The condition on the argument is needed: with the second and third element in the wrong order the result is not
sorted. -/
theorem C105_needs_condition : sortAlmostSorted (fun x : ℝ => x) [5, 1, 3, 2] = .ok ([5, 1, 3, 2], [5, 1, 3, 2]) := by
  norm_num [sortAlmostSorted]

example : ∃ l' r, sortAlmostSorted (fun x : ℝ => x) [1, 3, 2, 0] = .ok (l', r) ∧ r.Perm [1, 3, 2, 0] ∧
    r.Pairwise (fun x y => y ≤ x) ∧ l'.Perm [1, 3, 2, 0] :=
  C105_sort_almost_sorted_partial (fun x : ℝ => x) [1, 3, 2, 0] (by simp) (.inl (by norm_num [List.pairwise_cons]))

end Verif.CG
