import Verif.MixDivProps2

/-!
# C111: removing duplicate modes of mixtures over one variable
-/

namespace Verif.Mix

theorem isDupArray_one (tol : ℝ) (us : List ℝ) (x : ℝ) :
    isDupArray tol (us.map fun u => [u]) [x] = .ok (decide (∃ u ∈ us, |u - x| ≤ tol)) := by
  have h : (us.map fun u => [u]).mapM (fun u => arraysClose tol u [x]) = .ok (us.map fun u => decide (|u - x| ≤ tol)) := by
    induction us with
    | nil => rfl
    | cons u us ih =>
      rw [List.map_cons, List.mapM_cons, ih]
      rfl
  unfold isDupArray
  rw [h, py_bind_ok]
  congr 1
  rw [Bool.eq_iff_iff]
  simp [List.any_eq_true]

theorem dupFold (tol : ℝ) (l us : List ℝ) : ∃ rs : List ℝ,
    (l.map fun x => [x]).foldlM (fun unique x => do
      let d ← isDupArray tol unique x
      (.ok (if d then unique else unique ++ [x]) : Py _)) (us.map fun u => [u]) = .ok (rs.map fun r => [r]) ∧
    (∀ u ∈ us, u ∈ rs) ∧ (∀ r ∈ rs, r ∈ us ∨ r ∈ l) ∧ (0 ≤ tol → ∀ x ∈ l, ∃ r ∈ rs, |r - x| ≤ tol) ∧
    (us.Pairwise (fun a b => tol < |a - b|) → rs.Pairwise fun a b => tol < |a - b|) := by
  induction l generalizing us with
  | nil => exact ⟨us, rfl, fun _ h => h, fun _ h => .inl h, by simp, id⟩
  | cons x l ih =>
    by_cases hx : ∃ u ∈ us, |u - x| ≤ tol
    · obtain ⟨rs, h1, h2, h3, h4, h5⟩ := ih us
      refine ⟨rs, ?_, h2, ?_, ?_, h5⟩
      · rw [List.map_cons, List.foldlM_cons, isDupArray_one, py_bind_ok, decide_eq_true hx, py_bind_ok]
        exact h1
      · exact fun r hr => (h3 r hr).imp id (List.mem_cons_of_mem _)
      · intro ht y hy
        rcases List.mem_cons.1 hy with rfl | hy
        · obtain ⟨u, hu, hd⟩ := hx
          exact ⟨u, h2 u hu, hd⟩
        · exact h4 ht y hy
    · obtain ⟨rs, h1, h2, h3, h4, h5⟩ := ih (us ++ [x])
      refine ⟨rs, ?_, fun u hu => h2 u (List.mem_append_left _ hu), ?_, ?_, ?_⟩
      · rw [List.map_cons, List.foldlM_cons, isDupArray_one, py_bind_ok, decide_eq_false hx, py_bind_ok]
        rw [List.map_append] at h1
        exact h1
      · intro r hr
        rcases h3 r hr with h | h
        · rcases List.mem_append.1 h with h | h
          · exact .inl h
          · rw [List.mem_singleton.1 h]
            exact .inr List.mem_cons_self
        · exact .inr (List.mem_cons_of_mem _ h)
      · intro ht y hy
        rcases List.mem_cons.1 hy with rfl | hy
        · exact ⟨y, h2 y (by simp), by simpa using ht⟩
        · exact h4 ht y hy
      · intro hp
        refine h5 (List.pairwise_append.2 ⟨hp, List.pairwise_singleton _ _, fun a ha b hb => ?_⟩)
        rw [List.mem_singleton.1 hb]
        push Not at hx
        exact hx a ha

/-- **C111 (modes over one variable).** The modes kept are some of the modes found, no two of them within the tolerance,
and each mode found is within the tolerance of one that is kept. -/
theorem C111_unique_modes (tol : ℝ) (ht : 0 ≤ tol) (l : List ℝ) (hl : l ≠ []) : ∃ rs : List ℝ,
    removeDupArrays tol (l.map fun x => [x]) = .ok (rs.map fun r => [r]) ∧ (∀ r ∈ rs, r ∈ l) ∧
    rs.Pairwise (fun a b => tol < |a - b|) ∧ ∀ x ∈ l, ∃ r ∈ rs, |r - x| ≤ tol := by
  cases l with
  | nil => exact absurd rfl hl
  | cons a l =>
    obtain ⟨rs, h1, -, h3, h4, h5⟩ := dupFold tol (a :: l) [a]
    refine ⟨rs, h1, fun r hr => ?_, h5 (List.pairwise_singleton _ _), h4 ht⟩
    rcases h3 r hr with h | h
    · rw [List.mem_singleton.1 h]
      exact List.mem_cons_self
    · exact h

/-- Of the points 0, 1/2, 2 the first and the last are kept with tolerance 1. -/
example : removeDupArrays 1 [[0], [1 / 2], [2]] = .ok [[0], [2]] := by
  have h0 : isDupArray 1 [[0]] [(0 : ℝ)] = .ok true := by
    rw [show ([[0]] : List (List ℝ)) = [0].map fun u => [u] from rfl, isDupArray_one]
    simp
  have h1 : isDupArray 1 [[0]] [(1 / 2 : ℝ)] = .ok true := by
    rw [show ([[0]] : List (List ℝ)) = [0].map fun u => [u] from rfl, isDupArray_one]
    norm_num
  have h2 : isDupArray 1 [[0]] [(2 : ℝ)] = .ok false := by
    rw [show ([[0]] : List (List ℝ)) = [0].map fun u => [u] from rfl, isDupArray_one]
    norm_num
  unfold removeDupArrays
  dsimp only
  rw [List.foldlM_cons, h0, py_bind_ok, py_bind_ok, List.foldlM_cons]
  simp only [if_true]
  rw [h1, py_bind_ok, py_bind_ok, List.foldlM_cons]
  simp only [if_true]
  rw [h2]
  rfl

end Verif.Mix
