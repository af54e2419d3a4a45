import Verif.UtilsModel

/-!
# Properties of helper functions (C74, C75)
-/

namespace Verif.Utils

/-! ### C74 -/

theorem isDuplicate_iff {tol : ℝ} {l : List ℝ} {x : ℝ} : isDuplicate tol l x = true ↔ ∃ u ∈ l, |u - x| ≤ tol := by
  have key : ∀ (l : List ℝ) (b : Bool), l.foldl (fun dup u => if |u - x| ≤ tol then true else dup) b = true ↔
      b = true ∨ ∃ u ∈ l, |u - x| ≤ tol := by
    intro l
    induction l with
    | nil => simp
    | cons a l ih =>
      intro b
      rw [List.foldl_cons, ih]
      by_cases h : |a - x| ≤ tol <;> simp [h]
  unfold isDuplicate
  rw [key]
  simp

theorem dedup_fold {tol : ℝ} (ht : 0 ≤ tol) (l u : List ℝ) (hu : u.Pairwise fun a b => tol < |a - b|) :
    ∃ s, l.foldl (dedupStep tol) u = u ++ s ∧ s.Sublist l ∧ (u ++ s).Pairwise (fun a b => tol < |a - b|) ∧
      ∀ x ∈ l, ∃ y ∈ u ++ s, |y - x| ≤ tol := by
  induction l generalizing u with
  | nil => exact ⟨[], by simp, by simp, by simpa using hu, by simp⟩
  | cons a l ih =>
    rw [List.foldl_cons]
    unfold dedupStep
    by_cases h : isDuplicate tol u a = true
    · rw [if_pos h]
      obtain ⟨s, h1, h2, h3, h4⟩ := ih u hu
      refine ⟨s, h1, h2.cons _, h3, fun x hx => ?_⟩
      rcases List.mem_cons.1 hx with rfl | hx
      · obtain ⟨y, hy, hy'⟩ := isDuplicate_iff.1 h
        exact ⟨y, List.mem_append_left _ hy, hy'⟩
      · exact h4 x hx
    · rw [if_neg h]
      have hu' : (u ++ [a]).Pairwise fun a b => tol < |a - b| := by
        rw [List.pairwise_append]
        refine ⟨hu, by simp, fun x hx y hy => ?_⟩
        rw [List.mem_singleton] at hy
        subst hy
        by_contra hc
        exact h (isDuplicate_iff.2 ⟨x, hx, not_lt.1 hc⟩)
      obtain ⟨s, h1, h2, h3, h4⟩ := ih _ hu'
      rw [List.append_assoc] at h1 h3
      refine ⟨[a] ++ s, h1, h2.cons_cons _, h3, fun x hx => ?_⟩
      rcases List.mem_cons.1 hx with rfl | hx
      · exact ⟨x, by simp, by simpa using ht⟩
      · simpa using h4 x hx

/-- **C74 (part that holds).** For a list that is not empty and a tolerance that is not negative, the result is a
subsequence of the list, its elements are pairwise more than `tol` apart, and every element of the list is within `tol`
of an element of the result. What is missing: `C74_empty`, `C74_negative`. -/
theorem C74_remove_duplicate_values_partial {l : List ℝ} (hl : l ≠ []) {tol : ℝ} (ht : 0 ≤ tol) :
    ∃ r, removeDuplicateValues l tol = .ok r ∧ r.Sublist l ∧ r.Pairwise (fun a b => tol < |a - b|) ∧
      ∀ x ∈ l, ∃ y ∈ r, |y - x| ≤ tol := by
  cases l with
  | nil => exact absurd rfl hl
  | cons a l =>
    refine ⟨_, rfl, ?_⟩
    have hd : dedupStep tol [a] a = [a] := by
      unfold dedupStep
      rw [if_pos (isDuplicate_iff.2 ⟨a, by simp, by simpa using ht⟩)]
    obtain ⟨s, h1, h2, h3, h4⟩ := dedup_fold ht l [a] (by simp)
    rw [List.foldl_cons, hd, h1]
    refine ⟨h2.cons_cons _, h3, fun x hx => ?_⟩
    rcases List.mem_cons.1 hx with rfl | hx
    · exact ⟨x, by simp, by simpa using ht⟩
    · exact h4 x hx

/-- **C74 with the default tolerance.** The result has the elements of the list, each once. -/
theorem C74_exact {l : List ℝ} (hl : l ≠ []) :
    ∃ r, removeDuplicateValues l = .ok r ∧ r.Sublist l ∧ r.Nodup ∧ ∀ x, x ∈ r ↔ x ∈ l := by
  obtain ⟨r, h1, h2, h3, h4⟩ := C74_remove_duplicate_values_partial hl (le_refl 0)
  refine ⟨r, h1, h2, h3.imp fun h e => ?_, fun x => ⟨fun h => h2.subset h, fun h => ?_⟩⟩
  · rw [e, sub_self, abs_zero] at h
    exact lt_irrefl _ h
  · obtain ⟨y, hy, hy'⟩ := h4 x h
    have : y = x := sub_eq_zero.1 (abs_nonpos_iff.1 hy')
    exact this ▸ hy

/-- **C74 is violated by the empty list**, for which `IndexError` is raised. -/
theorem C74_empty (tol : ℝ) : removeDuplicateValues [] tol = .error .indexError := rfl

/-- **C74 is violated by negative tolerances**, for which the result has the first element twice. -/
theorem C74_negative {a : ℝ} {l : List ℝ} {tol : ℝ} (ht : tol < 0) :
    removeDuplicateValues (a :: l) tol = .ok (a :: a :: l) := by
  have key : ∀ (l u : List ℝ), l.foldl (dedupStep tol) u = u ++ l := by
    intro l
    induction l with
    | nil => simp
    | cons b l ih =>
      intro u
      have : dedupStep tol u b = u ++ [b] := by
        unfold dedupStep
        rw [if_neg]
        rw [isDuplicate_iff]
        rintro ⟨y, -, hy⟩
        exact absurd ((abs_nonneg _).trans hy) (not_le.2 ht)
      rw [List.foldl_cons, this, ih, List.append_assoc, List.singleton_append]
  change Except.ok ((a :: l).foldl (dedupStep tol) [a]) = _
  rw [key]
  rfl

/-- The hypotheses of the C74 theorems can be met. -/
example : ∃ r, removeDuplicateValues [1, 1.5, 3] 1 = .ok r ∧ r.Sublist [1, 1.5, 3] ∧
    r.Pairwise (fun a b => 1 < |a - b|) ∧ ∀ x ∈ ([1, 1.5, 3] : List ℝ), ∃ y ∈ r, |y - x| ≤ 1 :=
  C74_remove_duplicate_values_partial (by simp) (by norm_num)

/-! ### C75 -/

variable {V : Type}

theorem fold_evidence (ev : Dict Var V) (vars : List Var) (acc : Dict Var V) (hacc : (Dict.keys acc).Nodup) :
    (Dict.keys ((vars.filterMap fun v => (Dict.get? ev v).map fun x => (v, x)).foldl (fun d e => Dict.set d e.1 e.2) acc)).Nodup ∧
    ∀ v, Dict.get? ((vars.filterMap fun v => (Dict.get? ev v).map fun x => (v, x)).foldl
      (fun d e => Dict.set d e.1 e.2) acc) v =
      if v ∈ vars ∧ (Dict.get? ev v).isSome then Dict.get? ev v else Dict.get? acc v := by
  induction vars generalizing acc with
  | nil => exact ⟨by simpa using hacc, by simp⟩
  | cons w vars ih =>
    cases hw : Dict.get? ev w with
    | none =>
      rw [List.filterMap_cons_none (by simp [hw])]
      obtain ⟨h1, h2⟩ := ih acc hacc
      refine ⟨h1, fun v => ?_⟩
      rw [h2]
      by_cases hv : v = w
      · subst hv
        simp [hw]
      · simp [hv]
    | some x =>
      rw [List.filterMap_cons_some (by rw [hw]; rfl), List.foldl_cons]
      obtain ⟨h1, h2⟩ := ih (Dict.set acc w x) (Dict.nodup_keys_set hacc w x)
      refine ⟨h1, fun v => ?_⟩
      rw [h2]
      by_cases hv : v = w
      · subst hv
        simp [hw, Dict.get?_set]
      · simp [hv, Dict.get?_set, Ne.symm hv]

/-- **C75.** For every evidence and every list of variables, also with repeated ones, the two lists have the same length,
every name is listed once, and a name is paired with a value exactly if it is among the variables and that is its value
in the evidence. -/
theorem C75_subset_evidence (ev : Dict Var V) (vars : List Var) :
    (getSubsetEvidence ev vars).1.length = (getSubsetEvidence ev vars).2.length ∧ (getSubsetEvidence ev vars).1.Nodup ∧
    ∀ v x, (v, x) ∈ (getSubsetEvidence ev vars).1.zip (getSubsetEvidence ev vars).2 ↔ v ∈ vars ∧ Dict.get? ev v = some x := by
  have hz : (getSubsetEvidence ev vars).1.zip (getSubsetEvidence ev vars).2 = CG.subsetEvidence ev vars := by
    unfold getSubsetEvidence
    dsimp only
    generalize CG.subsetEvidence ev vars = d
    induction d with
    | nil => rfl
    | cons e d ih =>
      obtain ⟨k, v⟩ := e
      simpa [Dict.keys, Dict.values] using ih
  obtain ⟨h1, h2⟩ := fold_evidence ev vars [] (by simp [Dict.keys])
  have h1' : (Dict.keys (CG.subsetEvidence ev vars)).Nodup := h1
  have h2' : ∀ v, Dict.get? (CG.subsetEvidence ev vars) v =
      if v ∈ vars ∧ (Dict.get? ev v).isSome then Dict.get? ev v else none := h2
  refine ⟨by simp [getSubsetEvidence, Dict.keys, Dict.values], h1', fun v x => ?_⟩
  rw [hz, ← Dict.get?_iff_mem h1', h2']
  split
  · rename_i h
    exact ⟨fun h' => ⟨h.1, h'⟩, fun h' => h'.2⟩
  · rename_i h
    refine ⟨fun h' => by simp at h', fun h' => absurd ⟨h'.1, by rw [h'.2]; rfl⟩ h⟩

/-- A concrete case with a repeated variable and a variable without evidence. -/
example : getSubsetEvidence [("a", 1), ("b", 2), ("c", 3)] ["c", "z", "a", "c"] = (["c", "a"], [3, 1]) := by decide +kernel

end Verif.Utils
