import Verif.Gibbs
import Mathlib.Data.Finset.Sort
import Mathlib.Algebra.Order.BigOperators.Group.Finset
import Mathlib.Algebra.BigOperators.Ring.Finset

/-! Summing a function over the values of a set of variables, each with a fixed cardinality. -/

namespace Verif.Spec

/-- Sum `F` over all values of the variables in `vs`; variable `v` has the values `0, ..., C v - 1`. -/
noncomputable def sumOut (C : Var → Nat) (vs : Finset Var) (F : Asg → ℝ) : Asg → ℝ :=
  sumVars (vs.toList.map fun v => (v, C v)) F

variable {C : Var → Nat}

theorem sumOut_eq_sumVars {l : List Var} (hl : l.Nodup) {vs : Finset Var} (h : ∀ v, v ∈ l ↔ v ∈ vs)
    (F : Asg → ℝ) : sumVars (l.map fun v => (v, C v)) F = sumOut C vs F := by
  unfold sumOut
  refine sumVars_perm (List.Perm.map _ ?_) ?_ F
  · exact (List.perm_ext_iff_of_nodup hl vs.nodup_toList).2 fun v => by simp [h]
  · simpa [List.map_map, Function.comp_def] using hl

@[simp] theorem sumOut_empty (F : Asg → ℝ) : sumOut C ∅ F = F := by simp [sumOut, sumVars]

theorem sumOut_insert {v : Var} {vs : Finset Var} (h : v ∉ vs) (F : Asg → ℝ) :
    sumOut C (insert v vs) F = sumVar v (C v) (sumOut C vs F) := by
  rw [← sumOut_eq_sumVars (l := v :: vs.toList) (by simp [h, vs.nodup_toList]) (by simp)]
  rfl

theorem sumOut_union {a b : Finset Var} (h : Disjoint a b) (F : Asg → ℝ) :
    sumOut C (a ∪ b) F = sumOut C a (sumOut C b F) := by
  rw [← sumOut_eq_sumVars (l := a.toList ++ b.toList) _ (by simp)]
  · rw [List.map_append, sumVars_append]; rfl
  · rw [List.nodup_append]
    refine ⟨a.nodup_toList, b.nodup_toList, fun x hx y hy => ?_⟩
    rintro rfl
    exact Finset.disjoint_left.1 h (by simpa using hx) (by simpa using hy)

/-- A factor that does not depend on the summed variables can be pulled out. -/
theorem sumOut_mul_left {vs : Finset Var} {F G : Asg → ℝ}
    (hG : ∀ x y, (∀ v, v ∉ vs → x v = y v) → G x = G y) (x : Asg) :
    sumOut C vs (fun y => G y * F y) x = G x * sumOut C vs F x := by
  induction vs using Finset.induction_on generalizing x with
  | empty => simp
  | insert v vs hv ih =>
    rw [sumOut_insert hv, sumOut_insert hv]
    unfold sumVar
    rw [Finset.mul_sum]
    refine Finset.sum_congr rfl fun k _ => ?_
    rw [ih fun x y h => hG x y fun w hw => h w (by simp at hw; exact hw.2)]
    congr 1
    apply hG
    intro w hw
    rw [Function.update_of_ne]
    rintro rfl
    simp at hw

theorem sumOut_const_mul (vs : Finset Var) (F : Asg → ℝ) (c : ℝ) (x : Asg) :
    sumOut C vs (fun y => c * F y) x = c * sumOut C vs F x :=
  sumOut_mul_left (G := fun _ => c) (fun _ _ _ => rfl) x

/-- Only values at assignments that agree outside the summed variables matter. -/
theorem sumOut_congr {vs : Finset Var} {F G : Asg → ℝ} {x : Asg}
    (h : ∀ y, (∀ v, v ∉ vs → y v = x v) → F y = G y) : sumOut C vs F x = sumOut C vs G x := by
  induction vs using Finset.induction_on generalizing x with
  | empty => simpa using h x (by simp)
  | insert v vs hv ih =>
    rw [sumOut_insert hv, sumOut_insert hv]
    unfold sumVar
    refine Finset.sum_congr rfl fun k _ => ih fun y hy => h y fun w hw => ?_
    simp only [Finset.mem_insert, not_or] at hw
    rw [hy w hw.2, Function.update_of_ne hw.1]

theorem sumOut_nonneg {vs : Finset Var} {F : Asg → ℝ} (h : ∀ y, 0 ≤ F y) (x : Asg) :
    0 ≤ sumOut C vs F x := by
  induction vs using Finset.induction_on generalizing x with
  | empty => simpa using h x
  | insert v vs hv ih =>
    rw [sumOut_insert hv]
    exact Finset.sum_nonneg fun k _ => ih _

/-- A vanishing sum of a non-negative function vanishes term by term. -/
theorem sumOut_eq_zero {vs : Finset Var} {F : Asg → ℝ} (h : ∀ y, 0 ≤ F y) {x : Asg}
    (h0 : sumOut C vs F x = 0) {y : Asg} (hy : ∀ v, v ∉ vs → y v = x v) (hr : ∀ v ∈ vs, y v < C v) :
    F y = 0 := by
  induction vs using Finset.induction_on generalizing x with
  | empty =>
    have : y = x := funext fun v => hy v (by simp)
    simpa [this] using h0
  | insert v vs hv ih =>
    rw [sumOut_insert hv] at h0
    unfold sumVar at h0
    have := (Finset.sum_eq_zero_iff_of_nonneg fun k _ => sumOut_nonneg h _).1 h0 (y v)
      (Finset.mem_range.2 (hr v (by simp)))
    refine ih this (fun w hw => ?_) fun w hw => hr w (by simp [hw])
    by_cases hwv : w = v
    · subst hwv; simp
    · rw [Function.update_of_ne hwv]
      exact hy w (by simp [hw, hwv])

/-- The sum only looks at the variables that are left. -/
theorem sumOut_dependsOn {vs : Finset Var} {F : Asg → ℝ} {x y : Asg}
    (hF : ∀ a b : Asg, (∀ v, v ∈ vs ∨ x v = y v → a v = b v) → F a = F b) :
    sumOut C vs F x = sumOut C vs F y := by
  induction vs using Finset.induction_on generalizing x y with
  | empty => simpa using hF x y (by simp)
  | insert v vs hv ih =>
    rw [sumOut_insert hv]
    unfold sumVar
    refine Finset.sum_congr rfl fun k _ => ih fun a b hab => hF a b fun w hw => ?_
    apply hab
    by_cases hwv : w = v
    · subst hwv; simp
    · simp only [Finset.mem_insert, hwv, false_or] at hw
      simpa [Function.update_of_ne hwv] using hw

end Verif.Spec
