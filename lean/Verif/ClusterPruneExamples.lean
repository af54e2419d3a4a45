import Verif.ClusterPrune
import Verif.NlgCgProps2

/-!
# Concrete cases of C126
-/

namespace Verif.CG
open Spec (override Asg)

/-- "The two cells differ", with the values 1, 2, 3 and cardinality 3, as in `examples/sudoku.ipynb`. -/
noncomputable def differ (u v : Var) : Sparse ℝ :=
  ⟨[u, v], [3, 3], [([1, 2], .fin 0), ([1, 3], .fin 0), ([2, 1], .fin 0), ([2, 3], .fin 0), ([3, 1], .fin 0),
    ([3, 2], .fin 0)], .ninf⟩

theorem differ_labelled {u v : Var} (h : u ≠ v) : Labelled (fun _ => 3) (fun _ => {1, 2, 3}) (differ u v) := by
  refine ⟨by simpa [differ] using h, by simp [differ], by simp [differ, Dict.keys], ?_, ?_, rfl⟩
  · intro k hk
    simp only [differ, Dict.keys, List.map_cons, List.map_nil, List.mem_cons, List.not_mem_nil, or_false] at hk
    rcases hk with rfl | rfl | rfl | rfl | rfl | rfl <;> simp [differ]
  · intro e he
    simp only [differ, List.mem_cons, List.not_mem_nil, or_false] at he
    rcases he with rfl | rfl | rfl | rfl | rfl | rfl <;> trivial

/-- Three cells that differ in pairs: a graph with a cycle, values `1 .. 3` with cardinality 3 (3 is not below the
cardinality), and the solution `a = 1, b = 2, c = 3` is possible. So inference returns, and keeps the solution. -/
example (hs : HashSeed) : ∃ a, new hs (sparseOps hs) [differ "a" "b", differ "b" "c", differ "a" "c"] none [] = .ok a ∧
    ∀ tol maxIter, ∃ g, processGraph (sparseOps hs) tol maxIter a.graph = .ok g ∧
      ∃ r, getMarginal (sparseOps hs) g ["c"] = .ok r ∧ r.prob (fun _ => 3) ≠ 0 := by
  obtain ⟨sol, hsol⟩ : ∃ sol : Asg, sol = fun v => if v = "a" then 1 else if v = "b" then 2 else 3 := ⟨_, rfl⟩
  have hpos : ∀ f ∈ [differ "a" "b", differ "b" "c", differ "a" "c"],
      f.prob (override ((none : Option (Dict Var Nat)).getD []) (override [] sol)) ≠ 0 := by
    intro f hf
    simp only [List.mem_cons, List.not_mem_nil, or_false] at hf
    rcases hf with rfl | rfl | rfl <;>
      simp [Sparse.prob, Sparse.val, differ, Spec.override_nil, hsol, Dict.get?, XF.prob]
  obtain ⟨a, ha, hall⟩ := C126_sparse (C := fun _ => 3) (S := fun _ => {1, 2, 3}) hs _ (by
    intro f hf
    simp only [List.mem_cons, List.not_mem_nil, or_false] at hf
    rcases hf with rfl | rfl | rfl <;> exact differ_labelled (by decide)) (fun _ => by decide) none []
    (by simp [Dict.keys]) sol hpos
  refine ⟨a, ha, fun tol k => ?_⟩
  obtain ⟨h1, h2⟩ := hall tol k
  obtain ⟨g, hg, hq⟩ := h1 (Or.inr rfl)
  obtain ⟨r, hr⟩ := hq (differ "b" "c") (by simp) ["c"] (by simp) (by simp [differ, Dict.keys])
  refine ⟨g, hg, r, hr, ?_⟩
  have := h2 g hg ["c"] (by simp) (by simp [Dict.keys]) r hr sol hpos
  obtain ⟨ro, rv, _⟩ := prune_marginal (C := fun _ => 3) (S := fun _ => {1, 2, 3}) hs _ (by
    intro f hf
    simp only [List.mem_cons, List.not_mem_nil, or_false] at hf
    rcases hf with rfl | rfl | rfl <;> exact differ_labelled (by decide)) none [] (by simp [Dict.keys]) a ha tol k g hg
    ["c"] (by simp) (by simp [Dict.keys]) r hr
  refine fun h0 => this (Eq.trans (Sparse.prob_dependsOn r _ _ fun v hv => ?_) h0)
  have hvc := List.mem_singleton.1 ((rv v).1 hv)
  rw [hvc, hsol]
  simp

/-- A factor that leaves `a` open and determines `b`. -/
noncomputable def settled : Sparse ℝ := ⟨["a", "b"], [3, 3], [([1, 2], .fin 0), ([3, 2], .fin 1), ([2, 1], .ninf)], .ninf⟩

theorem settled_labelled : Labelled (fun _ => 3) (fun _ => {1, 2, 3}) settled := by
  refine ⟨by simp [settled], by simp [settled], by simp [settled, Dict.keys], ?_, ?_, rfl⟩
  · intro k hk
    simp only [settled, Dict.keys, List.map_cons, List.map_nil, List.mem_cons, List.not_mem_nil, or_false] at hk
    rcases hk with rfl | rfl | rfl <;> simp [settled]
  · intro e he
    simp only [settled, List.mem_cons, List.not_mem_nil, or_false] at he
    rcases he with rfl | rfl | rfl <;> trivial

/-- The hypotheses of `C126_solved` are met: the marginal of `b` is non-zero at 2 only, and `argmax` finds it. -/
example (hs : HashSeed) (tol : EReal) (k : Nat) : ∃ a, new hs (sparseOps hs) [settled] none [] = .ok a ∧
    ∃ g, processGraph (sparseOps hs) tol k a.graph = .ok g ∧ ∃ r, getMarginal (sparseOps hs) g ["b"] = .ok r ∧
      Sparse.argmax r = .ok [2] := by
  obtain ⟨sol, hsol⟩ : ∃ sol : Asg, sol = fun v => if v = "a" then 3 else 2 := ⟨_, rfl⟩
  have hpos : ∀ f ∈ [settled], f.prob (override ((none : Option (Dict Var Nat)).getD []) (override [] sol)) ≠ 0 := by
    intro f hf
    rw [List.mem_singleton.1 hf]
    simp [Sparse.prob, Sparse.val, settled, Spec.override_nil, hsol, Dict.get?, XF.prob]
  have hlab : ∀ f ∈ [settled], Labelled (fun _ => 3) (fun _ => {1, 2, 3}) f := fun f hf => by
    rw [List.mem_singleton.1 hf]; exact settled_labelled
  obtain ⟨a, ha, e2, _, e4, e5⟩ := new_one (ops := sparseOps hs) (special := ([] : Dict Var Nat)) (hs := hs)
    (absorb_one (f := settled))
  have hg : processGraph (sparseOps hs) tol k a.graph = .ok { a.graph with dists := [] } := by
    unfold processGraph
    dsimp only
    rw [dif_pos e2]
    unfold processSingle
    dsimp only
    rw [if_pos e4]
  obtain ⟨a', ha', hall⟩ := C126_sparse hs [settled] hlab (fun _ => by decide) none [] (by simp [Dict.keys]) sol hpos
  rw [ha] at ha'
  cases ha'
  obtain ⟨g, hg', hq⟩ := (hall tol k).1 (Or.inr rfl)
  obtain ⟨r, hr⟩ := hq settled (by simp) ["b"] (by simp) (by simp [settled, Dict.keys])
  refine ⟨a, ha, g, hg', r, hr, ?_⟩
  have hgf : (∀ i, (g.cl i).factor = settled) ∧ g.special = [] := by
    have hgg := hg'
    rw [hg] at hgg
    simp only [Except.ok.injEq] at hgg
    rw [← hgg]
    exact ⟨e5, e4⟩
  have hone : ∀ x : Asg, r.prob x ≠ 0 → x "b" = 2 := by
    intro x hx
    have hr' := hr
    rw [getMarginal_one e2 hgf.1 (vrs := ["b"]) (by simp [sparseOps, settled])] at hr'
    obtain ⟨f, h1, h2⟩ := py_bind_eq_ok.1 hr'
    rw [hgf.2] at h1
    obtain ⟨f1, f2, f3⟩ := (labelLaws hs (fun _ => 3) (bound (fun _ => 3) fun _ => {1, 2, 3})
      fun _ => {1, 2, 3}).toLaws.observe settled_labelled.ok [] h1
    obtain ⟨_, _, hz⟩ := (labelLaws hs (fun _ => 3) (bound (fun _ => 3) fun _ => {1, 2, 3})
      fun _ => {1, 2, 3}).marg f1 (by simp) (fun v hv => (f2 v).2 ⟨by
        rw [List.mem_singleton.1 hv]; simp [sparseOps, settled], by simp [Dict.keys]⟩) h2
    have hne := mt (hz x).2 hx
    push Not at hne
    obtain ⟨y, hy, hy0⟩ := hne
    rw [← hy "b" (by simp)]
    rw [f3] at hy0
    have hy1 : settled.prob y ≠ 0 := hy0
    by_contra hb
    apply hy1
    unfold Sparse.prob Sparse.val
    by_cases h21 : y "a" = 2 ∧ y "b" = 1
    · simp [settled, Dict.get?, h21.1, h21.2, XF.prob]
    · have : Dict.get? settled.table (settled.vars.map y) = none := by
        rw [Dict.get?_eq_none_iff]
        simp only [settled, Dict.keys, List.map_cons, List.map_nil, List.mem_cons, List.not_mem_nil, or_false,
          List.cons.injEq, and_true]
        tauto
      rw [this]
      simp [settled, XF.prob]
  have := C126_solved hs [settled] hlab none [] (by simp [Dict.keys]) a ha tol k _ hg' "b" (by simp [Dict.keys]) r hr
    (fun x y hx hy => (hone x hx).trans (hone y hy).symm) sol hpos
  rw [this, hsol]
  simp

end Verif.CG
