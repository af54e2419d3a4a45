import Verif.ClusterPrune

/-!
# More values than the cardinality (hypothesis of C126)
-/

namespace Verif.Sparse
open Spec (Asg)

/-- A factor that states cardinality 1 and has entries for two values. The constructor accepts it. -/
def overF : Sparse ℝ := ⟨["a"], [1], [([0], .fin 0), ([1], .fin 0)], .ninf⟩

theorem overF_new : new ["a"] [1] [([0], .fin 0), ([1], .fin (0:ℝ))] .ninf = .ok overF := by
  unfold new overF
  simp

theorem overF_regular : Regular (recard (fun _ => 2) overF) := by
  refine ⟨⟨?_, ?_, ?_, ?_⟩, ?_, ?_⟩ <;> simp [recard, overF, Dict.keys, XF.Proper]

theorem overF_shaped : Shaped (fun _ => 1) overF := by
  refine ⟨by simp [overF], by simp [overF], fun k hk => ?_⟩
  simp only [overF, Dict.keys, List.map_cons, List.map_nil, List.mem_cons, List.not_mem_nil, or_false] at hk
  rcases hk with rfl | rfl <;> rfl

theorem overF_prob (x : Asg) (hx : x "a" < 2) : (recard (fun _ => 2) overF).prob x = 1 := by
  have : x "a" = 0 ∨ x "a" = 1 := by omega
  rcases this with h | h <;> simp [recard, overF, prob, val, Dict.get?, XF.prob, h]

theorem overF_card : (recard (fun _ => 2) overF).card "a" = 2 := recard_card (f := overF) (by simp [overF])

theorem overF_mass : (recard (fun _ => 2) overF).mass = 2 := by
  unfold mass
  show Spec.sumVars [("a", _)] _ _ = _
  rw [overF_card]
  simp only [Spec.sumVars, Spec.sumVar, Finset.sum_range_succ, Finset.sum_range_zero]
  rw [overF_prob _ (by simp), overF_prob _ (by simp)]
  norm_num

/-- **C126**, the condition on the cardinalities: a factor with entries for more values than its cardinality is accepted,
but its distance from vacuous, which `ClusterGraph` computes for the first message of every path, is negative and raises
`ValueError`. -/
theorem C126_cardinality_needed (hs : HashSeed) :
    new ["a"] [1] [([0], .fin 0), ([1], .fin (0:ℝ))] .ninf = .ok overF ∧
    distanceFromVacuous hs overF = .error .valueError := by
  refine ⟨overF_new, ?_⟩
  have hB := overF_regular
  have hm : 0 < (recard (fun _ => 2) overF).mass := by rw [overF_mass]; norm_num
  have hn : normalize overF = .ok (labNorm (fun _ => 2) overF) :=
    (normalize_lab hB overF_shaped (by simp [overF])).1
  have hc : overF.copy = .ok overF := overF_new
  have hu : ({ overF with table := overF.table.map fun e => (e.1,
      XF.neg (XF.log (.fin ((Dict.values overF.varCards).prod : ℕ)))) } : Sparse ℝ) = overF := by
    simp [overF, varCards, Dict.values, XF.log_fin, XF.ofProb, XF.neg]
  have hraw : rawKld hs (labNorm (fun _ => 2) overF) overF = .ok (.fin (-Real.log 2)) := by
    rw [rawKld_lab (f := labNorm (fun _ => 2) overF) (g := overF) (B := fun _ => 2) (C := fun _ => 1) (by rw [recard_labNorm]; exact normResult_regular hB hm) hB
      (fun v => Iff.rfl) overF_shaped.norm overF_shaped (fun _ => by norm_num), recard_labNorm,
      rawKld_fin (normResult_regular hB hm) hB ⟨fun v => Iff.rfl, fun v _ => rfl⟩]
    · congr 2
      unfold Spec.kl
      show Spec.sumVars [("a", (recard (fun _ => 2) overF).card "a")] _ _ = _
      rw [overF_card, funext (normResult_prob hB hm)]
      simp only [Spec.sumVars, Spec.sumVar, Finset.sum_range_succ, Finset.sum_range_zero, dist]
      rw [overF_prob _ (by simp), overF_prob _ (by simp), overF_mass, Real.log_div (by norm_num) (by norm_num)]
      simp
      ring
    · intro x hx h0
      rw [overF_prob x (by
        have := hx "a" (by simp [normResult, recard, overF])
        rwa [show (normResult (recard (fun _ => 2) overF)).card "a" = 2 from overF_card] at this)] at h0
      norm_num at h0
  have hl : 1 / 2 ≤ Real.log 2 := by have := Real.one_sub_inv_le_log_of_pos (x := 2) (by norm_num); linarith
  unfold distanceFromVacuous
  rw [hc, py_bind_ok]
  dsimp only
  rw [hu]
  unfold klDivergence
  rw [hn, py_bind_ok]
  simp only [Bool.false_eq_true, if_false]
  rw [py_bind_ok, hraw, py_bind_ok, if_pos, if_neg]
  · simp only [XF.isclose, decide_eq_true_eq, sub_zero, abs_neg, abs_zero, mul_zero, add_zero, not_le]
    rw [abs_of_pos (by linarith)]
    linarith
  · simp only [XF.lt, decide_eq_true_eq]
    linarith

end Verif.Sparse
