import Verif.ClusterProps4
import Verif.SparseProps2
import Mathlib.Data.EReal.Basic

/-!
# Sparse categorical factors obey the laws

`SparseCategorical` with the default `-inf` is an instance of `SumLaws`, so every theorem about lawful
factor classes holds for cluster graphs over sparse factors.
-/

namespace Verif.CG
open Spec (override Asg sumOut)
open Sparse (Regular)

/-- An information gain as a number. NaN gains are outside the model of the schedule (comparisons with NaN
are not an order); `sparseTotal` shows that they do not occur for factors with positive mass. -/
noncomputable def toGain : XF ℝ → Py EReal
  | .nan => .error .valueError
  | .ninf => .ok ⊥
  | .fin r => .ok (r : EReal)
  | .pinf => .ok ⊤

/-- The operations of `SparseCategorical` used by the cluster graph (sparse_categorical.py 493-823). -/
noncomputable def sparseOps (hs : HashSeed) : Ops (Sparse ℝ) Nat EReal where
  vars := fun f => f.vars
  multiply := Sparse.multiply hs
  cancel := Sparse.cancel hs
  marginalize := fun f vrs => Sparse.marginalize hs f vrs true
  reduce := Sparse.reduce
  distVacuous := fun f => do
    let d ← Sparse.distanceFromVacuous hs f
    toGain d
  kl := fun f g => do
    let d ← Sparse.klDivergence hs f g
    toGain d

/-- Well formed with default `-inf`, and the variables have the cardinalities `C`. -/
def SparseOk (C : Var → Nat) (f : Sparse ℝ) : Prop := Regular f ∧ ∀ v ∈ f.vars, f.card v = C v

variable {hs : HashSeed} {C : Var → Nat} {f g : Sparse ℝ}

theorem SparseOk.consistent (hf : SparseOk C f) (hg : SparseOk C g) : Sparse.Consistent f g :=
  fun v h1 h2 => (hf.2 v h1).trans (hg.2 v h2).symm

/-- The key of the table entry behind a non-zero potential. -/
theorem mem_keys_of_prob (hf : Regular f) {x : Asg} (h : f.prob x ≠ 0) : f.vars.map x ∈ Dict.keys f.table := by
  by_contra hk
  apply h
  unfold Sparse.prob Sparse.val
  rw [Dict.get?_eq_none_iff.2 hk]
  simp [hf.dflt, XF.prob]

theorem SparseOk.supp (hf : SparseOk C f) (x : Asg) (h : f.prob x ≠ 0) : ∀ v ∈ f.vars, x v < C v := by
  intro v hv
  have := hf.1.wf.key_range (mem_keys_of_prob hf.1 h) hv
  rwa [asgOf_map x hv, hf.2 v hv] at this

/-- A sum over some variables vanishes iff all its terms do. -/
theorem sumOut_zero_iff {F : Asg → ℝ} (h0 : ∀ y, 0 ≤ F y) {vars : List Var} (hd : Spec.DependsOn F vars)
    (hsupp : ∀ x, F x ≠ 0 → ∀ v ∈ vars, x v < C v) (vrs : List Var) (x : Asg) :
    sumOut C (vars.toFinset \ vrs.toFinset) F x = 0 ↔ ∀ y, (∀ v ∈ vrs, y v = x v) → F y = 0 := by
  constructor
  · intro hz y hy
    by_contra hne
    have hr := hsupp y hne
    set y' : Asg := fun v => if v ∈ vars.toFinset \ vrs.toFinset then y v else x v with hy'
    have e : F y = F y' := by
      apply hd
      intro v hv
      rw [hy']
      dsimp only
      split
      · rfl
      · rename_i hn
        simp only [Finset.mem_sdiff, List.mem_toFinset, not_and, not_not] at hn
        exact hy v (hn hv)
    rw [e] at hne
    refine hne (Spec.sumOut_eq_zero h0 hz (fun v hv => by rw [hy']; simp only [if_neg hv]) fun v hv => ?_)
    rw [hy']
    simp only [if_pos hv]
    exact hr v (by simpa using (Finset.mem_sdiff.1 hv).1)
  · intro h
    have : sumOut C (vars.toFinset \ vrs.toFinset) F x =
        sumOut C (vars.toFinset \ vrs.toFinset) (fun y => 0 * F y) x := by
      refine Spec.sumOut_congr fun y hy => ?_
      rw [zero_mul]
      apply h
      intro v hv
      exact hy v (by simp [hv])
    rw [this, Spec.sumOut_const_mul, zero_mul]

theorem SparseOk.marg (hf : SparseOk C f) {vrs : List Var} (hn : vrs.Nodup) (hv : ∀ v ∈ vrs, v ∈ f.vars) :
    ∃ r, Sparse.marginalize hs f vrs true = .ok r ∧ SparseOk C r ∧ r.vars = vrs ∧
      ∀ x, r.prob x = sumOut C (f.vars.toFinset \ vrs.toFinset) f.prob x := by
  obtain ⟨r, h1, h2, _, h4, h5, h6⟩ := Sparse.C02_marginalize_sums hs f hf.1 vrs hn hv true
  have hr := h4 rfl
  refine ⟨r, h1, ⟨h2, fun v hvr => ?_⟩, hr, fun x => ?_⟩
  · rw [h5 v hvr, hf.2 v (hv v (hr ▸ hvr))]
  · rw [h6, ← Spec.sumOut_eq_sumVars (l := f.vars.filter fun v => decide ¬ (v ∈ vrs ↔ true = true))
      (hf.1.wf.nodup.filter _) (by simp)]
    congr 1
    exact List.map_congr_left fun v hm => by rw [hf.2 v (List.mem_filter.1 hm).1]

/-- The operations of sparse factors do what their names say. -/
noncomputable def sparseLaws (hs : HashSeed) (C : Var → Nat) : SumLaws (sparseOps hs) where
  Ok := SparseOk C
  den := fun f => f.prob
  val := id
  C := C
  nonneg := fun _ x => Sparse.prob_nonneg _ x
  dep := fun _ => Sparse.prob_dependsOn _
  nodup := fun hf => hf.1.wf.nodup
  supp := fun hf => hf.supp
  mul := by
    intro f g r hf hg h
    obtain ⟨r', h1, h2, h3, h4, h5, _⟩ := Sparse.C01_multiply_pointwise hs f g hf.1 hg.1 (hf.consistent hg)
    obtain ⟨r'', h1', h7⟩ := Sparse.C01_multiply_prob hs f g hf.1 hg.1 (hf.consistent hg)
    have h' : Sparse.multiply hs f g = .ok r := h
    rw [h'] at h1 h1'
    cases h1; cases h1'
    refine ⟨⟨h2, fun v hv => ?_⟩, h3, h7⟩
    rcases (h3 v).1 hv with hv | hv
    · rw [h4 v hv, hf.2 v hv]
    · rw [h5 v hv, hg.2 v hv]
  cancel := by
    intro f g r hf hg hsub hsup h
    obtain ⟨r', h1, h2, h3, h4, h5⟩ := Sparse.C05_cancel_supported hs f g hf.1 hg.1 (hf.consistent hg) hsub hsup
    have h' : Sparse.cancel hs f g = .ok r := h
    rw [h'] at h1
    cases h1
    exact ⟨⟨h2, fun v hv => by rw [h4 v ((h3 v).1 hv), hf.2 v ((h3 v).1 hv)]⟩, h3, h5⟩
  marg := by
    intro f vrs r hf hn hv h
    obtain ⟨r', h1, h2, h3, h4⟩ := hf.marg (hs := hs) hn hv
    have h' : Sparse.marginalize hs f vrs true = .ok r := h
    rw [h'] at h1
    cases h1
    refine ⟨h2, fun v => by show v ∈ r.vars ↔ _; rw [h3], fun x => ?_⟩
    rw [h4]
    exact sumOut_zero_iff (Sparse.prob_nonneg f) (Sparse.prob_dependsOn f) hf.supp vrs x
  sum := by
    intro f vrs r hf hn hv h x
    obtain ⟨r', h1, h2, h3, h4⟩ := hf.marg (hs := hs) hn hv
    have h' : Sparse.marginalize hs f vrs true = .ok r := h
    rw [h'] at h1
    cases h1
    exact h4 x
  red := by
    intro f vs ks r hf hn hv hl h
    have h' : Sparse.reduce f vs ks = .ok r := h
    rcases Sparse.C03_reduce_restricts f hf.1 vs ks hn hv hl with ⟨_, h1⟩ | ⟨_, r', h1, h2, h3, h4, h5⟩
    · rw [h'] at h1; cases h1
    · rw [h'] at h1
      cases h1
      have hm : ∀ v, v ∈ r.vars ↔ v ∈ f.vars ∧ v ∉ vs := fun v => by rw [h3]; simp
      refine ⟨⟨h2, fun v hvr => ?_⟩, hm, fun x => ?_⟩
      · rw [h4 v hvr, hf.2 v ((hm v).1 hvr).1]
      · unfold Sparse.prob
        rw [h5, List.map_id]

theorem mass_eq_sumOut (hf : SparseOk C f) : f.mass = sumOut C f.vars.toFinset f.prob fun _ => 0 := by
  rw [← Spec.sumOut_eq_sumVars (l := f.vars) hf.1.wf.nodup (by simp)]
  unfold Sparse.mass
  congr 1
  exact List.map_congr_left fun v hm => by rw [hf.2 v hm]

/-- A factor that is not zero everywhere has positive mass. -/
theorem mass_pos (hf : SparseOk C f) (h : ∃ x, f.prob x ≠ 0) : 0 < f.mass := by
  refine lt_of_le_of_ne (Sparse.mass_nonneg hf.1) fun h0 => ?_
  obtain ⟨x, hx⟩ := h
  have hz := (sumOut_zero_iff (Sparse.prob_nonneg f) (Sparse.prob_dependsOn f) hf.supp [] fun _ => 0).1
  rw [List.toFinset_nil, Finset.sdiff_empty, ← mass_eq_sumOut hf] at hz
  exact hx (hz h0.symm x (by simp))

end Verif.CG
