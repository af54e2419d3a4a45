import Verif.SparseLabel

/-!
# The divergence of sparse factors does not depend on the cardinalities
-/

namespace Verif.Sparse
open Spec (Asg)

variable {C B : Var → Nat} {f g : Sparse ℝ} {hs : HashSeed}

theorem remA_same (h : ∀ v, v ∈ f.vars ↔ v ∈ g.vars) : remA hs f g = [] := by
  refine List.eq_nil_iff_forall_not_mem.2 fun v hv => ?_
  have := mem_remA.1 hv
  exact this.2 ((h v).1 this.1)

/-- On a common scope, the rule `none` combines the values everywhere, whatever the cardinalities. -/
theorem labResult_val (hf : WF (recard B f)) (hg : WF (recard B g)) (h : ∀ v, v ∈ f.vars ↔ v ∈ g.vars)
    (hd : f.dflt = g.dflt) (op : XF ℝ → XF ℝ → XF ℝ) (x : Asg) :
    (labResult hs C f g op .none).val x = op (f.val x) (g.val x) := by
  have hA := permA (hs := hs) (f := f) (g := g) hf.nodup
  have hB := permB (hs := hs) (f := f) (g := g) hg.nodup
  change (Dict.get? (flatten (labNested hs C f g op .none))
    ((remA hs f g ++ remB hs f g ++ interVars hs f g).map x)).getD (op f.dflt f.dflt) = _
  unfold labNested anyScope anyScopeNone
  simp only [List.map_append]
  rw [applyAny_val op f.dflt (n := (remA hs f g).length) (m := (remB hs f g).length)
    (fun o ho => by simpa using length_of_mem_productRange ho)
    (fun o ho => by simpa using length_of_mem_productRange ho)
    _ _ _ (by simp) (by simp)]
  have e1 := val2_nest (f := recard B f) hf (outer := remA hs f g) (inner := interVars hs f g) hA x _
    (get?_denseDefault ((interVars hs f g).map C) f.dflt)
  have e2 := val2_nest (f := recard B g) hg (outer := remB hs f g) (inner := interVars hs f g) hB x _
    (get?_denseDefault ((interVars hs f g).map C) g.dflt)
  rw [val2_makeInnerDense, val2_makeInnerDense]
  rw [show val2 (nest (remA hs f g) (interVars hs f g) f.vars f.table) (denseDefault ((interVars hs f g).map C) f.dflt)
    f.dflt ((remA hs f g).map x) ((interVars hs f g).map x) = f.val x from e1]
  rw [hd, show val2 (nest (remB hs f g) (interVars hs f g) g.vars g.table) (denseDefault ((interVars hs f g).map C) g.dflt)
    g.dflt ((remB hs f g).map x) ((interVars hs f g).map x) = g.val x from e2, if_pos]
  rw [remA_same h, remB_nil (fun v hv => (h v).2 hv)]
  simp [productRange]

/-- Its keys stay within larger cardinalities. -/
theorem labResult_wf (hf : WF (recard B f)) (hg : WF (recard B g)) (h : ∀ v, v ∈ f.vars ↔ v ∈ g.vars)
    (hCB : ∀ v, C v ≤ B v) (op : XF ℝ → XF ℝ → XF ℝ) : WF (recard B (labResult hs C f g op .none)) := by
  have hA := permA (hs := hs) (f := f) (g := g) hf.nodup
  have hB := permB (hs := hs) (f := f) (g := g) hg.nodup
  refine ⟨nodup_result, by simp [recard], nodup_keys_flatten _, fun k hk => ?_⟩
  have hk' : k ∈ Dict.keys (flatten (labNested hs C f g op .none)) := hk
  unfold labNested anyScope anyScopeNone at hk'
  have big : ∀ i : List Nat, List.Forall₂ (fun i c => i < c) i ((interVars hs f g).map C) →
      List.Forall₂ (fun i c => i < c) i ((interVars hs f g).map B) := by
    intro i hi
    rw [List.forall₂_map_right_iff] at hi ⊢
    exact hi.imp fun _ v h => lt_of_lt_of_le h (hCB v)
  have dense : ∀ i d, i ∈ Dict.keys (denseDefault (K := ℝ) ((interVars hs f g).map C) d) →
      List.Forall₂ (fun i c => i < c) i ((interVars hs f g).map B) := by
    intro i d hi
    simp only [Dict.keys, denseDefault, List.map_map, Function.comp_def, List.map_id'] at hi
    exact big i (mem_productRange.1 hi)
  obtain ⟨o, ho, o', ho', i, rfl, hi⟩ := applyAny_keys op f.dflt
    (fun o ho => by simpa using length_of_mem_productRange ho) hk'
  rw [remA_same h] at ho
  rw [remB_nil (fun v hv => (h v).2 hv)] at ho'
  simp only [List.map_nil, productRange, List.mem_singleton] at ho ho'
  subst ho ho'
  show List.Forall₂ _ _ ((remA hs f g ++ remB hs f g ++ interVars hs f g).map B)
  have e3 : remA hs f g ++ remB hs f g ++ interVars hs f g = interVars hs f g := by
    rw [remA_same h, remB_nil (fun v hv => (h v).2 hv)]; rfl
  rw [e3]
  show List.Forall₂ _ i _
  rcases hi with hi | hi
  · rcases mem_inner_makeInnerDense hi with hi | hi
    · rcases mem_inner_nest (f := recard B f) hf (outer := remA hs f g) (inner := interVars hs f g) hA _ hi with ⟨k, hkk, rfl⟩ | h
      · rw [forall₂_map]
        intro v hv
        have := hf.key_range hkk (mem_inter.1 hv).1
        rwa [recard_card (mem_inter.1 hv).1] at this
      · exact dense i _ h
    · exact big i (mem_productRange.1 hi)
  · rcases mem_inner_makeInnerDense hi with hi | hi
    · rcases mem_inner_nest (f := recard B g) hg (outer := remB hs f g) (inner := interVars hs f g) hB _ hi with ⟨k, hkk, rfl⟩ | h
      · rw [forall₂_map]
        intro v hv
        have := hg.key_range hkk (mem_inter.1 hv).2
        rwa [recard_card (mem_inter.1 hv).2] at this
      · exact dense i _ h
    · exact big i (mem_productRange.1 hi)

theorem kl_default (hf : Regular (recard B f)) : (labResult hs C f g kldElement .none).dflt = .fin 0 := by
  show kldElement f.dflt f.dflt = _
  rw [show f.dflt = .ninf from hf.dflt]; simp [kldElement, XF.eq]

theorem rawKld_lab (hf : Regular (recard B f)) (hg : Regular (recard B g)) (h : ∀ v, v ∈ f.vars ↔ v ∈ g.vars)
    (cf : Shaped C f) (cg : Shaped C g) (hCB : ∀ v, C v ≤ B v) :
    rawKld hs f g = rawKld hs (recard B f) (recard B g) := by
  have hss : SameScope (recard B f) (recard B g) := ⟨h, fun v hv => by
    rw [recard_card (f := f) hv, recard_card (f := g) ((h v).1 hv)]⟩
  have hr := labResult_wf (hs := hs) (C := C) hf.wf hg.wf h hCB kldElement
  have hv : ∀ x, (labResult hs C f g kldElement .none).val x = kldElement (f.val x) (g.val x) :=
    labResult_val hf.wf hg.wf h ((show f.dflt = .ninf from hf.dflt).trans (show g.dflt = .ninf from hg.dflt).symm) kldElement
  have hraw : rawKld hs f g = .ok (XF.sum (Dict.values (labResult hs C f g kldElement .none).table)) := by
    unfold rawKld
    rw [applyBinary_lab cf cg hf.dflt hg.dflt]
    rfl
  have hvals : ∀ e ∈ (labResult hs C f g kldElement .none).table, ∃ x : Asg,
      e.2 = kldElement (f.val x) (g.val x) := fun e he => ⟨_, by rw [← hv]; exact (val_of_mem hr he).symm⟩
  have pf : ∀ x, (f.val x).Proper := fun x => hf.val_proper x
  have pg : ∀ x, (g.val x).Proper := fun x => hg.val_proper x
  rw [hraw]
  by_cases hsup : ∀ x, g.prob x = 0 → f.prob x = 0
  · rw [rawKld_fin hf hg hss fun x _ => hsup x, XF.sum_all_fin]
    · congr 2
      unfold Spec.kl
      have hp : (recard B (labResult hs C f g kldElement .none)).vars.Perm (recard B f).vars := by
        refine (List.perm_ext_iff_of_nodup hr.nodup hf.wf.nodup).2 fun v => ?_
        show v ∈ remA hs f g ++ remB hs f g ++ interVars hs f g ↔ v ∈ f.vars
        rw [mem_result, ← h, or_self_iff]
      have hvc : ((recard B (labResult hs C f g kldElement .none)).vars.map fun v =>
          (v, (recard B (labResult hs C f g kldElement .none)).card v)).Perm
          ((recard B f).vars.map fun v => (v, (recard B f).card v)) := by
        have e : ((recard B (labResult hs C f g kldElement .none)).vars.map fun v =>
            (v, (recard B (labResult hs C f g kldElement .none)).card v)) =
            (recard B (labResult hs C f g kldElement .none)).vars.map fun v => (v, (recard B f).card v) :=
          List.map_congr_left fun v hvm => by
            rw [recard_card (f := labResult hs C f g kldElement .none) hvm, recard_card (f := f) (hp.mem_iff.1 hvm)]
        rw [e]
        exact hp.map _
      have hnod : (((recard B (labResult hs C f g kldElement .none)).vars.map
          fun v => (v, (recard B (labResult hs C f g kldElement .none)).card v)).map Prod.fst).Nodup := by
        rw [List.map_map]
        simpa [Function.comp_def] using hr.nodup
      rw [← Spec.sumVars_perm hvc hnod]
      have hsum := sum_all hr XF.toReal (fun _ => 0)
      rw [show (Dict.values (labResult hs C f g kldElement .none).table).map XF.toReal
        = (recard B (labResult hs C f g kldElement .none)).table.map fun e => XF.toReal e.2 by
          simp [Dict.values, Function.comp_def, recard], ← hsum]
      refine Spec.sumVars_congr _ _ hr.nodup _ fun y _ => ?_
      have hvy := hv y
      rw [kldElement_fin (pf y) (pg y) (hsup y)] at hvy
      show ((Dict.get? (labResult hs C f g kldElement .none).table _).map XF.toReal).getD 0 = f.prob y * Real.log (f.prob y / g.prob y)
      unfold val at hvy
      cases hget : Dict.get? (labResult hs C f g kldElement .none).table
        ((labResult hs C f g kldElement .none).vars.map y) with
      | none =>
        rw [hget, Option.getD_none, kl_default hf, XF.fin.injEq] at hvy
        erw [hget]
        exact hvy
      | some w =>
        rw [hget, Option.getD_some] at hvy
        erw [hget]
        rw [Option.map_some, Option.getD_some, hvy]
        rfl
    · intro a ha
      obtain ⟨e, he, rfl⟩ := List.mem_map.1 ha
      obtain ⟨x, hx⟩ := hvals e he
      rw [hx, kldElement_fin (pf x) (pg x) (hsup x)]
      simp [XF.Finite]
  · push Not at hsup
    obtain ⟨x, hq, hp⟩ := hsup
    have hxk := CG.mem_keys_of_prob hf (show (recard B f).prob x ≠ 0 from hp)
    rw [rawKld_pinf hf hg hss ⟨x, fun v hvf => ?_, hq, hp⟩, XF.sum_pinf]
    · intro a ha
      obtain ⟨e, he, rfl⟩ := List.mem_map.1 ha
      obtain ⟨y, hy⟩ := hvals e he
      rw [hy]
      by_cases hq : g.prob y = 0 → f.prob y = 0
      · rw [kldElement_fin (pf y) (pg y) hq]
        simp [XF.Finite]
      · rw [Classical.not_imp] at hq
        rw [kldElement_pinf (pf y) (pg y) hq.1 hq.2]
        exact Or.inr rfl
    · have hvx := hv x
      rw [kldElement_pinf (pf x) (pg x) hq hp] at hvx
      unfold val at hvx
      cases hget : Dict.get? (labResult hs C f g kldElement .none).table
        ((labResult hs C f g kldElement .none).vars.map x) with
      | none => rw [hget, Option.getD_none, kl_default hf] at hvx; cases hvx
      | some w =>
        rw [hget, Option.getD_some] at hvx
        subst hvx
        exact List.mem_map.2 ⟨_, Dict.mem_of_get? hget, rfl⟩
    · have := hf.wf.key_range hxk hvf
      rwa [show asgOf (recard B f).vars ((recard B f).vars.map x) v = x v from asgOf_map x hvf] at this

end Verif.Sparse
