import Verif.SparseOps
import Verif.Gibbs

/-! Helper lemmas: Kullback-Leibler divergence of sparse factors. -/

namespace Verif
namespace XF

/-- The finite part of a float. -/
noncomputable def toReal : XF ℝ → ℝ
  | fin r => r
  | _ => 0

theorem sum_all_fin {l : List (XF ℝ)} (h : ∀ a ∈ l, a.Finite) : sum l = fin (l.map toReal).sum := by
  have : l = (l.map toReal).map fin := by
    rw [List.map_map]
    conv_lhs => rw [← List.map_id l]
    apply List.map_congr_left
    intro a ha
    have := h a ha
    cases a <;> simp_all [Finite, toReal]
  conv_lhs => rw [this]
  exact sum_fin _

theorem sum_pinf {l : List (XF ℝ)} (h : ∀ a ∈ l, a.Finite ∨ a = pinf) (hp : pinf ∈ l) :
    sum l = pinf := by
  unfold sum
  have hinf : ∀ (l : List (XF ℝ)), (∀ a ∈ l, a.Finite ∨ a = pinf) → l.foldl add pinf = pinf := by
    intro l
    induction l with
    | nil => intro _; rfl
    | cons a l ih =>
      intro h
      rw [List.foldl_cons]
      have : add pinf a = pinf := by
        rcases h a (by simp) with h | rfl
        · cases a <;> simp_all [Finite, add]
        · rfl
      rw [this]
      exact ih fun b hb => h b (by simp [hb])
  have key : ∀ (l : List (XF ℝ)) (s : ℝ), (∀ a ∈ l, a.Finite ∨ a = pinf) → pinf ∈ l →
      l.foldl add (fin s) = pinf := by
    intro l
    induction l with
    | nil => intro s _ h; simp at h
    | cons a l ih =>
      intro s h hm
      rw [List.foldl_cons]
      have h' : ∀ b ∈ l, b.Finite ∨ b = pinf := fun b hb => h b (by simp [hb])
      rcases h a (by simp) with ha | rfl
      · cases a with
        | fin r =>
          have hm' : pinf ∈ l := by simpa using hm
          exact ih _ h' hm'
        | _ => simp [Finite] at ha
      · exact hinf l h'
  exact key l 0 h hp

end XF

namespace Sparse
open Spec (Asg)

theorem kldElement_fin {p q : XF ℝ} (hp : p.Proper) (hq : q.Proper) (h : q.prob = 0 → p.prob = 0) :
    kldElement p q = .fin (p.prob * Real.log (p.prob / q.prob)) := by
  cases p <;> cases q <;>
    simp_all [XF.Proper, kldElement, XF.eq, XF.prob, XF.mul, XF.exp, XF.sub, ← Real.exp_sub]

theorem kldElement_pinf {p q : XF ℝ} (hp : p.Proper) (hq : q.Proper) (h : q.prob = 0) (h' : p.prob ≠ 0) :
    kldElement p q = .pinf := by
  cases p <;> cases q <;>
    simp_all [XF.Proper, kldElement, XF.eq, XF.prob, XF.mul, XF.exp, XF.sub, Real.exp_pos,
      (Real.exp_pos _).ne']

/-- Same variables, equal cardinalities. -/
structure SameScope (f g : Sparse ℝ) : Prop where
  scope : ∀ v, v ∈ f.vars ↔ v ∈ g.vars
  cards : ∀ v ∈ f.vars, f.card v = g.card v

theorem SameScope.consistent {f g : Sparse ℝ} (h : SameScope f g) : Consistent f g :=
  fun v hv _ => h.cards v hv

theorem result_perm {hs : HashSeed} {f g : Sparse ℝ} (hf : WF f) (h : SameScope f g)
    (op : XF ℝ → XF ℝ → XF ℝ) (rule : Rule) : (binResult hs f g op rule).vars.Perm f.vars := by
  refine (List.perm_ext_iff_of_nodup (nodup_result (hs := hs) (f := f) (g := g)) hf.nodup).2 ?_
  intro v
  exact mem_result.trans (by rw [← h.scope]; exact or_self_iff)

variable {hs : HashSeed} {f g : Sparse ℝ}

theorem binResult_vc (hf : WF f) (h : SameScope f g) (op : XF ℝ → XF ℝ → XF ℝ) (rule : Rule) :
    ((binResult hs f g op rule).vars.map fun v => (v, (binResult hs f g op rule).card v)).Perm
      (f.vars.map fun v => (v, f.card v)) := by
  have hp := result_perm (hs := hs) hf h op rule
  have : ((binResult hs f g op rule).vars.map fun v => (v, (binResult hs f g op rule).card v))
      = (binResult hs f g op rule).vars.map fun v => (v, f.card v) := by
    apply List.map_congr_left
    intro v hv
    have hv' := hp.mem_iff.1 hv
    rw [binResult_card v (Or.inl hv'), mergedCard]
    simp [(h.scope v).1 hv', h.cards v hv']
  rw [this]
  exact hp.map _

theorem rawKld_eq (hf : Regular f) (hg : Regular g) (h : SameScope f g) :
    rawKld hs f g = .ok (XF.sum (Dict.values (binResult hs f g kldElement .none).table)) := by
  unfold rawKld
  rw [applyBinary_eq hf.wf hg.wf, if_pos ((consistentCards_iff hf.wf hg.wf).2 h.consistent), if_neg]
  · rfl
  · rw [hf.dflt, hg.dflt, XF.ne_self] <;> simp

theorem kl_val (hf : Regular f) (hg : Regular g) (h : SameScope f g) {x : Asg}
    (hx : ∀ v ∈ f.vars, x v < f.card v) :
    (binResult hs f g kldElement .none).val x = kldElement (f.val x) (g.val x) :=
  binResult_val_none hf.wf hg.wf (hf.dflt.trans hg.dflt.symm) _ x hx
    fun v hv => h.cards v ((h.scope v).2 hv) ▸ hx v ((h.scope v).2 hv)

theorem key_inrange (hf : Regular f) (hg : Regular g) (h : SameScope f g)
    {e : List Nat × XF ℝ} (he : e ∈ (binResult hs f g kldElement .none).table) :
    ∀ v ∈ f.vars, asgOf (binResult hs f g kldElement .none).vars e.1 v < f.card v := by
  have hr := binResult_wf (hs := hs) hf.wf hg.wf h.consistent (Or.inr rfl) kldElement
  intro v hv
  have := hr.key_range (List.mem_map.2 ⟨e, he, rfl⟩) (mem_result.2 (Or.inl hv) : v ∈ _)
  rw [binResult_card v (Or.inl hv), mergedCard] at this
  simpa [(h.scope v).1 hv, ← h.cards v hv] using this

theorem rawKld_fin (hf : Regular f) (hg : Regular g) (h : SameScope f g)
    (hsup : ∀ x, (∀ v ∈ f.vars, x v < f.card v) → g.prob x = 0 → f.prob x = 0) :
    rawKld hs f g = .ok (.fin (Spec.kl (f.vars.map fun v => (v, f.card v)) f.prob g.prob)) := by
  have hr := binResult_wf (hs := hs) hf.wf hg.wf h.consistent (Or.inr rfl) kldElement
  rw [rawKld_eq hf hg h, XF.sum_all_fin]
  · congr 2
    unfold Spec.kl
    have hnod : (((binResult hs f g kldElement .none).vars.map
      fun v => (v, (binResult hs f g kldElement .none).card v)).map Prod.fst).Nodup := by
      rw [List.map_map]
      simpa [Function.comp_def] using hr.nodup
    rw [← Spec.sumVars_perm (binResult_vc (hs := hs) hf.wf h kldElement .none) hnod]
    have := sum_all hr XF.toReal (fun _ => 0)
    rw [show (Dict.values (binResult hs f g kldElement .none).table).map XF.toReal
      = (binResult hs f g kldElement .none).table.map fun e => XF.toReal e.2 by
        simp [Dict.values, Function.comp_def], ← this]
    apply Spec.sumVars_congr _ _ hr.nodup
    intro y hy
    have hy' : ∀ v ∈ f.vars, y v < f.card v := by
      intro v hv
      have := hy v (mem_result.2 (Or.inl hv))
      rw [binResult_card v (Or.inl hv), mergedCard] at this
      simpa [(h.scope v).1 hv, ← h.cards v hv] using this
    have hv := kl_val (hs := hs) hf hg h hy'
    rw [kldElement_fin (hf.val_proper y) (hg.val_proper y) (hsup y hy')] at hv
    unfold val at hv
    cases hget : Dict.get? (binResult hs f g kldElement .none).table
      ((binResult hs f g kldElement .none).vars.map y) with
    | none =>
      rw [hget] at hv
      have hd : (binResult hs f g kldElement .none).dflt = .fin 0 := by
        show kldElement f.dflt f.dflt = _
        rw [hf.dflt]; simp [kldElement, XF.eq]
      simp only [Option.getD_none, hd, XF.fin.injEq] at hv
      exact hv
    | some w =>
      rw [hget] at hv
      simp only [Option.getD_some] at hv
      simp [hv, XF.toReal, prob, val]
  · intro a ha
    obtain ⟨e, he, rfl⟩ := List.mem_map.1 ha
    have hx := key_inrange hf hg h he
    rw [← val_of_mem hr he, kl_val hf hg h hx,
      kldElement_fin (hf.val_proper _) (hg.val_proper _) (hsup _ hx)]
    simp [XF.Finite]

theorem rawKld_pinf (hf : Regular f) (hg : Regular g) (h : SameScope f g)
    (hsup : ∃ x, (∀ v ∈ f.vars, x v < f.card v) ∧ g.prob x = 0 ∧ f.prob x ≠ 0) :
    rawKld hs f g = .ok .pinf := by
  have hr := binResult_wf (hs := hs) hf.wf hg.wf h.consistent (Or.inr rfl) kldElement
  rw [rawKld_eq hf hg h, XF.sum_pinf]
  · intro a ha
    obtain ⟨e, he, rfl⟩ := List.mem_map.1 ha
    have hx := key_inrange hf hg h he
    rw [← val_of_mem hr he, kl_val hf hg h hx]
    by_cases hq : g.prob (asgOf (binResult hs f g kldElement .none).vars e.1) = 0 →
        f.prob (asgOf (binResult hs f g kldElement .none).vars e.1) = 0
    · rw [kldElement_fin (hf.val_proper _) (hg.val_proper _) hq]
      simp [XF.Finite]
    · rw [Classical.not_imp] at hq
      rw [kldElement_pinf (hf.val_proper _) (hg.val_proper _) hq.1 hq.2]
      exact Or.inr rfl
  · obtain ⟨x, hx, hq, hp⟩ := hsup
    have hv := kl_val (hs := hs) hf hg h hx
    rw [kldElement_pinf (hf.val_proper _) (hg.val_proper _) hq hp] at hv
    unfold val at hv
    cases hget : Dict.get? (binResult hs f g kldElement .none).table
      ((binResult hs f g kldElement .none).vars.map x) with
    | none =>
      rw [hget] at hv
      have hd : (binResult hs f g kldElement .none).dflt = .fin 0 := by
        show kldElement f.dflt f.dflt = _
        rw [hf.dflt]; simp [kldElement, XF.eq]
      simp [hd] at hv
    | some w =>
      rw [hget] at hv
      simp only [Option.getD_some] at hv
      subst hv
      exact List.mem_map.2 ⟨_, Dict.mem_of_get? hget, rfl⟩

theorem prob_nonneg (f : Sparse ℝ) (x : Asg) : 0 ≤ f.prob x := XF.prob_nonneg _

theorem prob_dependsOn (f : Sparse ℝ) : Spec.DependsOn f.prob f.vars := fun x y h => by
  unfold prob; rw [val_dependsOn f x y h]

theorem table_ne_nil_of_mass {f : Sparse ℝ} (hf : Regular f) (hm : 0 < f.mass) : f.table ≠ [] := by
  intro h
  rw [mass_eq hf, h] at hm
  simp [Dict.values] at hm

end Sparse
end Verif
