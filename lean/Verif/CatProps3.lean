import Verif.CatProps2
import Mathlib.Algebra.BigOperators.Field

/-!
# Properties of dense categorical factors, continued (C23 - C25)
-/

namespace Verif.Cat
open Spec (Asg)
variable {K : Type}

/-- The total of the probabilities over all assignments. -/
noncomputable def mass (f : Cat ℝ) : ℝ :=
  Spec.sumVars (f.vars.map fun v => (v, f.card v)) f.prob (fun _ => 0)

/-- The normalised distribution. -/
noncomputable def dist (f : Cat ℝ) (x : Asg) : ℝ := f.prob x / f.mass

theorem entries_prob {f : Cat ℝ} (hf : WF f) : (f.tensor.entries.map XF.prob).sum = f.mass :=
  Tensor.sum_entries hf.nodup hf.shape XF.prob _

theorem entries_proper {f : Cat ℝ} (hf : WF f) (pf : Proper f) : ∀ a ∈ f.tensor.entries, a.Proper := by
  intro a ha
  obtain ⟨i, hi, rfl⟩ := Tensor.mem_entries.1 ha
  rw [hf.shape] at hi
  obtain ⟨h1, h2⟩ := Tensor.inShape_asg hf.nodup hi
  have := pf _ h2
  unfold val at this
  rwa [h1] at this

/-! ### C23 normalize -/

/-- The normalised factor as the code computes it. -/
noncomputable def normResult (f : Cat ℝ) : Cat ℝ :=
  { f with tensor := f.tensor.map fun a => XF.sub a (.fin (Real.log f.mass)) }

theorem normalize_eq {f : Cat ℝ} (hf : WF f) (pf : Proper f) (hm : 0 < f.mass) :
    normalize f = .ok (normResult f) := by
  have hne : f.tensor.entries ≠ [] := by
    intro h
    rw [← entries_prob hf, h] at hm
    simp at hm
  unfold normalize
  rw [copy_eq hf, py_bind_ok, XF.logsumexp_proper hne (entries_proper hf pf), py_bind_ok, entries_prob hf]
  unfold XF.ofProb
  rw [if_neg hm.ne']
  rfl

theorem normResult_wf {f : Cat ℝ} (hf : WF f) : WF (normResult f) :=
  ⟨hf.nodup, hf.ndim, hf.cards, hf.names, hf.namesCard⟩

theorem normResult_prob {f : Cat ℝ} (pf : Proper f) (hm : 0 < f.mass) {x : Asg} (hx : f.InRange x) :
    ((normResult f).val x).Proper ∧ (normResult f).prob x = f.dist x := by
  have hp := pf x hx
  have : (normResult f).val x = XF.sub (f.val x) (.fin (Real.log f.mass)) := rfl
  unfold prob dist prob
  rw [this]
  revert hp
  generalize f.val x = a
  intro hp
  cases a with
  | ninf => simp [XF.sub, XF.Proper, XF.prob]
  | fin r => simp [XF.sub, XF.Proper, XF.prob, Real.exp_sub, Real.exp_log hm]
  | nan => simp [XF.Proper] at hp
  | pinf => simp [XF.Proper] at hp

theorem sumVars_div (vc : List (Var × Nat)) (F : Asg → ℝ) (m : ℝ) (x : Asg) :
    Spec.sumVars vc (fun y => F y / m) x = Spec.sumVars vc F x / m := by
  induction vc generalizing x with
  | nil => rfl
  | cons e l ih =>
    simp only [Spec.sumVars, Spec.sumVar, ih, Finset.sum_div]

theorem dist_sum {f : Cat ℝ} (hm : 0 < f.mass) :
    Spec.sumVars (f.vars.map fun v => (v, f.card v)) f.dist (fun _ => 0) = 1 := by
  have : f.dist = fun y => f.prob y / f.mass := rfl
  rw [this, sumVars_div]
  exact div_self hm.ne'

/-- **C23.** `normalize` of a factor with positive total divides every probability by the total; the
result sums to one. -/
theorem C23_normalize (f : Cat ℝ) (hf : WF f) (pf : Proper f) (hm : 0 < f.mass) :
    ∃ r, normalize f = .ok r ∧ WF r ∧ Proper r ∧ r.vars = f.vars ∧ (∀ v ∈ f.vars, r.card v = f.card v) ∧
      (∀ v ∈ f.vars, r.name v = f.name v) ∧ (∀ x, f.InRange x → r.prob x = f.prob x / f.mass) ∧ r.mass = 1 := by
  refine ⟨_, normalize_eq hf pf hm, normResult_wf hf, fun x hx => (normResult_prob pf hm hx).1, rfl,
    fun _ _ => rfl, fun _ _ => rfl, fun x hx => (normResult_prob pf hm hx).2, ?_⟩
  unfold mass
  refine Eq.trans ?_ (dist_sum hm)
  exact Spec.sumVars_congr _ _ hf.nodup _ fun y hy => (normResult_prob pf hm hy).2

theorem exR_mass_pos : 0 < exR.mass := by
  rw [← entries_prob exR_wf]
  have : exR.tensor.entries.map XF.prob = [0, 0, 1, 1, 0, 0, 0, 0] := by
    simp [Tensor.entries, exR, mk0, mk', productRange, XF.prob, List.range_succ]
  rw [this]; norm_num

example : WF exR ∧ Proper exR ∧ 0 < exR.mass := ⟨exR_wf, exR_proper, exR_mass_pos⟩

/-! ### C24 KL divergence -/

theorem rawKld_eq {p q : Cat ℝ} (hp : WF p) (hq : WF q) (hv : p.vars = q.vars)
    (hc : ∀ v ∈ p.vars, p.card v = q.card v) :
    ∃ t : Tensor (XF ℝ), Tensor.zipOp Sparse.kldElement p.tensor q.tensor = .ok t ∧ t.shape = p.vars.map p.card ∧
      ∀ x, p.InRange x → t.get (p.vars.map x) = Sparse.kldElement (p.val x) (q.val x) := by
  have hs : q.tensor.shape = p.tensor.shape := by
    rw [hp.shape, hq.shape, ← hv]
    exact List.map_congr_left fun v h => (hc v h).symm
  unfold Tensor.zipOp
  rw [hs, Tensor.bshape_eq rfl (Tensor.bshapeEq_self _), py_bind_ok]
  refine ⟨_, rfl, hp.shape, fun x hx => ?_⟩
  simp only
  rw [hp.shape, Tensor.bidx_self (Tensor.inShape_map.2 hx)]
  unfold val
  rw [← hv]

theorem rawKld_fin {p q : Cat ℝ} (hp : WF p) (hq : WF q) (pp : Proper p) (pq : ∀ x, p.InRange x → (q.val x).Proper)
    (hv : p.vars = q.vars)
    (hc : ∀ v ∈ p.vars, p.card v = q.card v) (hsup : ∀ x, p.InRange x → q.prob x = 0 → p.prob x = 0) :
    rawKld p.tensor q.tensor = .ok (.fin (Spec.kl (p.vars.map fun v => (v, p.card v)) p.prob q.prob)) := by
  obtain ⟨t, h1, h2, h3⟩ := rawKld_eq hp hq hv hc
  have hval : ∀ x, p.InRange x → t.get (p.vars.map x) = .fin (p.prob x * Real.log (p.prob x / q.prob x)) := by
    intro x hx
    rw [h3 x hx, Sparse.kldElement_fin (pp x hx) (pq x hx) (hsup x hx)]
    rfl
  unfold rawKld
  rw [h1, py_bind_ok, XF.sum_all_fin]
  · rw [Tensor.sum_entries hp.nodup h2 XF.toReal (fun _ => 0)]
    congr 2
    unfold Spec.kl
    apply Spec.sumVars_congr _ _ hp.nodup
    intro y hy
    rw [hval y hy]; rfl
  · intro a ha
    obtain ⟨i, hi, rfl⟩ := Tensor.mem_entries.1 ha
    rw [h2] at hi
    obtain ⟨h4, h5⟩ := Tensor.inShape_asg hp.nodup hi
    rw [← h4, hval _ h5]; trivial

theorem rawKld_pinf {p q : Cat ℝ} (hp : WF p) (hq : WF q) (pp : Proper p) (pq : ∀ x, p.InRange x → (q.val x).Proper)
    (hv : p.vars = q.vars)
    (hc : ∀ v ∈ p.vars, p.card v = q.card v) (hsup : ∃ x, p.InRange x ∧ q.prob x = 0 ∧ p.prob x ≠ 0) :
    rawKld p.tensor q.tensor = .ok .pinf := by
  obtain ⟨t, h1, h2, h3⟩ := rawKld_eq hp hq hv hc
  unfold rawKld
  rw [h1, py_bind_ok, XF.sum_pinf]
  · intro a ha
    obtain ⟨i, hi, rfl⟩ := Tensor.mem_entries.1 ha
    rw [h2] at hi
    obtain ⟨h4, h5⟩ := Tensor.inShape_asg hp.nodup hi
    rw [← h4, h3 _ h5]
    by_cases hz : q.prob (asgOf p.vars i) = 0 → p.prob (asgOf p.vars i) = 0
    · rw [Sparse.kldElement_fin (pp _ h5) (pq _ h5) hz]; exact Or.inl trivial
    · rw [Classical.not_imp] at hz
      exact Or.inr (Sparse.kldElement_pinf (pp _ h5) (pq _ h5) hz.1 hz.2)
  · obtain ⟨x, hx, h4, h5⟩ := hsup
    rw [← Sparse.kldElement_pinf (pp x hx) (pq x hx) h4 h5, ← h3 x hx]
    refine Tensor.mem_entries.2 ⟨_, ?_, rfl⟩
    rw [h2]; exact Tensor.inShape_map.2 hx

/-- Same variables, in any order, with the same cardinalities and names. -/
structure SameScope (f g : Cat K) : Prop where
  scope : ∀ v, v ∈ f.vars ↔ v ∈ g.vars
  cards : ∀ v ∈ f.vars, f.card v = g.card v
  names : ∀ v ∈ f.vars, f.name v = g.name v

theorem SameScope.perm {f g : Cat K} (hf : WF f) (hg : WF g) (h : SameScope f g) : g.vars.Perm f.vars :=
  (List.perm_ext_iff_of_nodup hg.nodup hf.nodup).2 fun v => (h.scope v).symm

theorem prob_dependsOn (f : Cat ℝ) : Spec.DependsOn f.prob f.vars := fun x y h => by
  unfold prob val
  rw [map_eq_map_iff'.2 h]

theorem SameScope.vc {f g : Cat K} (hf : WF f) (hg : WF g) (h : SameScope f g) :
    (g.vars.map fun v => (v, g.card v)).Perm (f.vars.map fun v => (v, f.card v)) := by
  have : (g.vars.map fun v => (v, g.card v)) = g.vars.map fun v => (v, f.card v) := by
    apply List.map_congr_left
    intro v hv
    rw [h.cards v ((h.scope v).2 hv)]
  rw [this]
  exact (h.perm hf hg).map _

theorem sumVars_swap {f g : Cat K} (hf : WF f) (hg : WF g) (h : SameScope f g) (F : Asg → ℝ) (x : Asg) :
    Spec.sumVars (g.vars.map fun v => (v, g.card v)) F x = Spec.sumVars (f.vars.map fun v => (v, f.card v)) F x := by
  rw [Spec.sumVars_perm (h.vc hf hg)]
  rw [List.map_map]
  simpa [Function.comp_def] using hg.nodup

/-- **C24.** `kl_divergence` of two factors over the same variables (in any two orders) with positive
totals: if the second is non-zero wherever the first is, the result is `∑ p log (p/q)` of the normalised
factors, which is never negative (so the 'Negative KLD' error is unreachable) and zero only if the
normalised factors coincide; otherwise the result is `+inf`. -/
theorem C24_kl_divergence (f g : Cat ℝ) (hf : WF f) (hg : WF g) (pf : Proper f) (pg : Proper g)
    (h : SameScope f g) (hmf : 0 < f.mass) (hmg : 0 < g.mass) :
    ((∀ x, f.InRange x → g.prob x = 0 → f.prob x = 0) →
      klDivergence f g = .ok (.fin (Spec.kl (f.vars.map fun v => (v, f.card v)) f.dist g.dist)) ∧
      0 ≤ Spec.kl (f.vars.map fun v => (v, f.card v)) f.dist g.dist ∧
      (Spec.kl (f.vars.map fun v => (v, f.card v)) f.dist g.dist = 0 →
        ∀ x, f.InRange x → f.dist x = g.dist x)) ∧
    ((∃ x, f.InRange x ∧ g.prob x = 0 ∧ f.prob x ≠ 0) → klDivergence f g = .ok .pinf) := by
  classical
  have hgr : ∀ x, f.InRange x → g.InRange x := fun x hx v hv => by
    rw [← h.cards v ((h.scope v).2 hv)]; exact hx v ((h.scope v).2 hv)
  have hrg : ∀ x, g.InRange x → f.InRange x := fun x hx v hv => by
    rw [h.cards v hv]; exact hx v ((h.scope v).1 hv)
  obtain ⟨p, hp1, hp2, hp3, hp4, hp5, hp6⟩ := reorder_ok (normResult_wf hf) (nv := g.vars) (SameScope.perm hf hg h : g.vars.Perm f.vars)
  have hcards : ∀ v ∈ p.vars, p.card v = (normResult g).card v := by
    intro v hv
    rw [hp3] at hv
    rw [hp4 v hv]
    exact h.cards v ((h.scope v).2 hv)
  have hpin : ∀ x, p.InRange x → f.InRange x := by
    intro x hx
    apply hrg
    intro v hv
    have := hx v (by rw [hp3]; exact hv)
    rwa [hcards v (by rw [hp3]; exact hv)] at this
  have hinp : ∀ x, f.InRange x → p.InRange x := by
    intro x hx v hv
    rw [hcards v hv]
    exact hgr x hx v (by rw [hp3] at hv; exact hv)
  have hpp : Proper p := fun x hx => by rw [hp6]; exact (normResult_prob pf hmf (hpin x hx)).1
  have hpq : ∀ x, p.InRange x → ((normResult g).val x).Proper := fun x hx =>
    (normResult_prob pg hmg (hgr x (hpin x hx))).1
  have hP : ∀ x, f.InRange x → p.prob x = f.dist x := fun x hx => by
    unfold prob; rw [hp6]; exact (normResult_prob pf hmf hx).2
  have hQ : ∀ x, f.InRange x → (normResult g).prob x = g.dist x := fun x hx =>
    (normResult_prob pg hmg (hgr x hx)).2
  have hnames : SameNames f g := fun v hv _ => h.names v hv
  have hgz : ∀ x, g.dist x = 0 ↔ g.prob x = 0 := fun x => by
    unfold dist; rw [div_eq_zero_iff]; simp [hmg.ne']
  have hfz : ∀ x, f.dist x = 0 ↔ f.prob x = 0 := fun x => by
    unfold dist; rw [div_eq_zero_iff]; simp [hmf.ne']
  have hpre : ∀ k : XF ℝ, rawKld p.tensor (normResult g).tensor = .ok k → klDivergence f g =
      if XF.lt k (.fin 0) then
        if XF.isclose (1/100000) (1/10000) k (.fin 0) then .ok (.fin 0) else .error .valueError
      else .ok k := by
    intro k hk
    unfold klDivergence
    rw [checkNames_eq hf hg, if_pos hnames, py_bind_ok, normalize_eq hf pf hmf, py_bind_ok, hp1, py_bind_ok,
      normalize_eq hg pg hmg]
    simp only [if_true, py_bind_ok]
    rw [hk, py_bind_ok]
  constructor
  · intro hsup
    have hraw := rawKld_fin hp2 (normResult_wf hg) hpp hpq hp3 hcards (by
      intro x hx
      have hx' := hpin x hx
      rw [hP x hx', hQ x hx', hgz, hfz]
      exact hsup x hx')
    have hkl : Spec.kl (p.vars.map fun v => (v, p.card v)) p.prob (normResult g).prob
        = Spec.kl (f.vars.map fun v => (v, f.card v)) f.dist g.dist := by
      unfold Spec.kl
      rw [← sumVars_swap hf hg h]
      have : (p.vars.map fun v => (v, p.card v)) = g.vars.map fun v => (v, g.card v) := by
        rw [hp3]
        apply List.map_congr_left
        intro v hv
        rw [hcards v (by rw [hp3]; exact hv)]
        rfl
      rw [this]
      apply Spec.sumVars_congr _ _ hg.nodup
      intro y hy
      rw [hP y (hrg y hy), hQ y (hrg y hy)]
    rw [hkl] at hraw
    have hgibbs := Spec.gibbs_kl f.vars f.card f.dist g.dist hf.nodup
      (fun x => div_nonneg (XF.prob_nonneg _) hmf.le) (fun x => div_nonneg (XF.prob_nonneg _) hmg.le)
      (fun x hx => by rw [hgz, hfz]; exact hsup x hx) (by
        rw [dist_sum hmf, ← sumVars_swap hf hg h, dist_sum hmg])
    refine ⟨?_, hgibbs.1, fun h0 => hgibbs.2 h0 ?_ ?_⟩
    · rw [hpre _ hraw, if_neg]
      simp [XF.lt, hgibbs.1]
    · intro x y hxy
      unfold dist; rw [prob_dependsOn f x y hxy]
    · intro x y hxy
      unfold dist; rw [prob_dependsOn g x y fun v hv => hxy v ((h.scope v).2 hv)]
  · rintro ⟨x, hx, h1, h2⟩
    have hraw := rawKld_pinf hp2 (normResult_wf hg) hpp hpq hp3 hcards
      ⟨x, hinp x hx, by rw [hQ x hx, hgz]; exact h1, by rw [hP x hx, Ne, hfz]; exact h2⟩
    rw [hpre _ hraw, if_neg]
    simp [XF.lt]

/-- The factor of `exR` with its variables in another order and different positive values. -/
noncomputable def exR' : Cat ℝ := mk0 ["c", "a", "b"] [2, 2, 2] fun i => if i = [0, 0, 0] then .fin 1 else .fin 0

theorem exR'_wf : WF exR' := mk0_wf _ (by decide) rfl

theorem exR_same : SameScope exR exR' := by
  refine ⟨fun v => ?_, ?_, ?_⟩
  · simp only [exR, exR', mk0, mk', List.mem_cons, List.not_mem_nil, or_false]; tauto
  all_goals
    intro v h
    have h1 : v = "a" ∨ v = "b" ∨ v = "c" := by simpa [exR, mk0, mk'] using h
    rcases h1 with rfl | rfl | rfl <;> rfl

theorem exR'_val (x : Asg) : ∃ r, exR'.val x = .fin r := by
  unfold val exR' mk0 mk'
  simp only
  split
  · exact ⟨1, rfl⟩
  · exact ⟨0, rfl⟩

example : WF exR ∧ WF exR' ∧ Proper exR ∧ Proper exR' ∧ SameScope exR exR' ∧ 0 < exR.mass ∧ 0 < exR'.mass ∧
    ∀ x, exR.InRange x → exR'.prob x = 0 → exR.prob x = 0 := by
  refine ⟨exR_wf, exR'_wf, exR_proper, fun x _ => ?_, exR_same, exR_mass_pos, ?_, fun x _ h => ?_⟩
  · obtain ⟨r, h⟩ := exR'_val x; rw [h]; trivial
  · rw [← entries_prob exR'_wf]
    have : exR'.tensor.entries.map XF.prob = [Real.exp 1, 1, 1, 1, 1, 1, 1, 1] := by
      simp [Tensor.entries, exR', mk0, mk', productRange, XF.prob, List.range_succ]
    rw [this]
    simp
    positivity
  · exfalso
    obtain ⟨r, h'⟩ := exR'_val x
    unfold prob at h
    rw [h'] at h
    exact (Real.exp_pos r).ne' h

theorem sumVars_mono (vs : List Var) (c : Var → Nat) (hn : vs.Nodup) {F G : Asg → ℝ} (x : Asg)
    (h : ∀ y, (∀ v ∈ vs, y v < c v) → F y ≤ G y) :
    Spec.sumVars (vs.map fun v => (v, c v)) F x ≤ Spec.sumVars (vs.map fun v => (v, c v)) G x := by
  rw [← zip_map_self, Spec.sumVars_eq _ _ (by simp), Spec.sumVars_eq _ _ (by simp)]
  apply Spec.list_sum_le
  intro t ht
  have hl : t.length = vs.length := by simpa using (mem_productRange.1 ht).length_eq
  apply h
  have := mem_productRange.1 ht
  rw [← Spec.map_updates (x := x) hn hl, List.forall₂_map_left_iff, List.forall₂_map_right_iff,
    List.forall₂_same] at this
  exact this

theorem sumVars_sub (vc : List (Var × Nat)) (F G : Asg → ℝ) (x : Asg) :
    Spec.sumVars vc (fun y => F y - G y) x = Spec.sumVars vc F x - Spec.sumVars vc G x := by
  induction vc generalizing x with
  | nil => rfl
  | cons e l ih => simp only [Spec.sumVars, Spec.sumVar, ih, Finset.sum_sub_distrib]

theorem sumVars_mul_const (vc : List (Var × Nat)) (F : Asg → ℝ) (m : ℝ) (x : Asg) :
    Spec.sumVars vc (fun y => F y * m) x = Spec.sumVars vc F x * m := by
  induction vc generalizing x with
  | nil => rfl
  | cons e l ih => simp only [Spec.sumVars, Spec.sumVar, ih, Finset.sum_mul]

theorem dist_le_one {f : Cat ℝ} (hf : WF f) (hm : 0 < f.mass) {x : Asg} (hx : f.InRange x) : f.dist x ≤ 1 := by
  have : f.prob x ≤ f.mass := by
    rw [← entries_prob hf]
    apply List.single_le_sum
    · intro a ha
      obtain ⟨b, _, rfl⟩ := List.mem_map.1 ha
      exact XF.prob_nonneg _
    · refine List.mem_map.2 ⟨f.val x, Tensor.mem_entries.2 ⟨_, ?_, rfl⟩, rfl⟩
      rw [hf.shape]; exact Tensor.inShape_map.2 hx
  unfold dist
  exact (div_le_one hm).2 this

/-- **C24.** `distance_from_vacuous` is the divergence from the uniform distribution, that is `log N`
minus the entropy; it lies between 0 and `log N` and is zero only for a uniform factor. -/
theorem C24_distance_from_vacuous (f : Cat ℝ) (hf : WF f) (pf : Proper f) (hm : 0 < f.mass) :
    ∃ d, distanceFromVacuous f = .ok (.fin d) ∧
      d = Real.log (f.tensor.shape.prod : ℕ) -
        Spec.sumVars (f.vars.map fun v => (v, f.card v)) (fun x => - (f.dist x * Real.log (f.dist x))) (fun _ => 0) ∧
      0 ≤ d ∧ d ≤ Real.log (f.tensor.shape.prod : ℕ) ∧
      (d = 0 → ∀ x, f.InRange x → f.dist x = 1 / (f.tensor.shape.prod : ℕ)) := by
  classical
  have hcprod : ((f.vars.map fun v => (v, f.card v)).map Prod.snd).prod = f.tensor.shape.prod := by
    rw [List.map_map, hf.shape]; rfl
  have hN : 0 < f.tensor.shape.prod := by
    rcases Nat.eq_zero_or_pos f.tensor.shape.prod with h0 | h
    · exfalso
      have : f.tensor.entries = [] := by
        apply List.eq_nil_of_length_eq_zero
        simp only [Tensor.entries, List.length_map, productRange_length, h0]
      rw [← entries_prob hf, this] at hm
      simp at hm
    · exact h
  have hN' : (0 : ℝ) < (f.tensor.shape.prod : ℕ) := Nat.cast_pos.2 hN
  set N : ℝ := ((f.tensor.shape.prod : ℕ) : ℝ) with hNdef
  set u : Cat ℝ := mk' f.vars ⟨f.tensor.shape, fun _ => XF.fin (- Real.log N)⟩ f.name with hu
  have hus : u.tensor.shape = f.vars.map f.card := hf.shape
  have huw : WF u := mk'_wf hf.nodup hus hf.namesCard
  have hup : ∀ x, u.prob x = 1 / N := fun x => by
    show Real.exp (-Real.log N) = 1 / N
    rw [Real.exp_neg, Real.exp_log hN', one_div]
  have hss : SameScope f u := ⟨fun _ => Iff.rfl, fun v hv => (card_mk' hus hv).symm, fun v hv => (name_mk' hv).symm⟩
  obtain ⟨p, hp1, hp2, hp3, hp4, hp5, hp6⟩ := reorder_ok (normResult_wf hf) (List.Perm.refl f.vars)
  have hcards : ∀ v ∈ p.vars, p.card v = u.card v := by
    intro v hv
    rw [hp3] at hv
    rw [hp4 v hv]; exact (hss.cards v hv)
  have hpin : ∀ x, p.InRange x → f.InRange x := by
    intro x hx v hv
    have := hx v (by rw [hp3]; exact hv)
    rwa [hp4 v hv] at this
  have hP : ∀ x, f.InRange x → p.prob x = f.dist x := fun x hx => by
    unfold prob; rw [hp6]; exact (normResult_prob pf hm hx).2
  have hraw := rawKld_fin hp2 huw (fun x hx => by rw [hp6]; exact (normResult_prob pf hm (hpin x hx)).1)
    (fun x _ => trivial) hp3 hcards (by
      intro x hx h0
      rw [hup] at h0
      exact absurd h0 (by positivity))
  have hkl : Spec.kl (p.vars.map fun v => (v, p.card v)) p.prob u.prob
      = Spec.kl (f.vars.map fun v => (v, f.card v)) f.dist (fun _ => 1 / N) := by
    unfold Spec.kl
    have : (p.vars.map fun v => (v, p.card v)) = f.vars.map fun v => (v, f.card v) := by
      rw [hp3]
      apply List.map_congr_left
      intro v hv
      rw [hp4 v hv]; rfl
    rw [this]
    apply Spec.sumVars_congr _ _ hf.nodup
    intro y hy
    rw [hP y hy, hup]
  rw [hkl] at hraw
  have hgibbs := Spec.gibbs_kl f.vars f.card f.dist (fun _ => 1 / N) hf.nodup
    (fun x => div_nonneg (XF.prob_nonneg _) hm.le) (fun x => by positivity)
    (fun x _ h0 => absurd h0 (by positivity)) (by
      rw [dist_sum hm, Sparse.sumVars_const, hcprod, ← hNdef]
      apply le_of_eq
      field_simp)
  have hent : Spec.kl (f.vars.map fun v => (v, f.card v)) f.dist (fun _ => 1 / N) = Real.log N -
        Spec.sumVars (f.vars.map fun v => (v, f.card v)) (fun x => - (f.dist x * Real.log (f.dist x))) (fun _ => 0) := by
    have e : ∀ x, f.dist x * Real.log (f.dist x / (1 / N))
        = f.dist x * Real.log N - -(f.dist x * Real.log (f.dist x)) := by
      intro x
      by_cases hz : f.dist x = 0
      · simp [hz]
      · rw [div_div_eq_mul_div, div_one, Real.log_mul hz hN'.ne']; ring
    unfold Spec.kl
    simp only [e]
    rw [sumVars_sub, sumVars_mul_const, dist_sum hm, one_mul]
  have hle : 0 ≤ Spec.sumVars (f.vars.map fun v => (v, f.card v)) (fun x => - (f.dist x * Real.log (f.dist x)))
      (fun _ => 0) := by
    have := sumVars_mono f.vars f.card hf.nodup (F := fun _ => 0) (fun _ => 0) (fun y hy =>
      (neg_nonneg.2 (mul_nonpos_of_nonneg_of_nonpos (div_nonneg (XF.prob_nonneg _) hm.le)
        (Real.log_nonpos (div_nonneg (XF.prob_nonneg _) hm.le) (dist_le_one hf hm hy))) :
          (0 : ℝ) ≤ - (f.dist y * Real.log (f.dist y))))
    rwa [Sparse.sumVars_const, mul_zero] at this
  have hok : distanceFromVacuous f
      = .ok (.fin (Spec.kl (f.vars.map fun v => (v, f.card v)) f.dist (fun _ => 1 / N))) := by
    classical
    have hlog : XF.neg (XF.log (.fin ((f.tensor.shape.prod : ℕ) : ℝ))) = .fin (-Real.log N) := by
      rw [XF.log_fin hN'.le, XF.ofProb, if_neg hN'.ne']; rfl
    have hns : namesOf f.names f.vars = .ok (f.vars.map f.name) := by
      exact hf.namesOf fun v hv => hv
    have hmul : XF.mul (.fin (1 : ℝ)) (.fin (-Real.log N)) = .fin (-Real.log N) := by
      simp [XF.mul]
    have hu0 : ofTensor f.vars ⟨f.tensor.shape, fun _ => XF.fin (- Real.log N)⟩ none (some (f.vars.map f.name))
        = .ok u := ofTensor_eq hf.nodup hus hf.namesCard
    unfold distanceFromVacuous
    dsimp only
    rw [hlog, hns, py_bind_ok, hmul, hu0, py_bind_ok]
    unfold klDivergence
    have hsn : SameNames f u := fun v hv _ => hss.names v hv
    rw [checkNames_eq hf huw, if_pos hsn, py_bind_ok, normalize_eq hf pf hm, py_bind_ok,
      show u.vars = f.vars from rfl, hp1, py_bind_ok]
    simp only [Bool.false_eq_true, if_false, py_bind_ok]
    rw [hraw, py_bind_ok, if_neg]
    simpa [XF.lt] using hgibbs.1
  refine ⟨_, hok, hent, hgibbs.1, by rw [hent]; linarith, fun h0 => hgibbs.2 h0 ?_ fun _ _ _ => rfl⟩
  intro x y hxy
  unfold dist; rw [prob_dependsOn f x y hxy]

example : ∃ d, distanceFromVacuous exR = .ok (.fin d) ∧ 0 ≤ d ∧ d ≤ Real.log (8 : ℕ) := by
  obtain ⟨d, h1, _, h2, h3, _⟩ := C24_distance_from_vacuous exR exR_wf exR_proper exR_mass_pos
  exact ⟨d, h1, h2, h3⟩

end Verif.Cat
