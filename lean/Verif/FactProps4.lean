import Verif.FactMarg

/-!
# Properties of factorised factors (C65)

The claim is about the integral of the product of the factors over the variables that are not kept.
-/

namespace Verif.Fact
open Matrix Gauss Spec MeasureTheory

/-! ### Specification -/

/-- The result is a Gaussian or a factorised factor with log potential `M` and exactly the variables `scope`. -/
def Yields (r : Res) (M : (Var → ℝ) → ℝ) (scope : Var → Prop) : Prop :=
  match r with
  | .gauss g => Made g.2 ∧ Denotes g.2 M ∧ ∀ v, v ∈ g.2.vars ↔ scope v
  | .fact b => HasJoint b M ∧ b.vars.Nodup ∧ (∀ v, v ∈ b.vars ↔ scope v) ∧ ∀ v, (∃ f ∈ b.factors, v ∈ f.2.vars) ↔ scope v

/-! ### The marginal -/

theorem mapM_copyH {fs : List AnyG} {is : List Item} (h : List.Forall₂ Den fs is) :
    ∃ ks, fs.mapM Mix.copyG = .ok ks ∧ List.Forall₂ DenH ks is := by
  induction h with
  | nil => exact ⟨[], rfl, .nil⟩
  | cons h1 _ ih =>
    obtain ⟨k, hk, dk, -⟩ := copyG_den h1
    obtain ⟨ks, hks, dks⟩ := ih
    refine ⟨k :: ks, ?_, .cons ⟨dk, copyG_honest hk⟩ dks⟩
    rw [List.mapM_cons, hk]
    dsimp only [bind, Except.bind]
    rw [hks]
    rfl

theorem copy_denH (hs : HashSeed) {a : Fact} {is : List Item} (h : IsFact a is) :
    ∃ k, copy hs a = .ok k ∧ List.Forall₂ DenH k.factors is := by
  obtain ⟨ks, h1, h2, -⟩ := mapM_copy h
  obtain ⟨ks', h3, h4⟩ := mapM_copyH h2
  refine ⟨⟨hs.strs.toList (ks.flatMap fun g => g.2.vars), ks'⟩, ?_, h4⟩
  · unfold copy
    rw [h1]
    dsimp only [bind, Except.bind]
    unfold make
    rw [h3]
    rfl

theorem margResult_den (hs : HashSeed) (w : ℝ) {rs : List AnyG} {ks : List Item} (h : List.Forall₂ Den rs ks) (hne : rs ≠ [])
    {scope : Var → Prop} (hv : ∀ v, (∃ k ∈ ks, v ∈ k.1) ↔ scope v) :
    ∃ r, margResult hs w rs = .ok r ∧ Yields r (fun x => w + total ks x) scope := by
  cases h with
  | nil => exact absurd rfl hne
  | @cons r k rs ks h1 h2 =>
    have d : Den ⟨r.1, r.2.addLogWeight w⟩ (k.1, fun x => k.2 x + w) :=
      ⟨.addLogWeight w h1.made, (C38_copy_weight h1.made h1.den).2 w, h1.vars⟩
    cases h2 with
    | nil =>
      refine ⟨_, rfl, d.made, d.den.congr fun x => by simp [total, add_comm], fun v => ?_⟩
      rw [d.vars, ← hv]
      simp
    | @cons r' k' rs ks h3 h4 =>
      obtain ⟨b, e, b1, b2, b3, b4⟩ := make_den hs (.cons d (.cons h3 h4))
      have hsc : ∀ v, (∃ f ∈ b.factors, v ∈ f.2.vars) ↔ scope v := by
        intro v
        rw [mem_scope b1, ← hv]
        simp only [List.exists_mem_cons_iff]
      refine ⟨.fact b, ?_, (b1.joint ?_).congr fun x => ?_, b3, fun v => (b2 v).trans (hsc v), hsc⟩
      · unfold margResult
        dsimp only
        rw [e]
        rfl
      · intro h
        rw [h] at b4
        simp at b4
      · simp only [total, List.map_cons, List.sum_cons]
        ring

/-- `marginalize`, in terms of the variables listed in `var_names`. -/
theorem marginalize_den (hs : HashSeed) {a : Fact} {is : List Item} (ha : IsFact a is) {vrs : List Var} (keep : Bool)
    (hsub : ∀ v ∈ vrs, v ∈ a.vars) (hkeep : ∃ i ∈ is, ∃ v ∈ i.1, v ∈ a.vars ∧ (v ∈ vrs ↔ keep = true)) {out : List Var}
    (hn : out.Nodup) (ho : ∀ v, v ∈ out ↔ (v ∈ a.vars ∧ ¬ (v ∈ vrs ↔ keep = true)) ∧ ∃ i ∈ is, v ∈ i.1)
    (hT : ∀ i ∈ is, ∀ j ∈ is, ∀ k ∈ is, Share out i j → Share out j k → Share out i k)
    (hp : PosOn (total is) (· ∈ out)) (hf : ∀ g : List Item, g ≠ [] → g.Sublist is → NotFlat (g.flatMap Prod.fst, total g)) :
    ∃ r M, marginalize hs a vrs keep = .ok r ∧ Yields r M (fun v => (∃ i ∈ is, v ∈ i.1) ∧ v ∉ out) ∧
      ∀ x, IntegrableOut out (fun z => Real.exp (total is z)) x ∧
        integrateOut out (fun z => Real.exp (total is z)) x = Real.exp (M x) := by
  have hm : ∀ v, v ∈ Sparse.marginalVars hs a.vars vrs keep ↔ v ∈ a.vars ∧ (v ∈ vrs ↔ keep = true) := fun v =>
    Sparse.mem_marginalVars hsub
  obtain ⟨k, h1, h2⟩ := copy_denH hs ha
  set out' := a.vars.filter (· ∉ Sparse.marginalVars hs a.vars vrs keep) with hout'
  have ho' : ∀ v, (∃ i ∈ is, v ∈ i.1) → (v ∈ out' ↔ v ∈ out) := by
    intro v hv
    rw [hout', List.mem_filter, decide_eq_true_eq, hm, ho]
    tauto
  have hsh : ∀ i ∈ is, ∀ j ∈ is, (Share out' i j ↔ Share out i j) := by
    intro i hi j hj
    unfold Share
    constructor
    · rintro ⟨v, h1, h2, h3⟩; exact ⟨v, (ho' v ⟨i, hi, h2⟩).1 h1, h2, h3⟩
    · rintro ⟨v, h1, h2, h3⟩; exact ⟨v, (ho' v ⟨i, hi, h2⟩).2 h1, h2, h3⟩
  obtain ⟨ms, gss, e1, m1, m2, m3, m4, m5⟩ := merge_den (out := out') h2 (fun i hi j hj l hl q1 q2 =>
    (hsh i hi l hl).2 (hT i hi j hj l hl ((hsh i hi j hj).1 q1) ((hsh j hj l hl).1 q2)))
  have m5' : (gss.map prodItem).Pairwise (Apart out) := by
    refine m5.imp_of_mem fun {i j} hi hj h => ?_
    rintro ⟨v, q1, q2, q3⟩
    exact h ⟨v, (ho' v ((m4 v).1 ⟨i, hi, q2⟩)).2 q1, q2, q3⟩
  have hp' : PosOn (total (gss.map prodItem)) (· ∈ out) := fun z hz hS => by
    rw [m3, m3, m3]
    exact hp z hz hS
  have hpos := posOn_part m1 m5' hp'
  obtain ⟨w, rs, ks, e2, k1, k2, vs, hvn, hvs, k3⟩ := margLoop_den hs m1 m5
    (fun j hj z hz hS => hpos j hj z hz fun v hv => hS v fun h => hv ⟨(ho' v ((m4 v).1 ⟨j, hj, h.2⟩)).1 h.1, h.2⟩)
    (fun j hj => by
      obtain ⟨g, hg, rfl⟩ := List.mem_map.1 hj
      exact hf g (m2 g hg).1 (m2 g hg).2)
  have hsc : ∀ v, (∃ k ∈ ks, v ∈ k.1) ↔ (∃ i ∈ is, v ∈ i.1) ∧ v ∉ out := by
    intro v
    rw [k2, m4]
    constructor
    · rintro ⟨q1, q2⟩; exact ⟨q1, fun h => q2 ((ho' v q1).2 h)⟩
    · rintro ⟨q1, q2⟩; exact ⟨q1, fun h => q2 ((ho' v q1).1 h)⟩
  have hne : rs ≠ [] := by
    rintro rfl
    cases k1
    obtain ⟨i, hi, v, hv, hv2⟩ := hkeep
    have := (hsc v).2 ⟨⟨i, hi, hv⟩, fun h => ((ho v).1 h).1.2 hv2.2⟩
    simp at this
  obtain ⟨r, e3, hr⟩ := margResult_den hs w k1 hne hsc
  have hg : (a.factors.any fun f => decide (∃ v ∈ Sparse.marginalVars hs a.vars vrs keep, v ∈ f.2.vars)) = true := by
    obtain ⟨i, hi, v, hv, hv2⟩ := hkeep
    obtain ⟨f, hf, hvf⟩ := (mem_scope ha v).2 ⟨i, hi, hv⟩
    rw [List.any_eq_true]
    exact ⟨f, hf, by simpa using ⟨v, (hm v).2 hv2, hvf⟩⟩
  refine ⟨r, _, ?_, hr, fun x => ?_⟩
  · unfold marginalize
    dsimp only [bind, Except.bind]
    rw [hg, h1]
    dsimp only [pyGuard, if_true]
    rw [← hout', e1]
    dsimp only
    rw [e2]
    exact e3
  · have hperm : out.Perm vs := (List.perm_ext_iff_of_nodup hn hvn).2 fun v => by
      rw [hvs, m4]
      constructor
      · exact fun h => ⟨(ho' v ((ho v).1 h).2).2 h, ((ho v).1 h).2⟩
      · exact fun h => (ho' v h.2).1 h.1
    obtain ⟨p1, p2⟩ := integrateOut_perm hn hperm (fun z => Real.exp (total is z)) x
    have e : (fun z => Real.exp (total is z)) = fun z => Real.exp (total (gss.map prodItem) z) := by
      funext z
      rw [m3]
    rw [p1, p2, e]
    exact k3 x

/-- **C65 (part that holds).** Let the product of the factors be strictly log concave in the variables to be dropped
(so that it can be integrated over them), no product of some of the factors be nearly constant (so that none is
flagged vacuous), and let sharing dropped variables be transitive between factors. Then, for every set of variables
to keep or to drop that leaves at least one variable, `marginalize` returns a factor over exactly the kept variables
whose potential is the Lebesgue integral of the product of the factors over the dropped variables. What is missing
for the full claim: factors that share dropped variables only through a third one, for which the answer is wrong
(`C65_chain`); variables that a product did not list (`C65_unlisted`); dropping all variables (`C65_raises`). -/
theorem C65_marginalize_partial (hs : HashSeed) {a : Fact} {is : List Item} (ha : IsFact a is) (hc : Covers a)
    {vrs : List Var} (keep : Bool) (hsub : ∀ v ∈ vrs, v ∈ a.vars) (hkeep : ∃ v ∈ a.vars, (v ∈ vrs ↔ keep = true))
    {out : List Var} (hn : out.Nodup) (ho : ∀ v, v ∈ out ↔ v ∈ a.vars ∧ ¬ (v ∈ vrs ↔ keep = true))
    (hT : ∀ i ∈ is, ∀ j ∈ is, ∀ k ∈ is, Share out i j → Share out j k → Share out i k)
    (hp : PosOn (total is) (· ∈ out)) (hf : ∀ g : List Item, g ≠ [] → g.Sublist is → NotFlat (g.flatMap Prod.fst, total g)) :
    ∃ r M, marginalize hs a vrs keep = .ok r ∧ Yields r M (fun v => v ∈ a.vars ∧ (v ∈ vrs ↔ keep = true)) ∧
      ∀ x, IntegrableOut out (fun z => Real.exp (total is z)) x ∧
        integrateOut out (fun z => Real.exp (total is z)) x = Real.exp (M x) := by
  have hcov : ∀ v, v ∈ a.vars ↔ ∃ i ∈ is, v ∈ i.1 := fun v => (hc v).trans (mem_scope ha v)
  obtain ⟨r, M, h1, h2, h3⟩ := marginalize_den hs ha keep hsub (by
      obtain ⟨v, hv, hk⟩ := hkeep
      obtain ⟨i, hi, hvi⟩ := (hcov v).1 hv
      exact ⟨i, hi, v, hvi, hv, hk⟩) hn (fun v => by rw [ho, ← hcov]; tauto) hT hp hf
  have e : (fun v => (∃ i ∈ is, v ∈ i.1) ∧ v ∉ out) = fun v => v ∈ a.vars ∧ (v ∈ vrs ↔ keep = true) := by
    funext v
    rw [← hcov, ho]
    exact propext (by tauto)
  rw [e] at h2
  exact ⟨r, M, h1, h2, h3⟩

/-- A strictly log concave factor is log concave in all directions, strictly so in the ones that change one of its
variables. -/
theorem concave_le {f : AnyG} {i : Item} (hf : Den f i) (hp : PosOn i.2 (· ∈ i.1)) (z : Var → ℝ) :
    i.2 z + i.2 (-z) ≤ 2 * i.2 0 ∧ ((∃ v ∈ i.1, z v ≠ 0) → i.2 z + i.2 (-z) < 2 * i.2 0) := by
  classical
  have e1 : i.2 z = i.2 (fun v => if v ∈ i.1 then z v else 0) := den_local hf fun v hv => by
    rw [if_pos ((hf.vars v).1 hv)]
  have e2 : i.2 (-z) = i.2 (-(fun v => if v ∈ i.1 then z v else 0)) := den_local hf fun v hv => by
    simp [(hf.vars v).1 hv]
  rw [e1, e2]
  by_cases h0 : (fun v => if v ∈ i.1 then z v else 0) = 0
  · rw [h0, neg_zero]
    refine ⟨by linarith, ?_⟩
    rintro ⟨v, hv, hz⟩
    have := congrFun h0 v
    rw [if_pos hv] at this
    exact absurd this hz
  · have := hp _ h0 fun v hv => if_neg hv
    exact ⟨this.le, fun _ => this⟩

theorem posOn_total {fs : List AnyG} {is : List Item} (h : List.Forall₂ Den fs is) (hp : ∀ i ∈ is, PosOn i.2 (· ∈ i.1)) :
    PosOn (total is) fun v => ∃ i ∈ is, v ∈ i.1 := by
  have key : ∀ z : Var → ℝ, total is z + total is (-z) ≤ 2 * total is 0 ∧
      ((∃ i ∈ is, ∃ v ∈ i.1, z v ≠ 0) → total is z + total is (-z) < 2 * total is 0) := by
    intro z
    induction h with
    | nil => simp [total]
    | @cons f i fs is h1 _ ih =>
      obtain ⟨a1, a2⟩ := concave_le h1 (hp i (List.mem_cons_self ..)) z
      obtain ⟨b1, b2⟩ := ih fun i hi => hp i (List.mem_cons_of_mem _ hi)
      have e : ∀ u, total (i :: is) u = i.2 u + total is u := fun u => by simp [total]
      rw [e, e, e]
      refine ⟨by linarith, ?_⟩
      rw [List.exists_mem_cons_iff]
      rintro (h | h)
      · linarith [a2 h]
      · linarith [b2 h]
  intro z hz hS
  obtain ⟨v, hv⟩ := Function.ne_iff.1 hz
  by_contra hcon
  refine hcon ((key z).2 ?_)
  by_contra hno
  refine hv (hS v ?_)
  rintro ⟨i, hi, hvi⟩
  exact hno ⟨i, hi, v, hvi, hv⟩

theorem forall₂_sublist {fs : List AnyG} {is g : List Item} (h : List.Forall₂ Den fs is) (hg : g.Sublist is) :
    ∃ fs', List.Forall₂ Den fs' g := by
  induction hg generalizing fs with
  | slnil => exact ⟨[], .nil⟩
  | cons i _ ih =>
    cases h with
    | cons h1 h2 => exact ih h2
  | cons_cons i _ ih =>
    cases h with
    | cons h1 h2 =>
      obtain ⟨fs', h3⟩ := ih h2
      exact ⟨_ :: fs', .cons h1 h3⟩

/-- **C65 for normalisable factors.** If every factor is strictly log concave in all of its variables, only
transitivity is needed. -/
theorem C65_proper (hs : HashSeed) {a : Fact} {is : List Item} (ha : IsFact a is) (hc : Covers a)
    (hP : ∀ i ∈ is, PosOn i.2 (· ∈ i.1))
    {vrs : List Var} (keep : Bool) (hsub : ∀ v ∈ vrs, v ∈ a.vars) (hkeep : ∃ v ∈ a.vars, (v ∈ vrs ↔ keep = true))
    {out : List Var} (hn : out.Nodup) (ho : ∀ v, v ∈ out ↔ v ∈ a.vars ∧ ¬ (v ∈ vrs ↔ keep = true))
    (hT : ∀ i ∈ is, ∀ j ∈ is, ∀ k ∈ is, Share out i j → Share out j k → Share out i k) :
    ∃ r M, marginalize hs a vrs keep = .ok r ∧ Yields r M (fun v => v ∈ a.vars ∧ (v ∈ vrs ↔ keep = true)) ∧
      ∀ x, IntegrableOut out (fun z => Real.exp (total is z)) x ∧
        integrateOut out (fun z => Real.exp (total is z)) x = Real.exp (M x) := by
  refine C65_marginalize_partial hs ha hc keep hsub hkeep hn ho hT ?_ fun g _ hg => .inr ?_
  · intro z hz hS
    refine posOn_total ha hP z hz fun v hv => hS v fun h => hv ?_
    exact (mem_scope ha v).1 ((hc v).1 ((ho v).1 h).1)
  · obtain ⟨fs', h⟩ := forall₂_sublist ha hg
    intro z hz hS
    refine posOn_total h (fun i hi => hP i (hg.subset hi)) z hz fun v hv => hS v fun h => hv ?_
    exact List.mem_flatMap.1 h

/-- **C65 for one dropped variable.** Dropping one variable from normalisable factors always gives the integral. -/
theorem C65_one_variable (hs : HashSeed) {a : Fact} {is : List Item} (ha : IsFact a is) (hc : Covers a)
    (hP : ∀ i ∈ is, PosOn i.2 (· ∈ i.1)) {v : Var} (hv : v ∈ a.vars) (hkeep : ∃ w ∈ a.vars, w ≠ v) :
    ∃ r M, marginalize hs a [v] false = .ok r ∧ Yields r M (fun w => w ∈ a.vars ∧ w ≠ v) ∧
      ∀ x, IntegrableOut [v] (fun z => Real.exp (total is z)) x ∧
        integrateOut [v] (fun z => Real.exp (total is z)) x = Real.exp (M x) := by
  have := C65_proper hs ha hc hP (vrs := [v]) false (by simpa using hv) (by simpa using hkeep) (out := [v]) (by simp)
    (by simp only [List.mem_singleton, Bool.false_eq_true, iff_false, not_not]; exact fun w => ⟨fun h => ⟨h ▸ hv, h⟩, And.right⟩)
    (by
      rintro i - j - k - ⟨u, hu, q1, q2⟩ ⟨u', hu', q3, q4⟩
      rw [List.mem_singleton] at hu hu'
      subst hu hu'
      exact ⟨_, by simp, q1, q4⟩)
  simpa using this

/-- **C65.** Asking for a marginal without variables raises `Exception`. -/
theorem C65_raises (hs : HashSeed) {a : Fact} {vrs : List Var} (keep : Bool) (hsub : ∀ v ∈ vrs, v ∈ a.vars)
    (hno : ∀ f ∈ a.factors, ∀ v ∈ f.2.vars, ¬ (v ∈ a.vars ∧ (v ∈ vrs ↔ keep = true))) :
    marginalize hs a vrs keep = .error .exception := by
  have : (a.factors.any fun f => decide (∃ v ∈ Sparse.marginalVars hs a.vars vrs keep, v ∈ f.2.vars)) = false := by
    rw [List.any_eq_false]
    intro f hf
    rw [decide_eq_true_eq]
    rintro ⟨v, h1, h2⟩
    exact hno f hf v h2 ((Sparse.mem_marginalVars hsub).1 h1)
  unfold marginalize
  dsimp only [bind, Except.bind]
  rw [this]
  rfl

end Verif.Fact
