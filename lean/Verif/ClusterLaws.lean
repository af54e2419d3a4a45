import Verif.ClusterProps
import Verif.SpecLemmas
import Mathlib.Algebra.BigOperators.Group.List.Basic

/-!
# What a factor class must satisfy

The inference theorems hold for every factor class whose operations do what their names say. `Laws` is
that specification: every factor denotes a function of assignments, and the operations, whenever they
return, act on these functions. (Laws are conditional on the operation returning, so classes whose
operations can raise are covered.)
-/

namespace Verif.CG
open Spec (DependsOn override)
variable {F V G : Type}

/-- The operations act as specified on the functions `den f`. -/
structure Laws (ops : Ops F V G) (D : Type) where
  /-- The factors the class guarantees to handle. -/
  Ok : F → Prop
  /-- The function a factor stands for. -/
  den : F → (Var → D) → ℝ
  /-- The value of a piece of evidence. -/
  val : V → D
  nonneg : ∀ {f}, Ok f → ∀ x, 0 ≤ den f x
  dep : ∀ {f}, Ok f → DependsOn (den f) (ops.vars f)
  nodup : ∀ {f}, Ok f → (ops.vars f).Nodup
  mul : ∀ {f g r}, Ok f → Ok g → ops.multiply f g = .ok r →
    Ok r ∧ (∀ v, v ∈ ops.vars r ↔ v ∈ ops.vars f ∨ v ∈ ops.vars g) ∧ ∀ x, den r x = den f x * den g x
  cancel : ∀ {f g r}, Ok f → Ok g → (∀ v ∈ ops.vars g, v ∈ ops.vars f) →
    (∀ x, den g x = 0 → den f x = 0) → ops.cancel f g = .ok r →
    Ok r ∧ (∀ v, v ∈ ops.vars r ↔ v ∈ ops.vars f) ∧ ∀ x, den r x = den f x / den g x
  marg : ∀ {f vrs r}, Ok f → vrs.Nodup → (∀ v ∈ vrs, v ∈ ops.vars f) → ops.marginalize f vrs = .ok r →
    Ok r ∧ (∀ v, v ∈ ops.vars r ↔ v ∈ vrs) ∧
      ∀ x, den r x = 0 ↔ ∀ y, (∀ v ∈ vrs, y v = x v) → den f y = 0
  red : ∀ {f vs ks r}, Ok f → vs.Nodup → (∀ v ∈ vs, v ∈ ops.vars f) → ks.length = vs.length →
    ops.reduce f vs ks = .ok r →
    Ok r ∧ (∀ v, v ∈ ops.vars r ↔ v ∈ ops.vars f ∧ v ∉ vs) ∧
      ∀ x, den r x = den f (override (vs.zip (ks.map val)) x)

/-! ### C43 absorbing subset factors -/

/-- `r` is the product of `f` and the factors `l`, multiplied in this order, each with a scope strictly
inside the scope of the product so far. -/
inductive Absorbs (ops : Ops F V G) (f : F) : List F → F → Prop
  | nil : Absorbs ops f [] f
  | snoc {l : List F} {p g r : F} : Absorbs ops f l p →
      ((∀ v ∈ ops.vars g, v ∈ ops.vars p) ∧ ∃ v ∈ ops.vars p, v ∉ ops.vars g) →
      ops.multiply p g = .ok r → Absorbs ops f (l ++ [g]) r

/-- `f` is the product of the factors of the group, in order. -/
def IsProduct (ops : Ops F V G) (grp : List (F × Nat)) (f : F) : Prop :=
  ∃ e t, grp = e :: t ∧ Absorbs ops e.1 (t.map Prod.fst) f

theorem strictSubset_iff {a b : List Var} : strictSubset a b = true ↔ (∀ v ∈ a, v ∈ b) ∧ ∃ v ∈ b, v ∉ a := by
  unfold strictSubset
  simp

theorem productFrom_snoc {ops : Ops F V G} {f p r g : F} {l : List F} (h : productFrom ops f l = .ok p)
    (h2 : ops.multiply p g = .ok r) : productFrom ops f (l ++ [g]) = .ok r := by
  unfold productFrom at *
  rw [List.foldlM_append, h]
  show (List.foldlM ops.multiply p [g] : Py F) = _
  rw [List.foldlM_cons, h2]; rfl

/-- The state of the inner loop of `_absorb_subset_factors`. -/
def InnerInv (ops : Ops F V G) (factors : List F) (e : F × Nat) (mask : Nat → Bool)
    (s : F × (Nat → Bool)) : Prop :=
  ∃ t : List (F × Nat), Absorbs ops e.1 (t.map Prod.fst) s.1 ∧
    (∀ a ∈ t, a ∈ factors.zipIdx ∧ mask a.2 = false ∧ a.2 ≠ e.2) ∧
    (t.map Prod.snd).Nodup ∧
    ∀ k, s.2 k = true ↔ mask k = true ∨ (t ≠ [] ∧ (k = e.2 ∨ k ∈ t.map Prod.snd))

theorem absorbInner_inv {ops : Ops F V G} {factors : List F} {e : F × Nat} {mask : Nat → Bool}
    {s : F × (Nat → Bool)} (h : absorbInner ops factors e.2 e.1 mask = .ok s) :
    InnerInv ops factors e mask s := by
  unfold absorbInner at h
  refine foldlM_inv (fun _ s => InnerInv ops factors e mask s) ?_ ?_ h
  · exact ⟨[], .nil, by simp, by simp, by simp⟩
  · rintro l a l' s s' hL ⟨t, ht1, ht2, ht3, ht4⟩ hs
    split at hs
    · rename_i hc
      obtain ⟨hne, hmask, hsub⟩ := hc
      obtain ⟨p, hp, hs⟩ := py_bind_eq_ok.1 hs
      simp only [Except.ok.injEq] at hs
      subst hs
      have hm : ¬ (s.2 a.2 = true) := by simp [hmask]
      rw [ht4, not_or, not_and] at hm
      have hnot : a.2 ∉ t.map Prod.snd := by
        intro hin
        have hne' : t ≠ [] := by rintro rfl; simp at hin
        exact hm.2 hne' (Or.inr hin)
      refine ⟨t ++ [a], ?_, ?_, ?_, ?_⟩
      · rw [List.map_append]; exact .snoc ht1 (strictSubset_iff.1 hsub) hp
      · intro b hb
        simp only [List.mem_append, List.mem_singleton] at hb
        rcases hb with hb | rfl
        · exact ht2 b hb
        · exact ⟨by rw [hL]; simp, by simpa using hm.1, Ne.symm hne⟩
      · rw [List.map_append, List.nodup_append]
        refine ⟨ht3, by simp, ?_⟩
        intro x hx y hy
        simp only [List.map_cons, List.map_nil, List.mem_singleton] at hy
        rintro rfl
        exact hnot (hy ▸ hx)
      · intro k
        dsimp only
        by_cases hk1 : k = e.2
        · subst hk1; simp
        · rw [Function.update_of_ne hk1]
          by_cases hk2 : k = a.2
          · subst hk2; simp
          · rw [Function.update_of_ne hk2, ht4]
            simp only [hk1, false_or, ne_eq, List.append_eq_nil_iff, List.cons_ne_nil, and_false,
              not_false_eq_true, true_and, List.map_append, List.mem_append, List.map_cons,
              List.map_nil, List.mem_singleton, hk2, or_false]
            constructor
            · rintro (h | h)
              · exact Or.inl h
              · exact Or.inr h.2
            · rintro (h | h)
              · exact Or.inl h
              · refine Or.inr ⟨?_, h⟩
                rintro rfl; simp at h
    · simp only [Except.ok.injEq] at hs
      subst hs
      exact ⟨t, ht1, ht2, ht3, ht4⟩

/-- The state of the outer loops of `_absorb_subset_factors`: the factors built so far are products of
disjoint groups of input factors, and the mask marks the members of the groups. -/
structure GroupInv (ops : Ops F V G) (factors : List F) (s : List F × (Nat → Bool))
    (groups : List (List (F × Nat))) : Prop where
  prod : List.Forall₂ (IsProduct ops) groups s.1
  mem : ∀ a ∈ groups.flatten, a ∈ factors.zipIdx
  nodup : (groups.flatten.map Prod.snd).Nodup
  mask : ∀ k, s.2 k = true ↔ k ∈ groups.flatten.map Prod.snd

theorem GroupInv.add {ops : Ops F V G} {factors : List F} {s : List F × (Nat → Bool)}
    {groups : List (List (F × Nat))} (h : GroupInv ops factors s groups) {grp : List (F × Nat)} {f : F}
    {mask : Nat → Bool} (hp : IsProduct ops grp f) (hm : ∀ a ∈ grp, a ∈ factors.zipIdx ∧ s.2 a.2 = false)
    (hn : (grp.map Prod.snd).Nodup) (hk : ∀ k, mask k = true ↔ s.2 k = true ∨ k ∈ grp.map Prod.snd) :
    GroupInv ops factors (s.1 ++ [f], mask) (groups ++ [grp]) := by
  refine ⟨List.rel_append h.prod (List.Forall₂.cons hp List.Forall₂.nil), ?_, ?_, ?_⟩
  · intro a ha
    simp only [List.flatten_append, List.flatten_cons, List.flatten_nil, List.append_nil,
      List.mem_append] at ha
    rcases ha with ha | ha
    · exact h.mem a ha
    · exact (hm a ha).1
  · simp only [List.flatten_append, List.flatten_cons, List.flatten_nil, List.append_nil,
      List.map_append]
    rw [List.nodup_append]
    refine ⟨h.nodup, hn, ?_⟩
    intro x hx y hy
    rintro rfl
    obtain ⟨a, ha, rfl⟩ := List.mem_map.1 hy
    have := (hm a ha).2
    rw [(h.mask _).2 hx] at this
    cases this
  · intro k
    rw [hk, h.mask]
    simp

theorem absorb_groups {ops : Ops F V G} {factors r : List F} (h : absorb ops factors = .ok r) :
    ∃ groups : List (List (F × Nat)), groups.flatten.Perm factors.zipIdx ∧
      List.Forall₂ (IsProduct ops) groups r := by
  unfold absorb at h
  obtain ⟨s, h1, h⟩ := py_bind_eq_ok.1 h
  obtain ⟨_, h2, h⟩ := py_bind_eq_ok.1 h
  simp only [Except.ok.injEq] at h
  have hz : (factors.zipIdx.map Prod.snd).Nodup := by
    rw [List.zipIdx_map_snd]; exact List.nodup_range'
  have inv1 : ∃ groups, GroupInv ops factors s groups := by
    refine foldlM_inv (fun _ s => ∃ groups, GroupInv ops factors s groups) ?_ ?_ h1
    · exact ⟨[], List.Forall₂.nil, by simp, by simp, by simp⟩
    · rintro l e l' s s' hL ⟨groups, hg⟩ hs
      split at hs
      · rename_i hmask
        obtain ⟨t, ht, hs⟩ := py_bind_eq_ok.1 hs
        simp only [Except.ok.injEq] at hs
        obtain ⟨mem, hp, hm, hn, hk⟩ := absorbInner_inv ht
        have he : e ∈ factors.zipIdx := by rw [hL]; simp
        by_cases hmem : mem = []
        · subst hmem
          have : ∀ k, t.2 k = s.2 k := by
            intro k
            have := hk k
            simp only [ne_eq, not_true_eq_false, false_and, or_false] at this
            exact Bool.eq_iff_iff.2 this
          subst hs
          refine ⟨groups, ?_⟩
          rw [if_neg (by rw [this, hmask]; simp)]
          exact ⟨hg.prod, hg.mem, hg.nodup, fun k => by
            show t.2 k = true ↔ _
            rw [this]; exact hg.mask k⟩
        · subst hs
          have hte : t.2 e.2 = true := (hk _).2 (Or.inr ⟨hmem, Or.inl rfl⟩)
          rw [if_pos hte]
          refine ⟨groups ++ [e :: mem], hg.add ⟨e, mem, rfl, hp⟩ ?_ ?_ ?_⟩
          · intro a ha
            rcases List.mem_cons.1 ha with rfl | ha
            · exact ⟨he, hmask⟩
            · exact ⟨(hm a ha).1, (hm a ha).2.1⟩
          · rw [List.map_cons, List.nodup_cons]
            refine ⟨?_, hn⟩
            intro hin
            obtain ⟨a, ha, hae⟩ := List.mem_map.1 hin
            exact (hm a ha).2.2 hae
          · intro k
            rw [hk]
            simp [hmem]
      · simp only [Except.ok.injEq] at hs
        subst hs
        exact ⟨groups, hg⟩
  have inv2 : ∀ (l : List (F × Nat)) (s : List F × (Nat → Bool)), (∀ e ∈ l, e ∈ factors.zipIdx) →
      (∃ groups, GroupInv ops factors s groups) →
      ∃ groups, GroupInv ops factors (l.foldl (fun (s : List F × (Nat → Bool)) e =>
        if s.2 e.2 = false then (s.1 ++ [e.1], Function.update s.2 e.2 true) else s) s) groups := by
    intro l
    induction l with
    | nil => intro s _ h; exact h
    | cons e l ih =>
      rintro s hl ⟨groups, hg⟩
      rw [List.foldl_cons]
      refine ih _ (fun a ha => hl a (List.mem_cons_of_mem _ ha)) ?_
      split
      · rename_i hmask
        refine ⟨groups ++ [[e]], hg.add ⟨e, [], rfl, .nil⟩ ?_ (by simp) ?_⟩
        · intro a ha
          simp only [List.mem_singleton] at ha
          subst ha
          exact ⟨hl _ (by simp), hmask⟩
        · intro k
          by_cases hk : k = e.2
          · subst hk; simp
          · rw [Function.update_of_ne hk]; simp [hk]
      · exact ⟨groups, hg⟩
  obtain ⟨groups, hg⟩ := inv2 factors.zipIdx s (fun e he => he) inv1
  set u := factors.zipIdx.foldl (fun (s : List F × (Nat → Bool)) e =>
        if s.2 e.2 = false then (s.1 ++ [e.1], Function.update s.2 e.2 true) else s) s with hu
  rw [pyAssert_eq_ok, List.all_eq_true] at h2
  subst h
  refine ⟨groups, ?_, hg.prod⟩
  rw [List.perm_ext_iff_of_nodup (List.Nodup.of_map _ hg.nodup) (List.Nodup.of_map _ hz)]
  intro a
  refine ⟨hg.mem a, fun ha => ?_⟩
  have hlt : a.2 ∈ List.range factors.length := by
    have : a.2 ∈ factors.zipIdx.map Prod.snd := List.mem_map.2 ⟨a, ha, rfl⟩
    rw [List.zipIdx_map_snd] at this
    simpa [List.range_eq_range'] using this
  obtain ⟨b, hb, hba⟩ := List.mem_map.1 ((hg.mask _).1 (h2 _ hlt))
  have := List.inj_on_of_nodup_map hz (hg.mem b hb) ha hba
  exact this ▸ hb

theorem Absorbs.product {ops : Ops F V G} {f r : F} {l : List F} (h : Absorbs ops f l r) :
    CG.productFrom ops f l = .ok r := by
  induction h with
  | nil => rfl
  | snoc _ _ hm ih => exact productFrom_snoc ih hm

/-- **C43**, every factor is used exactly once: the cluster factors are products of groups of input
factors, and the groups partition the input (`zipIdx` pairs every input factor with its position). In
every group each factor after the first has a scope strictly inside that of the product so far. No
assumption on the factor class. -/
theorem C43_absorb_partitions (ops : Ops F V G) (factors r : List F) (h : absorb ops factors = .ok r) :
    ∃ groups : List (List (F × Nat)), groups.flatten.Perm factors.zipIdx ∧
      List.Forall₂ (fun grp f => ∃ e t, grp = e :: t ∧ Absorbs ops e.1 (t.map Prod.fst) f) groups r :=
  absorb_groups h

variable {D : Type} {ops : Ops F V G}

theorem Laws.productFrom (L : Laws ops D) {f r : F} {l : List F} (hf : L.Ok f) (hl : ∀ g ∈ l, L.Ok g)
    (h : productFrom ops f l = .ok r) :
    L.Ok r ∧ (∀ v, v ∈ ops.vars r ↔ v ∈ ops.vars f ∨ ∃ g ∈ l, v ∈ ops.vars g) ∧
      ∀ x, L.den r x = L.den f x * (l.map fun g => L.den g x).prod := by
  induction l generalizing f with
  | nil =>
    have : f = r := by simpa [CG.productFrom, pure, Except.pure] using h
    subst this
    exact ⟨hf, by simp, by simp⟩
  | cons g l ih =>
    unfold CG.productFrom at h
    rw [List.foldlM_cons] at h
    obtain ⟨p, hp, h⟩ := py_bind_eq_ok.1 h
    obtain ⟨h1, h2, h3⟩ := L.mul hf (hl g (by simp)) hp
    obtain ⟨h4, h5, h6⟩ := ih h1 (fun a ha => hl a (by simp [ha])) h
    refine ⟨h4, fun v => ?_, fun x => ?_⟩
    · rw [h5, h2]
      simp only [List.mem_cons, exists_eq_or_imp]
      tauto
    · rw [h6, h3]
      simp [mul_assoc]

theorem Laws.absorbs (L : Laws ops D) {f r : F} {l : List F} (hf : L.Ok f) (hl : ∀ g ∈ l, L.Ok g)
    (h : Absorbs ops f l r) : ∀ v, v ∈ ops.vars r ↔ v ∈ ops.vars f := by
  induction h with
  | nil => simp
  | @snoc l p g r hp hs hm ih =>
    have hl' : ∀ g ∈ l, L.Ok g := fun a ha => hl a (by simp [ha])
    have hop := (L.productFrom hf hl' hp.product).1
    intro v
    rw [(L.mul hop (hl g (by simp)) hm).2.1, ih hl']
    constructor
    · rintro (h | h)
      · exact h
      · exact (ih hl' v).1 (hs.1 v h)
    · exact Or.inl

/-- **C43.** For a lawful factor class, absorbing subset factors does not change the product at any
assignment, and every cluster scope is the scope of an input factor. -/
theorem C43_absorb_product (L : Laws ops D) (factors r : List F) (hok : ∀ f ∈ factors, L.Ok f)
    (h : absorb ops factors = .ok r) :
    (∀ f ∈ r, L.Ok f) ∧
    (∀ f ∈ r, ∃ f' ∈ factors, ∀ v, v ∈ ops.vars f ↔ v ∈ ops.vars f') ∧
    ∀ x, (r.map fun f => L.den f x).prod = (factors.map fun f => L.den f x).prod := by
  obtain ⟨groups, hperm, hprod⟩ := absorb_groups h
  have hmem : ∀ a ∈ groups.flatten, L.Ok a.1 := by
    intro a ha
    obtain ⟨f, k⟩ := a
    exact hok f (List.fst_mem_of_mem_zipIdx (hperm.mem_iff.1 ha))
  have key : ∀ (groups : List (List (F × Nat))) (r : List F), (∀ a ∈ groups.flatten, L.Ok a.1) →
      List.Forall₂ (IsProduct ops) groups r → (∀ f ∈ r, L.Ok f) ∧
      (∀ f ∈ r, ∃ a ∈ groups.flatten, ∀ v, v ∈ ops.vars f ↔ v ∈ ops.vars a.1) ∧
      ∀ x, (r.map fun f => L.den f x).prod = (groups.flatten.map fun a => L.den a.1 x).prod := by
    intro groups r hmem hprod
    induction hprod with
    | nil => simp
    | @cons grp f groups r hp _ ih =>
      obtain ⟨e, t, rfl, hp⟩ := hp
      simp only [List.flatten_cons, List.mem_append, List.mem_cons] at hmem
      obtain ⟨ih1, ih0, ih2⟩ := ih fun a ha => hmem a (Or.inr ha)
      have het : ∀ g ∈ t.map Prod.fst, L.Ok g := by
        intro g hg
        obtain ⟨a, ha, rfl⟩ := List.mem_map.1 hg
        exact hmem a (Or.inl (Or.inr ha))
      have hsc := L.absorbs (hmem e (Or.inl (Or.inl rfl))) het hp
      obtain ⟨h1, _, h3⟩ := L.productFrom (hmem e (Or.inl (Or.inl rfl))) het hp.product
      refine ⟨?_, ?_, fun x => ?_⟩
      · intro a ha
        rcases List.mem_cons.1 ha with rfl | ha
        · exact h1
        · exact ih1 a ha
      · intro a ha
        rcases List.mem_cons.1 ha with rfl | ha
        · exact ⟨e, by simp, hsc⟩
        · obtain ⟨b, hb, hv⟩ := ih0 a ha
          exact ⟨b, by rw [List.flatten_cons]; exact List.mem_append_right _ hb, hv⟩
      · simp only [List.map_cons, List.prod_cons, List.flatten_cons, List.map_append,
          List.prod_append, ih2, h3, List.map_map, Function.comp_def]
  obtain ⟨h1, h0, h2⟩ := key groups r hmem hprod
  refine ⟨h1, fun f hf => ?_, fun x => ?_⟩
  · obtain ⟨a, ha, hv⟩ := h0 f hf
    obtain ⟨f', k⟩ := a
    exact ⟨f', List.fst_mem_of_mem_zipIdx (hperm.mem_iff.1 ha), hv⟩
  rw [h2, (hperm.map _).prod_eq]
  have : factors.zipIdx.map (fun a => L.den a.1 x) = (factors.zipIdx.map Prod.fst).map fun f => L.den f x := by
    rw [List.map_map]; rfl
  rw [this, List.zipIdx_map_fst]

end Verif.CG
