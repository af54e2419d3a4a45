import Verif.FactProps2

/-!
# Properties of factorised factors (C67)
-/

namespace Verif.Fact
open Matrix Gauss Spec MeasureTheory

/-- The same set of variables. -/
def SameScope (f g : AnyG) : Prop := ∀ v, v ∈ f.2.vars ↔ v ∈ g.2.vars

/-- Another state of the listed objects. -/
def SameAll (fs fs' : List AnyG) (is : List Item) : Prop :=
  List.Forall₂ Den fs' is ∧ List.Forall₂ (fun f f' => f'.2.vac = f.2.vac) fs fs'

theorem SameAll.get {fs fs' : List AnyG} {is : List Item} (h : SameAll fs fs' is) {k : ℕ} (hk : k < fs.length) :
    ∃ (hk' : k < fs'.length) (hi : k < is.length), Same fs[k] fs'[k] is[k] := by
  have h2 := h.2
  have hl := h2.length_eq
  obtain ⟨hi, hd⟩ := den_get h.1 (k := k) (by omega)
  exact ⟨by omega, hi, hd, (List.forall₂_iff_get.1 h2).2 k hk (by omega)⟩

theorem SameAll.refl {fs : List AnyG} {is : List Item} (h : List.Forall₂ Den fs is) : SameAll fs fs is :=
  ⟨h, List.forall₂_same.2 fun _ _ => rfl⟩

theorem SameAll.trans {fs fs' fs'' : List AnyG} {is : List Item} (h : SameAll fs fs' is) (h' : SameAll fs' fs'' is) :
    SameAll fs fs'' is := by
  refine ⟨h'.1, ?_⟩
  refine List.forall₂_iff_get.2 ⟨h.2.length_eq.trans h'.2.length_eq, fun k h1 h2 => ?_⟩
  have e1 := h.2.length_eq
  exact ((List.forall₂_iff_get.1 h'.2).2 k (by omega) h2).trans ((List.forall₂_iff_get.1 h.2).2 k h1 (by omega))

theorem countRow_den {gs : List AnyG} {js : List Item} (hg : List.Forall₂ Den gs js) {f f' : AnyG} {i : Item} (hf : Den f i)
    {gs' : List AnyG} {c : ℕ} (h : countRow f gs = .ok (f', gs', c)) :
    Same f f' i ∧ SameAll gs gs' js ∧ (f.2.can.isSome → f'.2.can.isSome) ∧
      ∃ bs, List.Forall₂ (Verdict f) gs bs ∧ c = bs.count true := by
  induction hg generalizing f f' gs' c with
  | nil =>
    rw [countRow] at h
    cases h
    exact ⟨.refl hf, ⟨.nil, .nil⟩, id, [], .nil, rfl⟩
  | @cons g j gs js h1 h2 ih =>
    rw [countRow] at h
    obtain ⟨⟨f1, g1, b⟩, e1, h⟩ := py_bind_eq_ok.1 h
    obtain ⟨⟨f2, gs2, c2⟩, e2, h⟩ := py_bind_eq_ok.1 h
    cases h
    obtain ⟨s1, s2, v1⟩ := equals_den hf h1 e1
    obtain ⟨t1, t2, t4, bs, t3, rfl⟩ := ih s1.den e2
    refine ⟨s1.trans t1, ⟨.cons s2.den t2.1, .cons s2.vac t2.2⟩, fun hc => t4 (equals_can e1 hc), b :: bs, .cons v1 ?_, ?_⟩
    · refine List.forall₂_iff_get.2 ⟨t3.length_eq, fun k k1 k2 => ?_⟩
      obtain ⟨_, hd⟩ := den_get h2 k1
      exact Same.verdict s1.den hd (s1.symm hf) (.refl hd) ((List.forall₂_iff_get.1 t3).2 k k1 k2)
    · cases b <;> simp [List.count_cons, add_comm]

theorem countAll_den {fs gs : List AnyG} {is js : List Item} (hf : List.Forall₂ Den fs is) (hg : List.Forall₂ Den gs js)
    {fs' gs' : List AnyG} {c : ℕ} (h : countAll fs gs = .ok (fs', gs', c)) :
    SameAll fs fs' is ∧ SameAll gs gs' js ∧
      ∃ bss : List (List Bool), List.Forall₂ (fun f bs => List.Forall₂ (Verdict f) gs bs) fs bss ∧
        c = (bss.map (List.count true)).sum := by
  induction hf generalizing gs fs' gs' c with
  | nil =>
    rw [countAll] at h
    cases h
    exact ⟨⟨.nil, .nil⟩, .refl hg, [], .nil, rfl⟩
  | @cons f i fs is h1 h2 ih =>
    rw [countAll] at h
    obtain ⟨⟨f1, gs1, c1⟩, e1, h⟩ := py_bind_eq_ok.1 h
    obtain ⟨⟨fs2, gs2, c2⟩, e2, h⟩ := py_bind_eq_ok.1 h
    cases h
    obtain ⟨s1, s2, -, bs, s3, rfl⟩ := countRow_den hg h1 e1
    obtain ⟨t1, t2, bss, t3, rfl⟩ := ih s2.1 e2
    refine ⟨⟨.cons s1.den t1.1, .cons s1.vac t1.2⟩, s2.trans t2, bs :: bss, .cons s3 ?_, by simp⟩
    refine List.forall₂_iff_get.2 ⟨t3.length_eq, fun k k1 k2 => ?_⟩
    have := (List.forall₂_iff_get.1 t3).2 k k1 k2
    obtain ⟨_, hd⟩ := den_get h2 k1
    refine List.forall₂_iff_get.2 ⟨s2.2.length_eq.trans this.length_eq, fun l l1 l2 => ?_⟩
    obtain ⟨l3, l4, sl⟩ := s2.get l1
    obtain ⟨_, hl⟩ := den_get hg l1
    exact Same.verdict hd sl.den (.refl hd) (sl.symm hl) ((List.forall₂_iff_get.1 this).2 l l3 l2)

theorem countAll_total {fs gs : List AnyG} {is js : List Item} (hf : List.Forall₂ Den fs is) (hg : List.Forall₂ Den gs js)
    (hc : ∀ f ∈ fs, ∀ g ∈ gs, CanCompare f g) : ∃ fs' gs' c, countAll fs gs = .ok (fs', gs', c) := by
  have row : ∀ {gs : List AnyG} {js : List Item}, List.Forall₂ Den gs js → ∀ {f : AnyG} {i : Item}, Den f i →
      (∀ g ∈ gs, CanCompare f g) → ∃ f' gs' c, countRow f gs = .ok (f', gs', c) := by
    intro gs js hg
    induction hg with
    | nil => exact fun _ _ => ⟨_, _, _, rfl⟩
    | @cons g j gs js h1 h2 ih =>
      intro f i hf hc
      obtain ⟨f1, g1, b, e1, s1, s2, -, hcan⟩ := equals_ok hf h1 (hc g (List.mem_cons_self ..))
      obtain ⟨f2, gs2, c2, e2⟩ := ih s1.den fun g' hg' => by
        obtain ⟨k, hk, rfl⟩ := List.mem_iff_getElem.1 hg'
        obtain ⟨_, hd⟩ := den_get h2 hk
        exact CanCompare.same hf hd s1 (.refl hd) hcan (hc _ (List.mem_cons_of_mem _ hg'))
      refine ⟨f2, ⟨_, g1⟩ :: gs2, (if b then 1 else 0) + c2, ?_⟩
      rw [countRow, e1]
      dsimp only [bind, Except.bind]
      rw [e2]
  induction hf generalizing gs with
  | nil => exact ⟨_, _, _, rfl⟩
  | @cons f i fs is h1 h2 ih =>
    obtain ⟨f1, gs1, c1, e1⟩ := row hg h1 fun g hg' => hc f (List.mem_cons_self ..) g hg'
    obtain ⟨-, s2, -, -⟩ := countRow_den hg h1 e1
    obtain ⟨fs2, gs2, c2, e2⟩ := ih s2.1 fun f' hf' g' hg' => by
      obtain ⟨k, hk, rfl⟩ := List.mem_iff_getElem.1 hf'
      obtain ⟨_, hd⟩ := den_get h2 hk
      obtain ⟨l, hl, rfl⟩ := List.mem_iff_getElem.1 hg'
      have hl' : l < gs.length := s2.2.length_eq ▸ hl
      obtain ⟨_, _, sl⟩ := s2.get hl'
      obtain ⟨_, hd'⟩ := den_get hg hl'
      exact CanCompare.same hd hd' (.refl hd) sl id (hc _ (List.mem_cons_of_mem _ hf') _ (List.getElem_mem hl'))
    refine ⟨f1 :: fs2, gs2, c1 + c2, ?_⟩
    rw [countAll, e1]
    dsimp only [bind, Except.bind]
    rw [e2]

/-- No two of the factors have the same scope. -/
def Distinct (fs : List AnyG) : Prop := fs.Pairwise fun f g => ¬ SameScope f g

theorem Distinct.index {fs : List AnyG} (h : Distinct fs) {k l : ℕ} (hk : k < fs.length) (hl : l < fs.length)
    (hs : SameScope fs[k] fs[l]) : k = l := by
  rcases Nat.lt_trichotomy k l with hlt | heq | hgt
  · exact absurd hs (List.pairwise_iff_getElem.1 h k l hk hl hlt)
  · exact heq
  · exact absurd (fun v => (hs v).symm) (List.pairwise_iff_getElem.1 h l k hl hk hgt)

theorem count_le_one {f : AnyG} {gs : List AnyG} (hd : Distinct gs) {bs : List Bool} (h : List.Forall₂ (Verdict f) gs bs) :
    bs.count true ≤ 1 := by
  induction h with
  | nil => simp
  | @cons g b gs bs h1 h2 ih =>
    obtain ⟨d1, d2⟩ := List.pairwise_cons.1 hd
    cases b with
    | false => simpa using ih d2
    | true =>
      have : bs.count true = 0 := by
        rw [List.count_eq_zero]
        intro hm
        obtain ⟨k, hk, hb⟩ := List.mem_iff_getElem.1 hm
        have hk' : k < gs.length := h2.length_eq ▸ hk
        have := (List.forall₂_iff_get.1 h2).2 k hk' hk
        have s1 := (h1.sound rfl).1
        have s2 := (this.sound (by simpa using hb)).1
        refine d1 gs[k] (List.getElem_mem hk') fun v => ?_
        exact (s1 v).symm.trans (s2 v)
      simp [this]

theorem sum_ones {l : List ℕ} (h : ∀ c ∈ l, c ≤ 1) : l.sum ≤ l.length ∧ (l.sum = l.length ↔ ∀ c ∈ l, c = 1) := by
  induction l with
  | nil => simp
  | cons c l ih =>
    obtain ⟨h1, h2⟩ := ih fun c hc => h c (List.mem_cons_of_mem _ hc)
    have := h c (List.mem_cons_self ..)
    simp only [List.sum_cons, List.length_cons, List.forall_mem_cons, ← h2]
    omega

/-- **C67 (part that holds).** Whenever `equals` answers for two factorised factors, both keep their factors, and a
true answer says that they list the same variables. If the number of factors is different, a true answer says that
the joint distributions agree up to the tolerances (see `Agree`). If it is the same, and in each operand no two
factors have the same scope, a true answer says that the factors agree one by one with the factors of the same scope;
the answer is true if they do so in both forms, in particular if the operands have the same factors. What is missing
for the full claim: operands in which two factors have the same scope, see `C67_repeated_scope`. -/
theorem C67_equals_partial {a b a' b' : Fact} {is js : List Item} {r : Bool} (ha : IsFact a is) (hb : IsFact b js)
    (h : equals a b = .ok (a', b', r)) :
    ((IsFact a' is ∧ a'.vars = a.vars) ∧ (IsFact b' js ∧ b'.vars = b.vars)) ∧
    (r = true → ∀ v, v ∈ a.vars ↔ v ∈ b.vars) ∧
    (a.factors.length ≠ b.factors.length → r = true →
      ∃ a₁ b₁ p q, a.joint = .ok (a₁, p) ∧ b.joint = .ok (b₁, q) ∧ SameScope p q ∧ Agree p q) ∧
    (a.factors.length = b.factors.length → Distinct a.factors → Distinct b.factors →
      (r = true → (∀ f ∈ a.factors, ∃ g ∈ b.factors, SameScope f g ∧ Agree f g) ∧
        ∀ g ∈ b.factors, ∃ f ∈ a.factors, SameScope f g ∧ Agree f g) ∧
      ((∀ v, v ∈ a.vars ↔ v ∈ b.vars) → (∀ f ∈ a.factors, ∃ g ∈ b.factors, SameScope f g ∧ Mix.NearBoth f g) →
        r = true)) ∧
    (a.factors.length = b.factors.length → Distinct b.factors → (∀ v, v ∈ a.vars ↔ v ∈ b.vars) → is = js → r = true) := by
  unfold equals at h
  split at h
  · rename_i hset
    cases h
    have hset' : ¬ ∀ v, v ∈ a.vars ↔ v ∈ b.vars := fun hh => hset (sameSet_iff.2 fun v => (hh v).symm)
    exact ⟨⟨⟨ha, rfl⟩, hb, rfl⟩, by simp, fun _ h => by simp at h, fun _ _ _ => ⟨by simp, fun hh => absurd hh hset'⟩,
      fun _ _ hh => absurd hh hset'⟩
  · rename_i hset
    have hset := sameSet_iff.1 (not_not.1 hset)
    split at h
    · rename_i hlen
      obtain ⟨⟨a1, p⟩, e1, h⟩ := py_bind_eq_ok.1 h
      obtain ⟨⟨b1, q⟩, e2, h⟩ := py_bind_eq_ok.1 h
      obtain ⟨⟨p1, q1, r1⟩, e3, h⟩ := py_bind_eq_ok.1 h
      cases h
      have hne : a.factors ≠ [] := by
        intro h0
        unfold joint at e1
        rw [h0] at e1
        cases e1
      have hne' : b.factors ≠ [] := by
        intro h0
        unfold joint at e2
        rw [h0] at e2
        cases e2
      obtain ⟨_, _, j1, k1, k2, dp⟩ := joint_den ha hne
      obtain ⟨_, _, j2, l1, l2, dq⟩ := joint_den hb hne'
      rw [e1] at j1
      cases j1
      rw [e2] at j2
      cases j2
      obtain ⟨-, -, hv⟩ := equals_den dp dq e3
      exact ⟨⟨⟨k1, k2⟩, l1, l2⟩, fun _ v => (hset v).symm, fun _ hr => ⟨_, _, _, _, e1, e2, hv.sound hr⟩,
        fun hh => absurd hh hlen, fun hh => absurd hh hlen⟩
    · rename_i hlen
      rw [not_not] at hlen
      obtain ⟨⟨fs, gs, c⟩, e1, h⟩ := py_bind_eq_ok.1 h
      cases h
      obtain ⟨s1, s2, bss, hb1, rfl⟩ := countAll_den ha hb e1
      have hbl : bss.length = a.factors.length := hb1.length_eq.symm
      have hmap : (bss.map (List.count true)).length = a.factors.length := by rw [List.length_map, hbl]
      have hcount : Distinct b.factors → ((bss.map (List.count true)).sum = a.factors.length ↔
          ∀ bs ∈ bss, bs.count true = 1) := by
        intro hd
        have := (sum_ones (l := bss.map (List.count true)) fun c hc => by
          obtain ⟨bs, hbs, rfl⟩ := List.mem_map.1 hc
          obtain ⟨k, hk, rfl⟩ := List.mem_iff_getElem.1 hbs
          exact count_le_one hd ((List.forall₂_iff_get.1 hb1).2 k (by omega) hk)).2
        rw [hmap] at this
        rw [this]
        simp
      have hcomplete : Distinct b.factors → (∀ f ∈ a.factors, ∃ g ∈ b.factors, SameScope f g ∧ Mix.NearBoth f g) →
          (bss.map (List.count true)).sum = a.factors.length := by
        intro hd hm
        rw [hcount hd]
        intro bs hbs
        obtain ⟨k, hk, rfl⟩ := List.mem_iff_getElem.1 hbs
        have hv := (List.forall₂_iff_get.1 hb1).2 k (by omega) hk
        obtain ⟨g, hg, hs, h1, h2⟩ := hm _ (List.getElem_mem (show k < a.factors.length by omega))
        obtain ⟨l, hl, rfl⟩ := List.mem_iff_getElem.1 hg
        have hll := hv.length_eq
        have hb2 := ((List.forall₂_iff_get.1 hv).2 l hl (by omega)).complete hs h1 h2
        have h0 : 0 < (bss.get ⟨k, hk⟩).count true := by
          rw [List.count_pos_iff, ← hb2]
          exact List.get_mem ..
        have h1 := count_le_one hd hv
        exact le_antisymm h1 h0
      refine ⟨⟨⟨s1.1, rfl⟩, s2.1, rfl⟩, fun _ v => (hset v).symm, fun hh => absurd hlen hh, fun _ d1 d2 => ⟨fun hr => ?_,
        fun _ hm => decide_eq_true (hcomplete d2 hm)⟩, fun _ d2 _ hij => decide_eq_true (hcomplete d2 fun f hf => ?_)⟩
      · have hone := (hcount d2).1 (of_decide_eq_true hr)
        have hrow : ∀ k : Fin a.factors.length, ∃ l : Fin a.factors.length,
            SameScope a.factors[k] (b.factors[l.1]'(hlen ▸ l.2)) ∧ Agree a.factors[k] (b.factors[l.1]'(hlen ▸ l.2)) := by
          intro k
          have hk : k.1 < bss.length := by omega
          have hv := (List.forall₂_iff_get.1 hb1).2 k.1 k.2 hk
          have h1 := hone _ (List.getElem_mem hk)
          have hmem : true ∈ bss[k.1] := List.count_pos_iff.1 (by omega)
          obtain ⟨l, hl, hb2⟩ := List.mem_iff_getElem.1 hmem
          have hll := hv.length_eq
          have hll' : bss[k.1].length = (bss.get ⟨k.1, hk⟩).length := rfl
          have := ((List.forall₂_iff_get.1 hv).2 l (by omega) hl).sound (by simpa using hb2)
          exact ⟨⟨l, by omega⟩, this.1, this.2⟩
        choose σ hσ using hrow
        have hinj : Function.Injective σ := by
          intro k l hkl
          have h1 := (hσ k).1
          have h2 := (hσ l).1
          rw [hkl] at h1
          exact Fin.ext (d1.index k.2 l.2 fun v => (h1 v).trans (h2 v).symm)
        have hsurj := Finite.surjective_of_injective hinj
        constructor
        · intro f hf
          obtain ⟨k, hk, rfl⟩ := List.mem_iff_getElem.1 hf
          exact ⟨_, List.getElem_mem _, hσ ⟨k, hk⟩⟩
        · intro g hg
          obtain ⟨l, hl, rfl⟩ := List.mem_iff_getElem.1 hg
          obtain ⟨k, hk⟩ := hsurj ⟨l, hlen ▸ hl⟩
          have := hσ k
          rw [hk] at this
          exact ⟨_, List.getElem_mem k.2, this⟩
      · subst hij
        obtain ⟨k, hk, rfl⟩ := List.mem_iff_getElem.1 hf
        obtain ⟨_, hd⟩ := den_get ha hk
        obtain ⟨_, hd'⟩ := den_get hb (hlen ▸ hk)
        exact ⟨_, List.getElem_mem (hlen ▸ hk), fun v => by rw [hd.vars, hd'.vars], near_same hd hd'⟩

/-- **C67.** `equals` answers for two factorised factors that list the same variables and have the same number of
factors if every two factors of the same scope can be compared; it answers false if they list different variables. -/
theorem C67_answers {a b : Fact} {is js : List Item} (ha : IsFact a is) (hb : IsFact b js) :
    ((∀ v, v ∈ a.vars ↔ v ∈ b.vars) → a.factors.length = b.factors.length →
      (∀ f ∈ a.factors, ∀ g ∈ b.factors, SameScope f g → f.2.can.isSome ∨ Readable f.2 ∧ Readable g.2) →
      ∃ a' b' r, equals a b = .ok (a', b', r)) ∧
    ((¬ ∀ v, v ∈ a.vars ↔ v ∈ b.vars) → equals a b = .ok (a, b, false)) := by
  constructor
  · intro hset hlen hc
    obtain ⟨fs', gs', c, e⟩ := countAll_total ha hb hc
    refine ⟨{ a with factors := fs' }, { b with factors := gs' }, decide (c = a.factors.length), ?_⟩
    unfold equals
    rw [if_neg (by rw [not_not]; exact sameSet_iff.2 fun v => (hset v).symm), if_neg (by rw [not_not]; exact hlen), e]
    rfl
  · intro hset
    unfold equals
    rw [if_pos fun hh => hset fun v => (sameSet_iff.1 hh v).symm]

/-- The hypotheses of `C67_equals_partial` and `C67_answers` can be met. -/
example : (∃ is, IsFact exF is) ∧ Distinct exF.factors ∧ (∀ f ∈ exF.factors, ∀ g ∈ exF.factors, SameScope f g →
    f.2.can.isSome ∨ Readable f.2 ∧ Readable g.2) ∧ ∃ a' b', equals exF exF = .ok (a', b', true) := by
  have h2 : Distinct exF.factors := by
    unfold Distinct exF
    simp only [List.pairwise_cons, List.not_mem_nil, IsEmpty.forall_iff, implies_true, List.Pairwise.nil, and_true,
      List.mem_singleton, forall_eq]
    intro h
    have := (h "a").1 (by simp [gA, exA])
    simp [gB, exB] at this
  have h3 : ∀ f ∈ exF.factors, ∀ g ∈ exF.factors, SameScope f g → f.2.can.isSome ∨ Readable f.2 ∧ Readable g.2 := by
    intro f hf g hg hs
    simp only [exF, List.mem_cons, List.not_mem_nil, or_false] at hf hg
    rcases hf with rfl | rfl
    · rcases hg with rfl | rfl
      · exact .inr ⟨exA_readable, exA_readable⟩
      · have := (hs "a").1 (by simp [gA, exA])
        simp [gB, exB] at this
    · exact .inl (by simp [gB, exB])
  obtain ⟨a', b', r, h4⟩ := (C67_answers exF_isFact exF_isFact).1 (fun _ => Iff.rfl) rfl h3
  have := (C67_equals_partial exF_isFact exF_isFact h4).2.2.2.2 rfl h2 (fun _ => Iff.rfl) rfl
  subst this
  exact ⟨⟨_, exF_isFact⟩, h2, h3, _, _, h4⟩

theorem unit_readable (v : Var) (m : ℝ) : Readable (unit v m) := ⟨_, rfl⟩

theorem unit_verdict_true {v : Var} {m : ℝ} {b : Bool} (h : Verdict ⟨1, unit v m⟩ ⟨1, unit v m⟩ b) : b = true :=
  h.complete (fun _ => Iff.rfl) (near_refl (unit_good v m)).1 (near_refl (unit_good v m)).2

theorem unit_verdict_false {v : Var} {b : Bool} (h : Verdict ⟨1, unit v 1⟩ ⟨1, unit v 0⟩ b) : b = false := by
  cases b with
  | false => rfl
  | true =>
    obtain ⟨-, h1⟩ := h.sound rfl
    have h0 : ([v] : List Var)[(0 : Fin 1).1]? = [v][(0 : Fin 1).1]? := rfl
    rcases h1 with ⟨h1, -⟩ | h1 | ⟨-, -, h1⟩
    · rcases h1 with h1 | ⟨a, c, h1, h2, h3⟩
      · simp [unit] at h1
      · obtain ⟨-, -, rfl⟩ := getCan_inv (unit_good v 1).inv h1
        refine absurd ?_ h3
        have : (canOf (unit v 1)).prec = 1 := by simp [canOf, unit, toCan]
        rw [this]
        exact PosDef.one
    · obtain ⟨x, y, c, d, h1, h2, -, h4, -⟩ := h1
      obtain ⟨-, -, rfl⟩ := getCan_inv (unit_good v 1).inv h1
      obtain ⟨-, -, rfl⟩ := getCan_inv (unit_good v 0).inv h2
      have := h4 0 0 h0
      unfold Close at this
      norm_num [canOf, unit, toCan] at this
    · have := (h1 _ _ _ _ (getCov_valid (unit_good v 1).toValid rfl ((readable_iff (unit_good v 1)).1 (unit_readable v 1)).2)
        (getCov_valid (unit_good v 0).toValid rfl ((readable_iff (unit_good v 0)).1 (unit_readable v 0)).2)).2.1 0 0 h0
      unfold Close at this
      have e1 : ∀ m, (toCov (canOf (unit v m))).mean = ![m] := by
        intro m
        have : canOf (unit v m) = toCan ⟨1, ![m], 0⟩ := rfl
        rw [this, toCov_toCan (by simp)]
      rw [e1, e1] at this
      norm_num at this

/-- The factorised factor of two normal distributions over `x` with variance one and means `m`, `k`. -/
def pair (m k : ℝ) : Fact := ⟨["x"], [⟨1, unit "x" m⟩, ⟨1, unit "x" k⟩]⟩

theorem pair_isFact (m k : ℝ) : IsFact (pair m k) [(["x"], logOf (unit "x" m) (unit_good "x" m).len),
    (["x"], logOf (unit "x" k) (unit_good "x" k).len)] := .cons (unit_den "x" m) (.cons (unit_den "x" k) .nil)

theorem pair_equals (m k m' k' : ℝ) : ∃ a' b' c, equals (pair m k) (pair m' k') = .ok (a', b', decide (c = 2)) ∧
    ∃ b₁ b₂ b₃ b₄, c = ([b₁, b₂].count true + [b₃, b₄].count true) ∧ Verdict ⟨1, unit "x" m⟩ ⟨1, unit "x" m'⟩ b₁ ∧
      Verdict ⟨1, unit "x" m⟩ ⟨1, unit "x" k'⟩ b₂ ∧ Verdict ⟨1, unit "x" k⟩ ⟨1, unit "x" m'⟩ b₃ ∧
      Verdict ⟨1, unit "x" k⟩ ⟨1, unit "x" k'⟩ b₄ := by
  obtain ⟨fs', gs', c, e⟩ := countAll_total (pair_isFact m k) (pair_isFact m' k') (by
    intro f hf g hg _
    simp only [pair, List.mem_cons, List.not_mem_nil, or_false] at hf hg
    rcases hf with rfl | rfl <;> rcases hg with rfl | rfl <;> exact .inr ⟨unit_readable _ _, unit_readable _ _⟩)
  obtain ⟨-, -, bss, h1, h2⟩ := countAll_den (pair_isFact m k) (pair_isFact m' k') e
  refine ⟨{ pair m k with factors := fs' }, { pair m' k' with factors := gs' }, c, ?_, ?_⟩
  · unfold equals
    rw [if_neg (by simp [pair, sameSet_iff]), if_neg (by simp [pair]), e]
    rfl
  · match bss, h1 with
    | [[b₁, b₂], [b₃, b₄]], .cons (.cons v1 (.cons v2 .nil)) (.cons (.cons v3 (.cons v4 .nil)) .nil) =>
      exact ⟨b₁, b₂, b₃, b₄, by rw [h2]; simp, v1, v2, v3, v4⟩

/-- **C67 (violation).** Factorised factors in which two factors have the same scope. A product of two normal
distributions of means 0 and 1 is found equal to the product with both means 0, which is a different function. The
latter is not found equal to itself. -/
theorem C67_repeated_scope :
    (∃ a' b', equals (pair 0 1) (pair 0 0) = .ok (a', b', true)) ∧
    (∃ L M, HasJoint (pair 0 1) L ∧ HasJoint (pair 0 0) M ∧ L (fun _ => 1) - L (fun _ => 0) = 0 ∧
      M (fun _ => 1) - M (fun _ => 0) = -1) ∧
    ∃ a' b', equals (pair 0 0) (pair 0 0) = .ok (a', b', false) := by
  have hval : ∀ m x, logOf (unit "x" m) (unit_good "x" m).len (fun _ => x) - logOf (unit "x" m) (unit_good "x" m).len
      (fun _ => 0) = m * x - x ^ 2 / 2 := by
    intro m x
    have hv : ∀ y : ℝ, vecAt ["x"] (unit_good "x" m).len (fun _ => y) = fun _ => y := fun y => rfl
    simp only [logOf, canOf, unit, toCan, evalCan]
    rw [hv, hv]
    simp [dotProduct]
    ring
  refine ⟨?_, ⟨_, _, (pair_isFact 0 1).joint (by simp [pair]), (pair_isFact 0 0).joint (by simp [pair]), ?_, ?_⟩, ?_⟩
  · obtain ⟨a', b', c, h, b₁, b₂, b₃, b₄, rfl, v1, v2, v3, v4⟩ := pair_equals 0 1 0 0
    rw [unit_verdict_true v1, unit_verdict_true v2, unit_verdict_false v3, unit_verdict_false v4] at h
    exact ⟨a', b', h⟩
  · have h1 := hval 0 1
    have h2 := hval 1 1
    simp only [total, List.map_cons, List.map_nil, List.sum_cons, List.sum_nil]
    linarith
  · have h1 := hval 0 1
    simp only [total, List.map_cons, List.map_nil, List.sum_cons, List.sum_nil]
    linarith
  · obtain ⟨a', b', c, h, b₁, b₂, b₃, b₄, rfl, v1, v2, v3, v4⟩ := pair_equals 0 0 0 0
    rw [unit_verdict_true v1, unit_verdict_true v2, unit_verdict_true v3, unit_verdict_true v4] at h
    exact ⟨a', b', h⟩

end Verif.Fact
