import Verif.FactProps3

/-!
# Comparison of a factorised factor with a Gaussian (C67)
-/

namespace Verif.Fact
open Gauss

/-- **C67, comparison with a Gaussian.** The answer `true` means that the scopes are the same and that the joint (for
one factor, the factor) agrees within tolerance with a copy of the Gaussian. A product of one factor that denotes the
same function of the same variables is found equal. The product is not changed. -/
theorem C67_gaussian (hs : HashSeed) {a a' : Fact} {is : List Item} {g : AnyG} {j : Item} {r : Bool}
    (ha : IsFact a is) (hg : Den g j) (h : equalsG hs a g = .ok (a', r)) :
    (IsFact a' is ∧ a'.vars = a.vars) ∧
    (r = true → (∀ v, v ∈ a.vars ↔ v ∈ g.2.vars) ∧ ∃ k, Den k j ∧ k.2.vars = g.2.vars ∧
      ((∃ f, a.factors = [f] ∧ SameScope f k ∧ Agree f k) ∨
        a.factors.length ≠ 1 ∧ ∃ a₁ p, a.joint = .ok (a₁, p) ∧ SameScope p k ∧ Agree p k)) ∧
    (is = [j] → (∀ v, v ∈ a.vars ↔ v ∈ g.2.vars) → r = true) := by
  unfold equalsG at h
  obtain ⟨b, hb, h⟩ := py_bind_eq_ok.1 h
  obtain ⟨⟨a₂, b₂, r₂⟩, he, h⟩ := py_bind_eq_ok.1 h
  cases h
  unfold make at hb
  obtain ⟨ks, hks, hb⟩ := py_bind_eq_ok.1 hb
  cases hb
  obtain ⟨k, hk, dk, ek⟩ := copyG_den hg
  have e1 : ks = [k] := by
    have : List.mapM Mix.copyG [g] = .ok [k] := by
      simp only [List.mapM_cons, List.mapM_nil, hk, bind, Except.bind, pure, Except.pure]
    rw [this] at hks
    cases hks
    rfl
  subst e1
  have fb : IsFact (⟨hs.strs.toList ([g].flatMap fun g => g.2.vars), [k]⟩ : Fact) [j] := .cons dk .nil
  have hvb : ∀ v, v ∈ hs.strs.toList ([g].flatMap fun g => g.2.vars) ↔ v ∈ g.2.vars := by
    intro v
    rw [SetOrder.mem]
    simp
  have hd : Distinct [k] := List.pairwise_singleton _ _
  obtain ⟨⟨ha', -⟩, c2, c3, c4, c5⟩ := C67_equals_partial ha fb he
  dsimp only at c2 c3 c4 c5
  refine ⟨ha', ?_, ?_⟩
  · intro hr
    have hsame : ∀ v, v ∈ a.vars ↔ v ∈ g.2.vars := fun v => (c2 hr v).trans (hvb v)
    refine ⟨hsame, ?_⟩
    by_cases hlen : a.factors.length = 1
    · obtain ⟨f, hf⟩ := List.length_eq_one_iff.1 hlen
      have hda : Distinct a.factors := by rw [hf]; exact List.pairwise_singleton _ _
      obtain ⟨g', hg', s1, s2⟩ := ((c4 hlen hda hd).1 hr).1 f (by simp [hf])
      have : g' = k := by simpa using hg'
      subst this
      exact ⟨g', dk, ek, .inl ⟨f, hf, s1, s2⟩⟩
    · obtain ⟨a₁, b₁, p, q, j1, j2, s1, s2⟩ := c3 hlen hr
      obtain ⟨k', hk', dk', ek'⟩ := copyG_den dk
      have : q = k' := by
        unfold joint at j2
        dsimp only [jointLoop] at j2
        rw [hk'] at j2
        cases j2
        rfl
      subst this
      exact ⟨q, dk', ek'.trans ek, .inr ⟨hlen, a₁, p, j1, s1, s2⟩⟩
  · intro his hsame
    have hlen : a.factors.length = 1 := by
      have := List.Forall₂.length_eq ha
      rw [this, his]
      rfl
    exact c5 hlen hd (fun v => (hsame v).trans (hvb v).symm) his

/-- The hypotheses can be met, and then the answer is `true`. -/
example : ∃ (a : Fact) (a' : Fact) (j : Item) (g : AnyG), IsFact a [j] ∧ Den g j ∧
    equalsG HashSeed.example a g = .ok (a', true) := by
  have hi : IsFact (⟨["d"], [⟨1, unit "d" 0⟩]⟩ : Fact) [_] := .cons (unit_den "d" 0) .nil
  obtain ⟨k, hk, dk, ek⟩ := copyG_den (unit_den "d" 0)
  have hr : Readable k.2 := by
    unfold Mix.copyG at hk
    obtain ⟨k', h1, h2⟩ := py_bind_eq_ok.1 hk
    cases h2
    cases h1
    exact unit_readable "d" 0
  have hmk : make HashSeed.example [⟨1, unit "d" 0⟩] = .ok ⟨HashSeed.example.strs.toList ["d"], [k]⟩ := by
    unfold make
    simp only [List.mapM_cons, List.mapM_nil, hk, bind, Except.bind, pure, Except.pure]
    rfl
  have hi2 : IsFact (⟨HashSeed.example.strs.toList ["d"], [k]⟩ : Fact) [_] := .cons dk .nil
  obtain ⟨a', b', r, e⟩ := (C67_answers hi hi2).1 (fun v => by rw [SetOrder.mem]) rfl (by
    intro f hf g hg _
    have e1 : f = ⟨1, unit "d" 0⟩ := by simpa using hf
    have e2 : g = k := by simpa using hg
    subst e1 e2
    exact .inr ⟨unit_readable "d" 0, hr⟩)
  have hq : equalsG HashSeed.example ⟨["d"], [⟨1, unit "d" 0⟩]⟩ ⟨1, unit "d" 0⟩ = .ok (a', r) := by
    unfold equalsG
    rw [hmk]
    dsimp only [bind, Except.bind]
    rw [e]
  have := (C67_gaussian _ hi (unit_den "d" 0) hq).2.2 rfl (fun v => by simp [unit])
  subst this
  exact ⟨_, a', _, _, hi, unit_den "d" 0, hq⟩

end Verif.Fact
