import Verif.OperatorModel
import Verif.SparseProps2
import Verif.CatProps
import Verif.CatProps3
import Verif.FactProps6
import Verif.MixProps

/-!
# C127 operators and comparisons across classes, C128 messages
-/

namespace Verif.Opr
open Gauss
open Spec (Asg)

/-- **C127**, multiplication: `f * g` is the pointwise product (sparse factors). -/
theorem C127_mul_sparse (hs : HashSeed) (f g : Sparse ℝ) (hf : Sparse.Regular f) (hg : Sparse.Regular g)
    (hc : Sparse.Consistent f g) :
    ∃ r, mul (Sparse.multiply hs) f g = .ok r ∧ ∀ x, r.prob x = f.prob x * g.prob x := by
  obtain ⟨r, h, hx⟩ := Sparse.C01_multiply_prob hs f g hf hg hc
  exact ⟨r, by simpa [mul, slots] using h, hx⟩

/-- **C127**, multiplication: `f * g` is the pointwise product (dense factors). -/
theorem C127_mul_dense (f g : Cat ℝ) (hf : Cat.WF f) (hg : Cat.WF g) (hc : Cat.Consistent f g)
    (hn : Cat.SameNames f g) (pf : Cat.Proper f) (pg : Cat.Proper g) :
    ∃ r, mul Cat.multiply f g = .ok r ∧ ∀ x, f.InRange x → g.InRange x → r.prob x = f.prob x * g.prob x := by
  obtain ⟨r, h, hx⟩ := Cat.C15_multiply_prob f g hf hg hc hn pf pg
  exact ⟨r, by simpa [mul, slots] using h, hx⟩

/-- **C127**, multiplication: the log potential of `f * g` is the sum of those of `f` and `g` (Gaussian factors). -/
theorem C127_mul_gauss {n m : ℕ} {a : Gauss n} {b : Gauss m} {La Lb : (Var → ℝ) → ℝ} (ha : Gauss.Made a) (hb : Gauss.Made b)
    (da : Gauss.Denotes a La) (db : Gauss.Denotes b Lb) :
    ∃ r, mul gaussMultiply ⟨n, a⟩ ⟨m, b⟩ = .ok r ∧ Gauss.Denotes r.2 (fun x => La x + Lb x) ∧
      ∀ v, v ∈ r.2.vars ↔ v ∈ a.vars ∨ v ∈ b.vars := by
  obtain ⟨a', b', r, h, h1, h2, -⟩ := Gauss.C30_multiply ha hb da db
  refine ⟨⟨_, r⟩, ?_, h1, h2⟩
  unfold mul gaussMultiply
  rw [if_pos (by simp [slots])]
  dsimp only
  rw [h]
  rfl

/-- **C127**, multiplication: the potential of `f * g` is the product (Gaussian mixtures). -/
theorem C127_mul_mix {M N : Mix} {Ls Ks : List ((Var → ℝ) → ℝ)} (hM : Mix.IsMix M Ls) (hN : Mix.IsMix N Ks) :
    ∃ M' N' R, mul Mix.multiply M N = .ok (M', N', R) ∧ Mix.Pot R (fun x => Mix.mixFn Ls x * Mix.mixFn Ks x) ∧
      ∀ v, v ∈ R.vars ↔ v ∈ M.vars ∨ v ∈ N.vars := by
  obtain ⟨M', N', R, Rs, h, -, h1, h2, -⟩ := Mix.C56_multiply hM hN
  exact ⟨M', N', R, by simpa [mul, slots] using h, h1, h2⟩

/-- **C127**, multiplication: the joint distribution of `f * g` is the product (factorised factor by Gaussian factor). -/
theorem C127_mul_fact (hs : HashSeed) {a : Fact} {is : List Fact.Item} {g : AnyG} {j : Fact.Item} (ha : Fact.IsFact a is)
    (hg : Fact.Den g j) :
    ∃ g' r, mul (Fact.multiply hs) a g = .ok (g', r) ∧ Fact.HasJoint r (fun x => Fact.total is x + j.2 x) := by
  obtain ⟨g', r, js, h, -, -, h1, -⟩ := Fact.C63_multiply_partial hs ha hg
  exact ⟨g', r, by simpa [mul, slots] using h, h1⟩

/-- The hypotheses of the theorems on multiplication can be met. -/
example : (Sparse.Regular Sparse.exF) ∧ (Made Gauss.exB ∧ ∃ L, Denotes Gauss.exB L) ∧ (∃ Ls, Mix.IsMix Mix.exM Ls) ∧ (∃ is, Fact.IsFact Fact.exF is) ∧ ∃ j, Fact.Den ⟨1, Fact.unit "d" 0⟩ j :=
  ⟨Sparse.exF_regular, ⟨Gauss.exB_made, _, Gauss.exB_good.denotes⟩, ⟨_, Mix.exM_isMix⟩, ⟨_, Fact.exF_isFact⟩, _, Fact.unit_den "d" 0⟩

/-- **C127**, inequality: `f != g` answers exactly if `f == g` does, with the opposite answer. -/
theorem C127_ne (hs : HashSeed) (f g : AnyFactor) (b : Bool) : ne hs f g = .ok b ↔ eq hs f g = .ok (!b) := by
  unfold ne
  cases eq hs f g with
  | error e => simp [bind, Except.bind]
  | ok r => cases r <;> cases b <;> simp [bind, Except.bind]

/-- **C127** is violated by division: `f / g` raises `TypeError` for all factors, also where `divide` returns. -/
theorem C127_division_violated {α : Type} (divide : α → α → Py α) (f g : α) :
    truediv divide f g = .error .typeError := by
  simp [truediv, slots]

/-- A case where the quotient exists: `divide` returns it and `/` raises. -/
theorem C127_division_witness (hs : HashSeed) : ∃ (f g r : Sparse ℝ), Sparse.divide hs f g = .ok r ∧
    (∀ x : Asg, x "a" < 2 → r.val x = XF.sub (f.val x) (g.val x)) ∧
    truediv (Sparse.divide hs) f g = .error .typeError := by
  have hw : ∀ c : ℝ, Sparse.WF (⟨["a"], [2], [([0], .fin c), ([1], .fin 1)], .ninf⟩ : Sparse ℝ) := by
    intro c
    refine ⟨by simp, rfl, by simp [Dict.keys], fun k hk => ?_⟩
    simp only [Dict.keys, List.map_cons, List.map_nil, List.mem_cons, List.not_mem_nil, or_false] at hk
    rcases hk with rfl | rfl <;> simp
  obtain ⟨r, h1, _, _, _, _, h2⟩ := Sparse.C04_divide_pointwise hs _ _ (hw 3) (hw 5) (fun v _ _ => rfl) rfl (by simp)
  refine ⟨_, _, r, h1, fun x hx => ?_, C127_division_violated _ _ _⟩
  have : ∀ c : ℝ, ∀ v ∈ (⟨["a"], [2], [([0], .fin c), ([1], .fin 1)], .ninf⟩ : Sparse ℝ).vars,
      x v < (⟨["a"], [2], [([0], .fin c), ([1], .fin 1)], .ninf⟩ : Sparse ℝ).card v := by
    intro c v hv
    simp only [List.mem_singleton] at hv
    subst hv
    simpa [Sparse.card, Sparse.varCards, Dict.get?] using hx
  exact h2 x (this 3) (this 5)

/-- **C127** is violated by comparisons of factors of different classes: sparse, dense, Gaussian and mixture factors
raise when compared with a factor of another class, instead of answering that they differ. -/
theorem C127_foreign_violated (hs : HashSeed) (f : Sparse ℝ) (g : Cat ℝ) (a : AnyG) (m : Mix) (p : Fact) :
    (∀ x ∈ [AnyFactor.dense g, .gauss a, .mix m, .fact p], eq hs (.sparse f) x = .error .typeError) ∧
    (∀ x ∈ [AnyFactor.sparse f, .gauss a, .mix m, .fact p], eq hs (.dense g) x = .error .typeError) ∧
    (∀ x ∈ [AnyFactor.sparse f, .dense g, .mix m, .fact p], eq hs (.gauss a) x = .error .valueError) ∧
    (∀ x ∈ [AnyFactor.sparse f, .dense g, .gauss a, .fact p], eq hs (.mix m) x = .error .typeError) := by
  refine ⟨?_, ?_, ?_, ?_⟩ <;>
  · intro x hx
    simp only [List.mem_cons, List.not_mem_nil, or_false] at hx
    rcases hx with rfl | rfl | rfl | rfl <;> rfl

/-- **C127**: `==` is not symmetric across classes. A factorised factor and a Gaussian over different variables: one
order answers, the other raises. -/
theorem C127_asymmetric (hs : HashSeed) (p : Fact) (a : AnyG) (h : ¬ ∀ v, v ∈ p.vars ↔ v ∈ a.2.vars)
    (b : AnyG) (hb : Mix.copyG a = .ok b) :
    eq hs (.fact p) (.gauss a) = .ok false ∧ eq hs (.gauss a) (.fact p) = .error .valueError := by
  refine ⟨?_, rfl⟩
  unfold eq equals Fact.equalsG Fact.make
  dsimp only
  have : List.mapM Mix.copyG [a] = .ok [b] := by
    simp only [List.mapM_cons, List.mapM_nil, hb, bind, Except.bind, pure, Except.pure]
  rw [this]
  simp only [py_bind_ok]
  unfold Fact.equals
  rw [if_pos]
  · rfl
  · intro hsame
    refine h fun v => ?_
    have := Gauss.sameSet_iff.1 hsame v
    rw [SetOrder.mem] at this
    simpa using this.symm

example (hs : HashSeed) : ∃ (p : Fact) (a : AnyG), eq hs (.fact p) (.gauss a) = .ok false ∧
    eq hs (.gauss a) (.fact p) = .error .valueError := by
  obtain ⟨k, hk, _⟩ := Fact.copyG_den (Fact.unit_den "y" 0)
  refine ⟨Fact.pair 0 1, ⟨1, Fact.unit "y" 0⟩, C127_asymmetric hs _ _ (fun h => ?_) k hk⟩
  have := (h "y").2 (by simp [Fact.unit])
  simp [Fact.pair] at this

/-! ### C128 -/

/-- **C128.** Two messages of sparse factors are equal exactly if sender and receiver are the same and the factors are
equal; the comparison is symmetric, and never raises. -/
theorem C128_equals (rtol atol : ℝ) (a b : CG.Msg (Sparse ℝ)) (ha : Sparse.Regular a.factor)
    (hb : Sparse.Regular b.factor) :
    msgEquals rtol atol a b = msgEquals rtol atol b a ∧ (∃ r, msgEquals rtol atol a b = .ok r) ∧
    (msgEquals rtol atol a b = .ok true ↔ a.snd = b.snd ∧ a.rcv = b.rcv ∧
      Sparse.equals rtol atol a.factor b.factor = .ok true) ∧
    (msgEquals rtol atol a b = .ok true → a.snd = b.snd ∧ a.rcv = b.rcv ∧
      (∀ v, v ∈ a.factor.vars ↔ v ∈ b.factor.vars) ∧
      ∀ x, Sparse.Close rtol atol (a.factor.val x) (b.factor.val x)) := by
  obtain ⟨r, hr, _⟩ := Sparse.equals_iff (rtol := rtol) (atol := atol) ha hb
  have hr' : Sparse.equals rtol atol b.factor a.factor = .ok r := by
    rw [← Sparse.C10_equals_symm rtol atol _ _ ha hb]; exact hr
  unfold msgEquals
  rw [hr, hr']
  by_cases h1 : a.snd = b.snd
  · by_cases h2 : a.rcv = b.rcv
    · simp only [h1, h2, ne_eq, not_true_eq_false, if_false, py_bind_ok]
      cases r
      · simp
      · refine ⟨trivial, ⟨_, rfl⟩, by simp, fun _ => ⟨trivial, trivial, Sparse.C10_equals_sound rtol atol _ _ ha hb hr⟩⟩
    · simp [h1, h2, Ne.symm h2]
  · simp [h1, Ne.symm h1]

/-- **C128.** A copy of a message is equal to it, and no information is gained from it: the divergence is 0. -/
theorem C128_copy (hs : HashSeed) (rtol atol : ℝ) (hr : 0 ≤ rtol) (hA : 0 ≤ atol) (a : CG.Msg (Sparse ℝ))
    (ha : Sparse.Regular a.factor) :
    ∃ b, msgCopy a = .ok b ∧ msgEquals rtol atol a b = .ok true ∧ msgEquals rtol atol b a = .ok true ∧
      (0 < a.factor.mass → msgKl hs a b = .ok (.fin 0) ∧
        ∃ d : ℝ, 0 ≤ d ∧ msgDistance hs a = .ok (.fin d) ∧ msgDistance hs b = .ok (.fin d)) := by
  have hc := Sparse.copy_eq ha.wf
  have e : msgCopy a = .ok a := by
    unfold msgCopy
    rw [hc, py_bind_ok, hc, py_bind_ok]
  have heq : msgEquals rtol atol a a = .ok true := by
    obtain ⟨_, _, _, h⟩ := Sparse.C10_equals_reorder rtol atol hr hA a.factor ha a.factor.vars (List.Perm.refl _)
    unfold msgEquals
    rw [h]
    simp
  refine ⟨a, e, heq, heq, fun hm => ⟨?_, ?_⟩⟩
  · unfold msgKl
    rw [hc, py_bind_ok, py_bind_ok]
    obtain ⟨h1, _⟩ := (Sparse.C11_kl_divergence hs a.factor a.factor ha ha ⟨fun _ => Iff.rfl, fun _ _ => rfl⟩ hm hm).1
      fun x _ h => h
    rw [h1]
    congr 2
    unfold Spec.kl
    have h0 : (fun x => a.factor.dist x * Real.log (a.factor.dist x / a.factor.dist x)) = fun _ => 0 := by
      funext x
      by_cases hx : a.factor.dist x = 0
      · simp [hx]
      · rw [div_self hx, Real.log_one, mul_zero]
    rw [h0]
    have := Cat.sumVars_mul_const (a.factor.vars.map fun v => (v, a.factor.card v)) (fun _ => 0) 0 (fun _ => 0)
    simpa using this
  · obtain ⟨h1, h2, _⟩ := Sparse.C11_distance_from_vacuous hs a.factor ha hm
    refine ⟨_, h2, ?_, ?_⟩ <;>
    · unfold msgDistance
      rw [hc, py_bind_ok, h1]

/-- The hypotheses are met by a message with a zero in its table. -/
example : Sparse.Regular (⟨["a"], [2], [([0], .fin 3), ([1], .ninf)], .ninf⟩ : Sparse ℝ) := by
  refine ⟨⟨by simp, rfl, by simp [Dict.keys], fun k hk => ?_⟩, fun e he => ?_, rfl⟩
  · simp only [Dict.keys, List.map_cons, List.map_nil, List.mem_cons, List.not_mem_nil, or_false] at hk
    rcases hk with rfl | rfl <;> simp
  · simp only [List.mem_cons, List.not_mem_nil, or_false] at he
    rcases he with rfl | rfl <;> trivial

end Verif.Opr
