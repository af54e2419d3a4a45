import Verif.MixProps3

/-!
# The chosen method of dividing mixtures (C130)

`GaussianMixture(factors, cancel_method)` lets the user choose how to divide by a mixture of several components.
Which operations keep that choice?
-/

namespace Verif.Mix
open Matrix Gauss Spec

/-- The results of the operations on a mixture `M` that return a new mixture: `copy`, `multiply` by a Gaussian or a
mixture, `divide` by a Gaussian, `reduce`, `marginalize`, `normalize`. -/
inductive Derived (M : Mix) : Mix → Prop
  | copy {R} : M.copy = .ok R → Derived M R
  | multiplyG {g M' g' R} : M.multiplyG g = .ok (M', g', R) → Derived M R
  | multiply {N M' N' R} : M.multiply N = .ok (M', N', R) → Derived M R
  | divideG {g M' g' R} : M.divideLoop g = .ok (M', g', R) → Derived M R
  | reduce {vrs values M' R} : M.reduce vrs values = .ok (M', R) → Derived M R
  | marginalize {hs vrs keep R} : M.marginalize hs vrs keep = .ok R → Derived M R
  | normalize {M' R} : M.normalize = .ok (M', R) → Derived M R

/-- **C130 (part that holds).** The constructor keeps the chosen method. What is missing for the full claim: the
operations, see `C130_violated`. -/
theorem C130_constructor_partial {gs : List AnyG} {k : ℕ} {M : Mix} (h : make gs k = .ok M) : M.cancelMethod = k := by
  unfold make at h
  split at h
  · cases h
  · obtain ⟨cs, -, h2⟩ := py_bind_eq_ok.1 h
    split at h2
    · cases h2
    · split at h2
      · cases h2
      · cases h2
        rfl

/-- **C130 fails**: whatever method was chosen, every mixture computed from a mixture has method 0, and divides by a
mixture of several components by moment matching, never by the chosen approximation. -/
theorem C130_violated {M R : Mix} (h : Derived M R) :
    R.cancelMethod = 0 ∧ ∀ (approx approx' : ℕ → Mix → Mix → Py (Mix × Mix × Mix)) (N : Mix),
      R.divide approx N = R.divide approx' N := by
  have e : R.cancelMethod = 0 := by
    cases h with
    | copy h =>
      obtain ⟨_, -, h⟩ := py_bind_eq_ok.1 h
      exact C130_constructor_partial h
    | multiplyG h =>
      obtain ⟨⟨_, _, _⟩, -, h⟩ := py_bind_eq_ok.1 h
      obtain ⟨_, h1, h⟩ := py_bind_eq_ok.1 h
      cases h
      exact C130_constructor_partial h1
    | multiply h =>
      obtain ⟨⟨_, _, _⟩, -, h⟩ := py_bind_eq_ok.1 h
      obtain ⟨_, h1, h⟩ := py_bind_eq_ok.1 h
      cases h
      exact C130_constructor_partial h1
    | divideG h =>
      obtain ⟨⟨_, _, _⟩, -, h⟩ := py_bind_eq_ok.1 h
      obtain ⟨_, h1, h⟩ := py_bind_eq_ok.1 h
      cases h
      exact C130_constructor_partial h1
    | reduce h =>
      obtain ⟨_, -, h⟩ := py_bind_eq_ok.1 h
      obtain ⟨_, h1, h⟩ := py_bind_eq_ok.1 h
      cases h
      exact C130_constructor_partial h1
    | marginalize h =>
      obtain ⟨_, -, h⟩ := py_bind_eq_ok.1 h
      exact C130_constructor_partial h
    | normalize h =>
      obtain ⟨⟨_, _⟩, -, h⟩ := py_bind_eq_ok.1 h
      obtain ⟨_, -, h⟩ := py_bind_eq_ok.1 h
      obtain ⟨_, h1, h⟩ := py_bind_eq_ok.1 h
      cases h
      exact C130_constructor_partial h1
  refine ⟨e, fun approx approx' N => ?_⟩
  unfold Mix.divide
  split
  · rfl
  · rw [if_pos e, if_pos e]

/-- The operands keep their method: only the result forgets it. -/
theorem C130_operands_partial {M M' N N' R : Mix} :
    (M.multiply N = .ok (M', N', R) → M'.cancelMethod = M.cancelMethod ∧ N'.cancelMethod = N.cancelMethod) ∧
    (∀ vrs values, M.reduce vrs values = .ok (M', R) → M'.cancelMethod = M.cancelMethod) ∧
    (M.normalize = .ok (M', R) → M'.cancelMethod = M.cancelMethod) ∧
    (∀ g g', M.divideLoop g = .ok (M', g', R) → M'.cancelMethod = M.cancelMethod) := by
  refine ⟨fun h => ?_, fun vrs values h => ?_, fun h => ?_, fun g g' h => ?_⟩
  · obtain ⟨⟨_, _, _⟩, -, h⟩ := py_bind_eq_ok.1 h
    obtain ⟨_, h1, h⟩ := py_bind_eq_ok.1 h
    cases h
    exact ⟨rfl, rfl⟩
  · obtain ⟨_, -, h⟩ := py_bind_eq_ok.1 h
    obtain ⟨_, h1, h⟩ := py_bind_eq_ok.1 h
    cases h
    rfl
  · obtain ⟨⟨_, _⟩, h0, h⟩ := py_bind_eq_ok.1 h
    obtain ⟨_, -, h⟩ := py_bind_eq_ok.1 h
    obtain ⟨_, h1, h⟩ := py_bind_eq_ok.1 h
    cases h
    obtain ⟨_, -, h0⟩ := py_bind_eq_ok.1 h0
    cases h0
    rfl
  · obtain ⟨⟨_, _, _⟩, -, h⟩ := py_bind_eq_ok.1 h
    obtain ⟨_, h1, h⟩ := py_bind_eq_ok.1 h
    cases h
    rfl

/-- **C130, witness.** A mixture `P` of two components made with method 1 divides a mixture of several components by
method 1. The product of `P` and a Gaussian does not, whatever the method computes. -/
theorem C130_witness : ∃ (P R : Mix), make exM.comps 1 = .ok P ∧ P.comps.length = 2 ∧ Derived P R ∧
    (∀ N : Mix, N.comps.length ≠ 1 → ∀ approx, P.divide approx N = approx 1 P N) ∧
    ∀ (N : Mix) (approx approx' : ℕ → Mix → Mix → Py (Mix × Mix × Mix)), R.divide approx N = R.divide approx' N := by
  have hM := exM_isMix
  obtain ⟨P, h1, h2, -, h4, h5⟩ := make_ok hM.ne hM.comps 1
  obtain ⟨P', g', R, Rs, k1, -⟩ := C56_multiply_gaussian h2 exB_made exB_good.denotes
  have hd : Derived P R := .multiplyG k1
  refine ⟨P, R, h1, h5.trans rfl, hd, fun N hN approx => ?_, fun N approx approx' => (C130_violated hd).2 _ _ N⟩
  unfold Mix.divide
  split
  · rename_i e
    rw [e] at hN
    exact absurd rfl hN
  · rw [h4, if_neg (by decide), if_pos (by decide)]

end Verif.Mix
