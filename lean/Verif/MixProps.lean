import Verif.MixLemmas
import Verif.GaussProps2

/-!
# Properties of Gaussian mixtures (C56, C57, C58, C61, C83)

The theorems are about mixtures `M` with `IsMix M Ls`: every component is a Gaussian that any history of calls
can produce, over the variables of the mixture, with a log potential in the list `Ls`. Every result of the
modelled operations is again such a mixture, so the theorems apply to any sequence of operations.
-/

namespace Verif.Mix
open Matrix Gauss Spec MeasureTheory

/-- The constructor makes a mixture of the given Gaussians, if their variables agree. -/
theorem make_isMix {gs : List AnyG} {Ls : List ((Var → ℝ) → ℝ)} {vars : List Var} (hne : gs ≠ [])
    (h : List.Forall₂ (Comp vars) gs Ls) (cm : ℕ) :
    ∃ M, make gs cm = .ok M ∧ IsMix M Ls ∧ Pot M (mixFn Ls) ∧ M.vars = vars ∧ M.cancelMethod = cm := by
  obtain ⟨M, h1, h2, h3, h4, -⟩ := make_ok hne h cm
  exact ⟨M, h1, h2, h2.pot, h3, h4⟩

/-- A second Gaussian over `a`, `b`. -/
def exA2 : Gauss 2 := ⟨["a", "b"], none, some ⟨exS, ![5, 1], 0⟩, false⟩

theorem exA2_good : Good exA2 := good_mkCov (by decide) rfl _ (posDef_symm exS_posDef) exS_posDef.det_pos

theorem exA2_made : Made exA2 := .ofCov (vars := ["a", "b"]) (v := ⟨exS, ![5, 1], 0⟩) exS_posDef (by
  rw [mkCov_ok (by decide) rfl]
  rfl)

/-- A mixture of two Gaussians. -/
def exM : Mix := ⟨["a", "b"], [⟨2, exA⟩, ⟨2, exA2⟩], 0⟩

theorem exM_isMix : IsMix exM [logOf exA exA_good.len, logOf exA2 exA2_good.len] :=
  ⟨by simp [exM], .cons ⟨exA_made, exA_good.denotes, rfl⟩ (.cons ⟨exA2_made, exA2_good.denotes, rfl⟩ .nil)⟩

/-- A mixture over other, overlapping variables. -/
noncomputable def exN : Mix := ⟨["b", "c"], [⟨2, exB⟩, ⟨2, exB⟩], 0⟩

theorem exN_isMix : IsMix exN [logOf exB exB_good.len, logOf exB exB_good.len] :=
  ⟨by simp [exN], .cons ⟨exB_made, exB_good.denotes, rfl⟩ (.cons ⟨exB_made, exB_good.denotes, rfl⟩ .nil)⟩

/-! ### C56 products -/

/-- **C56.** The product of two mixtures has the product of the potentials at every point, over the union of
the variables, and one component for every pair. The operands still have their potentials. -/
theorem C56_multiply {M N : Mix} {Ls Ks : List ((Var → ℝ) → ℝ)} (hM : IsMix M Ls) (hN : IsMix N Ks) :
    ∃ M' N' R Rs, M.multiply N = .ok (M', N', R) ∧ IsMix R Rs ∧ Pot R (fun x => mixFn Ls x * mixFn Ks x) ∧
      (∀ v, v ∈ R.vars ↔ v ∈ M.vars ∨ v ∈ N.vars) ∧ R.comps.length = M.comps.length * N.comps.length ∧
      (IsMix M' Ls ∧ M'.vars = M.vars) ∧ (IsMix N' Ks ∧ N'.vars = N.vars) := by
  obtain ⟨as, bs, rs, h1, h2, h3, h4⟩ := mulAll_ok hM.comps hN.comps
  have hlen : rs.length = M.comps.length * N.comps.length := by
    rw [h4.length_eq, List.length_flatMap]
    simp [hM.comps.length_eq, hN.comps.length_eq]
  have hne : rs ≠ [] := by
    rw [← List.length_pos_iff_ne_nil, hlen]
    exact Nat.mul_pos (List.length_pos_iff_ne_nil.2 hM.ne) (List.length_pos_iff_ne_nil.2 hN.ne)
  obtain ⟨R, k1, k2, k3, -, k5⟩ := make_ok hne h4
  refine ⟨{ M with comps := as }, { N with comps := bs }, R, _, ?_, k2, k2.pot.congr fun x => mixFn_mul Ls Ks x, fun v => ?_, k5.trans hlen, ⟨⟨?_, h2⟩, rfl⟩,
    ⟨?_, h3⟩, rfl⟩
  · unfold Mix.multiply
    rw [h1]
    dsimp only [bind, Except.bind]
    rw [k1]
  · rw [k3]
    exact mem_opVars
  · have := h2.length_eq.trans hM.comps.length_eq.symm
    dsimp only
    rw [← List.length_pos_iff_ne_nil, this]
    exact List.length_pos_iff_ne_nil.2 hM.ne
  · have := h3.length_eq.trans hN.comps.length_eq.symm
    dsimp only
    rw [← List.length_pos_iff_ne_nil, this]
    exact List.length_pos_iff_ne_nil.2 hN.ne

theorem ne_of_forall₂ {M : Mix} {Ls : List ((Var → ℝ) → ℝ)} (hM : IsMix M Ls) {vars : List Var} {as : List AnyG}
    {Ks : List ((Var → ℝ) → ℝ)} (h : List.Forall₂ (Comp vars) as Ks) (hl : Ks.length = Ls.length) : as ≠ [] := by
  rw [← List.length_pos_iff_ne_nil, h.length_eq, hl, List.length_pos_iff_ne_nil]
  exact hM.ls_ne

/-- **C56.** The same for a mixture and a Gaussian. -/
theorem C56_multiply_gaussian {M : Mix} {Ls : List ((Var → ℝ) → ℝ)} (hM : IsMix M Ls) {n : ℕ} {g : Gauss n}
    {L : (Var → ℝ) → ℝ} (hg : Made g) (hL : Denotes g L) :
    ∃ M' g' R Rs, M.multiplyG ⟨n, g⟩ = .ok (M', g', R) ∧ IsMix R Rs ∧ Pot R (fun x => mixFn Ls x * Real.exp (L x)) ∧
      (∀ v, v ∈ R.vars ↔ v ∈ M.vars ∨ v ∈ g.vars) ∧ R.comps.length = M.comps.length ∧
      (IsMix M' Ls ∧ M'.vars = M.vars) ∧ Denotes g'.2 L ∧ g'.2.vars = g.vars := by
  obtain ⟨as, g', rs, h1, h2, h3, h4⟩ := opEach_ok (.inl ⟨rfl, rfl⟩) hM.comps (b := ⟨n, g⟩) ⟨hg, hL, rfl⟩
  have hlen : rs.length = M.comps.length := by
    rw [h4.length_eq, List.length_map, hM.comps.length_eq]
  obtain ⟨R, k1, k2, k3, -, k5⟩ := make_ok (ne_of_forall₂ hM h4 (by simp)) h4
  refine ⟨{ M with comps := as }, g', R, _, ?_, k2, k2.pot.congr fun x => ?_, fun v => ?_, k5.trans hlen,
    ⟨⟨ne_of_forall₂ hM h2 rfl, h2⟩, rfl⟩, h3.den, h3.vars⟩
  · unfold Mix.multiplyG
    rw [h1]
    dsimp only [bind, Except.bind]
    rw [k1]
  · rw [mixFn_op, one_mul]
  · rw [k3]
    exact mem_opVars

/-- The hypotheses of the C56 theorems can be met, with overlapping variables. -/
example : (∃ Ls, IsMix exM Ls) ∧ (∃ Ks, IsMix exN Ks) ∧ Made exB ∧ ∃ L, Denotes exB L :=
  ⟨⟨_, exM_isMix⟩, ⟨_, exN_isMix⟩, exB_made, _, exB_good.denotes⟩

/-! ### C61 quotients -/

theorem divideLoop_ok {M : Mix} {Ls : List ((Var → ℝ) → ℝ)} (hM : IsMix M Ls) {vars : List Var} {g : AnyG}
    {L : (Var → ℝ) → ℝ} (hg : Comp vars g L) :
    ∃ M' g' R Rs, M.divideLoop g = .ok (M', g', R) ∧ IsMix R Rs ∧ Pot R (fun x => mixFn Ls x / Real.exp (L x)) ∧
      (∀ v, v ∈ R.vars ↔ v ∈ M.vars ∨ v ∈ vars) ∧ R.comps.length = M.comps.length ∧
      (IsMix M' Ls ∧ M'.vars = M.vars) ∧ Comp vars g' L := by
  obtain ⟨as, g', rs, h1, h2, h3, h4⟩ := opEach_ok (.inr ⟨rfl, rfl⟩) hM.comps hg
  have hlen : rs.length = M.comps.length := by
    rw [h4.length_eq, List.length_map, hM.comps.length_eq]
  obtain ⟨R, k1, k2, k3, -, k5⟩ := make_ok (ne_of_forall₂ hM h4 (by simp)) h4
  refine ⟨{ M with comps := as }, g', R, _, ?_, k2, k2.pot.congr fun x => ?_, fun v => ?_, k5.trans hlen,
    ⟨⟨ne_of_forall₂ hM h2 rfl, h2⟩, rfl⟩, h3⟩
  · unfold Mix.divideLoop
    rw [h1]
    dsimp only [bind, Except.bind]
    rw [k1]
  · rw [mixFn_op, neg_mul, one_mul, Real.exp_neg, div_eq_mul_inv]
  · rw [k3]
    exact mem_opVars

/-- **C61.** Dividing a mixture by a Gaussian gives the quotient of the potentials at every point, over the
union of the variables. The operands keep their potentials. -/
theorem C61_divide_gaussian {M : Mix} {Ls : List ((Var → ℝ) → ℝ)} (hM : IsMix M Ls) {n : ℕ} {g : Gauss n}
    {L : (Var → ℝ) → ℝ} (hg : Made g) (hL : Denotes g L) :
    ∃ M' g' R Rs, M.divideLoop ⟨n, g⟩ = .ok (M', g', R) ∧ IsMix R Rs ∧ Pot R (fun x => mixFn Ls x / Real.exp (L x)) ∧
      (∀ v, v ∈ R.vars ↔ v ∈ M.vars ∨ v ∈ g.vars) ∧ R.comps.length = M.comps.length ∧
      (IsMix M' Ls ∧ M'.vars = M.vars) ∧ Denotes g'.2 L ∧ g'.2.vars = g.vars := by
  obtain ⟨M', g', R, Rs, h1, h2, h3, h4, h5, h6, h7⟩ := divideLoop_ok hM (g := ⟨n, g⟩) ⟨hg, hL, rfl⟩
  exact ⟨M', g', R, Rs, h1, h2, h3, h4, h5, h6, h7.den, h7.vars⟩

/-- **C61.** The same for a divisor that is a mixture with one component, for every cancel method. -/
theorem C61_divide_single (approx : ℕ → Mix → Mix → Py (Mix × Mix × Mix)) {M N : Mix}
    {Ls : List ((Var → ℝ) → ℝ)} {K : (Var → ℝ) → ℝ} (hM : IsMix M Ls) (hN : IsMix N [K]) :
    ∃ M' N' R Rs, M.divide approx N = .ok (M', N', R) ∧ IsMix R Rs ∧ Pot R (fun x => mixFn Ls x / mixFn [K] x) ∧
      (∀ v, v ∈ R.vars ↔ v ∈ M.vars ∨ v ∈ N.vars) ∧ R.comps.length = M.comps.length ∧
      (IsMix M' Ls ∧ M'.vars = M.vars) ∧ (IsMix N' [K] ∧ N'.vars = N.vars) := by
  obtain ⟨vars, comps, cm⟩ := N
  have hc := hN.comps
  dsimp only at hc
  cases hc with
  | cons hg hnil =>
    cases hnil
    rename_i g
    obtain ⟨M', g', R, Rs, h1, h2, h3, h4, h5, h6, h7⟩ := divideLoop_ok hM hg
    refine ⟨M', ⟨vars, [g'], cm⟩, R, Rs, ?_, h2, h3.congr fun x => ?_, h4, h5, h6, ⟨?_, .cons h7 .nil⟩, rfl⟩
    · unfold Mix.divide
      dsimp only
      rw [h1]
      rfl
    · simp [mixFn]
    · simp

/-- A mixture with one component. -/
noncomputable def exN1 : Mix := ⟨["b", "c"], [⟨2, exB⟩], 0⟩

theorem exN1_isMix : IsMix exN1 [logOf exB exB_good.len] :=
  ⟨by simp [exN1], .cons ⟨exB_made, exB_good.denotes, rfl⟩ .nil⟩

/-- The hypotheses of the C61 theorems can be met. -/
example : (∃ Ls, IsMix exM Ls) ∧ (∃ K, IsMix exN1 [K]) ∧ Made exB ∧ ∃ L, Denotes exB L :=
  ⟨⟨_, exM_isMix⟩, ⟨_, exN1_isMix⟩, exB_made, _, exB_good.denotes⟩

/-- **C61.** Multiplying by a Gaussian and dividing by it again gives the potential back. -/
theorem C61_multiply_divide {M : Mix} {Ls : List ((Var → ℝ) → ℝ)} (hM : IsMix M Ls) {n : ℕ} {g : Gauss n}
    {L : (Var → ℝ) → ℝ} (hg : Made g) (hL : Denotes g L) :
    ∃ M' g' P P' g'' Q, M.multiplyG ⟨n, g⟩ = .ok (M', g', P) ∧ P.divideLoop ⟨n, g⟩ = .ok (P', g'', Q) ∧
      Pot Q (mixFn Ls) := by
  obtain ⟨M', g', P, Ps, h1, h2, h3, -⟩ := C56_multiply_gaussian hM hg hL
  obtain ⟨P', g'', Q, Qs, k1, -, k3, -⟩ := C61_divide_gaussian h2 hg hL
  refine ⟨M', g', P, P', g'', Q, h1, k1, k3.congr fun x => ?_⟩
  rw [h2.pot.unique h3]
  exact mul_div_cancel_right₀ _ (Real.exp_pos _).ne'

/-! ### C57 evidence and marginals -/

theorem reduce_vars {n : ℕ} {a a' : Gauss n} {vrs : List Var} {vals : List ℝ} {r : AnyG}
    (h : a.reduce vrs vals = .ok (a', r)) : r.2.vars = unobserved a.vars vrs := by
  unfold Gauss.reduce at h
  obtain ⟨_, -, h⟩ := py_bind_eq_ok.1 h
  obtain ⟨_, -, h⟩ := py_bind_eq_ok.1 h
  obtain ⟨_, -, h⟩ := py_bind_eq_ok.1 h
  obtain ⟨⟨_, _⟩, -, h⟩ := py_bind_eq_ok.1 h
  obtain ⟨_, -, h⟩ := py_bind_eq_ok.1 h
  split at h
  · obtain ⟨r', hr, h⟩ := py_bind_eq_ok.1 h
    cases h
    obtain ⟨-, -, rfl⟩ := mkCan_eq_ok hr
    rfl
  · obtain ⟨r', hr, h⟩ := py_bind_eq_ok.1 h
    cases h
    obtain ⟨-, -, rfl⟩ := mkCan_eq_ok hr
    rfl

/-- **C57 for evidence (part that holds).** Observing some but not all variables substitutes the values into
the potential of the mixture; observing a variable outside the scope raises. What is missing for the full
claim: observing every variable, which raises (`C57_all_observed`). -/
theorem C57_reduce_partial {M : Mix} {Ls : List ((Var → ℝ) → ℝ)} (hM : IsMix M Ls) {vrs : List Var} {vals : List ℝ}
    (hn : vrs.Nodup) (hl : vals.length = vrs.length) :
    ((∀ v ∈ vrs, v ∈ M.vars) → (∃ v ∈ M.vars, v ∉ vrs) → ∃ M' R Rs, M.reduce vrs vals = .ok (M', R) ∧ IsMix R Rs ∧
      Pot R (fun x => mixFn Ls (override (vrs.zip vals) x)) ∧ (∀ v, v ∈ R.vars ↔ v ∈ M.vars ∧ v ∉ vrs) ∧
      (IsMix M' Ls ∧ M'.vars = M.vars)) ∧
    ((¬ ∀ v ∈ vrs, v ∈ M.vars) → M.reduce vrs vals = .error .assertionError) := by
  constructor
  · intro hsub hex
    obtain ⟨l, h1, h2⟩ := mapM_forall₂ (f := reduceG vrs vals)
      (S := fun p L => Comp M.vars p.1 L ∧ Comp (unobserved M.vars vrs) p.2 fun x => L (override (vrs.zip vals) x)) hM.comps
      fun c _ L hc => by
        obtain ⟨a', r, k1, k2, k3, k4, k5⟩ := (C33_reduce_partial hc.made hc.den hn hl).1
          (by rw [hc.vars]; exact hsub) (by rw [hc.vars]; exact hex)
        refine ⟨(⟨_, a'⟩, r), ?_, ⟨.reduce_self hc.made k1, k4, k5.trans hc.vars⟩, .reduce hc.made k1, k3, ?_⟩
        · unfold reduceG
          rw [k1]
          rfl
        · rw [reduce_vars k1, hc.vars]
    have hf : List.Forall₂ (Comp M.vars) (l.map Prod.fst) Ls :=
      List.forall₂_map_left_iff.2 (h2.imp fun _ _ h => h.1)
    have hs : List.Forall₂ (Comp (unobserved M.vars vrs)) (l.map Prod.snd)
        (Ls.map fun L x => L (override (vrs.zip vals) x)) :=
      List.forall₂_map_left_iff.2 (List.forall₂_map_right_iff.2 (h2.imp fun _ _ h => h.2))
    obtain ⟨R, k1, k2, k3, -, -⟩ := make_ok (ne_of_forall₂ hM hs (by simp)) hs
    refine ⟨{ M with comps := l.map Prod.fst }, R, _, ?_, k2, k2.pot.congr fun x => ?_, fun v => ?_, ⟨ne_of_forall₂ hM hf rfl, hf⟩, rfl⟩
    · unfold Mix.reduce
      rw [h1]
      dsimp only [bind, Except.bind]
      rw [k1]
    · unfold mixFn
      rw [List.map_map]
      rfl
    · rw [k3]
      exact mem_unobserved
  · intro h
    unfold Mix.reduce
    have hc := hM.comps
    cases hcs : M.comps with
    | nil => exact absurd hcs hM.ne
    | cons c cs =>
      rw [hcs] at hc
      cases hc with
      | cons h1 _ =>
        have := (C33_reduce_partial h1.made h1.den hn hl).2 (by rw [h1.vars]; exact h)
        rw [List.mapM_cons]
        unfold reduceG
        rw [this]
        rfl

/-- **C57 (violation).** Observing every variable of a mixture always raises. -/
theorem C57_all_observed {M : Mix} {Ls : List ((Var → ℝ) → ℝ)} (hM : IsMix M Ls) {vrs : List Var} {vals : List ℝ}
    (hl : vals.length = vrs.length) (hall : ∀ v, v ∈ vrs ↔ v ∈ M.vars) :
    M.reduce vrs vals = .error .assertionError := by
  have hc := hM.comps
  cases hcs : M.comps with
  | nil => exact absurd hcs hM.ne
  | cons c cs =>
    rw [hcs] at hc
    cases hc with
    | cons h1 _ =>
      have := C33_all_observed h1.made h1.den hl (by rw [h1.vars]; exact hall)
      unfold Mix.reduce
      rw [hcs, List.mapM_cons]
      unfold reduceG
      rw [this]
      rfl

/-- The hypotheses of `C57_reduce_partial` can be met. -/
example : (∃ Ls, IsMix exM Ls) ∧ ["b"].Nodup ∧ [(1 : ℝ)].length = ["b"].length ∧ (∀ v ∈ ["b"], v ∈ exM.vars) ∧
    ∃ v ∈ exM.vars, v ∉ ["b"] := ⟨⟨_, exM_isMix⟩, by decide, rfl, by simp [exM], "a", by simp [exM], by decide⟩

theorem integrateOut_mix {vs : List Var} {Ls Ks : List ((Var → ℝ) → ℝ)} {x : Var → ℝ}
    (h : List.Forall₂ (fun K L => IntegrableOut vs (fun z => Real.exp (L z)) x ∧
      integrateOut vs (fun z => Real.exp (L z)) x = Real.exp (K x)) Ks Ls) :
    IntegrableOut vs (mixFn Ls) x ∧ integrateOut vs (mixFn Ls) x = mixFn Ks x := by
  induction h with
  | nil => simp [mixFn, IntegrableOut, integrateOut]
  | @cons K L Ks Ls h1 _ ih =>
    have e : mixFn (L :: Ls) = fun z => Real.exp (L z) + mixFn Ls z := by
      funext z
      simp [mixFn]
    rw [e]
    refine ⟨h1.1.add ih.1, ?_⟩
    have e2 : mixFn (K :: Ks) x = Real.exp (K x) + mixFn Ks x := by simp [mixFn]
    rw [e2, ← h1.2, ← ih.2]
    exact integral_add h1.1 ih.1

theorem exists_forall₂ {α β γ : Type} {P : α → γ → Prop} {Q : γ → β → Prop} {l : List α} {l' : List β}
    (h : List.Forall₂ (fun a b => ∃ c, P a c ∧ Q c b) l l') : ∃ cs, List.Forall₂ P l cs ∧ List.Forall₂ Q cs l' := by
  induction h with
  | nil => exact ⟨[], .nil, .nil⟩
  | cons h1 _ ih =>
    obtain ⟨c, h2, h3⟩ := h1
    obtain ⟨cs, h4, h5⟩ := ih
    exact ⟨c :: cs, .cons h2 h4, .cons h3 h5⟩

theorem marginalizeTo_vars {hs : HashSeed} {n : ℕ} {a : Gauss n} {keep : List Var} {r : Gauss keep.length}
    (h : a.marginalizeTo hs keep = .ok r) : r.vars = keep := by
  unfold marginalizeTo at h
  split at h
  · unfold makeVacuous at h
    obtain ⟨-, -, rfl⟩ := mkCan_eq_ok h
    rfl
  · split at h
    · unfold canMarginalize at h
      obtain ⟨_, -, h⟩ := py_bind_eq_ok.1 h
      obtain ⟨_, -, h⟩ := py_bind_eq_ok.1 h
      obtain ⟨_, -, h⟩ := py_bind_eq_ok.1 h
      obtain ⟨_, -, h⟩ := py_bind_eq_ok.1 h
      obtain ⟨-, -, rfl⟩ := mkCan_eq_ok h
      rfl
    · split at h
      · unfold covMarginalize at h
        obtain ⟨_, -, h⟩ := py_bind_eq_ok.1 h
        obtain ⟨-, -, rfl⟩ := mkCov_eq_ok h
        rfl
      · cases h

/-- **C57 for marginals (part that holds).** If no component is flagged vacuous and every precision is positive
definite on the dropped variables then `marginalize` returns a mixture over exactly the kept variables whose
potential is the Lebesgue integral of the potential of the mixture over the dropped variables. What is missing
for the full claim: components that are flagged vacuous (`C32_flagged`). -/
theorem C57_marginalize_partial (hs : HashSeed) {M : Mix} {Ls : List ((Var → ℝ) → ℝ)} (hM : IsMix M Ls)
    {vrs : List Var} (keep : Bool) (hn : vrs.Nodup) (hsub : ∀ v ∈ vrs, v ∈ M.vars)
    (hv : ∀ c ∈ M.comps, c.2.vac = false)
    (hK : ∀ c ∈ M.comps, ∀ a' k, c.2.getCan = .ok (a', k) → ∀ y : Fin c.1 → ℝ, y ≠ 0 →
      (∀ (i : Fin c.1) v, M.vars[i.1]? = some v → (v ∈ vrs ↔ keep = true) → y i = 0) → 0 < y ⬝ᵥ k.prec *ᵥ y) :
    ∃ R Rs, M.marginalize hs vrs keep = .ok R ∧ IsMix R Rs ∧ (keep = true → R.vars = vrs) ∧ R.vars.Nodup ∧
      (∀ v, v ∈ R.vars ↔ v ∈ M.vars ∧ (v ∈ vrs ↔ keep = true)) ∧
      ∃ F, Pot R F ∧ ∀ out : List Var, out.Nodup → (∀ v, v ∈ out ↔ v ∈ M.vars ∧ v ∉ R.vars) → ∀ x,
        IntegrableOut out (mixFn Ls) x ∧ integrateOut out (mixFn Ls) x = F x := by
  have key : ∃ l Ks, M.comps.mapM (marginalizeG hs vrs keep) = .ok l ∧
      List.Forall₂ (Comp (Sparse.marginalVars hs M.vars vrs keep)) l Ks ∧
      List.Forall₂ (fun K L => ∀ out : List Var, out.Nodup →
        (∀ v, v ∈ out ↔ v ∈ M.vars ∧ v ∉ Sparse.marginalVars hs M.vars vrs keep) → ∀ x,
        IntegrableOut out (fun z => Real.exp (L z)) x ∧
        integrateOut out (fun z => Real.exp (L z)) x = Real.exp (K x)) Ks Ls := by
    obtain ⟨l, h1, h2⟩ := mapM_forall₂ (f := marginalizeG hs vrs keep)
      (S := fun r L => ∃ K, Comp (Sparse.marginalVars hs M.vars vrs keep) r K ∧ ∀ out : List Var, out.Nodup →
        (∀ v, v ∈ out ↔ v ∈ M.vars ∧ v ∉ Sparse.marginalVars hs M.vars vrs keep) → ∀ x,
        IntegrableOut out (fun z => Real.exp (L z)) x ∧
        integrateOut out (fun z => Real.exp (L z)) x = Real.exp (K x)) hM.comps fun c hcm L hc => by
        have hcan := getCan_valid hc.good.toValid
        obtain ⟨r, K, k1, k2, k3, k4, k5, k6⟩ := C32_marginalize_partial hs hc.made hc.den hcan (hv c hcm) (vrs := vrs) keep hn
          (by rw [hc.vars]; exact hsub) (by rw [hc.vars]; exact hK c hcm _ _ hcan)
        have e := (marginalizeTo_vars k1).trans (congrArg (Sparse.marginalVars hs · vrs keep) hc.vars)
        refine ⟨⟨_, r⟩, ?_, K, ⟨.marginalize hc.made k1, k5, e⟩, fun out ho hm => k6 out ho fun v => ?_⟩
        · unfold marginalizeG
          rw [k1]
          rfl
        · rw [hm, e, hc.vars]
    obtain ⟨Ks, h3, h4⟩ := exists_forall₂ h2
    exact ⟨l, Ks, h1, h3, h4⟩
  obtain ⟨l, Ks, h1, h2, h3⟩ := key
  have hne : l ≠ [] := ne_of_forall₂ hM h2 h3.length_eq
  obtain ⟨R, k1, k2, k3, -, -⟩ := make_ok hne h2
  refine ⟨R, Ks, ?_, k2, fun h => ?_, k2.nodup, fun v => ?_, mixFn Ks, k2.pot, fun out ho hm x => ?_⟩
  · unfold Mix.marginalize
    rw [h1]
    exact k1
  · rw [k3, h]
    rfl
  · rw [k3]
    exact Sparse.mem_marginalVars hsub
  · refine integrateOut_mix (h3.imp fun K L h => h out ho (by rw [← k3]; exact hm) x)

end Verif.Mix
