import Verif.GaussDenote

/-!
# Properties of Gaussian factors (C28 - C31, C34, C35, C38, C73)

Every theorem is about objects `a` with `Made a`, that is, any object a program can hold after any history
of calls on Gaussians constructed with symmetric matrices.
-/

namespace Verif.Gauss
open Matrix Spec MeasureTheory
variable {n m : ℕ}

/-! ### Concrete factors, used to show that hypotheses can be met -/

/-- A covariance that is not diagonal. -/
def exS : Matrix (Fin 2) (Fin 2) ℝ := !![2, 1; 1, 2]

theorem exS_posDef : exS.PosDef := by
  refine PosDef.of_dotProduct_mulVec_pos ?_ fun x hx => ?_
  · ext i j
    fin_cases i <;> fin_cases j <;> simp [exS]
  · have hne : x 0 ≠ 0 ∨ x 1 ≠ 0 := by
      by_contra h
      push Not at h
      apply hx
      funext i
      fin_cases i
      · exact h.1
      · exact h.2
    have e : star x ⬝ᵥ exS *ᵥ x = x 0 ^ 2 + x 1 ^ 2 + (x 0 + x 1) ^ 2 := by
      simp [exS, dotProduct, mulVec, Fin.sum_univ_two]
      ring
    rw [e]
    rcases hne with h | h
    · have := sq_pos_of_ne_zero h
      positivity
    · have := sq_pos_of_ne_zero h
      positivity

/-- A covariance form parameter set. -/
def exV : CovF 2 := ⟨exS, ![0, 1], 3⟩

/-- A Gaussian over `a`, `b` in covariance form. -/
def exA : Gauss 2 := ⟨["a", "b"], none, some exV, false⟩

theorem exA_made : Made exA := .ofCov (vars := ["a", "b"]) (v := exV) exS_posDef (by
  rw [mkCov_ok (by decide) rfl]
  rfl)

/-- A Gaussian over `b`, `c` in canonical form, with a precision that is not invertible. -/
noncomputable def exB : Gauss 2 := ⟨["b", "c"], some ⟨!![1, -1; -1, 1], ![0, 2], 1⟩, none,
  vacParams (!![1, -1; -1, 1] : Matrix (Fin 2) (Fin 2) ℝ)⟩

theorem exB_made : Made exB := .ofCan (vars := ["b", "c"]) (c := ⟨!![1, -1; -1, 1], ![0, 2], 1⟩)
  (by ext i j; fin_cases i <;> fin_cases j <;> simp) (by
  rw [mkCan_ok (by decide) rfl]
  rfl)

theorem exA_good : Good exA := good_mkCov (by decide) rfl _ (posDef_symm exS_posDef) exS_posDef.det_pos

theorem exB_good : Good exB := good_mkCan (by decide) rfl _
  (by ext i j; fin_cases i <;> fin_cases j <;> simp)

/-! ### C28 the two forms -/

/-- **C28.** A Gaussian constructed from a positive definite covariance, a mean and a log weight is that
multiple of the normal density. Its canonical parameters can be read; a Gaussian constructed from them denotes
the same function, and reading the covariance parameters of that one returns the original parameters. -/
theorem C28_forms {vars : List Var} {v : CovF n} {a : Gauss n} (hp : v.cov.PosDef) (h : mkCov vars v = .ok a) :
    (∀ x : Fin n → ℝ, a.potential (List.ofFn x) = .ok (Real.exp v.lw * normalDensity v.cov v.mean x)) ∧
    ∃ a' c b, a.getCan = .ok (a', c) ∧ mkCan vars c = .ok b ∧
      (∀ x : Fin n → ℝ, a'.potential (List.ofFn x) = a.potential (List.ofFn x) ∧
        b.potential (List.ofFn x) = a.potential (List.ofFn x)) ∧
      ∃ b', b.getCov = .ok (b', v) ∧
        ∀ x : Fin n → ℝ, b'.potential (List.ofFn x) = a.potential (List.ofFn x) := by
  obtain ⟨hnd, hl, rfl⟩ := mkCov_eq_ok h
  have hd := hp.det_pos
  have hs := posDef_symm hp
  have hvec : ∀ x : Fin n → ℝ, toVec n (List.ofFn x) = .ok x := by
    intro x
    unfold toVec
    rw [dif_pos (by simp)]
    congr 1
    funext i
    simp
  have heval : ∀ (c : Option (Can n)) (w : Option (CovF n)) (vac : Bool) (x : Fin n → ℝ),
      (w = none ∨ w = some v) → (c = none ∨ c = some (toCan v)) → (c.isSome ∨ w.isSome) →
      (⟨vars, c, w, vac⟩ : Gauss n).potential (List.ofFn x) = .ok (Real.exp (evalCan (toCan v) x)) := by
    intro c w vac x hw hc hcw
    unfold potential logPotential
    simp only [alignValues, bind, Except.bind, hvec]
    rcases hw with rfl | rfl <;> rcases hc with rfl | rfl
    · simp at hcw
    · rfl
    · simp only [evalCov_eq hs hd]
    · simp only [evalCov_eq hs hd]
  have hv : vacParams (toCan v).prec = false := vacParams_posDef hp.inv
  have hcov : covParams (toCan v) = .ok v := by
    rw [covParams_ok (det_inv_pos.2 hd), toCov_toCan hd.ne']
  refine ⟨fun x => ?_, _, toCan v, _, getCan_valid (valid_mkCov hnd hl false hs hd), mkCan_ok hnd hl,
    fun x => ⟨?_, ?_⟩, ⟨vars, some (toCan v), some v, false⟩, ?_, fun x => ?_⟩
  · rw [heval _ _ _ _ (.inr rfl) (.inl rfl) (.inr rfl)]
    congr 1
    have e1 : Real.exp (1 / 2 * Real.log (det2pi v.cov)) = Real.sqrt (det2pi v.cov) := by
      rw [Real.sqrt_eq_rpow, Real.rpow_def_of_pos (det2pi_pos.2 hd), mul_comm]
    rw [normalDensity, Fintype.card_fin, ← det2pi_eq, ← e1, mul_div_assoc', ← Real.exp_add, ← Real.exp_sub]
    congr 1
    have hsym := dot_symm (symm_inv hs) v.mean x
    simp only [evalCan, toCan, sub_dotProduct, mulVec_sub, dotProduct_sub, hsym]
    ring
  · change (⟨vars, some (toCan v), some v, false⟩ : Gauss n).potential _ = _
    rw [heval _ _ _ _ (.inr rfl) (.inr rfl) (.inr rfl), heval _ _ _ _ (.inr rfl) (.inl rfl) (.inr rfl)]
  · rw [heval _ _ _ _ (.inl rfl) (.inr rfl) (.inl rfl), heval _ _ _ _ (.inr rfl) (.inl rfl) (.inr rfl)]
  · rw [hv]
    unfold Gauss.getCov updateCov
    simp only [Bool.false_eq_true, if_false, hcov, bind, Except.bind]
  · rw [heval _ _ _ _ (.inr rfl) (.inr rfl) (.inr rfl), heval _ _ _ _ (.inr rfl) (.inl rfl) (.inr rfl)]

/-- The hypotheses of `C28_forms` can be met. -/
example : exV.cov.PosDef ∧ mkCov ["a", "b"] exV = .ok exA :=
  ⟨exS_posDef, by rw [mkCov_ok (by decide) rfl]; rfl⟩

/-! ### C38 histories -/

/-- **C38.** After any history, if the canonical and the covariance parameters of an object can both be read
then they describe the same function: the quadratic form with precision, h and g is the log density of the
normal distribution with the covariance and the mean, plus the log weight. -/
theorem C38_forms_agree {a a' a'' : Gauss n} {c : Can n} {v : CovF n} (ha : Made a)
    (hc : a.getCan = .ok (a', c)) (hv : a.getCov = .ok (a'', v)) :
    c.prec * v.cov = 1 ∧ 0 < v.cov.det ∧ ∀ x : Fin n → ℝ,
      -(x ⬝ᵥ c.prec *ᵥ x) / 2 + x ⬝ᵥ c.h + c.g =
        v.lw - Real.log ((2 * Real.pi) ^ n * v.cov.det) / 2 - ((x - v.mean) ⬝ᵥ v.cov⁻¹ *ᵥ (x - v.mean)) / 2 := by
  obtain ⟨hg, -, rfl⟩ := getCan_inv ha.inv hc
  obtain ⟨-, hd, rfl, -⟩ := getCov_eq_ok hg.toValid hv
  refine ⟨mul_nonsing_inv _ hd.ne'.isUnit, det_inv_pos.2 hd, fun x => ?_⟩
  have h1 := toCan_toCov hd
  have hs := hg.symm
  generalize canOf a = c at *
  have h2 : evalCan c x = evalCan (toCan (toCov c)) x := by rw [h1]
  have hsym := dot_symm (symm_inv (symm_inv hs)) (toCov c).mean x
  have h3 : evalCan c x = -(x ⬝ᵥ c.prec *ᵥ x) / 2 + x ⬝ᵥ c.h + c.g := by
    unfold evalCan
    ring
  rw [← h3, h2, ← det2pi_eq]
  have e : (toCov c).cov = c.prec⁻¹ := rfl
  simp only [evalCan, toCan, sub_dotProduct, mulVec_sub, dotProduct_sub, e, hsym]
  ring

/-- **C38.** Reading the parameters in either form never changes what an object denotes, nor its
variables. -/
theorem C38_accessors {a : Gauss n} {L : (Var → ℝ) → ℝ} (ha : Made a) (hL : Denotes a L) :
    (∀ a' c, a.getCan = .ok (a', c) → Denotes a' L ∧ a'.vars = a.vars) ∧
    (∀ a' v, a.getCov = .ok (a', v) → Denotes a' L ∧ a'.vars = a.vars) ∧
    (∀ a' w, a.getWeight = .ok (a', w) → Denotes a' L ∧ a'.vars = a.vars) ∧
    (∃ a' c, a.getCan = .ok (a', c)) := by
  have hg := hL.good ha.inv
  have hcov : ∀ a' v, a.getCov = .ok (a', v) → Denotes a' L ∧ a'.vars = a.vars := by
    intro a' v h
    obtain ⟨-, hd, -, rfl⟩ := getCov_eq_ok hg.toValid h
    exact ⟨denotes_of_canOf hg (good_cov hg hd) rfl (canOf_cov_mk hg.toValid hd) hL, rfl⟩
  refine ⟨fun a' c h => ?_, hcov, fun a' w h => ?_, _, _, getCan_valid hg.toValid⟩
  · obtain ⟨-, rfl, -⟩ := getCan_inv ha.inv h
    exact ⟨denotes_of_canOf hg (good_can hg) rfl rfl hL, rfl⟩
  · unfold getWeight at h
    obtain ⟨⟨b, v⟩, hb, h⟩ := py_bind_eq_ok.1 h
    cases h
    exact hcov _ _ hb

/-- **C38.** A copy denotes the same function, and adding to the log weight adds a constant, whichever forms
are cached. -/
theorem C38_copy_weight {a : Gauss n} {L : (Var → ℝ) → ℝ} (ha : Made a) (hL : Denotes a L) :
    (∃ k, a.copy = .ok k ∧ Denotes k L ∧ k.vars = a.vars) ∧
    ∀ w, Denotes (a.addLogWeight w) fun x => L x + w := by
  have hg := hL.good ha.inv
  constructor
  · have hk : ∃ k, a.copy = .ok k := by
      obtain ⟨vars, can, cov, vac⟩ := a
      unfold Gauss.copy
      cases cov with
      | none =>
        cases can with
        | none => simpa using hg.form
        | some c => exact ⟨_, mkCan_ok hg.nodup hg.len⟩
      | some v =>
        cases can with
        | none => exact ⟨_, mkCov_ok hg.nodup hg.len⟩
        | some c =>
          simp only [mkCov_ok hg.nodup hg.len, bind, Except.bind]
          exact ⟨_, rfl⟩
    obtain ⟨k, hk⟩ := hk
    obtain ⟨ik, e1, e2, e3⟩ := copy_inv ha.inv hk
    have hgk : Good k := ik.good fun hc v hv => by
      rw [e2] at hc
      rw [e3] at hv
      exact (hg.cov v hv).2
    refine ⟨k, hk, denotes_of_canOf hg hgk e1 ?_ hL, e1⟩
    unfold canOf
    rw [e2, e3]
  · intro w
    have hgw : Good (a.addLogWeight w) := (addLogWeight_inv ha.inv w).good fun hc v hv => by
      obtain ⟨u, hu, rfl⟩ := Option.map_eq_some_iff.1 hv
      exact (hg.cov u hu).2
    rw [hL.eq hg]
    refine hgw.denotes.congr fun x => ?_
    have : evalCan (canOf (a.addLogWeight w)) = fun y => evalCan (canOf a) y + w := by
      obtain ⟨vars, can, cov, vac⟩ := a
      cases can with
      | some c =>
        funext y
        simp only [Gauss.addLogWeight, Option.map_some, canOf, evalCan]
        ring
      | none =>
        cases cov with
        | none => simpa using hg.form
        | some v =>
          funext y
          simp only [Gauss.addLogWeight, Option.map_some, Option.map_none, canOf, evalCan, toCan]
          ring
    exact congrFun this _

/-- The hypotheses of the C38 theorems can be met, with both forms readable. -/
example : Made exA ∧ (∃ a' c, exA.getCan = .ok (a', c)) ∧ (∃ a' v, exA.getCov = .ok (a', v)) ∧ ∃ L, Denotes exA L :=
  ⟨exA_made, ⟨_, _, getCan_valid exA_good.toValid⟩, ⟨_, _, rfl⟩, _, exA_good.denotes⟩

/-! ### C30, C31 product and quotient -/

theorem op_spec {op : ℝ → ℝ → ℝ} {s : ℝ} (hop : ∀ x y, op x y = x + s * y) {a : Gauss n} {b : Gauss m}
    {La Lb : (Var → ℝ) → ℝ} (ha : Made a) (hb : Made b) (da : Denotes a La) (db : Denotes b Lb) :
    ∃ a' b' r, absorbOrCancel op a b = .ok (a', b', r) ∧ Denotes r (fun x => La x + s * Lb x) ∧
      (∀ v, v ∈ r.vars ↔ v ∈ a.vars ∨ v ∈ b.vars) ∧
      (Denotes a' La ∧ a'.vars = a.vars) ∧ (Denotes b' Lb ∧ b'.vars = b.vars) := by
  have ga := da.good ha.inv
  have gb := db.good hb.inv
  have e := absorbOrCancel_valid op ga.toValid gb.toValid
  obtain ⟨-, -, g1, g2, g3⟩ := absorb_inv ha.inv hb.inv e
  refine ⟨_, _, _, e, ?_, fun v => mem_opVars, ⟨?_, rfl⟩, ?_, rfl⟩
  · refine g3.denotes.congr fun x => ?_
    rw [da.eq ga, db.eq gb]
    exact evalCan_opParams hop ga.nodup gb.nodup ga.len gb.len x
  · exact denotes_of_canOf ga g1 rfl rfl da
  · exact denotes_of_canOf gb g2 rfl rfl db

/-- **C30.** The product of any two Gaussians, for any relation between their scopes, denotes the sum of the
log potentials at every point; its scope is the union; the operands still denote what they did. -/
theorem C30_multiply {a : Gauss n} {b : Gauss m} {La Lb : (Var → ℝ) → ℝ} (ha : Made a) (hb : Made b)
    (da : Denotes a La) (db : Denotes b Lb) :
    ∃ a' b' r, a.multiply b = .ok (a', b', r) ∧ Denotes r (fun x => La x + Lb x) ∧
      (∀ v, v ∈ r.vars ↔ v ∈ a.vars ∨ v ∈ b.vars) ∧
      (Denotes a' La ∧ a'.vars = a.vars) ∧ (Denotes b' Lb ∧ b'.vars = b.vars) := by
  have := op_spec (op := (· + ·)) (s := 1) (fun x y => by ring) ha hb da db
  simp only [one_mul] at this
  exact this

/-- **C31.** The quotient denotes the difference of the log potentials at every point; its scope is the
union. -/
theorem C31_divide {a : Gauss n} {b : Gauss m} {La Lb : (Var → ℝ) → ℝ} (ha : Made a) (hb : Made b)
    (da : Denotes a La) (db : Denotes b Lb) :
    ∃ a' b' r, a.divide b = .ok (a', b', r) ∧ Denotes r (fun x => La x - Lb x) ∧
      (∀ v, v ∈ r.vars ↔ v ∈ a.vars ∨ v ∈ b.vars) ∧
      (Denotes a' La ∧ a'.vars = a.vars) ∧ (Denotes b' Lb ∧ b'.vars = b.vars) := by
  have := op_spec (op := (· - ·)) (s := -1) (fun x y => by ring) ha hb da db
  simp only [neg_mul, one_mul, ← sub_eq_add_neg] at this
  exact this

/-- **C31.** Multiplying by a Gaussian and dividing by it again denotes the first operand. -/
theorem C31_multiply_divide {a : Gauss n} {b : Gauss m} {La Lb : (Var → ℝ) → ℝ} (ha : Made a) (hb : Made b)
    (da : Denotes a La) (db : Denotes b Lb) :
    ∃ a' b' p p' b'' q, a.multiply b = .ok (a', b', p) ∧ p.divide b' = .ok (p', b'', q) ∧ Denotes q La := by
  obtain ⟨a', b', p, hm, dp, -, -, db', -⟩ := C30_multiply ha hb da db
  obtain ⟨p', b'', q, hd, dq, -⟩ := C31_divide (.multiply ha hb hm) (.multiply_right ha hb hm) dp db'
  exact ⟨a', b', p, p', b'', q, hm, hd, dq.congr fun x => by ring⟩

/-- The hypotheses of the theorems on products and quotients can be met by factors with overlapping scopes,
one in each form. -/
example : Made exA ∧ Made exB ∧ (∃ L, Denotes exA L) ∧ ∃ L, Denotes exB L :=
  ⟨exA_made, exB_made, ⟨_, exA_good.denotes⟩, _, exB_good.denotes⟩

/-! ### C34 reordering -/

/-- **C34 (part that holds).** Reordering to a permutation of the scope succeeds and preserves the function;
a list naming a different set of variables raises. What is missing for the full claim: lists that repeat a
name must raise as well, which is false (`C34_repeated_name`). -/
theorem C34_reorder_partial {a : Gauss n} {L : (Var → ℝ) → ℝ} (ha : Made a) (hL : Denotes a L) (new : List Var) :
    (new.Perm a.vars → ∃ r, a.reorder new = .ok r ∧ r.vars = new ∧ Denotes r L) ∧
    ((¬ ∀ v, v ∈ new ↔ v ∈ a.vars) → a.reorder new = .error .assertionError) := by
  have hg := hL.good ha.inv
  constructor
  · intro hp
    obtain ⟨e, he, hr⟩ := reorder_ok hg.len hg.nodup hp
    have hgr : Good (⟨new, a.can.map (permCan e), a.cov.map (permCov e), a.vac⟩ : Gauss n) :=
      ⟨valid_perm e hg.toValid hp, by
        rw [canOf_perm e hg.toValid]
        exact hg.symm.submatrix _⟩
    refine ⟨_, hr, rfl, ?_⟩
    rw [hL.eq hg]
    refine hgr.denotes.congr fun x => ?_
    unfold logOf
    rw [canOf_perm e hg.toValid]
    change evalCan _ (vecAt new _ x) = _
    rw [he x, evalCan_permCan]
  · intro h
    unfold Gauss.reorder
    rw [if_neg, if_pos]
    · rw [sameSet_iff]
      exact h
    · rintro rfl
      exact h fun v => Iff.rfl

/-- **C34 (violation).** Reordering a Gaussian over `a`, `b` to `["b", "a", "b"]` returns a factor with three
variable names and two dimensions, which can no longer be evaluated. -/
theorem C34_repeated_name : ∃ r, exA.reorder ["b", "a", "b"] = .ok r ∧ r.vars = ["b", "a", "b"] ∧
    ∀ x : Var → ℝ, r.logPotential (r.vars.map x) = .error .valueError := by
  have h : exA.vars.length = 2 ∧ ∀ v ∈ exA.vars, ["b", "a", "b"].idxOf v < 2 := by
    refine ⟨rfl, ?_⟩
    simp only [exA]
    decide
  have h1 : ¬ ["b", "a", "b"] = exA.vars := by simp [exA]
  have h2 : ¬ ¬ sameSet ["b", "a", "b"] exA.vars := by
    rw [not_not, sameSet_iff]
    intro v
    simp only [exA, List.mem_cons, List.not_mem_nil]
    tauto
  unfold Gauss.reorder
  rw [if_neg h1, if_neg h2, dif_pos h]
  exact ⟨_, rfl, rfl, fun x => rfl⟩

/-- The hypotheses of `C34_reorder_partial` can be met by a permutation that is not the identity. -/
example : Made exA ∧ (∃ L, Denotes exA L) ∧ ["b", "a"].Perm exA.vars := ⟨exA_made, ⟨_, exA_good.denotes⟩, by
  simp only [exA]
  decide⟩

/-! ### C29, C35 weight and normalisation -/

/-- What can be read about an object with positive definite precision. -/
theorem weight_good {a : Gauss n} (hg : Good a) (hK : (canOf a).prec.PosDef) (hv : a.vac = false) :
    getWeight a = .ok (⟨a.vars, a.can, some (toCov (canOf a)), a.vac⟩, Real.exp (toCov (canOf a)).lw) := by
  unfold getWeight
  rw [getCov_valid hg.toValid hv hK.det_pos]
  rfl

theorem integrate_good {a : Gauss n} (hg : Good a) (hK : (canOf a).prec.PosDef) (x : Var → ℝ) :
    IntegrableOut a.vars (fun z => Real.exp (logOf a hg.len z)) x ∧
    integrateOut a.vars (fun z => Real.exp (logOf a hg.len z)) x = Real.exp (toCov (canOf a)).lw := by
  obtain ⟨h1, h2⟩ := integrateOut_all hg.nodup hg.len (fun y => Real.exp (evalCan (canOf a) y)) x
  exact ⟨h2.2 (integrable_evalCan hK), h1.trans (integral_evalCan hK)⟩

/-- **C29.** For every object whose precision is positive definite and which is not reported vacuous,
`get_weight` returns the Lebesgue integral of the potential over all of its variables. -/
theorem C29_weight {a a' : Gauss n} {c : Can n} {L : (Var → ℝ) → ℝ} (ha : Made a) (hL : Denotes a L)
    (hc : a.getCan = .ok (a', c)) (hK : c.prec.PosDef) (hv : a.isVacuous = false) :
    ∃ b w, a.getWeight = .ok (b, w) ∧ Denotes b L ∧ ∀ x,
      IntegrableOut a.vars (fun z => Real.exp (L z)) x ∧ integrateOut a.vars (fun z => Real.exp (L z)) x = w := by
  obtain ⟨hg, -, rfl⟩ := getCan_inv ha.inv hc
  have hvac : a.vac = false := by
    unfold isVacuous at hv
    exact (Bool.or_eq_false_iff.1 hv).1
  refine ⟨_, _, weight_good hg hK hvac, (C38_accessors ha hL).2.2.1 _ _ (weight_good hg hK hvac) |>.1, fun x => ?_⟩
  rw [hL.eq hg]
  exact integrate_good hg hK x

/-- The flag never gets in the way of a Gaussian that was constructed with a positive definite matrix in
either form. -/
theorem C29_not_vacuous {vars : List Var} {a : Gauss n} :
    (∀ v : CovF n, mkCov vars v = .ok a → a.isVacuous = false) ∧
    ∀ c : Can n, c.prec.PosDef → mkCan vars c = .ok a → a.isVacuous = false := by
  constructor
  · intro v h
    obtain ⟨-, -, rfl⟩ := mkCov_eq_ok h
    rfl
  · intro c hc h
    obtain ⟨-, -, rfl⟩ := mkCan_eq_ok h
    simp [isVacuous, vacParams_posDef hc]

theorem exA_can : exA.getCan = .ok (⟨["a", "b"], some (toCan exV), some exV, false⟩, toCan exV) :=
  getCan_valid exA_good.toValid

/-- The hypotheses of `C29_weight` can be met. -/
example : Made exA ∧ (∃ L, Denotes exA L) ∧ (toCan exV).prec.PosDef ∧ exA.isVacuous = false :=
  ⟨exA_made, ⟨_, exA_good.denotes⟩, exS_posDef.inv, rfl⟩

theorem copy_good {a k : Gauss n} (hg : Good a) (hk : a.copy = .ok k) :
    Good k ∧ k.vars = a.vars ∧ canOf k = canOf a := by
  obtain ⟨ik, e1, e2, e3⟩ := copy_inv hg.inv hk
  refine ⟨ik.good fun hc v hv => ?_, e1, ?_⟩
  · rw [e3] at hv
    exact (hg.cov v hv).2
  · unfold canOf
    rw [e2, e3]

theorem copy_vac {a k : Gauss n} (hg : Good a) (hK : (canOf a).prec.PosDef) (hk : a.copy = .ok k) :
    k.vac = false := by
  obtain ⟨vars, can, cov, vac⟩ := a
  unfold Gauss.copy at hk
  split at hk
  · obtain ⟨b, hb, h⟩ := py_bind_eq_ok.1 hk
    obtain ⟨_, _, rfl⟩ := mkCov_eq_ok hb
    cases h
    rfl
  · obtain ⟨_, _, rfl⟩ := mkCov_eq_ok hk
    rfl
  · rename_i c hv hc
    obtain ⟨_, _, rfl⟩ := mkCan_eq_ok hk
    rw [canOf_can hc] at hK
    exact vacParams_posDef hK
  · cases hk

theorem copy_total {a : Gauss n} (hg : Good a) : ∃ k, a.copy = .ok k := by
  obtain ⟨vars, can, cov, vac⟩ := a
  unfold Gauss.copy
  cases cov with
  | none =>
    cases can with
    | none => simpa using hg.form
    | some c => exact ⟨_, mkCan_ok hg.nodup hg.len⟩
  | some v =>
    cases can with
    | none => exact ⟨_, mkCov_ok hg.nodup hg.len⟩
    | some c =>
      simp only [mkCov_ok hg.nodup hg.len, bind, Except.bind]
      exact ⟨_, rfl⟩

theorem normalize_good {a : Gauss n} (hg : Good a) (hK : (canOf a).prec.PosDef) :
    a.normalize = .ok ⟨a.vars, none, some { toCov (canOf a) with lw := 0 }, false⟩ := by
  obtain ⟨k, hk⟩ := copy_total hg
  obtain ⟨gk, e1, e2⟩ := copy_good hg hk
  have hv := copy_vac hg hK hk
  have h1 := getCov_valid gk.toValid hv (by rw [e2]; exact hK.det_pos)
  unfold Gauss.getCov at h1
  obtain ⟨b, hb, h1⟩ := py_bind_eq_ok.1 h1
  unfold Gauss.normalize
  rw [hk]
  dsimp only [bind, Except.bind]
  rw [hb]
  dsimp only
  split at h1
  · rename_i v hv'
    cases h1
    simp only [e1, e2, hv]
  · cases h1

theorem toCan_lw (v : CovF n) (x : Fin n → ℝ) (w : ℝ) :
    evalCan (toCan { v with lw := w }) x = evalCan (toCan v) x + (w - v.lw) := by
  simp only [evalCan, toCan]
  ring

/-- **C35.** For every object whose precision is positive definite, `normalize` returns a Gaussian that
integrates to one and is a constant multiple of the original. -/
theorem C35_normalize {a a' : Gauss n} {c : Can n} {L : (Var → ℝ) → ℝ} (ha : Made a) (hL : Denotes a L)
    (hc : a.getCan = .ok (a', c)) (hK : c.prec.PosDef) :
    ∃ k N, a.normalize = .ok k ∧ k.vars = a.vars ∧ Denotes k N ∧ (∃ t, ∀ x, N x = L x + t) ∧
      ∀ x, integrateOut k.vars (fun z => Real.exp (N z)) x = 1 := by
  obtain ⟨hg, -, rfl⟩ := getCan_inv ha.inv hc
  have hs := symm_inv hg.symm
  have hd := det_inv_pos.2 hK.det_pos
  have gk : Good (⟨a.vars, none, some { toCov (canOf a) with lw := 0 }, false⟩ : Gauss n) :=
    good_mkCov hg.nodup hg.len _ hs hd
  refine ⟨_, _, normalize_good hg hK, rfl, gk.denotes, ⟨0 - (toCov (canOf a)).lw, fun x => ?_⟩, fun x => ?_⟩
  · rw [hL.eq hg]
    change evalCan (toCan { toCov (canOf a) with lw := 0 }) _ = _
    rw [toCan_lw, toCan_toCov hK.det_pos]
    rfl
  · have hK' : (canOf (⟨a.vars, none, some { toCov (canOf a) with lw := 0 }, false⟩ : Gauss n)).prec.PosDef :=
      hK.inv.inv
    rw [(integrate_good gk hK' x).2]
    change Real.exp (toCov (toCan { toCov (canOf a) with lw := 0 })).lw = 1
    rw [toCov_toCan (by exact hd.ne')]
    exact Real.exp_zero

/-- The hypotheses of `C35_normalize` can be met. -/
example : Made exA ∧ (∃ L, Denotes exA L) ∧ (∃ a', exA.getCan = .ok (a', toCan exV)) ∧ (toCan exV).prec.PosDef :=
  ⟨exA_made, ⟨_, exA_good.denotes⟩, ⟨_, exA_can⟩, exS_posDef.inv⟩

/-! ### C73 named matrix operations -/

/-- The entry of a matrix with rows and columns labelled `vs` at a pair of names, zero for absent names. -/
def EntryAt (A : Matrix (Fin n) (Fin n) ℝ) (vs : List Var) (v w : Var) (r : ℝ) : Prop :=
  (∃ i j : Fin n, vs[i.1]? = some v ∧ vs[j.1]? = some w ∧ r = A i j) ∨ ((v ∉ vs ∨ w ∉ vs) ∧ r = 0)

/-- The entry of a vector labelled `vs` at a name, zero for absent names. -/
def EntryAtV (x : Fin n → ℝ) (vs : List Var) (v : Var) (r : ℝ) : Prop :=
  (∃ i : Fin n, vs[i.1]? = some v ∧ r = x i) ∨ (v ∉ vs ∧ r = 0)

theorem entryM_at {A : Matrix (Fin n) (Fin n) ℝ} {vs : List Var} (hnd : vs.Nodup) (hn : vs.length = n) {v w : Var}
    {r : ℝ} (h : EntryAt A vs v w r) : r = entryM A vs hn v w := by
  rcases h with ⟨i, j, hi, hj, rfl⟩ | ⟨h, rfl⟩
  · obtain ⟨hi1, rfl⟩ := List.getElem?_eq_some_iff.1 hi
    obtain ⟨hj1, rfl⟩ := List.getElem?_eq_some_iff.1 hj
    exact (entryM_get hnd hn A i j).symm
  · rcases h with h | h
    · exact (entryM_not_mem_left hn A h).symm
    · exact (entryM_not_mem_right hn A h).symm

theorem entryV_at {x : Fin n → ℝ} {vs : List Var} (hnd : vs.Nodup) (hn : vs.length = n) {v : Var}
    {r : ℝ} (h : EntryAtV x vs v r) : r = entryV x vs hn v := by
  rcases h with ⟨i, hi, rfl⟩ | ⟨h, rfl⟩
  · obtain ⟨hi1, rfl⟩ := List.getElem?_eq_some_iff.1 hi
    exact (entryV_get hnd hn x i).symm
  · exact (entryV_not_mem hn x h).symm

/-- **C73.** For matrices labelled by distinct names the named operation succeeds, its labels are distinct and
are the union, and its entry at each pair of names is the operator applied to the operands' entries for those
names, with zero for absent names. -/
theorem C73_matrix {A : Matrix (Fin n) (Fin n) ℝ} {B : Matrix (Fin m) (Fin m) ℝ} {va vb : List Var}
    (hna : va.Nodup) (hnb : vb.Nodup) (ha : va.length = n) (hb : vb.length = m) (op : ℝ → ℝ → ℝ) :
    (opVars va vb).Nodup ∧ (∀ v, v ∈ opVars va vb ↔ v ∈ va ∨ v ∈ vb) ∧
    ∃ R, indexedMat A B va vb op = .ok R ∧ ∀ i j ra rb,
      EntryAt A va (opVars va vb)[i] (opVars va vb)[j] ra → EntryAt B vb (opVars va vb)[i] (opVars va vb)[j] rb →
        R i j = op ra rb := by
  refine ⟨nodup_opVars hna hnb, fun v => mem_opVars, _, indexedMat_ok ha hb op, fun i j ra rb h1 h2 => ?_⟩
  rw [entryM_at hna ha h1, entryM_at hnb hb h2]

/-- **C73.** The same for vectors. -/
theorem C73_vector {A : Fin n → ℝ} {B : Fin m → ℝ} {va vb : List Var}
    (hna : va.Nodup) (hnb : vb.Nodup) (ha : va.length = n) (hb : vb.length = m) (op : ℝ → ℝ → ℝ) :
    ∃ R, indexedVec A B va vb op = .ok R ∧ ∀ i ra rb,
      EntryAtV A va (opVars va vb)[i] ra → EntryAtV B vb (opVars va vb)[i] rb → R i = op ra rb := by
  refine ⟨_, indexedVec_ok ha hb op, fun i ra rb h1 h2 => ?_⟩
  rw [entryV_at hna ha h1, entryV_at hnb hb h2]

/-- **C73.** A label list of the wrong length raises. -/
theorem C73_shape {A : Matrix (Fin n) (Fin n) ℝ} {B : Matrix (Fin m) (Fin m) ℝ} {va vb : List Var}
    (h : va.length ≠ n ∨ vb.length ≠ m) (op : ℝ → ℝ → ℝ) :
    indexedMat A B va vb op = .error .assertionError := by
  unfold indexedMat
  rw [dif_neg (by tauto)]

/-- The hypotheses of the C73 theorems can be met with overlapping labels, and entries exist at every pair of
names. -/
example : ["a", "b"].Nodup ∧ ["b", "c"].Nodup ∧ EntryAt exS ["a", "b"] "a" "b" 1 ∧
    EntryAt exS ["a", "b"] "a" "c" 0 := by
  refine ⟨by decide, by decide, .inl ⟨0, 1, by simp, by simp, by simp [exS]⟩, .inr ⟨.inr (by simp), rfl⟩⟩

end Verif.Gauss
