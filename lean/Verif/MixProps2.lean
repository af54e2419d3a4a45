import Verif.MixProps

/-!
# Properties of Gaussian mixtures, continued (C58, C59, C61 with moment matching, C83)
-/

namespace Verif.Mix
open Matrix Gauss Spec MeasureTheory

/-- A component that is not reported vacuous and has a positive definite precision. -/
def Proper (c : AnyG) : Prop := c.2.isVacuous = false ∧ ∀ a' k, c.2.getCan = .ok (a', k) → k.prec.PosDef

/-- The weighted functions `f F` and `f G` are integrable over the variables `vs` and have the same integral. -/
def SameMoment (vs : List Var) (f F G : (Var → ℝ) → ℝ) : Prop := ∀ x,
  IntegrableOut vs (fun z => f z * F z) x ∧ IntegrableOut vs (fun z => f z * G z) x ∧
    integrateOut vs (fun z => f z * F z) x = integrateOut vs (fun z => f z * G z) x

/-! ### Integrals of components and mixtures -/

theorem proper_good {vars : List Var} {c : AnyG} {L : (Var → ℝ) → ℝ} (h : Comp vars c L) (hp : Proper c) :
    c.2.vac = false ∧ (canOf c.2).prec.PosDef := by
  refine ⟨?_, hp.2 _ _ (getCan_valid h.good.toValid)⟩
  have := hp.1
  unfold Gauss.isVacuous at this
  exact (Bool.or_eq_false_iff.1 this).1

theorem integrateOut_weighted {vs : List Var} {f : (Var → ℝ) → ℝ} {ys : List ℝ} {Ls : List ((Var → ℝ) → ℝ)} {x : Var → ℝ}
    (h : List.Forall₂ (fun y L => IntegrableOut vs (fun z => f z * Real.exp (L z)) x ∧
      integrateOut vs (fun z => f z * Real.exp (L z)) x = y) ys Ls) :
    IntegrableOut vs (fun z => f z * mixFn Ls z) x ∧ integrateOut vs (fun z => f z * mixFn Ls z) x = ys.sum := by
  induction h with
  | nil => simp [mixFn, IntegrableOut, integrateOut]
  | @cons y L ys Ls h1 _ ih =>
    have e : (fun z => f z * mixFn (L :: Ls) z) = fun z => f z * Real.exp (L z) + f z * mixFn Ls z := by
      funext z
      simp only [mixFn, List.map_cons, List.sum_cons]
      ring
    rw [e, List.sum_cons, ← h1.2, ← ih.2]
    exact ⟨h1.1.add ih.1, integral_add h1.1 ih.1⟩

/-- The moments of order at most two of a Gaussian. -/
theorem good_moments {n : ℕ} {a : Gauss n} (hg : Good a) (hK : (canOf a).prec.PosDef) (x : Var → ℝ) :
    (IntegrableOut a.vars (fun z => 1 * Real.exp (logOf a hg.len z)) x ∧
      integrateOut a.vars (fun z => 1 * Real.exp (logOf a hg.len z)) x = Real.exp (toCov (canOf a)).lw) ∧
    (∀ i : Fin n, IntegrableOut a.vars (fun z => z (a.vars[i.1]'(hg.len.symm ▸ i.2)) * Real.exp (logOf a hg.len z)) x ∧
      integrateOut a.vars (fun z => z (a.vars[i.1]'(hg.len.symm ▸ i.2)) * Real.exp (logOf a hg.len z)) x =
        Real.exp (toCov (canOf a)).lw * (toCov (canOf a)).mean i) ∧
    ∀ i j : Fin n, IntegrableOut a.vars (fun z => z (a.vars[i.1]'(hg.len.symm ▸ i.2)) *
        z (a.vars[j.1]'(hg.len.symm ▸ j.2)) * Real.exp (logOf a hg.len z)) x ∧
      integrateOut a.vars (fun z => z (a.vars[i.1]'(hg.len.symm ▸ i.2)) *
          z (a.vars[j.1]'(hg.len.symm ▸ j.2)) * Real.exp (logOf a hg.len z)) x =
        Real.exp (toCov (canOf a)).lw *
          ((toCov (canOf a)).cov i j + (toCov (canOf a)).mean i * (toCov (canOf a)).mean j) := by
  refine ⟨by simpa only [one_mul] using integrate_good hg hK x, fun i => ?_, fun i j => ?_⟩
  · obtain ⟨h1, h2⟩ := integrateOut_all hg.nodup hg.len (fun y => y i * Real.exp (evalCan (canOf a) y)) x
    obtain ⟨k1, k2⟩ := GaussInt.dens_mean hK ((canOf a).prec⁻¹ *ᵥ (canOf a).h) i
    have e : (fun y : Fin n → ℝ => y i * Real.exp (evalCan (canOf a) y)) = fun y => Real.exp (toCov (canOf a)).lw *
        (y i * GaussInt.dens (canOf a).prec ((canOf a).prec⁻¹ *ᵥ (canOf a).h) y) := by
      funext y
      rw [exp_evalCan hK]
      ring
    refine ⟨h2.2 ?_, h1.trans ?_⟩
    · rw [e]
      exact k1.const_mul _
    · rw [e, integral_const_mul, k2]
      rfl
  · obtain ⟨h1, h2⟩ := integrateOut_all hg.nodup hg.len (fun y => y i * y j * Real.exp (evalCan (canOf a) y)) x
    obtain ⟨k1, k2⟩ := GaussInt.dens_second hK ((canOf a).prec⁻¹ *ᵥ (canOf a).h) i j
    have e : (fun y : Fin n → ℝ => y i * y j * Real.exp (evalCan (canOf a) y)) = fun y => Real.exp (toCov (canOf a)).lw *
        (y i * y j * GaussInt.dens (canOf a).prec ((canOf a).prec⁻¹ *ᵥ (canOf a).h) y) := by
      funext y
      rw [exp_evalCan hK]
      ring
    refine ⟨h2.2 ?_, h1.trans ?_⟩
    · rw [e]
      exact k1.const_mul _
    · rw [e, integral_const_mul, k2]
      rfl

/-- The moments of order at most two of a function with weight `exp v.lw`, mean `v.mean`, covariance `v.cov`. -/
structure HasMoments (vars : List Var) (v : CovF vars.length) (L : (Var → ℝ) → ℝ) : Prop where
  one : ∀ x, IntegrableOut vars (fun z => 1 * Real.exp (L z)) x ∧
    integrateOut vars (fun z => 1 * Real.exp (L z)) x = Real.exp v.lw
  first : ∀ x (i : Fin vars.length), IntegrableOut vars (fun z => z vars[i] * Real.exp (L z)) x ∧
    integrateOut vars (fun z => z vars[i] * Real.exp (L z)) x = Real.exp v.lw * v.mean i
  second : ∀ x (i j : Fin vars.length), IntegrableOut vars (fun z => z vars[i] * z vars[j] * Real.exp (L z)) x ∧
    integrateOut vars (fun z => z vars[i] * z vars[j] * Real.exp (L z)) x =
      Real.exp v.lw * (v.cov i j + v.mean i * v.mean j)

theorem good_hasMoments {vars : List Var} {a : Gauss vars.length} {L : (Var → ℝ) → ℝ} (hg : Good a) (hd : Denotes a L)
    (hv : a.vars = vars) (hK : (canOf a).prec.PosDef) : HasMoments vars (toCov (canOf a)) L := by
  have hL := hd.eq hg
  subst hL
  have key := good_moments hg hK
  simp only [hv] at key
  exact ⟨fun x => (key x).1, fun x => (key x).2.1, fun x => (key x).2.2⟩

theorem readG_ok {vars : List Var} {c : AnyG} {L : (Var → ℝ) → ℝ} (h : Comp vars c L) (hp : Proper c) :
    readG c = .ok ⟨c.1, ⟨c.2.vars, c.2.can, some (toCov (canOf c.2)), c.2.vac⟩, toCov (canOf c.2)⟩ ∧
      Comp vars ⟨c.1, ⟨c.2.vars, c.2.can, some (toCov (canOf c.2)), c.2.vac⟩⟩ L := by
  obtain ⟨h1, h2⟩ := proper_good h hp
  have e := getCov_valid h.good.toValid h1 h2.det_pos
  constructor
  · unfold readG
    rw [e]
    rfl
  · exact ⟨.getCov h.made e, ((C38_accessors h.made h.den).2.1 _ _ e).1, h.vars⟩

theorem readDim_ok {vars : List Var} {c : AnyG} {L : (Var → ℝ) → ℝ} (h : Comp vars c L) (hp : Proper c) :
    ∃ c' v, readDim vars.length c = .ok (c', v) ∧ Comp vars c' L ∧ v.cov.PosDef ∧ HasMoments vars v L := by
  obtain ⟨h1, h2⟩ := readG_ok h hp
  obtain ⟨-, h3⟩ := proper_good h hp
  have hl : c.1 = vars.length := by rw [← h.good.len, h.vars]
  obtain ⟨k, g⟩ := c
  dsimp only at hl
  subst hl
  refine ⟨_, toCov (canOf g), ?_, h2, ?_, ?_⟩
  · unfold readDim
    rw [h1]
    dsimp only [bind, Except.bind]
    rw [dif_pos rfl]
  · exact h3.inv
  · exact good_hasMoments h.good h.den h.vars h3

/-! ### C58 weight and normalisation -/

theorem exp_lse {l : List ℝ} (h : l ≠ []) : Real.exp (lse l) = (l.map Real.exp).sum := by
  unfold lse
  rw [Real.exp_log]
  refine List.sum_pos _ (fun y hy => ?_) (by simpa using h)
  obtain ⟨L, -, rfl⟩ := List.mem_map.1 hy
  exact Real.exp_pos _

/-- **C58.** `get_log_weight` returns the logarithm of the Lebesgue integral of the potential over all variables, for
every mixture of components with positive definite precisions. -/
theorem C58_weight {M : Mix} {Ls : List ((Var → ℝ) → ℝ)} (hM : IsMix M Ls) (hp : ∀ c ∈ M.comps, Proper c) :
    ∃ M' w, M.getLogWeight = .ok (M', w) ∧ (IsMix M' Ls ∧ M'.vars = M.vars) ∧ ∀ x,
      IntegrableOut M.vars (mixFn Ls) x ∧ integrateOut M.vars (mixFn Ls) x = Real.exp w := by
  obtain ⟨l, h1, h2⟩ := mapM_forall₂ (f := readG)
    (S := fun (p : Σ k, Gauss k × CovF k) L => Comp M.vars ⟨p.1, p.2.1⟩ L ∧ ∀ x, IntegrableOut M.vars (fun z => 1 * Real.exp (L z)) x ∧
      integrateOut M.vars (fun z => 1 * Real.exp (L z)) x = Real.exp p.2.2.lw) hM.comps fun c hc L h => by
      obtain ⟨k1, k2⟩ := readG_ok h (hp c hc)
      refine ⟨_, k1, k2, fun x => ?_⟩
      have := (good_moments h.good (proper_good h (hp c hc)).2 x).1
      rw [h.vars, ← h.den.eq h.good] at this
      exact this
  have hf : List.Forall₂ (Comp M.vars) (l.map fun p => (⟨p.1, p.2.1⟩ : AnyG)) Ls :=
    List.forall₂_map_left_iff.2 (h2.imp fun _ _ h => h.1)
  refine ⟨{ M with comps := l.map fun p => ⟨p.1, p.2.1⟩ }, lse (l.map fun p => p.2.2.lw), ?_,
    ⟨⟨ne_of_forall₂ hM hf rfl, hf⟩, rfl⟩, fun x => ?_⟩
  · unfold Mix.getLogWeight
    rw [h1]
    rfl
  · have := integrateOut_weighted (f := fun _ => 1) (ys := l.map fun p => Real.exp p.2.2.lw) (Ls := Ls) (x := x)
      (vs := M.vars) (List.forall₂_map_left_iff.2 (h2.imp fun _ _ h => h.2 x))
    simp only [one_mul] at this
    rw [exp_lse (by
      have := ne_of_forall₂ hM hf rfl
      simpa using this), List.map_map]
    exact this

theorem shiftG_ok {vars : List Var} {c : AnyG} {L : (Var → ℝ) → ℝ} (h : Comp vars c L) (w : ℝ) :
    ∃ k, shiftG w c = .ok k ∧ Comp vars k fun x => L x + w := by
  obtain ⟨k, hk, dk, ek⟩ := (C38_copy_weight h.made h.den).1
  have hm : Made k := .copy h.made hk
  refine ⟨⟨c.1, k.addLogWeight w⟩, ?_, .addLogWeight w hm, (C38_copy_weight hm dk).2 w, ek.trans h.vars⟩
  unfold shiftG
  rw [hk]
  rfl

/-- **C58.** `normalize` divides the potential by its integral over all variables, so that the total weight is one and
the ratios of potentials are kept. The mixture itself keeps its potential. -/
theorem C58_normalize {M : Mix} {Ls : List ((Var → ℝ) → ℝ)} (hM : IsMix M Ls) (hp : ∀ c ∈ M.comps, Proper c) :
    ∃ M' R Rs, M.normalize = .ok (M', R) ∧ IsMix R Rs ∧ R.vars = M.vars ∧
      Pot R (normalised M.vars (mixFn Ls)) ∧ (∀ x, IntegrableOut M.vars (mixFn Ls) x) ∧
      (∀ x, IntegrableOut M.vars (mixFn Rs) x ∧ integrateOut M.vars (mixFn Rs) x = 1) ∧
      IsMix M' Ls ∧ M'.vars = M.vars := by
  obtain ⟨M', w, h1, ⟨h2, h3⟩, h4⟩ := C58_weight hM hp
  obtain ⟨l, k1, k2⟩ := mapM_forall₂ (f := shiftG (-1 * w)) (S := fun p L => Comp M'.vars p fun x => L x + -1 * w)
    h2.comps fun c _ L h => shiftG_ok h _
  have hs : List.Forall₂ (Comp M'.vars) l (Ls.map fun L x => L x + -1 * w) := List.forall₂_map_right_iff.2 k2
  obtain ⟨R, k3, k4, k5, -, -⟩ := make_ok (ne_of_forall₂ h2 hs (by simp)) hs
  have e : ∀ x, mixFn (Ls.map fun L x => L x + -1 * w) x = mixFn Ls x / Real.exp w := by
    intro x
    have := mixFn_op Ls (fun _ => w) (-1) x
    rw [this, neg_one_mul, Real.exp_neg, div_eq_mul_inv]
  have e' : mixFn (Ls.map fun L x => L x + -1 * w) = fun x => mixFn Ls x / Real.exp w := funext e
  refine ⟨M', R, _, ?_, k4, k5.trans h3, k4.pot.congr fun x => ?_, fun x => (h4 x).1, fun x => ?_, h2, h3⟩
  · unfold Mix.normalize
    rw [h1]
    dsimp only [bind, Except.bind]
    rw [k1]
    dsimp only
    rw [k3]
  · rw [e, normalised, (h4 x).2]
  · rw [e']
    refine ⟨(h4 x).1.div_const _, ?_⟩
    have := (h4 x).2
    unfold integrateOut at this ⊢
    rw [integral_div, this, div_self (Real.exp_pos _).ne']

theorem exM_proper : ∀ c ∈ exM.comps, Proper c := by
  intro c hc
  simp only [exM, List.mem_cons, List.not_mem_nil, or_false] at hc
  rcases hc with rfl | rfl
  · refine ⟨rfl, fun a' k h => ?_⟩
    obtain ⟨-, -, rfl⟩ := getCan_inv exA_good.inv h
    exact exS_posDef.inv
  · refine ⟨rfl, fun a' k h => ?_⟩
    obtain ⟨-, -, rfl⟩ := getCan_inv exA2_good.inv h
    exact exS_posDef.inv

/-- The hypotheses of the C58 and C59 theorems can be met. -/
example : (∃ Ls, IsMix exM Ls) ∧ ∀ c ∈ exM.comps, Proper c := ⟨⟨_, exM_isMix⟩, exM_proper⟩

/-! ### C59 moment matching -/

theorem sum_apply {n : ℕ} (l : List (Fin n → ℝ)) (i : Fin n) : l.sum i = (l.map fun v => v i).sum := by
  induction l with
  | nil => rfl
  | cons a l ih => rw [List.sum_cons, Pi.add_apply, ih, List.map_cons, List.sum_cons]

theorem sum_apply₂ {n : ℕ} (l : List (Matrix (Fin n) (Fin n) ℝ)) (i j : Fin n) :
    l.sum i j = (l.map fun v => v i j).sum := by
  induction l with
  | nil => rfl
  | cons a l ih => rw [List.sum_cons, Matrix.add_apply, ih, List.map_cons, List.sum_cons]

theorem mmCov_posDef {n : ℕ} {l : List (CovF n)} (hne : l ≠ []) (h : ∀ v ∈ l, v.cov.PosDef) (m : Fin n → ℝ) :
    (mmCov l m).PosDef := by
  unfold mmCov
  refine PosDef.smul ?_ (by positivity)
  have key : ∀ v : CovF n, v.cov.PosDef →
      (Real.exp v.lw • v.cov + Real.exp v.lw • vecMulVec (v.mean - m) (v.mean - m)).PosDef := by
    intro v hv
    refine (hv.smul (Real.exp_pos _)).add_posSemidef ?_
    refine PosSemidef.smul ?_ (Real.exp_pos _).le
    have := posSemidef_vecMulVec_self_star (v.mean - m)
    simpa using this
  induction l with
  | nil => exact absurd rfl hne
  | cons v l ih =>
    rw [List.map_cons, List.sum_cons]
    have hv := key v (h v (List.mem_cons_self ..))
    cases l with
    | nil => simpa using hv
    | cons u l => exact hv.add (ih (by simp) fun v hv => h v (List.mem_cons_of_mem _ hv))

/-- The algebra of moment matching. -/
theorem central_sum {α : Type} (l : List α) (w a b c : α → ℝ) (s t : ℝ) :
    (l.map fun v => w v * c v + w v * ((a v - s) * (b v - t))).sum + t * (l.map fun v => w v * a v).sum +
      s * (l.map fun v => w v * b v).sum = (l.map fun v => w v * (c v + a v * b v)).sum + s * t * (l.map w).sum := by
  induction l with
  | nil => simp
  | cons v l ih =>
    simp only [List.map_cons, List.sum_cons]
    linear_combination ih

/-- **C59.** The Gaussian returned by moment matching has the integral, and all first and second moments, of the
mixture, for every mixture of components with positive definite precisions. -/
theorem C59_moment_match {M : Mix} {Ls : List ((Var → ℝ) → ℝ)} (hM : IsMix M Ls) (hp : ∀ c ∈ M.comps, Proper c) :
    ∃ M' g L, M.momentMatch = .ok (M', g) ∧ (IsMix M' Ls ∧ M'.vars = M.vars) ∧
      Made g ∧ Denotes g L ∧ g.vars = M.vars ∧
      SameMoment M.vars (fun _ => 1) (fun z => Real.exp (L z)) (mixFn Ls) ∧
      (∀ u ∈ M.vars, SameMoment M.vars (fun z => z u) (fun z => Real.exp (L z)) (mixFn Ls)) ∧
      ∀ u ∈ M.vars, ∀ v ∈ M.vars, SameMoment M.vars (fun z => z u * z v) (fun z => Real.exp (L z)) (mixFn Ls) := by
  obtain ⟨l, h1, h2⟩ := mapM_forall₂ (f := readDim M.vars.length)
    (S := fun p L => Comp M.vars p.1 L ∧ p.2.cov.PosDef ∧ HasMoments M.vars p.2 L) hM.comps fun c hc L h => by
      obtain ⟨c', v, k1, k2, k3, k4⟩ := readDim_ok h (hp c hc)
      exact ⟨(c', v), k1, k2, k3, k4⟩
  have hf : List.Forall₂ (Comp M.vars) (l.map Prod.fst) Ls := List.forall₂_map_left_iff.2 (h2.imp fun _ _ h => h.1)
  have hs : List.Forall₂ (HasMoments M.vars) (l.map Prod.snd) Ls :=
    List.forall₂_map_left_iff.2 (h2.imp fun _ _ h => h.2.2)
  have hpd : ∀ v ∈ l.map Prod.snd, v.cov.PosDef := by
    intro v hv
    obtain ⟨p, hpl, rfl⟩ := List.mem_map.1 hv
    obtain ⟨i, hi, rfl⟩ := List.mem_iff_getElem.1 hpl
    have := List.forall₂_iff_get.1 h2
    exact (this.2 i hi (this.1 ▸ hi)).2.1
  have hne : l.map Prod.snd ≠ [] := by
    have := ne_of_forall₂ hM hf rfl
    simpa using this
  generalize hvs : l.map Prod.snd = vs at *
  have hnd := hM.nodup
  have hC := mmCov_posDef hne hpd (mmMean vs)
  set v0 : CovF M.vars.length := ⟨mmCov vs (mmMean vs), mmMean vs, lse (vs.map CovF.lw)⟩ with hv0
  have hmk : mkCov M.vars v0 = .ok ⟨M.vars, none, some v0, false⟩ := mkCov_ok hnd rfl
  have hgood : Good (⟨M.vars, none, some v0, false⟩ : Gauss M.vars.length) :=
    good_mkCov hnd rfl _ (posDef_symm hC) hC.det_pos
  have hmom : HasMoments M.vars v0 (logOf _ hgood.len) := by
    have := good_hasMoments hgood hgood.denotes rfl hC.inv
    have e : toCov (canOf (⟨M.vars, none, some v0, false⟩ : Gauss M.vars.length)) = v0 := toCov_toCan hC.det_pos.ne'
    rw [e] at this
    exact this
  have hW : Real.exp v0.lw = (vs.map fun v => Real.exp v.lw).sum := by
    rw [hv0]
    dsimp only
    rw [exp_lse (by simpa using hne), List.map_map]
    rfl
  have hWpos : 0 < Real.exp v0.lw := Real.exp_pos _
  have hm : ∀ i, Real.exp v0.lw * v0.mean i = (vs.map fun v => Real.exp v.lw * v.mean i).sum := by
    intro i
    have e : v0.mean i = 1 / Real.exp v0.lw * (vs.map fun v => Real.exp v.lw * v.mean i).sum := by
      rw [hv0]
      dsimp only [mmMean]
      rw [Pi.smul_apply, smul_eq_mul, sum_apply, List.map_map]
      rfl
    rw [e]
    field_simp
  have hc : ∀ i j, Real.exp v0.lw * (v0.cov i j + v0.mean i * v0.mean j) =
      (vs.map fun v => Real.exp v.lw * (v.cov i j + v.mean i * v.mean j)).sum := by
    intro i j
    have e : Real.exp v0.lw * v0.cov i j = (vs.map fun v => Real.exp v.lw * v.cov i j +
        Real.exp v.lw * ((v.mean i - v0.mean i) * (v.mean j - v0.mean j))).sum := by
      have e1 : v0.cov i j = 1 / Real.exp v0.lw * (vs.map fun v => Real.exp v.lw * v.cov i j +
          Real.exp v.lw * ((v.mean i - v0.mean i) * (v.mean j - v0.mean j))).sum := by
        rw [hv0]
        dsimp only [mmCov]
        rw [Matrix.smul_apply, smul_eq_mul, sum_apply₂, List.map_map]
        rfl
      rw [e1]
      field_simp
    have key := central_sum vs (fun v => Real.exp v.lw) (fun v => v.mean i) (fun v => v.mean j) (fun v => v.cov i j)
      (v0.mean i) (v0.mean j)
    rw [← e, ← hm i, ← hm j, ← hW] at key
    linear_combination key
  refine ⟨{ M with comps := l.map Prod.fst }, _, _, ?_, ⟨⟨ne_of_forall₂ hM hf rfl, hf⟩, rfl⟩, .ofCov hC hmk,
    hgood.denotes, rfl, fun x => ?_, fun u hu x => ?_, fun u hu w hw x => ?_⟩
  · have hcs := hM.comps
    unfold Mix.momentMatch
    rw [h1]
    dsimp only [bind, Except.bind]
    rw [hvs]
    cases hcomps : M.comps with
    | nil => exact absurd hcomps hM.ne
    | cons c cs =>
      rw [hcomps] at hcs
      cases hcs with
      | cons hc0 _ =>
        dsimp only
        rw [hc0.vars, ← hv0, hmk]
  · have k := integrateOut_weighted (f := fun _ => 1) (ys := vs.map fun v => Real.exp v.lw) (Ls := Ls) (x := x)
      (vs := M.vars) (List.forall₂_map_left_iff.2 (hs.imp fun _ _ h => h.one x))
    refine ⟨(hmom.one x).1, k.1, ?_⟩
    rw [k.2, ← hW]
    exact (hmom.one x).2
  · obtain ⟨i, hi, rfl⟩ := List.mem_iff_getElem.1 hu
    have k := integrateOut_weighted (f := fun z => z M.vars[i]) (ys := vs.map fun v => Real.exp v.lw * v.mean ⟨i, hi⟩)
      (Ls := Ls) (x := x) (vs := M.vars) (List.forall₂_map_left_iff.2 (hs.imp fun _ _ h => h.first x ⟨i, hi⟩))
    refine ⟨(hmom.first x ⟨i, hi⟩).1, k.1, ?_⟩
    rw [k.2, ← hm]
    exact (hmom.first x ⟨i, hi⟩).2
  · obtain ⟨i, hi, rfl⟩ := List.mem_iff_getElem.1 hu
    obtain ⟨j, hj, rfl⟩ := List.mem_iff_getElem.1 hw
    have k := integrateOut_weighted (f := fun z => z M.vars[i] * z M.vars[j])
      (ys := vs.map fun v => Real.exp v.lw * (v.cov ⟨i, hi⟩ ⟨j, hj⟩ + v.mean ⟨i, hi⟩ * v.mean ⟨j, hj⟩))
      (Ls := Ls) (x := x) (vs := M.vars) (List.forall₂_map_left_iff.2 (hs.imp fun _ _ h => h.second x ⟨i, hi⟩ ⟨j, hj⟩))
    refine ⟨(hmom.second x ⟨i, hi⟩ ⟨j, hj⟩).1, k.1, ?_⟩
    rw [k.2, ← hc]
    exact (hmom.second x ⟨i, hi⟩ ⟨j, hj⟩).2

/-! ### Quotients of mixtures with cancel method 0 -/

/-- **C61 for larger divisors.** With cancel method 0 a mixture with several components is replaced by one Gaussian
with its integral, first and second moments, and the quotient by that Gaussian is exact. -/
theorem C61_divide_matched (approx : ℕ → Mix → Mix → Py (Mix × Mix × Mix)) {M N : Mix}
    {Ls Ks : List ((Var → ℝ) → ℝ)} (hM : IsMix M Ls) (hN : IsMix N Ks) (hp : ∀ c ∈ N.comps, Proper c)
    (hlen : N.comps.length ≠ 1) (hcm : M.cancelMethod = 0) :
    ∃ (M' N' R : Mix) (Rs : List ((Var → ℝ) → ℝ)) (L : (Var → ℝ) → ℝ), M.divide approx N = .ok (M', N', R) ∧ IsMix R Rs ∧
      Pot R (fun x => mixFn Ls x / Real.exp (L x)) ∧
      SameMoment N.vars (fun _ => 1) (fun z => Real.exp (L z)) (mixFn Ks) ∧
      (∀ u ∈ N.vars, SameMoment N.vars (fun z => z u) (fun z => Real.exp (L z)) (mixFn Ks)) ∧
      (∀ u ∈ N.vars, ∀ v ∈ N.vars, SameMoment N.vars (fun z => z u * z v) (fun z => Real.exp (L z)) (mixFn Ks)) ∧
      (IsMix M' Ls ∧ M'.vars = M.vars) ∧ (IsMix N' Ks ∧ N'.vars = N.vars) := by
  obtain ⟨N', g, L, h1, h2, h3, h4, h5, h6, h7, h8⟩ := C59_moment_match hN hp
  obtain ⟨M', g', R, Rs, k1, k2, k3, -, -, k6, -⟩ := C61_divide_gaussian hM h3 h4
  refine ⟨M', N', R, Rs, L, ?_, k2, k3, h6, h7, h8, k6, h2⟩
  unfold Mix.divide
  split
  · rename_i e
    rw [e] at hlen
    exact absurd rfl hlen
  · rw [if_pos hcm, h1]
    dsimp only [bind, Except.bind]
    rw [k1]

/-- The hypotheses of `C61_divide_matched` can be met. -/
example : (∃ Ls, IsMix exN Ls) ∧ (∃ Ls, IsMix exM Ls) ∧ (∀ c ∈ exM.comps, Proper c) ∧ exM.comps.length ≠ 1 ∧
    exN.cancelMethod = 0 := ⟨⟨_, exN_isMix⟩, ⟨_, exM_isMix⟩, exM_proper, by simp [exM], rfl⟩

/-- With a cancel method other than 0, 1 and 2 dividing by a mixture of several components raises. -/
theorem divide_other_method (approx : ℕ → Mix → Mix → Py (Mix × Mix × Mix)) {M N : Mix}
    (hlen : N.comps.length ≠ 1) (hcm : 2 < M.cancelMethod) : M.divide approx N = .error .unboundLocalError := by
  unfold Mix.divide
  split
  · rename_i e
    rw [e] at hlen
    exact absurd rfl hlen
  · rw [if_neg (by omega), if_neg (by omega)]

/-! ### C83 mixtures from scikit-learn parameters -/

/-- **C83.** The mixture made of means, positive definite covariances and positive weights has the weighted sum of
normal densities as its potential. -/
theorem C83_from_sklearn {vars : List Var} {n : ℕ} (hnd : vars.Nodup) (hn : vars.length = n)
    {params : List ((Fin n → ℝ) × Matrix (Fin n) (Fin n) ℝ × ℝ)} (hne : params ≠ [])
    (hp : ∀ p ∈ params, p.2.1.PosDef ∧ 0 < p.2.2) :
    ∃ M Ls, fromSklearn vars params = .ok M ∧ IsMix M Ls ∧ M.vars = vars ∧ ∀ x : Fin n → ℝ,
      M.potential (List.ofFn x) = .ok (params.map fun p => p.2.2 * normalDensity p.2.1 p.1 x).sum := by
  subst hn
  have hself : List.Forall₂ (fun a b => a = b) params params := List.forall₂_eq_eq_eq ▸ rfl
  obtain ⟨gs, h1, h2⟩ := mapM_forall₂ (f := sklearnComp vars)
    (S := fun g p => ∃ L, Comp vars g L ∧ ∀ z, Real.exp (L z) = p.2.2 * normalDensity p.2.1 p.1 (vecAt vars rfl z))
    hself fun p hp' q hq => by
      subst hq
      obtain ⟨k1, k2⟩ := hp p hp'
      have hmk : mkCov vars ⟨p.2.1, p.1, Real.log p.2.2⟩ = .ok _ := mkCov_ok hnd rfl
      have hg : Good (⟨vars, none, some ⟨p.2.1, p.1, Real.log p.2.2⟩, false⟩ : Gauss vars.length) :=
        good_mkCov hnd rfl _ (posDef_symm k1) k1.det_pos
      refine ⟨⟨_, _⟩, ?_, _, ⟨.ofCov k1 hmk, hg.denotes, rfl⟩, fun z => ?_⟩
      · unfold sklearnComp
        rw [npLog_ok k2]
        dsimp only [bind, Except.bind]
        rw [hmk]
      · have e1 := (C28_forms k1 hmk).1 (vecAt vars rfl z)
        have e2 := (hg.denotes z).2.1
        have e3 : List.ofFn (vecAt vars rfl z) = vars.map z := by
          refine List.ext_getElem (by simp) fun i h1 h2 => ?_
          simp [vecAt]
        rw [e3] at e1
        have := e2.symm.trans e1
        injection this with this
        rw [this, Real.exp_log k2]
  obtain ⟨Ls, h3, h4⟩ := exists_forall₂ h2
  obtain ⟨M, h5, h6, h7, -, -⟩ := make_ok (by
    rw [← List.length_pos_iff_ne_nil, h3.length_eq, h4.length_eq, List.length_pos_iff_ne_nil]
    exact hne) h3
  refine ⟨M, Ls, ?_, h6, h7, fun x => ?_⟩
  · unfold fromSklearn
    rw [h1]
    exact h5
  · obtain ⟨z, rfl⟩ := vecAt_surj hnd rfl x
    have e3 : List.ofFn (vecAt vars rfl z) = M.vars.map z := by
      rw [h7]
      refine List.ext_getElem (by simp) fun i h1 h2 => ?_
      simp [vecAt]
    rw [e3, (h6.pot z).1]
    congr 1
    unfold mixFn
    congr 1
    clear h1 h2 h3 h5 h6 hself hne hp
    induction h4 with
    | nil => rfl
    | cons k1 _ ih => rw [List.map_cons, List.map_cons, k1 z, ih]

/-- The hypotheses of `C83_from_sklearn` can be met. -/
example : ["a", "b"].Nodup ∧ ["a", "b"].length = 2 ∧ ∀ p ∈ [((![0, 1] : Fin 2 → ℝ), exS, (1 / 2 : ℝ)), (![5, 1], exS, 1 / 2)],
    p.2.1.PosDef ∧ 0 < p.2.2 := by
  refine ⟨by decide, rfl, fun p hp => ?_⟩
  simp only [List.mem_cons, List.not_mem_nil, or_false] at hp
  rcases hp with rfl | rfl <;> exact ⟨exS_posDef, by norm_num⟩

end Verif.Mix
