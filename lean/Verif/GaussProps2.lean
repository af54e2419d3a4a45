import Verif.GaussProps
import Verif.SparseOps

/-!
# Properties of Gaussian factors, continued (C32, C33, C39, C41)
-/

namespace Verif.Gauss
open Matrix Spec MeasureTheory
variable {n m : ℕ}

/-! ### C32 marginals -/

theorem split_marginal {hs : HashSeed} {vars keep : List Var} (hv : vars.Nodup) (hk : keep.Nodup)
    (hsub : ∀ v ∈ keep, v ∈ vars) : Split vars keep (hs.strs.toList (vars.filter (· ∉ keep))) where
  nv := hv
  nk := hk
  no := hs.strs.nodup _
  mem v := by
    simp only [SetOrder.mem, List.mem_filter, decide_eq_true_eq]
    exact ⟨fun h => (em (v ∈ keep)).imp id fun h' => ⟨h, h'⟩, fun h => h.elim (hsub v) (·.1)⟩
  disj v h h' := by
    simp only [SetOrder.mem, List.mem_filter, decide_eq_true_eq] at h'
    exact h'.2 h

theorem block_posDef {k l : ℕ} (e : Fin k ⊕ Fin l ≃ Fin n) {K : Matrix (Fin n) (Fin n) ℝ} (hs : K.IsSymm)
    (hK : ∀ y : Fin n → ℝ, y ≠ 0 → (∀ i, y (e (.inl i)) = 0) → 0 < y ⬝ᵥ K *ᵥ y) :
    (K.submatrix (e ∘ Sum.inr) (e ∘ Sum.inr)).PosDef := by
  refine PosDef.of_dotProduct_mulVec_pos ?_ fun y hy => ?_
  · rw [IsHermitian, conjTranspose_eq_transpose_of_trivial]
    exact hs.submatrix _
  · have hz : (Sum.elim (0 : Fin k → ℝ) y ∘ e.symm) ∘ e = Sum.elim (0 : Fin k → ℝ) y := by
      funext i
      simp
    have h1 := hK (Sum.elim (0 : Fin k → ℝ) y ∘ e.symm) (fun h => hy (by
      funext i
      have := congrFun h (e (.inr i))
      simpa using this)) (fun i => by simp)
    rw [quad_blocks e K _ 0 y hz] at h1
    simpa using h1

theorem canMarginalize_ok {vars keep out : List Var} (hsp : Split vars keep out)
    {c : Can n} (e : Fin keep.length ⊕ Fin out.length ≃ Fin n)
    (hx : positions vars n keep = .ok (e ∘ Sum.inl)) (hy : positions vars n out = .ok (e ∘ Sum.inr))
    (hK : 0 < (c.prec.submatrix (e ∘ Sum.inr) (e ∘ Sum.inr)).det) :
    canMarginalize vars c keep out = .ok ⟨keep, some (margOf c e), none, vacParams (margOf c e).prec⟩ := by
  unfold canMarginalize
  rw [hx, hy]
  dsimp only [bind, Except.bind]
  rw [npInv_ok hK.ne']
  dsimp only
  rw [npLog_ok (det2pi_pos.2 (det_inv_pos.2 hK))]
  dsimp only
  rw [mkCan_ok hsp.nk rfl]
  rfl

/-- The result of `marginalize` when the integrals exist. -/
theorem marginalizeTo_good (hs : HashSeed) {a : Gauss n} (hg : Good a) (hv : a.vac = false) {keep : List Var}
    (hk : keep.Nodup) (hsub : ∀ v ∈ keep, v ∈ a.vars)
    (hK : ∀ y : Fin n → ℝ, y ≠ 0 → (∀ i : Fin n, a.vars[i.1]'(hg.len.symm ▸ i.2) ∈ keep → y i = 0) →
      0 < y ⬝ᵥ (canOf a).prec *ᵥ y) :
    ∃ r, a.marginalizeTo hs keep = .ok r ∧ r.vars = keep ∧ ∃ hr : Good r, ∀ x,
      IntegrableOut (hs.strs.toList (a.vars.filter (· ∉ keep))) (fun z => Real.exp (logOf a hg.len z)) x ∧
      integrateOut (hs.strs.toList (a.vars.filter (· ∉ keep))) (fun z => Real.exp (logOf a hg.len z)) x =
        Real.exp (logOf r hr.len x) := by
  have hsp := split_marginal (hs := hs) hg.nodup hk hsub
  obtain ⟨e, hx, hy, he⟩ := split_equiv hsp hg.len
  unfold marginalizeTo
  rw [hv]
  simp only [Bool.false_eq_true, if_false]
  generalize hs.strs.toList (a.vars.filter (· ∉ keep)) = out at *
  have hpos := block_posDef e hg.symm fun y hy0 hz => hK y hy0 fun i hi => by
    obtain ⟨j, rfl⟩ := e.surjective i
    rcases j with j | j
    · exact hz j
    · exfalso
      have h1 := congrFun (he fun v => if v ∈ out then 1 else 0) (.inr j)
      have h2 : out[j] ∈ out := List.getElem_mem _
      simp only [Function.comp, vecAt, Sum.elim_inr, Fin.getElem_fin] at h1 h2
      rw [if_neg (hsp.disj _ hi), if_pos h2] at h1
      norm_num at h1
  have hint := fun x => integral_margOf hsp hg.len hg.symm e he hpos x
  split
  · rename_i c hc
    have hcc := canOf_can hc
    have hpos' : 0 < (c.prec.submatrix (e ∘ Sum.inr) (e ∘ Sum.inr)).det := by rw [← hcc]; exact hpos.det_pos
    have hsm : (margOf c e).prec.IsSymm := schur_symm ?_ (symm_inv ?_)
    refine ⟨_, canMarginalize_ok hsp e hx hy hpos', rfl, good_mkCan hk rfl _ hsm, fun x => ?_⟩
    rotate_left
    · rw [← hcc]; exact hg.symm.submatrix _
    · rw [← hcc]; exact hg.symm.submatrix _
    have := hint x
    rw [hcc] at this
    unfold logOf
    rw [hcc]
    exact this
  · rename_i hc
    split
    · rename_i v hv'
      have hcc := canOf_cov hg.toValid hv'
      obtain ⟨s1, s2⟩ := hg.cov v hv'
      obtain ⟨d1, d2⟩ := toCan_submatrix e s1 s2 (by rw [hcc] at hpos; exact hpos.det_pos)
      refine ⟨⟨keep, none, some ⟨v.cov.submatrix (e ∘ Sum.inl) (e ∘ Sum.inl), v.mean ∘ (e ∘ Sum.inl), v.lw⟩, false⟩,
        ?_, rfl, good_mkCov hk rfl _ (s1.submatrix _) d1, fun x => ?_⟩
      · unfold covMarginalize
        rw [hx]
        dsimp only [bind, Except.bind]
        rw [mkCov_ok hk rfl]
      · have := hint x
        rw [hcc] at this
        unfold logOf
        rw [hcc]
        change _ ∧ _ = Real.exp (evalCan (toCan _) _)
        rw [d2]
        exact this
    · rename_i hv'
      have hf := hg.form
      simp [hc, hv'] at hf

/-- **C32 (part that holds).** For every object that is not flagged vacuous and every set of variables to keep or
to drop, if the precision is positive definite on the dropped variables then `marginalize` returns a factor
over exactly the kept variables, in the requested order, whose potential is the Lebesgue integral of the
potential over the dropped variables. Both parameter forms are covered. What is missing for the full claim:
a factor with a positive definite dropped block that is flagged vacuous, for which the claim is false
(`C32_flagged`). -/
theorem C32_marginalize_partial (hs : HashSeed) {a a' : Gauss n} {c : Can n} {L : (Var → ℝ) → ℝ} (ha : Made a)
    (hL : Denotes a L) (hc : a.getCan = .ok (a', c)) (hv : a.vac = false) {vrs : List Var} (keep : Bool)
    (hn : vrs.Nodup) (hsub : ∀ v ∈ vrs, v ∈ a.vars)
    (hK : ∀ y : Fin n → ℝ, y ≠ 0 → (∀ (i : Fin n) v, a.vars[i.1]? = some v → (v ∈ vrs ↔ keep = true) → y i = 0) →
      0 < y ⬝ᵥ c.prec *ᵥ y) :
    ∃ r M, a.marginalize hs vrs keep = .ok r ∧ (keep = true → r.vars = vrs) ∧ r.vars.Nodup ∧
      (∀ v, v ∈ r.vars ↔ v ∈ a.vars ∧ (v ∈ vrs ↔ keep = true)) ∧ Denotes r M ∧
      ∀ out : List Var, out.Nodup → (∀ v, v ∈ out ↔ v ∈ a.vars ∧ v ∉ r.vars) → ∀ x,
        IntegrableOut out (fun z => Real.exp (L z)) x ∧
        integrateOut out (fun z => Real.exp (L z)) x = Real.exp (M x) := by
  obtain ⟨hg, -, rfl⟩ := getCan_inv ha.inv hc
  have hk := Sparse.nodup_marginalVars (hs := hs) (scope := a.vars) (keep := keep) hn
  have hm : ∀ v, v ∈ Sparse.marginalVars hs a.vars vrs keep ↔ v ∈ a.vars ∧ (v ∈ vrs ↔ keep = true) := fun v =>
    Sparse.mem_marginalVars hsub
  obtain ⟨r, h1, h2, hr, h3⟩ := marginalizeTo_good hs hg hv hk (fun v h => ((hm v).1 h).1)
    (fun y hy h => hK y hy fun i v hi hiv => by
      have hi' : i.1 < a.vars.length := hg.len.symm ▸ i.2
      have e : a.vars[i.1] = v := by
        rw [List.getElem?_eq_getElem hi'] at hi
        exact Option.some.inj hi
      refine h i ?_
      rw [hm]
      exact ⟨List.getElem_mem _, by rw [e]; exact hiv⟩)
  refine ⟨r, _, h1, fun h => ?_, (by rw [h2]; exact hk), fun v => by rw [h2]; exact hm v, hr.denotes, fun out ho hmo x => ?_⟩
  · rw [h2, h]
    rfl
  · have hp : out.Perm (hs.strs.toList (a.vars.filter (· ∉ Sparse.marginalVars hs a.vars vrs keep))) := by
      rw [List.perm_ext_iff_of_nodup ho (hs.strs.nodup _)]
      intro v
      rw [hmo, h2]
      simp only [SetOrder.mem, List.mem_filter, decide_eq_true_eq]
    obtain ⟨p1, p2⟩ := integrateOut_perm ho hp (fun z => Real.exp (L z)) x
    rw [p1, p2, hL.eq hg]
    exact h3 x

/-- **C32 for positive definite precisions.** Nothing but positive definiteness and the absence of the flag is
needed, and a Gaussian constructed with a positive definite matrix is never flagged (`C29_not_vacuous`). -/
theorem C32_posDef (hs : HashSeed) {a a' : Gauss n} {c : Can n} {L : (Var → ℝ) → ℝ} (ha : Made a)
    (hL : Denotes a L) (hc : a.getCan = .ok (a', c)) (hv : a.isVacuous = false) (hK : c.prec.PosDef)
    {vrs : List Var} (keep : Bool) (hn : vrs.Nodup) (hsub : ∀ v ∈ vrs, v ∈ a.vars) :
    ∃ r M, a.marginalize hs vrs keep = .ok r ∧ (keep = true → r.vars = vrs) ∧ r.vars.Nodup ∧
      (∀ v, v ∈ r.vars ↔ v ∈ a.vars ∧ (v ∈ vrs ↔ keep = true)) ∧ Denotes r M ∧
      ∀ out : List Var, out.Nodup → (∀ v, v ∈ out ↔ v ∈ a.vars ∧ v ∉ r.vars) → ∀ x,
        IntegrableOut out (fun z => Real.exp (L z)) x ∧
        integrateOut out (fun z => Real.exp (L z)) x = Real.exp (M x) :=
  C32_marginalize_partial hs ha hL hc (by
    unfold isVacuous at hv
    exact (Bool.or_eq_false_iff.1 hv).1) keep hn hsub fun y hy _ => by
      have := hK.dotProduct_mulVec_pos hy
      simpa using this

/-- The hypotheses of the C32 theorems can be met. -/
example : Made exA ∧ (∃ L, Denotes exA L) ∧ (∃ a', exA.getCan = .ok (a', toCan exV)) ∧ exA.isVacuous = false ∧
    (toCan exV).prec.PosDef ∧ ["b"].Nodup ∧ ∀ v ∈ ["b"], v ∈ exA.vars :=
  ⟨exA_made, ⟨_, exA_good.denotes⟩, ⟨_, exA_can⟩, rfl, exS_posDef.inv, by decide, by simp [exA]⟩

theorem denotes_const {vars : List Var} (hnd : vars.Nodup) (g : ℝ) (b : Bool) :
    Denotes (⟨vars, some ⟨0, 0, g⟩, none, b⟩ : Gauss vars.length) fun _ => g := by
  refine (good_mkCan hnd rfl b isSymm_zero).denotes.congr fun x => ?_
  simp [logOf, evalCan, canOf]

/-- The marginal of a factor flagged vacuous. -/
theorem marginalize_vac (hs : HashSeed) {a : Gauss n} (ha : a.vac = true) {keep : List Var} (hk : keep.Nodup) :
    ∃ r : Gauss keep.length, a.marginalize hs keep = .ok r ∧
      r = ⟨keep, some ⟨0, 0, 0⟩, none, vacParams (0 : Matrix (Fin keep.length) (Fin keep.length) ℝ)⟩ := by
  refine ⟨_, ?_, rfl⟩
  change a.marginalizeTo hs keep = _
  unfold marginalizeTo makeVacuous
  rw [if_pos ha]
  exact mkCan_ok hk rfl

/-- A precision that is small and not positive definite, although it is positive definite in the second
variable. -/
noncomputable def exK : Matrix (Fin 2) (Fin 2) ℝ := !![0, 0; 0, 1 / 1000000000]

theorem exK_symm : exK.IsSymm := by
  ext i j
  fin_cases i <;> fin_cases j <;> simp [exK]

theorem exK_vac : vacParams exK = true := by
  unfold vacParams
  simp only [decide_eq_true_eq]
  constructor
  · intro i j
    fin_cases i <;> fin_cases j <;> simp [exK]
    norm_num
  · intro h
    have := h 0 ![1, 0] (by
      intro h
      have := congrFun h 0
      simp at this) (by
      funext i
      fin_cases i <;> simp [exK, mulVec, dotProduct, Fin.sum_univ_two])
    simp at this

noncomputable def exSmall : Gauss 2 := ⟨["a", "b"], some ⟨exK, 0, 0⟩, none, true⟩

theorem exSmall_ok : mkCan ["a", "b"] ⟨exK, 0, 0⟩ = .ok exSmall := by
  rw [mkCan_ok (by decide) rfl, exK_vac]
  rfl

theorem exSmall_good : Good exSmall := good_mkCan (by decide) rfl _ exK_symm

/-- **C32 (violation).** The factor `exp(-0.5e-9 b²)` over `a`, `b` is flagged vacuous although it is positive
definite in `b`. Its marginal over `a` is returned as the constant 1; the integral over `b` is
`sqrt(2π 10⁹)`. -/
theorem C32_flagged (hs : HashSeed) : Made exSmall ∧ Denotes exSmall (logOf exSmall rfl) ∧
    (∀ y : Fin 2 → ℝ, y ≠ 0 → y 0 = 0 → 0 < y ⬝ᵥ exK *ᵥ y) ∧
    ∃ r, exSmall.marginalize hs ["a"] = .ok r ∧ r.vars = ["a"] ∧ Denotes r (fun _ => 0) ∧
      ∀ x, IntegrableOut ["b"] (fun z => Real.exp (logOf exSmall rfl z)) x ∧
        integrateOut ["b"] (fun z => Real.exp (logOf exSmall rfl z)) x = Real.sqrt (2 * Real.pi * 1000000000) ∧
        integrateOut ["b"] (fun z => Real.exp (logOf exSmall rfl z)) x ≠ Real.exp 0 := by
  have hpos : ∀ y : Fin 2 → ℝ, y ≠ 0 → y 0 = 0 → 0 < y ⬝ᵥ exK *ᵥ y := by
    intro y hy h0
    have h1 : y 1 ≠ 0 := by
      intro h1
      apply hy
      funext i
      fin_cases i
      · exact h0
      · exact h1
    have e : y ⬝ᵥ exK *ᵥ y = y 1 ^ 2 / 1000000000 := by
      simp [exK, dotProduct, mulVec, Fin.sum_univ_two]
      ring
    rw [e]
    have := sq_pos_of_ne_zero h1
    positivity
  obtain ⟨r, hr, hr'⟩ := marginalize_vac hs (a := exSmall) rfl (keep := ["a"]) (by decide)
  refine ⟨.ofCan exK_symm exSmall_ok, exSmall_good.denotes, hpos, r, hr, by rw [hr'], ?_, ?_⟩
  · rw [hr']
    exact denotes_const (by decide) 0 _
  · intro x
    have hsp : Split ["a", "b"] ["a"] ["b"] :=
      ⟨by decide, by decide, by decide, by simp, by simp⟩
    obtain ⟨e, hx, hy, he⟩ := split_equiv (n := 2) hsp rfl
    have hr : (e (.inr 0)) = 1 := by
      have h1 := congrFun (he fun v => if v = "b" then 1 else 0) (.inr 0)
      simp only [Function.comp, vecAt, Sum.elim_inr] at h1
      rcases h : e (.inr 0) with ⟨k, hk⟩
      rw [h] at h1
      match k, hk with
      | 0, _ => simp at h1
      | 1, _ => rfl
    have hl : (e (.inl 0)) = 0 := by
      have : e (.inl 0) ≠ 1 := by
        rw [← hr]
        exact fun h => by cases e.injective h
      omega
    have hsub : exK.submatrix (e ∘ Sum.inr) (e ∘ Sum.inr) = fun _ _ => 1 / 1000000000 := by
      funext i j
      have hi : i = 0 := Subsingleton.elim (α := Fin 1) _ _
      have hj : j = 0 := Subsingleton.elim (α := Fin 1) _ _
      subst hi hj
      simp only [submatrix_apply, Function.comp, hr]
      simp [exK]
    have hK := block_posDef e exK_symm fun y hy hz => hpos y hy (by rw [← hl]; exact hz 0)
    obtain ⟨i1, i2⟩ := integral_margOf (c := ⟨exK, 0, 0⟩) hsp rfl exK_symm e he hK x
    have hval : Real.exp (evalCan (margOf (⟨exK, 0, 0⟩ : Can 2) e) (vecAt ["a"] rfl x)) =
        Real.sqrt (2 * Real.pi * 1000000000) := by
      have hxy : exK.submatrix (e ∘ Sum.inl) (e ∘ Sum.inr) = 0 := by
        funext i j
        have hi : i = 0 := Subsingleton.elim (α := Fin 1) _ _
        have hj : j = 0 := Subsingleton.elim (α := Fin 1) _ _
        subst hi hj
        simp only [submatrix_apply, Function.comp, hr, hl]
        simp [exK]
      have hxx : exK.submatrix (e ∘ Sum.inl) (e ∘ Sum.inl) = 0 := by
        funext i j
        have hi : i = 0 := Subsingleton.elim (α := Fin 1) _ _
        have hj : j = 0 := Subsingleton.elim (α := Fin 1) _ _
        subst hi hj
        simp only [submatrix_apply, Function.comp, hl]
        simp [exK]
      have hdet : det2pi (exK.submatrix (e ∘ Sum.inr) (e ∘ Sum.inr))⁻¹ = 2 * Real.pi * 1000000000 := by
        rw [det2pi_eq, det_nonsing_inv, Ring.inverse_eq_inv', hsub]
        have hd1 : (Matrix.det fun _ _ : Fin 1 => (1 / 1000000000 : ℝ)) = 1 / 1000000000 := det_fin_one _
        change (2 * Real.pi) ^ 1 * (Matrix.det fun _ _ : Fin 1 => (1 / 1000000000 : ℝ))⁻¹ = _
        rw [hd1]
        norm_num
      have hz : ∀ k (f : Fin k → Fin 2), (0 : Fin 2 → ℝ) ∘ f = 0 := fun k f => rfl
      simp only [evalCan, margOf, margParams, hxy, hxx, hdet, hz]
      simp only [Matrix.zero_mul, sub_zero, zero_mulVec, dotProduct_zero, mulVec_zero, zero_add, mul_zero]
      rw [Real.sqrt_eq_rpow, Real.rpow_def_of_pos (by positivity), mul_comm]
    refine ⟨i1, i2.trans hval, ?_⟩
    rw [show integrateOut ["b"] (fun z => Real.exp (logOf exSmall rfl z)) x = _ from i2.trans hval, Real.exp_zero]
    have : (1 : ℝ) < 2 * Real.pi * 1000000000 := by
      have := Real.two_le_pi
      linarith
    have h2 := Real.sqrt_lt_sqrt zero_le_one this
    rw [Real.sqrt_one] at h2
    exact h2.ne'

/-! ### C33 evidence -/

theorem mem_unobserved {vars vrs : List Var} {v : Var} : v ∈ unobserved vars vrs ↔ v ∈ vars ∧ v ∉ vrs := by
  simp [unobserved]

theorem override_not_mem {vrs : List Var} {vals : List ℝ} {v : Var} (h : v ∉ vrs) (x : Var → ℝ) :
    override (vrs.zip vals) x v = x v := by
  unfold override
  rw [List.find?_eq_none.2]
  rintro ⟨w, r⟩ hw
  simp only [decide_eq_true_eq]
  rintro rfl
  exact h (List.of_mem_zip hw).1

theorem override_get {vrs : List Var} (hn : vrs.Nodup) {vals : List ℝ} (hl : vals.length = vrs.length) (x : Var → ℝ)
    (i : ℕ) (hi : i < vrs.length) : override (vrs.zip vals) x vrs[i] = vals[i] := by
  induction vrs generalizing vals i with
  | nil => simp at hi
  | cons v vs ih =>
    cases vals with
    | nil => simp at hl
    | cons y ys =>
      cases i with
      | zero => simp [override]
      | succ i =>
        have hne : v ≠ vs[i]'(by simpa using hi) := by
          rintro h
          exact (List.nodup_cons.1 hn).1 (h ▸ List.getElem_mem _)
        have := ih (List.nodup_cons.1 hn).2 (vals := ys) (by simpa using hl) i (by simpa using hi)
        simp only [override, List.zip_cons_cons, List.getElem_cons_succ] at this ⊢
        rw [List.find?_cons_of_neg (by simpa using hne)]
        exact this

theorem reduce_eval {vars un vrs : List Var} (hsp : Split vars un vrs) (hn : vars.length = n) {c : Can n}
    (hs : c.prec.IsSymm) (e : Fin un.length ⊕ Fin vrs.length ≃ Fin n)
    (he : ∀ x, vecAt vars hn x ∘ e = Sum.elim (vecAt un rfl x) (vecAt vrs rfl x)) {vals : List ℝ}
    (hl : vals.length = vrs.length) (x : Var → ℝ) :
    evalCan (reduceParams c (e ∘ Sum.inl) (e ∘ Sum.inr) fun i => vals[i.1]'(hl.symm ▸ i.2)) (vecAt un rfl x) =
      evalCan c (vecAt vars hn (override (vrs.zip vals) x)) := by
  have h1 : vecAt un rfl (override (vrs.zip vals) x) = vecAt un rfl x := by
    funext i
    exact override_not_mem (hsp.disj _ (List.getElem_mem _)) x
  have h2 : vecAt vrs rfl (override (vrs.zip vals) x) = fun i => vals[i.1]'(hl.symm ▸ i.2) := by
    funext i
    exact override_get hsp.no hl x i.1 i.2
  rw [evalCan_split hs e _ _ _ (by rw [he, h1, h2])]
  generalize vecAt un rfl x = u
  generalize (fun i : Fin vrs.length => vals[i.1]'(hl.symm ▸ i.2)) = y
  have h3 : y ⬝ᵥ (c.prec.submatrix (e ∘ Sum.inl) (e ∘ Sum.inr))ᵀ *ᵥ u =
      u ⬝ᵥ c.prec.submatrix (e ∘ Sum.inl) (e ∘ Sum.inr) *ᵥ y := by
    rw [mulVec_transpose, dotProduct_comm, ← dotProduct_mulVec]
  rw [h3]
  simp only [evalCan, reduceParams, dotProduct_sub, dotProduct_comm (c.h ∘ (e ∘ Sum.inr)) y]
  ring

/-- **C33 (part that holds).** Observing some but not all variables of any Gaussian gives the potential with
the observed values substituted, over the remaining variables. Observing a variable outside the scope raises.
What is missing for the full claim: observing every variable, which always raises (`C33_all_observed`). -/
theorem C33_reduce_partial {a : Gauss n} {L : (Var → ℝ) → ℝ} (ha : Made a) (hL : Denotes a L) {vrs : List Var}
    {vals : List ℝ} (hn : vrs.Nodup) (hl : vals.length = vrs.length) :
    ((∀ v ∈ vrs, v ∈ a.vars) → (∃ v ∈ a.vars, v ∉ vrs) → ∃ a' r, a.reduce vrs vals = .ok (a', r) ∧
      (∀ v, v ∈ r.2.vars ↔ v ∈ a.vars ∧ v ∉ vrs) ∧ Denotes r.2 (fun x => L (override (vrs.zip vals) x)) ∧
      Denotes a' L ∧ a'.vars = a.vars) ∧
    ((¬ ∀ v ∈ vrs, v ∈ a.vars) → a.reduce vrs vals = .error .assertionError) := by
  have hg := hL.good ha.inv
  constructor
  · intro hsub hex
    have hnu : (unobserved a.vars vrs).Nodup := nodup_pySorted.2 (List.nodup_dedup _)
    have hsp : Split a.vars (unobserved a.vars vrs) vrs := ⟨hg.nodup, hnu, hn, fun v => by
      rw [mem_unobserved]
      exact ⟨fun h => (em (v ∈ vrs)).symm.imp (fun h' => ⟨h, h'⟩) id, fun h => h.elim (·.1) (hsub v)⟩,
      fun v h => (mem_unobserved.1 h).2⟩
    obtain ⟨e, hx, hy, he⟩ := split_equiv hsp hg.len
    have hne : unobserved a.vars vrs ≠ [] := by
      obtain ⟨v, h1, h2⟩ := hex
      intro h
      have := mem_unobserved.2 ⟨h1, h2⟩
      rw [h] at this
      simp at this
    have hvec : toVec vrs.length vals = .ok fun i => vals[i.1]'(hl.symm ▸ i.2) := by
      unfold toVec
      rw [dif_pos hl]
    have hred : a.reduce vrs vals = .ok (⟨a.vars, some (canOf a), a.cov, a.vac⟩, ⟨_, ⟨unobserved a.vars vrs,
        some (reduceParams (canOf a) (e ∘ Sum.inl) (e ∘ Sum.inr) fun i => vals[i.1]'(hl.symm ▸ i.2)), none,
        vacParams (reduceParams (canOf a) (e ∘ Sum.inl) (e ∘ Sum.inr)
          fun i => vals[i.1]'(hl.symm ▸ i.2)).prec⟩⟩) := by
      unfold Gauss.reduce
      rw [show pyAssert (decide (∀ v ∈ vrs, v ∈ a.vars)) = .ok () from by
        rw [pyAssert, if_pos (decide_eq_true hsub)]]
      dsimp only [bind, Except.bind]
      rw [hy, hx]
      dsimp only
      rw [getCan_valid hg.toValid, hvec]
      dsimp only
      rw [if_neg hne, mkCan_ok hnu rfl]
    have gr := good_mkCan (c := reduceParams (canOf a) (e ∘ Sum.inl) (e ∘ Sum.inr)
      fun i => vals[i.1]'(hl.symm ▸ i.2)) hnu rfl (vacParams (reduceParams (canOf a) (e ∘ Sum.inl) (e ∘ Sum.inr)
          fun i => vals[i.1]'(hl.symm ▸ i.2)).prec) (hg.symm.submatrix _)
    refine ⟨_, _, hred, fun v => mem_unobserved, ?_, denotes_of_canOf hg (good_can hg) rfl rfl hL, rfl⟩
    rw [hL.eq hg]
    refine gr.denotes.congr fun x => ?_
    exact reduce_eval hsp hg.len hg.symm e he hl x
  · intro h
    unfold Gauss.reduce
    rw [show pyAssert (decide (∀ v ∈ vrs, v ∈ a.vars)) = .error .assertionError from by
      rw [pyAssert, if_neg (by simpa using h)]]
    rfl

/-- **C33 (violation).** Observing every variable of any Gaussian raises `AssertionError`. -/
theorem C33_all_observed {a : Gauss n} {L : (Var → ℝ) → ℝ} (ha : Made a) (hL : Denotes a L) {vrs : List Var}
    {vals : List ℝ} (hl : vals.length = vrs.length) (hall : ∀ v, v ∈ vrs ↔ v ∈ a.vars) :
    a.reduce vrs vals = .error .assertionError := by
  have hg := hL.good ha.inv
  have hu : unobserved a.vars vrs = [] := by
    rw [List.eq_nil_iff_forall_not_mem]
    intro v hv
    obtain ⟨h1, h2⟩ := mem_unobserved.1 hv
    exact h2 ((hall v).2 h1)
  obtain ⟨yy, hyy, -⟩ := positions_ok (vs := vrs) hg.len fun v hv => (hall v).1 hv
  unfold Gauss.reduce
  rw [show pyAssert (decide (∀ v ∈ vrs, v ∈ a.vars)) = .ok () from by
    rw [pyAssert, if_pos (decide_eq_true fun v hv => (hall v).1 hv)]]
  dsimp only [bind, Except.bind]
  obtain ⟨xx, hxx, -⟩ := positions_ok (vs := unobserved a.vars vrs) hg.len (by simp [hu])
  rw [hyy, hxx]
  dsimp only
  rw [getCan_valid hg.toValid]
  dsimp only
  unfold toVec
  rw [dif_pos hl]
  dsimp only
  rw [if_pos hu]
  unfold mkCan
  rw [if_neg (by simp [hu]), if_pos (by simp [hu])]

/-- The hypotheses of the C33 theorems can be met. -/
example : Made exA ∧ (∃ L, Denotes exA L) ∧ ["b"].Nodup ∧ (∀ v ∈ ["b"], v ∈ exA.vars) ∧ (∃ v ∈ exA.vars, v ∉ ["b"]) ∧
    ∀ v, v ∈ ["b", "a"] ↔ v ∈ exA.vars :=
  ⟨exA_made, ⟨_, exA_good.denotes⟩, by decide, by simp [exA], ⟨"a", by simp [exA], by decide⟩, by
    simp [exA, or_comm]⟩

/-! ### C39 vacuous factors -/

theorem vacParams_zero {k : ℕ} (hk : 0 < k) : vacParams (0 : Matrix (Fin k) (Fin k) ℝ) = true := by
  unfold vacParams
  simp only [decide_eq_true_eq]
  constructor
  · intro i j
    norm_num
  · intro h
    have := h 0 (fun _ => 1) (by
      intro h
      have := congrFun h ⟨0, hk⟩
      simp at this) (by
      funext i
      simp [mulVec, dotProduct])
    simp at this

/-- **C39 (part that holds).** `make_vacuous` gives a constant function, reported vacuous at distance zero; the
marginal of any object flagged vacuous is a constant function, reported vacuous if it has variables; and for a
newly constructed Gaussian `is_vacuous` and `distance_from_vacuous` agree. What is missing for the full claim:
a Gaussian reported vacuous need not be constant (`C39_not_constant`), and the marginal loses the value of the
constant (`C39_constant_lost`). -/
theorem C39_vacuous_partial (hs : HashSeed) :
    (∀ (vars : List Var) (g : ℝ), vars.Nodup → vars ≠ [] → ∃ a, makeVacuous vars g = .ok a ∧
      Denotes a (fun _ => g) ∧ a.isVacuous = true ∧ a.distanceFromVacuous = .fin 0) ∧
    (∀ (a : Gauss n) (keep : List Var), a.vac = true → keep.Nodup → ∃ r, a.marginalize hs keep = .ok r ∧
      Denotes r (fun _ => 0) ∧ (keep ≠ [] → r.isVacuous = true ∧ r.distanceFromVacuous = .fin 0)) ∧
    (∀ (vars : List Var) (c : Can n) (a : Gauss n), mkCan vars c = .ok a →
      (a.isVacuous = true ↔ a.distanceFromVacuous = .fin 0)) ∧
    ∀ (vars : List Var) (v : CovF n) (a : Gauss n), mkCov vars v = .ok a →
      a.isVacuous = false ∧ a.distanceFromVacuous = .pinf := by
  refine ⟨fun vars g hnd hne => ?_, fun a keep ha hk => ?_, fun vars c a h => ?_, fun vars v a h => ?_⟩
  · have hv := vacParams_zero (List.length_pos_of_ne_nil hne)
    refine ⟨_, mkCan_ok hnd rfl, denotes_const hnd g _, ?_, ?_⟩
    · simp [isVacuous, hv]
    · simp [distanceFromVacuous, hv]
  · obtain ⟨r, hr, hr'⟩ := marginalize_vac hs ha hk
    refine ⟨r, hr, ?_, fun hne => ?_⟩
    · rw [hr']
      exact denotes_const hk 0 _
    · rw [hr']
      have hv := vacParams_zero (List.length_pos_of_ne_nil hne)
      exact ⟨by simp [isVacuous, hv], by simp [distanceFromVacuous, hv]⟩
  · obtain ⟨-, -, rfl⟩ := mkCan_eq_ok h
    simp only [isVacuous, distanceFromVacuous, Bool.or_self]
    split <;> simp_all
  · obtain ⟨-, -, rfl⟩ := mkCov_eq_ok h
    exact ⟨rfl, rfl⟩

/-- **C39 (violation).** The Gaussian with precision zero and `h = 1` is `exp(x)`, which is not constant, and is
reported vacuous. -/
theorem C39_not_constant : ∃ a : Gauss 1, mkCan ["x"] ⟨0, fun _ => 1, 0⟩ = .ok a ∧ a.isVacuous = true ∧
    a.distanceFromVacuous = .fin 0 ∧ Denotes a (fun x => x "x") := by
  have hv := vacParams_zero (k := 1) (by decide)
  refine ⟨_, mkCan_ok (by decide) rfl, by simp [isVacuous, hv], by simp [distanceFromVacuous, hv], ?_⟩
  refine (good_mkCan (by decide) rfl _ isSymm_zero).denotes.congr fun x => ?_
  simp [logOf, evalCan, canOf, vecAt, dotProduct]

/-- **C39 (violation).** The marginal of the vacuous factor with constant log value 5 is constant with log
value 0. -/
theorem C39_constant_lost (hs : HashSeed) : ∃ a r, makeVacuous ["x", "y"] 5 = .ok a ∧ Denotes a (fun _ => 5) ∧
    a.marginalize hs ["x"] = .ok r ∧ Denotes r (fun _ => 0) := by
  obtain ⟨a, h1, h2, -, -⟩ := (C39_vacuous_partial (n := 0) hs).1 ["x", "y"] 5 (by decide) (by decide)
  have hv : a.vac = true := by
    obtain ⟨-, -, rfl⟩ := mkCan_eq_ok h1
    exact vacParams_zero (by decide)
  obtain ⟨r, h3, h4, -⟩ := (C39_vacuous_partial hs).2.1 a ["x"] hv (by decide)
  exact ⟨a, r, h1, h2, h3, h4⟩

/-! ### C41 templates -/

/-- **C41 (part that holds).** `make_factor` succeeds exactly when the constructor does with the template's
parameters. The factor has the template's precision, h and g and denotes the same function as the
constructed one. What is missing for the full claim: it does not behave like the constructed one under
`marginalize` (`C41_template_marginal`). -/
theorem C41_template_partial (t : GTemplate n) (names : List Var) (hs : t.params.prec.IsSymm) :
    ((∃ a, t.makeFactor names = .ok a) ↔ ∃ b, mkCan names t.params = .ok b) ∧
    ∀ a b, t.makeFactor names = .ok a → mkCan names t.params = .ok b →
      a.vars = names ∧ (∃ a', a.getCan = .ok (a', t.params)) ∧
      ∃ L, Denotes a L ∧ Denotes b L ∧ ∀ x : Var → ℝ, ∀ hl : names.length = n,
        L x = -(vecAt names hl x ⬝ᵥ t.params.prec *ᵥ vecAt names hl x) / 2 + vecAt names hl x ⬝ᵥ t.params.h +
          t.params.g := by
  constructor
  · unfold GTemplate.makeFactor
    constructor
    · rintro ⟨a, h⟩
      obtain ⟨b, hb, -⟩ := py_bind_eq_ok.1 h
      exact ⟨b, hb⟩
    · rintro ⟨b, hb⟩
      rw [hb]
      exact ⟨_, rfl⟩
  · intro a b h hb
    obtain ⟨h1, h2, rfl⟩ := mkCan_eq_ok hb
    unfold GTemplate.makeFactor at h
    rw [hb] at h
    cases h
    have ga := good_mkCan h1 h2 true hs
    have gb := good_mkCan h1 h2 (vacParams t.params.prec) hs
    refine ⟨rfl, ⟨_, getCan_valid ga.toValid⟩, _, ga.denotes, gb.denotes.congr fun x => rfl, fun x hl => ?_⟩
    change evalCan t.params (vecAt names hl x) = _
    unfold evalCan
    ring

/-- A template with the standard normal precision. -/
def exT : GTemplate 2 := ⟨⟨1, 0, 0⟩, ["x_{i}", "y_{i}"]⟩

/-- **C41 (violation).** The marginal over `x` of the factor made from the template of `exp(-(x²+y²)/2)` is the
constant 1. The marginal of the Gaussian constructed with the same parameters is the integral, which is not
constant. -/
theorem C41_template_marginal (hs : HashSeed) : ∃ a b ra rb M, exT.makeFactor ["x", "y"] = .ok a ∧
    mkCan ["x", "y"] exT.params = .ok b ∧ a.marginalize hs ["x"] = .ok ra ∧ b.marginalize hs ["x"] = .ok rb ∧
    Denotes ra (fun _ => 0) ∧ Denotes rb M ∧ ∃ x y, M x ≠ M y := by
  have hb : mkCan ["x", "y"] exT.params = .ok ⟨["x", "y"], some ⟨1, 0, 0⟩, none, false⟩ := by
    rw [mkCan_ok (by decide) rfl, vacParams_posDef (show exT.params.prec.PosDef from PosDef.one)]
    rfl
  have ha : exT.makeFactor ["x", "y"] = .ok ⟨["x", "y"], some ⟨1, 0, 0⟩, none, true⟩ := by
    unfold GTemplate.makeFactor
    rw [hb]
    rfl
  obtain ⟨ra, h3, h4, -⟩ := (C39_vacuous_partial hs).2.1 (⟨["x", "y"], some ⟨1, 0, 0⟩, none, true⟩ : Gauss 2) ["x"]
    rfl (by decide)
  have hmade : Made (⟨["x", "y"], some ⟨1, 0, 0⟩, none, false⟩ : Gauss 2) := .ofCan (isSymm_one) hb
  have hg := (good_mkCan (n := 2) (vars := ["x", "y"]) (c := ⟨1, 0, 0⟩) (by decide) rfl false isSymm_one)
  obtain ⟨rb, M, h5, h6, h7, h8, h9, h10⟩ := C32_posDef hs hmade hg.denotes (getCan_valid hg.toValid) (by
    simp [isVacuous, vacParams_posDef (PosDef.one (n := Fin 2) (R := ℝ))]) PosDef.one (vrs := ["x"]) true (by decide)
    (by simp)
  refine ⟨_, _, ra, rb, M, ha, hb, h3, h5, h4, h9, fun _ => 0, fun _ => 1, fun hM => ?_⟩
  have hr : rb.vars = ["x"] := h6 rfl
  have h11 := fun x => (h10 ["y"] (by decide) (fun v => by
    rw [hr]
    simp only [List.mem_cons, List.not_mem_nil, or_false]
    constructor
    · rintro rfl
      decide
    · tauto)) x
  have key : ∀ x : Var → ℝ, integrateOut ["y"] (fun z => Real.exp (logOf
      (⟨["x", "y"], some ⟨1, 0, 0⟩, none, false⟩ : Gauss 2) rfl z)) x =
        Real.exp (-(x "x") ^ 2 / 2) * ∫ y : Fin 1 → ℝ, Real.exp (-(y 0) ^ 2 / 2) := by
    intro x
    unfold integrateOut
    rw [← integral_const_mul]
    congr 1
    funext y
    rw [← Real.exp_add]
    congr 1
    have e0 : setVars ["y"] y x "x" = x "x" := by simp [setVars]
    have e1 : setVars ["y"] y x "y" = y 0 := by simp [setVars]
    simp [logOf, canOf, evalCan, vecAt, dotProduct, Fin.sum_univ_two, e0, e1]
    ring
  have e := (h11 fun _ => 0).2.trans (hM ▸ (h11 fun _ => 1).2.symm)
  rw [key, key] at e
  have hpos : (∫ y : Fin 1 → ℝ, Real.exp (-(y 0) ^ 2 / 2)) ≠ 0 := by
    intro h0
    have := (h11 fun _ => 0).2
    rw [key, h0, mul_zero] at this
    exact (Real.exp_pos _).ne this
  have e2 := mul_right_cancel₀ hpos e
  have e3 := Real.exp_injective e2
  norm_num at e3

end Verif.Gauss
