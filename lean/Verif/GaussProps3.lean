import Verif.GaussKl

/-!
# Properties of Gaussian factors (C36, C37, C62)

The divergence, the comparison and the splitting of Gaussians.
-/

namespace Verif
open Matrix MeasureTheory

namespace GaussInt
variable {ι : Type} [Fintype ι] [DecidableEq ι]

theorem dens_mean {K : Matrix ι ι ℝ} (hK : K.PosDef) (m : ι → ℝ) (i : ι) :
    Integrable (fun x => x i * dens K m x) ∧ ∫ x, x i * dens K m x = m i := by
  have hZ := (Z_pos hK).ne'
  obtain ⟨i1, v1⟩ := first_centred hK m i
  have i3 := mass_integrable hK m
  have e : ∀ x : ι → ℝ, x i * dens K m x = 1 / Z K * ((x i - m i) * bell K m x) + m i / Z K * bell K m x := by
    intro x
    rw [dens]
    ring
  simp_rw [e]
  refine ⟨(i1.const_mul _).add (i3.const_mul _), ?_⟩
  rw [integral_add (i1.const_mul _) (i3.const_mul _), integral_const_mul, integral_const_mul, v1, mass hK]
  field_simp
  ring

theorem dens_second {K : Matrix ι ι ℝ} (hK : K.PosDef) (m : ι → ℝ) (i j : ι) :
    Integrable (fun x => x i * x j * dens K m x) ∧ ∫ x, x i * x j * dens K m x = K⁻¹ i j + m i * m j := by
  have hZ := (Z_pos hK).ne'
  obtain ⟨i1, v1⟩ := first_centred hK m i
  obtain ⟨i2, v2⟩ := first_centred hK m j
  obtain ⟨i4, v4⟩ := second_centred hK m i j
  have i3 := mass_integrable hK m
  have e : ∀ x : ι → ℝ, x i * x j * dens K m x = 1 / Z K * ((x i - m i) * (x j - m j) * bell K m x) +
      m j / Z K * ((x i - m i) * bell K m x) + m i / Z K * ((x j - m j) * bell K m x) +
        m i * m j / Z K * bell K m x := by
    intro x
    rw [dens]
    ring
  simp_rw [e]
  have s1 := (i4.const_mul (1 / Z K)).add (i1.const_mul (m j / Z K))
  have s2 := s1.add (i2.const_mul (m i / Z K))
  refine ⟨s2.add (i3.const_mul _), ?_⟩
  rw [integral_add _ (i3.const_mul _), integral_add _ (i2.const_mul _), integral_add (i4.const_mul _) (i1.const_mul _),
    integral_const_mul, integral_const_mul, integral_const_mul, integral_const_mul, v1, v2, v4, mass hK]
  · field_simp
    ring
  · exact s1
  · exact s2

end GaussInt

namespace Gauss
open GaussInt Spec
variable {n m : ℕ}

theorem exp_evalCan {c : Can n} (hK : c.prec.PosDef) (y : Fin n → ℝ) :
    Real.exp (evalCan c y) = Real.exp (toCov c).lw * dens c.prec (c.prec⁻¹ *ᵥ c.h) y := by
  have hZ := (Z_pos hK).ne'
  have h1 := integral_evalCan hK
  have e : ∀ y, Real.exp (evalCan c y) =
      Real.exp (c.g + 1 / 2 * (c.h ⬝ᵥ c.prec⁻¹ *ᵥ c.h)) * bell c.prec (c.prec⁻¹ *ᵥ c.h) y :=
    fun y => quad_eq hK c.h c.g y
  simp_rw [e] at h1
  rw [integral_const_mul, mass hK] at h1
  rw [e, ← h1, dens]
  field_simp

/-! ### C80 what `equals` compares -/

/-- Vectors labelled by names agree entry by entry. -/
def NearV (rtol atol : ℝ) (va vb : List Var) (x : Fin n → ℝ) (y : Fin m → ℝ) : Prop :=
  ∀ (i : Fin n) (j : Fin m), va[i.1]? = vb[j.1]? → Close rtol atol (x i) (y j)

/-- Matrices labelled by names agree entry by entry. -/
def NearM (rtol atol : ℝ) (va vb : List Var) (x : Matrix (Fin n) (Fin n) ℝ) (y : Matrix (Fin m) (Fin m) ℝ) : Prop :=
  ∀ (i k : Fin n) (j l : Fin m), va[i.1]? = vb[j.1]? → va[k.1]? = vb[l.1]? → Close rtol atol (x i k) (y j l)

/-- The canonical parameters of two factors can be read and agree by name. -/
def NearCan (rtol atol : ℝ) (a : Gauss n) (b : Gauss m) : Prop :=
  ∃ a' b' c d, a.getCan = .ok (a', c) ∧ b.getCan = .ok (b', d) ∧ Close rtol atol c.g d.g ∧
    NearV rtol atol a.vars b.vars c.h d.h ∧ NearM rtol atol a.vars b.vars c.prec d.prec

/-- The covariance parameters of two factors, if they can be read, agree by name. -/
def NearCov (rtol atol : ℝ) (a : Gauss n) (b : Gauss m) : Prop :=
  ∀ a' b' v w, a.getCov = .ok (a', v) → b.getCov = .ok (b', w) → Close rtol atol (Real.exp v.lw) (Real.exp w.lw) ∧
    NearV rtol atol a.vars b.vars v.mean w.mean ∧ NearM rtol atol a.vars b.vars v.cov w.cov

theorem iscloseR_iff {rtol atol x y : ℝ} : iscloseR rtol atol x y = true ↔ Close rtol atol x y := by
  unfold iscloseR Close
  rw [decide_eq_true_eq]

theorem perm_index {va vb : List Var} (hl : vb.length = n) (hnd : vb.Nodup) (hp : va.Perm vb) {e : Fin n ≃ Fin n}
    (he : ∀ x, vecAt va (hp.length_eq.trans hl) x = vecAt vb hl x ∘ e.symm) (i j : Fin n) :
    va[i.1]? = vb[j.1]? ↔ j = e.symm i := by
  have hi : i.1 < va.length := (hp.length_eq.trans hl).symm ▸ i.2
  have hj : j.1 < vb.length := hl.symm ▸ j.2
  have hk : (e.symm i).1 < vb.length := hl.symm ▸ (e.symm i).2
  have h1 : va[i.1] = vb[(e.symm i).1] := by
    have := congrFun (he fun v => if v = va[i.1] then 1 else 0) i
    unfold vecAt at this
    simp only [Function.comp_apply, if_true] at this
    by_contra hne
    rw [if_neg (fun h => hne h.symm)] at this
    exact one_ne_zero this
  rw [List.getElem?_eq_getElem hi, List.getElem?_eq_getElem hj, Option.some.injEq, h1,
    List.Nodup.getElem_inj_iff hnd]
  exact ⟨fun h => Fin.ext h.symm, fun h => congrArg Fin.val h.symm⟩

theorem allcloseV_iff {rtol atol : ℝ} {va vb : List Var} (hl : vb.length = n) (hnd : vb.Nodup) (hp : va.Perm vb)
    {e : Fin n ≃ Fin n} (he : ∀ x, vecAt va (hp.length_eq.trans hl) x = vecAt vb hl x ∘ e.symm) {x y : Fin n → ℝ} :
    allcloseV rtol atol x (y ∘ e.symm) = true ↔ NearV rtol atol va vb x y := by
  unfold allcloseV NearV
  rw [decide_eq_true_eq]
  constructor
  · intro h i j hij
    rw [(perm_index hl hnd hp he i j).1 hij]
    exact iscloseR_iff.1 (h i)
  · intro h i
    exact iscloseR_iff.2 (h i _ ((perm_index hl hnd hp he i _).2 rfl))

theorem allcloseM_iff {rtol atol : ℝ} {va vb : List Var} (hl : vb.length = n) (hnd : vb.Nodup) (hp : va.Perm vb)
    {e : Fin n ≃ Fin n} (he : ∀ x, vecAt va (hp.length_eq.trans hl) x = vecAt vb hl x ∘ e.symm)
    {x y : Matrix (Fin n) (Fin n) ℝ} :
    allcloseM rtol atol x (y.submatrix e.symm e.symm) = true ↔ NearM rtol atol va vb x y := by
  unfold allcloseM NearM
  rw [decide_eq_true_eq]
  constructor
  · intro h i k j l hij hkl
    rw [(perm_index hl hnd hp he i j).1 hij, (perm_index hl hnd hp he k l).1 hkl]
    exact iscloseR_iff.1 (h i k)
  · intro h i k
    exact iscloseR_iff.2 (h i k _ _ ((perm_index hl hnd hp he i _).2 rfl) ((perm_index hl hnd hp he k _).2 rfl))

theorem canEquals_iff {rtol atol : ℝ} {vars : List Var} {c : Can n} {b b' : Gauss n} {r : Bool}
    (hb : Good b) (hp : vars.Perm b.vars) (h : canEquals rtol atol vars c b = .ok (b', r)) :
    r = true ↔ Close rtol atol c.g (canOf b).g ∧ NearV rtol atol vars b.vars c.h (canOf b).h ∧
      NearM rtol atol vars b.vars c.prec (canOf b).prec := by
  unfold canEquals at h
  rw [getCan_valid hb.toValid] at h
  dsimp only [bind, Except.bind] at h
  rw [← iscloseR_iff]
  split at h
  · rename_i hg
    cases h
    simp only [Bool.not_eq_true'] at hg
    simp [hg]
  · rename_i hg
    simp only [Bool.not_eq_true', Bool.not_eq_false] at hg
    obtain ⟨e, he, hr⟩ := reorder_ok (good_can hb).len (good_can hb).nodup hp
    dsimp only at hr
    rw [hr] at h
    dsimp only [getCan, updateCan, Option.map_some, bind, Except.bind] at h
    cases h
    rw [Bool.and_eq_true, hg]
    have h1 := allcloseV_iff (rtol := rtol) (atol := atol) hb.len hb.nodup hp he (x := c.h) (y := (canOf b).h)
    have h2 := allcloseM_iff (rtol := rtol) (atol := atol) hb.len hb.nodup hp he (x := c.prec) (y := (canOf b).prec)
    rw [← h1, ← h2]
    exact ⟨fun h => ⟨rfl, h⟩, fun h => h.2⟩

theorem covEquals_iff {rtol atol : ℝ} {vars : List Var} {v : CovF n} {b b' : Gauss n} {r : Bool}
    (hb : Good b) (hp : vars.Perm b.vars) (h : covEquals rtol atol vars v b = .ok (b', r)) :
    (∃ b1, b.getCov = .ok (b1, toCov (canOf b))) ∧
    (r = true ↔ Close rtol atol (Real.exp v.lw) (Real.exp (toCov (canOf b)).lw) ∧
      NearV rtol atol vars b.vars v.mean (toCov (canOf b)).mean ∧
      NearM rtol atol vars b.vars v.cov (toCov (canOf b)).cov) := by
  unfold covEquals at h
  obtain ⟨⟨b1, w⟩, hw, h⟩ := py_bind_eq_ok.1 h
  unfold getWeight at hw
  obtain ⟨⟨b2, w2⟩, hc, hw⟩ := py_bind_eq_ok.1 hw
  cases hw
  obtain ⟨hv, hd, rfl, rfl⟩ := getCov_eq_ok hb.toValid hc
  refine ⟨⟨_, hc⟩, ?_⟩
  rw [← iscloseR_iff]
  dsimp only at h
  split at h
  · rename_i hg
    cases h
    simp only [Bool.not_eq_true'] at hg
    simp [hg]
  · rename_i hg
    simp only [Bool.not_eq_true', Bool.not_eq_false] at hg
    obtain ⟨e, he, hr⟩ := reorder_ok (good_cov hb hd).len (good_cov hb hd).nodup hp
    dsimp only at hr
    rw [hr, hv] at h
    dsimp only [getCov, updateCov, Option.map_some, bind, Except.bind] at h
    simp only [Bool.false_eq_true, if_false] at h
    cases h
    rw [Bool.and_eq_true, hg]
    have h1 := allcloseV_iff (rtol := rtol) (atol := atol) hb.len hb.nodup hp he (x := v.mean)
      (y := (toCov (canOf b)).mean)
    have h2 := allcloseM_iff (rtol := rtol) (atol := atol) hb.len hb.nodup hp he (x := v.cov)
      (y := (toCov (canOf b)).cov)
    rw [← h1, ← h2]
    exact ⟨fun h => ⟨rfl, h⟩, fun h => h.2⟩

theorem copy_isVacuous {b k : Gauss n} (h : b.copy = .ok k) (hk : k.vac = true) : b.isVacuous = true := by
  obtain ⟨vars, can, cov, vac⟩ := b
  unfold Gauss.copy at h
  split at h
  · obtain ⟨k1, h1, h⟩ := py_bind_eq_ok.1 h
    obtain ⟨-, -, rfl⟩ := mkCov_eq_ok h1
    cases h
    cases hk
  · obtain ⟨-, -, rfl⟩ := mkCov_eq_ok h
    cases hk
  · rename_i c hcv hcn
    obtain ⟨-, -, rfl⟩ := mkCan_eq_ok h
    dsimp only at hcn hk
    subst hcn
    unfold isVacuous
    simp [hk]
  · cases h

theorem equalsCopy_isVacuous {vars : List Var} {b k : Gauss n} (h : equalsCopy vars b = .ok k) (hk : k.vac = true) :
    b.isVacuous = true := by
  unfold equalsCopy at h
  obtain ⟨k1, h1, h⟩ := py_bind_eq_ok.1 h
  refine copy_isVacuous h1 ?_
  split at h
  · unfold reorder at h
    split at h
    · cases h
      exact hk
    · split at h
      · cases h
      · split at h
        · cases h
          exact hk
        · cases h
  · cases h
    exact hk

/-- **C80.** If `equals` answers yes, the factors have the same variables, and both are vacuous or their
canonical parameters, or their covariance parameters, agree by variable name within the tolerances. If the
variables are the same and both kinds of parameters agree, the answer is yes. -/
theorem C80_equals {rtol atol : ℝ} {a a' : Gauss n} {b b' : Gauss m} {r : Bool} {La Lb : (Var → ℝ) → ℝ}
    (ha : Made a) (hb : Made b) (da : Denotes a La) (db : Denotes b Lb)
    (h : equals rtol atol a b = .ok (a', b', r)) :
    (r = true → (∀ v, v ∈ a.vars ↔ v ∈ b.vars) ∧ (a.isVacuous = true ∧ b.isVacuous = true ∨
      NearCan rtol atol a b ∨ ((∃ x, a.getCov = .ok x) ∧ (∃ x, b.getCov = .ok x) ∧ NearCov rtol atol a b))) ∧
    ((∀ v, v ∈ a.vars ↔ v ∈ b.vars) → NearCan rtol atol a b → NearCov rtol atol a b → r = true) := by
  have ga := da.good ha.inv
  have gb := db.good hb.inv
  unfold equals at h
  split at h
  · rename_i hset
    cases h
    exact ⟨fun h => (by cases h), fun hs => absurd (sameSet_iff.2 hs) hset⟩
  · rename_i hset
    have hset := not_not.1 hset
    have hp := perm_of_sameSet ga.nodup gb.nodup hset
    obtain ⟨k, hk, h⟩ := py_bind_eq_ok.1 h
    dsimp only at h
    split at h
    · rename_i hvac
      cases h
      rw [Bool.and_eq_true] at hvac
      refine ⟨fun _ => ⟨sameSet_iff.1 hset, .inl ⟨?_, equalsCopy_isVacuous hk hvac.1⟩⟩, fun _ _ _ => rfl⟩
      unfold isVacuous
      simp [hvac.2]
    · split at h
      · rename_i hmn
        subst hmn
        obtain ⟨⟨x, y, z⟩, hx, h⟩ := py_bind_eq_ok.1 h
        cases h
        unfold equalsForms at hx
        split at hx
        · rename_i c hc
          obtain ⟨⟨b1, r1⟩, h1, h⟩ := py_bind_eq_ok.1 hx
          cases h
          have hiff := canEquals_iff gb hp h1
          have hca : canOf a = c := canOf_can hc
          subst hca
          refine ⟨fun hr => ⟨sameSet_iff.1 hset, .inr (.inl ?_)⟩, fun _ hn _ => hiff.2 ?_⟩
          · exact ⟨_, _, _, _, getCan_valid ga.toValid, getCan_valid gb.toValid, hiff.1 hr⟩
          · obtain ⟨a1, b1, c1, d1, g1, g2, hn⟩ := hn
            rw [getCan_valid ga.toValid] at g1
            rw [getCan_valid gb.toValid] at g2
            cases g1
            cases g2
            exact hn
        · obtain ⟨⟨a1, v1⟩, h0, h⟩ := py_bind_eq_ok.1 hx
          obtain ⟨⟨b1, r1⟩, h1, h⟩ := py_bind_eq_ok.1 h
          cases h
          obtain ⟨-, hd, rfl, rfl⟩ := getCov_eq_ok ga.toValid h0
          obtain ⟨⟨b2, h2⟩, hiff⟩ := covEquals_iff gb hp h1
          refine ⟨fun hr => ⟨sameSet_iff.1 hset, .inr (.inr ⟨⟨_, h0⟩, ⟨_, h2⟩, ?_⟩)⟩,
            fun _ _ hn => hiff.2 (hn _ _ _ _ h0 h2)⟩
          intro a3 b3 v3 w3 g1 g2
          rw [h0] at g1
          rw [h2] at g2
          cases g1
          cases g2
          exact hiff.1 hr
      · cases h

/-! ### C36 the Kullback-Leibler divergence -/

theorem equals_total {rtol atol : ℝ} {a b : Gauss n} (ga : Good a) (gb : Good b) (ka : (canOf a).prec.PosDef)
    (kb : (canOf b).prec.PosDef) (va : a.vac = false) (vb : b.vac = false) (hv : b.vars = a.vars) :
    ∃ a' b' r, equals rtol atol a b = .ok (a', b', r) := by
  have hset : sameSet a.vars b.vars = true := by rw [hv]; exact sameSet_iff.2 fun _ => Iff.rfl
  obtain ⟨k, hk⟩ := copy_total gb
  have hp : a.vars.Perm b.vars := by rw [hv]
  have hcopy : equalsCopy a.vars b = .ok k := by
    unfold equalsCopy
    rw [hk]
    dsimp only [bind, Except.bind]
    rw [if_neg (by simp [hv])]
  unfold equals
  rw [if_neg (by simp [hset]), hcopy]
  dsimp only [bind, Except.bind]
  rw [if_neg (by simp [va]), dif_pos rfl]
  have hr : ∀ {x : Gauss n}, x.vars = a.vars → Good x → ∃ y, x.reorder a.vars = .ok y ∧ Good y ∧ y.vac = x.vac ∧
      canOf y = canOf x := by
    intro x hx gx
    obtain ⟨e, -, h⟩ := reorder_ok gx.len gx.nodup (new := a.vars) (by rw [hx])
    obtain ⟨k1, e1⟩ := kept_reorder gx (by rw [hx]) h
    exact ⟨_, h, k1.good, k1.vac, canOf_unique gx k1.good (e1.trans hx.symm) gx.denotes (k1.den _ gx.denotes)⟩
  have hforms : ∃ z, equalsForms rtol atol a b = .ok z := by
    unfold equalsForms
    split
    · rename_i c hc
      have k1 := kept_can gb
      obtain ⟨y, hy, gy, -⟩ := hr (x := ⟨b.vars, some (canOf b), b.cov, b.vac⟩) hv k1.good
      unfold canEquals
      rw [getCan_valid gb.toValid]
      dsimp only [bind, Except.bind]
      cases iscloseR rtol atol c.g (canOf b).g with
      | false => exact ⟨_, rfl⟩
      | true =>
        simp only [Bool.not_true, Bool.false_eq_true, if_false]
        rw [hy]
        dsimp only
        rw [getCan_valid gy.toValid]
        exact ⟨_, rfl⟩
    · have k1 := kept_cov gb kb.det_pos
      obtain ⟨y, hy, gy, hvy, hcy⟩ := hr (x := ⟨b.vars, b.can, some (toCov (canOf b)), b.vac⟩) hv k1.good
      rw [canOf_cov_mk gb.toValid kb.det_pos] at hcy
      rw [getCov_valid ga.toValid va ka.det_pos]
      dsimp only [bind, Except.bind]
      unfold covEquals
      rw [weight_good gb kb vb]
      dsimp only [bind, Except.bind]
      cases iscloseR rtol atol (Real.exp (toCov (canOf a)).lw) (Real.exp (toCov (canOf b)).lw) with
      | false => exact ⟨_, rfl⟩
      | true =>
        simp only [Bool.not_true, Bool.false_eq_true, if_false]
        rw [hy]
        dsimp only
        rw [getCov_valid gy.toValid (hvy.trans vb) (by rw [hcy]; exact kb.det_pos)]
        exact ⟨_, rfl⟩
  obtain ⟨⟨x, y, z⟩, hz⟩ := hforms
  rw [hz]
  exact ⟨_, _, _, rfl⟩

theorem normalised_good {a : Gauss n} (hg : Good a) (hK : (canOf a).prec.PosDef) (x : Var → ℝ) :
    normalised a.vars (fun z => Real.exp (logOf a hg.len z)) x =
      dens (canOf a).prec ((canOf a).prec⁻¹ *ᵥ (canOf a).h) (vecAt a.vars hg.len x) := by
  unfold normalised
  rw [(integrate_good hg hK x).2]
  unfold logOf
  dsimp only
  rw [exp_evalCan hK, mul_comm, mul_div_assoc, div_self (Real.exp_pos _).ne', mul_one]

theorem kl_spec {a b : Gauss n} (ga : Good a) (gb : Good b) (ka : (canOf a).prec.PosDef)
    (kb : (canOf b).prec.PosDef) (hv : b.vars = a.vars) (x : Var → ℝ) :
    IntegrableOut a.vars (klIntegrand (normalised a.vars fun z => Real.exp (logOf a ga.len z))
      (normalised a.vars fun z => Real.exp (logOf b gb.len z))) x ∧
    integrateOut a.vars (klIntegrand (normalised a.vars fun z => Real.exp (logOf a ga.len z))
      (normalised a.vars fun z => Real.exp (logOf b gb.len z))) x = klClosed (canOf a) (canOf b) := by
  obtain ⟨h1, h2⟩ := integrateOut_all ga.nodup ga.len (fun y =>
    dens (canOf a).prec ((canOf a).prec⁻¹ *ᵥ (canOf a).h) y *
      (Real.log (dens (canOf a).prec ((canOf a).prec⁻¹ *ᵥ (canOf a).h) y) -
        Real.log (dens (canOf b).prec ((canOf b).prec⁻¹ *ᵥ (canOf b).h) y))) x
  obtain ⟨i, v⟩ := kl_dens ka kb ((canOf a).prec⁻¹ *ᵥ (canOf a).h) ((canOf b).prec⁻¹ *ᵥ (canOf b).h)
  have e : klIntegrand (normalised a.vars fun z => Real.exp (logOf a ga.len z))
      (normalised a.vars fun z => Real.exp (logOf b gb.len z)) = fun z =>
      dens (canOf a).prec ((canOf a).prec⁻¹ *ᵥ (canOf a).h) (vecAt a.vars ga.len z) *
      (Real.log (dens (canOf a).prec ((canOf a).prec⁻¹ *ᵥ (canOf a).h) (vecAt a.vars ga.len z)) -
        Real.log (dens (canOf b).prec ((canOf b).prec⁻¹ *ᵥ (canOf b).h) (vecAt a.vars ga.len z))) := by
    funext z
    have hb := normalised_good gb kb z
    have : vecAt b.vars gb.len z = vecAt a.vars ga.len z := by
      unfold vecAt
      funext i
      simp only [hv]
    rw [this, hv] at hb
    unfold klIntegrand
    rw [normalised_good ga ka, hb]
  rw [e]
  refine ⟨h2.2 i, h1.trans (v.trans ?_)⟩
  rw [klClosed, Fintype.card_fin]

/-- **C36 (part).** For two Gaussians over the same variables in the same order, with positive definite
precisions, `kl_divergence` returns the divergence of the normalised factors, or zero when the canonical or
the covariance parameters of the (unnormalised) factors agree up to a tolerance of 1/10000; the answer is not negative, and both operands keep their
function. Missing: operands in different orders (`C36_order` shows that the order changes the answer), and the
exact value for factors that are equal only up to the tolerance. -/
theorem C36_kl_partial {a b a0 b0 : Gauss n} {ca cb : Can n} {La Lb : (Var → ℝ) → ℝ} (ha : Made a) (hb : Made b)
    (da : Denotes a La) (db : Denotes b Lb) (hca : a.getCan = .ok (a0, ca)) (hcb : b.getCan = .ok (b0, cb))
    (ka : ca.prec.PosDef) (kb : cb.prec.PosDef) (va : a.isVacuous = false) (vb : b.isVacuous = false)
    (hv : b.vars = a.vars) :
    ∃ a' b' r, a.klDivergence b = .ok (a', b', .fin r) ∧ 0 ≤ r ∧
      (Denotes a' La ∧ a'.vars = a.vars) ∧ (Denotes b' Lb ∧ b'.vars = b.vars) ∧
      ((r = 0 ∧ (NearCan (1 / 10000) (1 / 10000) a b ∨ NearCov (1 / 10000) (1 / 10000) a b)) ∨
        ∀ x, IntegrableOut a.vars (klIntegrand (normalised a.vars fun z => Real.exp (La z))
            (normalised a.vars fun z => Real.exp (Lb z))) x ∧
          integrateOut a.vars (klIntegrand (normalised a.vars fun z => Real.exp (La z))
            (normalised a.vars fun z => Real.exp (Lb z))) x = r) := by
  obtain ⟨ga, -, rfl⟩ := getCan_inv ha.inv hca
  obtain ⟨gb, -, rfl⟩ := getCan_inv hb.inv hcb
  have va' : a.vac = false := by
    unfold isVacuous at va
    simp only [Bool.or_eq_false_iff] at va
    exact va.1
  have vb' : b.vac = false := by
    unfold isVacuous at vb
    simp only [Bool.or_eq_false_iff] at vb
    exact vb.1
  obtain ⟨a1, b1, r, he⟩ := equals_total (rtol := 1 / 10000) (atol := 1 / 10000) ga gb ka kb va' vb' hv
  obtain ⟨⟨k1, e1⟩, k2, e2⟩ := kept_equals ga gb he
  have e2' : b1.vars = b.vars := e2.elim id fun h => h.trans hv.symm
  unfold klDivergence
  rw [dif_pos rfl, va', vb']
  simp only [Bool.and_false, Bool.or_false, Bool.false_eq_true, if_false]
  cases r with
  | true =>
    have hk : klCore a b true = .ok (a1, b1, .fin 0) := by
      unfold klCore
      rw [he]
      rfl
    rw [hk]
    refine ⟨a1, b1, 0, rfl, le_rfl, ⟨k1.den _ da, e1⟩, ⟨k2.den _ db, e2'⟩, .inl ⟨rfl, ?_⟩⟩
    rcases ((C80_equals ha hb da db he).1 rfl).2 with h | h | h
    · rw [va] at h
      cases h.1
    · exact .inl h
    · exact .inr h.2.2
  | false =>
    have c1 := canOf_unique ga k1.good e1 da (k1.den _ da)
    have c2 := canOf_unique gb k2.good e2' db (k2.den _ db)
    obtain ⟨b2, hk, k3, e3⟩ := klCore_ok (nf := true) he k1.good k2.good (by rw [c1]; exact ka)
      (by rw [c2]; exact kb) (k2.vac.trans vb')
    rw [hk, c1, c2]
    refine ⟨a1, b2, _, rfl, ?_, ⟨k1.den _ da, e1⟩, ⟨k3.den _ (k2.den _ db), e3.trans e2'⟩, .inr fun x => ?_⟩
    · have hn := kl_nonneg ka kb ((canOf a).prec⁻¹ *ᵥ (canOf a).h) ((canOf b).prec⁻¹ *ᵥ (canOf b).h)
      rw [(kl_dens ka kb _ _).2, Fintype.card_fin] at hn
      exact hn
    · rw [da.eq ga, db.eq gb]
      exact kl_spec ga gb ka kb hv x

/-- The hypotheses of `C36_kl_partial` can be met by two different factors. -/
example : ∃ (b : Gauss 2), Made exA ∧ Made b ∧ (∃ L, Denotes exA L) ∧ (∃ L, Denotes b L) ∧ b.vars = exA.vars ∧
    exA.isVacuous = false ∧ b.isVacuous = false ∧ ∃ b0 cb, b.getCan = .ok (b0, cb) ∧ cb.prec.PosDef ∧ b ≠ exA := by
  refine ⟨⟨["a", "b"], none, some ⟨exS, ![5, 1], 3⟩, false⟩, exA_made,
    .ofCov (vars := ["a", "b"]) (v := ⟨exS, ![5, 1], 3⟩) exS_posDef (mkCov_ok (by decide) rfl),
    ⟨_, exA_good.denotes⟩, ?_⟩
  have g : Good (⟨["a", "b"], none, some ⟨exS, ![5, 1], 3⟩, false⟩ : Gauss 2) :=
    good_mkCov (by decide) rfl _ (posDef_symm exS_posDef) exS_posDef.det_pos
  refine ⟨⟨_, g.denotes⟩, rfl, rfl, rfl, _, _, getCan_valid g.toValid, exS_posDef.inv, ?_⟩
  intro h
  simp only [exA, exV, Gauss.mk.injEq, Option.some.injEq, CovF.mk.injEq] at h
  have := congrFun h.2.2.1.2.1 0
  simp at this

/-- Precisions for the next theorem. -/
noncomputable def exP : Can 2 := ⟨diagonal ![1, 1 / 2], 0, 0⟩
/-- The same quadratic form with the variables swapped, and another constant. -/
noncomputable def exQ : Can 2 := ⟨diagonal ![1 / 2, 1], 0, 5⟩

theorem exP_posDef : exP.prec.PosDef := by
  refine posDef_diagonal_iff.2 fun i => ?_
  fin_cases i <;> simp

theorem exQ_posDef : exQ.prec.PosDef := by
  refine posDef_diagonal_iff.2 fun i => ?_
  fin_cases i <;> simp

/-- **C36 fails** for operands in different orders: two factors whose functions differ by a constant only (so
the divergence of the normalised factors is zero) get a divergence of one quarter. -/
theorem C36_order : ∃ (a b a' b' : Gauss 2) (La : (Var → ℝ) → ℝ), mkCan ["x", "y"] exP = .ok a ∧
    mkCan ["y", "x"] exQ = .ok b ∧ Denotes a La ∧ Denotes b (fun z => La z + 5) ∧
    a.klDivergence b = .ok (a', b', .fin (1 / 4)) := by
  have hp := exP_posDef
  have hq := exQ_posDef
  have va : vacParams exP.prec = false := vacParams_posDef hp
  have vb : vacParams exQ.prec = false := vacParams_posDef hq
  have ga : Good (⟨["x", "y"], some exP, none, vacParams exP.prec⟩ : Gauss 2) :=
    good_mkCan (by decide) rfl _ (isSymm_diagonal _)
  have gb : Good (⟨["y", "x"], some exQ, none, vacParams exQ.prec⟩ : Gauss 2) :=
    good_mkCan (by decide) rfl _ (isSymm_diagonal _)
  have hfar : iscloseR (1 / 10000) (1 / 10000) exP.g exQ.g = false := by
    unfold iscloseR
    simp only [exP, exQ]
    norm_num
  have he : equals (1 / 10000) (1 / 10000) (⟨["x", "y"], some exP, none, vacParams exP.prec⟩ : Gauss 2)
      (⟨["y", "x"], some exQ, none, vacParams exQ.prec⟩ : Gauss 2) =
      .ok (⟨["x", "y"], some exP, none, vacParams exP.prec⟩, ⟨["y", "x"], some exQ, none, vacParams exQ.prec⟩,
        false) := by
    obtain ⟨k, hk⟩ := copy_total gb
    have hkv := (copy_good gb hk).2.1
    obtain ⟨e, -, hr⟩ := reorder_ok (copy_good gb hk).1.len (copy_good gb hk).1.nodup (new := ["x", "y"]) (by
      rw [hkv]
      exact List.Perm.swap _ _ _)
    unfold equals
    rw [if_neg (by simp only [not_not]; decide)]
    unfold equalsCopy
    rw [hk]
    dsimp only [bind, Except.bind]
    rw [if_pos (by decide), hr]
    dsimp only
    rw [va, Bool.and_false, dif_pos rfl]
    simp only [Bool.false_eq_true, if_false]
    unfold equalsForms canEquals
    dsimp only
    rw [getCan_valid (by rw [va] at *; exact gb.toValid)]
    dsimp only [bind, Except.bind, canOf]
    rw [hfar]
    rfl
  obtain ⟨b2, hk, -⟩ := klCore_ok (nf := true) he ga gb hp hq vb
  have hval : klClosed exP exQ = 1 / 4 := by
    have hinv : (diagonal ![(1 : ℝ), 1 / 2])⁻¹ = diagonal ![1, 2] := by
      refine inv_eq_right_inv ?_
      rw [diagonal_mul_diagonal, ← diagonal_one]
      congr 1
      funext i
      fin_cases i <;> simp
    unfold klClosed
    simp only [exP, exQ, hinv, diagonal_mul_diagonal, trace_diagonal, det_diagonal, Fin.sum_univ_two,
      Fin.prod_univ_two, mulVec_zero, sub_zero, zero_dotProduct, mul_zero]
    norm_num
  refine ⟨_, _, ⟨["x", "y"], some exP, none, vacParams exP.prec⟩, b2, _, mkCan_ok (by decide) rfl,
    mkCan_ok (by decide) rfl, ga.denotes, gb.denotes.congr fun z => ?_, ?_⟩
  · unfold logOf canOf evalCan vecAt
    simp [exP, exQ, dotProduct, mulVec_diagonal, Fin.sum_univ_two]
    ring
  · unfold klDivergence
    rw [dif_pos rfl]
    dsimp only
    rw [if_neg (by simp [va]), if_neg (by simp [va, vb]), hk]
    dsimp only [bind, Except.bind]
    rw [← hval]
    rfl

/-! ### C37 comparison -/

/-- **C37 (part).** `equals` changes neither the variables of the factor nor the function (by variable name) of
either operand, and an operand whose variables keep their order keeps its mean, covariance and weight.
Missing: the order of the argument's variables, which `equals` may change (`C37_reorders`). -/
theorem C37_equals_partial {rtol atol : ℝ} {a a' : Gauss n} {b b' : Gauss m} {r : Bool} {La Lb : (Var → ℝ) → ℝ}
    (ha : Made a) (hb : Made b) (da : Denotes a La) (db : Denotes b Lb)
    (h : equals rtol atol a b = .ok (a', b', r)) :
    Denotes a' La ∧ Denotes b' Lb ∧ a'.vars = a.vars ∧ (b'.vars = b.vars ∨ b'.vars = a.vars) ∧
    (∀ v, a'.getCov.map Prod.snd = .ok v ↔ a.getCov.map Prod.snd = .ok v) ∧
    (b'.vars = b.vars → ∀ v, b'.getCov.map Prod.snd = .ok v ↔ b.getCov.map Prod.snd = .ok v) := by
  have ga := da.good ha.inv
  have gb := db.good hb.inv
  obtain ⟨⟨k1, e1⟩, k2, e2⟩ := kept_equals ga gb h
  have key : ∀ {k : ℕ} {x y : Gauss k} {L : (Var → ℝ) → ℝ}, Good x → Kept x y → Denotes x L → y.vars = x.vars →
      ∀ v, y.getCov.map Prod.snd = .ok v ↔ x.getCov.map Prod.snd = .ok v := by
    intro k x y L gx kx dx hv v
    have hc := canOf_unique gx kx.good hv dx (kx.den _ dx)
    have aux : ∀ {u : Gauss k}, Good u → (u.getCov.map Prod.snd = .ok v ↔
        u.vac = false ∧ 0 < (canOf u).prec.det ∧ v = toCov (canOf u)) := by
      intro u gu
      constructor
      · intro hu
        cases hg : u.getCov with
        | error e =>
          rw [hg] at hu
          cases hu
        | ok w =>
          rw [hg] at hu
          obtain ⟨h1, h2, h3, -⟩ := getCov_eq_ok gu.toValid hg
          cases hu
          exact ⟨h1, h2, h3⟩
      · rintro ⟨h1, h2, rfl⟩
        rw [getCov_valid gu.toValid h1 h2]
        rfl
    rw [aux gx, aux kx.good, hc, kx.vac]
  exact ⟨k1.den _ da, k2.den _ db, e1, e2, key ga k1 da e1, fun hv => key gb k2 db hv⟩

/-- The covariance parameters of the next theorem, for the variables `x`, `y`. -/
noncomputable def exD : CovF 2 := ⟨diagonal ![1, 2], 0, 0⟩

theorem exD_posDef : exD.cov.PosDef := by
  refine posDef_diagonal_iff.2 fun i => ?_
  fin_cases i <;> simp

/-- **C37 fails** for the order of the variables: comparing with a factor over `x`, `y` leaves the argument,
constructed over `y`, `x`, with its variables in the other order. -/
theorem C37_reorders : ∃ a b a' b' r, mkCov ["x", "y"] exD = .ok a ∧ mkCov ["y", "x"] exD = .ok b ∧
    equals (1 / 10000) (1 / 10000) a b = .ok (a', b', r) ∧ b.vars = ["y", "x"] ∧ b'.vars = ["x", "y"] := by
  have ga : Good (⟨["x", "y"], none, some exD, false⟩ : Gauss 2) :=
    good_mkCov (by decide) rfl _ (posDef_symm exD_posDef) exD_posDef.det_pos
  have gb : Good (⟨["y", "x"], none, some exD, false⟩ : Gauss 2) :=
    good_mkCov (by decide) rfl _ (posDef_symm exD_posDef) exD_posDef.det_pos
  have hnear : iscloseR (1 / 10000) (1 / 10000) (Real.exp exD.lw) (Real.exp exD.lw) = true := by
    unfold iscloseR
    simp only [sub_self, abs_zero, decide_eq_true_eq]
    positivity
  obtain ⟨k, hk⟩ := copy_total gb
  have hkv := (copy_good gb hk).2.1
  obtain ⟨e, -, hr⟩ := reorder_ok (copy_good gb hk).1.len (copy_good gb hk).1.nodup (new := ["x", "y"]) (by
    rw [hkv]
    exact List.Perm.swap _ _ _)
  obtain ⟨f, -, hr2⟩ := reorder_ok gb.len gb.nodup (new := ["x", "y"]) (List.Perm.swap _ _ _)
  refine ⟨_, _, ⟨["x", "y"], none, some exD, false⟩, ⟨["x", "y"], none, some (permCov f exD), false⟩,
    allcloseV (1 / 10000) (1 / 10000) exD.mean (permCov f exD).mean &&
      allcloseM (1 / 10000) (1 / 10000) exD.cov (permCov f exD).cov, mkCov_ok (by decide) rfl, mkCov_ok (by decide) rfl, ?_, rfl, rfl⟩
  unfold equals
  rw [if_neg (by simp only [not_not]; decide)]
  unfold equalsCopy
  rw [hk]
  dsimp only [bind, Except.bind]
  rw [if_pos (by decide), hr]
  dsimp only
  rw [Bool.and_false, dif_pos rfl]
  simp only [Bool.false_eq_true, if_false]
  unfold equalsForms
  dsimp only [getCov, updateCov, bind, Except.bind]
  simp only [Bool.false_eq_true, if_false]
  unfold covEquals getWeight getCov updateCov
  dsimp only [bind, Except.bind]
  simp only [Bool.false_eq_true, if_false, hnear, Bool.not_true, hr2, Option.map_none, Option.map_some]

/-- The hypotheses of `C37_equals_partial` and `C80_equals` can be met. -/
example : ∃ a b a' b' r, mkCov ["x", "y"] exD = .ok a ∧ mkCov ["y", "x"] exD = .ok b ∧ Made a ∧ Made b ∧
    (∃ L, Denotes a L) ∧ (∃ L, Denotes b L) ∧ equals (1 / 10000) (1 / 10000) a b = .ok (a', b', r) := by
  obtain ⟨a, b, a', b', r, h1, h2, h3, -⟩ := C37_reorders
  refine ⟨a, b, a', b', r, h1, h2, .ofCov exD_posDef h1, .ofCov exD_posDef h2, ?_, ?_, h3⟩
  · obtain ⟨-, -, rfl⟩ := mkCov_eq_ok h1
    exact ⟨_, (good_mkCov (by decide) rfl _ (posDef_symm exD_posDef) exD_posDef.det_pos).denotes⟩
  · obtain ⟨-, -, rfl⟩ := mkCov_eq_ok h2
    exact ⟨_, (good_mkCov (by decide) rfl _ (posDef_symm exD_posDef) exD_posDef.det_pos).denotes⟩

/-! ### C62 splitting -/

/-- Moments of a one dimensional normal distribution, in terms of its parameters. -/
def moment1 (v : CovF 1) : ℕ → ℝ
  | 0 => 1
  | 1 => v.mean 0
  | _ => v.cov 0 0 + v.mean 0 * v.mean 0

/-- The moments of order at most two of a one dimensional Gaussian. -/
theorem moments_good {a : Gauss 1} (hg : Good a) (hK : (canOf a).prec.PosDef) {v : Var} (hv : a.vars = [v])
    (k : ℕ) (hk : k ≤ 2) (x : Var → ℝ) :
    IntegrableOut [v] (fun z => z v ^ k * Real.exp (logOf a hg.len z)) x ∧
    integrateOut [v] (fun z => z v ^ k * Real.exp (logOf a hg.len z)) x = Real.exp (toCov (canOf a)).lw *
      moment1 (toCov (canOf a)) k := by
  obtain ⟨vars, can, cov, vac⟩ := a
  dsimp only at hv
  subst hv
  set a : Gauss 1 := ⟨[v], can, cov, vac⟩ with ha
  have e : (fun z => z v ^ k * Real.exp (logOf a hg.len z)) = fun z =>
      (fun y : Fin 1 → ℝ => y 0 ^ k * Real.exp (evalCan (canOf a) y)) (vecAt a.vars hg.len z) := by
    funext z
    have : vecAt a.vars hg.len z 0 = z v := rfl
    simp only [this, logOf]
  obtain ⟨h1, h2⟩ := integrateOut_all hg.nodup hg.len (fun y : Fin 1 → ℝ => y 0 ^ k * Real.exp (evalCan (canOf a) y)) x
  have key : Integrable (fun y : Fin 1 → ℝ => y 0 ^ k * Real.exp (evalCan (canOf a) y)) ∧
      ∫ y : Fin 1 → ℝ, y 0 ^ k * Real.exp (evalCan (canOf a) y) = Real.exp (toCov (canOf a)).lw *
      moment1 (toCov (canOf a)) k := by
    have e2 : ∀ y : Fin 1 → ℝ, y 0 ^ k * Real.exp (evalCan (canOf a) y) = Real.exp (toCov (canOf a)).lw *
        (y 0 ^ k * dens (canOf a).prec ((canOf a).prec⁻¹ *ᵥ (canOf a).h) y) := by
      intro y
      rw [exp_evalCan hK]
      ring
    simp_rw [e2]
    rw [integral_const_mul]
    match k, hk with
    | 0, _ =>
      simp only [pow_zero, one_mul]
      exact ⟨(dens_integrable hK _).const_mul _, by rw [dens_integral hK]; rfl⟩
    | 1, _ =>
      simp only [pow_one]
      exact ⟨(dens_mean hK _ 0).1.const_mul _, by rw [(dens_mean hK _ 0).2]; rfl⟩
    | 2, _ =>
      simp only [pow_two]
      exact ⟨(dens_second hK _ 0 0).1.const_mul _, by rw [(dens_second hK _ 0 0).2]; rfl⟩
  rw [e]
  exact ⟨h2.2 key.1, h1.trans key.2⟩

theorem split_comp_good {a : Gauss 1} (ga : Good a) (hK : (canOf a).prec.PosDef) (mu : Fin 1 → ℝ) :
    Good (⟨a.vars, none, some ⟨(1 / 3 : ℝ) • (toCov (canOf a)).cov, mu, Real.log (1 / 3)⟩, false⟩ : Gauss 1) ∧
    ((1 / 3 : ℝ) • (toCov (canOf a)).cov).PosDef := by
  have hp : ((1 / 3 : ℝ) • (toCov (canOf a)).cov).PosDef := hK.inv.smul (by norm_num)
  exact ⟨good_mkCov ga.nodup ga.len _ (posDef_symm hp) hp.det_pos, hp⟩

/-- The result of splitting. -/
theorem split_ok {a : Gauss 1} (ga : Good a) (hK : (canOf a).prec.PosDef) (hv : a.vac = false) :
    a.split = .ok (⟨a.vars, a.can, some (toCov (canOf a)), a.vac⟩,
      [(toCov (canOf a)).mean - fun i => Real.sqrt ((toCov (canOf a)).cov i i), (toCov (canOf a)).mean,
        (toCov (canOf a)).mean + fun i => Real.sqrt ((toCov (canOf a)).cov i i)].map fun mu =>
          ⟨a.vars, none, some ⟨(1 / 3 : ℝ) • (toCov (canOf a)).cov, mu, Real.log (1 / 3)⟩, false⟩) := by
  have hd : ∀ i, 0 ≤ (toCov (canOf a)).cov i i := fun i => hK.inv.diag_pos.le
  unfold split
  rw [getCov_valid ga.toValid hv hK.det_pos]
  have hmk : ∀ mu : Fin 1 → ℝ, mkCov a.vars ⟨(1 / 3 : ℝ) • (toCov (canOf a)).cov, mu, Real.log (1 / 3)⟩ = .ok _ :=
    fun mu => mkCov_ok ga.nodup ga.len
  dsimp only [bind, Except.bind, pyGuard]
  rw [if_pos (by decide)]
  dsimp only
  rw [decide_eq_true hd, if_pos rfl]
  dsimp only
  simp only [List.mapM_cons, List.mapM_nil, hmk, bind, Except.bind, pure, Except.pure, List.map_cons, List.map_nil]

/-- **C62 (part).** Splitting a one dimensional Gaussian gives three Gaussians over the same variable whose sum
has, up to the weight, the moments of order zero, one and two of the original: the moments of the sum times the
weight of the original are the moments of the original. The factor keeps its function. Missing: the weight
itself, the sum always has weight one (`C62_weight`). -/
theorem C62_split_partial {a a0 : Gauss 1} {c : Can 1} {L : (Var → ℝ) → ℝ} (ha : Made a) (hL : Denotes a L)
    (hc : a.getCan = .ok (a0, c)) (hK : c.prec.PosDef) (hv : a.isVacuous = false) :
    ∃ v a' p q r P Q R, a.vars = [v] ∧ a.split = .ok (a', [p, q, r]) ∧ (Denotes a' L ∧ a'.vars = a.vars) ∧
      (Denotes p P ∧ Denotes q Q ∧ Denotes r R) ∧ (p.vars = [v] ∧ q.vars = [v] ∧ r.vars = [v]) ∧
      ∀ k ≤ 2, ∀ x,
        IntegrableOut [v] (fun z => z v ^ k * (Real.exp (P z) + Real.exp (Q z) + Real.exp (R z))) x ∧
        IntegrableOut [v] (fun z => z v ^ k * Real.exp (L z)) x ∧
        integrateOut [v] (fun z => z v ^ k * (Real.exp (P z) + Real.exp (Q z) + Real.exp (R z))) x *
          integrateOut [v] (fun z => Real.exp (L z)) x = integrateOut [v] (fun z => z v ^ k * Real.exp (L z)) x := by
  obtain ⟨ga, -, rfl⟩ := getCan_inv ha.inv hc
  have hvac : a.vac = false := by
    unfold isVacuous at hv
    simp only [Bool.or_eq_false_iff] at hv
    exact hv.1
  obtain ⟨v, hvars⟩ := List.length_eq_one_iff.1 ga.len
  have k0 := kept_cov ga hK.det_pos
  obtain ⟨gp, hp⟩ := split_comp_good ga hK ((toCov (canOf a)).mean - fun i => Real.sqrt ((toCov (canOf a)).cov i i))
  obtain ⟨gq, -⟩ := split_comp_good ga hK (toCov (canOf a)).mean
  obtain ⟨gr, -⟩ := split_comp_good ga hK ((toCov (canOf a)).mean + fun i => Real.sqrt ((toCov (canOf a)).cov i i))
  refine ⟨v, _, _, _, _, _, _, _, hvars, split_ok ga hK hvac, ⟨k0.den _ hL, rfl⟩,
    ⟨gp.denotes, gq.denotes, gr.denotes⟩, ⟨hvars, hvars, hvars⟩, fun k hk x => ?_⟩
  have hpp := hp.inv
  obtain ⟨i1, v1⟩ := moments_good gp hpp hvars k hk x
  obtain ⟨i2, v2⟩ := moments_good gq hpp hvars k hk x
  obtain ⟨i3, v3⟩ := moments_good gr hpp hvars k hk x
  obtain ⟨i4, v4⟩ := moments_good ga hK hvars k hk x
  obtain ⟨i5, v5⟩ := moments_good ga hK hvars 0 (by norm_num) x
  have hcan : ∀ mu : Fin 1 → ℝ, toCov (canOf (⟨a.vars, none, some ⟨(1 / 3 : ℝ) • (toCov (canOf a)).cov, mu,
      Real.log (1 / 3)⟩, false⟩ : Gauss 1)) = ⟨(1 / 3 : ℝ) • (toCov (canOf a)).cov, mu, Real.log (1 / 3)⟩ :=
    fun mu => toCov_toCan (v := ⟨(1 / 3 : ℝ) • (toCov (canOf a)).cov, mu, Real.log (1 / 3)⟩) hp.det_pos.ne'
  rw [hcan] at v1 v2 v3
  rw [← hL.eq ga] at i4 v4 i5 v5
  simp only [pow_zero, one_mul, moment1, mul_one] at v5
  have hsq : Real.sqrt ((toCov (canOf a)).cov 0 0) ^ 2 = (toCov (canOf a)).cov 0 0 :=
    Real.sq_sqrt hK.inv.diag_pos.le
  have hsum : integrateOut [v] (fun z => z v ^ k * (Real.exp (logOf _ gp.len z) + Real.exp (logOf _ gq.len z) +
      Real.exp (logOf _ gr.len z))) x = integrateOut [v] (fun z => z v ^ k * Real.exp (logOf _ gp.len z)) x +
      integrateOut [v] (fun z => z v ^ k * Real.exp (logOf _ gq.len z)) x +
      integrateOut [v] (fun z => z v ^ k * Real.exp (logOf _ gr.len z)) x := by
    unfold integrateOut
    simp only [mul_add]
    rw [integral_add _ i3, integral_add i1 i2]
    exact i1.add i2
  refine ⟨?_, i4, ?_⟩
  · have := (i1.add i2).add i3
    unfold IntegrableOut
    simp only [mul_add]
    exact this
  · rw [hsum, v1, v2, v3, v4, v5, Real.exp_log (by norm_num)]
    match k, hk with
    | 0, _ =>
      simp only [moment1]
      ring
    | 1, _ =>
      simp only [moment1, Pi.add_apply, Pi.sub_apply]
      ring
    | 2, _ =>
      simp only [moment1, Pi.add_apply, Pi.sub_apply, Matrix.smul_apply, smul_eq_mul]
      linear_combination (2 / 3 * Real.exp (toCov (canOf a)).lw) * hsq

/-- A one dimensional Gaussian with weight `exp 3`. -/
def exOne : Gauss 1 := ⟨["a"], none, some ⟨1, ![4], 3⟩, false⟩

theorem exOne_good : Good exOne := good_mkCov (by decide) rfl _ (by simp) (by simp)

/-- The hypotheses of `C62_split_partial` can be met. -/
example : Made exOne ∧ (∃ L, Denotes exOne L) ∧ exOne.isVacuous = false ∧
    ∃ a0 c, exOne.getCan = .ok (a0, c) ∧ c.prec.PosDef :=
  ⟨.ofCov (vars := ["a"]) (v := ⟨1, ![4], 3⟩) PosDef.one (mkCov_ok (by decide) rfl), ⟨_, exOne_good.denotes⟩, rfl, _, _,
    getCan_valid exOne_good.toValid, PosDef.one.inv⟩

/-- **C62 fails** for the weight: splitting a factor of weight `exp 3` gives three factors of total weight one. -/
theorem C62_weight : ∃ L a' p q r P Q R, Denotes exOne L ∧ exOne.split = .ok (a', [p, q, r]) ∧
    (Denotes p P ∧ Denotes q Q ∧ Denotes r R) ∧ ∀ x,
      integrateOut ["a"] (fun z => Real.exp (L z)) x = Real.exp 3 ∧
      integrateOut ["a"] (fun z => Real.exp (P z) + Real.exp (Q z) + Real.exp (R z)) x = 1 := by
  have hm : Made exOne := .ofCov (vars := ["a"]) (v := ⟨1, ![4], 3⟩) PosDef.one (mkCov_ok (by decide) rfl)
  obtain ⟨v, a', p, q, r, P, Q, R, hv, hs, -, hd, -, hi⟩ := C62_split_partial hm exOne_good.denotes
    (getCan_valid exOne_good.toValid) PosDef.one.inv rfl
  have hva : v = "a" := by
    simp only [exOne, List.cons.injEq, and_true] at hv
    exact hv.symm
  subst hva
  refine ⟨_, a', p, q, r, P, Q, R, exOne_good.denotes, hs, hd, fun x => ?_⟩
  have h1 : integrateOut ["a"] (fun z => Real.exp (logOf exOne exOne_good.len z)) x = Real.exp 3 := by
    rw [show ["a"] = exOne.vars from rfl, (integrate_good exOne_good PosDef.one.inv x).2]
    have : toCov (canOf exOne) = ⟨1, ![4], 3⟩ := toCov_toCan (v := ⟨1, ![4], 3⟩) (by simp)
    rw [this]
  refine ⟨h1, ?_⟩
  have h2 := (hi 0 (by norm_num) x).2.2
  simp only [pow_zero, one_mul] at h2
  have h3 : integrateOut ["a"] (fun z => Real.exp (logOf exOne exOne_good.len z)) x ≠ 0 := by
    rw [h1]
    exact (Real.exp_pos 3).ne'
  exact mul_right_cancel₀ h3 (h2.trans (one_mul _).symm)

end Gauss
end Verif
