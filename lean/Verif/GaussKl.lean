import Verif.GaussProps2

/-! Helper lemmas: moments and divergences of normal densities; uniqueness of parameters. -/

namespace Verif
open Matrix MeasureTheory

namespace GaussInt
variable {ι : Type} [Fintype ι] [DecidableEq ι]

/-- The mean of a quadratic form under a normal density. -/
theorem quad_mean {K : Matrix ι ι ℝ} (hK : K.PosDef) (m u : ι → ℝ) (A : Matrix ι ι ℝ) :
    Integrable (fun x => ((x - u) ⬝ᵥ A *ᵥ (x - u)) * bell K m x) ∧
      ∫ x, ((x - u) ⬝ᵥ A *ᵥ (x - u)) * bell K m x =
        ((A * K⁻¹).trace + (m - u) ⬝ᵥ A *ᵥ (m - u)) * Z K := by
  have hsymm : K⁻¹.IsSymm := by
    have : K.IsSymm := by simpa [IsHermitian, IsSymm] using hK.isHermitian
    rw [IsSymm, transpose_nonsing_inv, this.eq]
  have e : ∀ x, ((x - u) ⬝ᵥ A *ᵥ (x - u)) * bell K m x = ∑ i, ∑ j,
      (A i j * ((x i - m i) * (x j - m j) * bell K m x) + A i j * (m j - u j) * ((x i - m i) * bell K m x) +
        A i j * (m i - u i) * ((x j - m j) * bell K m x) + A i j * (m i - u i) * (m j - u j) * bell K m x) := by
    intro x
    simp only [dotProduct, mulVec, Finset.mul_sum, Finset.sum_mul, Pi.sub_apply]
    refine Finset.sum_congr rfl fun i _ => Finset.sum_congr rfl fun j _ => ?_
    ring
  have hint : ∀ i j, Integrable fun x =>
      (A i j * ((x i - m i) * (x j - m j) * bell K m x) + A i j * (m j - u j) * ((x i - m i) * bell K m x) +
        A i j * (m i - u i) * ((x j - m j) * bell K m x) + A i j * (m i - u i) * (m j - u j) * bell K m x) :=
    fun i j => ((((second_centred hK m i j).1.const_mul _).add ((first_centred hK m i).1.const_mul _)).add
      ((first_centred hK m j).1.const_mul _)).add ((mass_integrable hK m).const_mul _)
  have hval : ∀ i j, ∫ x,
      (A i j * ((x i - m i) * (x j - m j) * bell K m x) + A i j * (m j - u j) * ((x i - m i) * bell K m x) +
        A i j * (m i - u i) * ((x j - m j) * bell K m x) + A i j * (m i - u i) * (m j - u j) * bell K m x) =
      (A i j * K⁻¹ j i + (m i - u i) * (A i j * (m j - u j))) * Z K := by
    intro i j
    rw [integral_add _ ((mass_integrable hK m).const_mul _),
      integral_add _ ((first_centred hK m j).1.const_mul _),
      integral_add ((second_centred hK m i j).1.const_mul _) ((first_centred hK m i).1.const_mul _),
      integral_const_mul, integral_const_mul, integral_const_mul, integral_const_mul,
      (second_centred hK m i j).2, (first_centred hK m i).2, (first_centred hK m j).2, mass hK,
      hsymm.apply i j]
    · ring
    · exact ((second_centred hK m i j).1.const_mul _).add ((first_centred hK m i).1.const_mul _)
    · exact (((second_centred hK m i j).1.const_mul _).add ((first_centred hK m i).1.const_mul _)).add
        ((first_centred hK m j).1.const_mul _)
  simp_rw [e]
  refine ⟨integrable_finsetSum _ fun i _ => integrable_finsetSum _ fun j _ => hint i j, ?_⟩
  rw [integral_finsetSum _ fun i _ => integrable_finsetSum _ fun j _ => hint i j]
  simp_rw [integral_finsetSum _ fun j _ => hint _ j, hval]
  simp only [trace, diag_apply, mul_apply, dotProduct, mulVec, Finset.sum_mul, Finset.mul_sum, add_mul,
    ← Finset.sum_add_distrib, Pi.sub_apply]

/-- The normal density with precision `K` and mean `m`. -/
noncomputable def dens (K : Matrix ι ι ℝ) (m x : ι → ℝ) : ℝ := bell K m x / Z K

theorem dens_pos {K : Matrix ι ι ℝ} (hK : K.PosDef) (m x : ι → ℝ) : 0 < dens K m x :=
  div_pos (bell_pos _ _ _) (Z_pos hK)

theorem dens_integral {K : Matrix ι ι ℝ} (hK : K.PosDef) (m : ι → ℝ) : ∫ x, dens K m x = 1 := by
  unfold dens
  rw [integral_div, mass hK, div_self (Z_pos hK).ne']

theorem dens_integrable {K : Matrix ι ι ℝ} (hK : K.PosDef) (m : ι → ℝ) : Integrable (dens K m) :=
  (mass_integrable hK m).div_const _

theorem log_dens {K : Matrix ι ι ℝ} (hK : K.PosDef) (m x : ι → ℝ) :
    Real.log (dens K m x) = -((x - m) ⬝ᵥ K *ᵥ (x - m)) / 2 - Real.log (Z K) := by
  rw [dens, Real.log_div (bell_pos _ _ _).ne' (Z_pos hK).ne', bell, Real.log_exp]

/-- The divergence of two normal densities. -/
theorem kl_dens {P Q : Matrix ι ι ℝ} (hP : P.PosDef) (hQ : Q.PosDef) (m u : ι → ℝ) :
    Integrable (fun x => dens P m x * (Real.log (dens P m x) - Real.log (dens Q u x))) ∧
    ∫ x, dens P m x * (Real.log (dens P m x) - Real.log (dens Q u x)) =
      1 / 2 * Real.log (P.det / Q.det) + 1 / 2 * (Q * P⁻¹).trace + 1 / 2 * ((m - u) ⬝ᵥ Q *ᵥ (m - u)) -
        1 / 2 * Fintype.card ι := by
  have hZ := (Z_pos hP).ne'
  have e : ∀ x, dens P m x * (Real.log (dens P m x) - Real.log (dens Q u x)) =
      -1 / 2 / Z P * (((x - m) ⬝ᵥ P *ᵥ (x - m)) * bell P m x) +
        1 / 2 / Z P * (((x - u) ⬝ᵥ Q *ᵥ (x - u)) * bell P m x) +
          (Real.log (Z Q) - Real.log (Z P)) / Z P * bell P m x := by
    intro x
    rw [log_dens hP, log_dens hQ, dens]
    ring
  obtain ⟨i1, v1⟩ := quad_mean hP m m P
  obtain ⟨i2, v2⟩ := quad_mean hP m u Q
  have i3 := mass_integrable hP m
  simp_rw [e]
  refine ⟨((i1.const_mul _).add (i2.const_mul _)).add (i3.const_mul _), ?_⟩
  rw [integral_add _ (i3.const_mul _), integral_add (i1.const_mul _) (i2.const_mul _), integral_const_mul, integral_const_mul, integral_const_mul,
    v1, v2, mass hP, mul_nonsing_inv _ hP.det_pos.ne'.isUnit]
  have hlog : ∀ {K : Matrix ι ι ℝ}, K.PosDef → Real.log (Z K) =
      1 / 2 * (Real.log ((2 * Real.pi) ^ Fintype.card ι) - Real.log K.det) := by
    intro K hK
    have hd := hK.det_pos
    rw [Z, Real.log_sqrt (by positivity), Real.log_div (by positivity) hd.ne']
    ring
  rw [hlog hP, hlog hQ, Real.log_div hP.det_pos.ne' hQ.det_pos.ne']
  · simp only [trace_one, sub_self, zero_dotProduct, add_zero]
    field_simp
    ring
  · exact (i1.const_mul _).add (i2.const_mul _)

/-- The divergence is not negative. -/
theorem kl_nonneg {P Q : Matrix ι ι ℝ} (hP : P.PosDef) (hQ : Q.PosDef) (m u : ι → ℝ) :
    0 ≤ ∫ x, dens P m x * (Real.log (dens P m x) - Real.log (dens Q u x)) := by
  have h1 : ∫ x, (dens P m x - dens Q u x) = 0 := by
    rw [integral_sub (dens_integrable hP m) (dens_integrable hQ u), dens_integral hP, dens_integral hQ, sub_self]
  rw [← h1]
  refine integral_mono ((dens_integrable hP m).sub (dens_integrable hQ u)) (kl_dens hP hQ m u).1 fun x => ?_
  have hp := dens_pos hP m x
  have hq := dens_pos hQ u x
  have := Real.log_le_sub_one_of_pos (div_pos hq hp)
  rw [Real.log_div hq.ne' hp.ne'] at this
  have h2 := mul_le_mul_of_nonneg_left this hp.le
  have h3 : dens P m x * (dens Q u x / dens P m x - 1) = dens Q u x - dens P m x := by
    field_simp
  rw [h3] at h2
  change dens P m x - dens Q u x ≤ _
  linarith

end GaussInt

namespace Gauss
open GaussInt Spec
variable {n m : ℕ}

/-- The parameters are determined by the function. -/
theorem evalCan_inj {c d : Can n} (hc : c.prec.IsSymm) (hd : d.prec.IsSymm) (h : ∀ x, evalCan c x = evalCan d x) :
    c = d := by
  have hg : c.g = d.g := by simpa [evalCan] using h 0
  have hq : ∀ x, x ⬝ᵥ c.prec *ᵥ x = x ⬝ᵥ d.prec *ᵥ x := by
    intro x
    have h1 := h x
    have h2 := h (-x)
    simp only [evalCan, neg_dotProduct, mulVec_neg, dotProduct_neg, neg_neg, hg] at h1 h2
    linarith
  have hh : ∀ x, x ⬝ᵥ c.h = x ⬝ᵥ d.h := by
    intro x
    have h1 := h x
    simp only [evalCan, hq, hg] at h1
    linarith
  have hpol : ∀ x y, x ⬝ᵥ c.prec *ᵥ y = x ⬝ᵥ d.prec *ᵥ y := by
    intro x y
    have h1 := hq (x + y)
    simp only [add_dotProduct, mulVec_add, dotProduct_add, hq x, hq y, dot_symm hc y x, dot_symm hd y x] at h1
    linarith
  obtain ⟨K, hv, g⟩ := c
  obtain ⟨K', hv', g'⟩ := d
  dsimp only at *
  have e1 : hv = hv' := by
    funext i
    have := hh (Pi.single i 1)
    simpa using this
  have e2 : K = K' := by
    ext i j
    have := hpol (Pi.single i 1) (Pi.single j 1)
    simpa using this
  rw [e1, e2, hg]

theorem vecAt_surj {vars : List Var} (hnd : vars.Nodup) (hn : vars.length = n) (y : Fin n → ℝ) :
    ∃ x, vecAt vars hn x = y := by
  subst hn
  exact ⟨setVars vars y fun _ => 0, setVars_mem hnd y _⟩

/-- Objects over the same variables that denote the same function have the same parameters. -/
theorem canOf_unique {a b : Gauss n} (ha : Good a) (hb : Good b) (hv : b.vars = a.vars) {L : (Var → ℝ) → ℝ}
    (da : Denotes a L) (db : Denotes b L) : canOf b = canOf a := by
  refine evalCan_inj hb.symm ha.symm fun y => ?_
  obtain ⟨x, rfl⟩ := vecAt_surj ha.nodup ha.len y
  have h1 := (da.eq ha).symm.trans (db.eq hb)
  have h2 := congrFun h1 x
  unfold logOf at h2
  rw [h2]
  congr 1
  unfold vecAt
  funext i
  simp only [hv]

/-- What an operation may do to an operand. -/
structure Kept (a a' : Gauss n) : Prop where
  good : Good a'
  vac : a'.vac = a.vac
  den : ∀ L, Denotes a L → Denotes a' L

theorem Kept.refl {a : Gauss n} (h : Good a) : Kept a a := ⟨h, rfl, fun _ h => h⟩

theorem Kept.trans {a b c : Gauss n} (h1 : Kept a b) (h2 : Kept b c) : Kept a c :=
  ⟨h2.good, h2.vac.trans h1.vac, fun L h => h2.den L (h1.den L h)⟩

theorem kept_can {a : Gauss n} (ha : Good a) : Kept a ⟨a.vars, some (canOf a), a.cov, a.vac⟩ :=
  ⟨good_can ha, rfl, fun _ h => denotes_of_canOf ha (good_can ha) rfl rfl h⟩

theorem kept_cov {a : Gauss n} (ha : Good a) (hd : 0 < (canOf a).prec.det) :
    Kept a ⟨a.vars, a.can, some (toCov (canOf a)), a.vac⟩ :=
  ⟨good_cov ha hd, rfl, fun _ h => denotes_of_canOf ha (good_cov ha hd) rfl (canOf_cov_mk ha.toValid hd) h⟩

theorem kept_reorder {a a' : Gauss n} (ha : Good a) {new : List Var} (hp : new.Perm a.vars)
    (h : a.reorder new = .ok a') : Kept a a' ∧ a'.vars = new := by
  obtain ⟨e, he, hr⟩ := reorder_ok ha.len ha.nodup hp
  rw [hr] at h
  cases h
  have hgr : Good (⟨new, a.can.map (permCan e), a.cov.map (permCov e), a.vac⟩ : Gauss n) :=
    ⟨valid_perm e ha.toValid hp, by
      rw [canOf_perm e ha.toValid]
      exact ha.symm.submatrix _⟩
  refine ⟨⟨hgr, rfl, fun L hL => ?_⟩, rfl⟩
  rw [hL.eq ha]
  refine hgr.denotes.congr fun x => ?_
  unfold logOf
  rw [canOf_perm e ha.toValid]
  change evalCan _ (vecAt new _ x) = _
  rw [he x, evalCan_permCan]

theorem kept_getCov {a a' : Gauss n} {v : CovF n} (ha : Good a) (h : a.getCov = .ok (a', v)) :
    Kept a a' ∧ a'.vars = a.vars := by
  obtain ⟨-, hd, -, rfl⟩ := getCov_eq_ok ha.toValid h
  exact ⟨kept_cov ha hd, rfl⟩

theorem kept_canEquals {rtol atol : ℝ} {vars : List Var} {c : Can n} {b b' : Gauss n} {r : Bool}
    (hb : Good b) (hp : vars.Perm b.vars) (h : canEquals rtol atol vars c b = .ok (b', r)) :
    Kept b b' ∧ (b'.vars = b.vars ∨ b'.vars = vars) := by
  unfold canEquals at h
  obtain ⟨⟨b1, c1⟩, h1, h⟩ := py_bind_eq_ok.1 h
  obtain ⟨-, rfl, -⟩ := getCan_inv hb.inv h1
  dsimp only at h
  have k1 := kept_can hb
  split at h
  · cases h
    exact ⟨k1, .inl rfl⟩
  · obtain ⟨b2, h2, h⟩ := py_bind_eq_ok.1 h
    obtain ⟨⟨b3, c3⟩, h3, h⟩ := py_bind_eq_ok.1 h
    cases h
    obtain ⟨k2, e2⟩ := kept_reorder k1.good hp h2
    obtain ⟨-, rfl, -⟩ := getCan_inv k2.good.inv h3
    exact ⟨(k1.trans k2).trans (kept_can k2.good), .inr e2⟩

theorem kept_covEquals {rtol atol : ℝ} {vars : List Var} {v : CovF n} {b b' : Gauss n} {r : Bool}
    (hb : Good b) (hp : vars.Perm b.vars) (h : covEquals rtol atol vars v b = .ok (b', r)) :
    Kept b b' ∧ (b'.vars = b.vars ∨ b'.vars = vars) := by
  unfold covEquals at h
  obtain ⟨⟨b1, c1⟩, h1, h⟩ := py_bind_eq_ok.1 h
  unfold getWeight at h1
  obtain ⟨⟨b0, v0⟩, h0, h1⟩ := py_bind_eq_ok.1 h1
  cases h1
  obtain ⟨k1, e1⟩ := kept_getCov hb h0
  dsimp only at h
  split at h
  · cases h
    exact ⟨k1, .inl e1⟩
  · obtain ⟨b2, h2, h⟩ := py_bind_eq_ok.1 h
    obtain ⟨⟨b3, c3⟩, h3, h⟩ := py_bind_eq_ok.1 h
    cases h
    obtain ⟨k2, e2⟩ := kept_reorder k1.good (e1 ▸ hp) h2
    obtain ⟨k3, e3⟩ := kept_getCov k2.good h3
    exact ⟨(k1.trans k2).trans k3, .inr (e3.trans e2)⟩

theorem kept_equals {rtol atol : ℝ} {a a' : Gauss n} {b b' : Gauss m} {r : Bool} (ha : Good a) (hb : Good b)
    (h : equals rtol atol a b = .ok (a', b', r)) :
    (Kept a a' ∧ a'.vars = a.vars) ∧ Kept b b' ∧ (b'.vars = b.vars ∨ b'.vars = a.vars) := by
  unfold equals at h
  split at h
  · cases h
    exact ⟨⟨.refl ha, rfl⟩, .refl hb, .inl rfl⟩
  · rename_i hset
    have hp := perm_of_sameSet ha.nodup hb.nodup (not_not.1 hset)
    obtain ⟨k, hk, h⟩ := py_bind_eq_ok.1 h
    dsimp only at h
    split at h
    · cases h
      exact ⟨⟨.refl ha, rfl⟩, .refl hb, .inl rfl⟩
    · split at h
      · rename_i hmn
        subst hmn
        obtain ⟨⟨x, y, z⟩, hx, h⟩ := py_bind_eq_ok.1 h
        cases h
        unfold equalsForms at hx
        split at hx
        · obtain ⟨⟨b1, r1⟩, h1, h⟩ := py_bind_eq_ok.1 hx
          cases h
          exact ⟨⟨.refl ha, rfl⟩, kept_canEquals hb hp h1⟩
        · obtain ⟨⟨a1, v1⟩, h0, h⟩ := py_bind_eq_ok.1 hx
          obtain ⟨⟨b1, r1⟩, h1, h⟩ := py_bind_eq_ok.1 h
          cases h
          obtain ⟨k1, e1⟩ := kept_getCov ha h0
          have := kept_covEquals hb (e1 ▸ hp) h1
          rw [e1] at this
          exact ⟨⟨k1, e1⟩, this⟩
      · cases h

/-- The closed form computed by `kl_divergence`. -/
noncomputable def klClosed (c d : Can n) : ℝ :=
  1 / 2 * Real.log (c.prec.det / d.prec.det) + 1 / 2 * (d.prec * c.prec⁻¹).trace +
    1 / 2 * ((c.prec⁻¹ *ᵥ c.h - d.prec⁻¹ *ᵥ d.h) ⬝ᵥ d.prec *ᵥ (c.prec⁻¹ *ᵥ c.h - d.prec⁻¹ *ᵥ d.h)) - 1 / 2 * n

theorem klFormula_ok {c d : Can n} (hc : c.prec.PosDef) (hd : d.prec.PosDef) {pv qv : CovF n}
    (h1 : pv.cov = c.prec⁻¹) (h2 : pv.mean = c.prec⁻¹ *ᵥ c.h) (h3 : qv.mean = d.prec⁻¹ *ᵥ d.h) {p q : Can n}
    (hp : p.prec = c.prec) (hq : q.prec = d.prec) : klFormula p pv q qv = .ok (klClosed c d) := by
  have d1 := hc.det_pos
  have d2 := hd.det_pos
  unfold klFormula
  rw [hp, hq, if_neg d2.ne', if_neg (div_pos d1 d2).ne', h1, h2, h3]
  dsimp only
  congr 1
  have hn := kl_nonneg hc hd (c.prec⁻¹ *ᵥ c.h) (d.prec⁻¹ *ᵥ d.h)
  rw [(kl_dens hc hd _ _).2, Fintype.card_fin] at hn
  have e : (1 / 2 * Complex.log ((c.prec.det / d.prec.det : ℝ)) + ((1 / 2 * (d.prec * c.prec⁻¹).trace : ℝ) : ℂ) +
      ((1 / 2 * ((c.prec⁻¹ *ᵥ c.h - d.prec⁻¹ *ᵥ d.h) ⬝ᵥ d.prec *ᵥ (c.prec⁻¹ *ᵥ c.h - d.prec⁻¹ *ᵥ d.h)) : ℝ) : ℂ) -
        1 / 2 * (n : ℂ)) = ((klClosed c d : ℝ) : ℂ) := by
    unfold klClosed
    rw [← Complex.ofReal_log (div_pos d1 d2).le]
    push_cast
    ring
  rw [e, Complex.norm_real, Real.norm_eq_abs]
  exact abs_of_nonneg hn

/-- `kl_divergence` after `equals` has answered no. -/
theorem klCore_ok {a b a1 b1 : Gauss n} {nf : Bool} (h : equals (1 / 10000) (1 / 10000) a b = .ok (a1, b1, false))
    (ga : Good a1) (gb : Good b1) (hc : (canOf a1).prec.PosDef) (hd : (canOf b1).prec.PosDef)
    (vb : b1.vac = false) :
    ∃ b2, klCore a b nf = .ok (a1, b2, .fin (klClosed (canOf a1) (canOf b1))) ∧ Kept b1 b2 ∧ b2.vars = b1.vars := by
  have hnorm : ∀ {x : Gauss n}, Good x → (canOf x).prec.PosDef →
      Good (⟨x.vars, none, some { toCov (canOf x) with lw := 0 }, false⟩ : Gauss n) ∧
      canOf (⟨x.vars, none, some { toCov (canOf x) with lw := 0 }, false⟩ : Gauss n) =
        toCan { toCov (canOf x) with lw := 0 } ∧
      (toCan { toCov (canOf x) with lw := 0 }).prec = (canOf x).prec := by
    intro x gx hx
    refine ⟨good_mkCov gx.nodup gx.len _ (symm_inv gx.symm) (det_inv_pos.2 hx.det_pos), rfl, ?_⟩
    exact nonsing_inv_nonsing_inv _ hx.det_pos.ne'.isUnit
  obtain ⟨gp, cp, pp⟩ := hnorm ga hc
  have hp := normalize_good ga hc
  unfold klCore
  rw [h]
  dsimp only [bind, Except.bind]
  rw [if_neg (by decide), hp]
  dsimp only
  have hgp := getCan_valid gp.toValid
  rw [cp] at hgp
  have gp' := good_can gp
  have hgp2 := getCov_valid gp'.toValid rfl (by
    change 0 < (toCan { toCov (canOf a1) with lw := 0 }).prec.det
    rw [pp]
    exact hc.det_pos)
  have hd' : { toCov (canOf a1) with lw := 0 }.cov.det ≠ 0 := (det_inv_pos.2 hc.det_pos).ne'
  change getCov _ = .ok (_, toCov (toCan { toCov (canOf a1) with lw := 0 })) at hgp2
  rw [toCov_toCan hd'] at hgp2
  cases nf with
  | true =>
    obtain ⟨gq, cq, qq⟩ := hnorm gb hd
    have hq := normalize_good gb hd
    have hgq := getCan_valid gq.toValid
    rw [cq] at hgq
    have gq' := good_can gq
    have hgq2 := getCov_valid gq'.toValid rfl (by
      change 0 < (toCan { toCov (canOf b1) with lw := 0 }).prec.det
      rw [qq]
      exact hd.det_pos)
    have hd2 : { toCov (canOf b1) with lw := 0 }.cov.det ≠ 0 := (det_inv_pos.2 hd.det_pos).ne'
    change getCov _ = .ok (_, toCov (toCan { toCov (canOf b1) with lw := 0 })) at hgq2
    rw [toCov_toCan hd2] at hgq2
    rw [cp] at hgp2
    rw [cq] at hgq2
    simp only [klOther, if_true, hq, hgq, hgp]
    dsimp only at hgp2 hgq2 ⊢
    rw [hgp2]
    dsimp only
    rw [hgq2]
    dsimp only
    rw [klFormula_ok hc hd rfl rfl rfl pp qq]
    exact ⟨b1, rfl, .refl gb, rfl⟩
  | false =>
    have hgq := getCan_valid gb.toValid
    have k1 := kept_can gb
    have hgq2 := getCov_valid k1.good.toValid vb hd.det_pos
    rw [cp] at hgp2
    simp only [klOther, Bool.false_eq_true, if_false, hgq, hgp]
    dsimp only at hgp2 hgq2 ⊢
    rw [hgp2]
    dsimp only
    rw [hgq2]
    dsimp only
    rw [klFormula_ok hc hd rfl rfl rfl pp rfl]
    exact ⟨_, rfl, k1.trans (kept_cov k1.good hd.det_pos), rfl⟩

end Gauss
end Verif
