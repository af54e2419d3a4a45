import Verif.MixDivModel
import Verif.MixProps3
import Verif.GaussKl
import Verif.FactMarg

/-!
# Helper lemmas for the approximate division of Gaussian mixtures
-/

namespace Verif.Mix
open Matrix Gauss Spec Fact

variable {n : ℕ}

/-! ### Complex numbers -/

/-- The complex log weight for canonical parameters. -/
noncomputable def cLog (c : Can n) : ℂ :=
  ((c.g + 1 / 2 * ((c.prec⁻¹ *ᵥ c.h) ⬝ᵥ c.prec *ᵥ (c.prec⁻¹ *ᵥ c.h)) : ℝ) : ℂ) + 1 / 2 * Complex.log (det2pi c.prec⁻¹)

theorem cLog_im (c : Can n) : -Real.pi < (cLog c).im ∧ (cLog c).im ≤ Real.pi := by
  have h := Complex.neg_pi_lt_log_im (det2pi c.prec⁻¹ : ℂ)
  have h' := Complex.log_im_le_pi (det2pi c.prec⁻¹ : ℂ)
  have e : (cLog c).im = 1 / 2 * (Complex.log (det2pi c.prec⁻¹ : ℂ)).im := by
    unfold cLog
    rw [Complex.add_im, Complex.ofReal_im, zero_add]
    have : (1 / 2 : ℂ) = ((1 / 2 : ℝ) : ℂ) := by push_cast; rfl
    rw [this, Complex.im_ofReal_mul]
  have := Real.pi_pos
  rw [e]
  constructor <;> linarith

theorem log_nat_mul_exp {k : ℕ} (hk : k ≠ 0) {z : ℂ} (h : -Real.pi < z.im ∧ z.im ≤ Real.pi) :
    Complex.log ((k : ℂ) * Complex.exp z) = ((Real.log k : ℝ) : ℂ) + z := by
  have hk' : (0 : ℝ) < k := by exact_mod_cast Nat.pos_of_ne_zero hk
  have := Complex.log_ofReal_mul hk' (Complex.exp_ne_zero z)
  rw [Complex.log_exp h.1 h.2] at this
  simpa using this

theorem toCM_mulVec (m : Matrix (Fin n) (Fin n) ℝ) (x : Fin n → ℝ) : toCM m *ᵥ toC x = toC (m *ᵥ x) := by
  funext i
  simp [toCM, toC, mulVec, dotProduct]

theorem toC_dot (x y : Fin n → ℝ) : toC x ⬝ᵥ toC y = ((x ⬝ᵥ y : ℝ) : ℂ) := by
  simp [toC, dotProduct]

theorem toCM_det (m : Matrix (Fin n) (Fin n) ℝ) : (toCM m).det = ((m.det : ℝ) : ℂ) := by
  exact (RingHom.map_det Complex.ofRealHom m).symm

theorem toCM_smul (r : ℝ) (m : Matrix (Fin n) (Fin n) ℝ) : (r : ℂ) • toCM m = toCM (r • m) := by
  ext i j
  simp [toCM]

theorem toCM_mul (a b : Matrix (Fin n) (Fin n) ℝ) : toCM a * toCM b = toCM (a * b) := by
  ext i j
  simp [toCM, mul_apply]

theorem toCM_one : toCM (1 : Matrix (Fin n) (Fin n) ℝ) = 1 := by
  ext i j
  by_cases h : i = j
  · subst h; simp [toCM]
  · simp [toCM, h]

theorem toCM_inv {m : Matrix (Fin n) (Fin n) ℝ} (h : m.det ≠ 0) : (toCM m)⁻¹ = toCM m⁻¹ := by
  refine inv_eq_left_inv ?_
  rw [toCM_mul, nonsing_inv_mul _ (isUnit_iff_ne_zero.2 h), toCM_one]

theorem toCM_re (m : Matrix (Fin n) (Fin n) ℝ) : (toCM m).map Complex.re = m := by
  ext i j
  simp [toCM]

/-- From real moments and a log weight `log k + ` the complex log weight, the canonical parameters come back, except that
the constant loses its sign. -/
theorem complexToCan_ok {c : Can n} (hd : c.prec.det ≠ 0) {lw : ℂ} {t : ℝ} (hlw : lw = (t : ℂ) + cLog c) :
    complexToCan (toCM c.prec⁻¹) (toC (c.prec⁻¹ *ᵥ c.h)) lw = .ok ⟨c.prec, c.h, |c.g + t|⟩ := by
  have hu : IsUnit c.prec.det := isUnit_iff_ne_zero.2 hd
  have hdi : (c.prec⁻¹).det ≠ 0 := by
    rw [det_nonsing_inv]
    exact (IsUnit.ringInverse hu).ne_zero
  have e1 : npInvC (toCM c.prec⁻¹) = .ok (toCM c.prec) := by
    unfold npInvC
    rw [if_neg, toCM_inv hdi, nonsing_inv_nonsing_inv _ hu]
    rw [toCM_det]
    exact_mod_cast hdi
  unfold complexToCan
  rw [e1]
  dsimp only [bind, Except.bind]
  rw [toCM_mulVec, toC_dot, toCM_smul, toCM_det, toCM_re]
  have e2 : c.prec *ᵥ (c.prec⁻¹ *ᵥ c.h) = c.h := by
    rw [mulVec_mulVec, mul_nonsing_inv _ hu, one_mulVec]
  have e3 : lw - 1 / 2 * ((((c.prec⁻¹ *ᵥ c.h) ⬝ᵥ (c.prec *ᵥ (c.prec⁻¹ *ᵥ c.h)) : ℝ) : ℂ)) -
      1 / 2 * Complex.log ((((2 * Real.pi) • c.prec⁻¹).det : ℝ) : ℂ) = ((c.g + t : ℝ) : ℂ) := by
    rw [hlw]
    unfold cLog det2pi
    push_cast
    ring
  rw [e3, Complex.norm_real, e2]
  simp [toC]

/-! ### Complex moment matching of equal components -/

theorem complexMoments_ok {a : Gauss n} (ha : Valid a) (hd : (canOf a).prec.det ≠ 0) :
    complexMoments n ⟨n, a⟩ = .ok (Complex.exp (cLog (canOf a)), toC ((canOf a).prec⁻¹ *ᵥ (canOf a).h),
      toCM (canOf a).prec⁻¹) := by
  have h2 := getCan_valid (valid_can ha)
  rw [canOf_mk] at h2
  unfold complexMoments Gauss.complexWeight Gauss.complexLogWeight npInv
  dsimp only
  rw [getCan_valid ha]
  dsimp only [bind, Except.bind]
  rw [if_neg hd]
  dsimp only
  rw [h2]
  dsimp only
  rw [if_neg hd]
  dsimp only
  rw [dif_pos rfl]
  unfold cLog
  push_cast
  rfl

theorem mapM_const {α β : Type} {f : α → Py β} {b : β} {l : List α} (h : ∀ a ∈ l, f a = .ok b) :
    l.mapM f = .ok (List.replicate l.length b) := by
  induction l with
  | nil => rfl
  | cons a l ih =>
    rw [List.mapM_cons, h a List.mem_cons_self, ih fun x hx => h x (List.mem_cons_of_mem _ hx)]
    rfl

theorem complexMatch_ok {M : Mix} {c : Can M.vars.length} (hne : M.comps ≠ []) (hd : c.prec.det ≠ 0)
    (h : ∀ g ∈ M.comps, ∃ a : Gauss M.vars.length, g = ⟨_, a⟩ ∧ Valid a ∧ canOf a = c ∧ a.vars = M.vars) :
    complexMatch M = mkCan M.vars ⟨c.prec, c.h, |c.g + Real.log M.comps.length|⟩ := by
  have e1 := mapM_const (l := M.comps) (f := complexMoments M.vars.length)
    (b := (Complex.exp (cLog c), toC (c.prec⁻¹ *ᵥ c.h), toCM c.prec⁻¹)) fun g hg => by
      obtain ⟨a, rfl, ha, rfl, -⟩ := h g hg
      exact complexMoments_ok ha hd
  have hk : M.comps.length ≠ 0 := by simpa using hne
  obtain ⟨k, hkk⟩ : ∃ k, k = M.comps.length := ⟨_, rfl⟩
  have hkc : (k : ℂ) ≠ 0 := by rw [hkk]; exact_mod_cast hk
  have hw := Complex.exp_ne_zero (cLog c)
  unfold complexMatch matchMoments
  rw [e1, ← hkk]
  dsimp only [bind, Except.bind]
  have es : k • Complex.exp (cLog c) = (k : ℂ) * Complex.exp (cLog c) := nsmul_eq_mul _ _
  simp only [List.map_replicate, List.sum_replicate, es]
  rw [if_neg (mul_ne_zero hkc hw)]
  have e2 : (1 / ((k : ℂ) * Complex.exp (cLog c))) • k • (Complex.exp (cLog c) • toC (c.prec⁻¹ *ᵥ c.h)) =
      toC (c.prec⁻¹ *ᵥ c.h) := by
    rw [← Nat.cast_smul_eq_nsmul ℂ, smul_smul, smul_smul]
    rw [one_div, mul_assoc, inv_mul_cancel₀ (mul_ne_zero hkc hw), one_smul]
  rw [e2]
  simp only [sub_self]
  have e3 : (1 / ((k : ℂ) * Complex.exp (cLog c))) • k • (Complex.exp (cLog c) • toCM c.prec⁻¹ +
      Complex.exp (cLog c) • vecMulVec (0 : Fin M.vars.length → ℂ) 0) = toCM c.prec⁻¹ := by
    rw [zero_vecMulVec, smul_zero, add_zero, ← Nat.cast_smul_eq_nsmul ℂ, smul_smul, smul_smul]
    rw [one_div, mul_assoc, inv_mul_cancel₀ (mul_ne_zero hkc hw), one_smul]
  rw [e3, log_nat_mul_exp (by rw [hkk]; exact hk) (cLog_im c), complexToCan_ok hd rfl]
  dsimp only
  cases hM : M.comps with
  | nil => exact absurd hM hne
  | cons g l =>
    dsimp only
    obtain ⟨a, rfl, -, -, hv⟩ := h g (by rw [hM]; exact List.mem_cons_self)
    rw [hkk, hM]
    dsimp only
    rw [hv]

/-! ### Inverting -/

theorem evalCan_neg (c : Can n) (y : Fin n → ℝ) : evalCan ⟨-c.prec, -c.h, -c.g⟩ y = -evalCan c y := by
  unfold evalCan
  simp only [neg_mulVec, dotProduct_neg]
  ring

theorem invert_ok {vars : List Var} {c : Can n} (hnd : vars.Nodup) (hl : vars.length = n) (hs : c.prec.IsSymm) :
    ∃ g k, mkCan vars c = .ok g ∧ g.invert = .ok k ∧ Comp vars ⟨n, k⟩ fun x => -evalCan c (vecAt vars hl x) := by
  obtain ⟨vac, hvac⟩ : ∃ v, v = vacParams c.prec := ⟨_, rfl⟩
  have e1 : mkCan vars c = .ok ⟨vars, some c, none, vac⟩ := by rw [mkCan_ok hnd hl, hvac]
  have e2 : (⟨vars, some c, none, vac⟩ : Gauss n).invert = .ok ⟨vars, some ⟨-c.prec, -c.h, -c.g⟩, none, vac⟩ := by
    unfold Gauss.invert Gauss.copy
    dsimp only
    rw [e1]
    rfl
  refine ⟨_, _, e1, e2, .invert (.ofCan hs e1) e2, ?_, rfl⟩
  have hg := good_mkCan (c := ⟨-c.prec, -c.h, -c.g⟩) hnd hl vac hs.neg
  refine hg.denotes.congr fun x => ?_
  unfold logOf
  rw [canOf_mk, evalCan_neg]

/-- A function whose negative is strictly concave has an invertible precision. -/
theorem det_of_posOn {vars : List Var} {c : Can n} (hnd : vars.Nodup) (hl : vars.length = n) (hs : c.prec.IsSymm)
    (h : PosOn (fun x => -evalCan c (vecAt vars hl x)) (· ∈ vars)) : c.prec.det ≠ 0 := by
  have hg := good_mkCan (c := ⟨-c.prec, -c.h, -c.g⟩) hnd hl false hs.neg
  have e : logOf _ hg.len = fun x => -evalCan c (vecAt vars hl x) := by
    funext x
    unfold logOf
    rw [canOf_mk, evalCan_neg]
  rw [← e] at h
  have h1 := (posDef_logOf hg h).det_pos
  rw [canOf_mk] at h1
  intro h2
  rw [det_neg, h2, mul_zero] at h1
  exact lt_irrefl _ h1

/-- Components that denote the same function have the same parameters. -/
theorem common_can {M : Mix} {Ds : List ((Var → ℝ) → ℝ)} {D : (Var → ℝ) → ℝ} (hM : IsMix M Ds) (hD : ∀ L ∈ Ds, L = D) :
    ∃ c : Can M.vars.length, c.prec.IsSymm ∧ (D = fun x => evalCan c (vecAt M.vars rfl x)) ∧
      ∀ g ∈ M.comps, ∃ a : Gauss M.vars.length, g = ⟨_, a⟩ ∧ Valid a ∧ canOf a = c ∧ a.vars = M.vars := by
  have key : ∀ g ∈ M.comps, ∃ a : Gauss M.vars.length, g = ⟨_, a⟩ ∧ Good a ∧ Denotes a D ∧ a.vars = M.vars := by
    intro g hg
    have hc : Comp M.vars g D := by
      obtain ⟨i, hi, rfl⟩ := List.mem_iff_getElem.1 hg
      have hl := hM.comps.length_eq
      have hc : Comp M.vars M.comps[i] Ds[i] := (List.forall₂_iff_get.1 hM.comps).2 i hi (hl ▸ hi)
      rwa [hD _ (List.getElem_mem _)] at hc
    obtain ⟨k, a⟩ := g
    have hk : M.vars.length = k := by rw [← hc.vars]; exact hc.good.len
    subst hk
    exact ⟨a, rfl, hc.good, hc.den, hc.vars⟩
  obtain ⟨g0, hg0⟩ := List.exists_mem_of_ne_nil _ hM.ne
  obtain ⟨a0, -, h1, h2, h3⟩ := key g0 hg0
  refine ⟨canOf a0, h1.symm, ?_, fun g hg => ?_⟩
  · rw [h2.eq h1]
    funext x
    unfold logOf vecAt
    congr 1
    funext i
    simp only [h3]
  · obtain ⟨a, e, k1, k2, k3⟩ := key g hg
    exact ⟨a, e, k1.toValid, canOf_unique h1 k1 (k3.trans h3.symm) h2 k2, k3⟩

/-! ### The loop of method 2 -/

/-- The log potential of one component of the result of method 2, for a component of the numerator with log potential
`L` and a divisor with `k` components with log potential `K`. -/
noncomputable def m2Log (k : ℕ) (K L : (Var → ℝ) → ℝ) (x : Var → ℝ) : ℝ :=
  L x - K x + (K 0 - L 0) - |K 0 - L 0 + Real.log k|

theorem divM2Loop_ok {va vb : List Var} {as bs : List AnyG} {Ls Ks : List ((Var → ℝ) → ℝ)} {K : (Var → ℝ) → ℝ}
    (ha : List.Forall₂ (Comp va) as Ls) (hb : List.Forall₂ (Comp vb) bs Ks) (hne : bs ≠ []) (hK : ∀ L ∈ Ks, L = K)
    (hp : ∀ L ∈ Ls, PosOn (fun x => L x - K x) fun v => v ∈ va ∨ v ∈ vb) :
    ∃ as' bs' ks, divM2Loop as bs = .ok (as', bs', ks) ∧ List.Forall₂ (Comp va) as' Ls ∧ List.Forall₂ (Comp vb) bs' Ks ∧
      List.Forall₂ (Comp (opVars vb va)) ks (Ls.map (m2Log bs.length K)) := by
  induction ha generalizing bs with
  | nil => exact ⟨_, _, _, rfl, .nil, hb, .nil⟩
  | @cons a L as Ls h1 _ ih =>
    obtain ⟨bs', a', rs, e1, k1, k2, k3⟩ := opEach_ok (.inr ⟨rfl, rfl⟩) hb h1
    have hlen : rs.length = bs.length := by rw [k3.length_eq, List.length_map, hb.length_eq]
    have hrs : rs ≠ [] := by
      intro e
      rw [e] at hlen
      exact hne (List.length_eq_zero_iff.1 hlen.symm)
    obtain ⟨inv, e2, hM, hv, -, hcl⟩ := make_ok hrs k3
    obtain ⟨c, hs, hD, hc⟩ := common_can (D := fun x => K x + -1 * L x) hM (by
      intro D hD
      obtain ⟨K', hK', rfl⟩ := List.mem_map.1 hD
      rw [hK K' hK'])
    have hnd := hM.nodup
    have hD' : ∀ x, L x - K x = -evalCan c (vecAt inv.vars rfl x) := fun x => by
      rw [← congrFun hD x]
      ring
    have hdet : c.prec.det ≠ 0 := by
      refine det_of_posOn hnd rfl hs ?_
      rw [← funext hD']
      refine fun z hz hS => hp L List.mem_cons_self z hz fun v hv' => hS v ?_
      exact fun h => hv' (mem_opVars.1 (hv ▸ h : v ∈ opVars vb va)).symm
    have e3 := complexMatch_ok hM.ne hdet hc
    obtain ⟨g, k, e4, e5, hk⟩ := invert_ok (c := ⟨c.prec, c.h, |c.g + Real.log inv.comps.length|⟩) hnd rfl hs
    have hne' : bs' ≠ [] := by
      intro e
      rw [e] at k1
      cases k1
      cases hb
      exact hne rfl
    obtain ⟨as', bs'', ks, e6, m1, m2, m3⟩ := ih k1 hne' fun L hL => hp L (List.mem_cons_of_mem _ hL)
    have hbl : bs'.length = bs.length := by rw [k1.length_eq, hb.length_eq]
    refine ⟨_, _, _, ?_, .cons k2 m1, m2, .cons (a := ⟨_, k⟩) ?_ (by rw [← hbl]; exact m3)⟩
    · rw [divM2Loop, e1]
      dsimp only [bind, Except.bind]
      rw [e2]
      dsimp only
      rw [e3, e4]
      dsimp only
      rw [e5]
      dsimp only
      rw [e6]
    · rw [← hv]
      refine ⟨hk.made, hk.den.congr fun x => ?_, hk.vars⟩
      have g0 : c.g = K 0 - L 0 := by
        have := congrFun hD 0
        simp only [evalCan, vecAt_zero, zero_dotProduct] at this
        linarith
      unfold m2Log
      rw [hD' x, hcl, hlen, ← g0]
      unfold evalCan
      ring

end Verif.Mix
