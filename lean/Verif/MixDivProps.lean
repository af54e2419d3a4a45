import Verif.MixDivLemmas

/-!
# C110: division of mixtures by complex moment matching (cancel method 2)
-/

namespace Verif.Mix
open Matrix Gauss Spec Fact

theorem mixFn_eq {Ks : List ((Var → ℝ) → ℝ)} {K : (Var → ℝ) → ℝ} (hK : ∀ L ∈ Ks, L = K) (x : Var → ℝ) :
    mixFn Ks x = Ks.length * Real.exp (K x) := by
  have : Ks = List.replicate Ks.length K := List.eq_replicate_iff.2 ⟨rfl, hK⟩
  unfold mixFn
  rw [this]
  simp

/-- The factor by which method 2 scales a component. -/
theorem exp_m2Log {k : ℕ} (hk : k ≠ 0) (K L : (Var → ℝ) → ℝ) (x : Var → ℝ) : Real.exp (m2Log k K L x) =
    Real.exp (L x) / (k * Real.exp (K x)) * min 1 (k * Real.exp (K 0) / Real.exp (L 0)) ^ 2 := by
  have hk' : (0 : ℝ) < k := by exact_mod_cast Nat.pos_of_ne_zero hk
  obtain ⟨t, ht⟩ : ∃ t, t = K 0 - L 0 + Real.log k := ⟨_, rfl⟩
  have e1 : (k : ℝ) * Real.exp (K 0) / Real.exp (L 0) = Real.exp t := by
    rw [ht, Real.exp_add, Real.exp_sub, Real.exp_log hk']
    ring
  have e2 : Real.exp (L x) / (k * Real.exp (K x)) = Real.exp (L x - K x - Real.log k) := by
    rw [Real.exp_sub, Real.exp_sub, Real.exp_log hk']
    field_simp
  rw [e1, e2]
  unfold m2Log
  rw [← ht]
  rcases le_total 0 t with h | h
  · rw [min_eq_left (Real.one_le_exp h), abs_of_nonneg h]
    simp only [one_pow, mul_one]
    congr 1
    linarith
  · rw [min_eq_right (Real.exp_le_one_iff.2 h), abs_of_nonpos h, ← Real.exp_nat_mul, ← Real.exp_add]
    congr 1
    push_cast
    linarith

/-- **C110, what the code computes.** With cancel method 2, a mixture divided by a mixture of equal components: every
component of the numerator is divided by the divisor and scaled by the square of the smaller of one and the ratio of the
divisor and the component at the origin. -/
theorem C110_formula {M N : Mix} {Ls Ks : List ((Var → ℝ) → ℝ)} {K : (Var → ℝ) → ℝ} (min1 : Minimizer) (hess : Hessian)
    (hM : IsMix M Ls) (hN : IsMix N Ks) (hK : ∀ L ∈ Ks, L = K) (hlen : N.comps.length ≠ 1) (hcm : M.cancelMethod = 2)
    (hp : ∀ L ∈ Ls, PosOn (fun x => L x - K x) fun v => v ∈ M.vars ∨ v ∈ N.vars) :
    ∃ M' N' R Rs, M.divide (approxDiv min1 hess) N = .ok (M', N', R) ∧ IsMix R Rs ∧
      Pot R (fun x => (Ls.map fun L => Real.exp (L x) / mixFn Ks x * min 1 (mixFn Ks 0 / Real.exp (L 0)) ^ 2).sum) ∧
      (∀ v, v ∈ R.vars ↔ v ∈ M.vars ∨ v ∈ N.vars) ∧ R.comps.length = M.comps.length ∧
      (IsMix M' Ls ∧ M'.vars = M.vars) ∧ (IsMix N' Ks ∧ N'.vars = N.vars) := by
  obtain ⟨as, bs, ks, e1, k1, k2, k3⟩ := divM2Loop_ok hM.comps hN.comps hN.ne hK hp
  have hkl : ks.length = M.comps.length := by rw [k3.length_eq, List.length_map, hM.comps.length_eq]
  have hne : ks ≠ [] := by
    intro e
    rw [e] at hkl
    exact hM.ne (List.length_eq_zero_iff.1 hkl.symm)
  obtain ⟨R, e2, hR, hv, -, hRl⟩ := make_ok hne k3
  have hk0 : Ks.length ≠ 0 := by
    rw [← hN.comps.length_eq]
    exact fun h => hN.ne (List.length_eq_zero_iff.1 h)
  refine ⟨{ M with comps := as }, { N with comps := bs }, R, _, ?_, hR, hR.pot.congr fun x => ?_, fun v => ?_,
    hRl.trans hkl, ⟨⟨?_, k1⟩, rfl⟩, ⟨⟨?_, k2⟩, rfl⟩⟩
  · have e3 : divM2 M N = .ok ({ M with comps := as }, { N with comps := bs }, R) := by
      unfold divM2
      rw [e1]
      dsimp only [bind, Except.bind]
      rw [e2]
    unfold Mix.divide
    cases hc : N.comps with
    | nil => exact absurd hc hN.ne
    | cons b l =>
      cases l with
      | nil => rw [hc] at hlen; exact absurd rfl hlen
      | cons b' l =>
        dsimp only
        rw [if_neg (by rw [hcm]; decide), if_pos (.inr hcm), approxDiv, if_neg (by rw [hcm]; decide), e3]
  · rw [mixFn_eq hK, mixFn_eq hK]
    unfold mixFn
    rw [List.map_map, hN.comps.length_eq]
    refine congrArg List.sum (List.map_congr_left fun L _ => ?_)
    exact exp_m2Log hk0 K L x
  · rw [hv, mem_opVars]
    exact or_comm
  · intro e
    dsimp only at e
    rw [e] at k1
    have := k1.length_eq
    rw [← hM.comps.length_eq] at this
    exact hM.ne (List.length_eq_zero_iff.1 this.symm)
  · intro e
    dsimp only at e
    rw [e] at k2
    have := k2.length_eq
    rw [← hN.comps.length_eq] at this
    exact hN.ne (List.length_eq_zero_iff.1 this.symm)

/-- **C110, the part that holds.** The quotient is exact if at the origin no component of the numerator exceeds the
divisor. -/
theorem C110_equal_components_partial {M N : Mix} {Ls Ks : List ((Var → ℝ) → ℝ)} {K : (Var → ℝ) → ℝ} (min1 : Minimizer)
    (hess : Hessian) (hM : IsMix M Ls) (hN : IsMix N Ks) (hK : ∀ L ∈ Ks, L = K) (hlen : N.comps.length ≠ 1)
    (hcm : M.cancelMethod = 2) (hp : ∀ L ∈ Ls, PosOn (fun x => L x - K x) fun v => v ∈ M.vars ∨ v ∈ N.vars)
    (h0 : ∀ L ∈ Ls, Real.exp (L 0) ≤ mixFn Ks 0) :
    ∃ M' N' R Rs, M.divide (approxDiv min1 hess) N = .ok (M', N', R) ∧ IsMix R Rs ∧
      Pot R (fun x => mixFn Ls x / mixFn Ks x) ∧
      (∀ v, v ∈ R.vars ↔ v ∈ M.vars ∨ v ∈ N.vars) ∧ R.comps.length = M.comps.length ∧
      (IsMix M' Ls ∧ M'.vars = M.vars) ∧ (IsMix N' Ks ∧ N'.vars = N.vars) := by
  obtain ⟨M', N', R, Rs, h1, h2, h3, h4⟩ := C110_formula min1 hess hM hN hK hlen hcm hp
  refine ⟨M', N', R, Rs, h1, h2, h3.congr fun x => ?_, h4⟩
  have : ∀ L ∈ Ls, Real.exp (L x) / mixFn Ks x * min 1 (mixFn Ks 0 / Real.exp (L 0)) ^ 2 =
      Real.exp (L x) * (1 / mixFn Ks x) := by
    intro L hL
    rw [min_eq_left ((one_le_div (Real.exp_pos _)).2 (h0 L hL))]
    ring
  rw [List.map_congr_left this, List.sum_map_mul_right]
  unfold mixFn
  ring

/-- **C110 violated.** As soon as one component of the numerator exceeds the divisor at the origin, the result of method
2 is below the quotient everywhere, although the divisor is a multiple of a single Gaussian. -/
theorem C110_equal_components_violated {M N : Mix} {Ls Ks : List ((Var → ℝ) → ℝ)} {K : (Var → ℝ) → ℝ} (min1 : Minimizer)
    (hess : Hessian) (hM : IsMix M Ls) (hN : IsMix N Ks) (hK : ∀ L ∈ Ks, L = K) (hlen : N.comps.length ≠ 1)
    (hcm : M.cancelMethod = 2) (hp : ∀ L ∈ Ls, PosOn (fun x => L x - K x) fun v => v ∈ M.vars ∨ v ∈ N.vars)
    (h0 : ∃ L ∈ Ls, mixFn Ks 0 < Real.exp (L 0)) :
    ∃ M' N' R F, M.divide (approxDiv min1 hess) N = .ok (M', N', R) ∧ Pot R F ∧ ∀ x, F x < mixFn Ls x / mixFn Ks x := by
  obtain ⟨M', N', R, Rs, h1, h2, h3, h4⟩ := C110_formula min1 hess hM hN hK hlen hcm hp
  refine ⟨M', N', R, _, h1, h3, fun x => ?_⟩
  have hx := mixFn_pos hN.ls_ne x
  have hz := mixFn_pos hN.ls_ne 0
  have e : mixFn Ls x / mixFn Ks x = (Ls.map fun L => Real.exp (L x) / mixFn Ks x).sum := by
    unfold mixFn
    simp only [div_eq_mul_inv]
    rw [List.sum_map_mul_right]
  rw [e]
  have hle : ∀ L : (Var → ℝ) → ℝ, min 1 (mixFn Ks 0 / Real.exp (L 0)) ^ 2 ≤ 1 := fun L => by
    refine pow_le_one₀ (le_min zero_le_one (div_pos hz (Real.exp_pos _)).le) (min_le_left _ _)
  obtain ⟨L, hL, hlt⟩ := h0
  refine List.sum_lt_sum _ _ (fun L _ => ?_) ⟨L, hL, ?_⟩
  · exact mul_le_of_le_one_right (div_pos (Real.exp_pos _) hx).le (hle L)
  · refine mul_lt_of_lt_one_right (div_pos (Real.exp_pos _) hx) ?_
    have h5 : mixFn Ks 0 / Real.exp (L 0) < 1 := (div_lt_one (Real.exp_pos _)).2 hlt
    rw [min_eq_right h5.le]
    exact pow_lt_one₀ (div_pos hz (Real.exp_pos _)).le h5 (by decide)

/-! ### Concrete mixtures over one variable -/

/-- A Gaussian over `a` with the given canonical parameters. -/
noncomputable def exG1 (p h g : ℝ) : Gauss 1 := ⟨["a"], some ⟨!![p], ![h], g⟩, none, vacParams !![p]⟩

/-- Its log potential. -/
noncomputable def exL (p h g : ℝ) (x : Var → ℝ) : ℝ := -(p / 2) * x "a" ^ 2 + h * x "a" + g

theorem exG1_mk (p h g : ℝ) : mkCan ["a"] ⟨!![p], ![h], g⟩ = .ok (exG1 p h g) := mkCan_ok (by decide) rfl

theorem exG1_symm (p : ℝ) : (!![p] : Matrix (Fin 1) (Fin 1) ℝ).IsSymm := by
  ext i j
  fin_cases i; fin_cases j; rfl

theorem exG1_good (p h g : ℝ) : Good (exG1 p h g) := good_mkCan (by decide) rfl _ (exG1_symm p)

theorem exG1_comp (p h g : ℝ) : Comp ["a"] ⟨1, exG1 p h g⟩ (exL p h g) := by
  refine ⟨.ofCan (exG1_symm p) (exG1_mk p h g), (exG1_good p h g).denotes.congr fun x => ?_, rfl⟩
  unfold logOf exL evalCan
  simp [exG1, canOf, vecAt, mulVec, dotProduct]
  ring

theorem exG1_pos {p h g q h' g' : ℝ} (hp : q < p) :
    PosOn (fun x => exL p h g x - exL q h' g' x) fun v => v ∈ (["a"] : List Var) ∨ v ∈ (["a"] : List Var) := by
  intro z hz hS
  have ha : z "a" ≠ 0 := by
    intro h0
    refine hz (funext fun v => ?_)
    by_cases hv : v = "a"
    · rw [hv, h0]; rfl
    · exact hS v (by simp [hv])
  have : 0 < z "a" ^ 2 := by positivity
  simp only [exL, Pi.neg_apply, Pi.zero_apply]
  nlinarith

/-- A mixture with one component, to be divided with method 2. -/
noncomputable def exOne2 (p h g : ℝ) : Mix := ⟨["a"], [⟨1, exG1 p h g⟩], 2⟩

theorem exOne2_isMix (p h g : ℝ) : IsMix (exOne2 p h g) [exL p h g] := ⟨by simp [exOne2], .cons (exG1_comp p h g) .nil⟩

/-- A mixture with two components. -/
noncomputable def exTwo (p h h' : ℝ) : Mix := ⟨["a"], [⟨1, exG1 p h 0⟩, ⟨1, exG1 p h' 0⟩], 0⟩

theorem exTwo_isMix (p h h' : ℝ) : IsMix (exTwo p h h') [exL p h 0, exL p h' 0] :=
  ⟨by simp [exTwo], .cons (exG1_comp p h 0) (.cons (exG1_comp p h' 0) .nil)⟩

theorem exTwo_zero : mixFn [exL 1 0 0, exL 1 0 0] 0 = 2 := by
  simp [mixFn, exL]
  norm_num

/-- The hypotheses of `C110_equal_components_partial` can be met … -/
example : IsMix (exOne2 2 0 0) [exL 2 0 0] ∧ IsMix (exTwo 1 0 0) [exL 1 0 0, exL 1 0 0] ∧
    (∀ L ∈ [exL 1 0 0, exL 1 0 0], L = exL 1 0 0) ∧ (exTwo 1 0 0).comps.length ≠ 1 ∧ (exOne2 2 0 0).cancelMethod = 2 ∧
    (∀ L ∈ [exL 2 0 0], PosOn (fun x => L x - exL 1 0 0 x) fun v => v ∈ (exOne2 2 0 0).vars ∨ v ∈ (exTwo 1 0 0).vars) ∧
    ∀ L ∈ [exL 2 0 0], Real.exp (L 0) ≤ mixFn [exL 1 0 0, exL 1 0 0] 0 := by
  refine ⟨exOne2_isMix .., exTwo_isMix .., by simp, by simp [exTwo], rfl, ?_, ?_⟩
  · intro L hL
    obtain rfl := List.mem_singleton.1 hL
    exact exG1_pos (by norm_num)
  · intro L hL
    obtain rfl := List.mem_singleton.1 hL
    rw [exTwo_zero]
    simp [exL]

/-- … and so can those of `C110_equal_components_violated`: the numerator `exp (1 - x²)` divided by `2 exp (- x² / 2)`. -/
theorem C110_witness (min1 : Minimizer) (hess : Hessian) : ∃ M' N' R F,
    (exOne2 2 0 1).divide (approxDiv min1 hess) (exTwo 1 0 0) = .ok (M', N', R) ∧ Pot R F ∧
      ∀ x, F x < mixFn [exL 2 0 1] x / mixFn [exL 1 0 0, exL 1 0 0] x := by
  refine C110_equal_components_violated (K := exL 1 0 0) min1 hess (exOne2_isMix ..) (exTwo_isMix ..) (by simp)
    (by simp [exTwo]) rfl ?_ ⟨_, List.mem_singleton_self _, ?_⟩
  · intro L hL
    obtain rfl := List.mem_singleton.1 hL
    exact exG1_pos (by norm_num)
  · rw [exTwo_zero]
    have := Real.add_one_lt_exp (one_ne_zero (α := ℝ))
    simp only [exL, Pi.zero_apply]
    norm_num at this ⊢
    exact this

/-! ### Divisors with different components -/

theorem ex1_inv (p : ℝ) (hp : p ≠ 0) : (!![p] : Matrix (Fin 1) (Fin 1) ℝ)⁻¹ = !![p⁻¹] := by
  refine inv_eq_left_inv ?_
  ext i j
  fin_cases i; fin_cases j
  simp [mul_apply, hp]

theorem ex1_invC (p : ℂ) (hp : p ≠ 0) : (!![p] : Matrix (Fin 1) (Fin 1) ℂ)⁻¹ = !![p⁻¹] := by
  refine inv_eq_left_inv ?_
  ext i j
  fin_cases i; fin_cases j
  simp [mul_apply, hp]

/-- The complex log weight of `exp (x² / 2 ± 2 x)`. -/
noncomputable def exW : ℂ := -2 + 1 / 2 * Complex.log ((-(2 * Real.pi) : ℝ) : ℂ)

theorem cLog_ex {h : ℝ} (hh : h ^ 2 = 4) : cLog (⟨!![-1], ![h], 0⟩ : Can 1) = exW := by
  unfold cLog exW det2pi
  rw [ex1_inv _ (by norm_num)]
  have e1 : (((2 * Real.pi) • (!![(-1 : ℝ)⁻¹] : Matrix (Fin 1) (Fin 1) ℝ)).det : ℝ) = -(2 * Real.pi) := by
    simp
  rw [e1]
  congr 1
  have e2 : (0 : ℝ) + 1 / 2 * ((!![(-1 : ℝ)⁻¹] *ᵥ ![h]) ⬝ᵥ !![-1] *ᵥ (!![(-1 : ℝ)⁻¹] *ᵥ ![h])) = -2 := by
    simp [mulVec, dotProduct]
    nlinarith
  rw [e2]
  norm_num

/-- The constant of the Gaussian that method 2 fits to `exp (x² / 2 + 2 x) + exp (x² / 2 - 2 x)`. -/
noncomputable def exC : ℝ := ‖Complex.log (2 * Complex.exp exW) - 1 / 2 * Complex.log ((6 * Real.pi : ℝ) : ℂ)‖

theorem matchMoments_ex : matchMoments [(Complex.exp exW, ![((-2 : ℝ) : ℂ)], !![(-1 : ℂ)]),
    (Complex.exp exW, ![((- -2 : ℝ) : ℂ)], !![(-1 : ℂ)])] = .ok ⟨!![1 / 3], ![0], exC⟩ := by
  have hw := Complex.exp_ne_zero exW
  unfold matchMoments
  simp only [List.map_cons, List.map_nil, List.sum_cons, List.sum_nil, add_zero]
  have hs : Complex.exp exW + Complex.exp exW = 2 * Complex.exp exW := by ring
  rw [hs, if_neg (mul_ne_zero two_ne_zero hw)]
  have e1 : (1 / (2 * Complex.exp exW)) • (Complex.exp exW • ![((-2 : ℝ) : ℂ)] + Complex.exp exW • ![((- -2 : ℝ) : ℂ)]) =
      (0 : Fin 1 → ℂ) := by
    funext i
    fin_cases i
    simp
  rw [e1]
  simp only [sub_zero]
  have e2 : (1 / (2 * Complex.exp exW)) • (Complex.exp exW • !![(-1 : ℂ)] + Complex.exp exW •
      vecMulVec ![((-2 : ℝ) : ℂ)] ![((-2 : ℝ) : ℂ)] + (Complex.exp exW • !![(-1 : ℂ)] + Complex.exp exW •
      vecMulVec ![((- -2 : ℝ) : ℂ)] ![((- -2 : ℝ) : ℂ)])) = !![(3 : ℂ)] := by
    ext i j
    fin_cases i; fin_cases j
    simp [vecMulVec, vecHead]
    field_simp
    ring
  rw [e2]
  have e3 : complexToCan !![(3 : ℂ)] (0 : Fin 1 → ℂ) (Complex.log (2 * Complex.exp exW)) = .ok ⟨!![1 / 3], ![0], exC⟩ := by
    unfold complexToCan npInvC
    rw [if_neg (by simp), ex1_invC _ (by norm_num)]
    dsimp only [bind, Except.bind]
    congr 1
    congr 1
    · ext i j
      fin_cases i; fin_cases j
      simp
    · funext i
      fin_cases i
      simp
    · unfold exC
      congr 1
      simp only [zero_dotProduct, mul_zero, sub_zero]
      congr 3
      simp
      ring
  exact e3

/-- A component over `a` with the log potential of `exG1`. -/
theorem moments_ex {g : AnyG} {h : ℝ} (hg : Comp ["a"] g (exL (-1) h 0)) (hh : h ^ 2 = 4) :
    complexMoments 1 g = .ok (Complex.exp exW, ![((-h : ℝ) : ℂ)], !![(-1 : ℂ)]) := by
  obtain ⟨k, a⟩ := g
  have hk : 1 = k := by
    have := hg.good.len
    rw [hg.vars] at this
    exact this
  subst hk
  have hc : canOf a = ⟨!![-1], ![h], 0⟩ :=
    canOf_unique (exG1_good (-1) h 0) hg.good hg.vars (exG1_comp (-1) h 0).den hg.den
  rw [complexMoments_ok hg.good.toValid (by rw [hc]; simp), hc, cLog_ex hh]
  dsimp only
  rw [ex1_inv _ (by norm_num)]
  congr 3
  · funext i
    fin_cases i
    simp [toC, mulVec, dotProduct]
  · ext i j
    fin_cases i; fin_cases j
    simp [toCM]

theorem complexMatch_ex {M : Mix} (hM : IsMix M [exL (-1) 2 0, exL (-1) (-2) 0]) (hv : M.vars = ["a"]) :
    ∃ g k, complexMatch M = .ok g ∧ g.invert = .ok k ∧ Comp ["a"] ⟨_, k⟩ fun x => x "a" ^ 2 / 6 - exC := by
  obtain ⟨vars, cs, cm⟩ := M
  dsimp only at hv
  subst hv
  have h := hM.comps
  dsimp only at h
  cases h with
  | @cons g1 _ cs _ h1 h =>
  cases h with
  | @cons g2 _ cs _ h2 h =>
  cases h
  have e1 : [g1, g2].mapM (complexMoments 1) =
      .ok [(Complex.exp exW, ![((-2 : ℝ) : ℂ)], !![(-1 : ℂ)]), (Complex.exp exW, ![((- -2 : ℝ) : ℂ)], !![(-1 : ℂ)])] := by
    rw [List.mapM_cons, moments_ex h1 (by norm_num), List.mapM_cons, moments_ex h2 (by norm_num)]
    rfl
  have e2 : (do
      let l ← [g1, g2].mapM (complexMoments 1)
      let c ← matchMoments l
      mkCan g1.2.vars c) = mkCan ["a"] ⟨!![1 / 3], ![0], exC⟩ := by
    rw [e1]
    dsimp only [bind, Except.bind]
    rw [matchMoments_ex, h1.vars]
  obtain ⟨g, k, e3, e4, h4⟩ := invert_ok (vars := ["a"]) (c := ⟨!![1 / 3], ![0], exC⟩) (by decide) rfl (exG1_symm _)
  refine ⟨g, k, e2.trans e3, e4, h4.made, h4.den.congr fun x => ?_, h4.vars⟩
  unfold evalCan
  simp [vecAt, mulVec, dotProduct]
  ring

/-- **C110, different components.** The divisor is the sum of `exp (- x² / 2 ± 2 x)`, the numerator `exp (- x²)`. Each
component of the divisor can be divided out with a normalisable result, but the result of method 2 grows like
`exp (x² / 6)`. -/
theorem C110_not_normalisable (min1 : Minimizer) (hess : Hessian) : ∃ M' N' R C,
    IsMix (exOne2 2 0 0) [exL 2 0 0] ∧ IsMix (exTwo 1 2 (-2)) [exL 1 2 0, exL 1 (-2) 0] ∧
    (∀ K ∈ [exL 1 2 0, exL 1 (-2) 0], PosOn (fun x => exL 2 0 0 x - K x) fun v => v ∈ (["a"] : List Var) ∨ v ∈ (["a"] : List Var)) ∧
    (exOne2 2 0 0).divide (approxDiv min1 hess) (exTwo 1 2 (-2)) = .ok (M', N', R) ∧ R.vars = ["a"] ∧ 0 < C ∧
    Pot R fun x => C * Real.exp (x "a" ^ 2 / 6) := by
  have hM := exOne2_isMix 2 0 0
  have hN := exTwo_isMix 1 2 (-2)
  obtain ⟨bs', a', rs, e1, k1, k2, k3⟩ := opEach_ok (.inr ⟨rfl, rfl⟩) hN.comps (exG1_comp 2 0 0)
  have ho : opVars (exTwo 1 2 (-2)).vars ["a"] = ["a"] := by simp [opVars, exTwo]
  rw [ho] at k3
  have hrs : rs ≠ [] := by
    rintro rfl
    cases k3
  obtain ⟨inv, e2, hI, hv, -⟩ := make_ok hrs k3
  have hI' : IsMix inv [exL (-1) 2 0, exL (-1) (-2) 0] := by
    have : [exL (-1) 2 0, exL (-1) (-2) 0] = ([exL 1 2 0, exL 1 (-2) 0].map fun La x => La x + -1 * exL 2 0 0 x) := by
      simp only [List.map_cons, List.map_nil]
      congr 1
      · funext x; unfold exL; ring
      · congr 1
        funext x; unfold exL; ring
    rw [this]
    exact hI
  obtain ⟨g, k, e3, e4, hk⟩ := complexMatch_ex hI' hv
  obtain ⟨R, e5, hR, hRv, -⟩ := make_ok (gs := [⟨_, k⟩]) (by simp) (.cons hk .nil)
  refine ⟨{ exOne2 2 0 0 with comps := [a'] }, { exTwo 1 2 (-2) with comps := bs' }, R, Real.exp (-exC), hM, hN, ?_, ?_,
    hRv, Real.exp_pos _, hR.pot.congr fun x => ?_⟩
  · intro K hK
    rcases List.mem_cons.1 hK with rfl | hK
    · exact exG1_pos (by norm_num)
    · obtain rfl := List.mem_singleton.1 hK
      exact exG1_pos (by norm_num)
  · have e6 : divM2 (exOne2 2 0 0) (exTwo 1 2 (-2)) =
        .ok ({ exOne2 2 0 0 with comps := [a'] }, { exTwo 1 2 (-2) with comps := bs' }, R) := by
      unfold divM2
      have : (exOne2 2 0 0).comps = [⟨1, exG1 2 0 0⟩] := rfl
      rw [this, divM2Loop, e1]
      dsimp only [bind, Except.bind]
      rw [e2]
      dsimp only
      rw [e3]
      dsimp only
      rw [e4]
      dsimp only [divM2Loop]
      rw [e5]
    unfold Mix.divide
    rw [show (exTwo 1 2 (-2)).comps = [⟨1, exG1 1 2 0⟩, ⟨1, exG1 1 (-2) 0⟩] from rfl]
    dsimp only
    rw [show (exOne2 2 0 0).cancelMethod = 2 from rfl, if_neg (by decide), if_pos (.inr rfl), approxDiv,
      if_neg (by decide), e6]
    rfl
  · unfold mixFn
    simp only [List.map_cons, List.map_nil, List.sum_cons, List.sum_nil, add_zero]
    rw [← Real.exp_add]
    congr 1
    ring

end Verif.Mix
