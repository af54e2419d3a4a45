import Verif.MixDivProps2
import Verif.FactProps5

/-!
# C111: division by Laplace approximations (cancel method 1) for one variable
-/

namespace Verif.Mix
open Matrix Gauss Spec Fact

/-- The optimiser finds strict minima of functions of one variable. -/
def FindsMin (min : Minimizer) : Prop := ∀ (f : List ℝ → Py ℝ) (t : ℝ → ℝ) (m : ℝ), (∀ y, f [y] = .ok (t y)) →
  (∀ y, y ≠ m → t m < t y) → ∀ x0, min f [x0] = .ok ([m], true)

/-- The second derivatives of quadratic functions of one variable are right. -/
def FindsHess (hess : Hessian) : Prop := ∀ (f : List ℝ → Py ℝ) (a b c : ℝ), (∀ y, f [y] = .ok (a * y ^ 2 + b * y + c)) →
  ∀ x, hess 1 f [x] = .ok !![2 * a]

/-- A Gaussian over one variable with given canonical parameters. -/
noncomputable def ref1 (v : Var) (p h g : ℝ) : Gauss 1 := ⟨[v], some ⟨!![p], ![h], g⟩, none, vacParams !![p]⟩

theorem ref1_comp (v : Var) (p h g : ℝ) : mkCan [v] ⟨!![p], ![h], g⟩ = .ok (ref1 v p h g) ∧ Good (ref1 v p h g) ∧
    Comp [v] ⟨1, ref1 v p h g⟩ fun x => -(p / 2) * x v ^ 2 + h * x v + g := by
  have e : mkCan [v] ⟨!![p], ![h], g⟩ = .ok (ref1 v p h g) := mkCan_ok (by simp) rfl
  have hg : Good (ref1 v p h g) := good_mkCan (by simp) rfl _ (exG1_symm p)
  refine ⟨e, hg, .ofCan (exG1_symm p) e, hg.denotes.congr fun x => ?_, rfl⟩
  unfold logOf evalCan
  simp [ref1, canOf, vecAt, mulVec, dotProduct]
  ring

theorem make_honest {gs : List AnyG} {cm : ℕ} {M : Mix} (h : make gs cm = .ok M) : ∀ c ∈ M.comps, Honest c := by
  unfold make at h
  cases gs with
  | nil => cases h
  | cons g gs =>
    dsimp only at h
    obtain ⟨cs, h1, h2⟩ := py_bind_eq_ok.1 h
    split at h2
    · cases h2
    · split at h2
      · cases h2
      · cases h2
        intro c hc'
        obtain ⟨a, ha, hk⟩ := NlgMix.mapM_mem h1 c hc'
        exact copyG_honest hk

/-- The starting points of `_argmin`. -/
theorem meanOf_ok {v : Var} {c : AnyG} {p h g : ℝ} (hc : Comp [v] c fun x => -(p / 2) * x v ^ 2 + h * x v + g) (hh : Honest c)
    (hp : 1 / 100000000 < |p|) : ∃ y, meanOf c = .ok [y] := by
  obtain ⟨k, a⟩ := c
  have hk : 1 = k := by
    have := hc.good.len
    rw [hc.vars] at this
    exact this
  subst hk
  have e : canOf a = ⟨!![p], ![h], g⟩ := canOf_unique (ref1_comp v p h g).2.1 hc.good hc.vars (ref1_comp v p h g).2.2.den hc.den
  have hvac : a.vac = false := by
    cases hv : a.vac
    · rfl
    · have h1 := hh hv
      dsimp only at h1
      rw [e] at h1
      unfold vacParams at h1
      simp only [decide_eq_true_eq] at h1
      have h2 := h1.1 0 0
      simp at h2
      norm_num at hp h2
      linarith
  unfold meanOf
  dsimp only
  rw [hvac, if_neg (by simp)]
  have hv := hc.good.toValid
  obtain ⟨vars, can, cov, vac⟩ := a
  cases cov with
  | some w => exact ⟨w.mean 0, by simp [List.ofFn_succ]⟩
  | none =>
    cases can with
    | none =>
      exact absurd hv.form (by simp)
    | some c =>
      have e' : c = ⟨!![p], ![h], g⟩ := e
      dsimp only
      have hp0 : p ≠ 0 := by
        rintro rfl
        norm_num at hp
      unfold npInv
      rw [if_neg]
      · exact ⟨(c.prec⁻¹ *ᵥ c.h) 0, by
          change Except.ok _ = _
          rw [List.ofFn_succ]
          simp⟩
      · rw [e']
        simpa using hp0

theorem argminLoop_exact {min : Minimizer} {a : Mix} {m t : ℝ} (ht : a.potential [m] = .ok t)
    (hmin : ∀ y, min a.potential [y] = .ok ([m], true)) :
    ∀ {l : List AnyG} {best : Option (ℝ × List ℝ)}, (∀ c ∈ l, ∃ y, meanOf c = .ok [y]) →
      best = some (t, [m]) ∨ best = none ∧ l ≠ [] → argminLoop min a l best = .ok (some (t, [m]))
  | [], best, _, hb => by
    rcases hb with rfl | ⟨-, h⟩
    · rfl
    · exact absurd rfl h
  | c :: l, best, hl, hb => by
    obtain ⟨y, hy⟩ := hl c List.mem_cons_self
    have ih := argminLoop_exact ht hmin (l := l) (best := some (t, [m])) (fun d hd => hl d (List.mem_cons_of_mem _ hd)) (.inl rfl)
    unfold argminLoop
    rw [hy]
    dsimp only [bind, Except.bind]
    rw [hmin]
    dsimp only
    rw [if_pos rfl, ht]
    dsimp only
    rcases hb with rfl | ⟨rfl, -⟩
    · dsimp only
      rw [if_neg (lt_irrefl _)]
      exact ih
    · exact ih

/-- One component of the result for a quadratic function. -/
theorem laplace_ok {hess : Hessian} (hh : FindsHess hess) {v : Var} {f : List ℝ → Py ℝ} {p h c : ℝ} (hp : 0 < p)
    (hf : ∀ y, f [y] = .ok (p / 2 * y ^ 2 + -h * y + c)) : ∃ k, laplace hess [v] f [h / p] = .ok k ∧
      Comp [v] k fun x => -(p / 2) * x v ^ 2 + h * x v - h ^ 2 / (2 * p) +
        1 / 2 * Real.log (p / (2 * Real.pi)) * (1 - (c - h ^ 2 / (2 * p))) := by
  have hpi := Real.pi_pos
  have e1 := hh f (p / 2) (-h) c hf (h / p)
  have e2 : (((1 / (2 * Real.pi)) • (!![p] : Matrix (Fin 1) (Fin 1) ℝ)).det : ℝ) = p / (2 * Real.pi) := by
    simp
    ring
  obtain ⟨g, hg⟩ : ∃ g : ℝ, g = -(1 / 2) * Real.log (p / (2 * Real.pi)) * (p / 2 * (h / p) ^ 2 + -h * (h / p) + c) -
    1 / 2 * ((h / p) * (p * (h / p))) + 1 / 2 * Real.log (p / (2 * Real.pi)) := ⟨_, rfl⟩
  have e3 : laplace hess [v] f [h / p] = .ok ⟨1, ref1 v p h g⟩ := by
    unfold laplace
    change (hess 1 f [h / p] >>= _) = _
    rw [e1, show 2 * (p / 2) = p by ring]
    dsimp only [bind, Except.bind]
    unfold npLog
    rw [e2, if_neg (not_le.2 (by positivity)), hf]
    dsimp only
    have e4 : (!![p] : Matrix (Fin 1) (Fin 1) ℝ) *ᵥ (fun i : Fin 1 => [h / p][i]) = ![h] := by
      funext i
      fin_cases i
      simp [mulVec, dotProduct]
      field_simp
    have e5 : (fun i : Fin 1 => [h / p][i]) ⬝ᵥ ![h] = (h / p) * (p * (h / p)) := by
      simp only [dotProduct, Finset.univ_unique, Finset.sum_singleton]
      change h / p * h = _
      field_simp
    have e6 := (ref1_comp v p h g).1
    rw [hg] at e6
    rw [hg]
    erw [e4, e5, e6]
    rfl
  refine ⟨_, e3, (ref1_comp v p h g).2.2.made, (ref1_comp v p h g).2.2.den.congr fun x => ?_, rfl⟩
  rw [hg]
  field_simp
  ring

/-- **C111, what the code computes.** One variable, a numerator with one component and a divisor with `k` equal components,
an optimiser that finds strict minima and exact second derivatives: the quotient is a multiple of one Gaussian `exp (- p / 2
x ^ 2 + …)` with maximum `Q`, and the result is proportional to it; the maximum of the result is
`(p / 2 π) ^ ((1 + log Q) / 2)`. -/
theorem C111_shape_partial {M N : Mix} {L K : (Var → ℝ) → ℝ} {Ks : List ((Var → ℝ) → ℝ)} {min1 : Minimizer} {hess : Hessian}
    (hmin : FindsMin min1) (hhess : FindsHess hess) (hM : IsMix M [L]) (hN : IsMix N Ks) (hK : ∀ L ∈ Ks, L = K)
    (hlen : N.comps.length ≠ 1) (hcm : M.cancelMethod = 1) {v : Var} (hMv : M.vars = [v]) (hNv : N.vars = [v]) {p h g : ℝ}
    (hq : ∀ x, L x - K x = -(p / 2) * x v ^ 2 + h * x v + g) (hp : 1 / 100000000 < p) {Q : ℝ}
    (hQ : IsGreatest (Set.range fun x => mixFn [L] x / mixFn Ks x) Q) :
    ∃ M' N' R Rs, M.divide (approxDiv min1 hess) N = .ok (M', N', R) ∧ IsMix R Rs ∧ R.vars = [v] ∧ R.comps.length = 1 ∧
      Pot R (fun x => (p / (2 * Real.pi)) ^ ((1 + Real.log Q) / 2) / Q * (mixFn [L] x / mixFn Ks x)) ∧
      (IsMix M' [L] ∧ M'.vars = M.vars) ∧ (IsMix N' Ks ∧ N'.vars = N.vars) := by
  have hp0 : 0 < p := lt_trans (by norm_num) hp
  have hpi := Real.pi_pos
  have hk0 : Ks.length ≠ 0 := by
    rw [← hN.comps.length_eq]
    exact fun h => hN.ne (List.length_eq_zero_iff.1 h)
  have hk : (0 : ℝ) < Ks.length := by exact_mod_cast Nat.pos_of_ne_zero hk0
  obtain ⟨k, hkk⟩ : ∃ k : ℝ, k = Ks.length := ⟨_, rfl⟩
  rw [← hkk] at hk
  obtain ⟨mv, comps, cm⟩ := M
  dsimp only at hMv hcm
  subst hMv hcm
  have hMc := hM.comps
  dsimp only at hMc
  cases hMc with
  | @cons c _ cs _ hc hcs =>
  cases hcs
  -- the inverse mixture
  obtain ⟨bs', a', rs, e1, k1, k2, k3⟩ := opEach_ok (.inr ⟨rfl, rfl⟩) hN.comps hc
  have ho : opVars N.vars [v] = [v] := by simp [opVars, hNv]
  rw [ho] at k3
  have hrs : rs ≠ [] := by
    rintro rfl
    have := k3.length_eq
    simp at this
    exact hk0 (by simp [this])
  obtain ⟨inv, e2, hI, hv, -, -⟩ := make_ok hrs k3
  have hbs : bs' ≠ [] := by
    rintro rfl
    have := k1.length_eq
    exact hk0 this.symm
  have hD : ∀ D ∈ Ks.map (fun La x => La x + -1 * L x), D = fun x => -(-p / 2) * x v ^ 2 + -h * x v + -g := by
    intro D hD
    obtain ⟨K', hK', rfl⟩ := List.mem_map.1 hD
    funext x
    rw [hK K' hK']
    have := hq x
    linarith
  have hmean : ∀ d ∈ inv.comps, ∃ y, meanOf d = .ok [y] := by
    intro d hd
    have hcd : Comp [v] d fun x => -(-p / 2) * x v ^ 2 + -h * x v + -g := by
      obtain ⟨i, hi, rfl⟩ := List.mem_iff_getElem.1 hd
      have hl := hI.comps.length_eq
      have := (List.forall₂_iff_get.1 hI.comps).2 i hi (hl ▸ hi)
      rw [hv, hD _ (List.get_mem _ _)] at this
      exact this
    exact meanOf_ok hcd (make_honest e2 d hd) (by rwa [abs_neg, abs_of_pos hp0])
  have hinv : ∀ x, mixFn (Ks.map fun La x => La x + -1 * L x) x = k * Real.exp (p / 2 * x v ^ 2 - h * x v - g) := by
    intro x
    rw [mixFn_eq hD, List.length_map, ← hkk]
    congr 2
    ring
  -- values at lists with one entry
  have at1 : ∀ y : ℝ, ([v].map fun _ => y) = [y] := fun y => rfl
  have potI : ∀ y, inv.potential [y] = .ok (k * Real.exp (p / 2 * y ^ 2 - h * y - g)) := by
    intro y
    have := (hI.pot fun _ => y).1
    rw [hv, at1, hinv] at this
    exact this
  -- the quadratic function and its minimum
  have quad : ∀ y, p / 2 * y ^ 2 - h * y = p / 2 * (y - h / p) ^ 2 - h ^ 2 / (2 * p) := by
    intro y
    field_simp
    ring
  have quadlt : ∀ y, y ≠ h / p → p / 2 * (h / p) ^ 2 - h * (h / p) < p / 2 * y ^ 2 - h * y := by
    intro y hy
    rw [quad, quad]
    have : 0 < (y - h / p) ^ 2 := by
      have := sub_ne_zero.2 hy
      positivity
    have h2 : 0 < p / 2 * (y - h / p) ^ 2 := by positivity
    simp only [sub_self]
    nlinarith
  have e3 : argmin min1 inv = .ok [h / p] := by
    unfold argmin
    rw [argminLoop_exact (potI _) (hmin _ _ (h / p) potI fun y hy => ?_) hmean (.inr ⟨rfl, hI.ne⟩)]
    · rfl
    · refine mul_lt_mul_of_pos_left (Real.exp_lt_exp.2 ?_) hk
      have := quadlt y hy
      linarith
  -- the two mixtures afterwards
  have hM' : IsMix ⟨[v], [a'], 1⟩ [L] := ⟨by simp, .cons k2 .nil⟩
  have hN' : IsMix { N with comps := bs' } Ks := ⟨hbs, k1⟩
  have quot : ∀ x, mixFn [L] x / mixFn Ks x = Real.exp (-(p / 2) * x v ^ 2 + h * x v + g) / k := by
    intro x
    rw [mixFn_eq hK, ← hkk, ← hq, Real.exp_sub]
    unfold mixFn
    simp
    field_simp
  have e4 : modes min1 ⟨[v], [a'], 1⟩ { N with comps := bs' } [[h / p]] = .ok [[h / p]] := by
    unfold modes
    rw [hmin _ (fun y => p / 2 * y ^ 2 - h * y - g + Real.log k) (h / p) (fun y => ?_) (fun y hy => ?_)]
    · rfl
    · have l1 := (hM'.pot fun _ => y).2.1
      have l2 := (hN'.pot fun _ => y).2.1
      dsimp only at l1 l2
      rw [at1] at l1
      have l3 : N.vars.map (fun _ => y) = [y] := by rw [hNv]; rfl
      rw [l3] at l2
      rw [l1]
      dsimp only [bind, Except.bind]
      rw [l2]
      dsimp only
      congr 1
      have h3 := quot fun _ => y
      have h4 := congrArg Real.log h3
      rw [Real.log_div (mixFn_pos hM'.ls_ne _).ne' (mixFn_pos hN.ls_ne _).ne', Real.log_div (Real.exp_pos _).ne' hk.ne',
        Real.log_exp] at h4
      rw [h4]
      ring
    · have := quadlt y hy
      linarith
  have e5 : removeDupArrays (1 / 1000) [[h / p]] = .ok [[h / p]] := by
    unfold removeDupArrays
    dsimp only
    rw [List.foldlM_cons]
    unfold isDupArray
    rw [List.mapM_cons]
    unfold arraysClose
    dsimp only [bind, Except.bind, List.mapM_nil, pure, Except.pure]
    simp
  have e6 : inverseGaussians min1 ⟨[v], [c], 1⟩ N =
      .ok (⟨[v], [a'], 1⟩, { N with comps := bs' }, [inv], [[h / p]]) := by
    unfold inverseGaussians inverseLoop
    dsimp only
    rw [e1]
    dsimp only [bind, Except.bind]
    rw [e2]
    dsimp only
    rw [e3]
    dsimp only [inverseLoop]
    rw [e4]
    dsimp only
    rw [e5]
    rfl
  obtain ⟨inv', e7, hI', -, hv', -⟩ := C82_copy_partial hI
  have hlog : ∀ y, (do
      let l ← [inv'].mapM fun m => m.logPotential [y]
      Except.ok (lse l) : Py ℝ) = .ok (p / 2 * y ^ 2 + -h * y + (Real.log k - g)) := by
    intro y
    have := (hI'.pot fun _ => y).2.1
    rw [hv', hv, at1, hinv] at this
    rw [List.mapM_cons, this]
    change Except.ok _ = _
    congr 1
    unfold lse
    simp only [List.map_cons, List.map_nil, List.sum_cons, List.sum_nil, add_zero, List.reverse_nil]
    rw [Real.log_exp, Real.log_mul hk.ne' (Real.exp_pos _).ne', Real.log_exp]
    ring
  obtain ⟨r, e8, hr⟩ := laplace_ok hhess (v := v) (f := fun x => do
      let l ← [inv'].mapM fun m => m.logPotential x
      Except.ok (lse l)) hp0 hlog
  obtain ⟨R, e9, hR, hRv, -, hRl⟩ := make_ok (gs := [r]) (by simp) (.cons hr .nil)
  refine ⟨_, _, R, _, ?_, hR, hRv, hRl, hR.pot.congr fun x => ?_, ⟨hM', rfl⟩, hN', rfl⟩
  · have e10 : divM1 min1 hess ⟨[v], [c], 1⟩ N = .ok (⟨[v], [a'], 1⟩, { N with comps := bs' }, R) := by
      unfold divM1
      rw [e6]
      dsimp only [bind, Except.bind]
      rw [if_neg (by simp), List.mapM_cons, e7]
      dsimp only [bind, Except.bind, List.mapM_nil, pure, Except.pure]
      rw [List.mapM_cons, show a'.2.vars = [v] from k2.vars]
      have e8' := e8
      dsimp only [bind, Except.bind] at e8'
      rw [e8']
      dsimp only [bind, Except.bind, List.mapM_nil, pure, Except.pure]
      rw [e9]
    unfold Mix.divide
    cases hcN : N.comps with
    | nil => exact absurd hcN hN.ne
    | cons b l =>
      cases l with
      | nil => rw [hcN] at hlen; exact absurd rfl hlen
      | cons b' l =>
        dsimp only
        rw [if_neg (by decide), if_pos (.inl rfl), approxDiv, if_pos rfl, e10]
  · -- the maximum of the quotient
    have hQv : Q = Real.exp (h ^ 2 / (2 * p) + g) / k := by
      obtain ⟨⟨x0, hx0⟩, hub⟩ := hQ
      dsimp only at hx0
      refine le_antisymm ?_ ?_
      · rw [← hx0, quot]
        refine div_le_div_of_nonneg_right (Real.exp_le_exp.2 ?_) hk.le
        have h1 := quad (x0 v)
        have h2 : 0 ≤ p / 2 * (x0 v - h / p) ^ 2 := by positivity
        linarith
      · have := hub ⟨fun _ => h / p, rfl⟩
        dsimp only at this
        rw [quot] at this
        refine le_trans (le_of_eq ?_) this
        congr 2
        have h1 := quad (h / p)
        simp only [sub_self] at h1
        norm_num at h1
        linarith
    have hlQ : Real.log Q = h ^ 2 / (2 * p) + g - Real.log k := by
      rw [hQv, Real.log_div (Real.exp_pos _).ne' hk.ne', Real.log_exp]
    rw [Real.rpow_def_of_pos (by positivity), quot, hlQ, hQv]
    unfold mixFn
    simp only [List.map_cons, List.map_nil, List.sum_cons, List.sum_nil, add_zero]
    have e11 : ∀ u w : ℝ, Real.exp u / (Real.exp (h ^ 2 / (2 * p) + g) / k) * (Real.exp w / k) =
        Real.exp (u - (h ^ 2 / (2 * p) + g) + w) := by
      intro u w
      rw [Real.exp_add (u - _), Real.exp_sub u]
      field_simp
    rw [e11]
    congr 1
    ring

/-! ### Optimisers and derivatives as required -/

open Classical in
/-- An optimiser that finds strict minima of functions of one variable. -/
noncomputable def exMin : Minimizer := fun f x0 =>
  if h : ∃ m : ℝ, ∃ t : ℝ → ℝ, (∀ y, f [y] = .ok (t y)) ∧ ∀ y, y ≠ m → t m < t y then .ok ([h.choose], true) else .ok (x0, false)

theorem exMin_finds : FindsMin exMin := by
  intro f t m hf ht x0
  have h : ∃ m : ℝ, ∃ t : ℝ → ℝ, (∀ y, f [y] = .ok (t y)) ∧ ∀ y, y ≠ m → t m < t y := ⟨m, t, hf, ht⟩
  unfold exMin
  rw [dif_pos h]
  obtain ⟨t', ht', hm⟩ := h.choose_spec
  have e : t' = t := by
    funext y
    have := (ht' y).symm.trans (hf y)
    injection this
  subst e
  by_contra hne
  have h1 : h.choose ≠ m := fun e => hne (by rw [e])
  exact lt_asymm (ht _ h1) (hm _ h1.symm)

open Classical in
/-- Exact second derivatives of quadratic functions of one variable. -/
noncomputable def exHess : Hessian := fun n f _ =>
  if h : ∃ a : ℝ, ∃ b c : ℝ, ∀ y, f [y] = .ok (a * y ^ 2 + b * y + c) then .ok (Matrix.of fun _ _ : Fin n => 2 * h.choose) else .ok 0

theorem exHess_finds : FindsHess exHess := by
  intro f a b c hf x
  have h : ∃ a : ℝ, ∃ b c : ℝ, ∀ y, f [y] = .ok (a * y ^ 2 + b * y + c) := ⟨a, b, c, hf⟩
  unfold exHess
  rw [dif_pos h]
  obtain ⟨b', c', h'⟩ := h.choose_spec
  have key : ∀ y, h.choose * y ^ 2 + b' * y + c' = a * y ^ 2 + b * y + c := by
    intro y
    have := (h' y).symm.trans (hf y)
    injection this
  have h0 := key 0
  have h1 := key 1
  have h2 := key (-1)
  have e : h.choose = a := by nlinarith
  congr 1
  ext i j
  fin_cases i; fin_cases j
  simp [e]

/-- A mixture with one component, to be divided with method 1. -/
noncomputable def exOne1 (p h g : ℝ) : Mix := ⟨["a"], [⟨1, exG1 p h g⟩], 1⟩

theorem exOne1_isMix (p h g : ℝ) : IsMix (exOne1 p h g) [exL p h g] := ⟨by simp [exOne1], .cons (exG1_comp p h g) .nil⟩

theorem exQuot (p : ℝ) (x : Var → ℝ) : mixFn [exL (p + 1) 0 0] x / mixFn [exL 1 0 0, exL 1 0 0] x =
    Real.exp (-(p / 2) * x "a" ^ 2) / 2 := by
  rw [mixFn_eq (Ks := [exL 1 0 0, exL 1 0 0]) (K := exL 1 0 0) (by simp)]
  unfold mixFn
  simp only [List.map_cons, List.map_nil, List.sum_cons, List.sum_nil, add_zero, List.length_cons, List.length_nil]
  have : Real.exp (exL (p + 1) 0 0 x) = Real.exp (-(p / 2) * x "a" ^ 2) * Real.exp (exL 1 0 0 x) := by
    rw [← Real.exp_add]
    congr 1
    unfold exL
    ring
  rw [this]
  have := Real.exp_pos (exL 1 0 0 x)
  norm_num
  field_simp

theorem exQuot_max {p : ℝ} (hp : 0 < p) :
    IsGreatest (Set.range fun x => mixFn [exL (p + 1) 0 0] x / mixFn [exL 1 0 0, exL 1 0 0] x) (1 / 2) := by
  refine ⟨⟨0, by simp only [exQuot]; simp⟩, ?_⟩
  rintro _ ⟨x, rfl⟩
  simp only [exQuot]
  refine div_le_div_of_nonneg_right (Real.exp_le_one_iff.2 ?_) (by norm_num)
  have : 0 ≤ p / 2 * x "a" ^ 2 := by positivity
  linarith

/-- The hypotheses of `C111_shape_partial` can be met. -/
example : FindsMin exMin ∧ FindsHess exHess ∧ IsMix (exOne1 (1 + 1) 0 0) [exL (1 + 1) 0 0] ∧
    IsMix (exTwo 1 0 0) [exL 1 0 0, exL 1 0 0] ∧ (∀ L ∈ [exL 1 0 0, exL 1 0 0], L = exL 1 0 0) ∧
    (exTwo 1 0 0).comps.length ≠ 1 ∧ (exOne1 (1 + 1) 0 0).cancelMethod = 1 ∧
    (∀ x, exL (1 + 1) 0 0 x - exL 1 0 0 x = -(1 / 2) * x "a" ^ 2 + 0 * x "a" + 0) ∧ (1 / 100000000 : ℝ) < 1 ∧
    IsGreatest (Set.range fun x => mixFn [exL (1 + 1) 0 0] x / mixFn [exL 1 0 0, exL 1 0 0] x) (1 / 2) :=
  ⟨exMin_finds, exHess_finds, exOne1_isMix .., exTwo_isMix .., by simp, by simp [exTwo], rfl,
    fun x => by unfold exL; ring, by norm_num, exQuot_max one_pos⟩

/-- **C111 violated for one variable.** `exp (- (2 π + 1) x² / 2)` divided by `2 exp (- x² / 2)`: the optimiser and the
derivatives are exact, the quotient is a Gaussian, and the result of method 1 is twice the quotient. -/
theorem C111_scale_violated {min1 : Minimizer} {hess : Hessian} (hmin : FindsMin min1) (hhess : FindsHess hess) :
    ∃ M' N' R, (exOne1 (2 * Real.pi + 1) 0 0).divide (approxDiv min1 hess) (exTwo 1 0 0) = .ok (M', N', R) ∧
      IsMix (exOne1 (2 * Real.pi + 1) 0 0) [exL (2 * Real.pi + 1) 0 0] ∧ IsMix (exTwo 1 0 0) [exL 1 0 0, exL 1 0 0] ∧
      Pot R fun x => 2 * (mixFn [exL (2 * Real.pi + 1) 0 0] x / mixFn [exL 1 0 0, exL 1 0 0] x) := by
  have hpi := Real.two_le_pi
  obtain ⟨M', N', R, Rs, h1, -, -, -, h2, -⟩ := C111_shape_partial (p := 2 * Real.pi) (h := 0) (g := 0) (K := exL 1 0 0) hmin hhess
    (exOne1_isMix (2 * Real.pi + 1) 0 0) (exTwo_isMix 1 0 0) (by simp) (by simp [exTwo]) rfl (v := "a") rfl rfl
    (fun x => by unfold exL; ring) (by linarith) (exQuot_max (by linarith))
  refine ⟨M', N', R, h1, exOne1_isMix .., exTwo_isMix .., h2.congr fun x => ?_⟩
  rw [div_self (by linarith), Real.one_rpow]
  norm_num

/-! ### Instances for `C111_raises` and C112 -/

/-- Mixtures of standard Gaussians over `a` and `b`. -/
noncomputable def exStd (k cm : ℕ) : Mix := ⟨["a", "b"], List.replicate k ⟨_, std ["a", "b"]⟩, cm⟩

theorem exStd_isMix {k : ℕ} (hk : k ≠ 0) (cm : ℕ) : IsMix (exStd k cm) (List.replicate k (stdItem ["a", "b"]).2) := by
  refine ⟨by simp [exStd, hk], ?_⟩
  have h := std_den (vs := ["a", "b"]) (by decide)
  have hc : Comp ["a", "b"] ⟨_, std ["a", "b"]⟩ (stdItem ["a", "b"]).2 := ⟨h.made, h.den, rfl⟩
  change List.Forall₂ (Comp ["a", "b"]) (List.replicate k _) (List.replicate k _)
  clear hk
  induction k with
  | zero => exact .nil
  | succ k ih => exact .cons hc ih

/-- The hypotheses of `C111_raises` can be met. -/
example : KeepsDim (fun _ x0 => .ok (x0, true)) ∧ IsMix (exStd 1 1) (List.replicate 1 (stdItem ["a", "b"]).2) ∧
    IsMix (exStd 2 1) (List.replicate 2 (stdItem ["a", "b"]).2) ∧ (exStd 2 1).comps.length ≠ 1 ∧ (exStd 1 1).cancelMethod = 1 ∧
    ("a" : Var) ≠ "b" ∧ "a" ∈ (exStd 1 1).vars ∧ "b" ∈ (exStd 1 1).vars :=
  ⟨fun f x0 x s h => by cases h; rfl, exStd_isMix (by decide) _, exStd_isMix (by decide) _, by simp [exStd], rfl, by decide,
    by simp [exStd], by simp [exStd]⟩

theorem exOne1_cov {p h g : ℝ} (hp : 0 < p) : ∃ c', (exG1 p h g).getCov = .ok (c', toCov (canOf (exG1 p h g))) := by
  refine ⟨_, getCov_valid (exG1_good p h g).toValid ?_ ?_⟩
  · refine vacParams_posDef (PosDef.of_dotProduct_mulVec_pos ?_ fun y hy => ?_)
    · ext i j
      fin_cases i; fin_cases j
      simp
    · have h0 : y 0 ≠ 0 := fun h => hy (funext fun i => by fin_cases i; exact h)
      simp [dotProduct, mulVec]
      have := mul_self_pos.2 h0
      nlinarith
  · change 0 < (!![p] : Matrix (Fin 1) (Fin 1) ℝ).det
    simpa using hp

/-- For `exp (- x²)` an optimiser that finds strict minima finds the origin. -/
theorem exRuns {min : Minimizer} (hmin : FindsMin min) : Runs min (exOne1 2 0 0) (exOne1 2 0 0).comps [([0], true)] := by
  obtain ⟨c', hc⟩ := exOne1_cov (p := 2) (h := 0) (g := 0) two_pos
  refine .cons ⟨c', _, hc, ?_, rfl⟩ .nil
  have e : List.ofFn (toCov (canOf (exG1 2 0 0))).mean = [(toCov (canOf (exG1 2 0 0))).mean 0] := by
    rw [List.ofFn_succ]
    simp
  rw [e]
  refine hmin _ (fun y => y ^ 2) 0 (fun y => ?_) (fun y hy => ?_) _
  · have := ((exOne1_isMix 2 0 0).pot fun _ => y).2.1
    have e2 : ((exOne1 2 0 0).vars.map fun _ => y) = [y] := rfl
    rw [e2] at this
    unfold negLog
    rw [this]
    change Except.ok _ = _
    congr 1
    unfold mixFn exL
    simp
  · have := sq_pos_of_ne_zero hy
    simpa using this

/-- The hypotheses of `C112_best` and `C112_global` can be met … -/
example : IsMix (exOne1 2 0 0) [exL 2 0 0] ∧ Runs exMin (exOne1 2 0 0) (exOne1 2 0 0).comps [([0], true)] ∧
    (exOne1 2 0 0).potential [0] = .ok 1 ∧ ∀ y, mixFn [exL 2 0 0] y ≤ 1 := by
  refine ⟨exOne1_isMix .., exRuns exMin_finds, ?_, fun y => ?_⟩
  · have := ((exOne1_isMix 2 0 0).pot fun _ => 0).1
    have e2 : ((exOne1 2 0 0).vars.map fun _ => (0 : ℝ)) = [0] := rfl
    rw [e2] at this
    rw [this]
    simp [mixFn, exL]
  · unfold mixFn exL
    simp
    positivity

/-- … those of `C112_means` as well … -/
example : IsMix (exOne1 2 0 0) [exL 2 0 0] ∧
    Runs (fun _ x0 => .ok (x0, true)) (exOne1 2 0 0) (exOne1 2 0 0).comps [(List.ofFn (toCov (canOf (exG1 2 0 0))).mean, true)] ∧
    ∀ x0 x s t u, (fun _ x0 => .ok (x0, true) : Minimizer) (negLog (exOne1 2 0 0)) x0 = .ok (x, s) →
      negLog (exOne1 2 0 0) x0 = .ok t → negLog (exOne1 2 0 0) x = .ok u → u ≤ t := by
  obtain ⟨c', hc⟩ := exOne1_cov (p := 2) (h := 0) (g := 0) two_pos
  refine ⟨exOne1_isMix .., .cons ⟨c', _, hc, rfl, by simp [exOne1]⟩ .nil, ?_⟩
  intro x0 x s t u h1 h2 h3
  cases h1
  rw [h2] at h3
  cases h3
  exact le_rfl

/-- … and those of `C112_fails`. -/
example : Runs (fun _ x0 => .ok (x0, false)) (exOne1 2 0 0) (exOne1 2 0 0).comps
    [(List.ofFn (toCov (canOf (exG1 2 0 0))).mean, false)] := by
  obtain ⟨c', hc⟩ := exOne1_cov (p := 2) (h := 0) (g := 0) two_pos
  exact .cons ⟨c', _, hc, rfl, by simp [exOne1]⟩ .nil

end Verif.Mix
