import Verif.ClusterGaussTotal
import Verif.ClusterSemiRun
import Verif.FactMarg

/-!
# Gaussian factors that cannot be normalised on their own
-/

namespace Verif.CG
open Spec (override intOut IntegrableOut integrateOut setVars)
open Gauss (AnyG Made Denotes Good canOf vecAt)
open MeasureTheory Classical Matrix
open scoped ENNReal

variable {hs : HashSeed}

/-- The quadratic form of a Gaussian factor at a named vector. -/
noncomputable def quadG {f : AnyG} (hf : GaussOk f) (d : Var → ℝ) : ℝ :=
  vecAt f.2.vars hf.good.len d ⬝ᵥ (canOf f.2).prec *ᵥ vecAt f.2.vars hf.good.len d

/-- Along a line the logarithm is a quadratic polynomial. -/
theorem gaussDen_line {f : AnyG} (hf : GaussOk f) (u d : Var → ℝ) : ∃ α β : ℝ, ∀ t : ℝ,
    Real.log (gaussDen f (u + t • d)) = α + t * β - t ^ 2 / 2 * quadG hf d := by
  refine ⟨Gauss.evalCan (canOf f.2) (vecAt f.2.vars hf.good.len u),
    vecAt f.2.vars hf.good.len d ⬝ᵥ (canOf f.2).h -
      vecAt f.2.vars hf.good.len d ⬝ᵥ (canOf f.2).prec *ᵥ vecAt f.2.vars hf.good.len u, fun t => ?_⟩
  rw [hf.den, Real.log_exp]
  have e : vecAt f.2.vars hf.good.len (u + t • d) =
      vecAt f.2.vars hf.good.len u + t • vecAt f.2.vars hf.good.len d := rfl
  rw [e]
  unfold quadG Gauss.evalCan
  generalize vecAt f.2.vars hf.good.len u = a
  generalize vecAt f.2.vars hf.good.len d = b
  have hsym := Gauss.dot_symm hf.good.symm a b
  simp only [add_dotProduct, mulVec_add, dotProduct_add, mulVec_smul, smul_dotProduct, dotProduct_smul, smul_eq_mul]
  rw [hsym]
  ring

theorem override_line (ev : List (Var × ℝ)) (z : Var → ℝ) :
    ∃ u d : Var → ℝ, ∀ t : ℝ, override ev (t • z) = u + t • d := by
  refine ⟨override ev 0, fun v => match ev.find? (fun e => e.1 = v) with
    | some _ => 0
    | none => z v, fun t => funext fun v => ?_⟩
  unfold override
  simp only [Pi.add_apply, Pi.smul_apply]
  cases ev.find? (fun e => e.1 = v) <;> simp

theorem quad_bdd {α β γ B : ℝ} (h : ∀ t : ℝ, α + t * β - t ^ 2 / 2 * γ ≤ B) : 0 ≤ γ := by
  by_contra hγ
  push Not at hγ
  have h2 : ∀ t : ℝ, α - t ^ 2 / 2 * γ ≤ B := by
    intro t
    have h1 := h t
    have h2 := h (-t)
    nlinarith
  have h3 := h2 0
  have h4 := h2 ((B - α) / (-γ) + 2)
  have h5 : 0 ≤ (B - α) / (-γ) := div_nonneg (by nlinarith) (by linarith)
  obtain ⟨s, hs⟩ : ∃ s, s = (B - α) / (-γ) := ⟨_, rfl⟩
  rw [← hs] at h4 h5
  have h6 : s * (-γ) = B - α := by rw [hs, div_mul_cancel₀ _ (by linarith)]
  nlinarith [mul_nonneg h5 h5, mul_nonneg h5 (neg_nonneg.2 hγ.le), mul_nonneg (mul_nonneg h5 h5) (neg_nonneg.2 hγ.le)]

theorem quad_flat {α β B : ℝ} (h : ∀ t : ℝ, α + t * β ≤ B) : β = 0 := by
  by_contra hβ
  have h1 := h ((B - α + 1) / β)
  rw [div_mul_cancel₀ _ hβ] at h1
  linarith

/-- Bounded above along an affine family of points. -/
theorem gaussDen_gentle {f : AnyG} (hf : GaussOk f) (ev : List (Var × ℝ)) {B : ℝ}
    (hB : ∀ x, gaussDen f (override ev x) ≤ B) (z : Var → ℝ) :
    Real.log (gaussDen f (override ev z)) + Real.log (gaussDen f (override ev (-z))) -
      2 * Real.log (gaussDen f (override ev 0)) ≤ 0 := by
  obtain ⟨u, d, hl⟩ := override_line ev z
  obtain ⟨α, β, hq⟩ := gaussDen_line hf u d
  have hγ : 0 ≤ quadG hf d := by
    refine quad_bdd (α := α) (β := β) (B := Real.log B) fun t => ?_
    rw [← hq, ← hl]
    exact Real.log_le_log (gaussDen_pos hf _) (hB _)
  have h1 := hq 1
  have h2 := hq (-1)
  have h3 := hq 0
  rw [← hl] at h1 h2 h3
  simp only [one_smul, neg_smul, zero_smul] at h1 h2 h3
  rw [h1, h2, h3]
  linarith

/-! ### Blocks -/

/-- A factor as a function of some of the variables. -/
theorem gaussDen_block {f : AnyG} (hf : GaussOk f) {l : List Var} (hl : l.Nodup) :
    ∃ A : Matrix (Fin l.length) (Fin l.length) ℝ, A.IsSymm ∧ (∀ y, y ⬝ᵥ A *ᵥ y = quadG hf (setVars l y 0)) ∧
      ∀ x, ∃ (b : Fin l.length → ℝ) (c : ℝ), ∀ y,
        gaussDen f (setVars l y x) = Real.exp ((-1 / 2 : ℝ) * (y ⬝ᵥ A *ᵥ y) + y ⬝ᵥ b + c) := by
  obtain ⟨E, hE⟩ : ∃ E : Matrix (Fin f.1) (Fin l.length) ℝ, E = Matrix.of fun i j =>
    if f.2.vars[i.1]'(hf.good.len.symm ▸ i.2) = l[j] then (1 : ℝ) else 0 := ⟨_, rfl⟩
  have hset : ∀ x y, vecAt f.2.vars hf.good.len (setVars l y x) = vecAt f.2.vars hf.good.len (setVars l 0 x) + E *ᵥ y := by
    intro x y
    funext i
    rw [Pi.add_apply]
    unfold vecAt setVars mulVec dotProduct
    by_cases hm : f.2.vars[i.1]'(hf.good.len.symm ▸ i.2) ∈ l
    · rw [dif_pos hm, dif_pos hm, Pi.zero_apply, zero_add]
      rw [Finset.sum_eq_single ⟨l.idxOf (f.2.vars[i.1]'(hf.good.len.symm ▸ i.2)), List.idxOf_lt_length_of_mem hm⟩]
      · simp [hE]
      · intro j _ hj
        have : E i j = 0 := by
          rw [hE, Matrix.of_apply, if_neg]
          intro he
          apply hj
          rw [Fin.ext_iff]
          simp only [he]
          exact (hl.idxOf_getElem _ _).symm
        dsimp only
        rw [this, zero_mul]
      · simp
    · rw [dif_neg hm, dif_neg hm]
      rw [Finset.sum_eq_zero, add_zero]
      intro j _
      have : E i j = 0 := by
        rw [hE, Matrix.of_apply, if_neg]
        intro he
        exact hm (he ▸ List.getElem_mem _)
      dsimp only
      rw [this, zero_mul]
  have hAs : (Eᵀ * (canOf f.2).prec * E).IsSymm := by
    have := hf.good.symm
    unfold Matrix.IsSymm at *
    rw [transpose_mul, transpose_mul, transpose_transpose, this, Matrix.mul_assoc]
  have hAq : ∀ y, y ⬝ᵥ (Eᵀ * (canOf f.2).prec * E) *ᵥ y = (E *ᵥ y) ⬝ᵥ (canOf f.2).prec *ᵥ (E *ᵥ y) := by
    intro y
    rw [← mulVec_mulVec, ← mulVec_mulVec, dotProduct_mulVec, vecMul_transpose]
  refine ⟨Eᵀ * (canOf f.2).prec * E, hAs, fun y => ?_, fun x => ?_⟩
  · rw [hAq]
    unfold quadG
    rw [hset]
    have : vecAt f.2.vars hf.good.len (setVars l (0 : Fin l.length → ℝ) 0) = 0 := by
      funext i
      unfold vecAt setVars
      split <;> rfl
    rw [this, zero_add]
  · refine ⟨Eᵀ *ᵥ ((canOf f.2).h - (canOf f.2).prec *ᵥ vecAt f.2.vars hf.good.len (setVars l 0 x)),
      Gauss.evalCan (canOf f.2) (vecAt f.2.vars hf.good.len (setVars l 0 x)), fun y => ?_⟩
    rw [hf.den, hset, hAq, dotProduct_mulVec y, vecMul_transpose]
    generalize vecAt f.2.vars hf.good.len (setVars l 0 x) = a
    generalize E *ᵥ y = b
    congr 1
    have hsym := Gauss.dot_symm hf.good.symm a b
    unfold Gauss.evalCan
    simp only [add_dotProduct, mulVec_add, dotProduct_add, dotProduct_sub]
    rw [hsym]
    ring

/-- The quadratic form is positive in the directions of some of the variables. -/
def PosG {f : AnyG} (hf : GaussOk f) (S : Finset Var) : Prop :=
  ∀ d : Var → ℝ, d ≠ 0 → (∀ v, v ∉ S → d v = 0) → 0 < quadG hf d

theorem PosG.mono {f : AnyG} {hf : GaussOk f} {S T : Finset Var} (h : PosG hf T) (hST : S ⊆ T) : PosG hf S :=
  fun d hd hv => h d hd fun v hvT => hv v fun hS => hvT (hST hS)

theorem setVars_self {l : List Var} {d : Var → ℝ} (hd : ∀ v, v ∉ l → d v = 0) :
    setVars l (fun i => d l[i]) 0 = d := by
  funext v
  unfold setVars
  split
  · simp
  · rename_i h
    exact (hd v h).symm

theorem posDef_block {f : AnyG} {hf : GaussOk f} {l : List Var} (hl : l.Nodup)
    {A : Matrix (Fin l.length) (Fin l.length) ℝ} (hs : A.IsSymm)
    (hA : ∀ y, y ⬝ᵥ A *ᵥ y = quadG hf (setVars l y 0)) : A.PosDef ↔ PosG hf l.toFinset := by
  constructor
  · intro hpd d hd hv
    have hv' : ∀ v, v ∉ l → d v = 0 := fun v h => hv v (by simpa using h)
    have e := setVars_self hv'
    rw [← e, ← hA]
    have hne : (fun i : Fin l.length => d l[i]) ≠ 0 := by
      intro h0
      rw [h0] at e
      apply hd
      rw [← e]
      funext v
      unfold setVars
      split <;> rfl
    simpa using hpd.dotProduct_mulVec_pos hne
  · intro h
    refine PosDef.of_dotProduct_mulVec_pos ?_ fun y hy => ?_
    · rw [IsHermitian, conjTranspose_eq_transpose_of_trivial]
      exact hs
    · have := h (setVars l y 0) (fun h0 => hy (by
        funext i
        have := congrFun (Gauss.setVars_mem hl y 0) i
        rw [h0] at this
        simpa [vecAt] using this.symm)) (fun v hv => by
          unfold setVars
          rw [dif_neg (by simpa using hv)]
          rfl)
      rw [← hA] at this
      simpa using this

/-- A finite integral over some of the variables. -/
theorem posG_of_int {f : AnyG} (hf : GaussOk f) {S : Finset Var} {x : Var → ℝ}
    (h : intOut S (fun y => .ofReal (gaussDen f y)) x ≠ ∞) : PosG hf S := by
  have hl := S.nodup_toList
  have e := S.toList_toFinset
  rw [← e]
  rw [← e, Spec.intOut_list hl] at h
  obtain ⟨A, hs, hA, hx⟩ := gaussDen_block hf hl
  rw [← posDef_block hl hs hA]
  obtain ⟨b, c, hy⟩ := hx x
  refine GaussInt.posDef_of_lintegral hs b c (ne_of_eq_of_ne (lintegral_congr fun y => ?_) h)
  unfold GaussInt.expQuad
  rw [hy]

theorem override_setVars {l : List Var} {ev : List (Var × ℝ)} (h : ∀ v ∈ l, v ∉ ev.map Prod.fst)
    (y : Fin l.length → ℝ) (x : Var → ℝ) : override ev (setVars l y x) = setVars l y (override ev x) := by
  funext v
  unfold override setVars
  by_cases hv : v ∈ l
  · rw [dif_pos hv]
    have : ev.find? (fun e => e.1 = v) = none := by
      rw [List.find?_eq_none]
      intro e he hev
      refine h v hv ?_
      simp only [decide_eq_true_eq] at hev
      exact hev ▸ List.mem_map_of_mem he
    rw [this]
    simp [hv]
  · simp only [dif_neg hv]

theorem intOut_override {S : Finset Var} {ev : List (Var × ℝ)} (h : ∀ v ∈ S, v ∉ ev.map Prod.fst)
    (F : (Var → ℝ) → ℝ≥0∞) (x : Var → ℝ) : intOut S (fun y => F (override ev y)) x = intOut S F (override ev x) := by
  have e := S.toList_toFinset
  rw [← e, Spec.intOut_list S.nodup_toList, Spec.intOut_list S.nodup_toList]
  refine lintegral_congr fun y => ?_
  rw [override_setVars (by simpa using h)]

/-- Integrals of a bounded factor over directions in which the quadratic form is positive are bounded. -/
theorem int_bounded {f : AnyG} (hf : GaussOk f) {S : Finset Var} (hS : PosG hf S) {ev : List (Var × ℝ)}
    (hev : ∀ v ∈ S, v ∉ ev.map Prod.fst) {B : ℝ} (hB : ∀ x, gaussDen f (override ev x) ≤ B) :
    ∃ C : ℝ≥0∞, C ≠ ∞ ∧ ∀ x, intOut S (fun y => .ofReal (gaussDen f (override ev y))) x ≤ C := by
  have hl := S.nodup_toList
  have e := S.toList_toFinset
  obtain ⟨A, hs, hA, hx⟩ := gaussDen_block hf hl
  rw [← e, ← posDef_block hl hs hA] at hS
  refine ⟨.ofReal (B * GaussInt.Z A), ENNReal.ofReal_ne_top, fun x => ?_⟩
  rw [intOut_override hev (fun y => .ofReal (gaussDen f y))]
  have hi : intOut S (fun y => .ofReal (gaussDen f y)) (override ev x) =
      ∫⁻ y : Fin S.toList.length → ℝ, .ofReal (gaussDen f (setVars S.toList y (override ev x))) := by
    have := Spec.intOut_list hl (fun y => .ofReal (gaussDen f y)) (override ev x)
    rwa [e] at this
  rw [hi]
  obtain ⟨b, c, hy⟩ := hx (override ev x)
  simp only [hy]
  rw [← ofReal_integral_eq_lintegral_ofReal (GaussInt.integrable_quad hS b c)
    (Filter.Eventually.of_forall fun y => (Real.exp_pos _).le), GaussInt.integral_quad hS]
  refine ENNReal.ofReal_le_ofReal (mul_le_mul_of_nonneg_right ?_ (GaussInt.Z_pos hS).le)
  have h1 := hy (A⁻¹ *ᵥ b)
  rw [GaussInt.quad_eq hS] at h1
  have h2 : GaussInt.bell A (A⁻¹ *ᵥ b) (A⁻¹ *ᵥ b) = 1 := by
    unfold GaussInt.bell
    simp
  rw [h2, mul_one, ← override_setVars (by simpa using hev)] at h1
  rw [← h1]
  exact hB _

/-- Bounded, with finite integrals over all but one of the variables: integrals are bounded. -/
theorem boundedInt_gauss {f : AnyG} (hf : GaussOk f) {U : Finset Var} {ev : List (Var × ℝ)}
    (hev : ∀ v ∈ U, v ∉ ev.map Prod.fst) {B : ℝ} (hB : ∀ x, gaussDen f (override ev x) ≤ B)
    (hint : ∀ v ∈ U, ∃ x, intOut (U.erase v) (fun y => .ofReal (gaussDen f (override ev y))) x ≠ ∞) :
    BoundedInt (fun x => gaussDen f (override ev x)) U := by
  intro W hW hne
  obtain ⟨v, hv⟩ := hne
  obtain ⟨x, hx⟩ := hint v (hW hv)
  rw [intOut_override (fun w hw => hev w (Finset.mem_of_mem_erase hw)) (fun y => .ofReal (gaussDen f y))] at hx
  have hsub : U \ W ⊆ U.erase v := fun w hw => by
    rw [Finset.mem_sdiff] at hw
    exact Finset.mem_erase.2 ⟨fun h => hw.2 (h ▸ hv), hw.1⟩
  exact int_bounded hf ((posG_of_int hf hx).mono hsub) (fun w hw => hev w (Finset.mem_sdiff.1 hw).1) hB

/-! ### One variable -/

/-- The copy of a factor with a zero precision is flagged. -/
theorem copy_vac_zero {f : AnyG} (hf : GaussOk f) (h1 : 0 < f.1) (h0 : (canOf f.2).prec = 0) {k : Gauss f.1}
    (hk : f.2.copy = .ok k) : k.vac = true := by
  have hcov : f.2.cov = none := by
    cases hc : f.2.cov with
    | none => rfl
    | some v =>
      exfalso
      have hd := (hf.good.cov v hc).2
      rw [Gauss.canOf_cov hf.good.toValid hc] at h0
      have h0 : v.cov⁻¹ = 0 := h0
      have := Gauss.det_inv_pos.2 hd
      rw [h0] at this
      have : Nonempty (Fin f.1) := ⟨⟨0, h1⟩⟩
      simp at *
  have hform := hf.good.form
  rw [hcov] at hform
  obtain ⟨c, hc⟩ := Option.isSome_iff_exists.1 (by simpa using hform)
  unfold Gauss.copy at hk
  rw [hcov, hc] at hk
  obtain ⟨-, -, rfl⟩ := Gauss.mkCan_eq_ok hk
  rw [Gauss.canOf_can hc] at h0
  show Gauss.vacParams c.prec = true
  rw [h0]
  exact Gauss.vacParams_zero h1

/-- The copy of a factor with a diagonal entry of the precision above the tolerance is not flagged. -/
theorem copy_not_vac {f : AnyG} {i : Fin f.1} (h : 1 / 100000000 < (canOf f.2).prec i i) {k : Gauss f.1}
    (hk : f.2.copy = .ok k) : k.vac = false := by
  unfold Gauss.copy at hk
  split at hk
  · obtain ⟨k', h1, h2⟩ := py_bind_eq_ok.1 hk
    obtain ⟨-, -, rfl⟩ := Gauss.mkCov_eq_ok h1
    cases h2
    rfl
  · obtain ⟨-, -, rfl⟩ := Gauss.mkCov_eq_ok hk
    rfl
  · rename_i c h1 h2
    obtain ⟨-, -, rfl⟩ := Gauss.mkCan_eq_ok hk
    rw [Gauss.canOf_can h2] at h
    show Gauss.vacParams c.prec = false
    unfold Gauss.vacParams
    simp only [decide_eq_false_iff_not]
    rintro ⟨h3, -⟩
    exact absurd ((le_abs_self _).trans (h3 i i)) (not_le.2 h)
  · cases hk

/-- A bounded factor of one variable has a positive precision or is constant. -/
theorem one_var {f : AnyG} (hf : GaussOk f) (h1 : f.2.vars.length = 1) {B : ℝ} (hB : ∀ x, gaussDen f x ≤ B) :
    (canOf f.2).prec.PosDef ∨ ((canOf f.2).prec = 0 ∧ ∀ x y, gaussDen f x = gaussDen f y) := by
  obtain ⟨n, f⟩ := f
  have hn : n = 1 := hf.good.len.symm.trans h1
  subst hn
  obtain ⟨v, hv⟩ := List.length_eq_one_iff.1 h1
  have hq : ∀ d : Var → ℝ, quadG hf d = d v * d v * (canOf f).prec 0 0 := by
    intro d
    unfold quadG
    have e : vecAt f.vars hf.good.len d = fun _ => d v := by
      funext i
      unfold vecAt
      have hv' : f.vars = [v] := hv
      simp [hv']
    rw [e]
    simp [dotProduct, mulVec]
    ring
  have hl : ∀ d : Var → ℝ, ∃ α β : ℝ, ∀ t : ℝ, Real.log (gaussDen ⟨1, f⟩ (t • d)) = α + t * β - t ^ 2 / 2 * quadG hf d := by
    intro d
    obtain ⟨α, β, h⟩ := gaussDen_line hf 0 d
    exact ⟨α, β, fun t => by rw [← h, zero_add]⟩
  have hk : 0 ≤ (canOf f).prec 0 0 := by
    obtain ⟨α, β, h⟩ := hl (fun _ => 1)
    have := quad_bdd (α := α) (β := β) (γ := quadG hf fun _ => 1) (B := Real.log B) fun t => by
      rw [← h]
      exact Real.log_le_log (gaussDen_pos hf _) (hB _)
    rw [hq] at this
    simpa using this
  rcases hk.lt_or_eq with hk | hk
  · left
    refine PosDef.of_dotProduct_mulVec_pos ?_ fun y hy => ?_
    · rw [IsHermitian, conjTranspose_eq_transpose_of_trivial]
      exact hf.good.symm
    · have hy0 : y 0 ≠ 0 := fun h => hy (by funext i; rw [Subsingleton.elim i 0, h]; rfl)
      simp only [dotProduct, mulVec, star_trivial, Finset.univ_unique, Fin.default_eq_zero, Fin.isValue,
        Finset.sum_singleton]
      have := mul_self_pos.2 hy0
      nlinarith
  · right
    have hz : (canOf f).prec = 0 := by
      ext i j
      rw [Subsingleton.elim i 0, Subsingleton.elim j 0, ← hk]
      rfl
    refine ⟨hz, ?_⟩
    have hconst : ∀ x, Real.log (gaussDen ⟨1, f⟩ x) = Real.log (gaussDen ⟨1, f⟩ 0) := by
      intro x
      obtain ⟨α, β, h⟩ := hl x
      have hb : β = 0 := by
        refine quad_flat (α := α) (B := Real.log B) fun t => ?_
        have h1 := h t
        rw [hq, ← hk] at h1
        have h2 := Real.log_le_log (gaussDen_pos hf _) (hB (t • x))
        linarith
      have h1 := h 1
      have h0 := h 0
      rw [hq, ← hk, hb] at h1 h0
      simp at h1 h0
      rw [h1, h0]
    intro x y
    exact Real.log_injOn_pos (Set.mem_Ioi.2 (gaussDen_pos hf _)) (Set.mem_Ioi.2 (gaussDen_pos hf _))
      ((hconst x).trans (hconst y).symm)

/-- The divergence of two bounded factors of the same variable. -/
theorem gauss_kl_one {f g : AnyG} (hf : GaussOk f) (hg : GaussOk g) (hv : f.2.vars = g.2.vars)
    (h1 : f.2.vars.length = 1) {B C : ℝ} (hB : ∀ x, gaussDen f x ≤ B) (hC : ∀ x, gaussDen g x ≤ C) :
    ∃ d, (gaussOps hs).kl f g = .ok d ∧ 0 ≤ d ∧
      ((∃ c : ℝ, 0 < c ∧ ∀ x, gaussDen g x = c * gaussDen f x) → d = 0) := by
  obtain ⟨k, hk, ok, kv, kc, kd, kvac⟩ := gauss_copy hf
  obtain ⟨l, hl, ol, lv, lc, ld, lvac⟩ := gauss_copy hg
  have hg1 : g.2.vars.length = 1 := hv ▸ h1
  have hnf : f.1 = 1 := hf.good.len.symm.trans h1
  have hng : g.1 = 1 := hg.good.len.symm.trans hg1
  have hcall : (gaussOps hs).kl f g = (do let (_, _, d) ← k.klDivergence l; toGain d : Py EReal) := by
    show (do let k ← f.2.copy; let l ← g.2.copy; let (_, _, d) ← k.klDivergence l; toGain d : Py EReal) = _
    rw [hk, py_bind_ok, hl, py_bind_ok]
  have hdim : g.1 = f.1 := hng.trans hnf.symm
  have hflat : ∀ {f' : AnyG} (hf' : GaussOk f'), f'.2.vars.length = 1 → (∀ x y, gaussDen f' x = gaussDen f' y) →
      ¬ (canOf f'.2).prec.PosDef := by
    intro f' hf' h1' hc hpd
    obtain ⟨x, hx⟩ := (gauss_norm (hs := hs) hf').2 hpd
    apply hx
    have hx' : ∀ y, (gaussLaws hs).den f' y = (gaussLaws hs).den f' 0 := fun y => hc y 0
    simp only [hx']
    have hnd : ((gaussOps hs).vars f').Nodup := hf'.good.nodup
    rw [Spec.intOut_list hnd, lintegral_const]
    have : Nonempty (Fin ((gaussOps hs).vars f').length) := ⟨⟨0, by
      show 0 < f'.2.vars.length
      omega⟩⟩
    rw [measure_univ_of_isAddLeftInvariant]
    exact ENNReal.mul_top (by simpa using (gaussLaws hs).pos hf' 0)
  rcases one_var hf h1 hB with pf | ⟨zf, cf⟩ <;> rcases one_var hg hg1 hC with pg | ⟨zg, cg⟩
  · obtain ⟨r, r0, hr, hz⟩ := gauss_kl (hs := hs) hf hg hv pf pg
    exact ⟨_, hr, by exact_mod_cast r0, fun h => by rw [hz h]; rfl⟩
  · refine ⟨⊤, ?_, le_top, fun ⟨c, hc, hx⟩ => ?_⟩
    · rw [hcall]
      unfold Gauss.klDivergence
      rw [dif_pos hdim, kvac pf, copy_vac_zero hg (by omega) zg hl]
      rfl
    · refine absurd pf (hflat hf h1 fun x y => ?_)
      have := cg x y
      rw [hx, hx] at this
      exact mul_left_cancel₀ hc.ne' this
  · refine ⟨⊤, ?_, le_top, fun ⟨c, hc, hx⟩ => ?_⟩
    · rw [hcall]
      unfold Gauss.klDivergence
      rw [dif_pos hdim, lvac pg, copy_vac_zero hf (by omega) zf hk]
      rfl
    · refine absurd pg (hflat hg hg1 fun x y => ?_)
      rw [hx, hx, cf x y]
  · refine ⟨0, ?_, le_rfl, fun _ => rfl⟩
    rw [hcall]
    unfold Gauss.klDivergence
    rw [dif_pos hdim, copy_vac_zero hg (by omega) zg hl, copy_vac_zero hf (by omega) zf hk]
    rfl

/-- A function whose curvature in the direction of some variable exceeds the tolerance of the vacuity test. -/
def SharpG (φ : (Var → ℝ) → ℝ) : Prop :=
  ∃ v, Real.log (φ (Pi.single v 1)) + Real.log (φ (-Pi.single v 1)) - 2 * Real.log (φ 0) < -(1 / 100000000)

/-- A function that does not curve upwards at zero. -/
def GentleG (φ : (Var → ℝ) → ℝ) : Prop :=
  ∀ z, Real.log (φ z) + Real.log (φ (-z)) - 2 * Real.log (φ 0) ≤ 0

/-- The copy of a sharp factor is not flagged. -/
theorem copy_sharp {f : AnyG} (hf : GaussOk f) (h : SharpG (gaussDen f)) {k : Gauss f.1} (hk : f.2.copy = .ok k) :
    k.vac = false := by
  obtain ⟨v, hv⟩ := h
  obtain ⟨α, β, hq⟩ := gaussDen_line hf 0 (Pi.single v 1)
  have h1 := hq 1
  have h2 := hq (-1)
  have h3 := hq 0
  simp only [one_smul, neg_smul, zero_smul, zero_add] at h1 h2 h3
  rw [h1, h2, h3] at hv
  by_cases hm : v ∈ f.2.vars
  · have hlt : f.2.vars.idxOf v < f.1 := (List.idxOf_lt_length_of_mem hm).trans_eq hf.good.len
    refine copy_not_vac (i := ⟨f.2.vars.idxOf v, hlt⟩) ?_ hk
    have e : vecAt f.2.vars hf.good.len (Pi.single v (1 : ℝ)) = Pi.single ⟨f.2.vars.idxOf v, hlt⟩ 1 := by
      funext j
      unfold vecAt
      rw [Pi.single_apply, Pi.single_apply]
      refine if_congr ?_ rfl rfl
      rw [Fin.ext_iff]
      constructor
      · rintro rfl
        exact (hf.good.nodup.idxOf_getElem _ _).symm
      · intro e
        simp [e]
    have hval : quadG hf (Pi.single v (1 : ℝ)) =
        (canOf f.2).prec ⟨f.2.vars.idxOf v, hlt⟩ ⟨f.2.vars.idxOf v, hlt⟩ := by
      unfold quadG
      rw [e]
      simp
    rw [hval] at hv
    linarith
  · exfalso
    have e : vecAt f.2.vars hf.good.len (Pi.single v (1 : ℝ)) = 0 := by
      funext j
      unfold vecAt
      rw [Pi.single_apply, if_neg]
      · rfl
      · intro h
        exact hm (h ▸ List.getElem_mem _)
    have hval : quadG hf (Pi.single v (1 : ℝ)) = 0 := by
      unfold quadG
      rw [e]
      simp
    rw [hval] at hv
    norm_num at hv
    linarith

/-- Gaussian factors are such a class. -/
noncomputable def gaussSemi (hs : HashSeed) : SemiI (gaussLaws hs) where
  Sharp := SharpG
  Gentle := GentleG
  mul := (gaussTotal hs).mul
  cancel := (gaussTotal hs).cancel
  cancelVars := (gaussTotal hs).cancelVars
  red := (gaussTotal hs).red
  dist := by
    intro f hf
    obtain ⟨k, hk, -⟩ := gauss_copy hf
    show ∃ d, (do let k ← f.2.copy; toGain k.distanceFromVacuous : Py EReal) = .ok d
    rw [hk, py_bind_ok]
    unfold Gauss.distanceFromVacuous
    split <;> exact ⟨_, rfl⟩
  kl := by
    rintro f g hf hg hv h1 ⟨B, hB⟩ ⟨C, hC⟩
    obtain ⟨d, hd, -⟩ := gauss_kl_one (hs := hs) hf hg hv h1 hB hC
    exact ⟨d, hd⟩
  sharpMul := by
    rintro φ ψ hφ hψ ⟨v, hv⟩ h
    refine ⟨v, ?_⟩
    have := h (Pi.single v 1)
    rw [Real.log_mul (hφ _).ne' (hψ _).ne', Real.log_mul (hφ _).ne' (hψ _).ne', Real.log_mul (hφ _).ne' (hψ _).ne']
    linarith
  gentle := by
    rintro f hf ev ⟨B, hB⟩ z
    exact gaussDen_gentle hf _ hB z
  marg := by
    rintro f vrs hf hsh hn hv ⟨x0, hx0⟩
    obtain ⟨k, hk, hok, hkv, hkc, hkd, -⟩ := gauss_copy hf
    have hvac := copy_sharp hf hsh hk
    have hpos := posG_of_int hf hx0
    have hgk : Good k := hok.good
    obtain ⟨r', M, h1, h2, h3, h4, h5, h6⟩ := Gauss.C32_marginalize_partial hs hok.made hgk.denotes
      (Gauss.getCan_valid hgk.toValid) hvac true hn (by rw [hkv]; exact hv) (fun y hy hz => by
        have hgv : vecAt f.2.vars hf.good.len (Gauss.entryV y f.2.vars hf.good.len) = y := by
          funext i
          exact Gauss.entryV_get hf.good.nodup hf.good.len y i
        have := hpos (Gauss.entryV y f.2.vars hf.good.len) (fun e => hy (by rw [← hgv, e]; rfl)) (fun v hvn => by
          unfold Gauss.entryV
          split
          · rename_i hm
            refine hz _ v ?_ ?_
            · show k.vars[f.2.vars.idxOf v]? = _
              rw [hkv]
              simp [List.getElem?_eq_getElem (List.idxOf_lt_length_of_mem hm)]
            · have : v ∈ vrs := by
                by_contra hc
                exact hvn (by rw [Finset.mem_sdiff, List.mem_toFinset, List.mem_toFinset]; exact ⟨hm, hc⟩)
              simp [this]
          · rfl)
        unfold quadG at this
        rw [hgv] at this
        rw [hkc]
        exact this)
    have hr : r'.vars = vrs := h2 rfl
    have hcall : (gaussOps hs).marginalize f vrs = .ok ⟨_, r'⟩ := by
      show (do let k ← f.2.copy; let r ← k.marginalize hs vrs true; .ok ⟨_, r⟩ : Py AnyG) = _
      rw [hk, py_bind_ok, h1]
      rfl
    refine ⟨⟨_, r'⟩, hcall, hr, fun x => ?_⟩
    obtain ⟨i1, i2⟩ := h6 (f.2.vars.filter (· ∉ vrs)) (hf.good.nodup.filter _) (by
      intro v; rw [hr, hkv]; simp) x
    have hset : (f.2.vars.filter (· ∉ vrs)).toFinset = f.2.vars.toFinset \ vrs.toFinset := by
      ext v; simp
    have hfun : (fun z => Real.exp (Gauss.logOf k hgk.len z)) = gaussDen f := by
      funext z
      rw [← hkd z, gaussDen_of (f := ⟨f.1, k⟩) hgk.denotes]
    rw [hfun] at i1 i2
    have hm := gaussDen_meas hf
    have h0 := fun y => (gaussDen_pos hf y).le
    rw [Spec.integrableOut_iff (hf.good.nodup.filter _) hm h0, hset] at i1
    rw [Spec.integrateOut_eq_intOut (hf.good.nodup.filter _) hm h0, hset] at i2
    show ENNReal.ofReal (gaussDen ⟨_, r'⟩ x) = _
    rw [gaussDen_of (f := ⟨_, r'⟩) h5, ← i2]
    exact ENNReal.ofReal_toReal i1

/-- A next message of the same shape as the last one carries no information. -/
theorem semi_clean_gain {n m : Nat} {evVars : List Var} {g0 g : Graph AnyG ℝ EReal n m} {tr : List (Fin m × AnyG)}
    (w : Wired (gaussOps hs) evVars g0) (st : SemiStart (gaussSemi hs) g0)
    (hr : Run (gaussOps hs) g0 tr g) {q : Fin m}
    (hc : CleanI (gaussLaws hs).toPosLaws tr g q) : (g.path q).gain ≤ 0 := by
  have inv := hr.inv w
  have b := hr.bel w fun i => (st.nice i).ok
  have hN := st.msgs w hr
  obtain ⟨⟨B, hB⟩, hn2⟩ := (st.next_bounded w inv b hN).1 q
  obtain ⟨rv, hr1, hr2, hr3⟩ := w.rev q
  obtain ⟨n1, -⟩ := b.next w inv hr1 hr2 hr3
  have hone : ((gaussOps hs).vars (g.path q).next.factor).length = 1 := by rw [hn2]; exact st.one q
  obtain ⟨c, c0, cx⟩ := hc
  rcases inv.gain q with hg | ⟨hg, hp⟩
  swap
  · exact le_of_eq hg
  unfold mval at cx
  cases hp : (g.path q).prev with
  | none =>
    have hl : lastMsg tr q = none := by rw [← inv.prev, hp]; rfl
    rw [hl] at cx
    have cx' : ∀ x, gaussDen (g.path q).next.factor x = c := fun x => (cx x).trans (by simp)
    rcases one_var n1 hone hB with hpd | ⟨hz, -⟩
    · exfalso
      obtain ⟨x, hx⟩ := (gauss_norm (hs := hs) n1).2 hpd
      apply hx
      have hx' : ∀ y, (gaussLaws hs).den (g.path q).next.factor y = c := cx'
      simp only [hx']
      have hnd : ((gaussOps hs).vars (g.path q).next.factor).Nodup := (gaussLaws hs).nodup n1
      rw [Spec.intOut_list hnd, lintegral_const]
      have : Nonempty (Fin ((gaussOps hs).vars (g.path q).next.factor).length) := ⟨⟨0, by rw [hone]; exact one_pos⟩⟩
      rw [measure_univ_of_isAddLeftInvariant]
      exact ENNReal.mul_top (by simpa using c0)
    · rw [hp] at hg
      have hg' : (gaussOps hs).distVacuous (g.path q).next.factor = .ok (g.path q).gain := hg
      obtain ⟨k, hk, -⟩ := gauss_copy n1
      have h1 : (do let k ← (g.path q).next.factor.2.copy; toGain k.distanceFromVacuous : Py EReal) =
        .ok (g.path q).gain := hg'
      rw [hk, py_bind_ok] at h1
      unfold Gauss.distanceFromVacuous at h1
      have hd : 0 < (g.path q).next.factor.1 := by
        have h2 := n1.good.len
        have h3 : (g.path q).next.factor.2.vars.length = 1 := hone
        omega
      rw [copy_vac_zero n1 hd hz hk] at h1
      simp only [if_true, toGain, Except.ok.injEq] at h1
      rw [← h1]
      simp
  | some p =>
    have hl : lastMsg tr q = some p.factor := by rw [← inv.prev, hp]; rfl
    obtain ⟨o1, -⟩ := b.msg q _ hl
    obtain ⟨⟨C, hC⟩, o3⟩ := hN q _ hl
    rw [hp] at hg
    rw [hl] at cx
    obtain ⟨d, h2, -, h3⟩ := gauss_kl_one (hs := hs) o1 n1 (o3.trans hn2.symm)
      (by show ((gaussOps hs).vars p.factor).length = 1; rw [o3]; exact st.one q) hC hB
    have hz := h3 ⟨c, c0, cx⟩
    have hg' : (gaussOps hs).kl p.factor (g.path q).next.factor = .ok (g.path q).gain := hg
    rw [h2, hz] at hg'
    simp only [Except.ok.injEq] at hg'
    rw [← hg']

end Verif.CG
