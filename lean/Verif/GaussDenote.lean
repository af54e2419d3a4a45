import Verif.GaussHist

/-!
# What a Gaussian denotes, through its API

`Denotes a L`: evaluating `a` at any named point gives the log potential `L`.
-/

namespace Verif.Gauss
open Matrix Spec MeasureTheory
variable {n m : ℕ}

/-- Through `log_potential` and `potential`, the factor is the function `L` of named points: with the values
in the order of its own variables, and with the values in any order when the names are given. -/
def Denotes (a : Gauss n) (L : (Var → ℝ) → ℝ) : Prop :=
  ∀ x : Var → ℝ, a.logPotential (a.vars.map x) = .ok (L x) ∧
    a.potential (a.vars.map x) = .ok (Real.exp (L x)) ∧
    ∀ vrs : List Var, vrs.Perm a.vars → a.logPotential (vrs.map x) (some vrs) = .ok (L x)

/-- The function denoted by a good object. -/
noncomputable def logOf (a : Gauss n) (hl : a.vars.length = n) (x : Var → ℝ) : ℝ :=
  evalCan (canOf a) (vecAt a.vars hl x)

theorem Good.denotes {a : Gauss n} (h : Good a) : Denotes a (logOf a h.len) := by
  intro x
  refine ⟨logPotential_valid h.toValid x, potential_valid h.toValid x, fun vrs hp => ?_⟩
  have h1 : sameSet vrs a.vars = true := sameSet_iff.2 fun v => hp.mem_iff
  have e := logPotential_valid h.toValid x
  unfold logPotential at e ⊢
  rw [alignValues_named h1 hp.length_eq]
  exact e

theorem Denotes.unique {a : Gauss n} {L M : (Var → ℝ) → ℝ} (h1 : Denotes a L) (h2 : Denotes a M) : L = M := by
  funext x
  have := (h1 x).1.symm.trans (h2 x).1
  injection this

theorem Denotes.congr {a : Gauss n} {L M : (Var → ℝ) → ℝ} (h1 : Denotes a L) (h2 : ∀ x, L x = M x) :
    Denotes a M := by
  have : L = M := funext h2
  exact this ▸ h1

theorem evalCov_eq_ok {v : CovF n} {x : Fin n → ℝ} {y : ℝ} (h : evalCov v x = .ok y) : 0 < v.cov.det := by
  unfold evalCov at h
  obtain ⟨l, hl, h⟩ := py_bind_eq_ok.1 h
  exact det2pi_pos.1 (npLog_eq_ok hl).1

/-- An object that can be evaluated is good. -/
theorem Denotes.good {a : Gauss n} {L : (Var → ℝ) → ℝ} (h : Denotes a L) (hi : Inv a) : Good a := by
  refine hi.good fun hc v hv => ?_
  have h1 := (h fun _ => 0).1
  unfold logPotential at h1
  obtain ⟨xs, -, h1⟩ := py_bind_eq_ok.1 h1
  obtain ⟨y, -, h1⟩ := py_bind_eq_ok.1 h1
  rw [hc, hv] at h1
  exact evalCov_eq_ok h1

theorem Denotes.eq {a : Gauss n} {L : (Var → ℝ) → ℝ} (h : Denotes a L) (hg : Good a) : L = logOf a hg.len :=
  h.unique hg.denotes

/-- Objects with the same variables and parameters denote the same. -/
theorem denotes_of_canOf {a b : Gauss n} {L : (Var → ℝ) → ℝ} (ha : Good a) (hb : Good b)
    (hv : b.vars = a.vars) (hc : canOf b = canOf a) (h : Denotes a L) : Denotes b L := by
  have e := h.eq ha
  subst e
  obtain ⟨vars, can, cov, vac⟩ := b
  dsimp only at hv
  subst hv
  refine hb.denotes.congr fun x => ?_
  simp only [logOf, hc]

/-! ### Positive definite matrices -/

theorem isPosDef_of_posDef {K : Matrix (Fin n) (Fin n) ℝ} (hK : K.PosDef) : IsPosDef K := by
  intro z v hv hz
  left
  have hre : ∀ i, (K *ᵥ fun j => (v j).re) i = z.re * (v i).re - z.im * (v i).im := by
    intro i
    have h := congrArg Complex.re (congrFun hz i)
    simpa [mulVec, dotProduct] using h
  have him : ∀ i, (K *ᵥ fun j => (v j).im) i = z.re * (v i).im + z.im * (v i).re := by
    intro i
    have h := congrArg Complex.im (congrFun hz i)
    simpa [mulVec, dotProduct] using h
  have key : (fun j => (v j).re) ⬝ᵥ (K *ᵥ fun j => (v j).re) + (fun j => (v j).im) ⬝ᵥ (K *ᵥ fun j => (v j).im) =
      z.re * ∑ i, ((v i).re * (v i).re + (v i).im * (v i).im) := by
    simp only [dotProduct, hre, him, ← Finset.sum_add_distrib, Finset.mul_sum]
    exact Finset.sum_congr rfl fun i _ => by ring
  have hsum : 0 ≤ ∑ i, ((v i).re * (v i).re + (v i).im * (v i).im) :=
    Finset.sum_nonneg fun i _ => add_nonneg (mul_self_nonneg _) (mul_self_nonneg _)
  have hnn : ∀ u : Fin n → ℝ, 0 ≤ u ⬝ᵥ K *ᵥ u := fun u => by
    have := hK.posSemidef.dotProduct_mulVec_nonneg u
    simpa using this
  have hpos : 0 < (fun j => (v j).re) ⬝ᵥ (K *ᵥ fun j => (v j).re) +
      (fun j => (v j).im) ⬝ᵥ (K *ᵥ fun j => (v j).im) := by
    by_cases h : (fun j => (v j).re) = 0
    · have h' : (fun j => (v j).im) ≠ 0 := by
        intro h'
        apply hv
        funext i
        exact Complex.ext (congrFun h i) (congrFun h' i)
      have := hK.dotProduct_mulVec_pos h'
      have h2 := hnn fun j => (v j).re
      simp only [star_trivial] at this
      linarith
    · have := hK.dotProduct_mulVec_pos h
      have h2 := hnn fun j => (v j).im
      simp only [star_trivial] at this
      linarith
  rw [key] at hpos
  exact pos_of_mul_pos_left hpos hsum

/-- The constructor never flags a positive definite precision. -/
theorem vacParams_posDef {K : Matrix (Fin n) (Fin n) ℝ} (hK : K.PosDef) : vacParams K = false := by
  unfold vacParams
  simp only [decide_eq_false_iff_not]
  exact fun h => h.2 (isPosDef_of_posDef hK)

/-! ### Integrals -/

/-- The order in which variables are integrated out does not matter. -/
theorem integrateOut_perm {vs ws : List Var} (hv : vs.Nodup) (hp : vs.Perm ws) (F : (Var → ℝ) → ℝ) (x : Var → ℝ) :
    integrateOut vs F x = integrateOut ws F x ∧ (IntegrableOut vs F x ↔ IntegrableOut ws F x) := by
  have hw : ws.Nodup := hp.nodup_iff.1 hv
  have hb : Function.Bijective fun i : Fin ws.length =>
      (⟨vs.idxOf ws[i], List.idxOf_lt_length_of_mem (hp.mem_iff.2 (List.getElem_mem _))⟩ : Fin vs.length) := by
    constructor
    · intro i j h
      have h1 := congrArg Fin.val h
      have h2 : ws[i] = ws[j] := (List.idxOf_inj (hp.mem_iff.2 (List.getElem_mem _))).1 h1
      exact Fin.ext ((List.Nodup.getElem_inj_iff hw).1 h2)
    · intro j
      have hm : vs[j] ∈ ws := hp.mem_iff.1 (List.getElem_mem _)
      refine ⟨⟨ws.idxOf vs[j], List.idxOf_lt_length_of_mem hm⟩, Fin.ext ?_⟩
      simp only [Fin.getElem_fin, List.getElem_idxOf]
      exact hv.idxOf_getElem _ _
  let e : Fin ws.length ≃ Fin vs.length := Equiv.ofBijective _ hb
  have key : ∀ y : Fin vs.length → ℝ, setVars vs y x = setVars ws (y ∘ e) x := by
    intro y
    funext v
    unfold setVars
    by_cases h : v ∈ vs
    · have h' := hp.mem_iff.1 h
      rw [dif_pos h, dif_pos h']
      change _ = y (e _)
      congr 1
      refine Fin.ext ?_
      change vs.idxOf v = vs.idxOf _
      simp [List.getElem_idxOf]
    · rw [dif_neg h, dif_neg fun h' => h (hp.mem_iff.2 h')]
  have hm := volume_measurePreserving_piCongrLeft (fun _ : Fin ws.length => ℝ) e.symm
  have hc : ∀ y : Fin vs.length → ℝ, MeasurableEquiv.piCongrLeft (fun _ : Fin ws.length => ℝ) e.symm y = y ∘ e := by
    intro y
    funext i
    have := Equiv.piCongrLeft_apply (fun _ : Fin ws.length => ℝ) e.symm y i
    simpa [MeasurableEquiv.coe_piCongrLeft] using this
  unfold integrateOut IntegrableOut
  constructor
  · have := hm.integral_comp (MeasurableEquiv.measurableEmbedding _) fun y => F (setVars ws y x)
    rw [← this]
    congr 1
    funext y
    rw [hc, key]
  · have := hm.integrable_comp_emb (MeasurableEquiv.measurableEmbedding _) (g := fun y => F (setVars ws y x))
    rw [← this]
    have h2 : (fun y => F (setVars vs y x)) = (fun y => F (setVars ws y x)) ∘
        ⇑(MeasurableEquiv.piCongrLeft (fun _ : Fin ws.length => ℝ) e.symm) := by
      funext y
      rw [Function.comp, hc, key]
    rw [h2]

/-- Integrating out every variable. -/
theorem integrateOut_all {vars : List Var} (hnd : vars.Nodup) (hn : vars.length = n) (f : (Fin n → ℝ) → ℝ)
    (x : Var → ℝ) : integrateOut vars (fun z => f (vecAt vars hn z)) x = ∫ y, f y ∧
      (IntegrableOut vars (fun z => f (vecAt vars hn z)) x ↔ Integrable f) := by
  subst hn
  unfold integrateOut IntegrableOut
  simp only [setVars_mem hnd, and_self]

end Verif.Gauss
