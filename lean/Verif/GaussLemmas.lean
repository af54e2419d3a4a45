import Verif.GaussModel
import Verif.PyLemmas
import Mathlib.LinearAlgebra.Matrix.Symmetric
import Mathlib.Algebra.BigOperators.Fin

/-! Helper lemmas about the Gaussian model: well-formed objects and what they denote. -/

namespace Verif
open Matrix

variable {n m : ℕ}

theorem npInv_ok {A : Matrix (Fin n) (Fin n) ℝ} (h : A.det ≠ 0) : npInv A = .ok A⁻¹ := by
  simp [npInv, h]

theorem npInv_eq_ok {A B : Matrix (Fin n) (Fin n) ℝ} (h : npInv A = .ok B) : A.det ≠ 0 ∧ B = A⁻¹ := by
  unfold npInv at h
  split at h
  · cases h
  · cases h; exact ⟨by assumption, rfl⟩

theorem npLog_ok {x : ℝ} (h : 0 < x) : npLog x = .ok (Real.log x) := by
  simp [npLog, not_le.2 h]

theorem npLog_eq_ok {x y : ℝ} (h : npLog x = .ok y) : 0 < x ∧ y = Real.log x := by
  unfold npLog at h
  split at h
  · cases h
  · cases h; exact ⟨by linarith, rfl⟩

theorem utilsLog_ok {x : ℝ} (h : 0 < x) : utilsLog x = .ok (Real.log x) := by
  simp [utilsLog, not_lt.2 h.le, npLog_ok h]

theorem utilsLog_eq_ok {x y : ℝ} (h : utilsLog x = .ok y) : 0 < x ∧ y = Real.log x := by
  unfold utilsLog at h
  split at h
  · cases h
  · exact npLog_eq_ok h

theorem det2pi_eq (A : Matrix (Fin n) (Fin n) ℝ) : det2pi A = (2 * Real.pi) ^ n * A.det := by
  rw [det2pi, det_smul, Fintype.card_fin]

theorem det2pi_pos {A : Matrix (Fin n) (Fin n) ℝ} : 0 < det2pi A ↔ 0 < A.det := by
  rw [det2pi_eq]
  exact mul_pos_iff_of_pos_left (by positivity)

namespace Gauss

/-- The canonical parameters of a covariance form. -/
noncomputable def toCan (v : CovF n) : Can n :=
  ⟨v.cov⁻¹, v.cov⁻¹ *ᵥ v.mean, v.lw - 1 / 2 * (v.mean ⬝ᵥ v.cov⁻¹ *ᵥ v.mean) - 1 / 2 * Real.log (det2pi v.cov)⟩

/-- The covariance parameters of a canonical form. -/
noncomputable def toCov (c : Can n) : CovF n :=
  ⟨c.prec⁻¹, c.prec⁻¹ *ᵥ c.h, c.g + 1 / 2 * ((c.prec⁻¹ *ᵥ c.h) ⬝ᵥ c.prec *ᵥ (c.prec⁻¹ *ᵥ c.h)) +
    1 / 2 * Real.log (det2pi c.prec⁻¹)⟩

theorem canParams_ok {v : CovF n} (h : 0 < v.cov.det) : canParams v = .ok (toCan v) := by
  unfold canParams
  rw [npInv_ok h.ne', utilsLog_ok (det2pi_pos.2 h)]
  rfl

theorem canParams_eq_ok {v : CovF n} {c : Can n} (h : canParams v = .ok c) :
    0 < v.cov.det ∧ c = toCan v := by
  unfold canParams at h
  obtain ⟨p, hp, h⟩ := py_bind_eq_ok.1 h
  obtain ⟨l, hl, h⟩ := py_bind_eq_ok.1 h
  obtain ⟨hd, rfl⟩ := npInv_eq_ok hp
  obtain ⟨hp, rfl⟩ := utilsLog_eq_ok hl
  cases h
  exact ⟨det2pi_pos.1 hp, rfl⟩

theorem det_inv_pos {A : Matrix (Fin n) (Fin n) ℝ} : 0 < A⁻¹.det ↔ 0 < A.det := by
  rw [det_nonsing_inv, Ring.inverse_eq_inv', inv_pos]

theorem covParams_ok {c : Can n} (h : 0 < c.prec.det) : covParams c = .ok (toCov c) := by
  unfold covParams
  rw [npInv_ok h.ne']
  dsimp only [bind, Except.bind]
  rw [npLog_ok (det2pi_pos.2 (det_inv_pos.2 h))]
  rfl

theorem covParams_eq_ok {c : Can n} {v : CovF n} (h : covParams c = .ok v) :
    0 < c.prec.det ∧ v = toCov c := by
  unfold covParams at h
  obtain ⟨p, hp, h⟩ := py_bind_eq_ok.1 h
  obtain ⟨l, hl, h⟩ := py_bind_eq_ok.1 h
  obtain ⟨hd, rfl⟩ := npInv_eq_ok hp
  obtain ⟨hp, rfl⟩ := npLog_eq_ok hl
  cases h
  exact ⟨det_inv_pos.1 (det2pi_pos.1 hp), rfl⟩

/-- Bilinear form of a symmetric matrix. -/
theorem dot_symm {ι : Type} [Fintype ι] {A : Matrix ι ι ℝ} (h : A.IsSymm) (x y : ι → ℝ) :
    x ⬝ᵥ A *ᵥ y = y ⬝ᵥ A *ᵥ x := by
  rw [dotProduct_mulVec, ← mulVec_transpose, h.eq, dotProduct_comm]

theorem symm_inv {A : Matrix (Fin n) (Fin n) ℝ} (h : A.IsSymm) : A⁻¹.IsSymm := by
  rw [IsSymm, transpose_nonsing_inv, h.eq]

theorem toCov_toCan {v : CovF n} (h : v.cov.det ≠ 0) : toCov (toCan v) = v := by
  have hu : IsUnit v.cov.det := h.isUnit
  obtain ⟨S, mu, lw⟩ := v
  have e : S *ᵥ (S⁻¹ *ᵥ mu) = mu := by rw [mulVec_mulVec, mul_nonsing_inv _ hu, one_mulVec]
  simp only [toCov, toCan, nonsing_inv_nonsing_inv _ hu, e]
  congr 1
  ring

theorem toCan_toCov {c : Can n} (h : 0 < c.prec.det) : toCan (toCov c) = c := by
  have hu : IsUnit c.prec.det := h.ne'.isUnit
  obtain ⟨K, hv, g⟩ := c
  have e : K *ᵥ (K⁻¹ *ᵥ hv) = hv := by rw [mulVec_mulVec, mul_nonsing_inv _ hu, one_mulVec]
  simp only [toCov, toCan, nonsing_inv_nonsing_inv _ hu, e]
  congr 1
  ring

/-- Both forms have the same log potential. -/
theorem evalCov_eq {v : CovF n} (hs : v.cov.IsSymm) (hd : 0 < v.cov.det) (x : Fin n → ℝ) :
    evalCov v x = .ok (evalCan (toCan v) x) := by
  unfold evalCov
  rw [npLog_ok (det2pi_pos.2 hd), npInv_ok hd.ne']
  dsimp only [bind, Except.bind, evalCan, toCan]
  congr 1
  have h1 := dot_symm (symm_inv hs) v.mean x
  simp only [sub_dotProduct, mulVec_sub, dotProduct_sub]
  linarith

/-! ### Well-formed objects -/

/-- Objects as the class keeps them: distinct names, as many as the dimension; at least one form; a
cached covariance form is symmetric with positive determinant and agrees with a cached canonical form. -/
structure Valid (a : Gauss n) : Prop where
  nodup : a.vars.Nodup
  len : a.vars.length = n
  form : a.can.isSome ∨ a.cov.isSome
  cov : ∀ v, a.cov = some v → v.cov.IsSymm ∧ 0 < v.cov.det
  agree : ∀ v c, a.cov = some v → a.can = some c → c = toCan v

/-- The canonical parameters an object stands for. -/
noncomputable def canOf (a : Gauss n) : Can n :=
  match a.can, a.cov with
  | some c, _ => c
  | none, some v => toCan v
  | none, none => ⟨0, 0, 0⟩

theorem canOf_can {a : Gauss n} {c : Can n} (h : a.can = some c) : canOf a = c := by
  simp [canOf, h]

theorem canOf_cov {a : Gauss n} (ha : Valid a) {v : CovF n} (h : a.cov = some v) : canOf a = toCan v := by
  unfold canOf
  split
  · rename_i c hc
    exact ha.agree v c h hc
  · rename_i v' hc hv
    rw [h] at hv; cases hv; rfl
  · rename_i hv
    rw [h] at hv; cases hv

/-- Reading the canonical parameters. -/
theorem getCan_valid {a : Gauss n} (ha : Valid a) :
    getCan a = .ok (⟨a.vars, some (canOf a), a.cov, a.vac⟩, canOf a) := by
  obtain ⟨vars, can, cov, vac⟩ := a
  unfold getCan updateCan
  dsimp only
  cases can with
  | some c => rfl
  | none =>
    cases cov with
    | none => simpa using ha.form
    | some v =>
      have := (ha.cov v rfl).2
      dsimp only
      rw [canParams_ok this]
      rfl

theorem updateCan_valid {a : Gauss n} (ha : Valid a) :
    updateCan a = .ok ⟨a.vars, some (canOf a), a.cov, a.vac⟩ := by
  have h := getCan_valid ha
  unfold getCan at h
  obtain ⟨b, hb, h⟩ := py_bind_eq_ok.1 h
  rw [hb]
  split at h
  · cases h; rfl
  · cases h

theorem valid_can {a : Gauss n} (ha : Valid a) : Valid (⟨a.vars, some (canOf a), a.cov, a.vac⟩ : Gauss n) where
  nodup := ha.nodup
  len := ha.len
  form := .inl rfl
  cov := ha.cov
  agree := by
    intro v c hv hc
    cases hc
    exact canOf_cov ha hv

theorem canOf_mk (vars : List Var) (c : Can n) (cov : Option (CovF n)) (vac : Bool) :
    canOf (⟨vars, some c, cov, vac⟩ : Gauss n) = c := rfl

/-- Reading the covariance parameters. -/
theorem getCov_valid {a : Gauss n} (ha : Valid a) (hv : a.vac = false)
    (hd : 0 < (canOf a).prec.det) :
    getCov a = .ok (⟨a.vars, a.can, some (toCov (canOf a)), a.vac⟩, toCov (canOf a)) := by
  obtain ⟨vars, can, cov, vac⟩ := a
  dsimp only at hv
  subst hv
  unfold getCov updateCov
  dsimp only
  cases cov with
  | some v =>
    have e := canOf_cov ha (v := v) rfl
    rw [e, toCov_toCan (ha.cov v rfl).2.ne']
    rfl
  | none =>
    cases can with
    | none => simpa using ha.form
    | some c =>
      rw [canOf_mk] at hd ⊢
      simp only [Bool.false_eq_true, if_false]
      rw [covParams_ok hd]
      rfl

theorem getCov_eq_ok {a a' : Gauss n} {v : CovF n} (ha : Valid a) (h : getCov a = .ok (a', v)) :
    a.vac = false ∧ 0 < (canOf a).prec.det ∧ v = toCov (canOf a) ∧
      a' = ⟨a.vars, a.can, some (toCov (canOf a)), a.vac⟩ := by
  have key : a.vac = false ∧ 0 < (canOf a).prec.det := by
    unfold getCov updateCov at h
    obtain ⟨b, hb, h⟩ := py_bind_eq_ok.1 h
    split at hb
    · cases hb
    · rename_i hv
      refine ⟨by simpa using hv, ?_⟩
      split at hb
      · rename_i v' hv'
        rw [canOf_cov ha hv']
        exact det_inv_pos.2 (ha.cov v' hv').2
      · split at hb
        · cases hb
        · rename_i c hc
          obtain ⟨w, hw, hb⟩ := py_bind_eq_ok.1 hb
          rw [canOf_can hc]
          exact (covParams_eq_ok hw).1
  rw [getCov_valid ha key.1 key.2] at h
  cases h
  exact ⟨key.1, key.2, rfl, rfl⟩

theorem valid_cov {a : Gauss n} (ha : Valid a) (hs : (canOf a).prec.IsSymm)
    (hd : 0 < (canOf a).prec.det) :
    Valid (⟨a.vars, a.can, some (toCov (canOf a)), a.vac⟩ : Gauss n) where
  nodup := ha.nodup
  len := ha.len
  form := .inr rfl
  cov := by
    intro v hv
    cases hv
    exact ⟨symm_inv hs, det_inv_pos.2 hd⟩
  agree := by
    intro v c hv hc
    cases hv
    dsimp only at hc
    rw [toCan_toCov hd, canOf_can hc]

theorem canOf_cov_mk {a : Gauss n} (ha : Valid a) (hd : 0 < (canOf a).prec.det) :
    canOf (⟨a.vars, a.can, some (toCov (canOf a)), a.vac⟩ : Gauss n) = canOf a := by
  obtain ⟨vars, can, cov, vac⟩ := a
  cases can with
  | some c => rfl
  | none => exact toCan_toCov hd

/-! ### Points -/

/-- The values of the factor's variables, in its order. -/
def vecAt (vars : List Var) (hn : vars.length = n) (x : Var → ℝ) : Fin n → ℝ :=
  fun i => x (vars[i.1]'(hn.symm ▸ i.2))

theorem toVec_map {vars : List Var} (hn : vars.length = n) (x : Var → ℝ) :
    toVec n (vars.map x) = .ok (vecAt vars hn x) := by
  unfold toVec
  rw [dif_pos (by simpa using hn)]
  congr 1
  funext i
  simp [vecAt]

/-- A well-formed object evaluates to its canonical quadratic form. -/
theorem logPotential_valid {a : Gauss n} (ha : Valid a) (x : Var → ℝ) :
    a.logPotential (a.vars.map x) = .ok (evalCan (canOf a) (vecAt a.vars ha.len x)) := by
  unfold logPotential
  simp only [alignValues, bind, Except.bind, toVec_map ha.len]
  split
  · rename_i v c hv hc
    rw [evalCov_eq (ha.cov v hv).1 (ha.cov v hv).2, canOf_can hc]
  · rename_i v hv hc
    rw [evalCov_eq (ha.cov v hv).1 (ha.cov v hv).2, canOf_cov ha hv]
  · rename_i c hv hc
    rw [canOf_can hc]
  · rename_i hv hc
    have := ha.form
    simp [hv, hc] at this

theorem potential_valid {a : Gauss n} (ha : Valid a) (x : Var → ℝ) :
    a.potential (a.vars.map x) = .ok (Real.exp (evalCan (canOf a) (vecAt a.vars ha.len x))) := by
  unfold potential
  rw [logPotential_valid ha]
  rfl

theorem sameSet_iff {a b : List Var} : sameSet a b = true ↔ ∀ v, v ∈ a ↔ v ∈ b := by
  unfold sameSet
  simp only [List.mem_append, decide_eq_true_eq]
  constructor
  · intro h v
    exact ⟨fun ha => (h v (.inl ha)).2, fun hb => (h v (.inr hb)).1⟩
  · intro h v hv
    rw [h] at *
    simpa using hv

/-- Values given by name, in any order of the names. -/
theorem alignValues_named {vars vrs : List Var} (h : sameSet vrs vars) (hl : vrs.length = vars.length)
    (x : Var → ℝ) : alignValues vars (vrs.map x) (some vrs) = .ok (vars.map x) := by
  simp only [alignValues, h, pyAssert, List.length_map, hl, beq_self_eq_true, if_true, bind, Except.bind]
  refine mapM_ok fun v hv => ?_
  have hv' := (sameSet_iff.1 h v).2 hv
  rw [pyIndex_ok hv']
  exact pyGet_ok (getElem?_map_idxOf x hv')

theorem mkCan_ok {vars : List Var} {c : Can n} (hnd : vars.Nodup) (hl : vars.length = n) :
    mkCan vars c = .ok ⟨vars, some c, none, vacParams c.prec⟩ := by
  simp [mkCan, hnd, hl]

theorem mkCan_eq_ok {vars : List Var} {c : Can n} {r : Gauss n} (h : mkCan vars c = .ok r) :
    vars.Nodup ∧ vars.length = n ∧ r = ⟨vars, some c, none, vacParams c.prec⟩ := by
  unfold mkCan at h
  split at h
  · cases h
  · split at h
    · cases h
    · rename_i h1 h2
      cases h
      exact ⟨by simpa using h1, (not_not.1 h2).symm, rfl⟩

theorem mkCov_ok {vars : List Var} {v : CovF n} (hnd : vars.Nodup) (hl : vars.length = n) :
    mkCov vars v = .ok ⟨vars, none, some v, false⟩ := by
  simp [mkCov, hnd, hl]

theorem mkCov_eq_ok {vars : List Var} {v : CovF n} {r : Gauss n} (h : mkCov vars v = .ok r) :
    vars.Nodup ∧ vars.length = n ∧ r = ⟨vars, none, some v, false⟩ := by
  unfold mkCov at h
  split at h
  · cases h
  · split at h
    · cases h
    · rename_i h1 h2
      cases h
      exact ⟨by simpa using h1, (not_not.1 h2).symm, rfl⟩

theorem valid_mkCan {vars : List Var} {c : Can n} (hnd : vars.Nodup) (hl : vars.length = n) (vac : Bool) :
    Valid (⟨vars, some c, none, vac⟩ : Gauss n) :=
  ⟨hnd, hl, .inl rfl, fun _ h => (by cases h), fun _ _ h => (by cases h)⟩

theorem valid_mkCov {vars : List Var} {v : CovF n} (hnd : vars.Nodup) (hl : vars.length = n) (vac : Bool)
    (hs : v.cov.IsSymm) (hd : 0 < v.cov.det) : Valid (⟨vars, none, some v, vac⟩ : Gauss n) :=
  ⟨hnd, hl, .inr rfl, fun _ h => (by cases h; exact ⟨hs, hd⟩), fun _ _ _ h => (by cases h)⟩

/-! ### Quadratic forms by name -/

theorem sum_names {vars : List Var} (hnd : vars.Nodup) (hn : vars.length = n) {S : Finset Var}
    (hS : ∀ v ∈ vars, v ∈ S) {f : Fin n → ℝ} {F : Var → ℝ}
    (h : ∀ i : Fin n, f i = F (vars[i.1]'(hn.symm ▸ i.2))) (h0 : ∀ v, v ∉ vars → F v = 0) :
    ∑ i, f i = ∑ v ∈ S, F v := by
  subst hn
  rw [← Finset.sum_subset (s₁ := vars.toFinset) (by intro v; simpa using hS v)
    (by intro v _ hv; exact h0 v (by simpa using hv))]
  rw [List.sum_toFinset F hnd, ← List.sum_ofFn]
  congr 1
  refine List.ext_getElem (by simp) ?_
  intro i h1 h2
  simp [h]

theorem entryV_get {vars : List Var} (hnd : vars.Nodup) (hn : vars.length = n) (x : Fin n → ℝ) (i : Fin n) :
    entryV x vars hn (vars[i.1]'(hn.symm ▸ i.2)) = x i := by
  unfold entryV
  rw [dif_pos (List.getElem_mem _)]
  congr 1
  exact Fin.ext (hnd.idxOf_getElem _ _)

theorem entryM_get {vars : List Var} (hnd : vars.Nodup) (hn : vars.length = n)
    (A : Matrix (Fin n) (Fin n) ℝ) (i j : Fin n) :
    entryM A vars hn (vars[i.1]'(hn.symm ▸ i.2)) (vars[j.1]'(hn.symm ▸ j.2)) = A i j := by
  unfold entryM
  rw [dif_pos ⟨List.getElem_mem _, List.getElem_mem _⟩]
  congr 1 <;> exact Fin.ext (hnd.idxOf_getElem _ _)

theorem entryV_not_mem {vars : List Var} (hn : vars.length = n) (x : Fin n → ℝ) {v : Var} (h : v ∉ vars) :
    entryV x vars hn v = 0 := dif_neg h

theorem entryM_not_mem_left {vars : List Var} (hn : vars.length = n) (A : Matrix (Fin n) (Fin n) ℝ) {v w : Var}
    (h : v ∉ vars) : entryM A vars hn v w = 0 := dif_neg fun e => h e.1

theorem entryM_not_mem_right {vars : List Var} (hn : vars.length = n) (A : Matrix (Fin n) (Fin n) ℝ) {v w : Var}
    (h : w ∉ vars) : entryM A vars hn v w = 0 := dif_neg fun e => h e.2

/-- The log potential as a sum over names; variables outside the scope contribute nothing. -/
theorem evalCan_names {vars : List Var} (hnd : vars.Nodup) (hn : vars.length = n) (c : Can n)
    {S : Finset Var} (hS : ∀ v ∈ vars, v ∈ S) (x : Var → ℝ) :
    evalCan c (vecAt vars hn x) =
      (-1 / 2) * (∑ v ∈ S, ∑ w ∈ S, x v * (entryM c.prec vars hn v w * x w)) +
        ∑ v ∈ S, x v * entryV c.h vars hn v + c.g := by
  have h1 : vecAt vars hn x ⬝ᵥ c.prec *ᵥ vecAt vars hn x =
      ∑ v ∈ S, ∑ w ∈ S, x v * (entryM c.prec vars hn v w * x w) := by
    simp only [dotProduct, mulVec]
    refine sum_names hnd hn hS ?_ ?_
    · intro i
      rw [← Finset.mul_sum]
      congr 1
      refine sum_names hnd hn hS ?_ ?_
      · intro j
        rw [entryM_get hnd hn]
        rfl
      · intro w hw
        rw [entryM_not_mem_right hn _ hw, zero_mul]
    · intro v hv
      refine Finset.sum_eq_zero fun w _ => ?_
      rw [entryM_not_mem_left hn _ hv, zero_mul, mul_zero]
  have h2 : vecAt vars hn x ⬝ᵥ c.h = ∑ v ∈ S, x v * entryV c.h vars hn v := by
    simp only [dotProduct]
    refine sum_names hnd hn hS ?_ ?_
    · intro i
      rw [entryV_get hnd hn]
      rfl
    · intro v hv
      rw [entryV_not_mem hn _ hv, mul_zero]
  unfold evalCan
  rw [h1, h2]

end Gauss
end Verif
