import Verif.GaussProps3

/-!
# Gaussians that differ in cached forms and in the order of their variables

Helper lemmas: two objects that denote the same function over the same set of variables have the same parameters
up to the order of the variables; `equals` does not depend on such differences.
-/

namespace Verif.Gauss
open Matrix Spec MeasureTheory
variable {n m : ℕ}

theorem den_perm {a a' : Gauss n} {L : (Var → ℝ) → ℝ} (ga : Good a) (ga' : Good a') (hp : a'.vars.Perm a.vars)
    (da : Denotes a L) (da' : Denotes a' L) :
    ∃ e : Fin n ≃ Fin n, (∀ i : Fin n, a'.vars[i.1]? = a.vars[(e.symm i).1]?) ∧ canOf a' = permCan e (canOf a) := by
  obtain ⟨e, he, hr⟩ := reorder_ok ga.len ga.nodup hp
  obtain ⟨k, hv⟩ := kept_reorder ga hp hr
  refine ⟨e, fun i => (perm_index ga.len ga.nodup hp he i _).2 rfl, ?_⟩
  rw [← canOf_perm e ga.toValid (new := a'.vars)]
  exact canOf_unique k.good ga' rfl (k.den _ da) da'

theorem toCov_permCan (e : Fin n ≃ Fin n) (c : Can n) : toCov (permCan e c) = permCov e (toCov c) := by
  have hm : c.prec⁻¹.submatrix e.symm e.symm *ᵥ c.h ∘ e.symm = (c.prec⁻¹ *ᵥ c.h) ∘ e.symm := by
    rw [submatrix_mulVec_equiv]
    congr 2
    funext i
    simp
  have hq : c.prec.submatrix e.symm e.symm *ᵥ (c.prec⁻¹ *ᵥ c.h) ∘ e.symm = (c.prec *ᵥ c.prec⁻¹ *ᵥ c.h) ∘ e.symm := by
    rw [submatrix_mulVec_equiv]
    congr 2
    funext i
    simp
  simp only [toCov, permCov, permCan, inv_submatrix_equiv, hm, hq, comp_equiv_dotProduct_comp_equiv, det2pi_eq,
    det_submatrix_equiv_self]

/-- The parameters of an object as functions of names, up to the state of the object. -/
theorem dim_eq {a : Gauss n} {a' : Gauss m} (ga : Good a) (ga' : Good a') (h : ∀ v, v ∈ a'.vars ↔ v ∈ a.vars) : m = n := by
  rw [← ga.len, ← ga'.len]
  exact ((List.perm_ext_iff_of_nodup ga'.nodup ga.nodup).2 h).length_eq

theorem nearV_congr {rtol atol : ℝ} {va va' vb vb' : List Var} {x x' : Fin n → ℝ} {y y' : Fin m → ℝ}
    (e : Fin n ≃ Fin n) (f : Fin m ≃ Fin m) (he : ∀ i : Fin n, va'[i.1]? = va[(e.symm i).1]?)
    (hf : ∀ i : Fin m, vb'[i.1]? = vb[(f.symm i).1]?) (hx : x' = x ∘ e.symm) (hy : y' = y ∘ f.symm)
    (h : NearV rtol atol va vb x y) : NearV rtol atol va' vb' x' y' := by
  intro i j hij
  rw [he, hf] at hij
  rw [hx, hy]
  exact h _ _ hij

theorem nearM_congr {rtol atol : ℝ} {va va' vb vb' : List Var} {x x' : Matrix (Fin n) (Fin n) ℝ}
    {y y' : Matrix (Fin m) (Fin m) ℝ} (e : Fin n ≃ Fin n) (f : Fin m ≃ Fin m)
    (he : ∀ i : Fin n, va'[i.1]? = va[(e.symm i).1]?) (hf : ∀ i : Fin m, vb'[i.1]? = vb[(f.symm i).1]?)
    (hx : x' = x.submatrix e.symm e.symm) (hy : y' = y.submatrix f.symm f.symm)
    (h : NearM rtol atol va vb x y) : NearM rtol atol va' vb' x' y' := by
  intro i k j l hij hkl
  rw [he, hf] at hij hkl
  rw [hx, hy]
  exact h _ _ _ _ hij hkl

/-- The covariance parameters can be read. -/
def Readable (a : Gauss n) : Prop := ∃ x, a.getCov = .ok x

theorem readable_iff {a : Gauss n} (ga : Good a) : Readable a ↔ a.vac = false ∧ 0 < (canOf a).prec.det := by
  constructor
  · rintro ⟨⟨a', v⟩, h⟩
    obtain ⟨h1, h2, -⟩ := getCov_eq_ok ga.toValid h
    exact ⟨h1, h2⟩
  · rintro ⟨h1, h2⟩
    exact ⟨_, getCov_valid ga.toValid h1 h2⟩

theorem readable_congr {a a' : Gauss n} {L : (Var → ℝ) → ℝ} (ga : Good a) (ga' : Good a') (hp : a'.vars.Perm a.vars)
    (da : Denotes a L) (da' : Denotes a' L) (hv : a'.vac = a.vac) : Readable a' ↔ Readable a := by
  obtain ⟨e, -, he⟩ := den_perm ga ga' hp da da'
  rw [readable_iff ga, readable_iff ga', hv, he]
  simp only [permCan, det_submatrix_equiv_self]

theorem nearCan_congr {rtol atol : ℝ} {a a' : Gauss n} {b b' : Gauss m} {L K : (Var → ℝ) → ℝ} (ga : Good a) (ga' : Good a')
    (gb : Good b) (gb' : Good b') (hp : a'.vars.Perm a.vars) (hq : b'.vars.Perm b.vars) (da : Denotes a L)
    (da' : Denotes a' L) (db : Denotes b K) (db' : Denotes b' K) (h : NearCan rtol atol a b) :
    NearCan rtol atol a' b' := by
  obtain ⟨x, y, p, q, h1, h2, h3, h4, h5⟩ := h
  obtain ⟨-, -, rfl⟩ := getCan_inv ga.inv h1
  obtain ⟨-, -, rfl⟩ := getCan_inv gb.inv h2
  obtain ⟨e, he, ce⟩ := den_perm ga ga' hp da da'
  obtain ⟨f, hf, cf⟩ := den_perm gb gb' hq db db'
  refine ⟨_, _, _, _, getCan_valid ga'.toValid, getCan_valid gb'.toValid, ?_, nearV_congr e f he hf ?_ ?_ h4,
    nearM_congr e f he hf ?_ ?_ h5⟩
  · rw [ce, cf]
    exact h3
  all_goals first | rw [ce] | rw [cf]
  all_goals rfl

theorem nearCov_congr {rtol atol : ℝ} {a a' : Gauss n} {b b' : Gauss m} {L K : (Var → ℝ) → ℝ} (ga : Good a) (ga' : Good a')
    (gb : Good b) (gb' : Good b') (hp : a'.vars.Perm a.vars) (hq : b'.vars.Perm b.vars) (da : Denotes a L)
    (da' : Denotes a' L) (db : Denotes b K) (db' : Denotes b' K) (va : a'.vac = a.vac) (vb : b'.vac = b.vac)
    (h : NearCov rtol atol a b) : NearCov rtol atol a' b' := by
  intro x y v w h1 h2
  obtain ⟨r1, r2⟩ := (readable_iff ga).1 ((readable_congr ga ga' hp da da' va).1 ⟨_, h1⟩)
  obtain ⟨s1, s2⟩ := (readable_iff gb).1 ((readable_congr gb gb' hq db db' vb).1 ⟨_, h2⟩)
  obtain ⟨-, -, rfl, -⟩ := getCov_eq_ok ga'.toValid h1
  obtain ⟨-, -, rfl, -⟩ := getCov_eq_ok gb'.toValid h2
  obtain ⟨h3, h4, h5⟩ := h _ _ _ _ (getCov_valid ga.toValid r1 r2) (getCov_valid gb.toValid s1 s2)
  obtain ⟨e, he, ce⟩ := den_perm ga ga' hp da da'
  obtain ⟨f, hf, cf⟩ := den_perm gb gb' hq db db'
  refine ⟨?_, nearV_congr e f he hf ?_ ?_ h4, nearM_congr e f he hf ?_ ?_ h5⟩
  · rw [ce, cf, toCov_permCan, toCov_permCan]
    exact h3
  all_goals first | rw [ce] | rw [cf]
  all_goals rw [toCov_permCan]; rfl

/-! ### When `equals` answers -/

theorem equalsCopy_total {vars : List Var} {b : Gauss n} (gb : Good b) (hp : vars.Perm b.vars) :
    ∃ k, equalsCopy vars b = .ok k := by
  obtain ⟨k, hk⟩ := copy_total gb
  obtain ⟨k1, hv, -⟩ := copy_good gb hk
  unfold equalsCopy
  rw [hk]
  dsimp only [bind, Except.bind]
  split
  · obtain ⟨e, -, hr⟩ := reorder_ok k1.len k1.nodup (new := vars) (by rw [hv]; exact hp)
    exact ⟨_, hr⟩
  · exact ⟨_, rfl⟩

theorem canEquals_total {rtol atol : ℝ} {vars : List Var} {c : Can n} {b : Gauss n} (gb : Good b) (hp : vars.Perm b.vars) :
    ∃ z, canEquals rtol atol vars c b = .ok z := by
  have k1 := kept_can gb
  obtain ⟨e, -, hr⟩ := reorder_ok k1.good.len k1.good.nodup hp
  obtain ⟨k2, -⟩ := kept_reorder k1.good hp hr
  unfold canEquals
  rw [getCan_valid gb.toValid]
  dsimp only [bind, Except.bind]
  split
  · exact ⟨_, rfl⟩
  · rw [hr]
    dsimp only
    rw [getCan_valid k2.good.toValid]
    exact ⟨_, rfl⟩

theorem covEquals_total {rtol atol : ℝ} {vars : List Var} {v : CovF n} {b : Gauss n} (gb : Good b) (hp : vars.Perm b.vars)
    (hb : Readable b) : ∃ z, covEquals rtol atol vars v b = .ok z := by
  obtain ⟨v1, d1⟩ := (readable_iff gb).1 hb
  have k1 := kept_cov gb d1
  obtain ⟨e, -, hr⟩ := reorder_ok k1.good.len k1.good.nodup hp
  obtain ⟨k2, e2⟩ := kept_reorder k1.good hp hr
  have r2 := (readable_congr gb k2.good (e2 ▸ hp) gb.denotes ((k1.trans k2).den _ gb.denotes)
    (k2.vac.trans k1.vac)).2 hb
  obtain ⟨⟨b2, w⟩, hw⟩ := r2
  unfold covEquals getWeight
  rw [getCov_valid gb.toValid v1 d1]
  dsimp only [bind, Except.bind]
  split
  · exact ⟨_, rfl⟩
  · rw [hr]
    dsimp only
    rw [hw]
    exact ⟨_, rfl⟩

/-- `equals` answers when the scopes are different, when the first factor has its canonical form at hand, and when
the covariance parameters of both factors can be read. -/
theorem equals_answers {rtol atol : ℝ} {a : Gauss n} {b : Gauss m} (ga : Good a) (gb : Good b)
    (h : (∀ v, v ∈ a.vars ↔ v ∈ b.vars) → a.can.isSome ∨ Readable a ∧ Readable b) :
    ∃ a' b' r, equals rtol atol a b = .ok (a', b', r) := by
  unfold equals
  split
  · exact ⟨_, _, _, rfl⟩
  · rename_i hset
    rw [not_not] at hset
    have hiff := sameSet_iff.1 hset
    have hp := perm_of_sameSet ga.nodup gb.nodup hset
    have hmn : m = n := dim_eq ga gb fun v => (hiff v).symm
    subst hmn
    obtain ⟨k, hk⟩ := equalsCopy_total gb hp
    rw [hk]
    dsimp only [bind, Except.bind]
    split
    · exact ⟨_, _, _, rfl⟩
    · rw [dif_pos rfl]
      have : ∃ z, equalsForms rtol atol a b = .ok z := by
        unfold equalsForms
        cases hc : a.can with
        | some c =>
          dsimp only
          obtain ⟨z, hz⟩ := canEquals_total (rtol := rtol) (atol := atol) (c := c) gb hp
          rw [hz]
          exact ⟨_, rfl⟩
        | none =>
          dsimp only
          obtain ⟨ra, rb⟩ := (h hiff).resolve_left (by simp [hc])
          obtain ⟨⟨a1, v⟩, ha⟩ := ra
          obtain ⟨-, e1⟩ := kept_getCov ga ha
          rw [ha]
          dsimp only [bind, Except.bind]
          obtain ⟨z, hz⟩ := covEquals_total (rtol := rtol) (atol := atol) (v := v) gb (e1 ▸ hp) rb
          rw [hz]
          exact ⟨_, rfl⟩
      obtain ⟨⟨x, y, z⟩, hz⟩ := this
      rw [hz]
      exact ⟨_, _, _, rfl⟩

end Verif.Gauss
