import Verif.GaussLemmas
import Verif.GaussInt
import Verif.SpecLemmas
import Mathlib.LinearAlgebra.Matrix.SchurComplement

/-! Helper lemmas: the operations of the Gaussian model on the quadratic forms they work with. -/

namespace Verif.Gauss
open Matrix

variable {n m : ℕ}

/-! ### Multiply and divide -/

theorem mem_opVars {va vb : List Var} {v : Var} : v ∈ opVars va vb ↔ v ∈ va ∨ v ∈ vb := by
  unfold opVars
  split
  · rename_i h
    exact ⟨.inl, fun h' => h'.elim id (h v)⟩
  · split
    · rename_i h
      exact ⟨.inr, fun h' => h'.elim (h v) id⟩
    · simp [or_comm]

theorem nodup_opVars {va vb : List Var} (ha : va.Nodup) (hb : vb.Nodup) : (opVars va vb).Nodup := by
  unfold opVars
  split
  · exact ha
  · split
    · exact hb
    · exact nodup_pySorted.2 (List.nodup_dedup _)

theorem indexedMat_ok {A : Matrix (Fin n) (Fin n) ℝ} {B : Matrix (Fin m) (Fin m) ℝ} {va vb : List Var}
    (ha : va.length = n) (hb : vb.length = m) (op : ℝ → ℝ → ℝ) :
    indexedMat A B va vb op = .ok fun i j =>
      op (entryM A va ha (opVars va vb)[i] (opVars va vb)[j])
        (entryM B vb hb (opVars va vb)[i] (opVars va vb)[j]) := by
  unfold indexedMat
  rw [dif_pos ⟨ha, hb⟩]

theorem indexedVec_ok {A : Fin n → ℝ} {B : Fin m → ℝ} {va vb : List Var}
    (ha : va.length = n) (hb : vb.length = m) (op : ℝ → ℝ → ℝ) :
    indexedVec A B va vb op = .ok fun i =>
      op (entryV A va ha (opVars va vb)[i]) (entryV B vb hb (opVars va vb)[i]) := by
  unfold indexedVec
  rw [dif_pos ⟨ha, hb⟩]

/-- The parameters of a product or quotient. -/
noncomputable def opParams (op : ℝ → ℝ → ℝ) (a : Can n) (b : Can m) (va vb : List Var)
    (ha : va.length = n) (hb : vb.length = m) : Can (opVars va vb).length :=
  ⟨fun i j => op (entryM a.prec va ha (opVars va vb)[i] (opVars va vb)[j])
      (entryM b.prec vb hb (opVars va vb)[i] (opVars va vb)[j]),
    fun i => op (entryV a.h va ha (opVars va vb)[i]) (entryV b.h vb hb (opVars va vb)[i]), op a.g b.g⟩

theorem absorbOrCancel_valid (op : ℝ → ℝ → ℝ) {a : Gauss n} {b : Gauss m} (ha : Valid a) (hb : Valid b) :
    absorbOrCancel op a b = .ok (⟨a.vars, some (canOf a), a.cov, a.vac⟩, ⟨b.vars, some (canOf b), b.cov, b.vac⟩,
      ⟨opVars a.vars b.vars, some (opParams op (canOf a) (canOf b) a.vars b.vars ha.len hb.len), none,
        vacParams (opParams op (canOf a) (canOf b) a.vars b.vars ha.len hb.len).prec⟩) := by
  unfold absorbOrCancel
  rw [getCan_valid ha, getCan_valid hb]
  dsimp only [bind, Except.bind]
  rw [indexedMat_ok ha.len hb.len, indexedVec_ok ha.len hb.len]
  dsimp only
  rw [mkCan_ok (nodup_opVars ha.nodup hb.nodup) rfl]
  rfl

theorem entryV_fun {vs : List Var} (F : Var → ℝ) (v : Var) (h0 : v ∉ vs → F v = 0) :
    entryV (fun i : Fin vs.length => F vs[i]) vs rfl v = F v := by
  unfold entryV
  split
  · rename_i h
    simp [List.getElem_idxOf]
  · rename_i h
    exact (h0 h).symm

theorem entryM_fun {vs : List Var} (F : Var → Var → ℝ) (v w : Var)
    (h0 : v ∉ vs ∨ w ∉ vs → F v w = 0) :
    entryM (fun i j : Fin vs.length => F vs[i] vs[j]) vs rfl v w = F v w := by
  unfold entryM
  split
  · rename_i h
    simp [List.getElem_idxOf]
  · rename_i h
    exact (h0 (by tauto)).symm

/-- The log potential of a product or quotient. -/
theorem evalCan_opParams {op : ℝ → ℝ → ℝ} {s : ℝ} (hop : ∀ x y, op x y = x + s * y) {a : Can n} {b : Can m}
    {va vb : List Var} (hna : va.Nodup) (hnb : vb.Nodup) (ha : va.length = n) (hb : vb.length = m)
    (x : Var → ℝ) :
    evalCan (opParams op a b va vb ha hb) (vecAt (opVars va vb) rfl x) =
      evalCan a (vecAt va ha x) + s * evalCan b (vecAt vb hb x) := by
  have hS1 : ∀ v ∈ va, v ∈ (opVars va vb).toFinset := fun v hv => by simp [mem_opVars, hv]
  have hS2 : ∀ v ∈ vb, v ∈ (opVars va vb).toFinset := fun v hv => by simp [mem_opVars, hv]
  rw [evalCan_names (nodup_opVars hna hnb) rfl (S := (opVars va vb).toFinset) _ (by simp),
    evalCan_names hna ha _ hS1, evalCan_names hnb hb _ hS2]
  have e1 : ∀ v w, entryM (opParams op a b va vb ha hb).prec (opVars va vb) rfl v w =
      entryM a.prec va ha v w + s * entryM b.prec vb hb v w := by
    intro v w
    rw [← hop]
    refine entryM_fun (fun v w => op (entryM a.prec va ha v w) (entryM b.prec vb hb v w)) v w ?_
    rintro (h | h) <;> rw [mem_opVars, not_or] at h
    · simp [entryM_not_mem_left ha _ h.1, entryM_not_mem_left hb _ h.2, hop]
    · simp [entryM_not_mem_right ha _ h.1, entryM_not_mem_right hb _ h.2, hop]
  have e2 : ∀ v, entryV (opParams op a b va vb ha hb).h (opVars va vb) rfl v =
      entryV a.h va ha v + s * entryV b.h vb hb v := by
    intro v
    rw [← hop]
    refine entryV_fun (fun v => op (entryV a.h va ha v) (entryV b.h vb hb v)) v ?_
    intro h
    rw [mem_opVars, not_or] at h
    simp [entryV_not_mem ha _ h.1, entryV_not_mem hb _ h.2, hop]
  simp only [e1, e2]
  have e3 : (opParams op a b va vb ha hb).g = a.g + s * b.g := hop _ _
  rw [e3]
  simp only [add_mul, mul_add, Finset.sum_add_distrib, Finset.mul_sum]
  have r1 : ∀ v w : Var, -1 / 2 * (x v * (s * entryM b.prec vb hb v w * x w)) =
    s * (-1 / 2 * (x v * (entryM b.prec vb hb v w * x w))) := fun v w => by ring
  have r2 : ∀ v : Var, x v * (s * entryV b.h vb hb v) = s * (x v * entryV b.h vb hb v) := fun v => by ring
  simp only [r1, r2]
  ring

theorem opParams_symm (op : ℝ → ℝ → ℝ) {a : Can n} {b : Can m} {va vb : List Var} (ha : va.length = n)
    (hb : vb.length = m) (hsa : a.prec.IsSymm) (hsb : b.prec.IsSymm) :
    (opParams op a b va vb ha hb).prec.IsSymm := by
  have key : ∀ {k : ℕ} (A : Matrix (Fin k) (Fin k) ℝ) (vs : List Var) (h : vs.length = k), A.IsSymm → ∀ v w,
      entryM A vs h v w = entryM A vs h w v := by
    intro k A vs h hA v w
    unfold entryM
    split
    · rename_i h1
      rw [dif_pos ⟨h1.2, h1.1⟩]
      exact hA.apply _ _
    · rename_i h1
      rw [dif_neg fun e => h1 ⟨e.2, e.1⟩]
  refine Matrix.IsSymm.ext fun i j => ?_
  simp only [opParams]
  rw [key a.prec va ha hsa, key b.prec vb hb hsb]

/-! ### Reordering -/

theorem foldl_update_apply {α : Type} [DecidableEq α] {β : Type} {ι : Type} (l : List ι) (f : ι → α) (g : ι → β)
    (acc : α → β) (i : ι) (hi : i ∈ l) (hinj : ∀ j ∈ l, f j = f i → g j = g i) :
    l.foldl (fun acc i => Function.update acc (f i) (g i)) acc (f i) = g i := by
  induction l using List.reverseRecOn with
  | nil => simp at hi
  | append_singleton l j ih =>
    rw [List.foldl_append, List.foldl_cons, List.foldl_nil]
    by_cases h : f j = f i
    · rw [h, Function.update_self]
      exact hinj j (by simp) h
    · rw [Function.update_of_ne (Ne.symm h)]
      refine ih ?_ fun k hk => hinj k (by simp [hk])
      rcases List.mem_append.1 hi with h' | h'
      · exact h'
      · simp only [List.mem_singleton] at h'
        subst h'
        exact absurd rfl h

theorem scatterV_eq (e : Fin n ≃ Fin n) (x : Fin n → ℝ) : scatterV e x = x ∘ e.symm := by
  funext j
  have := foldl_update_apply (List.finRange n) e x 0 (e.symm j) (by simp)
    (fun k _ h => by rw [e.injective h])
  rw [Equiv.apply_symm_apply] at this
  exact this

theorem foldl_update2_apply {α : Type} [DecidableEq α] {β : Type} {ι : Type} (l : List (ι × ι)) (f : ι → α)
    (g : ι → ι → β) (acc : α → α → β) (i j : ι) (hi : (i, j) ∈ l) (hinj : Function.Injective f) :
    l.foldl (fun acc ij => Function.update acc (f ij.1)
      (Function.update (acc (f ij.1)) (f ij.2) (g ij.1 ij.2))) acc (f i) (f j) = g i j := by
  induction l using List.reverseRecOn with
  | nil => simp at hi
  | append_singleton l k ih =>
    rw [List.foldl_append, List.foldl_cons, List.foldl_nil]
    by_cases h : k = (i, j)
    · subst h
      simp
    · have hm : (i, j) ∈ l := by
        rcases List.mem_append.1 hi with h' | h'
        · exact h'
        · exact absurd (List.mem_singleton.1 h').symm h
      by_cases h1 : f k.1 = f i
      · rw [h1, Function.update_self]
        have h2 : f k.2 ≠ f j := fun e => h (Prod.ext (hinj h1) (hinj e))
        rw [Function.update_of_ne (Ne.symm h2)]
        exact ih hm
      · rw [Function.update_of_ne (Ne.symm h1)]
        exact ih hm

theorem scatterM_eq (e : Fin n ≃ Fin n) (A : Matrix (Fin n) (Fin n) ℝ) :
    scatterM e A = A.submatrix e.symm e.symm := by
  funext i j
  have := foldl_update2_apply (product2 (List.finRange n) (List.finRange n)) e A 0 (e.symm i) (e.symm j)
    (by simp [product2]) e.injective
  rw [Equiv.apply_symm_apply, Equiv.apply_symm_apply] at this
  exact this

/-- Parameters in a different order. -/
def permCan (e : Fin n ≃ Fin n) (c : Can n) : Can n := ⟨c.prec.submatrix e.symm e.symm, c.h ∘ e.symm, c.g⟩

/-- Parameters in a different order. -/
def permCov (e : Fin n ≃ Fin n) (v : CovF n) : CovF n := ⟨v.cov.submatrix e.symm e.symm, v.mean ∘ e.symm, v.lw⟩

theorem toCan_permCov (e : Fin n ≃ Fin n) (v : CovF n) : toCan (permCov e v) = permCan e (toCan v) := by
  have hq : (v.mean ∘ e.symm) ⬝ᵥ (v.cov⁻¹ *ᵥ v.mean) ∘ e.symm = v.mean ⬝ᵥ v.cov⁻¹ *ᵥ v.mean := by
    rw [comp_equiv_dotProduct_comp_equiv]
  have hm : v.cov⁻¹.submatrix e.symm e.symm *ᵥ v.mean ∘ e.symm = (v.cov⁻¹ *ᵥ v.mean) ∘ e.symm := by
    rw [submatrix_mulVec_equiv]
    congr 2
    funext i
    simp
  simp only [toCan, permCov, permCan, inv_submatrix_equiv, hm, hq, det2pi_eq, det_submatrix_equiv_self]

theorem evalCan_permCan (e : Fin n ≃ Fin n) (c : Can n) (x : Fin n → ℝ) :
    evalCan (permCan e c) (x ∘ e.symm) = evalCan c x := by
  have hm : c.prec.submatrix e.symm e.symm *ᵥ x ∘ e.symm = (c.prec *ᵥ x) ∘ e.symm := by
    rw [submatrix_mulVec_equiv]
    congr 2
    funext i
    simp
  simp only [evalCan, permCan, hm, comp_equiv_dotProduct_comp_equiv]

/-- Reordering to a permutation of the names. -/
theorem reorder_ok {a : Gauss n} (hl : a.vars.length = n) (hnd : a.vars.Nodup) {new : List Var}
    (h : new.Perm a.vars) : ∃ e : Fin n ≃ Fin n,
      (∀ x, vecAt new (h.length_eq.trans hl) x = vecAt a.vars hl x ∘ e.symm) ∧
      a.reorder new = .ok ⟨new, a.can.map (permCan e), a.cov.map (permCov e), a.vac⟩ := by
  have hnew : new.Nodup := h.nodup_iff.2 hnd
  have hlen := h.length_eq.trans hl
  have hlt : ∀ v ∈ a.vars, new.idxOf v < n := fun v hv => by
    rw [← hlen]
    exact List.idxOf_lt_length_of_mem (h.mem_iff.2 hv)
  let ord : Fin n → Fin n := fun i =>
    ⟨new.idxOf (a.vars[i.1]'(hl.symm ▸ i.2)), hlt _ (List.getElem_mem _)⟩
  have hinj : Function.Injective ord := by
    intro i j hij
    simp only [ord, Fin.mk.injEq] at hij
    have := (List.idxOf_inj (h.mem_iff.2 (List.getElem_mem _))).1 hij
    exact Fin.ext ((List.Nodup.getElem_inj_iff hnd).1 this)
  let e : Fin n ≃ Fin n := Equiv.ofBijective ord (Finite.injective_iff_bijective.1 hinj)
  have he : ∀ x, vecAt new hlen x ∘ e = vecAt a.vars hl x := by
    intro x
    funext i
    simp only [vecAt, Function.comp, e, Equiv.ofBijective_apply, ord]
    rw [List.getElem_idxOf]
  refine ⟨e, fun x => ?_, ?_⟩
  · rw [← he x]
    funext i
    simp
  · unfold reorder
    split
    · rename_i heq
      subst heq
      have hid : ord = id := by
        funext i
        exact Fin.ext (hnd.idxOf_getElem _ _)
      have hid' : e = Equiv.refl _ := by
        ext i
        simp [e, hid]
      rw [hid']
      obtain ⟨vars, can, cov, vac⟩ := a
      cases can <;> cases cov <;> rfl
    · have hs : sameSet new a.vars := sameSet_iff.2 fun v => h.mem_iff
      rw [if_neg (by simp [hs]), dif_pos ⟨hl, hlt⟩]
      have e1 : (fun c : Can n => (⟨scatterM ord c.prec, scatterV ord c.h, c.g⟩ : Can n)) = permCan e := by
        funext c
        exact congrArg₂ (fun p q => (⟨p, q, c.g⟩ : Can n)) (scatterM_eq e _) (scatterV_eq e _)
      have e2 : (fun v : CovF n => (⟨scatterM ord v.cov, scatterV ord v.mean, v.lw⟩ : CovF n)) = permCov e := by
        funext c
        exact congrArg₂ (fun p q => (⟨p, q, c.lw⟩ : CovF n)) (scatterM_eq e _) (scatterV_eq e _)
      rw [← e1, ← e2]

theorem canOf_perm (e : Fin n ≃ Fin n) {a : Gauss n} (ha : Valid a) (new : List Var) :
    canOf (⟨new, a.can.map (permCan e), a.cov.map (permCov e), a.vac⟩ : Gauss n) = permCan e (canOf a) := by
  obtain ⟨vars, can, cov, vac⟩ := a
  cases can with
  | some c => rfl
  | none =>
    cases cov with
    | none => simpa using ha.form
    | some v => exact toCan_permCov e v

theorem valid_perm (e : Fin n ≃ Fin n) {a : Gauss n} (ha : Valid a) {new : List Var} (h : new.Perm a.vars) :
    Valid (⟨new, a.can.map (permCan e), a.cov.map (permCov e), a.vac⟩ : Gauss n) where
  nodup := h.nodup_iff.2 ha.nodup
  len := h.length_eq.trans ha.len
  form := by simpa using ha.form
  cov := by
    intro v hv
    obtain ⟨w, hw, rfl⟩ := Option.map_eq_some_iff.1 hv
    obtain ⟨h1, h2⟩ := ha.cov w hw
    exact ⟨h1.submatrix _, by simpa [permCov] using h2⟩
  agree := by
    intro v c hv hc
    obtain ⟨w, hw, rfl⟩ := Option.map_eq_some_iff.1 hv
    obtain ⟨d, hd, rfl⟩ := Option.map_eq_some_iff.1 hc
    rw [toCan_permCov, ha.agree w d hw hd]

/-! ### Blocks -/

/-- A scope split into kept and dropped names. -/
structure Split (vars keep out : List Var) : Prop where
  nv : vars.Nodup
  nk : keep.Nodup
  no : out.Nodup
  mem : ∀ v, v ∈ vars ↔ v ∈ keep ∨ v ∈ out
  disj : ∀ v, v ∈ keep → v ∉ out

theorem positions_ok {vars vs : List Var} (hn : vars.length = n) (h : ∀ v ∈ vs, v ∈ vars) :
    ∃ p : Fin vs.length → Fin n, positions vars n vs = .ok p ∧ ∀ i, (p i).1 = vars.idxOf vs[i] := by
  have h2 : ∀ v ∈ vs, vars.idxOf v < n := fun v hv => hn ▸ List.idxOf_lt_length_of_mem (h v hv)
  unfold positions
  rw [if_neg (not_not.2 h), dif_pos h2]
  exact ⟨_, rfl, fun i => rfl⟩

theorem positions_fail {vars vs : List Var} (h : ¬ ∀ v ∈ vs, v ∈ vars) :
    positions vars n vs = .error .valueError := by
  unfold positions
  rw [if_pos h]

theorem split_equiv {vars keep out : List Var} (h : Split vars keep out) (hn : vars.length = n) :
    ∃ e : Fin keep.length ⊕ Fin out.length ≃ Fin n,
      positions vars n keep = .ok (e ∘ Sum.inl) ∧ positions vars n out = .ok (e ∘ Sum.inr) ∧
      ∀ x, vecAt vars hn x ∘ e = Sum.elim (vecAt keep rfl x) (vecAt out rfl x) := by
  obtain ⟨p, hp, hp'⟩ := positions_ok (vs := keep) hn fun v hv => (h.mem v).2 (.inl hv)
  obtain ⟨q, hq, hq'⟩ := positions_ok (vs := out) hn fun v hv => (h.mem v).2 (.inr hv)
  have hpm : ∀ i : Fin keep.length, keep[i] ∈ vars := fun i => (h.mem _).2 (.inl (List.getElem_mem _))
  have hqm : ∀ i : Fin out.length, out[i] ∈ vars := fun i => (h.mem _).2 (.inr (List.getElem_mem _))
  have hinj : Function.Injective (Sum.elim p q) := by
    rintro (i | i) (j | j) hij
    · have h1 : vars.idxOf keep[i] = vars.idxOf keep[j] := by rw [← hp', ← hp']; exact congrArg _ hij
      have := (List.idxOf_inj (hpm i)).1 h1
      exact congrArg _ (Fin.ext ((List.Nodup.getElem_inj_iff h.nk).1 this))
    · have h1 : vars.idxOf keep[i] = vars.idxOf out[j] := by rw [← hp', ← hq']; exact congrArg _ hij
      have := (List.idxOf_inj (hpm i)).1 h1
      exact absurd (this ▸ List.getElem_mem _) (h.disj _ (List.getElem_mem (l := keep) i.2))
    · have h1 : vars.idxOf keep[j] = vars.idxOf out[i] := by rw [← hp', ← hq']; exact (congrArg _ hij).symm
      have := (List.idxOf_inj (hpm j)).1 h1
      exact absurd (this ▸ List.getElem_mem _) (h.disj _ (List.getElem_mem (l := keep) j.2))
    · have h1 : vars.idxOf out[i] = vars.idxOf out[j] := by rw [← hq', ← hq']; exact congrArg _ hij
      have := (List.idxOf_inj (hqm i)).1 h1
      exact congrArg _ (Fin.ext ((List.Nodup.getElem_inj_iff h.no).1 this))
  have hsurj : Function.Surjective (Sum.elim p q) := by
    intro k
    have hk : vars[k.1]'(hn.symm ▸ k.2) ∈ vars := List.getElem_mem _
    rcases (h.mem _).1 hk with hm | hm
    · obtain ⟨i, hi, e⟩ := List.getElem_of_mem hm
      refine ⟨.inl ⟨i, hi⟩, Fin.ext ?_⟩
      simp only [Sum.elim_inl, hp']
      rw [show keep[(⟨i, hi⟩ : Fin keep.length)] = vars[k.1]'(hn.symm ▸ k.2) from e]
      exact h.nv.idxOf_getElem _ _
    · obtain ⟨i, hi, e⟩ := List.getElem_of_mem hm
      refine ⟨.inr ⟨i, hi⟩, Fin.ext ?_⟩
      simp only [Sum.elim_inr, hq']
      rw [show out[(⟨i, hi⟩ : Fin out.length)] = vars[k.1]'(hn.symm ▸ k.2) from e]
      exact h.nv.idxOf_getElem _ _
  have hb : Function.Bijective (Sum.elim p q) := ⟨hinj, hsurj⟩
  refine ⟨Equiv.ofBijective _ hb, hp, hq, fun x => ?_⟩
  funext i
  rcases i with i | i
  · change x (vars[(p i).1]'_) = x keep[i]
    simp only [hp', List.getElem_idxOf]
  · change x (vars[(q i).1]'_) = x out[i]
    simp only [hq', List.getElem_idxOf]

/-- The quadratic form in blocks. -/
theorem quad_blocks {k l : ℕ} (e : Fin k ⊕ Fin l ≃ Fin n) (A : Matrix (Fin n) (Fin n) ℝ) (z : Fin n → ℝ)
    (x : Fin k → ℝ) (y : Fin l → ℝ) (hz : z ∘ e = Sum.elim x y) :
    z ⬝ᵥ A *ᵥ z = x ⬝ᵥ A.submatrix (e ∘ Sum.inl) (e ∘ Sum.inl) *ᵥ x +
      x ⬝ᵥ A.submatrix (e ∘ Sum.inl) (e ∘ Sum.inr) *ᵥ y +
      y ⬝ᵥ A.submatrix (e ∘ Sum.inr) (e ∘ Sum.inl) *ᵥ x +
      y ⬝ᵥ A.submatrix (e ∘ Sum.inr) (e ∘ Sum.inr) *ᵥ y := by
  have h1 : z ⬝ᵥ A *ᵥ z = (z ∘ e) ⬝ᵥ A.submatrix e e *ᵥ (z ∘ e) := by
    rw [submatrix_mulVec_equiv, comp_equiv_dotProduct_comp_equiv]
    congr 2
    funext i
    simp
  have h2 : A.submatrix e e = fromBlocks (A.submatrix (e ∘ Sum.inl) (e ∘ Sum.inl))
      (A.submatrix (e ∘ Sum.inl) (e ∘ Sum.inr)) (A.submatrix (e ∘ Sum.inr) (e ∘ Sum.inl))
      (A.submatrix (e ∘ Sum.inr) (e ∘ Sum.inr)) := by
    ext (i | i) (j | j) <;> rfl
  rw [h1, h2, hz, fromBlocks_mulVec]
  simp only [Sum.elim_comp_inl, Sum.elim_comp_inr, sumElim_dotProduct_sumElim, dotProduct_add]
  ring

theorem dot_blocks {k l : ℕ} (e : Fin k ⊕ Fin l ≃ Fin n) (h z : Fin n → ℝ)
    (x : Fin k → ℝ) (y : Fin l → ℝ) (hz : z ∘ e = Sum.elim x y) :
    z ⬝ᵥ h = x ⬝ᵥ h ∘ (e ∘ Sum.inl) + y ⬝ᵥ h ∘ (e ∘ Sum.inr) := by
  have h1 : z ⬝ᵥ h = (z ∘ e) ⬝ᵥ (h ∘ e) := by rw [comp_equiv_dotProduct_comp_equiv]
  have h2 : h ∘ e = Sum.elim (h ∘ (e ∘ Sum.inl)) (h ∘ (e ∘ Sum.inr)) := by
    funext i
    rcases i with i | i <;> rfl
  rw [h1, hz, h2, sumElim_dotProduct_sumElim]

end Verif.Gauss
