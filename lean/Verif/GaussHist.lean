import Verif.GaussMarg

/-!
# Histories of Gaussian operations

`Made a`: the object `a` was produced by some sequence of calls. The arguments of the constructors are
symmetric matrices (positive definite for a covariance); nothing is assumed about later calls except that
they returned.
-/

namespace Verif.Gauss
open Matrix

/-- The Gaussians a program can hold. Each clause is one call that returned; a call that changes an operand
has a clause for the changed operand. -/
inductive Made : ∀ {k : ℕ}, Gauss k → Prop
  | ofCov {n : ℕ} {vars : List Var} {v : CovF n} {a : Gauss n} :
      v.cov.PosDef → mkCov vars v = .ok a → Made a
  | ofCan {n : ℕ} {vars : List Var} {c : Can n} {a : Gauss n} :
      c.prec.IsSymm → mkCan vars c = .ok a → Made a
  | linear {p q : ℕ} {A : Matrix (Fin p) (Fin q) ℝ} {N : Matrix (Fin p) (Fin p) ℝ} {xs ys : List Var}
      {a : Gauss (xs.length + xs.length)} :
      N.IsSymm → makeLinearGaussian A N xs ys = .ok a → Made a
  | template {n : ℕ} {t : GTemplate n} {names : List Var} {a : Gauss n} :
      t.params.prec.IsSymm → t.makeFactor names = .ok a → Made a
  | copy {n : ℕ} {a k : Gauss n} : Made a → a.copy = .ok k → Made k
  | getCan {n : ℕ} {a a' : Gauss n} {c : Can n} : Made a → a.getCan = .ok (a', c) → Made a'
  | getCov {n : ℕ} {a a' : Gauss n} {v : CovF n} : Made a → a.getCov = .ok (a', v) → Made a'
  | reorder {n : ℕ} {a a' : Gauss n} {new : List Var} :
      Made a → new.Perm a.vars → a.reorder new = .ok a' → Made a'
  | multiply_left {n m : ℕ} {a a' : Gauss n} {b b' : Gauss m} {r : Gauss (opVars a.vars b.vars).length} :
      Made a → Made b → a.multiply b = .ok (a', b', r) → Made a'
  | multiply_right {n m : ℕ} {a a' : Gauss n} {b b' : Gauss m} {r : Gauss (opVars a.vars b.vars).length} :
      Made a → Made b → a.multiply b = .ok (a', b', r) → Made b'
  | multiply {n m : ℕ} {a a' : Gauss n} {b b' : Gauss m} {r : Gauss (opVars a.vars b.vars).length} :
      Made a → Made b → a.multiply b = .ok (a', b', r) → Made r
  | divide_left {n m : ℕ} {a a' : Gauss n} {b b' : Gauss m} {r : Gauss (opVars a.vars b.vars).length} :
      Made a → Made b → a.divide b = .ok (a', b', r) → Made a'
  | divide_right {n m : ℕ} {a a' : Gauss n} {b b' : Gauss m} {r : Gauss (opVars a.vars b.vars).length} :
      Made a → Made b → a.divide b = .ok (a', b', r) → Made b'
  | divide {n m : ℕ} {a a' : Gauss n} {b b' : Gauss m} {r : Gauss (opVars a.vars b.vars).length} :
      Made a → Made b → a.divide b = .ok (a', b', r) → Made r
  | marginalize {n : ℕ} {hs : HashSeed} {a : Gauss n} {vrs : List Var} {keep : Bool}
      {r : Gauss (Sparse.marginalVars hs a.vars vrs keep).length} :
      Made a → a.marginalize hs vrs keep = .ok r → Made r
  | reduce_self {n : ℕ} {a a' : Gauss n} {vrs : List Var} {vals : List ℝ} {r : AnyG} :
      Made a → a.reduce vrs vals = .ok (a', r) → Made a'
  | reduce {n : ℕ} {a a' : Gauss n} {vrs : List Var} {vals : List ℝ} {r : AnyG} :
      Made a → a.reduce vrs vals = .ok (a', r) → Made r.2
  | normalize {n : ℕ} {a k : Gauss n} : Made a → a.normalize = .ok k → Made k
  | invert {n : ℕ} {a k : Gauss n} : Made a → a.invert = .ok k → Made k
  | addLogWeight {n : ℕ} {a : Gauss n} (w : ℝ) : Made a → Made (a.addLogWeight w)
  | equals_left {n m : ℕ} {rtol atol : ℝ} {a a' : Gauss n} {b b' : Gauss m} {r : Bool} :
      Made a → Made b → equals rtol atol a b = .ok (a', b', r) → Made a'
  | equals_right {n m : ℕ} {rtol atol : ℝ} {a a' : Gauss n} {b b' : Gauss m} {r : Bool} :
      Made a → Made b → equals rtol atol a b = .ok (a', b', r) → Made b'
  | kl_left {n m : ℕ} {nf : Bool} {a a' : Gauss n} {b b' : Gauss m} {r : XF ℝ} :
      Made a → Made b → klDivergence a b nf = .ok (a', b', r) → Made a'
  | kl_right {n m : ℕ} {nf : Bool} {a a' : Gauss n} {b b' : Gauss m} {r : XF ℝ} :
      Made a → Made b → klDivergence a b nf = .ok (a', b', r) → Made b'
  | split_self {n : ℕ} {a a' : Gauss n} {l : List (Gauss n)} : Made a → a.split = .ok (a', l) → Made a'
  | split {n : ℕ} {a a' k : Gauss n} {l : List (Gauss n)} : Made a → a.split = .ok (a', l) → k ∈ l → Made k

/-- The invariant of all histories. -/
structure Inv {n : ℕ} (a : Gauss n) : Prop where
  nodup : a.vars.Nodup
  len : a.vars.length = n
  form : a.can.isSome ∨ a.cov.isSome
  covSymm : ∀ v, a.cov = some v → v.cov.IsSymm
  canSymm : ∀ c, a.can = some c → c.prec.IsSymm
  agree : ∀ v c, a.cov = some v → a.can = some c → 0 < v.cov.det ∧ c = toCan v

/-- The objects that denote a function. -/
structure Good {n : ℕ} (a : Gauss n) : Prop extends Valid a where
  symm : (canOf a).prec.IsSymm

variable {n m : ℕ}

theorem Good.inv {a : Gauss n} (h : Good a) : Inv a where
  nodup := h.nodup
  len := h.len
  form := h.form
  covSymm v hv := (h.cov v hv).1
  canSymm c hc := by rw [← canOf_can hc]; exact h.symm
  agree v c hv hc := ⟨(h.cov v hv).2, h.agree v c hv hc⟩

theorem Inv.good {a : Gauss n} (h : Inv a) (hd : a.can = none → ∀ v, a.cov = some v → 0 < v.cov.det) : Good a where
  nodup := h.nodup
  len := h.len
  form := h.form
  cov v hv := ⟨h.covSymm v hv, by
    cases hc : a.can with
    | none => exact hd hc v hv
    | some c => exact (h.agree v c hv hc).1⟩
  agree v c hv hc := (h.agree v c hv hc).2
  symm := by
    unfold canOf
    split
    · rename_i c hc
      exact h.canSymm c hc
    · rename_i v hc hv
      exact symm_inv (h.covSymm v hv)
    · rename_i hc hv
      have hf := h.form
      simp [hc, hv] at hf

theorem inv_mkCan {vars : List Var} {c : Can n} (hnd : vars.Nodup) (hl : vars.length = n) (vac : Bool)
    (hs : c.prec.IsSymm) : Inv (⟨vars, some c, none, vac⟩ : Gauss n) :=
  ⟨hnd, hl, .inl rfl, fun _ h => (by cases h), fun _ h => (by cases h; exact hs), fun _ _ h => (by cases h)⟩

theorem inv_mkCov {vars : List Var} {v : CovF n} (hnd : vars.Nodup) (hl : vars.length = n) (vac : Bool)
    (hs : v.cov.IsSymm) : Inv (⟨vars, none, some v, vac⟩ : Gauss n) :=
  ⟨hnd, hl, .inr rfl, fun _ h => (by cases h; exact hs), fun _ h => (by cases h), fun _ _ _ h => (by cases h)⟩

theorem good_mkCan {vars : List Var} {c : Can n} (hnd : vars.Nodup) (hl : vars.length = n) (vac : Bool)
    (hs : c.prec.IsSymm) : Good (⟨vars, some c, none, vac⟩ : Gauss n) :=
  ⟨valid_mkCan hnd hl vac, hs⟩

theorem good_mkCov {vars : List Var} {v : CovF n} (hnd : vars.Nodup) (hl : vars.length = n) (vac : Bool)
    (hs : v.cov.IsSymm) (hd : 0 < v.cov.det) : Good (⟨vars, none, some v, vac⟩ : Gauss n) :=
  ⟨valid_mkCov hnd hl vac hs hd, symm_inv hs⟩

theorem inv_of_mkCan {vars : List Var} {c : Can n} {r : Gauss n} (hs : c.prec.IsSymm) (h : mkCan vars c = .ok r) :
    Inv r := by
  obtain ⟨h1, h2, rfl⟩ := mkCan_eq_ok h
  exact inv_mkCan h1 h2 _ hs

theorem inv_of_mkCov {vars : List Var} {v : CovF n} {r : Gauss n} (hs : v.cov.IsSymm) (h : mkCov vars v = .ok r) :
    Inv r := by
  obtain ⟨h1, h2, rfl⟩ := mkCov_eq_ok h
  exact inv_mkCov h1 h2 _ hs

/-- Reading the canonical parameters. -/
theorem getCan_inv {a a' : Gauss n} {c : Can n} (ha : Inv a) (h : a.getCan = .ok (a', c)) :
    Good a ∧ a' = ⟨a.vars, some (canOf a), a.cov, a.vac⟩ ∧ c = canOf a := by
  have hg : Good a := by
    refine ha.good fun hc v hv => ?_
    unfold getCan updateCan at h
    rw [hc, hv] at h
    obtain ⟨b, hb, h⟩ := py_bind_eq_ok.1 h
    obtain ⟨p, hp, hb⟩ := py_bind_eq_ok.1 hb
    exact (canParams_eq_ok hp).1
  rw [getCan_valid hg.toValid] at h
  cases h
  exact ⟨hg, rfl, rfl⟩

theorem good_can {a : Gauss n} (ha : Good a) : Good (⟨a.vars, some (canOf a), a.cov, a.vac⟩ : Gauss n) :=
  ⟨valid_can ha.toValid, ha.symm⟩

theorem good_cov {a : Gauss n} (ha : Good a) (hd : 0 < (canOf a).prec.det) :
    Good (⟨a.vars, a.can, some (toCov (canOf a)), a.vac⟩ : Gauss n) :=
  ⟨valid_cov ha.toValid ha.symm hd, by rw [canOf_cov_mk ha.toValid hd]; exact ha.symm⟩

/-- Reading the covariance parameters. -/
theorem getCov_inv {a a' : Gauss n} {v : CovF n} (ha : Inv a) (h : a.getCov = .ok (a', v)) :
    Inv a' ∧ v.cov.IsSymm ∧ a'.vars = a.vars := by
  unfold Gauss.getCov updateCov at h
  split at h
  · cases h
  · split at h
    · rename_i w hw
      obtain ⟨b, hb, h⟩ := py_bind_eq_ok.1 h
      cases hb
      rw [hw] at h
      cases h
      exact ⟨ha, ha.covSymm _ hw, rfl⟩
    · rename_i hw
      split at h
      · cases h
      · rename_i c hc
        obtain ⟨b, hb, h⟩ := py_bind_eq_ok.1 h
        obtain ⟨w, hw', hb⟩ := py_bind_eq_ok.1 hb
        obtain ⟨hd, rfl⟩ := covParams_eq_ok hw'
        cases hb
        cases h
        have hs := ha.canSymm c hc
        refine ⟨⟨ha.nodup, ha.len, .inr rfl, fun w h => ?_, ha.canSymm, fun w d h h' => ?_⟩, ?_, rfl⟩
        · cases h; exact symm_inv hs
        · rw [hc] at h'; cases h'; cases h
          exact ⟨det_inv_pos.2 hd, (toCan_toCov hd).symm⟩
        · exact symm_inv hs

theorem copy_inv {a k : Gauss n} (ha : Inv a) (h : a.copy = .ok k) :
    Inv k ∧ k.vars = a.vars ∧ k.can = a.can ∧ k.cov = a.cov := by
  obtain ⟨vars, can, cov, vac⟩ := a
  unfold Gauss.copy at h
  split at h
  · rename_i v c hv hc
    dsimp only at hv hc
    subst hv hc
    obtain ⟨b, hb, h⟩ := py_bind_eq_ok.1 h
    obtain ⟨_, _, rfl⟩ := mkCov_eq_ok hb
    cases h
    exact ⟨⟨ha.nodup, ha.len, .inl rfl, ha.covSymm, ha.canSymm, ha.agree⟩, rfl, rfl, rfl⟩
  · rename_i v hv hc
    dsimp only at hv hc
    subst hv hc
    obtain ⟨_, _, rfl⟩ := mkCov_eq_ok h
    exact ⟨⟨ha.nodup, ha.len, ha.form, ha.covSymm, ha.canSymm, ha.agree⟩, rfl, rfl, rfl⟩
  · rename_i c hv hc
    dsimp only at hv hc
    subst hv hc
    obtain ⟨_, _, rfl⟩ := mkCan_eq_ok h
    exact ⟨⟨ha.nodup, ha.len, ha.form, ha.covSymm, ha.canSymm, ha.agree⟩, rfl, rfl, rfl⟩
  · cases h

theorem reorder_inv {a a' : Gauss n} (ha : Inv a) {new : List Var} (hp : new.Perm a.vars)
    (h : a.reorder new = .ok a') : Inv a' ∧ a'.vars = new := by
  obtain ⟨e, -, he⟩ := reorder_ok ha.len ha.nodup hp
  rw [he] at h
  cases h
  refine ⟨⟨hp.nodup_iff.2 ha.nodup, hp.length_eq.trans ha.len, by simpa using ha.form, ?_, ?_, ?_⟩, rfl⟩
  · intro v hv
    obtain ⟨w, hw, rfl⟩ := Option.map_eq_some_iff.1 hv
    exact (ha.covSymm w hw).submatrix _
  · intro c hc
    obtain ⟨w, hw, rfl⟩ := Option.map_eq_some_iff.1 hc
    exact (ha.canSymm w hw).submatrix _
  · intro v c hv hc
    obtain ⟨w, hw, rfl⟩ := Option.map_eq_some_iff.1 hv
    obtain ⟨d, hd, rfl⟩ := Option.map_eq_some_iff.1 hc
    obtain ⟨h1, rfl⟩ := ha.agree w d hw hd
    exact ⟨by simpa [permCov] using h1, (toCan_permCov e w).symm⟩

theorem absorb_inv {op : ℝ → ℝ → ℝ} {a a' : Gauss n} {b b' : Gauss m} {r : Gauss (opVars a.vars b.vars).length}
    (ha : Inv a) (hb : Inv b) (h : absorbOrCancel op a b = .ok (a', b', r)) :
    Good a ∧ Good b ∧ Good a' ∧ Good b' ∧ Good r := by
  obtain ⟨ga, gb⟩ : Good a ∧ Good b := by
    unfold absorbOrCancel at h
    obtain ⟨⟨x, c⟩, hx, h⟩ := py_bind_eq_ok.1 h
    obtain ⟨⟨y, d⟩, hy, h⟩ := py_bind_eq_ok.1 h
    exact ⟨(getCan_inv ha hx).1, (getCan_inv hb hy).1⟩
  rw [absorbOrCancel_valid op ga.toValid gb.toValid] at h
  cases h
  exact ⟨ga, gb, good_can ga, good_can gb,
    good_mkCan (nodup_opVars ga.nodup gb.nodup) rfl _ (opParams_symm op ga.len gb.len ga.symm gb.symm)⟩

theorem schur_symm {k l : ℕ} {A : Matrix (Fin k) (Fin k) ℝ} {B : Matrix (Fin k) (Fin l) ℝ}
    {C : Matrix (Fin l) (Fin l) ℝ} (hA : A.IsSymm) (hC : C.IsSymm) : (A - B * C * Bᵀ).IsSymm := by
  rw [IsSymm, transpose_sub, hA.eq, transpose_mul, transpose_mul, transpose_transpose, hC.eq, Matrix.mul_assoc]

theorem marginalizeTo_inv {hs : HashSeed} {a : Gauss n} {keep : List Var} {r : Gauss keep.length} (ha : Inv a)
    (h : a.marginalizeTo hs keep = .ok r) : Inv r := by
  unfold marginalizeTo at h
  split at h
  · exact inv_of_mkCan isSymm_zero h
  · split at h
    · rename_i c hc
      unfold canMarginalize at h
      obtain ⟨xx, hx, h⟩ := py_bind_eq_ok.1 h
      obtain ⟨yy, hy, h⟩ := py_bind_eq_ok.1 h
      obtain ⟨iv, hi, h⟩ := py_bind_eq_ok.1 h
      obtain ⟨l, hl, h⟩ := py_bind_eq_ok.1 h
      obtain ⟨-, rfl⟩ := npInv_eq_ok hi
      have hk := ha.canSymm c hc
      exact inv_of_mkCan (schur_symm (hk.submatrix _) (symm_inv (hk.submatrix _))) h
    · split at h
      · rename_i v hv
        unfold covMarginalize at h
        obtain ⟨xx, hx, h⟩ := py_bind_eq_ok.1 h
        exact inv_of_mkCov ((ha.covSymm v hv).submatrix _) h
      · cases h

theorem reduce_inv {a a' : Gauss n} {vrs : List Var} {vals : List ℝ} {r : AnyG} (ha : Inv a)
    (h : a.reduce vrs vals = .ok (a', r)) : Good a ∧ Good a' ∧ Inv r.2 := by
  unfold Gauss.reduce at h
  obtain ⟨_, _, h⟩ := py_bind_eq_ok.1 h
  obtain ⟨yy, hy, h⟩ := py_bind_eq_ok.1 h
  dsimp only at h
  obtain ⟨xx, hx, h⟩ := py_bind_eq_ok.1 h
  obtain ⟨⟨b, c⟩, hc, h⟩ := py_bind_eq_ok.1 h
  obtain ⟨y, _, h⟩ := py_bind_eq_ok.1 h
  obtain ⟨hg, rfl, rfl⟩ := getCan_inv ha hc
  dsimp only at h
  split at h
  · obtain ⟨k, hk, h⟩ := py_bind_eq_ok.1 h
    cases h
    exact ⟨hg, good_can hg, inv_of_mkCan isSymm_zero hk⟩
  · obtain ⟨k, hk, h⟩ := py_bind_eq_ok.1 h
    cases h
    exact ⟨hg, good_can hg, inv_of_mkCan (hg.symm.submatrix _) hk⟩

theorem updateCov_of_getCov {a k : Gauss n} {v : CovF n} (h : updateCov a = .ok k) (hv : k.cov = some v) :
    a.getCov = .ok (k, v) := by
  unfold Gauss.getCov
  rw [h]
  dsimp only [bind, Except.bind]
  rw [hv]

theorem normalize_inv {a k : Gauss n} (ha : Inv a) (h : a.normalize = .ok k) : Inv k := by
  unfold Gauss.normalize at h
  obtain ⟨b, hb, h⟩ := py_bind_eq_ok.1 h
  obtain ⟨b', hb', h⟩ := py_bind_eq_ok.1 h
  split at h
  · rename_i v hv
    cases h
    obtain ⟨h1, h2, -⟩ := getCov_inv (copy_inv ha hb).1 (updateCov_of_getCov hb' hv)
    exact inv_mkCov h1.nodup h1.len _ h2
  · cases h

theorem invert_inv {a k : Gauss n} (ha : Inv a) (h : a.invert = .ok k) : Inv k := by
  unfold Gauss.invert at h
  split at h
  · cases h
  · rename_i c hc
    obtain ⟨b, hb, h⟩ := py_bind_eq_ok.1 h
    cases h
    have h1 := (copy_inv ha hb).1
    exact inv_mkCan h1.nodup h1.len _ ((ha.canSymm c hc).neg)

theorem addLogWeight_inv {a : Gauss n} (ha : Inv a) (w : ℝ) : Inv (a.addLogWeight w) := by
  obtain ⟨vars, can, cov, vac⟩ := a
  refine ⟨ha.nodup, ha.len, by simpa [Gauss.addLogWeight] using ha.form, ?_, ?_, ?_⟩
  · intro v hv
    obtain ⟨u, hu, rfl⟩ := Option.map_eq_some_iff.1 hv
    exact ha.covSymm u hu
  · intro v hv
    obtain ⟨u, hu, rfl⟩ := Option.map_eq_some_iff.1 hv
    exact ha.canSymm u hu
  · intro v c hv hc
    obtain ⟨u, hu, rfl⟩ := Option.map_eq_some_iff.1 hv
    obtain ⟨d, hd, rfl⟩ := Option.map_eq_some_iff.1 hc
    obtain ⟨h1, rfl⟩ := ha.agree u d hu hd
    refine ⟨h1, ?_⟩
    simp only [toCan]
    congr 1
    ring

theorem perm_of_sameSet {a b : List Var} (ha : a.Nodup) (hb : b.Nodup) (h : sameSet a b) : a.Perm b :=
  (List.perm_ext_iff_of_nodup ha hb).2 (sameSet_iff.1 h)

theorem canEquals_inv {rtol atol : ℝ} {vars : List Var} {c : Can n} {b b' : Gauss n} {r : Bool}
    (hb : Inv b) (hp : vars.Perm b.vars) (h : canEquals rtol atol vars c b = .ok (b', r)) : Inv b' := by
  unfold canEquals at h
  obtain ⟨⟨b1, c1⟩, h1, h⟩ := py_bind_eq_ok.1 h
  obtain ⟨hg, rfl, -⟩ := getCan_inv hb h1
  dsimp only at h
  split at h
  · cases h
    exact (good_can hg).inv
  · obtain ⟨b2, h2, h⟩ := py_bind_eq_ok.1 h
    obtain ⟨⟨b3, c3⟩, h3, h⟩ := py_bind_eq_ok.1 h
    cases h
    obtain ⟨i2, -⟩ := reorder_inv (good_can hg).inv hp h2
    obtain ⟨hg3, rfl, -⟩ := getCan_inv i2 h3
    exact (good_can hg3).inv

theorem covEquals_inv {rtol atol : ℝ} {vars : List Var} {v : CovF n} {b b' : Gauss n} {r : Bool}
    (hb : Inv b) (hp : vars.Perm b.vars) (h : covEquals rtol atol vars v b = .ok (b', r)) : Inv b' := by
  unfold covEquals at h
  obtain ⟨⟨b1, c1⟩, h1, h⟩ := py_bind_eq_ok.1 h
  unfold getWeight at h1
  obtain ⟨⟨b0, v0⟩, h0, h1⟩ := py_bind_eq_ok.1 h1
  cases h1
  obtain ⟨i1, -, e1⟩ := getCov_inv hb h0
  dsimp only at h
  split at h
  · cases h
    exact i1
  · obtain ⟨b2, h2, h⟩ := py_bind_eq_ok.1 h
    obtain ⟨⟨b3, c3⟩, h3, h⟩ := py_bind_eq_ok.1 h
    cases h
    obtain ⟨i2, -⟩ := reorder_inv i1 (e1 ▸ hp) h2
    exact (getCov_inv i2 h3).1

theorem equalsForms_inv {rtol atol : ℝ} {a a' b b' : Gauss n} {r : Bool} (ha : Inv a) (hb : Inv b)
    (hp : a.vars.Perm b.vars) (h : equalsForms rtol atol a b = .ok (a', b', r)) : Inv a' ∧ Inv b' := by
  unfold equalsForms at h
  split at h
  · obtain ⟨⟨b1, r1⟩, h1, h⟩ := py_bind_eq_ok.1 h
    cases h
    exact ⟨ha, canEquals_inv hb hp h1⟩
  · obtain ⟨⟨a1, v1⟩, h0, h⟩ := py_bind_eq_ok.1 h
    obtain ⟨⟨b1, r1⟩, h1, h⟩ := py_bind_eq_ok.1 h
    cases h
    obtain ⟨i1, -, e1⟩ := getCov_inv ha h0
    exact ⟨i1, covEquals_inv hb (e1 ▸ hp) h1⟩

theorem equals_inv {rtol atol : ℝ} {a a' : Gauss n} {b b' : Gauss m} {r : Bool} (ha : Inv a) (hb : Inv b)
    (h : equals rtol atol a b = .ok (a', b', r)) : Inv a' ∧ Inv b' := by
  unfold equals at h
  split at h
  · cases h; exact ⟨ha, hb⟩
  · rename_i hset
    have hp := perm_of_sameSet ha.nodup hb.nodup (not_not.1 hset)
    obtain ⟨k, hk, h⟩ := py_bind_eq_ok.1 h
    dsimp only at h
    split at h
    · cases h; exact ⟨ha, hb⟩
    · split at h
      · rename_i hmn
        subst hmn
        obtain ⟨⟨x, y, z⟩, hx, h⟩ := py_bind_eq_ok.1 h
        cases h
        exact equalsForms_inv ha hb hp hx
      · cases h

theorem kl_inv {nf : Bool} {a a' : Gauss n} {b b' : Gauss m} {r : XF ℝ} (ha : Inv a) (hb : Inv b)
    (h : klDivergence a b nf = .ok (a', b', r)) : Inv a' ∧ Inv b' := by
  unfold klDivergence at h
  split at h
  · rename_i hmn
    subst hmn
    split at h
    · cases h; exact ⟨ha, hb⟩
    · split at h
      · cases h; exact ⟨ha, hb⟩
      · obtain ⟨⟨x, y, z⟩, hx, h⟩ := py_bind_eq_ok.1 h
        cases h
        unfold klCore at hx
        obtain ⟨⟨a1, b1, s⟩, h1, hx⟩ := py_bind_eq_ok.1 hx
        obtain ⟨ia, ib⟩ := equals_inv ha hb h1
        dsimp only at hx
        split at hx
        · cases hx; exact ⟨ia, ib⟩
        · obtain ⟨p, hp, hx⟩ := py_bind_eq_ok.1 hx
          obtain ⟨q, hq, hx⟩ := py_bind_eq_ok.1 hx
          obtain ⟨⟨q1, qc⟩, hq1, hx⟩ := py_bind_eq_ok.1 hx
          obtain ⟨⟨p1, pc⟩, hp1, hx⟩ := py_bind_eq_ok.1 hx
          obtain ⟨⟨p2, pv⟩, hp2, hx⟩ := py_bind_eq_ok.1 hx
          obtain ⟨⟨q2, qv⟩, hq2, hx⟩ := py_bind_eq_ok.1 hx
          obtain ⟨l, hl, hx⟩ := py_bind_eq_ok.1 hx
          cases hx
          refine ⟨ia, ?_⟩
          cases nf with
          | true => exact ib
          | false =>
            cases hq
            obtain ⟨g1, rfl, -⟩ := getCan_inv ib hq1
            exact (getCov_inv (good_can g1).inv hq2).1
  · cases h

theorem mapM_mem {α β : Type} {f : α → Py β} {l : List α} {r : List β} (h : l.mapM f = .ok r) {y : β}
    (hy : y ∈ r) : ∃ x ∈ l, f x = .ok y := by
  induction l generalizing r with
  | nil =>
    cases h
    simp at hy
  | cons x l ih =>
    rw [List.mapM_cons] at h
    obtain ⟨z, hz, h⟩ := py_bind_eq_ok.1 h
    obtain ⟨zs, hzs, h⟩ := py_bind_eq_ok.1 h
    cases h
    rcases List.mem_cons.1 hy with rfl | hy
    · exact ⟨x, by simp, hz⟩
    · obtain ⟨w, hw, e⟩ := ih hzs hy
      exact ⟨w, by simp [hw], e⟩

theorem split_inv {a a' : Gauss n} {l : List (Gauss n)} (ha : Inv a) (h : a.split = .ok (a', l)) :
    Inv a' ∧ ∀ k ∈ l, Inv k := by
  unfold Gauss.split at h
  obtain ⟨_, _, h⟩ := py_bind_eq_ok.1 h
  obtain ⟨⟨b, v⟩, hb, h⟩ := py_bind_eq_ok.1 h
  obtain ⟨_, _, h⟩ := py_bind_eq_ok.1 h
  dsimp only at h
  obtain ⟨cs, hcs, h⟩ := py_bind_eq_ok.1 h
  cases h
  obtain ⟨h1, h2, h3⟩ := getCov_inv ha hb
  refine ⟨h1, fun k hk => ?_⟩
  obtain ⟨mu, -, hmu⟩ := mapM_mem hcs hk
  exact inv_of_mkCov (h2.smul _) hmu

theorem jointCov_symm {d : ℕ} {A N : Matrix (Fin d) (Fin d) ℝ} (hN : N.IsSymm) : (jointCov A N).IsSymm := by
  unfold jointCov
  refine IsSymm.submatrix ?_ _
  rw [isSymm_fromBlocks_iff]
  refine ⟨isSymm_one, by simp, by simp, ?_⟩
  rw [IsSymm, transpose_add, hN.eq]
  simp

theorem linearParams_symm {d : ℕ} {A N : Matrix (Fin d) (Fin d) ℝ} (hN : N.IsSymm) {c : Can (d + d)}
    (h : linearParams A N = .ok c) : c.prec.IsSymm := by
  unfold linearParams at h
  obtain ⟨P, hP, h⟩ := py_bind_eq_ok.1 h
  dsimp only at h
  obtain ⟨_, _, h⟩ := py_bind_eq_ok.1 h
  obtain ⟨Q, hQ, h⟩ := py_bind_eq_ok.1 h
  obtain ⟨_, _, h⟩ := py_bind_eq_ok.1 h
  cases h
  obtain ⟨-, rfl⟩ := npInv_eq_ok hP
  obtain ⟨-, rfl⟩ := npInv_eq_ok hQ
  have h1 := symm_inv (jointCov_symm (A := A) hN)
  have h2 := symm_inv (isSymm_one (n := Fin d) (α := ℝ))
  refine IsSymm.ext fun i j => ?_
  change subtractXX _ _ _ _ = subtractXX _ _ _ _
  unfold subtractXX
  by_cases h : i.1 < d ∧ j.1 < d
  · rw [dif_pos h, dif_pos ⟨h.2, h.1⟩, h1.apply, h2.apply]
  · rw [dif_neg h, dif_neg (by tauto), h1.apply]

/-- Every history keeps the invariant. -/
theorem Made.inv {a : Gauss n} (h : Made a) : Inv a := by
  induction h with
  | ofCov hp h => exact inv_of_mkCov (posDef_symm hp) h
  | ofCan hs h => exact inv_of_mkCan hs h
  | linear hN h =>
    unfold makeLinearGaussian at h
    split at h
    · obtain ⟨c, hc, h⟩ := py_bind_eq_ok.1 h
      exact inv_of_mkCan (linearParams_symm (hN.submatrix _) hc) h
    · cases h
  | template hs h =>
    unfold GTemplate.makeFactor at h
    obtain ⟨c, hc, h⟩ := py_bind_eq_ok.1 h
    obtain ⟨h1, h2, rfl⟩ := mkCan_eq_ok hc
    cases h
    exact inv_mkCan h1 h2 _ hs
  | copy _ h ih => exact (copy_inv ih h).1
  | getCan _ h ih =>
    obtain ⟨hg, rfl, -⟩ := getCan_inv ih h
    exact (good_can hg).inv
  | getCov _ h ih => exact (getCov_inv ih h).1
  | reorder _ hp h ih => exact (reorder_inv ih hp h).1
  | multiply_left _ _ h iha ihb => exact (absorb_inv iha ihb h).2.2.1.inv
  | multiply_right _ _ h iha ihb => exact (absorb_inv iha ihb h).2.2.2.1.inv
  | multiply _ _ h iha ihb => exact (absorb_inv iha ihb h).2.2.2.2.inv
  | divide_left _ _ h iha ihb => exact (absorb_inv iha ihb h).2.2.1.inv
  | divide_right _ _ h iha ihb => exact (absorb_inv iha ihb h).2.2.2.1.inv
  | divide _ _ h iha ihb => exact (absorb_inv iha ihb h).2.2.2.2.inv
  | marginalize _ h ih => exact marginalizeTo_inv ih h
  | reduce_self _ h ih => exact (reduce_inv ih h).2.1.inv
  | reduce _ h ih => exact (reduce_inv ih h).2.2
  | normalize _ h ih => exact normalize_inv ih h
  | invert _ h ih => exact invert_inv ih h
  | addLogWeight w _ ih => exact addLogWeight_inv ih w
  | equals_left _ _ h iha ihb => exact (equals_inv iha ihb h).1
  | equals_right _ _ h iha ihb => exact (equals_inv iha ihb h).2
  | kl_left _ _ h iha ihb => exact (kl_inv iha ihb h).1
  | kl_right _ _ h iha ihb => exact (kl_inv iha ihb h).2
  | split_self _ h ih => exact (split_inv ih h).1
  | split _ h hk ih => exact (split_inv ih h).2 _ hk

end Verif.Gauss
