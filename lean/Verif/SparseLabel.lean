import Verif.ClusterProps6

/-!
# Sparse factors whose assignment values are not below the cardinalities

The constructor of `SparseCategorical` does not relate the assignments of the table to the cardinalities
(sparse_categorical.py 416-417), and `examples/sudoku.ipynb` uses the values `1 .. n` for a variable with `n`
values. The cardinalities only matter for the assertion in binary operations (570-579), for the dense fill of the
rule `none` (206-240) and for `distance_from_vacuous` (810-823). This file compares a factor with the same table
under larger cardinalities.
-/

namespace Verif.Sparse
open Spec (Asg)

variable {K : Type}

/-- The same table under the cardinalities `B`. -/
def recard (B : Var → Nat) (f : Sparse K) : Sparse K := { f with cards := f.vars.map B }

theorem recard_val (B : Var → Nat) (f : Sparse K) : (recard B f).val = f.val := rfl
theorem recard_prob (B : Var → Nat) (f : Sparse ℝ) : (recard B f).prob = f.prob := rfl

theorem recard_card {B : Var → Nat} {f : Sparse K} {v : Var} (hv : v ∈ f.vars) : (recard B f).card v = B v := by
  unfold card varCards recard
  dsimp only
  rw [Dict.get?_zip_map _ _ _ hv]; rfl

/-- What is left of `WF` without the condition on the values. -/
structure Shaped (C : Var → Nat) (f : Sparse K) : Prop where
  nodup : f.vars.Nodup
  cards : f.cards = f.vars.map C
  keyLen : KeyLen f.vars f.table

variable {C B : Var → Nat} {f g : Sparse K}

theorem Shaped.get? (h : Shaped C f) {v : Var} (hv : v ∈ f.vars) : Dict.get? f.varCards v = some (C v) := by
  unfold varCards
  rw [h.cards]
  exact Dict.get?_zip_map _ _ _ hv

theorem Shaped.recard (h : Shaped C f) : Shaped B (recard B f) := ⟨h.nodup, rfl, h.keyLen⟩

theorem Shaped.consistent (hf : Shaped C f) (hg : Shaped C g) : consistentCards f g = true := by
  unfold consistentCards
  rw [List.all_eq_true]
  intro v hv
  by_cases hgv : v ∈ g.vars
  · rw [hg.get? hgv, hf.get? hv]; simp
  · rw [get?_varCards_none hgv]

theorem Shaped.merged (hf : Shaped C f) (hg : Shaped C g) {v : Var} (hv : v ∈ f.vars ∨ v ∈ g.vars) :
    Dict.get? (Dict.merge f.varCards g.varCards) v = some (C v) := by
  have hgn : (Dict.keys g.varCards).Nodup := by
    unfold varCards; rw [hg.cards, keys_zip (by simp)]; exact hg.nodup
  rw [Dict.get?_merge _ _ hgn]
  by_cases hgv : v ∈ g.vars
  · simp [hg.get? hgv]
  · have hfv : v ∈ f.vars := by tauto
    simp [get?_varCards_none hgv, hf.get? hfv]

/-- The nested table of a binary operation under the cardinalities `C`. -/
def labNested [DecidableEq K] (hs : HashSeed) (C : Var → Nat) (f g : Sparse K) (op : XF K → XF K → XF K)
    (rule : Rule) : Nested K :=
  anyScope hs (nest (remA hs f g) (interVars hs f g) f.vars f.table)
    (nest (remB hs f g) (interVars hs f g) g.vars g.table)
    ((remA hs f g).map C) ((interVars hs f g).map C) ((remB hs f g).map C) ((interVars hs f g).map C) op f.dflt rule

/-- The result of a binary operation under the cardinalities `C`. -/
def labResult [DecidableEq K] (hs : HashSeed) (C : Var → Nat) (f g : Sparse K) (op : XF K → XF K → XF K)
    (rule : Rule) : Sparse K :=
  ⟨remA hs f g ++ remB hs f g ++ interVars hs f g, (remA hs f g ++ remB hs f g ++ interVars hs f g).map C,
   flatten (labNested hs C f g op rule), op f.dflt f.dflt⟩

theorem applyBinary_lab [DecidableEq K] {hs : HashSeed} (hf : Shaped C f) (hg : Shaped C g) (hd : f.dflt = .ninf)
    (hd' : g.dflt = .ninf) (op : XF K → XF K → XF K) (rule : Rule) :
    applyBinary hs f g op rule = .ok (labResult hs C f g op rule) := by
  unfold applyBinary pyAssert pyGuard
  rw [if_pos (hf.consistent hg)]
  simp only [py_bind_ok]
  rw [show pySorted (hs.strs.toList (List.filter (fun x => decide (x ∈ g.vars)) f.vars))
    = interVars hs f g from rfl]
  rw [show hs.strs.toList (f.vars.filter (fun x => decide (x ∉ interVars hs f g))) = remA hs f g from rfl]
  rw [show hs.strs.toList (g.vars.filter (fun x => decide (x ∉ interVars hs f g))) = remB hs f g from rfl]
  rw [nestedSorted_eq (permA hf.nodup) hf.nodup hf.keyLen,
    nestedSorted_eq (permB hg.nodup) hg.nodup hg.keyLen]
  simp only [py_bind_ok]
  have hne : XF.ne f.dflt g.dflt = false := by rw [hd, hd', XF.ne_self]; simp
  simp only [hne, Bool.not_false, if_true, py_bind_ok]
  rw [mapM_ok (g := C) fun v hv => getItem_ok (hf.get? (mem_remA.1 hv).1),
    mapM_ok (g := C) fun v hv => getItem_ok (hf.get? (mem_inter.1 hv).1),
    mapM_ok (g := C) fun v hv => getItem_ok (hg.get? (mem_remB.1 hv).1),
    mapM_ok (g := C) fun v hv => getItem_ok (hg.get? (mem_inter.1 hv).2),
    mapM_ok (g := C) fun v hv => getItem_ok (hf.merged hg (mem_result.1 hv))]
  simp only [py_bind_ok]
  unfold new
  rw [if_neg (not_not.2 nodup_result), if_neg (by simp)]
  rfl

/-- Binary operations under the rule `any` (`multiply`, `cancel`) do not depend on the cardinalities. -/
theorem applyBinary_any [DecidableEq K] {hs : HashSeed} (hf : Shaped C f) (hg : Shaped C g) (hd : f.dflt = .ninf)
    (hd' : g.dflt = .ninf) (op : XF K → XF K → XF K) :
    ∃ r, applyBinary hs f g op .any = .ok r ∧ applyBinary hs (recard B f) (recard B g) op .any = .ok (recard B r) ∧
      r.cards = r.vars.map C :=
  ⟨_, applyBinary_lab hf hg hd hd' op .any, applyBinary_lab hf.recard hg.recard hd hd' op .any, rfl⟩

theorem filter_values (l : List Var) (C : Var → Nat) (p : Var → Bool) :
    Dict.values ((l.zip (l.map C)).filter fun e => p e.1) = (l.filter p).map C := by
  induction l with
  | nil => rfl
  | cons v l ih =>
    unfold Dict.values at ih ⊢
    rw [List.map_cons, List.zip_cons_cons, List.filter_cons, List.filter_cons]
    cases h : p v <;> simp [h, ih]

theorem marginalize_lab {hs : HashSeed} {f : Sparse ℝ} (hf : Shaped C f) {vrs : List Var} (hn : vrs.Nodup)
    (hv : ∀ v ∈ vrs, v ∈ f.vars) {r' : Sparse ℝ} (h : marginalize hs (recard B f) vrs true = .ok r') :
    ∃ r, marginalize hs f vrs true = .ok r ∧ r' = recard B r ∧ r.cards = r.vars.map C := by
  have hdel : ∀ {C : Var → Nat} {f : Sparse ℝ}, Shaped C f → ∀ v ∈ f.vars.filter (fun v => decide (v ∉ vrs)),
      v ∈ Dict.keys f.varCards := by
    intro C f hf v hv'
    unfold varCards
    rw [hf.cards, keys_zip (by simp)]
    exact (List.mem_filter.1 hv').1
  unfold marginalize at h ⊢
  dsimp only [marginalVars, if_true] at h ⊢
  rw [show (recard B f).vars = f.vars from rfl, show (recard B f).table = f.table from rfl] at h
  simp only [if_true] at h ⊢
  obtain ⟨nd, h1, h⟩ := py_bind_eq_ok.1 h
  obtain ⟨t, h2, h⟩ := py_bind_eq_ok.1 h
  rw [dict_del_foldlM _ (hf.nodup.filter _) (hdel (f := recard B f) hf.recard), py_bind_ok,
    mapM_ok (g := B) fun v hvv => getItem_ok (hf.recard.get? (hv v hvv)), py_bind_ok] at h
  rw [h1, py_bind_ok, h2, py_bind_ok, dict_del_foldlM _ (hf.nodup.filter _) (hdel hf), py_bind_ok,
    mapM_ok (g := C) fun v hvv => getItem_ok (hf.get? (hv v hvv)), py_bind_ok]
  unfold new at h ⊢
  rw [if_neg (not_not.2 hn), if_neg (by simp)] at h ⊢
  simp only [Except.ok.injEq] at h
  exact ⟨_, rfl, h.symm, rfl⟩

theorem reduce_lab (hf : Shaped C f) {vrs : List Var} (hn : vrs.Nodup) (hv : ∀ v ∈ vrs, v ∈ f.vars)
    (values : List Nat) :
    (∃ e, reduce f vrs values = .error e ∧ reduce (recard B f) vrs values = .error e) ∨
    ∃ r, reduce f vrs values = .ok r ∧ reduce (recard B f) vrs values = .ok (recard B r) ∧
      r.cards = r.vars.map C := by
  have hdel : ∀ {C : Var → Nat} {f' : Sparse K}, Shaped C f' → f'.vars = f.vars → ∀ v ∈ vrs,
      v ∈ Dict.keys f'.varCards := by
    intro C f' hf' e v hv'
    unfold varCards
    rw [hf'.cards, keys_zip (by simp), e]
    exact hv v hv'
  unfold reduce
  dsimp only
  rw [show (recard B f).vars = f.vars from rfl, show (recard B f).table = f.table from rfl]
  cases h1 : nestedSorted vrs (f.vars.filter fun x => decide (x ∉ vrs)) f.vars f.table with
  | error e => exact Or.inl ⟨e, rfl, rfl⟩
  | ok nd =>
    rw [py_bind_ok, py_bind_ok]
    cases h2 : Dict.getItem nd values with
    | error e => exact Or.inl ⟨e, rfl, rfl⟩
    | ok lp =>
      right
      rw [py_bind_ok, py_bind_ok, dict_del_foldlM _ hn (hdel hf rfl), dict_del_foldlM _ hn (hdel hf.recard rfl),
        py_bind_ok, py_bind_ok]
      have e1 : ∀ {C : Var → Nat} {f' : Sparse K}, Shaped C f' → f'.vars = f.vars →
          Dict.values (f'.varCards.filter fun e => decide (e.1 ∉ vrs)) =
            (f.vars.filter fun x => decide (x ∉ vrs)).map C := by
        intro C f' hf' e
        unfold varCards
        rw [hf'.cards, e]
        exact filter_values f.vars C fun v => decide (v ∉ vrs)
      rw [e1 hf rfl, e1 hf.recard rfl]
      unfold new
      rw [if_neg (not_not.2 (hf.nodup.filter _)), if_neg (by simp), if_neg (not_not.2 (hf.nodup.filter _)),
        if_neg (by simp)]
      exact ⟨_, rfl, rfl, rfl⟩

end Verif.Sparse
