import Verif.SparseLemmas
import Verif.Spec

/-! Well-formed sparse factors, the function they denote, and the effect of `applyBinary`. -/

set_option linter.unusedSectionVars false

namespace Verif.Sparse
variable {K : Type}
open Spec (Asg)

/-- The log value a sparse factor gives to an assignment: the table entry or the default. -/
def val (f : Sparse K) (x : Asg) : XF K := (Dict.get? f.table (f.vars.map x)).getD f.dflt

/-- The cardinality a factor gives to one of its variables. -/
def card (f : Sparse K) (v : Var) : Nat := (Dict.get? f.varCards v).getD 0

/-- A well formed sparse factor: what the constructor checks (distinct variables, one cardinality
each), what a `dict` guarantees (distinct keys), and what the constructor's TODO comments
(sparse_categorical.py 416-417) ask of the caller (assignments within the cardinalities). -/
structure WF (f : Sparse K) : Prop where
  nodup : f.vars.Nodup
  cardsLen : f.cards.length = f.vars.length
  keys : (Dict.keys f.table).Nodup
  range : ∀ k ∈ Dict.keys f.table, List.Forall₂ (fun i c => i < c) k f.cards

/-- All values (and the default) are logs of finite non-negative numbers. -/
def Proper (f : Sparse K) : Prop := (∀ e ∈ f.table, e.2.Proper) ∧ f.dflt.Proper

/-- Shared variables have equal cardinalities. -/
def Consistent (f g : Sparse K) : Prop := ∀ v ∈ f.vars, v ∈ g.vars → f.card v = g.card v

namespace WF
variable {f : Sparse K}

theorem keyLen (h : WF f) : KeyLen f.vars f.table := fun k hk => by
  rw [(h.range k hk).length_eq, h.cardsLen]

theorem get?_varCards (h : WF f) {v : Var} (hv : v ∈ f.vars) :
    Dict.get? f.varCards v = some (f.card v) := by
  unfold card varCards
  rw [get?_zip _ h.nodup h.cardsLen hv]; rfl

theorem cards_eq (h : WF f) : f.cards = f.vars.map f.card := by
  rw [← map_asgOf h.nodup h.cardsLen]
  apply List.map_congr_left
  intro v hv
  unfold card varCards
  rw [get?_zip _ h.nodup h.cardsLen hv]; rfl

theorem key_range (h : WF f) {k : List Nat} (hk : k ∈ Dict.keys f.table) {v : Var} (hv : v ∈ f.vars) :
    asgOf f.vars k v < f.card v := by
  have h1 := h.range k hk
  rw [h.cards_eq, ← map_asgOf h.nodup (h.keyLen k hk), List.forall₂_map_left_iff,
    List.forall₂_map_right_iff, List.forall₂_same] at h1
  exact h1 v hv

theorem mem_key (h : WF f) {k : List Nat} (hk : k ∈ Dict.keys f.table) :
    f.vars.map (asgOf f.vars k) = k := map_asgOf h.nodup (h.keyLen k hk)

end WF

theorem forall₂_map {l : List Var} {x c : Var → Nat} :
    List.Forall₂ (fun i c => i < c) (l.map x) (l.map c) ↔ ∀ v ∈ l, x v < c v := by
  rw [List.forall₂_map_left_iff, List.forall₂_map_right_iff, List.forall₂_same]

theorem get?_varCards_none {f : Sparse K} {v : Var} (hv : v ∉ f.vars) :
    Dict.get? f.varCards v = none := get?_zip_none hv

/-- Values agree when assignments agree on the scope. -/
theorem val_dependsOn (f : Sparse K) : Spec.DependsOn f.val f.vars := by
  intro x y h
  unfold val
  rw [List.map_congr_left h]

/-! ### Pieces of `applyBinary` -/

/-- `intersection_vars` (665-666). -/
def interVars (hs : HashSeed) (f g : Sparse K) : List Var :=
  pySorted (hs.strs.toList (f.vars.filter (· ∈ g.vars)))

/-- `remaining_a_vars` (668). -/
def remA (hs : HashSeed) (f g : Sparse K) : List Var :=
  hs.strs.toList (f.vars.filter (· ∉ interVars hs f g))

/-- `remaining_b_vars` (676). -/
def remB (hs : HashSeed) (f g : Sparse K) : List Var :=
  hs.strs.toList (g.vars.filter (· ∉ interVars hs f g))

variable {hs : HashSeed} {f g : Sparse K}

theorem mem_inter {v : Var} : v ∈ interVars hs f g ↔ v ∈ f.vars ∧ v ∈ g.vars := by
  simp [interVars]

theorem mem_remA {v : Var} : v ∈ remA hs f g ↔ v ∈ f.vars ∧ v ∉ g.vars := by
  simp only [remA, SetOrder.mem, List.mem_filter, mem_inter, decide_eq_true_eq]; tauto

theorem mem_remB {v : Var} : v ∈ remB hs f g ↔ v ∈ g.vars ∧ v ∉ f.vars := by
  simp only [remB, SetOrder.mem, List.mem_filter, mem_inter, decide_eq_true_eq]; tauto

theorem nodup_inter : (interVars hs f g).Nodup := nodup_pySorted.2 (hs.strs.nodup _)
theorem nodup_remA : (remA hs f g).Nodup := hs.strs.nodup _
theorem nodup_remB : (remB hs f g).Nodup := hs.strs.nodup _

theorem permA (hf : f.vars.Nodup) : (remA hs f g ++ interVars hs f g).Perm f.vars := by
  rw [List.perm_ext_iff_of_nodup _ hf]
  · intro v; simp only [List.mem_append, mem_remA, mem_inter]; tauto
  · rw [List.nodup_append']
    refine ⟨nodup_remA, nodup_inter, ?_⟩
    intro v h1 h2
    rw [mem_remA] at h1; rw [mem_inter] at h2; tauto

theorem permB (hg : g.vars.Nodup) : (remB hs f g ++ interVars hs f g).Perm g.vars := by
  rw [List.perm_ext_iff_of_nodup _ hg]
  · intro v; simp only [List.mem_append, mem_remB, mem_inter]; tauto
  · rw [List.nodup_append']
    refine ⟨nodup_remB, nodup_inter, ?_⟩
    intro v h1 h2
    rw [mem_remB] at h1; rw [mem_inter] at h2; tauto

theorem nodup_result : (remA hs f g ++ remB hs f g ++ interVars hs f g).Nodup := by
  rw [List.nodup_append', List.nodup_append']
  refine ⟨⟨nodup_remA, nodup_remB, ?_⟩, nodup_inter, ?_⟩
  · intro v h1 h2
    rw [mem_remA] at h1; rw [mem_remB] at h2; tauto
  · intro v h1 h2
    simp only [List.mem_append, mem_remA, mem_remB] at h1
    rw [mem_inter] at h2; tauto

theorem mem_result {v : Var} :
    v ∈ remA hs f g ++ remB hs f g ++ interVars hs f g ↔ v ∈ f.vars ∨ v ∈ g.vars := by
  simp only [List.mem_append, mem_remA, mem_remB, mem_inter]; tauto

/-- The cardinality of a variable in the result: `{**self.var_cards, **factor.var_cards}` (714). -/
def mergedCard (f g : Sparse K) (v : Var) : Nat := if v ∈ g.vars then g.card v else f.card v

theorem consistentCards_iff (hf : WF f) (hg : WF g) :
    consistentCards f g = true ↔ Consistent f g := by
  unfold consistentCards Consistent
  rw [List.all_eq_true]
  refine forall₂_congr fun v hv => ?_
  by_cases hgv : v ∈ g.vars
  · simp [hg.get?_varCards hgv, hf.get?_varCards hv, hgv]
  · simp [get?_varCards_none hgv, hgv]

theorem get?_merged (hf : WF f) (hg : WF g) {v : Var} (hv : v ∈ f.vars ∨ v ∈ g.vars) :
    Dict.get? (Dict.merge f.varCards g.varCards) v = some (mergedCard f g v) := by
  have hgn : (Dict.keys g.varCards).Nodup := by
    unfold varCards; rw [keys_zip hg.cardsLen]; exact hg.nodup
  rw [Dict.get?_merge _ _ hgn]
  unfold mergedCard
  by_cases hgv : v ∈ g.vars
  · simp [hg.get?_varCards hgv, hgv]
  · have hfv : v ∈ f.vars := by tauto
    simp [get?_varCards_none hgv, hf.get?_varCards hfv, hgv]

variable [DecidableEq K]

/-- The result of the nested operation for given operands. -/
def binNested (hs : HashSeed) (f g : Sparse K) (op : XF K → XF K → XF K) (rule : Rule) : Nested K :=
  anyScope hs (nest (remA hs f g) (interVars hs f g) f.vars f.table)
    (nest (remB hs f g) (interVars hs f g) g.vars g.table)
    ((remA hs f g).map f.card) ((interVars hs f g).map f.card)
    ((remB hs f g).map g.card) ((interVars hs f g).map g.card) op f.dflt rule

/-- The factor `applyBinary` returns when it does not raise. -/
def binResult (hs : HashSeed) (f g : Sparse K) (op : XF K → XF K → XF K) (rule : Rule) : Sparse K :=
  ⟨remA hs f g ++ remB hs f g ++ interVars hs f g,
   (remA hs f g ++ remB hs f g ++ interVars hs f g).map (mergedCard f g),
   flatten (binNested hs f g op rule), op f.dflt f.dflt⟩

theorem applyBinary_eq (hf : WF f) (hg : WF g) (op : XF K → XF K → XF K) (rule : Rule) :
    applyBinary hs f g op rule =
      if consistentCards f g then
        if XF.ne f.dflt g.dflt then .error .notImplementedError
        else .ok (binResult hs f g op rule)
      else .error .assertionError := by
  unfold applyBinary pyAssert pyGuard
  by_cases hc : consistentCards f g = true
  · rw [if_pos hc, if_pos hc]
    simp only [py_bind_ok]
    rw [show pySorted (hs.strs.toList (List.filter (fun x => decide (x ∈ g.vars)) f.vars))
      = interVars hs f g from rfl]
    rw [show hs.strs.toList (f.vars.filter (fun x => decide (x ∉ interVars hs f g))) = remA hs f g from rfl]
    rw [show hs.strs.toList (g.vars.filter (fun x => decide (x ∉ interVars hs f g))) = remB hs f g from rfl]
    rw [nestedSorted_eq (permA hf.nodup) hf.nodup hf.keyLen,
      nestedSorted_eq (permB hg.nodup) hg.nodup hg.keyLen]
    simp only [py_bind_ok]
    by_cases hd : XF.ne f.dflt g.dflt = true
    · simp [hd]
    · simp only [hd, Bool.not_false, if_true, py_bind_ok]
      rw [mapM_ok (g := f.card) fun v hv => getItem_ok (hf.get?_varCards (mem_remA.1 hv).1),
        mapM_ok (g := f.card) fun v hv => getItem_ok (hf.get?_varCards (mem_inter.1 hv).1),
        mapM_ok (g := g.card) fun v hv => getItem_ok (hg.get?_varCards (mem_remB.1 hv).1),
        mapM_ok (g := g.card) fun v hv => getItem_ok (hg.get?_varCards (mem_inter.1 hv).2),
        mapM_ok (g := mergedCard f g) fun v hv => getItem_ok (get?_merged hf hg (mem_result.1 hv))]
      simp only [py_bind_ok]
      unfold new
      rw [if_neg (not_not.2 nodup_result), if_neg (by simp)]
      rfl
  · rw [if_neg hc, if_neg hc]; rfl

/-! ### Values of nested tables -/

/-- Lookup in a nested table with default. -/
def val2 (nd : Nested K) (da : Dict (List Nat) (XF K)) (d : XF K) (o i : List Nat) : XF K :=
  (Dict.get? ((Dict.get? nd o).getD da) i).getD d

theorem val2_nest (hf : WF f) {outer inner : List Var} (hp : (outer ++ inner).Perm f.vars)
    (x : Asg) (da : Dict (List Nat) (XF K)) (hda : ∀ i, (Dict.get? da i).getD f.dflt = f.dflt) :
    val2 (nest outer inner f.vars f.table) da f.dflt (outer.map x) (inner.map x) = f.val x := by
  unfold val2 val
  rw [get?_nest hp hf.nodup hf.keyLen hf.keys]
  have := get?_subTable hp hf.nodup hf.keyLen hf.keys x
  split
  · rename_i h
    rw [h] at this
    simp only [Dict.get?] at this
    rw [← this]
    simpa using hda _
  · simpa using congrArg (·.getD f.dflt) this

theorem get?_denseDefault (cards : List Nat) (d : XF K) (i : List Nat) :
    (Dict.get? (denseDefault cards d) i).getD d = d := by
  unfold denseDefault
  generalize productRange cards = l
  induction l with
  | nil => simp [Dict.get?]
  | cons t l ih => by_cases h : t = i <;> simp [Dict.get?, h, ih]

theorem get?_fillInner (cards : List Nat) (d : XF K) (s : Dict (List Nat) (XF K)) (i : List Nat) :
    (Dict.get? (fillInner cards d s) i).getD d = (Dict.get? s i).getD d := by
  unfold fillInner
  generalize productRange cards = l
  induction l generalizing s with
  | nil => rfl
  | cons t l ih =>
    rw [List.foldl_cons, ih]
    split
    · rfl
    · rename_i h
      rw [Dict.get?_set]
      split
      · rename_i h'
        subst h'
        rw [Dict.get?_eq_none_iff.2 h]; rfl
      · rfl

theorem val2_makeInnerDense (nd : Nested K) (cards : List Nat) (da : Dict (List Nat) (XF K)) (d : XF K)
    (o i : List Nat) : val2 (makeInnerDense nd cards d) da d o i = val2 nd da d o i := by
  unfold makeInnerDense val2
  cases nd with
  | nil => rfl
  | cons e rest =>
    by_cases h : e.1 = o
    · simp [Dict.get?, h, get?_fillInner]
    · simp [Dict.get?, h]

/-! ### The combinations of outer assignments -/

theorem combos_inj {la lb : List (List Nat)} {n : Nat} (h : ∀ a ∈ la, a.length = n) :
    ∀ c ∈ product2 la lb, ∀ c' ∈ product2 la lb, c.1 ++ c.2 = c'.1 ++ c'.2 → c = c' := by
  intro c hc c' hc' he
  simp only [product2, List.mem_flatMap, List.mem_map] at hc hc'
  obtain ⟨a, ha, b, _, rfl⟩ := hc
  obtain ⟨a', ha', b', _, rfl⟩ := hc'
  obtain ⟨h1, h2⟩ := List.append_inj he (by rw [h a ha, h a' ha'])
  simp only at h1 h2
  rw [h1, h2]

theorem mem_product2 {α β : Type} {a : List α} {b : List β} {c : α × β} :
    c ∈ product2 a b ↔ c.1 ∈ a ∧ c.2 ∈ b := by
  obtain ⟨x, y⟩ := c
  simp [product2]

theorem length_of_mem_keys_nest (hf : WF f) {outer inner : List Var}
    (hp : (outer ++ inner).Perm f.vars) {o : List Nat}
    (h : o ∈ Dict.keys (nest outer inner f.vars f.table)) : o.length = outer.length := by
  obtain ⟨e, _, rfl⟩ := (mem_keys_nest hp hf.nodup hf.keyLen hf.keys).1 h
  simp

theorem length_of_mem_productRange {cs t : List Nat} (h : t ∈ productRange cs) :
    t.length = cs.length := (mem_productRange.1 h).length_eq

/-- Keys of the inner tables of `nest` are described by table entries. -/
theorem mem_inner_nest (hf : WF f) {outer inner : List Var} (hp : (outer ++ inner).Perm f.vars)
    {o i : List Nat} (da : Dict (List Nat) (XF K))
    (h : i ∈ Dict.keys ((Dict.get? (nest outer inner f.vars f.table) o).getD da)) :
    (∃ k ∈ Dict.keys f.table, i = inner.map (asgOf f.vars k)) ∨ i ∈ Dict.keys da := by
  rw [get?_nest hp hf.nodup hf.keyLen hf.keys] at h
  split at h
  · exact Or.inr h
  · obtain ⟨x, rfl, _, e, he, rfl⟩ := subTable_keyLen _ _ _ _ _ _ h
    exact Or.inl ⟨e.1, List.mem_map.2 ⟨e, he, rfl⟩, rfl⟩

theorem mem_keys_fillInner {cards : List Nat} {d : XF K} {s : Dict (List Nat) (XF K)} {i : List Nat}
    (h : i ∈ Dict.keys (fillInner cards d s)) : i ∈ Dict.keys s ∨ i ∈ productRange cards := by
  unfold fillInner at h
  generalize productRange cards = l at h
  induction l generalizing s with
  | nil => exact Or.inl h
  | cons t l ih =>
    rw [List.foldl_cons] at h
    rcases ih h with h | h
    · split at h
      · exact Or.inl h
      · rcases Dict.mem_keys_set.1 h with rfl | h
        · exact Or.inr (by simp)
        · exact Or.inl h
    · exact Or.inr (by simp [h])

theorem mem_inner_makeInnerDense {nd : Nested K} {cards : List Nat} {d : XF K} {o i : List Nat}
    {da : Dict (List Nat) (XF K)}
    (h : i ∈ Dict.keys ((Dict.get? (makeInnerDense nd cards d) o).getD da)) :
    i ∈ Dict.keys ((Dict.get? nd o).getD da) ∨ i ∈ productRange cards := by
  unfold makeInnerDense at h
  cases nd with
  | nil => exact Or.inl h
  | cons e rest =>
    by_cases he : e.1 = o
    · simp only [Dict.get?, he, if_true, Option.getD_some] at h ⊢
      exact mem_keys_fillInner h
    · simp only [Dict.get?, he, if_false] at h ⊢
      exact Or.inl h

/-! ### Shape of `applyAnyScope` results -/

section
variable (op : XF K → XF K → XF K) (d : XF K)

theorem applyAny_get?_flatten {a b : Nested K} {da db : Dict (List Nat) (XF K)}
    {la lb : List (List Nat)} {n m : Nat} (hla : ∀ o ∈ la, o.length = n) (hlb : ∀ o ∈ lb, o.length = m)
    (o i : List Nat) (ho : o.length = n + m) :
    Dict.get? (flatten (applyAnyScope hs a b da db (product2 la lb) op d)) (o ++ i) =
      (Dict.get? (applyAnyScope hs a b da db (product2 la lb) op d) o).bind fun s => Dict.get? s i := by
  have hk : ∀ e ∈ applyAnyScope hs a b da db (product2 la lb) op d,
      ∃ c ∈ product2 la lb, c.1 ++ c.2 = e.1 ∧
      e.2 = sameScope hs ((Dict.get? a c.1).getD da) ((Dict.get? b c.2).getD db) op d := by
    intro e he
    exact get?_applyAny_some hs op d (combos_inj hla)
      (Dict.get?_of_mem (nodup_keys_applyAny hs op d a b da db _) he)
  refine get?_flatten (n := n + m) (nodup_keys_applyAny hs op d a b da db _) ?_ ?_ o i ho
  · intro o ho
    obtain ⟨e, he, rfl⟩ := List.mem_map.1 ho
    obtain ⟨c, hc, h1, _⟩ := hk e he
    rw [← h1, List.length_append, hla _ (mem_product2.1 hc).1, hlb _ (mem_product2.1 hc).2]
  · intro e he
    obtain ⟨c, _, _, h2⟩ := hk e he
    rw [h2]
    exact nodup_keys_sameScope hs op d _ _

theorem applyAny_val {a b : Nested K} {da db : Dict (List Nat) (XF K)}
    {la lb : List (List Nat)} {n m : Nat} (hla : ∀ o ∈ la, o.length = n) (hlb : ∀ o ∈ lb, o.length = m)
    (o o' i : List Nat) (ho : o.length = n) (ho' : o'.length = m) :
    (Dict.get? (flatten (applyAnyScope hs a b da db (product2 la lb) op d)) (o ++ o' ++ i)).getD (op d d)
      = if o ∈ la ∧ o' ∈ lb then op (val2 a da d o i) (val2 b db d o' i) else op d d := by
  rw [applyAny_get?_flatten op d hla hlb (o ++ o') i (by simp [ho, ho'])]
  split
  · rename_i h
    exact getD_applyAny hs op d (combos_inj hla) (c := (o, o')) (mem_product2.2 h) i
  · rename_i h
    cases hg : Dict.get? (applyAnyScope hs a b da db (product2 la lb) op d) (o ++ o') with
    | none => rfl
    | some s =>
      obtain ⟨c, hc, h1, _⟩ := get?_applyAny_some hs op d (combos_inj hla) hg
      have hc' := mem_product2.1 hc
      obtain ⟨h3, h4⟩ := List.append_inj h1 (by rw [hla _ hc'.1, ho])
      exact absurd ⟨h3 ▸ hc'.1, h4 ▸ hc'.2⟩ h

theorem applyAny_keys {a b : Nested K} {da db : Dict (List Nat) (XF K)}
    {la lb : List (List Nat)} {n : Nat} (hla : ∀ o ∈ la, o.length = n) {k : List Nat}
    (hk : k ∈ Dict.keys (flatten (applyAnyScope hs a b da db (product2 la lb) op d))) :
    ∃ o ∈ la, ∃ o' ∈ lb, ∃ i, k = o ++ o' ++ i ∧
      (i ∈ Dict.keys ((Dict.get? a o).getD da) ∨ i ∈ Dict.keys ((Dict.get? b o').getD db)) := by
  obtain ⟨e, he, i, hi, rfl⟩ := mem_keys_flatten hk
  obtain ⟨c, hc, h1, h2⟩ := get?_applyAny_some hs op d (combos_inj hla)
      (Dict.get?_of_mem (nodup_keys_applyAny hs op d a b da db _) he)
  rw [h2] at hi
  exact ⟨c.1, (mem_product2.1 hc).1, c.2, (mem_product2.1 hc).2, i, by rw [h1],
    mem_keys_sameScope hs op d hi⟩

end

/-! ### Values of the result -/

/-- Some table entry of `f` agrees with `x` on the variables `rem`. -/
def HasOuter (f : Sparse K) (rem : List Var) (x : Asg) : Prop :=
  ∃ k ∈ Dict.keys f.table, ∀ v ∈ rem, asgOf f.vars k v = x v

theorem mem_keys_nest_iff (hf : WF f) {outer inner : List Var} (hp : (outer ++ inner).Perm f.vars)
    (x : Asg) : outer.map x ∈ Dict.keys (nest outer inner f.vars f.table) ↔ HasOuter f outer x := by
  rw [mem_keys_nest hp hf.nodup hf.keyLen hf.keys]
  constructor
  · rintro ⟨e, he, h⟩
    exact ⟨e.1, List.mem_map.2 ⟨e, he, rfl⟩, map_eq_map_iff'.1 h⟩
  · rintro ⟨k, hk, h⟩
    obtain ⟨e, he, rfl⟩ := List.mem_map.1 hk
    exact ⟨e, he, map_eq_map_iff'.2 h⟩

open Classical in
theorem binResult_val_any (hf : WF f) (hg : WF g) (hd : f.dflt = g.dflt) (op : XF K → XF K → XF K)
    (x : Asg) : (binResult hs f g op .any).val x =
      if HasOuter f (remA hs f g) x ∧ HasOuter g (remB hs f g) x then op (f.val x) (g.val x)
      else op f.dflt f.dflt := by
  have hA := permA (hs := hs) (f := f) (g := g) hf.nodup
  have hB := permB (hs := hs) (f := f) (g := g) hg.nodup
  change (Dict.get? (flatten (binNested hs f g op .any))
    ((remA hs f g ++ remB hs f g ++ interVars hs f g).map x)).getD (op f.dflt f.dflt) = _
  unfold binNested anyScope
  simp only [List.map_append]
  rw [applyAny_val op f.dflt (n := (remA hs f g).length) (m := (remB hs f g).length)
    (fun o ho => length_of_mem_keys_nest hf hA ho) (fun o ho => length_of_mem_keys_nest hg hB ho)
    _ _ _ (by simp) (by simp)]
  rw [val2_nest hf hA x [] (by simp [Dict.get?]), hd, val2_nest hg hB x [] (by simp [Dict.get?])]
  simp only [mem_keys_nest_iff hf hA, mem_keys_nest_iff hg hB]

theorem binResult_val_none (hf : WF f) (hg : WF g) (hd : f.dflt = g.dflt) (op : XF K → XF K → XF K)
    (x : Asg) (hx : ∀ v ∈ f.vars, x v < f.card v) (hx' : ∀ v ∈ g.vars, x v < g.card v) :
    (binResult hs f g op .none).val x = op (f.val x) (g.val x) := by
  have hA := permA (hs := hs) (f := f) (g := g) hf.nodup
  have hB := permB (hs := hs) (f := f) (g := g) hg.nodup
  change (Dict.get? (flatten (binNested hs f g op .none))
    ((remA hs f g ++ remB hs f g ++ interVars hs f g).map x)).getD (op f.dflt f.dflt) = _
  unfold binNested anyScope anyScopeNone
  simp only [List.map_append]
  rw [applyAny_val op f.dflt (n := (remA hs f g).length) (m := (remB hs f g).length)
    (fun o ho => by simpa using length_of_mem_productRange ho)
    (fun o ho => by simpa using length_of_mem_productRange ho)
    _ _ _ (by simp) (by simp)]
  rw [val2_makeInnerDense, val2_makeInnerDense, val2_nest hf hA x _ (get?_denseDefault _ _), hd,
    val2_nest hg hB x _ (get?_denseDefault _ _), if_pos]
  · rw [mem_productRange, mem_productRange, forall₂_map, forall₂_map]
    exact ⟨fun v hv => hx v (mem_remA.1 hv).1, fun v hv => hx' v (mem_remB.1 hv).1⟩

theorem binResult_card (v : Var) (hv : v ∈ f.vars ∨ v ∈ g.vars) (op : XF K → XF K → XF K) (rule : Rule) :
    (binResult hs f g op rule).card v = mergedCard f g v := by
  unfold card varCards binResult
  rw [Dict.get?_zip_map _ _ _ (mem_result.2 hv)]; rfl

theorem binResult_range (hf : WF f) (hg : WF g) (hc : Consistent f g) {rule : Rule}
    (hr : rule = .any ∨ rule = .none) (op : XF K → XF K → XF K) :
    ∀ k ∈ Dict.keys (binResult hs f g op rule).table,
      List.Forall₂ (fun i c => i < c) k (binResult hs f g op rule).cards := by
  have hA := permA (hs := hs) (f := f) (g := g) hf.nodup
  have hB := permB (hs := hs) (f := f) (g := g) hg.nodup
  have mcA : ∀ v ∈ remA hs f g, mergedCard f g v = f.card v := fun v hv => by
    simp [mergedCard, (mem_remA.1 hv).2]
  have mcB : ∀ v ∈ remB hs f g, mergedCard f g v = g.card v := fun v hv => by
    simp [mergedCard, (mem_remB.1 hv).1]
  have mcI : ∀ v ∈ interVars hs f g, mergedCard f g v = g.card v := fun v hv => by
    simp [mergedCard, (mem_inter.1 hv).2]
  have mcI' : ∀ v ∈ interVars hs f g, f.card v = g.card v := fun v hv =>
    hc v (mem_inter.1 hv).1 (mem_inter.1 hv).2
  intro k hk
  suffices h : ∃ o o' i, k = o ++ o' ++ i ∧
      List.Forall₂ (fun i c => i < c) o ((remA hs f g).map f.card) ∧
      List.Forall₂ (fun i c => i < c) o' ((remB hs f g).map g.card) ∧
      List.Forall₂ (fun i c => i < c) i ((interVars hs f g).map g.card) by
    obtain ⟨o, o', i, rfl, h1, h2, h3⟩ := h
    unfold binResult
    simp only [List.map_append]
    rw [List.map_congr_left mcA, List.map_congr_left mcB, List.map_congr_left mcI]
    exact List.rel_append (List.rel_append h1 h2) h3
  have innerA : ∀ k ∈ Dict.keys f.table, List.Forall₂ (fun i c => i < c)
      ((interVars hs f g).map (asgOf f.vars k)) ((interVars hs f g).map g.card) := by
    intro k hk
    rw [forall₂_map]
    intro v hv
    rw [← mcI' v hv]
    exact hf.key_range hk (mem_inter.1 hv).1
  have innerB : ∀ k ∈ Dict.keys g.table, List.Forall₂ (fun i c => i < c)
      ((interVars hs f g).map (asgOf g.vars k)) ((interVars hs f g).map g.card) := by
    intro k hk
    rw [forall₂_map]
    intro v hv
    exact hg.key_range hk (mem_inter.1 hv).2
  have dense : ∀ i ∈ Dict.keys (denseDefault ((interVars hs f g).map g.card) f.dflt),
      List.Forall₂ (fun i c => i < c) i ((interVars hs f g).map g.card) := by
    intro i hi
    simp only [Dict.keys, denseDefault, List.map_map, Function.comp_def, List.map_id'] at hi
    exact mem_productRange.1 hi
  have e1 : (interVars hs f g).map f.card = (interVars hs f g).map g.card := List.map_congr_left mcI'
  rcases hr with rfl | rfl
  · unfold binResult binNested anyScope at hk
    obtain ⟨o, ho, o', ho', i, rfl, hi⟩ := applyAny_keys op f.dflt
      (fun o ho => length_of_mem_keys_nest hf hA ho) hk
    refine ⟨o, o', i, rfl, ?_, ?_, ?_⟩
    · obtain ⟨e, he, rfl⟩ := (mem_keys_nest hA hf.nodup hf.keyLen hf.keys).1 ho
      rw [forall₂_map]
      exact fun v hv => hf.key_range (List.mem_map.2 ⟨e, he, rfl⟩) (mem_remA.1 hv).1
    · obtain ⟨e, he, rfl⟩ := (mem_keys_nest hB hg.nodup hg.keyLen hg.keys).1 ho'
      rw [forall₂_map]
      exact fun v hv => hg.key_range (List.mem_map.2 ⟨e, he, rfl⟩) (mem_remB.1 hv).1
    · rcases hi with hi | hi
      · rcases mem_inner_nest hf hA _ hi with ⟨k, hk', rfl⟩ | h
        · exact innerA k hk'
        · simp [Dict.keys] at h
      · rcases mem_inner_nest hg hB _ hi with ⟨k, hk', rfl⟩ | h
        · exact innerB k hk'
        · simp [Dict.keys] at h
  · unfold binResult binNested anyScope anyScopeNone at hk
    rw [e1] at hk
    obtain ⟨o, ho, o', ho', i, rfl, hi⟩ := applyAny_keys op f.dflt
      (fun o ho => by simpa using length_of_mem_productRange ho) hk
    refine ⟨o, o', i, rfl, mem_productRange.1 ho, mem_productRange.1 ho', ?_⟩
    rcases hi with hi | hi
    · rcases mem_inner_makeInnerDense hi with hi | hi
      · rcases mem_inner_nest hf hA _ hi with ⟨k, hk', rfl⟩ | h
        · exact innerA k hk'
        · exact dense i h
      · exact mem_productRange.1 hi
    · rcases mem_inner_makeInnerDense hi with hi | hi
      · rcases mem_inner_nest hg hB _ hi with ⟨k, hk', rfl⟩ | h
        · exact innerB k hk'
        · exact dense i h
      · exact mem_productRange.1 hi

theorem binResult_wf (hf : WF f) (hg : WF g) (hc : Consistent f g) {rule : Rule}
    (hr : rule = .any ∨ rule = .none) (op : XF K → XF K → XF K) : WF (binResult hs f g op rule) where
  nodup := nodup_result
  cardsLen := by simp [binResult]
  keys := nodup_keys_flatten _
  range := binResult_range hf hg hc hr op

end Verif.Sparse
