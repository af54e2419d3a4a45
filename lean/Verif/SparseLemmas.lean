import Verif.SparseModel
import Verif.PyLemmas

/-! Helper lemmas for the sparse categorical model. -/

namespace Verif.Sparse
variable {K : Type}

theorem scatter_fold (old new : List Var) (hp : new.Perm old) (hn : old.Nodup) (x : Var → Nat)
    (pre suf : List Var) (ho : old = pre ++ suf) :
    ((suf.map (new.idxOf ·)).zipIdx pre.length).foldlM
      (fun (row : List (Option Nat)) (p : Nat × Nat) => do
        let a ← pyGet (old.map x) p.2
        if p.1 < row.length then (.ok (row.set p.1 (some a)) : Py _) else .error .indexError)
      (new.map fun v => if v ∈ pre then some (x v) else none)
      = .ok (new.map fun v => some (x v)) := by
  induction suf generalizing pre with
  | nil =>
    simp only [List.map_nil, List.zipIdx_nil, List.foldlM_nil, py_pure]
    congr 1
    apply List.map_congr_left
    intro v hv
    have : v ∈ pre := by
      have := hp.mem_iff.1 hv
      simpa [ho] using this
    simp [this]
  | cons v suf ih =>
    have hnn : new.Nodup := hp.nodup_iff.2 hn
    have hv : v ∈ new := hp.mem_iff.2 (by simp [ho])
    have hlt : new.idxOf v < new.length := List.idxOf_lt_length_iff.2 hv
    have hg : pyGet (old.map x) pre.length = .ok (x v) := by
      apply pyGet_ok; simp [ho]
    rw [List.map_cons, List.zipIdx_cons, List.foldlM_cons]
    simp only [hg, py_bind_ok, List.length_map, hlt, if_true]
    have := ih (pre ++ [v]) (by simp [ho])
    rw [List.length_append, List.length_singleton] at this
    rw [set_map_idxOf hnn]
    refine Eq.trans ?_ this
    congr 1
    apply List.map_congr_left
    intro w _
    by_cases hw : w = v
    · simp [hw]
    · simp [hw]

theorem scatterRow_map {old new : List Var} (hp : new.Perm old) (hn : old.Nodup) (x : Var → Nat) :
    scatterRow (old.map x) (old.map (new.idxOf ·)) = .ok (new.map x) := by
  have := scatter_fold old new hp hn x [] old rfl
  simp only [List.length_nil, List.not_mem_nil, if_false] at this
  have hr : List.replicate (old.map x).length (none : Option Nat) = new.map fun _ => none := by
    rw [List.map_const', List.length_map, hp.length_eq]
  unfold scatterRow
  rw [hr, this]
  simp

/-- `k` is a key of the right length for `vars`. -/
def KeyLen (vars : List Var) (t : Dict (List Nat) (XF K)) : Prop :=
  ∀ k ∈ Dict.keys t, k.length = vars.length

/-- Pure version of `nestedSorted`. -/
def nest (outer inner old : List Var) (table : Dict (List Nat) (XF K)) : Nested K :=
  table.foldl (fun nd e =>
    set2 nd (outer.map (asgOf old e.1)) (inner.map (asgOf old e.1)) e.2) []

theorem nestedSorted_eq {outer inner old : List Var} {table : Dict (List Nat) (XF K)}
    (hp : (outer ++ inner).Perm old) (hn : old.Nodup) (hk : KeyLen old table) :
    nestedSorted outer inner old table = .ok (nest outer inner old table) := by
  unfold nestedSorted
  rw [mapM_ok (g := fun v => (outer ++ inner).idxOf v)
    (fun v hv => pyIndex_ok (hp.mem_iff.2 hv))]
  simp only [py_bind_ok]
  apply foldlM_ok
  intro nd e he
  have hl : e.1.length = old.length := hk _ (List.mem_map.2 ⟨e, he, rfl⟩)
  have := scatterRow_map hp hn (asgOf old e.1)
  rw [map_asgOf hn hl] at this
  simp only [this, py_bind_ok]
  simp

theorem get?_set2 (nd : Nested K) (o i o' : List Nat) (v : XF K) :
    Dict.get? (set2 nd o i v) o' =
      if o = o' then some (Dict.set ((Dict.get? nd o).getD []) i v) else Dict.get? nd o' := by
  unfold set2; rw [Dict.get?_set]

/-- The sub table that belongs to one outer assignment: the entries with that outer part, in order. -/
def subTable (outer inner old : List Var) (table : Dict (List Nat) (XF K)) (o : List Nat) :
    Dict (List Nat) (XF K) :=
  (table.filter fun e => outer.map (asgOf old e.1) = o).map
    fun e => (inner.map (asgOf old e.1), e.2)

theorem asg_eq_of_parts {outer inner old : List Var} (hp : (outer ++ inner).Perm old)
    {x y : Var → Nat} (h1 : outer.map x = outer.map y) (h2 : inner.map x = inner.map y) :
    old.map x = old.map y := by
  rw [map_eq_map_iff'] at *
  intro v hv
  rcases List.mem_append.1 (hp.mem_iff.2 hv) with h | h
  · exact h1 v h
  · exact h2 v h

theorem get?_nest {outer inner old : List Var} {table : Dict (List Nat) (XF K)}
    (hp : (outer ++ inner).Perm old) (hn : old.Nodup) (hk : KeyLen old table)
    (hd : (Dict.keys table).Nodup) (o : List Nat) :
    Dict.get? (nest outer inner old table) o =
      if subTable outer inner old table o = [] then none
      else some (subTable outer inner old table o) := by
  unfold nest
  induction table using List.reverseRecOn with
  | nil => simp [Dict.get?, subTable]
  | append_singleton t e ih =>
    have hk' : KeyLen old t := fun k hkt => hk k (by simp [Dict.keys] at hkt ⊢; tauto)
    have hd' : (Dict.keys t).Nodup ∧ e.1 ∉ Dict.keys t := by
      simp only [Dict.keys, List.map_append, List.map_cons, List.map_nil] at hd
      have := List.nodup_append.1 hd
      exact ⟨this.1, fun hm => this.2.2 _ hm _ (by simp) rfl⟩
    have IH := ih hk' hd'.1
    rw [List.foldl_append, List.foldl_cons, List.foldl_nil, get?_set2]
    by_cases ho : outer.map (asgOf old e.1) = o
    · rw [if_pos ho]
      have hfresh : inner.map (asgOf old e.1) ∉ Dict.keys (subTable outer inner old t o) := by
        intro hm
        simp only [Dict.keys, subTable, List.map_map, List.mem_map, List.mem_filter,
          decide_eq_true_eq, Function.comp] at hm
        obtain ⟨e', ⟨he', ho'⟩, hi⟩ := hm
        have h1 : e'.1.length = old.length := hk' _ (List.mem_map.2 ⟨e', he', rfl⟩)
        have h2 : e.1.length = old.length := hk _ (by simp [Dict.keys])
        have := asg_eq_of_parts hp (ho'.trans ho.symm) hi
        rw [map_asgOf hn h1, map_asgOf hn h2] at this
        exact hd'.2 (this ▸ List.mem_map.2 ⟨e', he', rfl⟩)
      have hget : (Dict.get? (List.foldl (fun nd e =>
          set2 nd (outer.map (asgOf old e.1)) (inner.map (asgOf old e.1)) e.2) [] t)
            (outer.map (asgOf old e.1))).getD [] = subTable outer inner old t o := by
        rw [ho, IH]; split <;> simp_all
      rw [hget, Dict.set_of_not_mem hfresh]
      have : subTable outer inner old (t ++ [e]) o
          = subTable outer inner old t o ++ [(inner.map (asgOf old e.1), e.2)] := by
        simp [subTable, ho]
      rw [this]; simp
    · rw [if_neg ho, IH]
      have : subTable outer inner old (t ++ [e]) o = subTable outer inner old t o := by
        simp [subTable, ho]
      rw [this]

theorem nodup_keys_set2 {nd : Nested K} (h : (Dict.keys nd).Nodup) (o i : List Nat) (v : XF K) :
    (Dict.keys (set2 nd o i v)).Nodup := Dict.nodup_keys_set h _ _

theorem nodup_keys_nest (outer inner old : List Var) (table : Dict (List Nat) (XF K)) :
    (Dict.keys (nest outer inner old table)).Nodup := by
  unfold nest
  suffices h : ∀ nd : Nested K, (Dict.keys nd).Nodup → (Dict.keys (table.foldl (fun nd e =>
    set2 nd (outer.map (asgOf old e.1)) (inner.map (asgOf old e.1)) e.2) nd)).Nodup from
    h [] (by simp [Dict.keys])
  induction table with
  | nil => exact fun nd h => h
  | cons e t ih => exact fun nd h => ih _ (nodup_keys_set2 h _ _ _)

/-- Keys of a sub table are distinct. -/
theorem nodup_keys_subTable {outer inner old : List Var} {table : Dict (List Nat) (XF K)}
    (hp : (outer ++ inner).Perm old) (hn : old.Nodup) (hk : KeyLen old table)
    (hd : (Dict.keys table).Nodup) (o : List Nat) :
    (Dict.keys (subTable outer inner old table o)).Nodup := by
  unfold Dict.keys subTable
  rw [List.map_map]
  have hd2 : table.Nodup := List.Nodup.of_map _ hd
  refine List.Nodup.map_on ?_ (hd2.filter _)
  intro a ha b hb hab
  simp only [List.mem_filter, decide_eq_true_eq] at ha hb
  have h1 : a.1.length = old.length := hk _ (List.mem_map.2 ⟨a, ha.1, rfl⟩)
  have h2 : b.1.length = old.length := hk _ (List.mem_map.2 ⟨b, hb.1, rfl⟩)
  have := asg_eq_of_parts hp (ha.2.trans hb.2.symm) hab
  rw [map_asgOf hn h1, map_asgOf hn h2] at this
  exact List.inj_on_of_nodup_map hd ha.1 hb.1 this

/-- The inner lookup of a sub table is the lookup in the flat table. -/
theorem get?_subTable {outer inner old : List Var} {table : Dict (List Nat) (XF K)}
    (hp : (outer ++ inner).Perm old) (hn : old.Nodup) (hk : KeyLen old table)
    (hd : (Dict.keys table).Nodup) (x : Var → Nat) :
    Dict.get? (subTable outer inner old table (outer.map x)) (inner.map x)
      = Dict.get? table (old.map x) := by
  have hs := nodup_keys_subTable hp hn hk hd (outer.map x)
  have key : ∀ v, Dict.get? (subTable outer inner old table (outer.map x)) (inner.map x) = some v ↔
      Dict.get? table (old.map x) = some v := by
    intro v
    rw [Dict.get?_iff_mem hs, Dict.get?_iff_mem hd]
    simp only [subTable, List.mem_map, List.mem_filter, decide_eq_true_eq, Prod.mk.injEq]
    constructor
    · rintro ⟨e, ⟨he, ho⟩, hi, rfl⟩
      have h1 : e.1.length = old.length := hk _ (List.mem_map.2 ⟨e, he, rfl⟩)
      have := asg_eq_of_parts hp ho hi
      rw [map_asgOf hn h1] at this
      rw [← this]; exact he
    · intro hm
      refine ⟨_, ⟨hm, ?_⟩, ?_, rfl⟩
      · exact List.map_congr_left fun v hv => asgOf_map x (hp.mem_iff.1 (by simp [hv]))
      · exact List.map_congr_left fun v hv => asgOf_map x (hp.mem_iff.1 (by simp [hv]))
  cases h : Dict.get? table (old.map x) with
  | none =>
    cases h' : Dict.get? (subTable outer inner old table (outer.map x)) (inner.map x) with
    | none => rfl
    | some v => rw [(key v).1 h'] at h; cases h
  | some v => exact (key v).2 h

theorem subTable_keyLen (outer inner old : List Var) (table : Dict (List Nat) (XF K)) (o : List Nat) :
    ∀ k ∈ Dict.keys (subTable outer inner old table o), ∃ x : Var → Nat, k = inner.map x ∧
      o = outer.map x ∧ ∃ e ∈ table, x = asgOf old e.1 := by
  intro k hk
  simp only [Dict.keys, subTable, List.map_map, List.mem_map, List.mem_filter, decide_eq_true_eq,
    Function.comp] at hk
  obtain ⟨e, ⟨he, ho⟩, rfl⟩ := hk
  exact ⟨_, rfl, ho.symm, e, he, rfl⟩

theorem mem_keys_nest {outer inner old : List Var} {table : Dict (List Nat) (XF K)}
    (hp : (outer ++ inner).Perm old) (hn : old.Nodup) (hk : KeyLen old table)
    (hd : (Dict.keys table).Nodup) {o : List Nat} :
    o ∈ Dict.keys (nest outer inner old table) ↔ ∃ e ∈ table, outer.map (asgOf old e.1) = o := by
  rw [← Dict.get?_isSome_iff, get?_nest hp hn hk hd]
  constructor
  · rintro ⟨v, hv⟩
    split at hv
    · cases hv
    · rename_i h
      obtain ⟨k, hkm⟩ := List.exists_mem_of_ne_nil _ h
      obtain ⟨x, _, h2, e, he, rfl⟩ := subTable_keyLen outer inner old table o k.1
        (List.mem_map.2 ⟨k, hkm, rfl⟩)
      exact ⟨e, he, h2.symm⟩
  · rintro ⟨e, he, ho⟩
    have hm : (inner.map (asgOf old e.1), e.2) ∈ subTable outer inner old table o := by
      simp only [subTable, List.mem_map, List.mem_filter, decide_eq_true_eq]
      exact ⟨e, ⟨he, ho⟩, rfl⟩
    rw [if_neg (List.ne_nil_of_mem hm)]
    exact ⟨_, rfl⟩

/-! ### Same scope operation -/

section
variable [DecidableEq K] (hs : HashSeed) (op : XF K → XF K → XF K) (d : XF K)

theorem sameScope_fold (a b : Dict (List Nat) (XF K)) (l : List (List Nat))
    (res : Dict (List Nat) (XF K)) (k : List Nat) :
    Dict.get? (l.foldl (fun res k =>
      let r := op ((Dict.get? a k).getD d) ((Dict.get? b k).getD d)
      if XF.ne r (op d d) then Dict.set res k r else res) res) k =
    if k ∈ l ∧ XF.ne (op ((Dict.get? a k).getD d) ((Dict.get? b k).getD d)) (op d d) = true
    then some (op ((Dict.get? a k).getD d) ((Dict.get? b k).getD d))
    else Dict.get? res k := by
  induction l generalizing res with
  | nil => simp
  | cons k' l ih =>
    rw [List.foldl_cons, ih]
    by_cases hk : k' = k
    · subst hk
      by_cases hr : XF.ne (op ((Dict.get? a k').getD d) ((Dict.get? b k').getD d)) (op d d) = true
      · simp [hr, Dict.get?_set]
      · simp [hr]
    · have hk2 : ¬ k = k' := fun e => hk e.symm
      simp only [List.mem_cons, hk2, false_or]
      split
      · rfl
      · split
        · rw [Dict.get?_set, if_neg hk]
        · rfl

theorem get?_sameScope (a b : Dict (List Nat) (XF K)) (k : List Nat) :
    Dict.get? (sameScope hs a b op d) k =
    if (k ∈ Dict.keys a ∨ k ∈ Dict.keys b) ∧
      XF.ne (op ((Dict.get? a k).getD d) ((Dict.get? b k).getD d)) (op d d) = true
    then some (op ((Dict.get? a k).getD d) ((Dict.get? b k).getD d))
    else none := by
  unfold sameScope
  rw [sameScope_fold]
  simp [Dict.get?]

/-- The value of the same scope operation is the operation on the values, for every key. -/
theorem getD_sameScope (a b : Dict (List Nat) (XF K)) (k : List Nat) :
    (Dict.get? (sameScope hs a b op d) k).getD (op d d) =
      op ((Dict.get? a k).getD d) ((Dict.get? b k).getD d) := by
  rw [get?_sameScope]
  by_cases h : k ∈ Dict.keys a ∨ k ∈ Dict.keys b
  · by_cases hr : XF.ne (op ((Dict.get? a k).getD d) ((Dict.get? b k).getD d)) (op d d) = true
    · simp [h, hr]
    · rw [if_neg (fun hh => hr hh.2), Option.getD_none]
      exact (XF.eq_of_not_ne (by simpa using hr)).symm
  · have h1 : Dict.get? a k = none := Dict.get?_eq_none_iff.2 fun h' => h (Or.inl h')
    have h2 : Dict.get? b k = none := Dict.get?_eq_none_iff.2 fun h' => h (Or.inr h')
    rw [if_neg (fun hh => h hh.1), h1, h2]
    simp

theorem nodup_keys_sameScope (a b : Dict (List Nat) (XF K)) :
    (Dict.keys (sameScope hs a b op d)).Nodup := by
  unfold sameScope
  generalize hs.tups.toList (Dict.keys a ++ Dict.keys b) = l
  suffices h : ∀ res : Dict (List Nat) (XF K), (Dict.keys res).Nodup → (Dict.keys (l.foldl (fun res k =>
      let r := op ((Dict.get? a k).getD d) ((Dict.get? b k).getD d)
      if XF.ne r (op d d) then Dict.set res k r else res) res)).Nodup from h [] (by simp [Dict.keys])
  induction l with
  | nil => exact fun res h => h
  | cons k l ih =>
    intro res h
    rw [List.foldl_cons]
    apply ih
    dsimp only
    split
    · exact Dict.nodup_keys_set h _ _
    · exact h

theorem mem_keys_sameScope {a b : Dict (List Nat) (XF K)} {k : List Nat}
    (h : k ∈ Dict.keys (sameScope hs a b op d)) : k ∈ Dict.keys a ∨ k ∈ Dict.keys b := by
  by_contra hc
  have : Dict.get? (sameScope hs a b op d) k = none := by
    rw [get?_sameScope]; simp [hc]
  exact Dict.get?_eq_none_iff.1 this h

/-! ### Combining outer assignments -/

theorem applyAny_fold (a b : Nested K) (da db : Dict (List Nat) (XF K))
    (combos : List (List Nat × List Nat)) (res : Nested K) (o : List Nat)
    (hinj : ∀ c ∈ combos, ∀ c' ∈ combos, c.1 ++ c.2 = c'.1 ++ c'.2 → c = c')  :
    Dict.get? (combos.foldl (fun res c =>
      let sub := sameScope hs ((Dict.get? a c.1).getD da) ((Dict.get? b c.2).getD db) op d
      if sub.isEmpty then res else Dict.set res (c.1 ++ c.2) sub) res) o =
    match combos.find? (fun c => c.1 ++ c.2 = o ∧
      sameScope hs ((Dict.get? a c.1).getD da) ((Dict.get? b c.2).getD db) op d ≠ []) with
    | some c => some (sameScope hs ((Dict.get? a c.1).getD da) ((Dict.get? b c.2).getD db) op d)
    | none => Dict.get? res o := by
  induction combos generalizing res with
  | nil => simp
  | cons c combos ih =>
    rw [List.foldl_cons, ih _ fun c1 h1 c2 h2 => hinj c1 (by simp [h1]) c2 (by simp [h2])]
    by_cases hc : c.1 ++ c.2 = o ∧
      sameScope hs ((Dict.get? a c.1).getD da) ((Dict.get? b c.2).getD db) op d ≠ []
    · have hc1 : (sameScope hs ((Dict.get? a c.1).getD da) ((Dict.get? b c.2).getD db) op d).isEmpty
          = false := by simpa using hc.2
      rw [List.find?_cons_of_pos (by simpa using hc)]
      cases hf : combos.find? (fun c => decide (c.1 ++ c.2 = o ∧
        sameScope hs ((Dict.get? a c.1).getD da) ((Dict.get? b c.2).getD db) op d ≠ [])) with
      | none => simp [hc.1, hc1, Dict.get?_set]
      | some c' =>
        have h1 := List.find?_some hf
        have h2 := List.mem_of_find?_eq_some hf
        simp only [decide_eq_true_eq] at h1
        have : c' = c := hinj c' (by simp [h2]) c (by simp) (h1.1.trans hc.1.symm)
        simp [this]
    · rw [List.find?_cons_of_neg (by simpa using hc)]
      split
      · rfl
      · dsimp only
        split
        · rfl
        · rename_i he
          rw [Dict.get?_set, if_neg]
          intro h
          exact hc ⟨h, by simpa using he⟩

theorem nodup_keys_applyAny (a b : Nested K) (da db : Dict (List Nat) (XF K))
    (combos : List (List Nat × List Nat)) :
    (Dict.keys (applyAnyScope hs a b da db combos op d)).Nodup := by
  unfold applyAnyScope
  suffices h : ∀ res : Nested K, (Dict.keys res).Nodup → (Dict.keys (combos.foldl (fun res c =>
    let sub := sameScope hs ((Dict.get? a c.1).getD da) ((Dict.get? b c.2).getD db) op d
    if sub.isEmpty then res else Dict.set res (c.1 ++ c.2) sub) res)).Nodup from
    h [] (by simp [Dict.keys])
  induction combos with
  | nil => exact fun res h => h
  | cons k l ih =>
    intro res h
    rw [List.foldl_cons]
    apply ih
    dsimp only
    split
    · exact h
    · exact Dict.nodup_keys_set h _ _

theorem get?_applyAny_some {a b : Nested K} {da db : Dict (List Nat) (XF K)}
    {combos : List (List Nat × List Nat)}
    (hinj : ∀ c ∈ combos, ∀ c' ∈ combos, c.1 ++ c.2 = c'.1 ++ c'.2 → c = c')
    {o : List Nat} {s : Dict (List Nat) (XF K)}
    (h : Dict.get? (applyAnyScope hs a b da db combos op d) o = some s) :
    ∃ c ∈ combos, c.1 ++ c.2 = o ∧
      s = sameScope hs ((Dict.get? a c.1).getD da) ((Dict.get? b c.2).getD db) op d := by
  unfold applyAnyScope at h
  rw [applyAny_fold hs op d a b da db combos [] o hinj] at h
  split at h
  · rename_i c hf
    have h1 := List.find?_some hf
    have h2 := List.mem_of_find?_eq_some hf
    simp only [decide_eq_true_eq] at h1
    exact ⟨c, h2, h1.1, by simpa using h.symm⟩
  · simp [Dict.get?] at h

/-- Value of the combined nested table. -/
theorem getD_applyAny {a b : Nested K} {da db : Dict (List Nat) (XF K)}
    {combos : List (List Nat × List Nat)}
    (hinj : ∀ c ∈ combos, ∀ c' ∈ combos, c.1 ++ c.2 = c'.1 ++ c'.2 → c = c')
    {c : List Nat × List Nat} (hc : c ∈ combos) (k : List Nat) :
    (((Dict.get? (applyAnyScope hs a b da db combos op d) (c.1 ++ c.2))).bind
      (fun s => Dict.get? s k)).getD (op d d) =
    op ((Dict.get? ((Dict.get? a c.1).getD da) k).getD d)
       ((Dict.get? ((Dict.get? b c.2).getD db) k).getD d) := by
  unfold applyAnyScope
  rw [applyAny_fold hs op d a b da db combos [] _ hinj, ← getD_sameScope hs op d]
  split
  · rename_i c' hf
    have h1 := List.find?_some hf
    have h2 := List.mem_of_find?_eq_some hf
    simp only [decide_eq_true_eq] at h1
    have : c' = c := hinj c' h2 c hc h1.1
    simp [this]
  · rename_i hf
    rw [List.find?_eq_none] at hf
    have := hf c hc
    simp only [decide_eq_true_eq, true_and, ne_eq, not_not] at this
    rw [this]
    simp [Dict.get?]

end

/-! ### Flattening -/

theorem flatten_eq_ofPairs (ntd : Nested K) :
    flatten ntd = Dict.ofPairs (ntd.flatMap fun o => o.2.map fun i => (o.1 ++ i.1, i.2)) := by
  unfold flatten Dict.ofPairs
  rw [List.foldl_flatMap]
  congr 1
  funext acc o
  rw [List.foldl_map]

theorem nodup_keys_flatten (ntd : Nested K) : (Dict.keys (flatten ntd)).Nodup := by
  rw [flatten_eq_ofPairs]
  exact Dict.nodup_keys_foldl_set (by simp [Dict.keys])

theorem flatten_eq {ntd : Nested K} {n : Nat} (ho : (Dict.keys ntd).Nodup)
    (hlen : ∀ o ∈ Dict.keys ntd, o.length = n)
    (hi : ∀ e ∈ ntd, (Dict.keys e.2).Nodup) :
    flatten ntd = ntd.flatMap fun o => o.2.map fun i => (o.1 ++ i.1, i.2) := by
  rw [flatten_eq_ofPairs, Dict.ofPairs_eq]
  rw [List.map_flatMap]
  rw [List.nodup_flatMap]
  constructor
  · intro e he
    rw [List.map_map]
    have := hi e he
    unfold Dict.keys at this
    have h2 : (e.2.map ((fun i => (e.1 ++ i))∘ Prod.fst)).Nodup := by
      rw [← List.map_map]
      exact this.map fun a b h => by simpa using h
    exact h2
  · unfold Dict.keys at ho
    rw [List.Nodup, List.pairwise_map] at ho
    refine ho.imp_of_mem ?_
    intro a b ha hb hab
    simp only [Function.onFun, List.disjoint_left]
    intro k hk hk'
    simp only [List.map_map, List.mem_map, Function.comp] at hk hk'
    obtain ⟨i, _, rfl⟩ := hk
    obtain ⟨j, _, h⟩ := hk'
    have h1 : a.1.length = n := hlen _ (List.mem_map.2 ⟨a, ha, rfl⟩)
    have h2 : b.1.length = n := hlen _ (List.mem_map.2 ⟨b, hb, rfl⟩)
    exact hab (List.append_inj_left h (by omega)).symm

theorem get?_flatten {ntd : Nested K} {n : Nat} (ho : (Dict.keys ntd).Nodup)
    (hlen : ∀ o ∈ Dict.keys ntd, o.length = n)
    (hi : ∀ e ∈ ntd, (Dict.keys e.2).Nodup) (o i : List Nat) (hol : o.length = n) :
    Dict.get? (flatten ntd) (o ++ i) = (Dict.get? ntd o).bind fun s => Dict.get? s i := by
  have hn := nodup_keys_flatten ntd
  have key : ∀ v, Dict.get? (flatten ntd) (o ++ i) = some v ↔
      ((Dict.get? ntd o).bind fun s => Dict.get? s i) = some v := by
    intro v
    rw [Dict.get?_iff_mem hn, flatten_eq ho hlen hi]
    simp only [List.mem_flatMap, List.mem_map, Prod.mk.injEq, Option.bind_eq_some_iff]
    constructor
    · rintro ⟨e, he, j, hj, h1, rfl⟩
      have h2 : e.1.length = n := hlen _ (List.mem_map.2 ⟨e, he, rfl⟩)
      obtain ⟨rfl, rfl⟩ := List.append_inj h1 (by omega)
      exact ⟨e.2, Dict.get?_of_mem ho he, Dict.get?_of_mem (hi e he) hj⟩
    · rintro ⟨s, hs, hv⟩
      exact ⟨(o, s), Dict.mem_of_get? hs, (i, v), Dict.mem_of_get? hv, rfl, rfl⟩
  cases h : ((Dict.get? ntd o).bind fun s => Dict.get? s i) with
  | none =>
    cases h' : Dict.get? (flatten ntd) (o ++ i) with
    | none => rfl
    | some v => rw [(key v).1 h'] at h; cases h
  | some v => exact (key v).2 h

theorem mem_keys_flatten {ntd : Nested K} {k : List Nat} (h : k ∈ Dict.keys (flatten ntd)) :
    ∃ e ∈ ntd, ∃ i ∈ Dict.keys e.2, k = e.1 ++ i := by
  rw [flatten_eq_ofPairs] at h
  have : ∀ (l : List (List Nat × XF K)) (d : Dict (List Nat) (XF K)) (k : List Nat),
      k ∈ Dict.keys (l.foldl (fun d e => Dict.set d e.1 e.2) d) →
      k ∈ Dict.keys d ∨ ∃ e ∈ l, e.1 = k := by
    intro l
    induction l with
    | nil => intro d k h; exact Or.inl h
    | cons e l ih =>
      intro d k h
      rcases ih _ k h with h | ⟨e', he', rfl⟩
      · rcases Dict.mem_keys_set.1 h with rfl | h
        · exact Or.inr ⟨e, by simp, rfl⟩
        · exact Or.inl h
      · exact Or.inr ⟨e', by simp [he'], rfl⟩
  rcases this _ _ _ h with h | ⟨e, he, rfl⟩
  · simp [Dict.keys] at h
  · simp only [List.mem_flatMap, List.mem_map] at he
    obtain ⟨o, ho, i, hi, rfl⟩ := he
    exact ⟨o, ho, i.1, List.mem_map.2 ⟨i, hi, rfl⟩, rfl⟩

end Verif.Sparse
