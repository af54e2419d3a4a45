import Verif.CatOps

/-! # Results of the dense operations, continued: construction, indexing, argmax -/

namespace Verif

/-- The array position meant by a possibly negative index into an axis of length `c`. -/
def wrap (c : Nat) (i : Int) : Nat := if i < 0 then (i + c).toNat else i.toNat

theorem normIdx_eq (c : Nat) (i : Int) : Tensor.normIdx c i =
    if -(c : Int) ≤ i ∧ i < c then .ok (wrap c i) else .error .indexError := by
  unfold Tensor.normIdx wrap
  by_cases h0 : 0 ≤ i
  · by_cases h1 : i < c
    · rw [if_pos ⟨h0, h1⟩, if_pos ⟨by omega, h1⟩, if_neg (by omega)]
    · rw [if_neg (by omega), if_neg (by omega), if_neg (by omega)]
  · by_cases h1 : -(c : Int) ≤ i
    · rw [if_neg (by omega), if_pos ⟨h1, by omega⟩, if_pos ⟨h1, by omega⟩, if_pos (by omega)]
    · rw [if_neg (by omega), if_neg (by omega), if_neg (by omega)]

theorem wrap_lt {c : Nat} {i : Int} (h : -(c : Int) ≤ i ∧ i < c) : wrap c i < c := by
  unfold wrap; split <;> omega

namespace Cat
open Spec (Asg)
open Tensor (InShape)
variable {K : Type}

/-! ### evidence -/

theorem get?_ofPairs_zip {β : Type} {vrs : List Var} {values : List β} (hn : vrs.Nodup)
    (hl : values.length = vrs.length) (v : Var) :
    Dict.get? (Dict.ofPairs (vrs.zip values)) v = ((vrs.zip values).find? fun e => e.1 = v).map Prod.snd := by
  rw [Dict.ofPairs_eq (by rw [List.map_fst_zip (by omega)]; exact hn)]
  generalize vrs.zip values = l
  induction l with
  | nil => rfl
  | cons e l ih =>
    obtain ⟨k, b⟩ := e
    by_cases h : k = v <;> simp [Dict.get?, h, ih]

/-- The evidence with negative indices resolved. -/
def evidence (f : Cat K) (vrs : List Var) (values : List Int) : List (Var × Nat) :=
  (vrs.zip values).map fun e => (e.1, wrap (f.card e.1) e.2)

theorem override_evidence {f : Cat K} {vrs : List Var} {values : List Int} (x : Asg) (v : Var) :
    Spec.override (f.evidence vrs values) x v =
      ((((vrs.zip values).find? fun e => e.1 = v).map Prod.snd).map (wrap (f.card v))).getD (x v) := by
  unfold Spec.override evidence
  rw [List.find?_map]
  simp only [Function.comp_def]
  cases h : (vrs.zip values).find? fun e => decide (e.1 = v) with
  | none => rfl
  | some e =>
    have := List.find?_some h
    simp only [decide_eq_true_eq] at this
    simp [this]

theorem find?_isNone_iff {vrs : List Var} {values : List Int} (hl : values.length = vrs.length) (v : Var) :
    ((vrs.zip values).find? fun e => e.1 = v).isNone = decide (v ∉ vrs) := by
  rw [Bool.eq_iff_iff, Option.isNone_iff_eq_none, List.find?_eq_none, decide_eq_true_eq]
  constructor
  · intro h hv
    rw [← List.map_fst_zip (l₂ := values) (l₁ := vrs) (by omega)] at hv
    obtain ⟨e, he, h2⟩ := List.mem_map.1 hv
    exact h e he (by simpa using h2)
  · intro h e he
    simp only [decide_eq_true_eq]
    rintro rfl
    exact h (List.of_mem_zip he).1

/-- All evidence about the factor's own variables is in range. -/
def EvOk (f : Cat K) (vrs : List Var) (values : List Int) : Prop :=
  ∀ e ∈ vrs.zip values, e.1 ∈ f.vars → -(f.card e.1 : Int) ≤ e.2 ∧ e.2 < f.card e.1

theorem index_ok {f : Cat K} (hf : WF f) {vrs : List Var} {values : List Int} (hn : vrs.Nodup)
    (hl : values.length = vrs.length) (he : f.EvOk vrs values) :
    ∃ t, f.tensor.index (obsIndex f.vars vrs values) = .ok t ∧
      t.shape = (f.vars.filter (· ∉ vrs)).map f.card ∧
      ∀ x : Asg, t.get ((f.vars.filter (· ∉ vrs)).map x) =
        f.val (Spec.override (f.evidence vrs values) x) := by
  obtain ⟨t, h1, h2, h3⟩ := index_named (t := f.tensor) hf.shape
    (e := fun v => Dict.get? (Dict.ofPairs (vrs.zip values)) v)
    (k := fun v => (((vrs.zip values).find? fun e => e.1 = v).map Prod.snd).map (wrap (f.card v))) (by
      intro v hv
      rw [get?_ofPairs_zip hn hl]
      cases h : (vrs.zip values).find? fun e => decide (e.1 = v) with
      | none => simp
      | some e =>
        have h1 := List.find?_some h
        simp only [decide_eq_true_eq] at h1
        have h2 := he e (List.mem_of_find?_eq_some h) (h1 ▸ hv)
        simp only [Option.map_some]
        refine ⟨wrap (f.card v) e.2, ?_, rfl⟩
        rw [normIdx_eq, if_pos (h1 ▸ h2)])
  have hfil : (f.vars.filter fun v => ((((vrs.zip values).find? fun e => decide (e.1 = v)).map Prod.snd).map
      (wrap (f.card v))).isNone) = f.vars.filter (· ∉ vrs) := by
    apply List.filter_congr
    intro v _
    rw [Option.isNone_map, Option.isNone_map, find?_isNone_iff hl]
  rw [hfil] at h2 h3
  refine ⟨t, h1, h2, fun x => ?_⟩
  rw [h3]
  unfold val
  congr 1
  apply List.map_congr_left
  intro v _
  rw [override_evidence]

theorem index_error {f : Cat K} (hf : WF f) {vrs : List Var} {values : List Int} (hn : vrs.Nodup)
    (hl : values.length = vrs.length) (he : ¬ f.EvOk vrs values) :
    f.tensor.index (obsIndex f.vars vrs values) = .error .indexError := by
  unfold EvOk at he
  push Not at he
  obtain ⟨e, hm, hv, h⟩ := he
  unfold Tensor.index obsIndex
  dsimp only
  rw [hf.shape, resolve_error]
  · rfl
  · refine ⟨e.1, hv, e.2, ?_, ?_⟩
    · rw [Dict.ofPairs_eq (by rw [List.map_fst_zip (by omega)]; exact hn)]
      exact Dict.get?_of_mem (by unfold Dict.keys; rw [List.map_fst_zip (by omega)]; exact hn) hm
    · rw [normIdx_eq, if_neg]
      rintro ⟨h1, h2⟩
      exact absurd h2 (not_lt.2 (h h1))

theorem reduce_ok {f : Cat K} (hf : WF f) {vrs : List Var} {values : List Int} (hn : vrs.Nodup)
    (hl : values.length = vrs.length) (he : f.EvOk vrs values) :
    ∃ r, reduce f vrs values = .ok r ∧ WF r ∧ r.vars = f.vars.filter (· ∉ vrs) ∧
      (∀ v ∈ r.vars, r.card v = f.card v) ∧ (∀ v ∈ r.vars, r.name v = f.name v) ∧
      ∀ x, r.val x = f.val (Spec.override (f.evidence vrs values) x) := by
  obtain ⟨t, h1, h2, h3⟩ := index_ok hf hn hl he
  unfold reduce
  dsimp only
  have hnd : (f.vars.filter (· ∉ vrs)).Nodup := hf.nodup.filter _
  have hsub : ∀ v ∈ f.vars.filter (· ∉ vrs), v ∈ f.vars := fun v hv => (List.mem_filter.1 hv).1
  have hnc : ∀ v ∈ f.vars.filter (· ∉ vrs), (f.name v).dedup.length = f.card v :=
    fun v hv => hf.namesCard v (hsub v hv)
  rw [h1, py_bind_ok, hf.namesOf hsub, py_bind_ok, ofTensor_eq hnd h2 hnc]
  exact ⟨_, rfl, mk'_wf hnd h2 hnc, rfl, fun v hv => card_mk' h2 hv, fun v hv => name_mk' hv, h3⟩

/-! ### argmax -/

theorem productRange_length (s : List Nat) : (productRange s).length = s.prod := by
  induction s with
  | nil => rfl
  | cons c s ih =>
    simp [productRange, List.length_flatMap, ih]

theorem productRange_getElem {s : List Nat} {i : Nat} (h : i < (productRange s).length) :
    (productRange s)[i] = Tensor.unravel i s := by
  induction s generalizing i with
  | nil =>
    have : i = 0 := by simpa [productRange] using h
    subst this; rfl
  | cons c s ih =>
    have hp : 0 < s.prod := by
      rw [productRange_length, List.prod_cons] at h
      exact Nat.pos_of_ne_zero (by rintro h0; rw [h0] at h; simp at h)
    have key : ∀ (c i : Nat) (h : i < ((List.range c).flatMap fun i => (productRange s).map fun t => i :: t).length),
        ((List.range c).flatMap fun i => (productRange s).map fun t => i :: t)[i]
          = i / s.prod :: Tensor.unravel (i % s.prod) s := by
      intro c
      induction c with
      | zero => intro i h; simp at h
      | succ c ihc =>
        intro i h
        have hl : ((List.range c).flatMap fun i => (productRange s).map fun t => i :: t).length = c * s.prod := by
          simp [List.length_flatMap, productRange_length]
        have heq : ((List.range (c + 1)).flatMap fun i => (productRange s).map fun t => i :: t)
            = ((List.range c).flatMap fun i => (productRange s).map fun t => i :: t)
              ++ (productRange s).map fun t => c :: t := by
          rw [List.range_succ, List.flatMap_append]; simp
        by_cases hi : i < c * s.prod
        · have : ((List.range (c + 1)).flatMap fun i => (productRange s).map fun t => i :: t)[i]?
              = some (i / s.prod :: Tensor.unravel (i % s.prod) s) := by
            rw [heq, List.getElem?_append_left (by rw [hl]; exact hi),
              List.getElem?_eq_getElem (by rw [hl]; exact hi), ihc]
          rw [List.getElem?_eq_getElem h] at this
          exact Option.some.inj this
        · have hi2 : i - c * s.prod < (productRange s).length := by
            have : ((List.range (c + 1)).flatMap fun i => (productRange s).map fun t => i :: t).length
                = (c + 1) * s.prod := by
              simp [List.length_flatMap, productRange_length]
            rw [this] at h
            rw [productRange_length]
            have : (c + 1) * s.prod = c * s.prod + s.prod := by ring
            omega
          have : ((List.range (c + 1)).flatMap fun i => (productRange s).map fun t => i :: t)[i]?
              = some (i / s.prod :: Tensor.unravel (i % s.prod) s) := by
            rw [heq, List.getElem?_append_right (by rw [hl]; omega), hl, List.getElem?_map,
              List.getElem?_eq_getElem hi2, ih]
            rw [productRange_length] at hi2
            obtain ⟨j, hj⟩ : ∃ j, i = s.prod * c + j := ⟨i - c * s.prod, by rw [Nat.mul_comm]; omega⟩
            have hj' : i - c * s.prod = j := by rw [Nat.mul_comm c]; omega
            rw [hj'] at hi2 ⊢
            rw [hj, Nat.mul_add_div hp, Nat.div_eq_of_lt hi2, Nat.mul_add_mod, Nat.mod_eq_of_lt hi2]
            simp
          rw [List.getElem?_eq_getElem h] at this
          exact Option.some.inj this
    exact key c i h

theorem productRange_lex (s : List Nat) : (productRange s).Pairwise (List.Lex (· < ·)) := by
  induction s with
  | nil => simp [productRange]
  | cons c s ih =>
    rw [productRange, List.pairwise_flatMap]
    refine ⟨fun i _ => ?_, ?_⟩
    · rw [List.pairwise_map]
      exact ih.imp fun h => List.Lex.cons h
    · refine List.pairwise_lt_range.imp fun {i j} hij => ?_
      intro a ha b hb
      obtain ⟨a', _, rfl⟩ := List.mem_map.1 ha
      obtain ⟨b', _, rfl⟩ := List.mem_map.1 hb
      exact List.Lex.rel hij

theorem lt_irrefl' [LinearOrder K] (a : XF K) : XF.lt a a = false := by
  cases a <;> simp [XF.lt]

theorem lt_trans' [LinearOrder K] {a b c : XF K} (h1 : XF.lt a b = true) (h2 : XF.lt b c = true) :
    XF.lt a c = true := by
  cases a <;> cases b <;> cases c <;> simp_all [XF.lt]
  exact h1.trans h2

theorem lt_of_not_lt [LinearOrder K] {a b c : XF K} (hb : b.isNan = false)
    (h1 : XF.lt a c = true) (h2 : XF.lt b c = false) : XF.lt a b = true := by
  cases a <;> cases b <;> cases c <;> simp_all [XF.lt, XF.isNan]
  exact lt_of_lt_of_le h1 h2

theorem lt_of_not_lt' [LinearOrder K] {b c d : XF K} (hc : c.isNan = false)
    (h1 : XF.lt b c = false) (h2 : XF.lt b d = true) : XF.lt c d = true := by
  cases b <;> cases c <;> cases d <;> simp_all [XF.lt, XF.isNan]
  exact lt_of_le_of_lt h1 h2

/-- `np.argmax` finds the first maximum of a list without NaN. -/
theorem argmaxFlat_spec [LinearOrder K] {l : List (XF K)} (hne : l ≠ []) (hn : ∀ a ∈ l, a.isNan = false) :
    ∃ i, ∃ h : i < l.length, Tensor.argmaxFlat l = .ok i ∧
      (∀ j (hj : j < l.length), XF.lt l[i] l[j] = false) ∧
      (∀ j (hj : j < i), XF.lt (l[j]'(hj.trans h)) l[i] = true) := by
  cases l with
  | nil => exact absurd rfl hne
  | cons a l =>
    -- invariant of the fold: `(n, i, b)` where `b` is the first maximum of the first `n` elements
    have key : ∀ (rest pre : List (XF K)) (i : Nat) (b : XF K),
        (∀ c ∈ pre ++ rest, c.isNan = false) → pre[i]? = some b →
        (∀ (j : Nat) c, pre[j]? = some c → XF.lt b c = false) →
        (∀ (j : Nat) c, j < i → pre[j]? = some c → XF.lt c b = true) →
        ∃ i' b', (rest.foldl (fun (s : Nat × Nat × XF K) b =>
            (s.1 + 1, if s.2.2.isNan then s.2 else if b.isNan || XF.lt s.2.2 b then (s.1, b) else s.2))
            (pre.length, i, b)).2 = (i', b') ∧ (pre ++ rest)[i']? = some b' ∧
          (∀ (j : Nat) c, (pre ++ rest)[j]? = some c → XF.lt b' c = false) ∧
          (∀ (j : Nat) c, j < i' → (pre ++ rest)[j]? = some c → XF.lt c b' = true) := by
      intro rest
      induction rest with
      | nil =>
        intro pre i b _ h1 h2 h3
        exact ⟨i, b, rfl, by simpa using h1, by simpa using h2, by simpa using h3⟩
      | cons d rest ih =>
        intro pre i b hnan h1 h2 h3
        rw [List.foldl_cons]
        have hb : b.isNan = false := hnan b (List.mem_append_left _ (List.mem_of_getElem? h1))
        have hd : d.isNan = false := hnan d (by simp)
        have happ : pre ++ d :: rest = (pre ++ [d]) ++ rest := by simp
        have hlen : (pre ++ [d]).length = pre.length + 1 := by simp
        have hi : i < pre.length := by
          obtain ⟨h, _⟩ := List.getElem?_eq_some_iff.1 h1; exact h
        simp only [hb, hd, Bool.false_or, Bool.false_eq_true, if_false]
        rw [happ, ← hlen]
        have hsplit : ∀ (j : Nat) c, (pre ++ [d])[j]? = some c → pre[j]? = some c ∨ (j = pre.length ∧ c = d) := by
          intro j c h
          by_cases hj : j < pre.length
          · rw [List.getElem?_append_left hj] at h; exact Or.inl h
          · rw [List.getElem?_append_right (by omega)] at h
            have := List.getElem?_eq_some_iff.1 h
            obtain ⟨h4, h5⟩ := this
            simp only [List.length_singleton] at h4
            refine Or.inr ⟨by omega, ?_⟩
            rw [← h5]; simp
        by_cases hlt : XF.lt b d = true
        · rw [hlt]
          simp only [if_true]
          apply ih (pre ++ [d]) pre.length d (by rw [← happ]; exact hnan) (by simp)
          · intro j c h
            rcases hsplit j c h with h | ⟨_, rfl⟩
            · by_contra hc
              rw [Bool.not_eq_false] at hc
              have := h2 j c h
              rw [lt_trans' hlt hc] at this
              exact absurd this (by simp)
            · exact lt_irrefl' _
          · intro j c hj h
            rcases hsplit j c h with h | ⟨h, _⟩
            · have hcn : c.isNan = false := hnan c (List.mem_append_left _ (List.mem_of_getElem? h))
              have h6 := h2 j c h
              exact lt_of_not_lt' hcn h6 hlt
            · omega
        · rw [Bool.not_eq_true] at hlt
          rw [hlt]
          simp only [Bool.false_eq_true, if_false]
          apply ih (pre ++ [d]) i b (by rw [← happ]; exact hnan)
            (by rw [List.getElem?_append_left hi]; exact h1)
          · intro j c h
            rcases hsplit j c h with h | ⟨_, rfl⟩
            · exact h2 j c h
            · exact hlt
          · intro j c hj h
            rcases hsplit j c h with h | ⟨h, _⟩
            · exact h3 j c hj h
            · omega
    obtain ⟨i', b', h1, h2, h3, h4⟩ := key l [a] 0 a (by simpa using hn) rfl
      (by
        intro j c h
        have := List.mem_of_getElem? h
        simp only [List.mem_singleton] at this
        subst this
        exact lt_irrefl' _)
      (by intro j c h; omega)
    simp only [List.singleton_append] at h2 h3 h4
    obtain ⟨hi, hb⟩ := List.getElem?_eq_some_iff.1 h2
    refine ⟨i', hi, ?_, fun j hj => ?_, fun j hj => ?_⟩
    · unfold Tensor.argmaxFlat
      simp only [List.length_singleton] at h1
      exact congrArg (fun s => (Except.ok s.1 : Py Nat)) h1
    · rw [hb]; exact h3 j _ (List.getElem?_eq_getElem hj)
    · rw [hb]; exact h4 j _ hj (List.getElem?_eq_getElem (hj.trans hi))

/-! ### construction from a table -/

/-- The key, with negative indices resolved. -/
def wrapKey (cards : List Nat) (k : List Int) : List Nat := List.zipWith wrap cards k

/-- Every index of the key is in range for its axis. -/
def KeyOk (cards : List Nat) (k : List Int) : Prop :=
  List.Forall₂ (fun i (c : Nat) => -(c : Int) ≤ i ∧ i < c) k cards

theorem resolve_key_ok {cards : List Nat} {k : List Int} (h : KeyOk cards k) :
    Tensor.resolve cards (k.map some) = .ok ((wrapKey cards k).map some) := by
  induction h with
  | nil => rfl
  | cons h1 _ ih =>
    simp only [List.map_cons, Tensor.resolve, normIdx_eq, if_pos h1, py_bind_ok, ih, wrapKey,
      List.zipWith_cons_cons]

theorem resolve_key_error {cards : List Nat} {k : List Int} (hl : k.length = cards.length)
    (h : ¬ KeyOk cards k) : Tensor.resolve cards (k.map some) = .error .indexError := by
  induction k generalizing cards with
  | nil =>
    cases cards with
    | nil => exact absurd List.Forall₂.nil h
    | cons => simp at hl
  | cons i k ih =>
    cases cards with
    | nil => simp at hl
    | cons c cs =>
      simp only [List.map_cons, Tensor.resolve, normIdx_eq]
      by_cases h1 : -(c : Int) ≤ i ∧ i < c
      · rw [if_pos h1, py_bind_ok, ih (by simpa using hl)]
        · rfl
        · intro h2; exact h (List.Forall₂.cons h1 h2)
      · rw [if_neg h1]; rfl

theorem wrapKey_length {cards : List Nat} {k : List Int} (h : KeyOk cards k) :
    (wrapKey cards k).length = cards.length := by
  unfold wrapKey
  have := h.length_eq
  simp [this]

/-- The last listed probability for a full index, zero if there is none. -/
def lookup (cards : List Nat) (table : List (List Int × ℝ)) (idx : List Nat) : ℝ :=
  match table.reverse.find? fun e => wrapKey cards e.1 = idx with
  | some e => e.2
  | none => 0

theorem fold_setIndex {cards : List Nat} (table : List (List Int × ℝ))
    (hok : ∀ e ∈ table, KeyOk cards e.1) :
    ∃ t, table.foldlM (fun t e => Tensor.setIndex t e.1 e.2) (⟨cards, fun _ => (0 : ℝ)⟩ : Tensor ℝ) = .ok t ∧
      t.shape = cards ∧ ∀ idx, idx.length = cards.length → t.get idx = lookup cards table idx := by
  induction table using List.reverseRecOn with
  | nil => exact ⟨_, rfl, rfl, fun _ _ => rfl⟩
  | append_singleton l e ih =>
    obtain ⟨t, h1, h2, h3⟩ := ih fun e he => hok e (by simp [he])
    have he := hok e (by simp)
    rw [List.foldlM_append, h1, py_bind_ok, List.foldlM_cons]
    unfold Tensor.setIndex
    rw [h2, resolve_key_ok he, py_bind_ok, py_bind_ok]
    refine ⟨_, rfl, rfl, fun idx hidx => ?_⟩
    simp only
    rw [List.length_map, wrapKey_length he, ← hidx, List.take_length]
    unfold lookup
    rw [List.reverse_append, List.reverse_singleton, List.singleton_append, List.find?_cons]
    by_cases h : wrapKey cards e.1 = idx
    · rw [if_pos (by rw [h])]; simp [h]
    · rw [if_neg]
      · simp only [h, decide_false]
        exact h3 idx hidx
      · intro h4
        exact h (List.map_injective_iff.2 (Option.some_injective _) h4).symm

theorem fold_setIndex_error {cards : List Nat} (table : List (List Int × ℝ))
    (hl : ∀ e ∈ table, e.1.length = cards.length) (h : ∃ e ∈ table, ¬ KeyOk cards e.1) (t : Tensor ℝ)
    (ht : t.shape = cards) :
    table.foldlM (fun t e => Tensor.setIndex t e.1 e.2) t = .error .indexError := by
  induction table generalizing t with
  | nil => simp at h
  | cons e l ih =>
    rw [List.foldlM_cons]
    by_cases he : KeyOk cards e.1
    · have : ∃ t', Tensor.setIndex t e.1 e.2 = .ok t' ∧ t'.shape = cards := by
        unfold Tensor.setIndex
        rw [ht, resolve_key_ok he, py_bind_ok]
        exact ⟨_, rfl, rfl⟩
      obtain ⟨t', h1, h2⟩ := this
      rw [h1, py_bind_ok]
      refine ih (fun e he => hl e (by simp [he])) ?_ t' h2
      obtain ⟨e', hm, h3⟩ := h
      rcases List.mem_cons.1 hm with rfl | hm
      · exact absurd he h3
      · exact ⟨e', hm, h3⟩
    · unfold Tensor.setIndex
      rw [ht, resolve_key_error (hl e (by simp)) he]
      rfl

end Cat
end Verif
