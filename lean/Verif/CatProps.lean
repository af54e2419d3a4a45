import Verif.CatOps2

/-!
# Properties of dense categorical factors (C14 - C22)

The specification side is `Cat.val` (the entry at an assignment) with the operations of `Verif.Spec`
on functions of assignments.
-/

namespace Verif.Cat
open Spec (Asg)
variable {K : Type}

/-! ### Concrete factors used to show that the hypotheses can be met -/

/-- A factor with default names. -/
def mk0 (vars : List Var) (cards : List Nat) (get : List Nat → XF K) : Cat K :=
  mk' vars ⟨cards, get⟩ fun v => (List.range (cards.getD (vars.idxOf v) 0)).map AName.int

theorem range_names_dedup (n : Nat) : ((List.range n).map AName.int).dedup.length = n := by
  rw [List.Nodup.dedup]
  · simp
  · exact List.nodup_range.map fun a b h => by simpa using h

theorem mk0_wf {vars : List Var} {cards : List Nat} (get : List Nat → XF K) (hn : vars.Nodup)
    (hl : cards.length = vars.length) : WF (mk0 vars cards get) := by
  apply mk'_wf hn (c := fun v => cards.getD (vars.idxOf v) 0)
  · apply List.ext_getElem
    · simp [hl]
    · intro i h1 h2
      simp only [List.length_map] at h2
      simp only [List.getElem_map, hn.idxOf_getElem i h2]
      rw [List.getD_eq_getElem?_getD, List.getElem?_eq_getElem h1]; rfl
  · intro v _
    exact range_names_dedup _

/-- Variables a, b with cardinalities 2 and 3. -/
def exA : Cat ℤ := mk0 ["a", "b"] [2, 3] fun i =>
  if i = [0, 1] then .fin 4 else if i = [1, 0] then .ninf else if i = [1, 2] then .fin 1 else .fin 0

/-- Variables b, c. -/
def exB : Cat ℤ := mk0 ["b", "c"] [3, 2] fun i => if i = [1, 0] then .fin 2 else .ninf

theorem exA_wf : WF exA := mk0_wf _ (by decide) rfl
theorem exB_wf : WF exB := mk0_wf _ (by decide) rfl

theorem exAB_consistent : Consistent exA exB := by
  intro v h1 h2
  have : v = "b" := by
    have h1 : v = "a" ∨ v = "b" := by simpa [exA, mk0, mk'] using h1
    have h2 : v = "b" ∨ v = "c" := by simpa [exB, mk0, mk'] using h2
    rcases h1 with rfl | rfl
    · simp at h2
    · rfl
  subst this; rfl

theorem exAB_names : SameNames exA exB := by
  intro v h1 h2
  have : v = "b" := by
    have h1 : v = "a" ∨ v = "b" := by simpa [exA, mk0, mk'] using h1
    have h2 : v = "b" ∨ v = "c" := by simpa [exB, mk0, mk'] using h2
    rcases h1 with rfl | rfl
    · simp at h2
    · rfl
  subst this; rfl

/-! ### C14 construction -/

theorem mkNames_none {vars : List Var} {cards : List Nat} (hn : vars.Nodup) (hl : cards.length = vars.length) :
    mkNames vars cards none = .ok (vars.zip (vars.map fun v => (List.range (cards.getD (vars.idxOf v) 0)).map AName.int)) := by
  unfold mkNames
  simp only
  rw [Dict.ofPairs_eq]
  · congr 1
    apply List.ext_getElem
    · simp [hl]
    · intro i h1 h2
      simp only [List.length_map, List.length_zip] at h1
      simp only [List.getElem_map, List.getElem_zip]
      rw [hn.idxOf_getElem i (by omega), List.getD_eq_getElem?_getD, List.getElem?_eq_getElem (by omega)]
      rfl
  · rw [List.map_map]
    have : (vars.zip cards).map (Prod.fst ∘ fun e => (e.1, (List.range e.2).map AName.int)) = vars := by
      rw [show (Prod.fst ∘ fun e : Var × Nat => (e.1, (List.range e.2).map AName.int)) = Prod.fst from rfl]
      exact List.map_fst_zip (by omega)
    rw [this]; exact hn

/-- **C14.** The constructor with a table of full assignments. If every listed index is in range (from
`-card` to `card - 1`), construction succeeds and the stored log value at every assignment is the log of
the listed probability, and log 0 if the assignment is not listed. Two keys can only name the same
assignment with negative indices; the last one wins (`lookup`). -/
theorem C14_table (vars : List Var) (cards : List Nat) (table : Dict (List Int) ℝ) (hn : vars.Nodup)
    (hl : cards.length = vars.length) (hok : ∀ e ∈ table, KeyOk cards e.1) :
    ∃ f, ofTable vars cards table = .ok f ∧ WF f ∧ f.vars = vars ∧
      (∀ i (h : i < vars.length), f.card vars[i] = cards[i]) ∧
      (∀ x : Asg, f.val x = XF.log (.fin (lookup cards table (vars.map x)))) := by
  obtain ⟨t, h1, h2, h3⟩ := fold_setIndex table hok
  unfold ofTable
  simp only [dedup_length_eq hn, hl, beq_self_eq_true, pyGuard, if_true, py_bind_ok]
  rw [h1, py_bind_ok, mkNames_none hn hl, py_bind_ok, Dict.ofPairs_eq (by
    rw [List.map_fst_zip (by omega)]; exact hn)]
  have hsh : cards = vars.map fun v => cards.getD (vars.idxOf v) 0 := by
    apply List.ext_getElem
    · simp [hl]
    · intro i h1 h2
      simp only [List.length_map] at h2
      simp only [List.getElem_map, hn.idxOf_getElem i h2]
      rw [List.getD_eq_getElem?_getD, List.getElem?_eq_getElem h1]; rfl
  have hmk : (⟨vars, t.map fun p => XF.log (.fin p), vars.zip cards,
      vars.zip (vars.map fun v => (List.range (cards.getD (vars.idxOf v) 0)).map AName.int)⟩ : Cat ℝ)
      = mk' vars (t.map fun p => XF.log (.fin p))
        fun v => (List.range (cards.getD (vars.idxOf v) 0)).map AName.int := by
    unfold mk'
    rw [show (t.map fun p => XF.log (.fin p)).shape = cards from h2]
  refine ⟨_, rfl, ?_, rfl, ?_, fun x => ?_⟩
  · rw [hmk]
    exact mk'_wf hn (c := fun v => cards.getD (vars.idxOf v) 0) (h2.trans hsh) fun v _ => range_names_dedup _
  · intro i h
    show (t.map fun p => XF.log (.fin p)).shape.getD (vars.idxOf vars[i]) 0 = _
    rw [show (t.map fun p => XF.log (.fin p)).shape = cards from h2, hn.idxOf_getElem i h,
      List.getD_eq_getElem?_getD, List.getElem?_eq_getElem (by omega)]
    rfl
  · show XF.log (.fin (t.get (vars.map x))) = _
    rw [h3 _ (by simp [hl])]

/-- **C14.** With non-negative indices the table is read literally and its listing order does not
matter: a listed assignment has its listed probability and any other has probability zero. -/
theorem C14_table_nonneg (vars : List Var) (cards : List Nat) (table : List (List Nat × ℝ)) (hn : vars.Nodup)
    (hl : cards.length = vars.length) (hok : ∀ e ∈ table, List.Forall₂ (· < ·) e.1 cards)
    (hk : (table.map Prod.fst).Nodup) (hp : ∀ e ∈ table, 0 ≤ e.2) :
    ∃ f, ofTable vars cards (table.map fun e => (e.1.map Int.ofNat, e.2)) = .ok f ∧
      (∀ x : Asg, (∀ p, (vars.map x, p) ∈ table → f.prob x = p) ∧
        (vars.map x ∉ table.map Prod.fst → f.prob x = 0)) := by
  have hwk : ∀ (cs k : List Nat), List.Forall₂ (· < ·) k cs →
      wrapKey cs (k.map Int.ofNat) = k ∧ KeyOk cs (k.map Int.ofNat) := by
    intro cs k h
    induction h with
    | nil => exact ⟨rfl, List.Forall₂.nil⟩
    | @cons a b l l' h1 _ ih =>
      refine ⟨?_, List.Forall₂.cons ⟨by have := Int.natCast_nonneg a; simp, by simpa using h1⟩ ih.2⟩
      have : wrap b (Int.ofNat a) = a := by unfold wrap; simp
      simp only [wrapKey, List.map_cons, List.zipWith_cons_cons, this]
      rw [← wrapKey, ih.1]
  obtain ⟨f, h1, _, h2, _, h3⟩ := C14_table vars cards (table.map fun e => (e.1.map Int.ofNat, e.2)) hn hl (by
    intro e he
    obtain ⟨e', hm, rfl⟩ := List.mem_map.1 he
    exact (hwk _ _ (hok e' hm)).2)
  have hlk : ∀ idx, lookup cards (table.map fun e => (e.1.map Int.ofNat, e.2)) idx
      = match table.reverse.find? fun e => e.1 = idx with
        | some e => e.2
        | none => 0 := by
    intro idx
    unfold lookup
    rw [← List.map_reverse, List.find?_map]
    have : (table.reverse.find? ((fun e : List Int × ℝ => decide (wrapKey cards e.1 = idx)) ∘
        fun e : List Nat × ℝ => (e.1.map Int.ofNat, e.2))) = table.reverse.find? fun e => e.1 = idx := by
      have hall : ∀ e ∈ table.reverse, wrapKey cards (e.1.map Int.ofNat) = e.1 := fun e he =>
        (hwk _ _ (hok e (List.mem_reverse.1 he))).1
      generalize table.reverse = l at hall
      induction l with
      | nil => rfl
      | cons e l ih =>
        rw [List.find?_cons, List.find?_cons, ih fun e he => hall e (by simp [he])]
        simp only [Function.comp_def]
        rw [hall e (by simp)]
    rw [this]
    cases table.reverse.find? fun e => decide (e.1 = idx) <;> rfl
  refine ⟨f, h1, fun x => ⟨fun p hm => ?_, fun hm => ?_⟩⟩
  · unfold prob
    rw [h3, hlk]
    have hx : (table.reverse.find? fun e => e.1 = vars.map x) = some (vars.map x, p) := by
      have hsome : (table.reverse.find? fun e => decide (e.1 = vars.map x)).isSome := by
        rw [List.find?_isSome]
        exact ⟨_, List.mem_reverse.2 hm, by simp⟩
      obtain ⟨e, he⟩ := Option.isSome_iff_exists.1 hsome
      have h4 : e.1 = vars.map x := by simpa using List.find?_some he
      have h5 := List.mem_reverse.1 (List.mem_of_find?_eq_some he)
      have h6 : Dict.get? table (vars.map x) = some e.2 := Dict.get?_of_mem hk (by rw [← h4]; exact h5)
      have h7 : Dict.get? table (vars.map x) = some p := Dict.get?_of_mem hk hm
      rw [he]
      have : e.2 = p := Option.some.inj (h6.symm.trans h7)
      rw [← h4, ← this]
    rw [hx]
    simp only
    rw [XF.log_fin (hp _ hm), XF.prob_ofProb (hp _ hm)]
  · unfold prob
    rw [h3, hlk]
    have hx : (table.reverse.find? fun e => decide (e.1 = vars.map x)) = none := by
      rw [List.find?_eq_none]
      intro e he h4
      apply hm
      rw [List.mem_map]
      exact ⟨e, List.mem_reverse.1 he, by simpa using h4⟩
    rw [hx]
    simp [XF.log, XF.prob]

/-- **C14.** The constructor raises `IndexError` as soon as one full-length key is out of range. -/
theorem C14_table_range (vars : List Var) (cards : List Nat) (table : Dict (List Int) ℝ) (hn : vars.Nodup)
    (hl : cards.length = vars.length) (hlen : ∀ e ∈ table, e.1.length = cards.length)
    (h : ∃ e ∈ table, ¬ KeyOk cards e.1) : ofTable vars cards table = .error .indexError := by
  unfold ofTable
  simp only [dedup_length_eq hn, hl, beq_self_eq_true, pyGuard, if_true, py_bind_ok]
  rw [fold_setIndex_error table hlen h _ rfl]
  rfl

example : (["a", "b"] : List Var).Nodup ∧ ([2, 3] : List Nat).length = 2 ∧
    (∀ e ∈ [([0, 2], (1 : ℝ) / 4), ([1, 0], 3 / 4)], List.Forall₂ (· < ·) e.1 [2, 3]) ∧
    ([([0, 2], (1 : ℝ) / 4), ([1, 0], 3 / 4)].map Prod.fst).Nodup ∧
    (∀ e ∈ [([0, 2], (1 : ℝ) / 4), ([1, 0], 3 / 4)], 0 ≤ e.2) :=
  ⟨by decide, rfl, by simp, by simp, by simp; norm_num⟩

example : KeyOk [2, 3] [-1, 2] ∧ ¬ KeyOk [2, 3] [0, 3] := by
  constructor
  · exact .cons (by decide) (.cons (by decide) .nil)
  · intro h
    cases h with
    | cons _ h2 => cases h2 with
      | cons h3 _ => exact absurd h3 (by decide)

/-! ### C15 multiply -/

/-- **C15.** If shared variables have equal cardinalities and equal value names, `multiply` succeeds:
the scope is the union, each variable keeps its cardinality and names, and the log value at each joint
assignment is the sum of the operands' log values. -/
theorem C15_multiply_pointwise [Add K] (f g : Cat K) (hf : WF f) (hg : WF g) (hc : Consistent f g)
    (hn : SameNames f g) :
    ∃ r, multiply f g = .ok r ∧ WF r ∧ (∀ v, v ∈ r.vars ↔ v ∈ f.vars ∨ v ∈ g.vars) ∧
      (∀ v ∈ f.vars, r.card v = f.card v) ∧ (∀ v ∈ g.vars, r.card v = g.card v) ∧
      ∀ x, f.InRange x → g.InRange x → r.val x = XF.add (f.val x) (g.val x) := by
  obtain ⟨r, h, s⟩ := multiply_ok hf hg hc hn
  exact ⟨r, h, s.wf, s.scope, s.cardL, s.cardR, s.val⟩

/-- **C15.** On probabilities: the product. -/
theorem C15_multiply_prob (f g : Cat ℝ) (hf : WF f) (hg : WF g) (hc : Consistent f g)
    (hn : SameNames f g) (pf : Proper f) (pg : Proper g) :
    ∃ r, multiply f g = .ok r ∧ ∀ x, f.InRange x → g.InRange x → r.prob x = f.prob x * g.prob x := by
  obtain ⟨r, h, s⟩ := multiply_ok hf hg hc hn
  refine ⟨r, h, fun x hx hx' => ?_⟩
  unfold prob
  rw [s.val x hx hx', XF.prob_add (pf x hx) (pg x hx')]

/-- **C15.** `multiply` fails exactly when shared cardinalities or names differ: `AssertionError` for
the cardinalities, otherwise `InconsistentAssignmentNamesError`. -/
theorem C15_multiply_errors [Add K] (f g : Cat K) (hf : WF f) (hg : WF g) :
    (¬ Consistent f g → multiply f g = .error .assertionError) ∧
    (Consistent f g → ¬ SameNames f g → multiply f g = .error .inconsistentNames) := by
  classical
  constructor
  · intro hc
    unfold multiply
    rw [assertCards_eq hf hg, if_neg hc]; rfl
  · intro hc hn
    obtain ⟨r, vs, h1, _⟩ := tensorOp_ok hf.nodup hg.nodup hf.shape hg.shape hc XF.add
    unfold multiply
    rw [assertCards_eq hf hg, if_pos hc, py_bind_ok, h1, py_bind_ok, checkNames_eq hf hg, if_neg hn]; rfl

example : WF exA ∧ WF exB ∧ Consistent exA exB ∧ SameNames exA exB ∧
    exA.InRange (fun v => if v = "b" then 1 else 0) ∧ exB.InRange (fun v => if v = "b" then 1 else 0) :=
  ⟨exA_wf, exB_wf, exAB_consistent, exAB_names, by unfold InRange; decide +kernel, by unfold InRange; decide +kernel⟩

/-! ### C16 divide -/

/-- **C16.** Dividing by a factor whose scope lies inside the scope: the difference of the log values. -/
theorem C16_divide_pointwise [Sub K] (f g : Cat K) (hf : WF f) (hg : WF g) (hc : Consistent f g)
    (hn : SameNames f g) (hsub : ∀ v ∈ g.vars, v ∈ f.vars) :
    ∃ r, divide f g = .ok r ∧ WF r ∧ (∀ v, v ∈ r.vars ↔ v ∈ f.vars) ∧
      (∀ v ∈ f.vars, r.card v = f.card v) ∧
      ∀ x, f.InRange x → r.val x = XF.sub (f.val x) (g.val x) := by
  obtain ⟨r, h, s⟩ := divide_ok hf hg hc hn hsub
  refine ⟨r, h, s.wf, fun v => (s.scope v).trans ⟨fun h => h.elim id (hsub v), Or.inl⟩, s.cardL,
    fun x hx => s.val x hx fun v hv => ?_⟩
  rw [← hc v (hsub v hv) hv]
  exact hx v (hsub v hv)

/-- **C16.** `divide` inverts `multiply` wherever the divisor is finite. -/
theorem C16_divide_inverts [AddGroup K] (f g : Cat K) (hf : WF f) (hg : WF g) (hc : Consistent f g)
    (hn : SameNames f g) :
    ∃ p r, multiply f g = .ok p ∧ divide p g = .ok r ∧
      (∀ v, v ∈ r.vars ↔ v ∈ f.vars ∨ v ∈ g.vars) ∧
      ∀ x, f.InRange x → g.InRange x → (g.val x).Finite → r.val x = f.val x := by
  obtain ⟨p, h, s⟩ := multiply_ok hf hg hc hn
  obtain ⟨r, h', s'⟩ := divide_ok s.wf hg (fun v _ hv => s.cardR v hv) (fun v _ hv => s.nameR v hv)
    fun v hv => (s.scope v).2 (Or.inr hv)
  refine ⟨p, r, h, h', fun v => ?_, fun x hx hx' hfin => ?_⟩
  · rw [s'.scope, s.scope]; tauto
  · rw [s'.val x _ hx', s.val x hx hx']
    · revert hfin
      generalize f.val x = a
      generalize g.val x = b
      cases a <;> cases b <;> simp [XF.Finite, XF.add, XF.sub]
    · intro v hv
      rcases (s.scope v).1 hv with h | h
      · rw [s.cardL v h]; exact hx v h
      · rw [s.cardR v h]; exact hx' v h

/-- **C16.** A divisor with a variable outside the scope raises `KeyError`. -/
theorem C16_divide_foreign [Sub K] (f g : Cat K) (hf : WF f) (hg : WF g) (hc : Consistent f g)
    (hn : SameNames f g) (hsub : ∃ v ∈ g.vars, v ∉ f.vars) : divide f g = .error .keyError :=
  divide_foreign hf hg hc hn hsub

/-- A divisor inside the scope of `exA`. -/
def exM : Cat ℤ := mk0 ["b"] [3] fun i => if i = [1] then .ninf else .fin 7

theorem exM_wf : WF exM := mk0_wf _ (by decide) rfl

theorem exAM : Consistent exA exM ∧ SameNames exA exM ∧ ∀ v ∈ exM.vars, v ∈ exA.vars := by
  refine ⟨?_, ?_, by decide⟩
  all_goals
    intro v _ h2
    obtain rfl : v = "b" := by simpa [exM, mk0, mk'] using h2
    rfl

example : WF exA ∧ WF exM ∧ Consistent exA exM ∧ SameNames exA exM ∧ ∀ v ∈ exM.vars, v ∈ exA.vars :=
  ⟨exA_wf, exM_wf, exAM⟩

example : ∃ v ∈ exB.vars, v ∉ exA.vars := by decide

/-! ### C17 cancel -/

/-- The quotient with 0/0 = 0 on log values. -/
def quot0 [Sub K] : XF K → XF K → XF K
  | .ninf, .ninf => .ninf
  | a, b => XF.sub a b

theorem tensorOp_same {a b : Tensor (XF K)} {vs : List Var} {c : Var → Nat} (hsa : a.shape = vs.map c)
    (hsb : b.shape = vs.map c) (op : XF K → XF K → XF K) :
    ∃ r, tensorOp a b vs vs op = .ok (r, vs) ∧ r.shape = vs.map c ∧
      ∀ x : Asg, (∀ v ∈ vs, x v < c v) → r.get (vs.map x) = op (a.get (vs.map x)) (b.get (vs.map x)) := by
  unfold tensorOp Tensor.zipOp
  rw [if_pos rfl, hsa, hsb, Tensor.bshape_eq rfl (Tensor.bshapeEq_self _), py_bind_ok, py_bind_ok]
  refine ⟨_, rfl, rfl, fun x hx => ?_⟩
  simp only
  rw [Tensor.bidx_self (Tensor.inShape_map.2 hx)]

theorem patch_same [DecidableEq K] [Zero K] {f g : Cat K} (hf : WF f) (hne : f.vars ≠ [])
    (hv : f.vars = g.vars) (hshape : g.tensor.shape = f.tensor.shape) :
    ∃ gt, patchDivisor f.tensor g.tensor = .ok gt ∧ gt.shape = f.tensor.shape ∧
      ∀ x, f.InRange x → gt.get (f.vars.map x)
        = if f.val x = .ninf ∧ g.val x = .ninf then .fin 0 else g.val x := by
  unfold patchDivisor Tensor.zipOp
  rw [hshape, Tensor.bshape_eq rfl (Tensor.bshapeEq_self _), py_bind_ok, py_bind_ok]
  dsimp only
  have hbid : ∀ i ∈ productRange f.tensor.shape, Tensor.bidx f.tensor.shape i = i := fun i hi =>
    Tensor.bidx_self (mem_productRange.1 hi)
  have hmem : ∀ i, i ∈ ((productRange f.tensor.shape).filter fun i =>
      XF.eq (g.tensor.get (Tensor.bidx f.tensor.shape i)) .ninf &&
      XF.eq (f.tensor.get (Tensor.bidx f.tensor.shape i)) .ninf) ↔
      i ∈ productRange f.tensor.shape ∧ f.tensor.get i = .ninf ∧ g.tensor.get i = .ninf := by
    intro i
    rw [List.mem_filter]
    constructor
    · rintro ⟨h1, h2⟩
      rw [hbid i h1, Bool.and_eq_true] at h2
      exact ⟨h1, XF.eq_of_eq h2.2, XF.eq_of_eq h2.1⟩
    · rintro ⟨h1, h2, h3⟩
      refine ⟨h1, ?_⟩
      rw [hbid i h1, h2, h3]; simp [XF.eq]
  have hin : ∀ x, f.InRange x → f.vars.map x ∈ productRange f.tensor.shape := by
    intro x hx
    rw [mem_productRange, hf.shape]
    exact Tensor.inShape_map.2 hx
  have hgv : ∀ x : Asg, g.tensor.get (f.vars.map x) = g.val x := fun x => by rw [hv]; rfl
  split
  · rename_i hnil
    refine ⟨_, rfl, hshape, fun x hx => ?_⟩
    rw [if_neg]
    · exact hgv x
    · rintro ⟨h1, h2⟩
      have : f.vars.map x ∈ ([] : List (List Nat)) := by
        rw [← hnil, hmem]
        exact ⟨hin x hx, h1, (hgv x).trans h2⟩
      simp at this
  · rw [if_neg, if_pos]
    · refine ⟨_, rfl, rfl, fun x hx => ?_⟩
      simp only
      rw [hgv]
      congr 1
      rw [hmem]
      simp only [hin x hx, true_and, hgv]
      rfl
    · rw [List.all_eq_true]
      intro i hi
      have h4 := mem_productRange.1 ((hmem i).1 hi).1
      clear hi
      generalize f.tensor.shape = sh at h4 ⊢
      induction h4 with
      | nil => rfl
      | cons h _ ih => simp only [List.zipWith_cons_cons, List.all_cons, ih]; simpa using h
    · simp only [Tensor.ndim, hf.ndim, hshape]
      rintro (h | h)
      · exact hne (List.length_eq_zero_iff.1 h)
      · omega

/-- **C17 (part that holds).** For operands with the same variables in the same order, `cancel` is the
quotient with 0/0 = 0. What is missing for the full claim: a divisor over a proper subset of the scope
(see `C17_cancel_suffix`) and a divisor with another variable order; there the claim is false, see the
witnesses below. -/
theorem C17_cancel_partial [DecidableEq K] [AddGroup K] (f g : Cat K) (hf : WF f) (hg : WF g)
    (hne : f.vars ≠ []) (hv : f.vars = g.vars) (hc : Consistent f g) (hn : SameNames f g) :
    ∃ r, cancel f g = .ok r ∧ WF r ∧ r.vars = f.vars ∧ (∀ v ∈ f.vars, r.card v = f.card v) ∧
      ∀ x, f.InRange x → r.val x = quot0 (f.val x) (g.val x) := by
  classical
  have hshape : g.tensor.shape = f.tensor.shape := by
    rw [hf.shape, hg.shape, ← hv]
    exact List.map_congr_left fun v hm => (hc v hm (hv ▸ hm)).symm
  obtain ⟨gt, h1, h2, h3⟩ := patch_same hf hne hv hshape
  obtain ⟨t, k1, k2, k3⟩ := tensorOp_same hf.shape (h2.trans hf.shape) XF.sub
  unfold cancel
  rw [h1, py_bind_ok, ← hv, k1, py_bind_ok, checkNames_eq hf hg, if_pos hn, py_bind_ok]
  dsimp only
  rw [hf.namesOf fun _ h => h, py_bind_ok, ofTensor_eq hf.nodup k2 hf.namesCard]
  refine ⟨_, rfl, mk'_wf hf.nodup k2 hf.namesCard, rfl, fun v hv => card_mk' k2 hv, fun x hx => ?_⟩
  show t.get (f.vars.map x) = _
  rw [k3 x hx, h3 x hx]
  show XF.sub (f.val x) _ = _
  generalize f.val x = a
  generalize g.val x = b
  cases a <;> cases b <;> simp [quot0, XF.sub]

theorem bidx_suffix {s' i i' : List Nat} (hs : Tensor.InShape s' i') :
    Tensor.bidx s' (i ++ i') = i' := by
  have h' : s'.length = i'.length := hs.length_eq.symm
  unfold Tensor.bidx
  rw [List.length_append, h', Nat.add_sub_cancel, List.drop_left]
  have := Tensor.bidx_self hs
  unfold Tensor.bidx at this
  rwa [h', Nat.sub_self, List.drop_zero] at this

/-- **C17, divisors over a proper suffix of the scope**: `cancel` raises `IndexError` exactly when some
assignment is a 0/0 case, the very case it is meant to handle; without one it is the quotient. -/
theorem C17_cancel_suffix [DecidableEq K] [AddGroup K] (f g : Cat K) (hf : WF f) (hg : WF g)
    (pre : List Var) (hpre : pre ≠ []) (hv : f.vars = pre ++ g.vars) (hc : Consistent f g)
    (hn : SameNames f g) :
    ((∃ x, f.InRange x ∧ f.val x = .ninf ∧ g.val x = .ninf) → cancel f g = .error .indexError) ∧
    ((¬ ∃ x, f.InRange x ∧ f.val x = .ninf ∧ g.val x = .ninf) →
      ∃ r, cancel f g = .ok r ∧ WF r ∧ (∀ v, v ∈ r.vars ↔ v ∈ f.vars) ∧
        ∀ x, f.InRange x → r.val x = XF.sub (f.val x) (g.val x)) := by
  classical
  have hsub : ∀ v ∈ g.vars, v ∈ f.vars := fun v h => by rw [hv]; exact List.mem_append_right _ h
  have hshape : f.tensor.shape = pre.map f.card ++ g.tensor.shape := by
    rw [hf.shape, hg.shape, hv, List.map_append]
    congr 1
    exact List.map_congr_left fun v hm => hc v (hsub v hm) hm
  have hb : Tensor.bshape g.tensor.shape f.tensor.shape = .ok f.tensor.shape := by
    unfold Tensor.bshape
    have h1 : f.tensor.shape.length - g.tensor.shape.length = (pre.map f.card).length := by
      rw [hshape]; simp
    have h2 : g.tensor.shape.length - f.tensor.shape.length = 0 := by rw [hshape]; simp
    rw [h1, h2, List.replicate_zero, List.nil_append, hshape]
    exact Tensor.bshapeEq_append (by simp) (Tensor.bshapeEq_ones_left _) (Tensor.bshapeEq_self _)
  have hgin : ∀ x, f.InRange x → g.InRange x := fun x hx v hvg => by
    rw [← hc v (hsub v hvg) hvg]; exact hx v (hsub v hvg)
  have hidx : ∀ x, f.InRange x → Tensor.bidx f.tensor.shape (f.vars.map x) = f.vars.map x ∧
      Tensor.bidx g.tensor.shape (f.vars.map x) = g.vars.map x := by
    intro x hx
    constructor
    · apply Tensor.bidx_self
      rw [hf.shape]; exact Tensor.inShape_map.2 hx
    · rw [hv, List.map_append]
      apply bidx_suffix
      rw [hg.shape]; exact Tensor.inShape_map.2 (hgin x hx)
  have hmem : ∀ i, i ∈ ((productRange f.tensor.shape).filter fun i =>
      XF.eq (g.tensor.get (Tensor.bidx g.tensor.shape i)) .ninf &&
      XF.eq (f.tensor.get (Tensor.bidx f.tensor.shape i)) .ninf) →
      ∃ x, f.InRange x ∧ f.val x = .ninf ∧ g.val x = .ninf := by
    intro i hi
    rw [List.mem_filter, mem_productRange, hf.shape] at hi
    obtain ⟨h1, h2⟩ := Tensor.inShape_asg hf.nodup hi.1
    rw [← h1] at hi
    obtain ⟨h3, h4⟩ := hidx (asgOf f.vars i) h2
    rw [← hf.shape, h3, h4, Bool.and_eq_true] at hi
    exact ⟨_, h2, XF.eq_of_eq hi.2.2, XF.eq_of_eq hi.2.1⟩
  have hmem' : ∀ x, f.InRange x → f.val x = .ninf → g.val x = .ninf → f.vars.map x ∈
      ((productRange f.tensor.shape).filter fun i =>
      XF.eq (g.tensor.get (Tensor.bidx g.tensor.shape i)) .ninf &&
      XF.eq (f.tensor.get (Tensor.bidx f.tensor.shape i)) .ninf) := by
    intro x hx h1 h2
    obtain ⟨h3, h4⟩ := hidx x hx
    rw [List.mem_filter, mem_productRange, h3, h4]
    refine ⟨?_, ?_⟩
    · rw [hf.shape]; exact Tensor.inShape_map.2 hx
    · unfold val at h1 h2; rw [h1, h2]; simp [XF.eq]
  have hnd : g.tensor.shape.length < f.tensor.shape.length := by
    rw [hshape, List.length_append, List.length_map]
    have := List.length_pos_iff.2 hpre
    omega
  constructor
  · rintro ⟨x, hx, h1, h2⟩
    unfold cancel patchDivisor Tensor.zipOp
    rw [hb, py_bind_ok, py_bind_ok]
    dsimp only
    rw [if_neg, if_pos]
    · rfl
    · exact Or.inr hnd
    · intro hnil
      have := hmem' x hx h1 h2
      rw [hnil] at this
      simp at this
  · intro hno
    have hpatch : patchDivisor f.tensor g.tensor = .ok g.tensor := by
      unfold patchDivisor Tensor.zipOp
      rw [hb, py_bind_ok, py_bind_ok]
      dsimp only
      rw [if_pos]
      rw [List.eq_nil_iff_forall_not_mem]
      intro i hi
      exact hno (hmem i hi)
    obtain ⟨t, vs, k1, nd, mem, k2, k3⟩ := tensorOp_ok hf.nodup hg.nodup hf.shape hg.shape hc XF.sub
    obtain ⟨k4, s⟩ := binSpec_of hf hg hc nd mem k2 k3 (nm := f.name) (fun _ _ => rfl)
      fun v h => hn v (hsub v h) h
    unfold cancel
    rw [hpatch, py_bind_ok, k1, py_bind_ok, checkNames_eq hf hg, if_pos hn, py_bind_ok]
    dsimp only
    rw [hf.namesOf fun v h => ((mem v).1 h).elim id (hsub v), py_bind_ok, k4]
    exact ⟨_, rfl, s.wf, fun v => (s.scope v).trans ⟨fun h => h.elim id (hsub v), Or.inl⟩,
      fun x hx => s.val x hx (hgin x hx)⟩

/-- Another factor over a, b, with a zero where `exA` has one, and a divisor over b, a. -/
def exC : Cat ℤ := mk0 ["a", "b"] [2, 3] fun i => if i = [1, 0] then .ninf else if i = [0, 0] then .ninf else .fin 3

theorem exC_wf : WF exC := mk0_wf _ (by decide) rfl

theorem exAC : Consistent exA exC ∧ SameNames exA exC := by
  constructor
  all_goals
    intro v h1 _
    have h1 : v = "a" ∨ v = "b" := by simpa [exA, mk0, mk'] using h1
    rcases h1 with rfl | rfl <;> rfl

example : WF exA ∧ WF exC ∧ exA.vars ≠ [] ∧ exA.vars = exC.vars ∧ Consistent exA exC ∧ SameNames exA exC :=
  ⟨exA_wf, exC_wf, by decide, rfl, exAC⟩

/-- Divisor over the last variable of `exA`, zero at b = 0. -/
def exM0 : Cat ℤ := mk0 ["b"] [3] fun i => if i = [0] then .ninf else .fin 7

example : WF exA ∧ WF exM0 ∧ exA.vars = ["a"] ++ exM0.vars ∧ Consistent exA exM0 ∧ SameNames exA exM0 := by
  refine ⟨exA_wf, mk0_wf _ (by decide) rfl, rfl, ?_, ?_⟩
  all_goals
    intro v _ h2
    obtain rfl : v = "b" := by simpa [exM0, mk0, mk'] using h2
    rfl

/-- **C17 violated:** a 0/0 case with a divisor over the last variable raises `IndexError`. -/
theorem C17_cancel_raises_index : exA.val (fun v => if v = "a" then 1 else 0) = .ninf ∧
    exM0.val (fun v => if v = "a" then 1 else 0) = .ninf ∧
    cancel exA exM0 = .error .indexError := by
  refine ⟨by decide +kernel, by decide +kernel, ?_⟩
  refine (C17_cancel_suffix exA exM0 exA_wf (mk0_wf _ (by decide) rfl) ["a"] (by decide) rfl ?_ ?_).1
    ⟨fun v => if v = "a" then 1 else 0, by unfold InRange; decide +kernel, by decide +kernel, by decide +kernel⟩
  all_goals
    intro v _ h2
    obtain rfl : v = "b" := by simpa [exM0, mk0, mk'] using h2
    rfl

/-- Divisor over the first variable of `exA`. -/
def exM1 : Cat ℤ := mk0 ["a"] [2] fun _ => .fin 7

/-- **C17 violated:** a divisor over the first variable does not even broadcast: `ValueError`, also
without any zero. -/
theorem C17_cancel_raises_value : WF exM1 ∧ (∀ v ∈ exM1.vars, v ∈ exA.vars) ∧
    cancel exA exM1 = .error .valueError :=
  ⟨mk0_wf _ (by decide) rfl, by decide, rfl⟩

/-- Two factors over a, b and b, a, each with one zero, at different assignments. -/
def exP : Cat ℤ := mk0 ["a", "b"] [2, 2] fun i => if i = [0, 1] then .ninf else .fin 5
def exQ : Cat ℤ := mk0 ["b", "a"] [2, 2] fun i => if i = [0, 1] then .ninf else .fin 2

/-- **C17 violated:** with another variable order the zeros are compared at unrelated assignments, and
a division by zero silently becomes a division by one. At a = 1, b = 0 the dividend is not zero and the
divisor is, yet the result is the dividend. -/
theorem C17_cancel_misaligned : WF exP ∧ WF exQ ∧ ∃ r, cancel exP exQ = .ok r ∧
    exP.val (fun v => if v = "a" then 1 else 0) = .fin 5 ∧
    exQ.val (fun v => if v = "a" then 1 else 0) = .ninf ∧
    r.val (fun v => if v = "a" then 1 else 0) = .fin 5 :=
  ⟨mk0_wf _ (by decide) rfl, mk0_wf _ (by decide) rfl, _, rfl, by decide +kernel, by decide +kernel,
    by decide +kernel⟩

end Verif.Cat
