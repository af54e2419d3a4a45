import Verif.CatProps

/-!
# Properties of dense categorical factors, continued (C18 - C22)
-/

namespace Verif.Cat
open Spec (Asg)
variable {K : Type}

/-! ### C18 marginalize -/

theorem filter_filter_card {vs : List Var} {out : List Var} {c : Var → Nat}
    (h1 : ∀ v ∈ vs, v ∉ out → c v ≠ 1) :
    (vs.filter fun v => (if v ∈ out then 1 else c v) ≠ 1) = vs.filter (· ∉ out) := by
  apply List.filter_congr
  intro v hv
  by_cases h : v ∈ out
  · simp [h]
  · simp [h, h1 v hv h]

/-- **C18 (part that holds).** If the kept variables are requested in the factor's own order and none of
them has a single value, `marginalize` returns the factor whose probability at each assignment is the
sum over all values of the dropped variables. What is missing for the full claim: other orders of the
kept variables (in particular the hash-dependent order of `keep=False`) and kept variables with one
value; there the claim is false, see the witnesses below. -/
theorem C18_marginalize_partial (hs : HashSeed) (f : Cat ℝ) (hf : WF f) (pf : Proper f) (vrs : List Var)
    (keep : Bool) (kept : List Var) (hkv : Sparse.marginalVars hs f.vars vrs keep = kept)
    (hord : kept = f.vars.filter (· ∈ kept)) (h1 : ∀ v ∈ kept, f.card v ≠ 1)
    (h0 : ∀ v ∈ f.vars, v ∉ kept → f.card v ≠ 0) :
    ∃ r, marginalize hs f vrs keep = .ok r ∧ WF r ∧ Proper r ∧ r.vars = kept ∧
      (∀ v ∈ kept, r.card v = f.card v) ∧ (∀ v ∈ kept, r.name v = f.name v) ∧
      ∀ x, r.InRange x → r.prob x =
        Spec.sumVars ((f.vars.filter (· ∉ kept)).map fun v => (v, f.card v)) f.prob x := by
  have hsubk : ∀ v ∈ kept, v ∈ f.vars := by
    intro v hv
    rw [hord] at hv
    exact (List.mem_filter.1 hv).1
  set out := f.vars.filter (· ∉ kept) with hout
  have ho : out.Nodup := hf.nodup.filter _
  have hmo : ∀ v, v ∈ out ↔ v ∈ f.vars ∧ v ∉ kept := by
    intro v; simp [hout]
  have hok : kept.Nodup := by rw [hord]; exact hf.nodup.filter _
  obtain ⟨t, k1, k2, k3⟩ := applyOver_named hf.nodup ho (fun v hv => ((hmo v).1 hv).1) hf.shape
    (fun v hv => h0 v ((hmo v).1 hv).1 ((hmo v).1 hv).2) (F := f.prob)
    (fun x hx => ⟨pf x hx, rfl⟩)
  obtain ⟨s1, s2⟩ := squeeze_named k2
  have hfil : (f.vars.filter fun v => (if v ∈ out then 1 else f.card v) ≠ 1) = kept := by
    rw [filter_filter_card]
    · conv_rhs => rw [hord]
      apply List.filter_congr
      intro v hv
      rw [decide_eq_decide, hmo]
      tauto
    · intro v hv hvo
      apply h1
      by_contra h
      exact hvo ((hmo v).2 ⟨hv, h⟩)
  rw [hfil] at s1 s2
  have hs1 : t.squeeze.shape = kept.map f.card := by
    rw [s1]
    apply List.map_congr_left
    intro v hv
    rw [if_neg]
    intro h
    exact ((hmo v).1 h).2 hv
  have hnc : ∀ v ∈ kept, (f.name v).dedup.length = f.card v := fun v hv => hf.namesCard v (hsubk v hv)
  unfold marginalize
  dsimp only
  rw [hkv, ← hout, mapM_ok (g := fun v => f.vars.idxOf v) fun v hv => pyIndex_ok ((hmo v).1 hv).1,
    py_bind_ok, k1, py_bind_ok, hf.namesOf hsubk, py_bind_ok, ofTensor_eq hok hs1 hnc]
  have hval : ∀ x, (mk' kept t.squeeze f.name).InRange x →
      (mk' kept t.squeeze f.name).val x = t.get (f.vars.map fun v => if v ∈ out then 0 else x v) ∧
      ∀ w ∈ f.vars, (if w ∈ out then 0 else x w) < if w ∈ out then 1 else f.card w := by
    intro x hx
    constructor
    · show t.squeeze.get (kept.map x) = _
      rw [s2]
      congr 1
      apply List.map_congr_left
      intro v hv
      by_cases h : v ∈ out
      · simp [h]
      · have : v ∈ kept := by
          by_contra h2
          exact h ((hmo v).2 ⟨hv, h2⟩)
        simp [h, h1 v this]
    · intro w hw
      by_cases h : w ∈ out
      · simp [h]
      · have hk : w ∈ kept := by
          by_contra h2
          exact h ((hmo w).2 ⟨hw, h2⟩)
        have := hx w hk
        rw [card_mk' hs1 hk] at this
        simpa [h] using this
  refine ⟨_, rfl, mk'_wf hok hs1 hnc, fun x hx => ?_, rfl, fun v hv => card_mk' hs1 hv,
    fun v hv => name_mk' hv, fun x hx => ?_⟩
  · rw [(hval x hx).1]
    exact (k3 _ (hval x hx).2).1
  · unfold prob
    rw [(hval x hx).1, (k3 _ (hval x hx).2).2]
    apply Spec.sumVars_indep
    intro v hv
    rw [if_neg]
    intro h
    exact hv (by rw [List.map_map]; simpa [Function.comp_def] using h)

/-- A factor over a, b, c used in the examples: probability 1 at (0,1,0) and (0,1,1). -/
def exR : Cat ℝ := mk0 ["a", "b", "c"] [2, 2, 2] fun i =>
  if i = [0, 1, 0] ∨ i = [0, 1, 1] then .fin 0 else .ninf

theorem exR_wf : WF exR := mk0_wf _ (by decide) rfl

theorem exR_proper : Proper exR := by
  intro x _
  unfold val exR mk0 mk'
  simp only
  split <;> simp [XF.Proper]

theorem exR_card {v : Var} (h : v ∈ exR.vars) : exR.card v = 2 := by
  have h1 : v = "a" ∨ v = "b" ∨ v = "c" := by simpa [exR, mk0, mk'] using h
  rcases h1 with rfl | rfl | rfl <;> rfl

example : WF exR ∧ Proper exR ∧ Sparse.marginalVars HashSeed.example exR.vars ["a", "b"] true = ["a", "b"] ∧
    (["a", "b"] = exR.vars.filter (· ∈ ["a", "b"])) ∧ (∀ v ∈ ["a", "b"], exR.card v ≠ 1) ∧
    (∀ v ∈ exR.vars, v ∉ ["a", "b"] → exR.card v ≠ 0) := by
  refine ⟨exR_wf, exR_proper, rfl, by decide, ?_, ?_⟩
  · intro v hv
    rw [exR_card (by revert hv; simp [exR, mk0, mk']; tauto)]; decide
  · intro v hv _
    rw [exR_card hv]; decide

/-- Two variables, probability one at a = 0, b = 1 only. -/
def exS : Cat ℝ := mk0 ["a", "b"] [2, 2] fun i => if i = [0, 1] then .fin 0 else .ninf

/-- **C18 violated, order of the request:** marginalizing to `["b", "a"]` sums nothing out and relabels
the axes, so a = 0, b = 1 gets the value of a = 1, b = 0. -/
theorem C18_marginalize_wrong_order (hs : HashSeed) : WF exS ∧
    exS.val (fun v => if v = "b" then 1 else 0) = .fin 0 ∧
    ∃ r, marginalize hs exS ["b", "a"] true = .ok r ∧ r.vars = ["b", "a"] ∧
      r.val (fun v => if v = "b" then 1 else 0) = .ninf := by
  refine ⟨mk0_wf _ (by decide) rfl, ?_, _, rfl, rfl, ?_⟩
  · show (if (["a", "b"].map fun v => if v = "b" then 1 else 0) = [0, 1] then XF.fin (0:ℝ) else .ninf) = _
    rw [if_pos (by decide)]
  · rfl

/-- **C18 violated, `keep=False`:** the axes are labelled in the iteration order of a Python set, so for
some hash seeds the result is mislabelled. Here nothing is dropped and one seed returns the factor
itself while another swaps the two variables. -/
theorem C18_marginalize_hash_dependent :
    (∃ r, marginalize HashSeed.example exS [] false = .ok r ∧
      r.val (fun v => if v = "b" then 1 else 0) = .fin 0) ∧
    (∃ r, marginalize Sparse.revSeed exS [] false = .ok r ∧
      r.val (fun v => if v = "b" then 1 else 0) = .ninf) := by
  refine ⟨⟨_, rfl, ?_⟩, ⟨_, rfl, ?_⟩⟩
  · rfl
  · rfl

/-- **C18 violated, one-valued variables:** keeping a variable with one value raises `ValueError`. -/
theorem C18_marginalize_card_one (hs : HashSeed) (g : List Nat → XF ℝ) :
    WF (mk0 ["a", "b"] [1, 2] g) ∧
    marginalize hs (mk0 ["a", "b"] [1, 2] g) ["a", "b"] true = .error .valueError :=
  ⟨mk0_wf _ (by decide) rfl, rfl⟩

/-! ### C19 reduce -/

/-- **C19.** Reducing by in-range evidence gives the factor over the unobserved variables in scope
order, whose log value is the original one with the evidence substituted (negative indices count from
the end, evidence about other variables is ignored). -/
theorem C19_reduce_restricts (f : Cat K) (hf : WF f) (vrs : List Var) (values : List Int)
    (hn : vrs.Nodup) (hl : values.length = vrs.length) (he : f.EvOk vrs values) :
    ∃ r, reduce f vrs values = .ok r ∧ WF r ∧ r.vars = f.vars.filter (· ∉ vrs) ∧
      (∀ v ∈ r.vars, r.card v = f.card v) ∧
      ∀ x, r.val x = f.val (Spec.override (f.evidence vrs values) x) := by
  obtain ⟨r, h1, h2, h3, h4, _, h5⟩ := reduce_ok hf hn hl he
  exact ⟨r, h1, h2, h3, h4, h5⟩

/-- **C19.** For plain (non-negative) evidence. -/
theorem C19_reduce_nat (f : Cat K) (hf : WF f) (vrs : List Var) (values : List Nat)
    (hn : vrs.Nodup) (hl : values.length = vrs.length)
    (he : ∀ e ∈ vrs.zip values, e.1 ∈ f.vars → e.2 < f.card e.1) :
    ∃ r, reduce f vrs (values.map Int.ofNat) = .ok r ∧ WF r ∧ r.vars = f.vars.filter (· ∉ vrs) ∧
      (∀ v ∈ r.vars, r.card v = f.card v) ∧ ∀ x, r.val x = f.val (Spec.override (vrs.zip values) x) := by
  have hz : vrs.zip (values.map Int.ofNat) = (vrs.zip values).map fun e => (e.1, Int.ofNat e.2) := by
    rw [List.zip_map_right]; rfl
  obtain ⟨r, h1, h2, h3, h4, _, h5⟩ := reduce_ok (f := f) hf hn (values := values.map Int.ofNat) (by simpa using hl) (by
    intro e hm hv
    rw [hz] at hm
    obtain ⟨e', hm', rfl⟩ := List.mem_map.1 hm
    have := he e' hm' hv
    constructor
    · have := Int.natCast_nonneg e'.2
      simp only [Int.ofNat_eq_natCast]; omega
    · simp only [Int.ofNat_eq_natCast]; exact_mod_cast this)
  refine ⟨r, h1, h2, h3, h4, fun x => ?_⟩
  rw [h5]
  congr 2
  unfold evidence
  rw [hz, List.map_map]
  conv_rhs => rw [← List.map_id (vrs.zip values)]
  apply List.map_congr_left
  intro e _
  have : ¬ ((e.2 : Int) < 0) := by omega
  simp [wrap, this]

/-- **C19.** `IndexError` exactly when evidence about a variable of the factor is out of range. -/
theorem C19_reduce_range (f : Cat K) (hf : WF f) (vrs : List Var) (values : List Int)
    (hn : vrs.Nodup) (hl : values.length = vrs.length) :
    reduce f vrs values = .error .indexError ↔ ¬ f.EvOk vrs values := by
  constructor
  · intro h he
    obtain ⟨r, h1, _⟩ := reduce_ok hf hn hl he
    rw [h1] at h
    simp at h
  · intro he
    unfold reduce
    dsimp only
    rw [index_error hf hn hl he]
    rfl

example : exA.EvOk ["b", "z"] [-1, 17] ∧ ¬ exA.EvOk ["b"] [3] := by
  constructor
  · intro e he hv
    have : e = ("b", -1) ∨ e = ("z", 17) := by simpa using he
    rcases this with rfl | rfl
    · decide +kernel
    · exact absurd hv (by decide)
  · intro h
    have := h ("b", 3) (by simp) (by decide)
    exact absurd this (by decide +kernel)

/-! ### C20 reorder -/

/-- **C20.** `reorder` succeeds exactly for permutations of the scope (`ValueError` otherwise) and does
not change the value at any assignment. -/
theorem C20_reorder_preserves (f : Cat K) (hf : WF f) (newVars : List Var) :
    (newVars.Perm f.vars → ∃ r, reorder f newVars = .ok r ∧ WF r ∧ r.vars = newVars ∧
      (∀ v ∈ newVars, r.card v = f.card v) ∧ ∀ x, r.val x = f.val x) ∧
    (¬ newVars.Perm f.vars → reorder f newVars = .error .valueError) := by
  refine ⟨fun hp => ?_, reorder_error hf⟩
  obtain ⟨r, h1, h2, h3, h4, _, h5⟩ := reorder_ok hf hp
  exact ⟨r, h1, h2, h3, h4, h5⟩

example : ["b", "a"].Perm exA.vars ∧ ¬ ["b"].Perm exA.vars := by decide

/-! ### C21 potential -/

/-- **C21.** `potential(vrs, assignment)` with `vrs` any ordering of the scope returns the scalar
probability at the assignment that gives `vrs[i]` the value `assignment[i]`; with other variables it
raises `AssertionError`. -/
theorem C21_potential (f : Cat ℝ) (hf : WF f) (pf : Proper f) (vrs : List Var) (x : Asg) (hx : f.InRange x) :
    (vrs.Perm f.vars → ∃ t, potential f vrs (vrs.map fun v => Int.ofNat (x v)) = .ok t ∧ t.shape = [] ∧
      t.get [] = .fin (f.prob x)) ∧
    ((∃ v, ¬ (v ∈ vrs ↔ v ∈ f.vars)) → ∀ vals, potential f vrs vals = .error .assertionError) := by
  constructor
  · intro hp
    have hnd : vrs.Nodup := hp.nodup_iff.2 hf.nodup
    have hz : vrs.zip (vrs.map fun v => Int.ofNat (x v)) = vrs.map fun v => (v, Int.ofNat (x v)) :=
      zip_map_self _ _
    obtain ⟨t, h1, h2, h3⟩ := index_ok hf (values := vrs.map fun v => Int.ofNat (x v)) hnd (by simp) (by
      intro e he hv
      rw [hz] at he
      obtain ⟨v, hm, rfl⟩ := List.mem_map.1 he
      have := hx v hv
      simp only [Int.ofNat_eq_natCast]
      constructor
      · omega
      · exact_mod_cast this)
    have hnil : f.vars.filter (· ∉ vrs) = [] := by
      rw [List.filter_eq_nil_iff]
      intro v hv
      simp [hp.mem_iff.2 hv]
    rw [hnil] at h2 h3
    refine ⟨t.map XF.exp, ?_, h2, ?_⟩
    · unfold potential logPotential
      have ha : (decide (∀ v ∈ vrs, v ∈ f.vars) && decide (∀ v ∈ f.vars, v ∈ vrs)) = true := by
        simp only [Bool.and_eq_true, decide_eq_true_eq]
        exact ⟨fun v => hp.mem_iff.1, fun v => hp.mem_iff.2⟩
      rw [ha, pyAssert_true, py_bind_ok, h1, py_bind_ok]
    · show XF.exp (t.get []) = _
      have := h3 x
      rw [List.map_nil] at this
      rw [this]
      have hval : f.val (Spec.override (f.evidence vrs (vrs.map fun v => Int.ofNat (x v))) x) = f.val x := by
        unfold val
        congr 1
        apply List.map_congr_left
        intro v hv
        unfold evidence
        rw [hz, List.map_map]
        have : ((fun e : Var × Int => (e.1, wrap (f.card e.1) e.2)) ∘ fun v => (v, Int.ofNat (x v)))
            = fun v => (v, x v) := by
          funext v; simp [wrap]
        rw [this, ← zip_map_self]
        have := Spec.map_override (x := x) hnd (ks := vrs.map x) (by simp)
        exact (map_eq_map_iff'.1 this) v (hp.mem_iff.2 hv)
      rw [hval, XF.exp_proper (pf x hx)]
      rfl
  · rintro ⟨v, hv⟩ vals
    unfold potential logPotential
    have ha : (decide (∀ v ∈ vrs, v ∈ f.vars) && decide (∀ v ∈ f.vars, v ∈ vrs)) = false := by
      rw [Bool.eq_false_iff]
      intro h
      simp only [Bool.and_eq_true, decide_eq_true_eq] at h
      exact hv ⟨h.1 v, h.2 v⟩
    rw [ha]
    rfl

example : ["c", "a", "b"].Perm exR.vars ∧ exR.InRange (fun v => if v = "b" then 1 else 0) := by
  refine ⟨by decide, fun v hv => ?_⟩
  rw [exR_card hv]
  dsimp only
  split <;> decide

/-! ### C22 argmax -/

theorem entries_getElem {t : Tensor (XF K)} {i : Nat} (h : i < t.entries.length) :
    t.entries[i] = t.get ((productRange t.shape)[i]'(by simpa [Tensor.entries] using h)) := by
  simp [Tensor.entries]

/-- **C22.** For a factor without NaN and without a variable with zero values, `argmax` returns an
in-range assignment whose log value is not below any other and above every log value that comes
earlier in row-major (lexicographic) order; `argmax_assignment_names` returns its names. With a
variable without values it raises `ValueError`. -/
theorem C22_argmax_first [LinearOrder K] (f : Cat K) (hf : WF f)
    (hn : ∀ x, f.InRange x → (f.val x).isNan = false) :
    ((∀ v ∈ f.vars, f.card v ≠ 0) → ∃ y : Asg, argmax f = .ok (f.vars.map y) ∧ f.InRange y ∧
      (∀ x, f.InRange x → XF.lt (f.val y) (f.val x) = false) ∧
      (∀ x, f.InRange x → List.Lex (· < ·) (f.vars.map x) (f.vars.map y) → XF.lt (f.val x) (f.val y) = true) ∧
      argmaxNames f = .ok (f.vars.map fun v => (f.name v).getD (y v) (.int 0)) ∧
      ∀ v ∈ f.vars, y v < (f.name v).length) ∧
    ((∃ v ∈ f.vars, f.card v = 0) → argmax f = .error .valueError) := by
  have hent : ∀ a ∈ f.tensor.entries, a.isNan = false := by
    intro a ha
    obtain ⟨i, hi, rfl⟩ := Tensor.mem_entries.1 ha
    rw [hf.shape] at hi
    obtain ⟨h1, h2⟩ := Tensor.inShape_asg hf.nodup hi
    have := hn _ h2
    unfold val at this
    rwa [h1] at this
  constructor
  · intro h0
    have hlen : f.tensor.entries.length = f.tensor.shape.prod := by
      simp [Tensor.entries, productRange_length]
    have hne : f.tensor.entries ≠ [] := by
      intro h
      rw [h] at hlen
      have : 0 < f.tensor.shape.prod := by
        apply List.prod_pos
        intro c hc
        rw [hf.shape] at hc
        obtain ⟨v, hv, rfl⟩ := List.mem_map.1 hc
        exact Nat.pos_of_ne_zero (h0 v hv)
      simp at hlen
      omega
    obtain ⟨i, hi, h1, h2, h3⟩ := argmaxFlat_spec hne hent
    have hi' : i < (productRange f.tensor.shape).length := by simpa [Tensor.entries] using hi
    have hidx : Tensor.InShape (f.vars.map f.card) (Tensor.unravel i f.tensor.shape) := by
      have := List.getElem_mem hi'
      rw [productRange_getElem hi', mem_productRange] at this
      rwa [hf.shape] at this ⊢
    obtain ⟨hy, hyr⟩ := Tensor.inShape_asg hf.nodup hidx
    set y := asgOf f.vars (Tensor.unravel i f.tensor.shape) with hydef
    have hvy : f.val y = f.tensor.entries[i] := by
      rw [entries_getElem, productRange_getElem, val, hy]
    have hpos : ∀ x, f.InRange x → ∃ j, ∃ hj : j < f.tensor.entries.length,
        f.vars.map x = (productRange f.tensor.shape)[j]'(by simpa [Tensor.entries] using hj) ∧
        f.val x = f.tensor.entries[j] := by
      intro x hx
      have : f.vars.map x ∈ productRange f.tensor.shape := by
        rw [mem_productRange, hf.shape]; exact Tensor.inShape_map.2 hx
      obtain ⟨j, hj, h4⟩ := List.getElem_of_mem this
      refine ⟨j, by simpa [Tensor.entries] using hj, h4.symm, ?_⟩
      rw [entries_getElem, h4]; rfl
    have hname : ∀ v ∈ f.vars, y v < (f.name v).length := by
      intro v hv
      have h5 := hyr v hv
      rw [← hf.namesCard v hv] at h5
      exact lt_of_lt_of_le h5 (List.dedup_sublist _).length_le
    refine ⟨y, ?_, hyr, fun x hx => ?_, fun x hx hlex => ?_, ?_, hname⟩
    · unfold argmax
      rw [h1, py_bind_ok, hy]
    · obtain ⟨j, hj, _, h5⟩ := hpos x hx
      rw [hvy, h5]
      exact h2 j hj
    · obtain ⟨j, hj, h4, h5⟩ := hpos x hx
      rw [hvy, h5]
      apply h3
      by_contra hji
      push Not at hji
      have hyi : f.vars.map y = (productRange f.tensor.shape)[i] := by rw [hy, productRange_getElem]
      rcases Nat.lt_or_eq_of_le hji with hlt | heq
      · have := List.pairwise_iff_getElem.1 (productRange_lex f.tensor.shape) i j hi'
          (by simpa [Tensor.entries] using hj) hlt
        rw [← h4, ← hyi] at this
        exact (asymm hlex this : False)
      · subst heq
        rw [h4, hyi] at hlex
        exact irrefl _ hlex
    · unfold argmaxNames
      rw [h1, py_bind_ok, ← hy, zip_map_self, mapM_ok (g := fun e => (f.name e.1).getD e.2 (.int 0))]
      · rw [List.map_map]; rfl
      · intro e he
        obtain ⟨v, hv, rfl⟩ := List.mem_map.1 he
        simp only
        rw [getItem_ok (hf.get?_names hv), py_bind_ok]
        apply pyGet_ok
        rw [List.getD_eq_getElem?_getD, List.getElem?_eq_getElem (hname v hv)]
        rfl
  · rintro ⟨v, hv, h0⟩
    unfold argmax
    have : f.tensor.entries = [] := by
      rw [List.eq_nil_iff_forall_not_mem]
      intro a ha
      obtain ⟨i, hi, _⟩ := Tensor.mem_entries.1 ha
      rw [hf.shape] at hi
      have := (Tensor.inShape_asg hf.nodup hi).2 v hv
      omega
    rw [this]
    rfl

example : (∀ x, exA.InRange x → (exA.val x).isNan = false) ∧ (∀ v ∈ exA.vars, exA.card v ≠ 0) := by
  refine ⟨fun x _ => ?_, by decide +kernel⟩
  unfold val exA mk0 mk'
  simp only
  split_ifs <;> rfl

end Verif.Cat
