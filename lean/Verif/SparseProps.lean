import Verif.SparseKl

/-!
# Properties of sparse categorical factors (C01 - C13)

The specification side of every statement is `Sparse.val` / `Sparse.prob` (look the assignment up,
missing means default) together with the operations of `Verif.Spec` on functions.
-/

namespace Verif.Sparse
open Spec (Asg)
variable {K : Type}

/-! ### Concrete factors used to show that the hypotheses can be met -/

/-- Variables a, b with cardinalities 2 and 3 and two entries. -/
def exF : Sparse ℝ := ⟨["a", "b"], [2, 3], [([0, 1], .fin 0), ([1, 2], .fin 1)], .ninf⟩

/-- Variables b, c, with an explicit zero entry. -/
def exG : Sparse ℝ := ⟨["b", "c"], [3, 2], [([1, 0], .fin 2), ([2, 1], .ninf)], .ninf⟩

/-- A message over b only. -/
def exM : Sparse ℝ := ⟨["b"], [3], [([1], .fin 2), ([0], .fin 1)], .ninf⟩

theorem exF_regular : Regular exF :=
  ⟨⟨by decide, by decide, by decide, by simp [exF, Dict.keys]⟩, by simp [exF, XF.Proper], rfl⟩

theorem exG_regular : Regular exG :=
  ⟨⟨by decide, by decide, by decide, by simp [exG, Dict.keys]⟩, by simp [exG, XF.Proper], rfl⟩

theorem exM_regular : Regular exM :=
  ⟨⟨by decide, by decide, by decide, by simp [exM, Dict.keys]⟩, by simp [exM, XF.Proper], rfl⟩

theorem exFG_consistent : Consistent exF exG := by
  rw [← consistentCards_iff exF_regular.wf exG_regular.wf]; decide

theorem exFM_consistent : Consistent exF exM := by
  rw [← consistentCards_iff exF_regular.wf exM_regular.wf]; decide

/-! ### C01 multiply -/

theorem multiply_eq [DecidableEq K] [Add K] (hs : HashSeed) {f g : Sparse K} (hf : Regular f)
    (hg : Regular g) (hc : Consistent f g) :
    multiply hs f g = .ok (binResult hs f g XF.add .any) := by
  unfold multiply
  rw [applyBinary_eq hf.wf hg.wf, if_pos ((consistentCards_iff hf.wf hg.wf).2 hc), if_neg]
  rw [hf.dflt, hg.dflt, XF.ne_self] <;> simp

theorem not_hasOuter_val {f : Sparse K} {rem : List Var} (x : Asg)
    (hr : ∀ v ∈ rem, v ∈ f.vars) (h : ¬ HasOuter f rem x) : f.val x = f.dflt := by
  unfold val
  rw [Dict.get?_eq_none_iff.2]
  · rfl
  · intro hk
    exact h ⟨_, hk, fun v hv => asgOf_map x (hr v hv)⟩

/-- **C01.** For zero-default factors with consistent cardinalities, `multiply` succeeds, the scope is
the union, cardinalities are inherited, the result is again a zero-default factor and its log value at
every assignment is the sum of the operands' log values; on the level of probabilities it is the
pointwise product (see `C01_multiply_prob`). -/
theorem C01_multiply_pointwise [DecidableEq K] [Add K] (hs : HashSeed) (f g : Sparse K) (hf : Regular f)
    (hg : Regular g) (hc : Consistent f g) :
    ∃ r, multiply hs f g = .ok r ∧ Regular r ∧
      (∀ v, v ∈ r.vars ↔ v ∈ f.vars ∨ v ∈ g.vars) ∧
      (∀ v ∈ f.vars, r.card v = f.card v) ∧ (∀ v ∈ g.vars, r.card v = g.card v) ∧
      ∀ x, r.val x = XF.add (f.val x) (g.val x) := by
  have hv : ∀ x, (binResult hs f g XF.add .any).val x = XF.add (f.val x) (g.val x) := by
    intro x
    rw [binResult_val_any hf.wf hg.wf (hf.dflt.trans hg.dflt.symm)]
    split
    · rfl
    · rename_i h
      rw [not_and_or] at h
      rcases h with h | h
      · rw [not_hasOuter_val x (fun v hv => (mem_remA.1 hv).1) h]
        have := hg.val_proper x
        rw [hf.dflt]
        revert this
        cases g.val x <;> simp [XF.add, XF.Proper]
      · rw [not_hasOuter_val x (fun v hv => (mem_remB.1 hv).1) h]
        have := hf.val_proper x
        rw [hf.dflt, hg.dflt]
        revert this
        cases f.val x <;> simp [XF.add, XF.Proper]
  refine ⟨_, multiply_eq hs hf hg hc, ?_, fun v => mem_result, ?_, ?_, hv⟩
  · refine regular_of_val (binResult_wf hf.wf hg.wf hc (Or.inl rfl) _) ?_ fun x => ?_
    · show XF.add f.dflt f.dflt = _
      rw [hf.dflt]; rfl
    · rw [hv]; exact XF.add_proper (hf.val_proper x) (hg.val_proper x)
  · intro v hv
    rw [binResult_card v (Or.inl hv), mergedCard]
    split
    · exact (hc v hv ‹_›).symm
    · rfl
  · intro v hv
    rw [binResult_card v (Or.inr hv), mergedCard, if_pos hv]

/-- **C01**, probabilities: the product factor's potential is the product of the potentials. -/
theorem C01_multiply_prob (hs : HashSeed) (f g : Sparse ℝ) (hf : Regular f)
    (hg : Regular g) (hc : Consistent f g) :
    ∃ r, multiply hs f g = .ok r ∧ ∀ x, r.prob x = f.prob x * g.prob x := by
  obtain ⟨r, h1, _, _, _, _, h⟩ := C01_multiply_pointwise hs f g hf hg hc
  refine ⟨r, h1, fun x => ?_⟩
  unfold prob
  rw [h, XF.prob_add (hf.val_proper x) (hg.val_proper x)]

/-- **C01**, failure: inconsistent cardinalities raise `AssertionError`. -/
theorem C01_multiply_inconsistent [DecidableEq K] [Add K] (hs : HashSeed) (f g : Sparse K) (hf : WF f)
    (hg : WF g) (hc : ¬ Consistent f g) : multiply hs f g = .error .assertionError := by
  unfold multiply
  rw [applyBinary_eq hf hg, if_neg (mt (consistentCards_iff hf hg).1 hc)]

example : ∃ r, multiply HashSeed.example exF exG = .ok r ∧ ∀ x, r.prob x = exF.prob x * exG.prob x :=
  C01_multiply_prob _ _ _ exF_regular exG_regular exFG_consistent

/-! ### C02 marginalize -/

/-- **C02.** `marginalize` of a zero-default factor returns, for `keep=True` in the requested order and
for `keep=False` in some order, the factor over exactly the kept variables whose potential is the sum
over all values of the dropped variables. -/
theorem C02_marginalize_sums (hs : HashSeed) (f : Sparse ℝ) (hf : Regular f) (vrs : List Var)
    (hn : vrs.Nodup) (hv : ∀ v ∈ vrs, v ∈ f.vars) (keep : Bool) :
    ∃ r, marginalize hs f vrs keep = .ok r ∧ Regular r ∧
      (∀ v, v ∈ r.vars ↔ v ∈ f.vars ∧ (v ∈ vrs ↔ keep = true)) ∧
      (keep = true → r.vars = vrs) ∧ (∀ v ∈ r.vars, r.card v = f.card v) ∧
      ∀ x, r.prob x =
        Spec.sumVars ((f.vars.filter (fun v => decide ¬ (v ∈ vrs ↔ keep = true))).map
          fun v => (v, f.card v)) f.prob x := by
  have hk := nodup_marginalVars (hs := hs) (scope := f.vars) (keep := keep) hn
  have hsub : ∀ v ∈ marginalVars hs f.vars vrs keep, v ∈ f.vars := fun v h =>
    ((mem_marginalVars hv).1 h).1
  refine ⟨_, marginalize_eq hs hf hn hv keep, margResult_regular hf hk hsub,
    fun v => mem_marginalVars hv, ?_, fun v hv => margResult_card hv, fun x => ?_⟩
  · rintro rfl; rfl
  · rw [margResult_prob hf hk hsub]
    congr 2
    apply List.filter_congr
    intro v hvf
    have := mem_marginalVars (hs := hs) (scope := f.vars) (keep := keep) (v := v) hv
    simp only [hvf, true_and] at this
    exact decide_eq_decide.2 (not_congr this)

example : ∃ r, marginalize HashSeed.example exF ["b"] false = .ok r ∧
    ∀ x, r.prob x = Spec.sumVars [("b", 3)] exF.prob x := by
  obtain ⟨r, h1, _, _, _, _, h⟩ := C02_marginalize_sums HashSeed.example exF exF_regular ["b"]
    (by decide) (by decide) false
  exact ⟨r, h1, fun x => (h x).trans rfl⟩

/-! ### C03 reduce -/

/-- **C03.** `reduce` of a zero-default factor: if some table entry is compatible with the evidence
then the result is the restriction to the evidence, otherwise `KeyError`. -/
theorem C03_reduce_restricts (f : Sparse K) (hf : Regular f) (vrs : List Var) (values : List Nat)
    (hn : vrs.Nodup) (hv : ∀ v ∈ vrs, v ∈ f.vars) (hl : values.length = vrs.length) :
    (∀ k ∈ Dict.keys f.table, vrs.map (asgOf f.vars k) ≠ values) ∧
        reduce f vrs values = .error .keyError ∨
    (∃ k ∈ Dict.keys f.table, vrs.map (asgOf f.vars k) = values) ∧
        ∃ r, reduce f vrs values = .ok r ∧ Regular r ∧
          r.vars = f.vars.filter (· ∉ vrs) ∧ (∀ v ∈ r.vars, r.card v = f.card v) ∧
          ∀ x, r.val x = f.val (Spec.override (vrs.zip values) x) := by
  rw [reduce_eq hf.wf hn hv]
  by_cases h : subTable vrs (f.vars.filter (· ∉ vrs)) f.vars f.table values = []
  · left
    rw [if_pos h]
    refine ⟨fun k hk => ?_, rfl⟩
    obtain ⟨e, he, rfl⟩ := List.mem_map.1 hk
    exact subTable_eq_nil_iff.1 h e he
  · right
    rw [if_neg h]
    refine ⟨?_, _, rfl, redResult_regular hf hn hv values, rfl, ?_,
      redResult_val hf.wf hf.dflt hn hv hl⟩
    · rw [subTable_eq_nil_iff] at h
      push Not at h
      obtain ⟨e, he, h⟩ := h
      exact ⟨e.1, List.mem_map.2 ⟨e, he, rfl⟩, h⟩
    · intro v hv'
      show (Dict.get? (List.zip _ _) v).getD 0 = _
      rw [show (redResult f vrs values).cards = (redResult f vrs values).vars.map f.card from rfl,
        Dict.get?_zip_map _ _ _ hv']
      rfl

example : ∃ r, reduce exF ["b"] [2] = .ok r ∧ ∀ x, r.val x = exF.val (Spec.override [("b", 2)] x) := by
  rcases C03_reduce_restricts exF exF_regular ["b"] [2] (by decide) (by decide) rfl with h | h
  · exact absurd rfl (h.1 [1, 2] (by simp [exF, Dict.keys]))
  · obtain ⟨_, r, h1, _, _, _, h2⟩ := h
    exact ⟨r, h1, h2⟩

example : reduce exF ["b"] [0] = .error .keyError := by
  rcases C03_reduce_restricts exF exF_regular ["b"] [0] (by decide) (by decide) rfl with h | h
  · exact h.2
  · obtain ⟨⟨k, hk, h⟩, _⟩ := h
    simp only [exF, Dict.keys, List.map_cons, List.map_nil, List.mem_cons, List.not_mem_nil,
      or_false] at hk
    rcases hk with rfl | rfl <;> exact absurd h (by decide)

/-! ### C04 divide -/

/-- **C04.** `divide` of factors with a common (non-NaN) default, whatever it is: at every in-range
joint assignment the result is the difference of the log values, explicit or default. -/
theorem C04_divide_pointwise [DecidableEq K] [Sub K] (hs : HashSeed) (f g : Sparse K) (hf : WF f)
    (hg : WF g) (hc : Consistent f g) (hd : f.dflt = g.dflt) (hnan : f.dflt ≠ .nan) :
    ∃ r, divide hs f g = .ok r ∧ WF r ∧ (∀ v, v ∈ r.vars ↔ v ∈ f.vars ∨ v ∈ g.vars) ∧
      (∀ v ∈ f.vars, r.card v = f.card v) ∧ (∀ v ∈ g.vars, r.card v = g.card v) ∧
      ∀ x, (∀ v ∈ f.vars, x v < f.card v) → (∀ v ∈ g.vars, x v < g.card v) →
        r.val x = XF.sub (f.val x) (g.val x) := by
  refine ⟨binResult hs f g XF.sub .none, ?_, binResult_wf hf hg hc (Or.inr rfl) _, fun v => mem_result,
    fun v hv => by
      rw [binResult_card v (Or.inl hv), mergedCard]
      split
      · exact (hc v hv ‹_›).symm
      · rfl,
    fun v hv => by rw [binResult_card v (Or.inr hv), mergedCard, if_pos hv],
    fun x hx hx' => binResult_val_none hf hg hd _ x hx hx'⟩
  unfold divide
  rw [applyBinary_eq hf hg, if_pos ((consistentCards_iff hf hg).2 hc), if_neg]
  rw [← hd, XF.ne_self hnan]; simp

/-- **C04**, failure: operands with different defaults raise `NotImplementedError`. -/
theorem C04_divide_default_mismatch [DecidableEq K] [Sub K] (hs : HashSeed) (f g : Sparse K) (hf : WF f)
    (hg : WF g) (hc : Consistent f g) (hd : f.dflt ≠ g.dflt) :
    divide hs f g = .error .notImplementedError := by
  unfold divide
  rw [applyBinary_eq hf hg, if_pos ((consistentCards_iff hf hg).2 hc), if_pos]
  by_contra h
  exact hd (XF.eq_of_not_ne (by simpa using h))

/-- A factor with default log value 0 (probability one). -/
def exD : Sparse ℝ := ⟨["a", "b"], [2, 3], [([0, 1], .fin 4)], .fin 0⟩

theorem exD_wf : WF exD := ⟨by decide, by decide, by decide, by simp [exD, Dict.keys]⟩

/-- Variable b, default log value 0. -/
def exE : Sparse ℝ := ⟨["b"], [3], [([1], .fin 3)], .fin 0⟩

theorem exE_wf : WF exE := ⟨by decide, by decide, by decide, by simp [exE, Dict.keys]⟩

example : ∃ r, divide HashSeed.example exD exE = .ok r ∧
    r.val (fun _ => 1) = XF.sub (exD.val fun _ => 1) (exE.val fun _ => 1) := by
  have hc : Consistent exD exE := by rw [← consistentCards_iff exD_wf exE_wf]; decide
  obtain ⟨r, h1, _, _, _, _, h2⟩ := C04_divide_pointwise HashSeed.example exD exE exD_wf exE_wf hc rfl
    (by simp [exD])
  exact ⟨r, h1, h2 _ (by decide) (by decide)⟩

/-! ### C05 cancel -/

/-- The quotient with 0/0 = 0 on log values. -/
def quot [Sub K] : XF K → XF K → XF K
  | .ninf, _ => .ninf
  | .fin r, .fin s => .fin (r - s)
  | _, _ => .pinf

theorem specialDivide_spec [DecidableEq K] [Sub K] {a b : XF K} (ha : a.Proper) (hb : b.Proper) :
    specialDivide a b = quot a b := by
  cases a <;> cases b <;> simp_all [specialDivide, XF.eq, XF.sub, XF.Proper, quot]

theorem cancel_eq [DecidableEq K] [Sub K] (hs : HashSeed) {f g : Sparse K} (hf : Regular f)
    (hg : Regular g) (hc : Consistent f g) :
    cancel hs f g = .ok (binResult hs f g specialDivide .any) := by
  unfold cancel
  rw [applyBinary_eq hf.wf hg.wf, if_pos ((consistentCards_iff hf.wf hg.wf).2 hc), if_neg]
  rw [hf.dflt, hg.dflt, XF.ne_self] <;> simp

theorem remB_nil [DecidableEq K] {hs : HashSeed} {f g : Sparse K} (hsub : ∀ v ∈ g.vars, v ∈ f.vars) :
    remB hs f g = [] := by
  rw [List.eq_nil_iff_forall_not_mem]
  intro v hv
  have := mem_remB.1 hv
  exact this.2 (hsub v this.1)

theorem cancel_val [DecidableEq K] [Sub K] (hs : HashSeed) {f g : Sparse K} (hf : Regular f)
    (hg : Regular g) (hsub : ∀ v ∈ g.vars, v ∈ f.vars) (hne : g.table ≠ []) (x : Asg) :
    (binResult hs f g specialDivide .any).val x = specialDivide (f.val x) (g.val x) := by
  rw [binResult_val_any hf.wf hg.wf (hf.dflt.trans hg.dflt.symm)]
  split
  · rfl
  · rename_i h
    have hgo : HasOuter g (remB hs f g) x := by
      rw [remB_nil hsub]
      obtain ⟨e, he⟩ := List.exists_mem_of_ne_nil _ hne
      exact ⟨e.1, List.mem_map.2 ⟨e, he, rfl⟩, by simp⟩
    have h : ¬ HasOuter f (remA hs f g) x := fun h' => h ⟨h', hgo⟩
    rw [not_hasOuter_val x (fun v hv => (mem_remA.1 hv).1) h, hf.dflt]
    rw [specialDivide_spec (by trivial) (by trivial), specialDivide_spec (by trivial) (hg.val_proper x)]
    rfl

/-- **C05.** Cancelling a factor whose scope lies inside the scope (and whose table is not empty)
gives the quotient at every assignment: `f/g` where `g` is not zero, 0 where both are zero, and `+inf`
where only `g` is zero. -/
theorem C05_cancel_pointwise (hs : HashSeed) (f g : Sparse ℝ) (hf : Regular f) (hg : Regular g)
    (hc : Consistent f g) (hsub : ∀ v ∈ g.vars, v ∈ f.vars) (hne : g.table ≠ []) :
    ∃ r, cancel hs f g = .ok r ∧ WF r ∧ r.dflt = .ninf ∧ (∀ v, v ∈ r.vars ↔ v ∈ f.vars) ∧
      ∀ x, (g.prob x ≠ 0 → (r.val x).Proper ∧ r.prob x = f.prob x / g.prob x) ∧
        (g.prob x = 0 → f.prob x = 0 → r.val x = .ninf) ∧
        (g.prob x = 0 → f.prob x ≠ 0 → r.val x = .pinf) := by
  refine ⟨_, cancel_eq hs hf hg hc, binResult_wf hf.wf hg.wf hc (Or.inl rfl) _, ?_,
    fun v => mem_result.trans ⟨fun h => h.elim id (hsub v), Or.inl⟩, fun x => ?_⟩
  · show specialDivide f.dflt f.dflt = _
    rw [hf.dflt, specialDivide_spec (by trivial) (by trivial)]; rfl
  · have hv := cancel_val hs hf hg hsub hne x
    have pf := hf.val_proper x
    have pg := hg.val_proper x
    rw [specialDivide_spec pf pg] at hv
    unfold prob
    rw [hv]
    cases hfx : f.val x <;> cases hgx : g.val x <;> simp_all [XF.Proper, XF.prob, Real.exp_sub, quot]

/-- **C05**, with an all-zero divisor table the whole result is zero (also where `f` is not). -/
theorem C05_cancel_empty (hs : HashSeed) (f g : Sparse ℝ) (hf : Regular f) (hg : Regular g)
    (hc : Consistent f g) (hne : g.table = []) :
    ∃ r, cancel hs f g = .ok r ∧ Regular r ∧ ∀ x, r.prob x = 0 := by
  have hv : ∀ x, (binResult hs f g specialDivide .any).val x = .ninf := by
    intro x
    rw [binResult_val_any hf.wf hg.wf (hf.dflt.trans hg.dflt.symm), if_neg]
    · rw [hf.dflt, specialDivide_spec (by trivial) (by trivial)]; rfl
    · rintro ⟨_, k, hk, _⟩
      simp [hne, Dict.keys] at hk
  refine ⟨_, cancel_eq hs hf hg hc, regular_of_val (binResult_wf hf.wf hg.wf hc (Or.inl rfl) _) ?_ ?_,
    fun x => ?_⟩
  · show specialDivide f.dflt f.dflt = _
    rw [hf.dflt, specialDivide_spec (by trivial) (by trivial)]; rfl
  · intro x; rw [hv]; trivial
  · unfold prob; rw [hv]; rfl

/-- **C05**, the case used by message passing: if the divisor's scope lies inside and the dividend is
zero wherever the divisor is, then `cancel` is division with `0/0 = 0` everywhere. -/
theorem C05_cancel_supported (hs : HashSeed) (f g : Sparse ℝ) (hf : Regular f) (hg : Regular g)
    (hc : Consistent f g) (hsub : ∀ v ∈ g.vars, v ∈ f.vars)
    (hsup : ∀ x, g.prob x = 0 → f.prob x = 0) :
    ∃ r, cancel hs f g = .ok r ∧ Regular r ∧ (∀ v, v ∈ r.vars ↔ v ∈ f.vars) ∧
      (∀ v ∈ f.vars, r.card v = f.card v) ∧ ∀ x, r.prob x = f.prob x / g.prob x := by
  have hcard : ∀ v ∈ f.vars, (binResult hs f g specialDivide .any).card v = f.card v := by
    intro v hv
    rw [binResult_card v (Or.inl hv), mergedCard]
    split
    · exact (hc v hv ‹_›).symm
    · rfl
  have hvars : ∀ v, v ∈ (binResult hs f g specialDivide .any).vars ↔ v ∈ f.vars :=
    fun v => mem_result.trans ⟨fun h => h.elim id (hsub v), Or.inl⟩
  have hce := cancel_eq hs hf hg hc
  by_cases hne : g.table = []
  · obtain ⟨r, h1, h2, h3⟩ := C05_cancel_empty hs f g hf hg hc hne
    rw [hce] at h1
    obtain rfl : _ = r := by simpa using h1
    refine ⟨_, hce, h2, hvars, hcard, fun x => ?_⟩
    have : g.prob x = 0 := by rw [prob_eq_elim hg.dflt, hne]; simp [Dict.get?]
    rw [h3, this, div_zero]
  · obtain ⟨r, h1, h2, hd, _, h3⟩ := C05_cancel_pointwise hs f g hf hg hc hsub hne
    rw [hce] at h1
    obtain rfl : _ = r := by simpa using h1
    have hv : ∀ x, ((binResult hs f g specialDivide .any).val x).Proper ∧
        (binResult hs f g specialDivide .any).prob x = f.prob x / g.prob x := by
      intro x
      by_cases hg0 : g.prob x = 0
      · have := (h3 x).2.1 hg0 (hsup x hg0)
        unfold prob at hg0 ⊢
        rw [this, hg0]; simp [XF.Proper, XF.prob]
      · exact (h3 x).1 hg0
    exact ⟨_, hce, regular_of_val h2 hd fun x => (hv x).1, hvars, hcard, fun x => (hv x).2⟩

/-- **C05**, absorb then cancel: `(f*g)` cancelled by `g` is `f` where `g` is not zero, and 0
elsewhere. -/
theorem C05_absorb_cancel (hs : HashSeed) (f g : Sparse ℝ) (hf : Regular f) (hg : Regular g)
    (hc : Consistent f g) :
    ∃ p r, multiply hs f g = .ok p ∧ cancel hs p g = .ok r ∧ Regular r ∧
      ∀ x, r.prob x = if g.prob x = 0 then 0 else f.prob x := by
  obtain ⟨p, h1, hp, hpv, _, hpc, hpx⟩ := C01_multiply_pointwise hs f g hf hg hc
  have hpp : ∀ x, p.prob x = f.prob x * g.prob x := by
    intro x
    unfold prob
    rw [hpx, XF.prob_add (hf.val_proper x) (hg.val_proper x)]
  obtain ⟨r, h2, hr, _, _, h⟩ := C05_cancel_supported hs p g hp hg
    (fun v _ hv => hpc v hv) (fun v hv => (hpv v).2 (Or.inr hv)) (fun x h => by rw [hpp, h, mul_zero])
  refine ⟨p, r, h1, h2, hr, fun x => ?_⟩
  rw [h, hpp]
  split
  · rename_i h0; rw [h0]; simp
  · rename_i h0; exact mul_div_cancel_right₀ _ h0

example : ∃ p r, multiply HashSeed.example exF exM = .ok p ∧ cancel HashSeed.example p exM = .ok r ∧
    Regular r ∧ ∀ x, r.prob x = if exM.prob x = 0 then 0 else exF.prob x :=
  C05_absorb_cancel _ _ _ exF_regular exM_regular exFM_consistent

example : ∃ r, cancel HashSeed.example exF exM = .ok r ∧ r.val (fun _ => 2) = .ninf ∧
    r.prob (fun v => if v = "a" then 0 else 1) = exF.prob (fun v => if v = "a" then 0 else 1) /
      exM.prob (fun v => if v = "a" then 0 else 1) := by
  obtain ⟨r, h1, _, _, _, h⟩ := C05_cancel_pointwise HashSeed.example exF exM exF_regular exM_regular
    exFM_consistent (by decide) (by simp [exM])
  refine ⟨r, h1, (h _).2.1 ?_ ?_, ((h _).1 ?_).2⟩ <;>
    simp [exM, exF, prob, val, Dict.get?, XF.prob]

/-! ### C06 reorder -/

/-- **C06.** Reordering a zero-default factor to any permutation of its scope preserves the value of
every assignment (and the cardinality of each variable). -/
theorem C06_reorder_preserves (f : Sparse K) (hf : WF f) (hd : f.dflt = .ninf) (newVars : List Var)
    (hp : newVars.Perm f.vars) :
    ∃ r, reorder f newVars = .ok r ∧ WF r ∧ r.vars = newVars ∧ r.dflt = .ninf ∧
      (∀ v ∈ newVars, r.card v = f.card v) ∧ ∀ x, r.val x = f.val x :=
  ⟨_, reorder_eq hf hp, reorderResult_wf hf hp, rfl, rfl, fun _ hv => reorderResult_card hv,
    reorderResult_val hf hd hp⟩

example : ∃ r, reorder exF ["b", "a"] = .ok r ∧ ∀ x, r.val x = exF.val x := by
  obtain ⟨r, h1, _, _, _, _, h⟩ := C06_reorder_preserves exF exF_regular.wf rfl ["b", "a"]
    (List.Perm.swap _ _ _)
  exact ⟨r, h1, h⟩

/-! ### C07 potential -/

/-- **C07** (partial). The full claim is: for every order `vrs` of the scope, `potential(vrs, x(vrs))`
is the value at `x`. It holds when the permutation between `vrs` and the factor's own order is its own
inverse (in particular for the factor's own order and for at most two variables), and then only for
assignments present in the table: an absent assignment raises `KeyError` instead of returning the
default. -/
theorem C07_potential_partial (f : Sparse K) (vrs : List Var) (hp : vrs.Perm f.vars)
    (hinv : ∀ i j : Nat, vrs[i]? = f.vars[j]? → vrs[j]? = f.vars[i]?) (x : Asg) :
    (∀ l, Dict.get? f.table (f.vars.map x) = some l → logPotential f vrs (vrs.map x) = .ok (f.val x)) ∧
    (Dict.get? f.table (f.vars.map x) = none → logPotential f vrs (vrs.map x) = .error .keyError) := by
  have key : ((vrs.map fun v => f.vars.idxOf v).mapM (pyGet (vrs.map x)) : Py _) = .ok (f.vars.map x) := by
    rw [List.mapM_map, mapM_ok (g := fun v => ((vrs.map x)[f.vars.idxOf v]?).getD 0)]
    · congr 1
      apply List.ext_getElem
      · simp [hp.length_eq]
      · intro i h1 h2
        simp only [List.length_map] at h1 h2
        have hm : vrs[i] ∈ f.vars := hp.mem_iff.1 (List.getElem_mem h1)
        have hlt := List.idxOf_lt_length_iff.2 hm
        have h3 := hinv i (f.vars.idxOf vrs[i]) (by simp [h1, hlt])
        simp [h3, h2]
    · intro v hv
      have hlt := List.idxOf_lt_length_iff.2 (hp.mem_iff.1 hv)
      rw [← hp.length_eq] at hlt
      apply pyGet_ok
      simp [hlt]
  unfold logPotential
  have ha : (decide (∀ v ∈ vrs, v ∈ f.vars) && decide (∀ v ∈ f.vars, v ∈ vrs)) = true := by
    simp only [Bool.and_eq_true, decide_eq_true_eq]
    exact ⟨fun v => hp.mem_iff.1, fun v => hp.mem_iff.2⟩
  rw [ha, mapM_ok (g := fun v => f.vars.idxOf v) fun v hv => pyIndex_ok (hp.mem_iff.1 hv)]
  simp only [pyAssert_true, py_bind_ok, key]
  unfold Dict.getItem val
  constructor
  · intro l hl; rw [hl]; rfl
  · intro hl; rw [hl]

example : logPotential exF ["b", "a"] [1, 0] = .ok (.fin 0) := by
  have h := (C07_potential_partial exF ["b", "a"] (List.Perm.swap _ _ _) (by
    intro i j h
    match i, j with
    | 0, 0 => simp [exF] at h
    | 0, 1 => rfl
    | 1, 0 => rfl
    | 1, 1 => simp [exF] at h
    | 0, j + 2 => simp [exF] at h
    | 1, j + 2 => simp [exF] at h
    | i + 2, 0 => simp [exF] at h
    | i + 2, 1 => simp [exF] at h
    | i + 2, j + 2 => simp [exF]) (fun v => if v = "a" then 0 else 1)).1 (.fin 0)
      (by simp [exF, Dict.get?])
  have e : exF.val (fun v => if v = "a" then 0 else 1) = .fin 0 := by simp [exF, val, Dict.get?]
  rw [e] at h
  exact h

/-- Three binary variables, three entries. -/
def exCycle : Sparse ℤ := ⟨["a", "b", "c"], [2, 2, 2],
  [([0, 0, 1], .fin 5), ([0, 1, 0], .fin 7), ([1, 0, 0], .fin 9)], .ninf⟩

/-- **C07**, the claim is false in general: with three variables, listing them as `b, c, a` for the
assignment a=0, b=0, c=1 (log value 5) returns the log value of a different assignment. -/
theorem C07_potential_wrong_order :
    exCycle.val (fun v => if v = "c" then 1 else 0) = .fin 5 ∧
    logPotential exCycle ["b", "c", "a"] (["b", "c", "a"].map fun v => if v = "c" then 1 else 0)
      = .ok (.fin 9) := by
  constructor <;> decide +kernel

/-! ### C08 argmax -/

theorem argmax_fold {K : Type} [LinearOrder K] (l : List (List Nat × XF K)) (e : List Nat × XF K)
    (hp : ∀ a ∈ e :: l, a.2.Proper) :
    ∃ pre post m, e :: l = pre ++ m :: post ∧
      l.foldl (fun best e => if XF.lt best.2 e.2 then e else best) e = m ∧
      (∀ a ∈ pre, XF.lt a.2 m.2 = true) ∧ (∀ a ∈ post, XF.lt m.2 a.2 = false) := by
  induction l using List.reverseRecOn with
  | nil => exact ⟨[], [], e, rfl, rfl, by simp, by simp⟩
  | append_singleton l b ih =>
    obtain ⟨pre, post, m, h1, h2, h3, h4⟩ := ih fun a ha => hp a (by
      rcases List.mem_cons.1 ha with rfl | h
      · simp
      · simp [h])
    rw [List.foldl_append, h2]
    simp only [List.foldl_cons, List.foldl_nil]
    by_cases hlt : XF.lt m.2 b.2 = true
    · rw [if_pos hlt]
      refine ⟨e :: l, [], b, by simp, rfl, ?_, by simp⟩
      have hb := hp b (by simp)
      have hm := hp m (by rw [← List.cons_append, h1]; simp)
      intro a ha
      have hpa := hp a (by rw [← List.cons_append]; exact List.mem_append_left _ ha)
      rw [h1] at ha
      rcases List.mem_append.1 ha with h | h
      · have := h3 a h
        revert this hlt hb hm hpa
        cases a.2 <;> cases m.2 <;> cases b.2 <;> simp [XF.lt, XF.Proper]
        exact fun h1 h2 => lt_trans h2 h1
      · rcases List.mem_cons.1 h with rfl | h
        · exact hlt
        · have := h4 a h
          revert this hlt hb hm hpa
          cases a.2 <;> cases m.2 <;> cases b.2 <;> simp [XF.lt, XF.Proper]
          exact fun h1 h2 => lt_of_le_of_lt h2 h1
    · rw [if_neg hlt]
      refine ⟨pre, post ++ [b], m, ?_, rfl, h3, ?_⟩
      · rw [← List.cons_append, h1]; simp
      · intro a ha
        rcases List.mem_append.1 ha with h | h
        · exact h4 a h
        · simp only [List.mem_singleton] at h
          subst h
          simpa using hlt

/-- **C08.** `argmax` of a non-empty zero-default factor returns a listed assignment whose value is at
least the value of every assignment whatsoever; among listed assignments it is the first maximiser. An
empty table raises `ValueError`. -/
theorem C08_argmax_maximises {K : Type} [LinearOrder K] (f : Sparse K) (hf : Regular f) :
    (f.table = [] → argmax f = .error .valueError) ∧
    (f.table ≠ [] → ∃ k, argmax f = .ok k ∧ k ∈ Dict.keys f.table ∧
      (∀ x, XF.lt (f.val (asgOf f.vars k)) (f.val x) = false) ∧
      ∃ pre post v, f.table = pre ++ (k, v) :: post ∧ ∀ a ∈ pre, XF.lt a.2 v = true) := by
  constructor
  · intro h; unfold argmax; rw [h]
  · intro h
    cases ht : f.table with
    | nil => exact absurd ht h
    | cons e l =>
      obtain ⟨pre, post, m, h1, h2, h3, h4⟩ := argmax_fold l e (by rw [← ht]; exact hf.proper)
      have hm : m ∈ f.table := by rw [ht, h1]; simp
      refine ⟨m.1, ?_, ?_, ?_, pre, post, m.2, h1, h3⟩
      · unfold argmax; rw [ht]; simp [h2]
      · rw [← ht]; exact List.mem_map.2 ⟨m, hm, rfl⟩
      · intro x
        rw [val_of_mem hf.wf hm]
        have hmp := hf.proper m hm
        unfold val
        cases hg : Dict.get? f.table (f.vars.map x) with
        | none =>
          simp only [Option.getD_none, hf.dflt]
          revert hmp
          cases m.2 <;> simp [XF.lt, XF.Proper]
        | some w =>
          have hw := Dict.mem_of_get? hg
          have hwp := hf.proper _ hw
          rw [ht, h1] at hw
          simp only [Option.getD_some]
          rcases List.mem_append.1 hw with hw | hw
          · have := h3 _ hw
            revert this hmp hwp
            cases m.2 <;> cases w <;> simp [XF.lt, XF.Proper]
            exact fun h => le_of_lt h
          · rcases List.mem_cons.1 hw with hw | hw
            · rw [← hw] at hmp ⊢
              revert hmp
              cases w <;> simp [XF.lt, XF.Proper]
            · exact h4 _ hw

example : ∃ k, argmax exCycle = .ok k ∧
    ∀ x, XF.lt (exCycle.val (asgOf exCycle.vars k)) (exCycle.val x) = false := by
  have hr : Regular exCycle :=
    ⟨⟨by decide, by decide, by decide, by simp [exCycle, Dict.keys]⟩, by simp [exCycle, XF.Proper], rfl⟩
  obtain ⟨k, h1, _, h2, _⟩ := (C08_argmax_maximises exCycle hr).2 (by simp [exCycle])
  exact ⟨k, h1, h2⟩

/-! ### C09 normalize -/

/-- **C09.** `normalize` of a zero-default factor with positive mass: the potentials of the result sum
to one over all assignments and each is the original divided by the original total. -/
theorem C09_normalize (f : Sparse ℝ) (hf : Regular f) (hm : 0 < f.mass) :
    ∃ r, normalize f = .ok r ∧ Regular r ∧ r.vars = f.vars ∧ r.cards = f.cards ∧ r.mass = 1 ∧
      ∀ x, r.prob x = f.prob x / f.mass := by
  refine ⟨normResult f, ?_, normResult_regular hf hm, rfl, rfl, normResult_mass hf hm,
    normResult_prob hf hm⟩
  rw [normalize_eq hf, if_neg (table_ne_nil_of_mass hf hm)]

/-- **C09**, `weight` is the total mass. -/
theorem C09_weight (f : Sparse ℝ) (hf : Regular f) (hne : f.table ≠ []) :
    weight f = .ok (.fin f.mass) := by
  unfold weight
  rw [XF.logsumexp_proper]
  · rw [← mass_eq hf, py_bind_ok, XF.exp_proper (XF.proper_ofProb _), XF.prob_ofProb (mass_nonneg hf)]
  · simpa [Dict.values] using hne
  · intro a ha
    obtain ⟨e, he, rfl⟩ := List.mem_map.1 ha
    exact hf.proper e he

/-- The empty table cannot be normalised: `ValueError`. -/
theorem C09_normalize_empty (f : Sparse ℝ) (hf : Regular f) (h : f.table = []) :
    normalize f = .error .valueError := by rw [normalize_eq hf, if_pos h]

theorem exF_mass : exF.mass = 1 + Real.exp 1 := by
  rw [mass_eq exF_regular]; simp [exF, Dict.values, XF.prob]

example : ∃ r, normalize exF = .ok r ∧ r.mass = 1 := by
  obtain ⟨r, h1, _, _, _, h2, _⟩ := C09_normalize exF exF_regular (by rw [exF_mass]; positivity)
  exact ⟨r, h1, h2⟩

end Verif.Sparse
