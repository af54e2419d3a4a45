import Verif.FactAgree
import Verif.ClusterBelief

/-!
# Properties of factorised factors (C63, C64, C66, C68)

Every theorem is about factorised factors whose factors are Gaussians that a program can hold after any history
(`IsFact`). What such an object denotes is read off its joint distribution (`HasJoint`).
-/

namespace Verif.Fact
open Matrix Gauss Spec MeasureTheory

/-! ### Examples -/

/-- A Gaussian in covariance form over `a`, `b`. -/
noncomputable def gA : AnyG := ⟨2, exA⟩

/-- A Gaussian in canonical form over `b`, `c`, with a precision that is not invertible. -/
noncomputable def gB : AnyG := ⟨2, exB⟩

theorem gA_den : Den gA (["a", "b"], logOf exA exA_good.len) := ⟨exA_made, exA_good.denotes, fun _ => Iff.rfl⟩

theorem gB_den : Den gB (["b", "c"], logOf exB exB_good.len) := ⟨exB_made, exB_good.denotes, fun _ => Iff.rfl⟩

/-- A factorised factor with overlapping scopes. -/
noncomputable def exF : Fact := ⟨["c", "b", "a"], [gA, gB]⟩

theorem exF_isFact : IsFact exF [(["a", "b"], logOf exA exA_good.len), (["b", "c"], logOf exB exB_good.len)] :=
  .cons gA_den (.cons gB_den .nil)

/-- The standard normal distribution over `v`, moved by `m`. -/
def unit (v : Var) (m : ℝ) : Gauss 1 := ⟨[v], none, some ⟨1, ![m], 0⟩, false⟩

theorem unit_mk (v : Var) (m : ℝ) : mkCov [v] ⟨1, ![m], 0⟩ = .ok (unit v m) := mkCov_ok (by simp) rfl

theorem unit_good (v : Var) (m : ℝ) : Good (unit v m) := good_mkCov (by simp) rfl _ (by simp) (by simp)

theorem unit_made (v : Var) (m : ℝ) : Made (unit v m) := .ofCov PosDef.one (unit_mk v m)

theorem unit_den (v : Var) (m : ℝ) : Den ⟨1, unit v m⟩ ([v], logOf (unit v m) (unit_good v m).len) :=
  ⟨unit_made v m, (unit_good v m).denotes, fun _ => Iff.rfl⟩

/-! ### C63 joint distribution and product -/

/-- **C63.** The joint distribution of a factorised factor with at least one factor is the product of its factors,
reading it changes no factor; constructing one from Gaussians and copying it keep the product and list exactly the
variables of the factors. Without factors, `ValueError`. -/
theorem C63_joint (hs : HashSeed) {a : Fact} {gs : List AnyG} {is : List Item} :
    (IsFact a is → a.factors ≠ [] → HasJoint a (total is) ∧
      ∀ a' r, a.joint = .ok (a', r) → IsFact a' is ∧ a'.vars = a.vars) ∧
    (a.factors = [] → a.joint = .error .valueError) ∧
    (List.Forall₂ Den gs is → ∃ b, make hs gs = .ok b ∧ IsFact b is ∧ Covers b ∧ b.vars.Nodup) ∧
    (IsFact a is → ∃ b, copy hs a = .ok b ∧ IsFact b is ∧ Covers b ∧ b.vars.Nodup) := by
  refine ⟨fun h hne => ⟨h.joint hne, fun a' r e => ?_⟩, fun h => ?_, fun h => ?_, fun h => ?_⟩
  · obtain ⟨a'', r', h1, h2, h3, -⟩ := joint_den h hne
    rw [e] at h1
    cases h1
    exact ⟨h2, h3⟩
  · unfold joint
    rw [h]
  · obtain ⟨b, h1, h2, h3, h4, -⟩ := make_den hs h
    exact ⟨b, h1, h2, h3, h4⟩
  · obtain ⟨b, h1, h2, h3, h4, -⟩ := copy_den hs h
    exact ⟨b, h1, h2, h3, h4⟩

/-- The hypotheses of `C63_joint` can be met. -/
example : IsFact exF [(["a", "b"], logOf exA exA_good.len), (["b", "c"], logOf exB exB_good.len)] ∧ exF.factors ≠ [] :=
  ⟨exF_isFact, by simp [exF]⟩

theorem multiply_den' (hs : HashSeed) {a : Fact} {is : List Item} {g : AnyG} {j : Item} (ha : IsFact a is) (hg : Den g j) :
    ∃ g' r js, multiply hs a g = .ok (g', r) ∧ Den g' j ∧ IsFact r js ∧ r.factors ≠ [] ∧
      (∀ x, total js x = total is x + j.2 x) ∧ (∀ v, v ∈ r.vars ↔ ∃ f ∈ a.factors, v ∈ f.2.vars) ∧
      ∀ v, (∃ f ∈ r.factors, v ∈ f.2.vars) ↔ (∃ f ∈ a.factors, v ∈ f.2.vars) ∨ v ∈ g.2.vars := by
  obtain ⟨k, h1, h2, h3, -, h5⟩ := copy_den hs ha
  have hk : ∀ v, (∃ f ∈ k.factors, v ∈ f.2.vars) ↔ ∃ f ∈ a.factors, v ∈ f.2.vars := fun v =>
    (mem_scope h2 v).trans (mem_scope ha v).symm
  unfold multiply
  rw [h1]
  dsimp only [bind, Except.bind]
  cases hi : firstIndex k.factors g.2.vars with
  | none =>
    dsimp only
    refine ⟨g, _, is ++ [j], rfl, hg, List.rel_append h2 (.cons hg .nil), by simp, fun x => ?_, fun v => ?_, fun v => ?_⟩
    · rw [total_append]
      simp [total]
    · rw [h3 v, hk]
    · rw [← hk]
      simp only [List.mem_append, List.mem_singleton, or_and_right, exists_or, exists_eq_left]
  | some i =>
    dsimp only
    obtain ⟨hlt, hsub⟩ := firstIndex_some hi
    obtain ⟨hlt', hd⟩ := den_get h2 hlt
    obtain ⟨f', g', r, e1, -, k2, k3⟩ := multiply_den hd hg
    rw [pyGet_lt hlt]
    dsimp only
    rw [e1]
    have h6 := forall₂_set h2 k3 i
    refine ⟨_, _, _, rfl, k2, h6, by simpa using List.ne_nil_of_length_pos (by omega), fun x => ?_, fun v => ?_, fun v => ?_⟩
    · rw [total_set hlt']
      ring
    · rw [h3 v, hk]
    · rw [mem_scope h6, ← hk, mem_scope h2]
      constructor
      · rintro ⟨q, hq, hv⟩
        rcases List.mem_or_eq_of_mem_set hq with hq | rfl
        · exact .inl ⟨q, hq, hv⟩
        · rcases List.mem_append.1 hv with hv | hv
          · exact .inl ⟨_, List.getElem_mem hlt', hv⟩
          · exact .inr ((hg.vars v).2 hv)
      · have hset : (is[i].1 ++ j.1, fun x => is[i].2 x + j.2 x) ∈
            is.set i (is[i].1 ++ j.1, fun x => is[i].2 x + j.2 x) := List.mem_set hlt' _
        rintro (⟨q, hq, hv⟩ | hv)
        · obtain ⟨l, hl, rfl⟩ := List.mem_iff_getElem.1 hq
          by_cases hli : l = i
          · subst hli
            exact ⟨_, hset, List.mem_append_left _ hv⟩
          · refine ⟨is[l], List.mem_iff_getElem.2 ⟨l, by simpa using hl, ?_⟩, hv⟩
            rw [List.getElem_set_ne (Ne.symm hli)]
        · exact ⟨_, hset, List.mem_append_right _ ((hg.vars v).1 hv)⟩

/-- **C63 (part that holds).** Multiplying by a Gaussian multiplies the joint distribution at every point, and the
operand keeps its function. `var_names` of the result lists the variables of the left operand; it covers the factors
of the result if the Gaussian has no other variables. What is missing for the full claim: `var_names` when the
Gaussian brings new variables, see `C63_new_variable`. -/
theorem C63_multiply_partial (hs : HashSeed) {a : Fact} {is : List Item} {g : AnyG} {j : Item} (ha : IsFact a is)
    (hg : Den g j) :
    ∃ g' r js, multiply hs a g = .ok (g', r) ∧ Den g' j ∧ IsFact r js ∧ HasJoint r (fun x => total is x + j.2 x) ∧
      (∀ v, (∃ f ∈ r.factors, v ∈ f.2.vars) ↔ (∃ f ∈ a.factors, v ∈ f.2.vars) ∨ v ∈ g.2.vars) ∧
      (Covers r ↔ ∀ v ∈ g.2.vars, ∃ f ∈ a.factors, v ∈ f.2.vars) := by
  obtain ⟨g', r, js, h1, h2, h3, h4, h5, h6, h7⟩ := multiply_den' hs ha hg
  refine ⟨g', r, js, h1, h2, h3, (h3.joint h4).congr h5, h7, ?_⟩
  unfold Covers
  simp only [h6, h7]
  exact ⟨fun h v hv => (h v).2 (.inr hv), fun h v => ⟨.inl, fun h' => h'.elim id (h v)⟩⟩

/-- The hypotheses of `C63_multiply_partial` can be met. -/
example : (∃ is, IsFact exF is) ∧ ∃ j, Den ⟨1, unit "d" 0⟩ j := ⟨⟨_, exF_isFact⟩, _, unit_den "d" 0⟩

/-- **C63 (violation).** For every factorised factor and every Gaussian with a variable the factor does not have,
the product depends on that variable but does not list it, while a copy of the product does. -/
theorem C63_new_variable (hs : HashSeed) {a : Fact} {is : List Item} {g : AnyG} {j : Item} (ha : IsFact a is) (hg : Den g j)
    {v : Var} (hv : v ∈ g.2.vars) (hn : ∀ f ∈ a.factors, v ∉ f.2.vars) :
    ∃ g' r k, multiply hs a g = .ok (g', r) ∧ v ∉ r.vars ∧ (∃ a' p, r.joint = .ok (a', p) ∧ v ∈ p.2.vars) ∧
      copy hs r = .ok k ∧ v ∈ k.vars := by
  obtain ⟨g', r, js, h1, h2, h3, h4, h5, h6, h7⟩ := multiply_den' hs ha hg
  obtain ⟨k, h8, h9, h10, -, -⟩ := copy_den hs h3
  obtain ⟨a', p, h11, -, -, h12⟩ := h3.joint h4
  have hr := (h7 v).2 (.inr hv)
  refine ⟨g', r, k, h1, fun h => ?_, ⟨a', p, h11, (h12 v).2 hr⟩, h8, (h10 v).2 ((mem_scope h9 v).2 ((mem_scope h3 v).1 hr))⟩
  obtain ⟨f, hf, hvf⟩ := (h6 v).1 h
  exact hn f hf hvf

/-- The hypotheses of `C63_new_variable` can be met. -/
example : (∃ is, IsFact exF is) ∧ (∃ j, Den ⟨1, unit "d" 0⟩ j) ∧ "d" ∈ (unit "d" 0).vars ∧
    ∀ f ∈ exF.factors, "d" ∉ f.2.vars :=
  ⟨⟨_, exF_isFact⟩, ⟨_, unit_den "d" 0⟩, by simp [unit], by simp [exF, gA, gB, exA, exB]⟩

/-! ### C64 quotient -/

theorem findEqual_den {fs : List AnyG} {is : List Item} (h : List.Forall₂ Den fs is) {g : AnyG} {j : Item} (hg : Den g j)
    (hr : ∀ f ∈ fs, CanCompare f g) (many : Bool) (m : ℕ) :
    ∃ fs' g' d, findEqual many fs g m = .ok (fs', g', d) ∧ List.Forall₂ Den fs' is ∧ Same g g' j ∧
      ∀ q, d = some q → many = true ∧ m ≤ q ∧ ∃ (hq : q - m < fs.length) (hq' : q - m < is.length),
        Agree fs[q - m] g ∧ ∀ v, v ∈ is[q - m].1 ↔ v ∈ j.1 := by
  induction h generalizing g m with
  | nil => exact ⟨[], g, none, rfl, .nil, .refl hg, by simp⟩
  | @cons f i fs is h1 hfs ih =>
    obtain ⟨f', g', r, e, sf, sg, hag, -⟩ := equals_ok h1 hg (hr f (List.mem_cons_self ..))
    rw [findEqual, e]
    dsimp only [bind, Except.bind]
    split
    · rename_i hc
      rw [Bool.and_eq_true] at hc
      refine ⟨_, _, _, rfl, .cons sf.den hfs, sg, fun q hq => ?_⟩
      cases hq
      refine ⟨hc.2, le_refl _, ?_⟩
      simp only [Nat.sub_self, List.getElem_cons_zero]
      obtain ⟨s1, s2⟩ := hag.sound hc.1
      exact ⟨by simp, by simp, s2, fun v => by rw [← h1.vars, ← hg.vars, s1]⟩
    · have hfs' : ∀ f ∈ fs, ∃ i, Den f i := fun f hf => by
        obtain ⟨k, hk, rfl⟩ := List.mem_iff_getElem.1 hf
        obtain ⟨_, hd⟩ := den_get hfs hk
        exact ⟨_, hd⟩
      obtain ⟨fs', g'', d, e2, k1, k2, k3⟩ := ih sg.den (fun f hf => by
        obtain ⟨i, hi⟩ := hfs' f hf
        exact CanCompare.same hi hg (.refl hi) sg id (hr f (List.mem_cons_of_mem _ hf))) (m + 1)
      rw [e2]
      refine ⟨_, _, _, rfl, .cons sf.den k1, sg.trans k2, fun q hq => ?_⟩
      obtain ⟨c1, c2, c3, c4, c6, c7⟩ := k3 q hq
      have e3 : q - m = (q - (m + 1)) + 1 := by omega
      refine ⟨c1, by omega, by simp only [List.length_cons]; omega, by simp only [List.length_cons]; omega, ?_, ?_⟩
      · simp only [e3, List.getElem_cons_succ]
        obtain ⟨_, hd⟩ := den_get hfs c3
        exact Same.agree hd sg.den (.refl hd) (sg.symm hg) c6
      · simp only [e3, List.getElem_cons_succ]
        exact c7

/-- **C64 (part that holds).** Suppose that for the factors with exactly the scope of the divisor the covariance
parameters can be read, and those of the divisor too (otherwise the comparison may raise). Then dividing raises
`Exception` if no single factor has all variables of the divisor; otherwise the result's joint distribution is the
quotient, or there is another factor and a factor that agrees with the divisor (see `Agree`) was deleted.
The operands keep their functions. What is missing for the full claim: the deleted factor need not be equal to the
divisor, see `C64_not_exact`. -/
theorem C64_divide_partial (hs : HashSeed) {a : Fact} {is : List Item} {g : AnyG} {j : Item} (ha : IsFact a is)
    (hg : Den g j)
    (hr : ∀ f ∈ a.factors, (∀ v, v ∈ f.2.vars ↔ v ∈ g.2.vars) → f.2.can.isSome ∨ Readable f.2 ∧ Readable g.2) :
    ((∀ f ∈ a.factors, ∃ v ∈ g.2.vars, v ∉ f.2.vars) → divide hs a g = .error .exception) ∧
    ((∃ f ∈ a.factors, ∀ v ∈ g.2.vars, v ∈ f.2.vars) → ∃ a' g' r js, divide hs a g = .ok (a', g', r) ∧
      (IsFact a' is ∧ a'.vars = a.vars) ∧ Den g' j ∧ IsFact r js ∧
      (HasJoint r (fun x => total is x - j.2 x) ∨
        ∃ (q : ℕ) (hq : q < a.factors.length) (hq' : q < is.length), 1 < a.factors.length ∧
          Agree a.factors[q] g ∧ (∀ v, v ∈ is[q].1 ↔ v ∈ j.1) ∧ HasJoint r (fun x => total is x - is[q].2 x))) := by
  obtain ⟨k, h1, h2, h3, -, h5⟩ := copy_den hs ha
  obtain ⟨fs', g', d, e2, k1, k2, k3⟩ := findEqual_den ha hg hr (decide (1 < a.factors.length)) 0
  have hlen : k.factors.length = a.factors.length := h2.length_eq.trans ha.length_eq.symm
  have hcov : (∀ f ∈ k.factors, ¬ ∀ v ∈ g'.2.vars, v ∈ f.2.vars) ↔ ∀ f ∈ a.factors, ∃ v ∈ g.2.vars, v ∉ f.2.vars := by
    have hvv : ∀ v, v ∈ g'.2.vars ↔ v ∈ g.2.vars := fun v => by rw [k2.den.vars, hg.vars]
    simp only [hvv]
    have key : ∀ {x y : List AnyG}, x.map (fun k => k.2.vars) = y.map (fun k => k.2.vars) →
        (∀ f ∈ x, ¬ ∀ v ∈ g.2.vars, v ∈ f.2.vars) → ∀ f ∈ y, ¬ ∀ v ∈ g.2.vars, v ∈ f.2.vars := by
      intro x y hxy hx f hf
      have : f.2.vars ∈ x.map fun k => k.2.vars := by
        rw [hxy]
        exact List.mem_map_of_mem (f := fun k : AnyG => k.2.vars) hf
      obtain ⟨f0, hf0, e0⟩ := List.mem_map.1 this
      have := hx f0 hf0
      rwa [e0] at this
    have := Iff.intro (key h5) (key h5.symm)
    rw [this]
    simp
  unfold divide
  rw [h1]
  dsimp only [bind, Except.bind]
  rw [e2]
  dsimp only
  cases d with
  | some q =>
    obtain ⟨c1, -, c3, c4, c6, c7⟩ := k3 q rfl
    simp only [Nat.sub_zero] at c3 c4 c6 c7
    rw [decide_eq_true_eq] at c1
    have hx : ∃ f ∈ a.factors, ∀ v ∈ g.2.vars, v ∈ f.2.vars := by
      obtain ⟨_, hd⟩ := den_get ha c3
      exact ⟨a.factors[q], List.getElem_mem c3, fun v hv => (hd.vars v).2 ((c7 v).2 ((hg.vars v).1 hv))⟩
    constructor
    · intro h
      obtain ⟨f, hf, hv⟩ := hx
      obtain ⟨v, hv1, hv2⟩ := h f hf
      exact absurd (hv v hv1) hv2
    · intro _
      have h6 := forall₂_eraseIdx h2 q
      refine ⟨_, _, _, _, rfl, ⟨k1, rfl⟩, k2.den, h6, .inr ⟨q, c3, c4, c1, c6, c7, ?_⟩⟩
      refine (IsFact.joint (a := { k with factors := k.factors.eraseIdx q }) h6 ?_).congr fun x => total_eraseIdx c4 x
      refine List.ne_nil_of_length_pos ?_
      simp only [List.length_eraseIdx, hlen]
      split <;> omega
  | none =>
    dsimp only
    cases hi : firstIndex k.factors g'.2.vars with
    | none =>
      dsimp only
      have := hcov.1 (firstIndex_none.1 hi)
      refine ⟨fun _ => rfl, fun ⟨f, hf, hv⟩ => ?_⟩
      obtain ⟨v, hv1, hv2⟩ := this f hf
      exact absurd (hv v hv1) hv2
    | some i =>
      obtain ⟨hlt, hsub⟩ := firstIndex_some hi
      constructor
      · intro h
        exact absurd hsub (hcov.2 h _ (List.getElem_mem hlt))
      · intro _
        dsimp only
        obtain ⟨hlt', hd⟩ := den_get h2 hlt
        obtain ⟨f', g'', r, e1, -, k5, k6⟩ := divide_den hd k2.den
        rw [pyGet_lt hlt]
        dsimp only
        rw [e1]
        have h6 := forall₂_set h2 k6 i
        refine ⟨_, _, _, _, rfl, ⟨k1, rfl⟩, k5, h6, .inl ?_⟩
        refine (IsFact.joint (a := { k with factors := k.factors.set i ⟨_, r⟩ }) h6 ?_).congr fun x => ?_
        · simpa using List.ne_nil_of_length_pos (by omega)
        · rw [total_set hlt']
          ring

theorem exA_readable : Readable exA := ⟨_, rfl⟩

/-- The hypotheses of `C64_divide_partial` can be met, with a divisor that has the scope of a factor. -/
example : (∃ is, IsFact exF is) ∧ (∃ j, Den gA j) ∧
    (∀ f ∈ exF.factors, (∀ v, v ∈ f.2.vars ↔ v ∈ gA.2.vars) → f.2.can.isSome ∨ Readable f.2 ∧ Readable gA.2) ∧
    ∃ f ∈ exF.factors, ∀ v ∈ gA.2.vars, v ∈ f.2.vars :=
  ⟨⟨_, exF_isFact⟩, ⟨_, gA_den⟩, by
    intro f hf _
    simp only [exF, List.mem_cons, List.not_mem_nil, or_false] at hf
    rcases hf with rfl | rfl
    · exact .inr ⟨exA_readable, exA_readable⟩
    · exact .inl (by simp [gB, exB]), gA, by simp [exF], fun _ h => h⟩

end Verif.Fact
