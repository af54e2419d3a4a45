import Verif.FactModel
import Verif.MixProps3

/-!
# Helper lemmas for factorised factors
-/

namespace Verif.Fact
open Matrix Gauss Spec MeasureTheory

/-! ### What factorised factors denote -/

/-- A set of variables (as a list) and a log potential. -/
abbrev Item := List Var × ((Var → ℝ) → ℝ)

/-- A Gaussian, after any history, with the variables and the log potential of the item. -/
structure Den (f : AnyG) (i : Item) : Prop where
  made : Made f.2
  den : Denotes f.2 i.2
  vars : ∀ v, v ∈ f.2.vars ↔ v ∈ i.1

/-- The factors are Gaussians as listed. -/
def IsFact (a : Fact) (is : List Item) : Prop := List.Forall₂ Den a.factors is

/-- The sum of the log potentials. -/
noncomputable def total (is : List Item) (x : Var → ℝ) : ℝ := (is.map fun i => i.2 x).sum

/-- The joint distribution can be read, its log potential is `L` and its variables are those of the factors. -/
def HasJoint (a : Fact) (L : (Var → ℝ) → ℝ) : Prop :=
  ∃ a' r, a.joint = .ok (a', r) ∧ Made r.2 ∧ Denotes r.2 L ∧ ∀ v, v ∈ r.2.vars ↔ ∃ f ∈ a.factors, v ∈ f.2.vars

/-- `var_names` lists exactly the variables of the factors. -/
def Covers (a : Fact) : Prop := ∀ v, v ∈ a.vars ↔ ∃ f ∈ a.factors, v ∈ f.2.vars

theorem Den.good {f : AnyG} {i : Item} (h : Den f i) : Good f.2 := h.den.good h.made.inv

theorem Den.comp {f : AnyG} {i : Item} (h : Den f i) : Mix.Comp f.2.vars f i.2 := ⟨h.made, h.den, rfl⟩

theorem Den.congr {f : AnyG} {i j : Item} (h : Den f i) (hv : ∀ v, v ∈ i.1 ↔ v ∈ j.1) (hL : ∀ x, i.2 x = j.2 x) : Den f j :=
  ⟨h.made, h.den.congr hL, fun v => (h.vars v).trans (hv v)⟩

theorem copyG_den {f : AnyG} {i : Item} (h : Den f i) : ∃ k, Mix.copyG f = .ok k ∧ Den k i ∧ k.2.vars = f.2.vars := by
  obtain ⟨k, hk, hc⟩ := Mix.copyG_ok h.comp
  exact ⟨k, hk, ⟨hc.made, hc.den, fun v => by rw [hc.vars]; exact h.vars v⟩, hc.vars⟩

theorem op_den {op : ℝ → ℝ → ℝ} {s : ℝ} (hop : op = (· + ·) ∧ s = 1 ∨ op = (· - ·) ∧ s = -1) {f g : AnyG} {i j : Item}
    (hf : Den f i) (hg : Den g j) :
    ∃ f' g' r, absorbOrCancel op f.2 g.2 = .ok (f', g', r) ∧ Den ⟨_, f'⟩ i ∧ Den ⟨_, g'⟩ j ∧
      Den ⟨_, r⟩ (i.1 ++ j.1, fun x => i.2 x + s * j.2 x) := by
  obtain ⟨f', g', r, h1, h2, h3, h4⟩ := Mix.op_comp hop hf.comp hg.comp
  refine ⟨f', g', r, h1, ⟨h2.made, h2.den, fun v => ?_⟩, ⟨h3.made, h3.den, fun v => ?_⟩, ⟨h4.made, h4.den, fun v => ?_⟩⟩
  · rw [h2.vars]; exact hf.vars v
  · rw [h3.vars]; exact hg.vars v
  · rw [h4.vars, mem_opVars, hf.vars v, hg.vars v, List.mem_append]

theorem multiply_den {f g : AnyG} {i j : Item} (hf : Den f i) (hg : Den g j) :
    ∃ f' g' r, f.2.multiply g.2 = .ok (f', g', r) ∧ Den ⟨_, f'⟩ i ∧ Den ⟨_, g'⟩ j ∧
      Den ⟨_, r⟩ (i.1 ++ j.1, fun x => i.2 x + j.2 x) := by
  have := op_den (.inl ⟨rfl, rfl⟩) hf hg
  simp only [one_mul] at this
  exact this

theorem divide_den {f g : AnyG} {i j : Item} (hf : Den f i) (hg : Den g j) :
    ∃ f' g' r, f.2.divide g.2 = .ok (f', g', r) ∧ Den ⟨_, f'⟩ i ∧ Den ⟨_, g'⟩ j ∧
      Den ⟨_, r⟩ (i.1 ++ j.1, fun x => i.2 x - j.2 x) := by
  have := op_den (.inr ⟨rfl, rfl⟩) hf hg
  simp only [neg_mul, one_mul, ← sub_eq_add_neg] at this
  exact this

theorem mem_scope {fs : List AnyG} {is : List Item} (h : List.Forall₂ Den fs is) (v : Var) :
    (∃ f ∈ fs, v ∈ f.2.vars) ↔ ∃ i ∈ is, v ∈ i.1 := by
  induction h with
  | nil => simp
  | cons h1 _ ih => simp only [List.exists_mem_cons_iff, h1.vars v, ih]

theorem mapM_copy {fs : List AnyG} {is : List Item} (h : List.Forall₂ Den fs is) :
    ∃ ks, fs.mapM Mix.copyG = .ok ks ∧ List.Forall₂ Den ks is ∧ ks.map (fun k => k.2.vars) = fs.map fun f => f.2.vars := by
  induction h with
  | nil => exact ⟨[], rfl, .nil, rfl⟩
  | cons h1 _ ih =>
    obtain ⟨k, hk, dk, vk⟩ := copyG_den h1
    obtain ⟨ks, hks, dks, vks⟩ := ih
    refine ⟨k :: ks, ?_, .cons dk dks, ?_⟩
    · rw [List.mapM_cons, hk]
      dsimp only [bind, Except.bind]
      rw [hks]
      rfl
    · simp only [List.map_cons, vk, vks]

/-! ### Construction and copies -/

theorem make_den (hs : HashSeed) {gs : List AnyG} {is : List Item} (h : List.Forall₂ Den gs is) :
    ∃ a, make hs gs = .ok a ∧ IsFact a is ∧ Covers a ∧ a.vars.Nodup ∧
      a.factors.map (fun k => k.2.vars) = gs.map fun f => f.2.vars := by
  obtain ⟨ks, h1, h2, h3⟩ := mapM_copy h
  refine ⟨⟨hs.strs.toList (gs.flatMap fun g => g.2.vars), ks⟩, ?_, h2, fun v => ?_, hs.strs.nodup _, h3⟩
  · unfold make
    rw [h1]
    rfl
  · dsimp only
    rw [SetOrder.mem, List.mem_flatMap, mem_scope h, ← mem_scope h2]

theorem copy_den (hs : HashSeed) {a : Fact} {is : List Item} (h : IsFact a is) :
    ∃ k, copy hs a = .ok k ∧ IsFact k is ∧ Covers k ∧ k.vars.Nodup ∧
      k.factors.map (fun k => k.2.vars) = a.factors.map fun f => f.2.vars := by
  obtain ⟨ks, h1, h2, h3⟩ := mapM_copy h
  obtain ⟨k, h4, h5, h6, h7, h8⟩ := make_den hs h2
  refine ⟨k, ?_, h5, h6, h7, h8.trans h3⟩
  unfold copy
  rw [h1]
  exact h4

/-! ### The joint -/

theorem jointLoop_den {r : AnyG} {i : Item} (hr : Den r i) {fs : List AnyG} {is : List Item} (h : List.Forall₂ Den fs is) :
    ∃ fs' q, jointLoop r fs = .ok (fs', q) ∧ List.Forall₂ Den fs' is ∧
      Den q (i.1 ++ is.flatMap Prod.fst, fun x => i.2 x + total is x) := by
  induction h generalizing r i with
  | nil => exact ⟨[], r, rfl, .nil, hr.congr (by simp) (by simp [total])⟩
  | @cons f j fs is h1 _ ih =>
    obtain ⟨_, f', p, e1, -, k2, k3⟩ := multiply_den hr h1
    obtain ⟨fs', q, e2, k4, k5⟩ := ih k3
    refine ⟨⟨_, f'⟩ :: fs', q, ?_, .cons k2 k4, k5.congr (by simp [or_assoc]) fun x => ?_⟩
    · rw [jointLoop, e1]
      dsimp only [bind, Except.bind]
      rw [e2]
    · simp [total, add_assoc]

theorem joint_den {a : Fact} {is : List Item} (h : IsFact a is) (hne : a.factors ≠ []) :
    ∃ a' r, a.joint = .ok (a', r) ∧ IsFact a' is ∧ a'.vars = a.vars ∧ Den r (is.flatMap Prod.fst, total is) := by
  obtain ⟨vars, fs⟩ := a
  unfold IsFact at h
  dsimp only at h hne
  cases h with
  | nil => exact absurd rfl hne
  | @cons f i fs is h1 h2 =>
    obtain ⟨k, hk, dk, -⟩ := copyG_den h1
    obtain ⟨fs', q, e2, k4, k5⟩ := jointLoop_den dk h2
    refine ⟨⟨vars, f :: fs'⟩, q, ?_, .cons h1 k4, rfl, k5.congr (by simp) (by simp [total])⟩
    unfold joint
    dsimp only
    rw [hk]
    dsimp only [bind, Except.bind]
    rw [e2]

theorem IsFact.joint {a : Fact} {is : List Item} (h : IsFact a is) (hne : a.factors ≠ []) : HasJoint a (total is) := by
  obtain ⟨a', r, h1, -, -, h4⟩ := joint_den h hne
  refine ⟨a', r, h1, h4.made, h4.den, fun v => ?_⟩
  rw [h4.vars, mem_scope h]
  simp only [List.mem_flatMap]

theorem HasJoint.unique {a : Fact} {L M : (Var → ℝ) → ℝ} (h1 : HasJoint a L) (h2 : HasJoint a M) : L = M := by
  obtain ⟨a', r, e, -, h, -⟩ := h1
  obtain ⟨a'', r', e', -, h', -⟩ := h2
  rw [e] at e'
  cases e'
  exact h.unique h'

theorem HasJoint.congr {a : Fact} {L M : (Var → ℝ) → ℝ} (h1 : HasJoint a L) (h : ∀ x, L x = M x) : HasJoint a M := by
  have : L = M := funext h
  exact this ▸ h1

/-! ### Lists -/

theorem firstIndex_some {fs : List AnyG} {vars : List Var} {i : ℕ} (h : firstIndex fs vars = some i) :
    ∃ hi : i < fs.length, ∀ v ∈ vars, v ∈ fs[i].2.vars := by
  unfold firstIndex at h
  rw [List.findIdx?_eq_some_iff_getElem] at h
  obtain ⟨hi, h1, -⟩ := h
  exact ⟨hi, by simpa using h1⟩

theorem firstIndex_none {fs : List AnyG} {vars : List Var} :
    firstIndex fs vars = none ↔ ∀ f ∈ fs, ¬ ∀ v ∈ vars, v ∈ f.2.vars := by
  unfold firstIndex
  rw [List.findIdx?_eq_none_iff]
  simp only [decide_eq_false_iff_not]

theorem forall₂_set {fs : List AnyG} {is : List Item} (h : List.Forall₂ Den fs is) {f : AnyG} {i : Item} (hf : Den f i) (k : ℕ) :
    List.Forall₂ Den (fs.set k f) (is.set k i) := by
  induction h generalizing k with
  | nil => exact .nil
  | cons h1 h2 ih =>
    cases k with
    | zero => exact .cons hf h2
    | succ k => exact .cons h1 (ih k)

theorem forall₂_eraseIdx {fs : List AnyG} {is : List Item} (h : List.Forall₂ Den fs is) (k : ℕ) :
    List.Forall₂ Den (fs.eraseIdx k) (is.eraseIdx k) := by
  induction h generalizing k with
  | nil => exact .nil
  | cons h1 h2 ih =>
    cases k with
    | zero => exact h2
    | succ k => exact .cons h1 (ih k)

theorem den_get {fs : List AnyG} {is : List Item} (h : List.Forall₂ Den fs is) {k : ℕ} (hk : k < fs.length) :
    ∃ hk' : k < is.length, Den fs[k] is[k] := by
  have := List.forall₂_iff_get.1 h
  exact ⟨this.1 ▸ hk, this.2 k hk (this.1 ▸ hk)⟩

theorem total_set {is : List Item} {k : ℕ} (hk : k < is.length) (i : Item) (x : Var → ℝ) :
    total (is.set k i) x = total is x - is[k].2 x + i.2 x := by
  induction is generalizing k with
  | nil => simp at hk
  | cons j is ih =>
    cases k with
    | zero => simp [total]; ring
    | succ k =>
      have := ih (k := k) (by simpa using hk)
      simp only [total, List.set_cons_succ, List.map_cons, List.sum_cons, List.getElem_cons_succ] at this ⊢
      rw [this]
      ring

theorem total_eraseIdx {is : List Item} {k : ℕ} (hk : k < is.length) (x : Var → ℝ) :
    total (is.eraseIdx k) x = total is x - is[k].2 x := by
  induction is generalizing k with
  | nil => simp at hk
  | cons j is ih =>
    cases k with
    | zero => simp [total]
    | succ k =>
      have := ih (k := k) (by simpa using hk)
      simp only [total, List.eraseIdx_cons_succ, List.map_cons, List.sum_cons, List.getElem_cons_succ] at this ⊢
      rw [this]
      ring

theorem total_append (is js : List Item) (x : Var → ℝ) : total (is ++ js) x = total is x + total js x := by
  simp [total]

theorem pyGet_lt {α : Type} {l : List α} {k : ℕ} (hk : k < l.length) : pyGet l k = .ok l[k] := by
  unfold pyGet
  rw [List.getElem?_eq_getElem hk]

end Verif.Fact
