import Verif.SparseProps2
import Verif.CatOps2

/-!
# C132: comparing sparse factors with user-chosen defaults
-/

namespace Verif.Sparse
open Spec (Asg)

/-- A factor with as many entries as there are assignments has an entry for each of them. -/
theorem mem_of_isDense {f : Sparse ℝ} (hf : WF f) (hd : isDense f = true) {k : List Nat}
    (hk : List.Forall₂ (fun i c => i < c) k f.cards) : k ∈ Dict.keys f.table := by
  have hl : (Dict.keys f.table).length = (productRange f.cards).length := by
    rw [Cat.productRange_length]
    unfold Dict.keys
    rw [List.length_map]
    simpa [isDense] using hd
  have hsub : Dict.keys f.table ⊆ productRange f.cards := fun t ht => mem_productRange.2 (hf.range t ht)
  exact ((List.subperm_of_subset hf.keys hsub).perm_of_length_le hl.ge).mem_iff.2 (mem_productRange.2 hk)

theorem allNonDefaultEqual_gen {rtol atol : ℝ} {f g : Sparse ℝ} (hf : WF f) (hp : Proper f) :
    allNonDefaultEqual rtol atol f g = true ↔ ∀ k a, Dict.get? f.table k = some a →
      match Dict.get? g.table k with
      | none => a = g.dflt
      | some w => XF.isclose rtol atol w a = true := by
  unfold allNonDefaultEqual
  rw [List.all_eq_true]
  constructor
  · intro h k a hk
    have := h _ (Dict.mem_of_get? hk)
    revert this
    cases Dict.get? g.table k with
    | none =>
      simp only [Bool.not_eq_true']
      exact XF.eq_of_not_ne
    | some w => exact id
  · intro h e he
    have := h e.1 e.2 (Dict.get?_of_mem hf.keys he)
    revert this
    cases Dict.get? g.table e.1 with
    | none =>
      dsimp only
      intro h
      rw [← h, XF.ne_self (by
        have := hp.1 e he
        revert this
        cases e.2 <;> simp [XF.Proper])]
      rfl
    | some w => exact id

/-- What `equals` tests for factors that list their variables in the same order. -/
theorem equals_same {rtol atol : ℝ} {f g : Sparse ℝ} (hv : f.vars = g.vars) :
    equals rtol atol f g = .ok true ↔ allNonDefaultEqual rtol atol f g = true ∧
      allNonDefaultEqual rtol atol g f = true ∧
      (isDense f = true ∨ isDense g = true ∨ XF.ne f.dflt g.dflt = false) := by
  unfold equals
  rw [if_neg (not_not.2 (by rw [hv]; exact ⟨fun _ h => h, fun _ h => h⟩))]
  dsimp only
  rw [if_neg (not_not.2 hv), py_bind_ok]
  cases allNonDefaultEqual rtol atol f g <;> cases allNonDefaultEqual rtol atol g f <;>
    cases isDense f <;> cases isDense g <;> cases XF.ne f.dflt g.dflt <;> simp

/-- **C132**, soundness (partial): if `equals` says yes to two factors that list their variables in the same order,
the log values agree within the tolerances at every assignment, whatever the defaults. For factors that list the
variables in different orders this is refuted by `C132_order_unsound`. -/
theorem C132_sound_partial (rtol atol : ℝ) (hr : 0 ≤ rtol) (ha : 0 ≤ atol) (f g : Sparse ℝ) (hf : WF f) (hg : WF g)
    (hpf : Proper f) (hpg : Proper g) (hv : f.vars = g.vars) (hc : f.cards = g.cards)
    (h : equals rtol atol f g = .ok true) (x : Asg) (hx : List.Forall₂ (fun i c => i < c) (f.vars.map x) f.cards) :
    Close rtol atol (f.val x) (g.val x) := by
  obtain ⟨h1, h2, h3⟩ := (equals_same hv).1 h
  have h1 := (allNonDefaultEqual_gen hf hpf).1 h1 (f.vars.map x)
  have h2 := (allNonDefaultEqual_gen hg hpg).1 h2 (f.vars.map x)
  have hget : ∀ {s : Sparse ℝ} {k a}, Proper s → Dict.get? s.table k = some a → a.Proper :=
    fun hp h => hp.1 _ (Dict.mem_of_get? h)
  unfold val
  rw [← hv]
  cases hfx : Dict.get? f.table (f.vars.map x) with
  | some a =>
    have k1 := h1 a hfx
    cases hgx : Dict.get? g.table (f.vars.map x) with
    | some b =>
      have k2 := h2 b hgx
      rw [hgx] at k1
      rw [hfx] at k2
      exact (close_iff (hget hpf hfx) (hget hpg hgx)).1 ⟨k2, k1⟩
    | none =>
      rw [hgx] at k1
      dsimp only at k1
      subst k1
      exact Close.refl hr ha hpg.2
  | none =>
    cases hgx : Dict.get? g.table (f.vars.map x) with
    | some b =>
      have k2 := h2 b hgx
      rw [hfx] at k2
      dsimp only at k2
      subst k2
      exact Close.refl hr ha hpf.2
    | none =>
      have hne : ∀ {s : Sparse ℝ}, Dict.get? s.table (f.vars.map x) = none → (f.vars.map x) ∉ Dict.keys s.table := by
        intro s hs hm
        obtain ⟨w, hw⟩ := (Dict.get?_isSome_iff (d := s.table) (k := f.vars.map x)).2 hm
        rw [hs] at hw
        cases hw
      have e : f.dflt = g.dflt := by
        rcases h3 with h3 | h3 | h3
        · exact absurd (mem_of_isDense hf h3 hx) (hne hfx)
        · exact absurd (mem_of_isDense hg h3 (hc ▸ hx)) (hne hgx)
        · exact XF.eq_of_not_ne h3
      simp only [Option.getD_none]
      rw [e]
      exact Close.refl hr ha hpg.2

/-- **C132**, completeness (partial): factors with the same order of variables and equal values everywhere are equal if
they also have the same default, or one has an entry for every assignment. Without that condition it is refuted by
`C132_default_violated`. -/
theorem C132_complete_partial (rtol atol : ℝ) (hr : 0 ≤ rtol) (ha : 0 ≤ atol) (f g : Sparse ℝ) (hf : WF f) (hg : WF g)
    (hpf : Proper f) (hpg : Proper g) (hv : f.vars = g.vars) (hc : f.cards = g.cards)
    (hval : ∀ x : Asg, List.Forall₂ (fun i c => i < c) (f.vars.map x) f.cards → f.val x = g.val x)
    (hd : f.dflt = g.dflt ∨ f.table.length = f.cards.prod ∨ g.table.length = g.cards.prod) :
    equals rtol atol f g = .ok true := by
  have key : ∀ {s t : Sparse ℝ}, WF s → Proper s → Proper t → s.vars = t.vars →
      (∀ x : Asg, List.Forall₂ (fun i c => i < c) (s.vars.map x) s.cards → s.val x = t.val x) →
      allNonDefaultEqual rtol atol s t = true := by
    intro s t hs hps hpt hst hval
    refine (allNonDefaultEqual_gen hs hps).2 fun k a hk => ?_
    have hkm : k ∈ Dict.keys s.table := List.mem_map.2 ⟨_, Dict.mem_of_get? hk, rfl⟩
    have hm := hs.mem_key hkm
    have := hval (asgOf s.vars k) (by rw [hm]; exact hs.range k hkm)
    unfold val at this
    rw [← hst, hm, hk] at this
    cases htk : Dict.get? t.table k with
    | none => rw [htk] at this; exact this
    | some w =>
      rw [htk] at this
      have e : a = w := this
      subst e
      have hp := hps.1 _ (Dict.mem_of_get? hk)
      exact ((close_iff hp hp).2 (Close.refl hr ha hp)).1
  refine (equals_same hv).2 ⟨key hf hpf hpg hv hval, key hg hpg hpf hv.symm (fun x hx => (hval x ?_).symm), ?_⟩
  · rw [hv, hc]; exact hx
  · rcases hd with hd | hd | hd
    · refine Or.inr (Or.inr ?_)
      rw [hd, XF.ne_self]
      intro hn
      have := hpg.2
      rw [hn] at this
      simp [XF.Proper] at this
    · exact Or.inl (by simp [isDense, hd])
    · exact Or.inr (Or.inl (by simp [isDense, hd]))

/-- Default log value 0 except for one impossible assignment. -/
def exU1 : Sparse ℝ := ⟨["a", "b"], [2, 2], [([0, 0], .ninf)], .fin 0⟩
/-- Log value 0 everywhere. -/
def exU2 : Sparse ℝ := ⟨["b", "a"], [2, 2], [], .fin 0⟩
/-- Log value 0 everywhere, once explicitly. -/
def exU3 : Sparse ℝ := ⟨["a", "b"], [2, 2], [([1, 1], .fin 0)], .fin 0⟩

theorem exU_wf : WF exU1 ∧ WF exU2 ∧ WF exU3 :=
  ⟨⟨by decide, by decide, by simp [exU1, Dict.keys], by simp [exU1, Dict.keys]⟩,
    ⟨by decide, by decide, by simp [exU2, Dict.keys], by simp [exU2, Dict.keys]⟩,
    ⟨by decide, by decide, by simp [exU3, Dict.keys], by simp [exU3, Dict.keys]⟩⟩

/-- **C132 fails** if the factors list their variables in different orders: a factor with an impossible assignment is
declared equal to the constant factor, whatever the tolerances. -/
theorem C132_order_unsound (rtol atol : ℝ) : WF exU1 ∧ WF exU2 ∧ equals rtol atol exU1 exU2 = .ok true ∧
    exU1.val (fun _ => 0) = .ninf ∧ exU2.val (fun _ => 0) = .fin 0 := by
  refine ⟨exU_wf.1, exU_wf.2.1, ?_, by simp [exU1, val, Dict.get?], by simp [exU2, val, Dict.get?]⟩
  have hr : reorder exU2 exU1.vars = .ok ⟨["a", "b"], [2, 2], [], .ninf⟩ := by
    rfl
  unfold equals
  rw [if_neg (not_not.2 (by simp [exU1, exU2]))]
  dsimp only
  rw [if_pos (by simp [exU1, exU2]), hr, py_bind_ok]
  simp [exU1, exU2, allNonDefaultEqual, Dict.get?, XF.ne, XF.eq]

/-- **C132 fails**: two factors that are the constant function, one written with its variables in the other order, are
equal in one direction and different in the other. -/
theorem C132_order_asymmetric (rtol atol : ℝ) : WF exU2 ∧ WF exU3 ∧ (∀ x : Asg, exU2.val x = exU3.val x) ∧
    equals rtol atol exU2 exU3 = .ok true ∧ equals rtol atol exU3 exU2 = .ok false := by
  refine ⟨exU_wf.2.1, exU_wf.2.2, fun x => ?_, ?_, ?_⟩
  · simp only [exU2, exU3, val, Dict.get?, List.map_cons, List.map_nil]
    by_cases h : [1, 1] = [x "a", x "b"]
    · simp [h]
    · simp [h]
  · have hr : reorder exU3 exU2.vars = .ok ⟨["b", "a"], [2, 2], [([1, 1], .fin 0)], .ninf⟩ := by
      rfl
    unfold equals
    rw [if_neg (not_not.2 (by simp [exU2, exU3]))]
    dsimp only
    rw [if_pos (by simp [exU2, exU3]), hr, py_bind_ok]
    simp [exU2, exU3, allNonDefaultEqual, Dict.get?, XF.ne, XF.eq]
  · have hr : reorder exU2 exU3.vars = .ok ⟨["a", "b"], [2, 2], [], .ninf⟩ := by
      rfl
    unfold equals
    rw [if_neg (not_not.2 (by simp [exU2, exU3]))]
    dsimp only
    rw [if_pos (by simp [exU2, exU3]), hr, py_bind_ok]
    simp [exU2, exU3, allNonDefaultEqual, Dict.get?, XF.ne, XF.eq]

/-- Log value 0 at 0, and 1 elsewhere. -/
def exH1 : Sparse ℝ := ⟨["a"], [2], [([0], .fin 0)], .fin 1⟩
/-- Log value 1 at 1, and 0 elsewhere. -/
def exH2 : Sparse ℝ := ⟨["a"], [2], [([1], .fin 1)], .fin 0⟩

/-- **C132 fails**: two factors with the same values everywhere are declared different, as each has its default where the
other has an entry. -/
theorem C132_default_violated (rtol atol : ℝ) : WF exH1 ∧ WF exH2 ∧
    (∀ x : Asg, List.Forall₂ (fun i c => i < c) (exH1.vars.map x) exH1.cards → exH1.val x = exH2.val x) ∧
    equals rtol atol exH1 exH2 = .ok false := by
  refine ⟨⟨by decide, by decide, by simp [exH1, Dict.keys], by simp [exH1, Dict.keys]⟩,
    ⟨by decide, by decide, by simp [exH2, Dict.keys], by simp [exH2, Dict.keys]⟩, fun x hx => ?_, ?_⟩
  · simp only [exH1, List.map_cons, List.map_nil, List.forall₂_cons, List.forall₂_nil_left_iff, and_true] at hx
    simp only [exH1, exH2, val, Dict.get?, List.map_cons, List.map_nil]
    have h2 : x "a" = 0 ∨ x "a" = 1 := by omega
    rcases h2 with h2 | h2 <;> simp [h2]
  · unfold equals
    rw [if_neg (not_not.2 (by simp [exH1, exH2]))]
    dsimp only
    rw [if_neg (by simp [exH1, exH2]), py_bind_ok]
    simp [exH1, exH2, allNonDefaultEqual, isDense, Dict.get?, XF.ne, XF.eq]

/-- The hypotheses of the partial theorems are met by a factor with default 1 and one with an entry for every
assignment. -/
example : equals 0 0 exH1 ⟨["a"], [2], [([0], .fin 0), ([1], .fin 1)], .ninf⟩ = .ok true := by
  refine C132_complete_partial 0 0 le_rfl le_rfl _ _
    ⟨by decide, by decide, by simp [exH1, Dict.keys], by simp [exH1, Dict.keys]⟩
    ⟨by decide, by decide, by simp [Dict.keys], by simp [Dict.keys]⟩
    (by simp [Proper, exH1, XF.Proper]) (by simp [Proper, XF.Proper]) rfl rfl (fun x hx => ?_) (Or.inr (Or.inr rfl))
  simp only [exH1, List.map_cons, List.map_nil, List.forall₂_cons, List.forall₂_nil_left_iff, and_true] at hx
  simp only [exH1, val, Dict.get?, List.map_cons, List.map_nil]
  have h2 : x "a" = 0 ∨ x "a" = 1 := by omega
  rcases h2 with h2 | h2 <;> simp [h2]

end Verif.Sparse
