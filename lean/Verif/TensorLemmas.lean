import Verif.Tensor
import Verif.PyLemmas
import Verif.SpecLemmas

/-! # Lemmas about named use of arrays -/

namespace Verif.Tensor
variable {α β γ : Type}

theorem transpose_named (t : Tensor α) {vs nv : List Var} (hn : vs.Nodup) (hp : nv.Perm vs)
    (c : Var → Nat) (hs : t.shape = vs.map c) :
    ∃ t', t.transpose (nv.map fun v => vs.idxOf v) = .ok t' ∧ t'.shape = nv.map c ∧
      ∀ x : Var → Nat, t'.get (nv.map x) = t.get (vs.map x) := by
  have hnd : t.ndim = vs.length := by simp [ndim, hs]
  unfold transpose
  rw [if_pos]
  · refine ⟨_, rfl, ?_, fun x => ?_⟩
    · simp only [List.map_map, hs]
      apply List.map_congr_left
      intro v hv
      have hm := hp.mem_iff.1 hv
      simp only [Function.comp_apply, List.getD_eq_getElem?_getD, getElem?_map_idxOf c hm,
        Option.getD_some]
    · show t.get _ = _
      congr 1
      apply List.ext_getElem
      · simp [hnd]
      · intro i h1 h2
        simp only [List.length_map] at h2
        simp only [List.getElem_map, List.getElem_range]
        have hm : vs[i] ∈ nv := hp.mem_iff.2 (List.getElem_mem h2)
        have e : (nv.map fun v => vs.idxOf v).idxOf i = nv.idxOf vs[i] := by
          have hi : i = vs.idxOf vs[i] := (hn.idxOf_getElem i h2).symm
          conv_lhs => rw [hi]
          have : ∀ l : List Var, (∀ v ∈ l, v ∈ vs) →
              (l.map fun v => vs.idxOf v).idxOf (vs.idxOf vs[i]) = l.idxOf vs[i] := by
            intro l hl
            induction l with
            | nil => rfl
            | cons a l ih =>
              rw [List.map_cons, List.idxOf_cons, List.idxOf_cons, ih fun v hv => hl v (by simp [hv])]
              have : (vs.idxOf a == vs.idxOf vs[i]) = (a == vs[i]) := by
                rw [Bool.eq_iff_iff, beq_iff_eq, beq_iff_eq]
                exact List.idxOf_inj (hl a (by simp))
              rw [this]
          exact this nv fun v hv => hp.mem_iff.1 hv
        rw [e, List.getD_eq_getElem?_getD, getElem?_map_idxOf x hm, Option.getD_some]
  · constructor
    · simp [hnd, hp.length_eq]
    · intro k hk
      rw [List.mem_range, hnd] at hk
      exact List.mem_map.2 ⟨vs[k], hp.mem_iff.2 (List.getElem_mem hk), hn.idxOf_getElem k hk⟩

theorem keepPos_range (k n : Nat) : keepPos (k + n) (List.range n) = List.range' n k := by
  unfold keepPos
  rw [Nat.add_comm, List.range_add, List.filter_append, List.filter_eq_nil_iff.2, List.nil_append,
    List.filter_eq_self.2, List.range'_eq_map_range]
  · intro a ha
    obtain ⟨b, _, rfl⟩ := List.mem_map.1 ha
    simp
  · intro a ha
    simpa using ha

theorem keepPos_range' (a b m : Nat) :
    keepPos (a + b + m) (List.range' a m) = List.range a ++ List.range' (a + m) b := by
  unfold keepPos
  rw [show a + b + m = a + (m + b) by omega, List.range_add, List.range_add, List.map_append,
    List.filter_append, List.filter_append, List.filter_eq_self.2, List.filter_eq_nil_iff.2,
    List.nil_append, List.filter_eq_self.2, List.range'_eq_map_range]
  · simp [Function.comp_def, Nat.add_assoc]
  · intro x hx
    simp only [List.map_map, List.mem_map] at hx
    obtain ⟨b, _, rfl⟩ := hx
    simp [List.mem_range'_1]
  · intro x hx
    obtain ⟨b, hb, rfl⟩ := List.mem_map.1 hx
    simp only [List.mem_range] at hb
    simp [List.mem_range'_1, hb]
  · intro x hx
    simp only [List.mem_range] at hx
    simp [List.mem_range'_1]
    omega

theorem map_getD_range' {l pre post : List Nat} :
    (List.range' pre.length l.length).map (fun p => (pre ++ l ++ post).getD p 0) = l := by
  apply List.ext_getElem
  · simp
  · intro i h1 h2
    simp [List.getElem?_append, h2]

theorem idxOf_range' {n m p : Nat} (h1 : n ≤ p) (h2 : p < n + m) :
    (List.range' n m).idxOf p = p - n := by
  have hl : p - n < (List.range' n m).length := by simp; omega
  have := (List.nodup_range' (s := n) (n := m)).idxOf_getElem (p - n) hl
  rw [List.getElem_range'] at this
  rwa [show n + 1 * (p - n) = p by omega] at this

theorem expandDims_left (t : Tensor α) (n : Nat) :
    (t.expandDims (List.range n)).shape = List.replicate n 1 ++ t.shape ∧
    ∀ i0 rest : List Nat, i0.length = n → rest.length = t.ndim →
      (t.expandDims (List.range n)).get (i0 ++ rest) = t.get rest := by
  unfold expandDims
  simp only [List.length_range]
  rw [keepPos_range]
  constructor
  · apply List.ext_getElem
    · simp [ndim]; omega
    · intro i h1 h2
      simp only [List.length_map, List.length_range] at h1
      simp only [List.getElem_map, List.getElem_range, List.mem_range, List.getElem_append,
        List.length_replicate, List.getElem_replicate]
      split
      · rfl
      · rw [idxOf_range' (by omega) (by omega)]
        simp only [List.getD_eq_getElem?_getD]
        rw [List.getElem?_eq_getElem (by unfold ndim at h1; omega), Option.getD_some]
  · intro i0 rest h0 hr
    congr 1
    have := map_getD_range' (l := rest) (pre := i0) (post := [])
    rwa [List.append_nil, h0, hr] at this

theorem expandDims_mid (t : Tensor α) (a b : List Nat) (m : Nat) (hs : t.shape = a ++ b) :
    (t.expandDims (List.range' a.length m)).shape = a ++ List.replicate m 1 ++ b ∧
    ∀ ia im ib : List Nat, ia.length = a.length → im.length = m → ib.length = b.length →
      (t.expandDims (List.range' a.length m)).get (ia ++ im ++ ib) = t.get (ia ++ ib) := by
  have hnd : t.ndim = a.length + b.length := by simp [ndim, hs]
  unfold expandDims
  simp only [List.length_range', hnd]
  rw [keepPos_range']
  constructor
  · apply List.ext_getElem
    · simp; omega
    · intro i h1 h2
      simp only [List.length_map, List.length_range] at h1
      simp only [List.getElem_map, List.getElem_range, List.mem_range'_1, List.getElem_append,
        List.length_replicate, List.getElem_replicate, List.length_append]
      by_cases hi : i < a.length
      · rw [if_neg (by omega), dif_pos (by omega), dif_pos hi, List.idxOf_append,
          if_pos (by simpa using hi)]
        have : (List.range a.length).idxOf i = i := by
          have := List.nodup_range.idxOf_getElem i (xs := List.range a.length) (by simpa using hi)
          simpa using this
        rw [this, hs]
        simp [List.getElem?_append, hi]
      · by_cases hm : i < a.length + m
        · rw [if_pos ⟨by omega, hm⟩, dif_pos hm, dif_neg hi]
        · rw [if_neg (by omega), dif_neg hm, List.idxOf_append, if_neg (by simpa using hi),
            idxOf_range' (by omega) (by omega), List.length_range, hs]
          simp only [List.getD_eq_getElem?_getD]
          rw [List.getElem?_append_right (by omega), List.getElem?_eq_getElem (by omega),
            Option.getD_some]
          congr 1; omega
  · intro ia im ib h1 h2 h3
    congr 1
    rw [List.map_append]
    congr 1
    · have := map_getD_range' (l := ia) (pre := []) (post := im ++ ib)
      rw [List.nil_append, ← List.append_assoc] at this
      rwa [h1, List.length_nil, ← List.range_eq_range'] at this
    · have := map_getD_range' (l := ib) (pre := ia ++ im) (post := [])
      rwa [List.append_nil, List.length_append, h1, h2, h3] at this

theorem bshapeEq_append {a b a' b' ra rb : List Nat} (h : a.length = a'.length)
    (h1 : bshapeEq a a' = .ok ra) (h2 : bshapeEq b b' = .ok rb) :
    bshapeEq (a ++ b) (a' ++ b') = .ok (ra ++ rb) := by
  induction a generalizing a' ra with
  | nil =>
    cases a' with
    | nil =>
      simp only [bshapeEq, Except.ok.injEq] at h1
      subst h1; simpa using h2
    | cons _ _ => simp at h
  | cons x a ih =>
    cases a' with
    | nil => simp at h
    | cons y a' =>
      simp only [bshapeEq, List.cons_append] at h1 ⊢
      obtain ⟨r, hr, h1⟩ := py_bind_eq_ok.1 h1
      rw [ih (by simpa using h) hr, py_bind_ok]
      split_ifs at h1 ⊢ <;> simp_all <;> (subst h1; simp)

theorem bshapeEq_self (a : List Nat) : bshapeEq a a = .ok a := by
  induction a with
  | nil => rfl
  | cons x a ih => simp [bshapeEq, ih]

theorem bshapeEq_ones_left (a : List Nat) : bshapeEq (List.replicate a.length 1) a = .ok a := by
  induction a with
  | nil => rfl
  | cons x a ih =>
    simp only [List.length_cons, List.replicate_succ, bshapeEq, ih, py_bind_ok]
    by_cases h : 1 = x
    · simp [h]
    · simp [h]

theorem bshapeEq_ones_right (a : List Nat) : bshapeEq a (List.replicate a.length 1) = .ok a := by
  induction a with
  | nil => rfl
  | cons x a ih =>
    simp only [List.length_cons, List.replicate_succ, bshapeEq, ih, py_bind_ok]
    by_cases h : x = 1
    · simp [h]
    · simp [h]

theorem bshape_eq {a b r : List Nat} (hl : a.length = b.length) (h : bshapeEq a b = .ok r) :
    bshape a b = .ok r := by
  unfold bshape
  rw [hl]
  simpa using h

theorem bidx_self {s i : List Nat} (h : InShape s i) : bidx s i = i := by
  have hl := h.length_eq
  unfold bidx
  rw [hl, Nat.sub_self, List.drop_zero]
  clear hl
  induction h with
  | nil => rfl
  | cons h _ ih =>
    rw [List.zipWith_cons_cons, ih]
    split
    · rename_i h1; congr 1; omega
    · rfl

theorem bidx_append {s s' i i' : List Nat} (h : s.length = i.length) (h' : s'.length = i'.length) :
    bidx (s ++ s') (i ++ i') = bidx s i ++ bidx s' i' := by
  unfold bidx
  rw [List.length_append, List.length_append, h, h']
  simp [List.zipWith_append h]

theorem bidx_ones (n : Nat) (i : List Nat) (h : i.length = n) :
    bidx (List.replicate n 1) i = List.replicate n 0 := by
  unfold bidx
  rw [h, List.length_replicate, Nat.sub_self, List.drop_zero]
  subst h
  induction i with
  | nil => rfl
  | cons a i ih => simp only [List.length_cons, List.replicate_succ, List.zipWith_cons_cons, ih, if_true]

theorem inShape_map {l : List Var} {x c : Var → Nat} :
    InShape (l.map c) (l.map x) ↔ ∀ v ∈ l, x v < c v := by
  unfold InShape
  rw [List.forall₂_map_left_iff, List.forall₂_map_right_iff, List.forall₂_same]

theorem mem_entries {t : Tensor α} {a : α} : a ∈ t.entries ↔ ∃ i, InShape t.shape i ∧ t.get i = a := by
  unfold entries InShape
  simp only [List.mem_map, mem_productRange]

theorem inShape_asg {vs : List Var} (hn : vs.Nodup) {c : Var → Nat} {i : List Nat}
    (h : InShape (vs.map c) i) : vs.map (asgOf vs i) = i ∧ ∀ v ∈ vs, asgOf vs i v < c v := by
  have hl : i.length = vs.length := by simpa using h.length_eq
  have e := map_asgOf hn hl
  refine ⟨e, ?_⟩
  rw [← inShape_map, e]
  exact h

/-- The value a scalar product sum takes over the entries of an array with named axes. -/
theorem sum_entries {t : Tensor α} {vs : List Var} (hn : vs.Nodup) {c : Var → Nat}
    (hs : t.shape = vs.map c) (h : α → ℝ) (x : Spec.Asg) :
    (t.entries.map h).sum = Spec.sumVars (vs.map fun v => (v, c v)) (fun y => h (t.get (vs.map y))) x := by
  rw [← zip_map_self, Spec.sumVars_eq _ _ (by simp)]
  unfold entries
  rw [List.map_map, hs]
  congr 1
  apply List.map_congr_left
  intro i hi
  rw [Function.comp_apply, Spec.map_updates hn]
  have := (mem_productRange.1 hi).length_eq
  simpa using this

end Verif.Tensor
