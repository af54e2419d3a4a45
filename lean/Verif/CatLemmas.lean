import Verif.CatModel
import Verif.TensorLemmas

/-! # Lemmas about the dense categorical model -/

namespace Verif.Cat
open Spec (Asg)
open Tensor (InShape)
variable {K : Type}

/-- The log value at an assignment (meaningful for in-range assignments). -/
def val (f : Cat K) (x : Asg) : XF K := f.tensor.get (f.vars.map x)

/-- The number of values of a variable. -/
def card (f : Cat K) (v : Var) : Nat := f.tensor.shape.getD (f.vars.idxOf v) 0

/-- The names of a variable's values. -/
def name (f : Cat K) (v : Var) : List AName := (Dict.get? f.names v).getD []

/-- The assignment gives every variable of the factor an existing value. -/
def InRange (f : Cat K) (x : Asg) : Prop := ∀ v ∈ f.vars, x v < f.card v

/-- What every factor built through the constructor without explicit cardinalities, or with
cardinalities equal to the tensor shape, satisfies. -/
structure WF (f : Cat K) : Prop where
  nodup : f.vars.Nodup
  ndim : f.tensor.shape.length = f.vars.length
  cards : f.varCards = f.vars.zip f.tensor.shape
  names : Dict.keys f.names = f.vars
  namesCard : ∀ v ∈ f.vars, (f.name v).dedup.length = f.card v

theorem WF.shape {f : Cat K} (h : WF f) : f.tensor.shape = f.vars.map f.card := by
  apply List.ext_getElem
  · simp [h.ndim]
  · intro i h1 h2
    simp only [List.length_map] at h2
    simp [card, h.nodup.idxOf_getElem i h2, h1]

theorem WF.get?_names {f : Cat K} (h : WF f) {v : Var} (hv : v ∈ f.vars) :
    Dict.get? f.names v = some (f.name v) := by
  unfold name
  rw [← h.names] at hv
  obtain ⟨n, hn⟩ := Dict.get?_isSome_iff.2 hv
  rw [hn]; rfl

theorem WF.get?_names_none {f : Cat K} (h : WF f) {v : Var} (hv : v ∉ f.vars) :
    Dict.get? f.names v = none := by
  rw [Dict.get?_eq_none_iff, h.names]; exact hv

theorem WF.namesOf {f : Cat K} (h : WF f) {l : List Var} (hl : ∀ v ∈ l, v ∈ f.vars) :
    namesOf f.names l = .ok (l.map f.name) := by
  unfold Cat.namesOf
  rw [mapM_ok]
  intro v hv
  exact getItem_ok (h.get?_names (hl v hv))

theorem WF.get?_cards {f : Cat K} (h : WF f) {v : Var} (hv : v ∈ f.vars) :
    Dict.get? f.varCards v = some (f.card v) := by
  rw [h.cards, h.shape, Dict.get?_zip_map _ _ _ hv]

theorem WF.get?_cards_none {f : Cat K} (h : WF f) {v : Var} (hv : v ∉ f.vars) :
    Dict.get? f.varCards v = none := by
  rw [h.cards]; exact get?_zip_none hv

/-- The object built from named pieces. -/
def mk' (vs : List Var) (t : Tensor (XF K)) (nm : Var → List AName) : Cat K :=
  ⟨vs, t, vs.zip t.shape, vs.zip (vs.map nm)⟩

theorem dedup_length_eq {vs : List Var} (h : vs.Nodup) : (vs.dedup.length == vs.length) = true := by
  rw [h.dedup]; simp

theorem ofTensor_eq {vs : List Var} (hn : vs.Nodup) {t : Tensor (XF K)} {c : Var → Nat}
    (hs : t.shape = vs.map c) {nm : Var → List AName} (hc : ∀ v ∈ vs, (nm v).dedup.length = c v) :
    ofTensor vs t none (some (vs.map nm)) = .ok (mk' vs t nm) := by
  unfold ofTensor mkNames
  have hd : (t.ndim == vs.length) = true := by simp [Tensor.ndim, hs]
  simp only [dedup_length_eq hn, hd, pyGuard, if_true, py_bind_ok]
  simp only [List.length_map, beq_self_eq_true, pyAssert_true, py_bind_ok]
  rw [mapM_ok (g := fun e => (e.1, e.2.1))]
  · rw [py_bind_ok, py_bind_ok]
    unfold mk'
    congr 2
    · rw [Dict.ofPairs_eq]
      have : (vs.zip t.shape).map Prod.fst = vs := List.map_fst_zip (by simp [hs])
      rw [this]; exact hn
    · have e : (vs.zip ((vs.map nm).zip t.shape)).map (fun e => (e.1, e.2.1)) = vs.zip (vs.map nm) := by
        rw [hs]
        clear hs hc hn hd
        induction vs with
        | nil => rfl
        | cons a l ih => simp [ih]
      rw [e, Dict.ofPairs_eq]
      rw [List.map_fst_zip (by simp)]; exact hn
  · intro e he
    have : ∃ v ∈ vs, e = (v, nm v, c v) := by
      rw [hs] at he
      clear hs hc hn hd
      induction vs with
      | nil => simp at he
      | cons a l ih =>
        simp only [List.map_cons, List.zip_cons_cons, List.mem_cons] at he
        rcases he with rfl | he
        · exact ⟨a, by simp, rfl⟩
        · obtain ⟨v, hv, h⟩ := ih he
          exact ⟨v, by simp [hv], h⟩
    obtain ⟨v, hv, rfl⟩ := this
    simp [hc v hv, pyAssert_true]

theorem card_mk' {vs : List Var} {t : Tensor (XF K)} {c : Var → Nat} (hs : t.shape = vs.map c)
    {nm : Var → List AName} {v : Var} (hv : v ∈ vs) : (mk' vs t nm).card v = c v := by
  unfold card mk'
  simp only [hs, List.getD_eq_getElem?_getD, getElem?_map_idxOf c hv, Option.getD_some]

theorem name_mk' {vs : List Var} {t : Tensor (XF K)}
    {nm : Var → List AName} {v : Var} (hv : v ∈ vs) : (mk' vs t nm).name v = nm v := by
  unfold name mk'
  simp only [Dict.get?_zip_map _ _ _ hv, Option.getD_some]

theorem mk'_wf {vs : List Var} (hn : vs.Nodup) {t : Tensor (XF K)} {c : Var → Nat}
    (hs : t.shape = vs.map c) {nm : Var → List AName} (hc : ∀ v ∈ vs, (nm v).dedup.length = c v) :
    WF (mk' vs t nm) := by
  refine ⟨hn, by simp [mk', hs], rfl, ?_, fun v hv => ?_⟩
  · show ((vs.zip (vs.map nm)).map Prod.fst) = vs
    exact List.map_fst_zip (by simp)
  · have hv' : v ∈ vs := hv
    rw [card_mk' hs hv', name_mk' hv', hc v hv']

theorem WF.eta {f : Cat K} (h : WF f) : mk' f.vars f.tensor f.name = { f with names := f.vars.zip (f.vars.map f.name) } := by
  unfold mk'; rw [h.cards]

theorem WF.names_eq {f : Cat K} (h : WF f) : f.names = f.vars.zip (f.vars.map f.name) := by
  apply List.ext_getElem
  · have := congrArg List.length h.names
    simp only [Dict.keys, List.length_map] at this
    simp [this]
  · intro i h1 h2
    have hk : f.names[i].1 = f.vars[i]'(by simpa using h2) := by
      have := h.names
      simp only [Dict.keys] at this
      simp [← this]
    have hnd : (Dict.keys f.names).Nodup := by rw [h.names]; exact h.nodup
    have hget := Dict.get?_of_mem hnd (k := f.names[i].1) (v := f.names[i].2) (List.getElem_mem h1)
    rw [List.getElem_zip, List.getElem_map]
    apply Prod.ext
    · exact hk
    · rw [hk] at hget
      simp [name, hget]

theorem WF.mk'_eq {f : Cat K} (h : WF f) : mk' f.vars f.tensor f.name = f := by
  rw [h.eta, ← h.names_eq]

theorem copy_eq {f : Cat K} (h : WF f) : f.copy = .ok f := by
  unfold copy
  rw [h.namesOf fun _ hv => hv, py_bind_ok, ofTensor_eq h.nodup h.shape h.namesCard, h.mk'_eq]

/-- Structural part of a binary operation on named arrays. -/
theorem tensorOp_ok {a b : Tensor (XF K)} {av bv : List Var} (ha : av.Nodup) (hb : bv.Nodup)
    {ca cb : Var → Nat} (hsa : a.shape = av.map ca) (hsb : b.shape = bv.map cb)
    (hc : ∀ v ∈ av, v ∈ bv → ca v = cb v) (op : XF K → XF K → XF K) :
    ∃ r vs, tensorOp a b av bv op = .ok (r, vs) ∧ vs.Nodup ∧
      (∀ v, v ∈ vs ↔ v ∈ av ∨ v ∈ bv) ∧
      (r.shape = vs.map fun v => if v ∈ av then ca v else cb v) ∧
      ∀ x : Asg, (∀ v ∈ av, x v < ca v) → (∀ v ∈ bv, x v < cb v) →
        r.get (vs.map x) = op (a.get (av.map x)) (b.get (bv.map x)) := by
  unfold tensorOp
  by_cases h : av = bv
  · subst h
    rw [if_pos rfl]
    have hs : a.shape = b.shape := by
      rw [hsa, hsb]; exact List.map_congr_left fun v hv => hc v hv hv
    unfold Tensor.zipOp
    rw [Tensor.bshape_eq (by rw [hs]) (by rw [← hs]; exact Tensor.bshapeEq_self _), py_bind_ok, py_bind_ok]
    refine ⟨_, _, rfl, ha, by simp, ?_, fun x hx hx' => ?_⟩
    · rw [hsa]; exact List.map_congr_left fun v hv => by simp [hv]
    · simp only
      rw [hsa, hsb, Tensor.bidx_self (Tensor.inShape_map.2 hx), Tensor.bidx_self (Tensor.inShape_map.2 hx')]
  · rw [if_neg h]
    set rem1 := av.filter (fun v => ¬ (v ∈ av ∧ v ∈ bv)) with hr1
    set rem2 := bv.filter (fun v => ¬ (v ∈ av ∧ v ∈ bv)) with hr2
    set common := av.filter (fun v => v ∈ av ∧ v ∈ bv) with hcm
    have m1 : ∀ v, v ∈ rem1 ↔ v ∈ av ∧ v ∉ bv := by
      intro v; simp only [hr1, List.mem_filter, decide_eq_true_eq]; tauto
    have m2 : ∀ v, v ∈ rem2 ↔ v ∈ bv ∧ v ∉ av := by
      intro v; simp only [hr2, List.mem_filter, decide_eq_true_eq]; tauto
    have mc : ∀ v, v ∈ common ↔ v ∈ av ∧ v ∈ bv := by
      intro v; simp only [hcm, List.mem_filter, decide_eq_true_eq]; tauto
    have n1 : rem1.Nodup := ha.filter _
    have n2 : rem2.Nodup := hb.filter _
    have nc : common.Nodup := ha.filter _
    have p1 : (rem1 ++ common).Perm av := by
      rw [List.perm_ext_iff_of_nodup _ ha]
      · intro v; rw [List.mem_append, m1, mc]; tauto
      · rw [List.nodup_append']
        exact ⟨n1, nc, fun v h1 h2 => ((m1 v).1 h1).2 ((mc v).1 h2).2⟩
    have p2 : (rem2 ++ common).Perm bv := by
      rw [List.perm_ext_iff_of_nodup _ hb]
      · intro v; rw [List.mem_append, m2, mc]; tauto
      · rw [List.nodup_append']
        exact ⟨n2, nc, fun v h1 h2 => ((m2 v).1 h1).2 ((mc v).1 h2).1⟩
    have nr : (rem2 ++ rem1 ++ common).Nodup := by
      rw [List.nodup_append', List.nodup_append']
      refine ⟨⟨n2, n1, fun v h1 h2 => ((m2 v).1 h1).2 ((m1 v).1 h2).1⟩, nc, fun v h1 h2 => ?_⟩
      have := (mc v).1 h2
      rcases List.mem_append.1 h1 with h1 | h1
      · exact ((m2 v).1 h1).2 this.1
      · exact ((m1 v).1 h1).2 this.2
    obtain ⟨t1, ht1, hst1, hg1⟩ := a.transpose_named ha p1 ca hsa
    obtain ⟨t2, ht2, hst2, hg2⟩ := b.transpose_named hb p2 cb hsb
    dsimp only
    rw [mapM_ok (g := fun v => av.idxOf v) fun v hv => pyIndex_ok (p1.mem_iff.1 hv), py_bind_ok, ht1,
      py_bind_ok, mapM_ok (g := fun v => bv.idxOf v) fun v hv => pyIndex_ok (p2.mem_iff.1 hv),
      py_bind_ok, ht2, py_bind_ok]
    obtain ⟨e1, e1g⟩ := t1.expandDims_left rem2.length
    obtain ⟨e2, e2g⟩ := t2.expandDims_mid (rem2.map cb) (common.map cb) rem1.length
      (by rw [hst2, List.map_append])
    rw [List.length_map] at e2 e2g
    rw [hst1] at e1
    unfold Tensor.zipOp
    have hcc : common.map ca = common.map cb :=
      List.map_congr_left fun v hv => hc v ((mc v).1 hv).1 ((mc v).1 hv).2
    have hsh : Tensor.bshape (t1.expandDims (List.range rem2.length)).shape
        (t2.expandDims (List.range' rem2.length rem1.length)).shape
        = .ok (rem2.map cb ++ rem1.map ca ++ common.map ca) := by
      rw [e1, e2]
      apply Tensor.bshape_eq
      · simp
      · rw [List.map_append, ← List.append_assoc, ← hcc]
        apply Tensor.bshapeEq_append (by simp)
        · apply Tensor.bshapeEq_append (by simp)
          · have := Tensor.bshapeEq_ones_left (rem2.map cb)
            rwa [List.length_map] at this
          · have := Tensor.bshapeEq_ones_right (rem1.map ca)
            rwa [List.length_map] at this
        · exact Tensor.bshapeEq_self _
    rw [hsh, py_bind_ok, py_bind_ok]
    refine ⟨_, _, rfl, nr, ?_, ?_, ?_⟩
    · intro v
      rw [List.mem_append, List.mem_append, m1, m2, mc]; tauto
    · simp only [List.map_append]
      congr 1
      · congr 1
        · exact List.map_congr_left fun v hv => by rw [if_neg ((m2 v).1 hv).2]
        · exact List.map_congr_left fun v hv => by rw [if_pos ((m1 v).1 hv).1]
      · exact List.map_congr_left fun v hv => by rw [if_pos ((mc v).1 hv).1]
    · intro x hx hx'
      simp only
      rw [e1, e2, List.map_append, List.map_append, List.map_append, ← List.append_assoc]
      have i1 : InShape (rem1.map ca) (rem1.map x) :=
        Tensor.inShape_map.2 fun v hv => hx v ((m1 v).1 hv).1
      have i2 : InShape (rem2.map cb) (rem2.map x) :=
        Tensor.inShape_map.2 fun v hv => hx' v ((m2 v).1 hv).1
      have ic : InShape (common.map ca) (common.map x) :=
        Tensor.inShape_map.2 fun v hv => hx v ((mc v).1 hv).1
      have ic' : InShape (common.map cb) (common.map x) := hcc ▸ ic
      have b1 : Tensor.bidx (List.replicate rem2.length 1 ++ rem1.map ca ++ common.map ca)
          (rem2.map x ++ rem1.map x ++ common.map x)
          = List.replicate rem2.length 0 ++ (rem1 ++ common).map x := by
        rw [Tensor.bidx_append (by simp) (by simp), Tensor.bidx_append (by simp) (by simp),
          Tensor.bidx_ones _ _ (by simp), Tensor.bidx_self i1, Tensor.bidx_self ic,
          List.map_append, List.append_assoc]
      have b2 : Tensor.bidx (rem2.map cb ++ List.replicate rem1.length 1 ++ common.map cb)
          (rem2.map x ++ rem1.map x ++ common.map x)
          = rem2.map x ++ List.replicate rem1.length 0 ++ common.map x := by
        rw [Tensor.bidx_append (by simp) (by simp), Tensor.bidx_append (by simp) (by simp),
          Tensor.bidx_ones _ _ (by simp), Tensor.bidx_self i2, Tensor.bidx_self ic']
      rw [b1, b2, e1g _ _ (by simp) (by rw [Tensor.ndim, hst1]; simp),
        e2g _ _ _ (by simp) (by simp) (by simp), hg1, ← List.map_append, hg2]

end Verif.Cat
