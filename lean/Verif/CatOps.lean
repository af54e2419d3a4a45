import Verif.CatLemmas
import Verif.SparseProps2

/-! # Results of the dense operations -/

namespace Verif.Spec

theorem sumVars_congr' (vs : List Var) (c : Var → Nat) (hn : vs.Nodup) {F G : Asg → ℝ} (x : Asg)
    (h : ∀ y, (∀ v ∈ vs, y v < c v) → (∀ v, v ∉ vs → y v = x v) → F y = G y) :
    sumVars (vs.map fun v => (v, c v)) F x = sumVars (vs.map fun v => (v, c v)) G x := by
  rw [← zip_map_self, sumVars_eq _ _ (by simp), sumVars_eq _ _ (by simp)]
  congr 1
  apply List.map_congr_left
  intro t ht
  have hl : t.length = vs.length := by simpa using (mem_productRange.1 ht).length_eq
  apply h
  · have := mem_productRange.1 ht
    rw [← map_updates (x := x) hn hl, List.forall₂_map_left_iff, List.forall₂_map_right_iff,
      List.forall₂_same] at this
    exact this
  · intro v hv
    exact updates_of_not_mem hv

/-- The sum does not look at the summed variables of its argument. -/
theorem sumVars_indep (l : List (Var × Nat)) (F : Asg → ℝ) {x y : Asg}
    (h : ∀ v, v ∉ l.map Prod.fst → x v = y v) : sumVars l F x = sumVars l F y := by
  induction l generalizing x y with
  | nil =>
    have : x = y := funext fun v => h v (by simp)
    rw [this]
  | cons e l ih =>
    simp only [sumVars, sumVar]
    apply Finset.sum_congr rfl
    intro k _
    apply ih
    intro v hv
    by_cases hve : v = e.1
    · subst hve; simp
    · rw [Function.update_of_ne hve, Function.update_of_ne hve]
      exact h v (by simp [hve, hv])

end Verif.Spec

namespace Verif.Cat
open Spec (Asg)
open Tensor (InShape)
variable {K : Type}

/-- The probability at an assignment. -/
noncomputable def prob (f : Cat ℝ) (x : Asg) : ℝ := (f.val x).prob

/-- Every entry is the log of a finite non-negative number. -/
def Proper (f : Cat K) : Prop := ∀ x, f.InRange x → (f.val x).Proper

/-- Shared variables have the same number of values. -/
def Consistent (f g : Cat K) : Prop := ∀ v ∈ f.vars, v ∈ g.vars → f.card v = g.card v

/-- Shared variables have the same value names. -/
def SameNames (f g : Cat K) : Prop := ∀ v ∈ f.vars, v ∈ g.vars → f.name v = g.name v

theorem forM_ok {α : Type} {l : List α} {f : α → Py Unit} (h : ∀ a ∈ l, f a = .ok ()) :
    l.forM f = .ok () := by
  induction l with
  | nil => rfl
  | cons a l ih =>
    show (f a >>= fun _ => l.forM f) = _
    rw [h a (by simp), py_bind_ok]
    exact ih fun b hb => h b (by simp [hb])

theorem forM_error {α : Type} {l : List α} {f : α → Py Unit} {e : PyErr}
    (h : ∀ a ∈ l, f a = .ok () ∨ f a = .error e) (h' : ∃ a ∈ l, f a = .error e) :
    l.forM f = .error e := by
  induction l with
  | nil => simp at h'
  | cons a l ih =>
    show (f a >>= fun _ => l.forM f) = _
    rcases h a (by simp) with h1 | h1
    · rw [h1, py_bind_ok]
      refine ih (fun b hb => h b (by simp [hb])) ?_
      obtain ⟨b, hb, h2⟩ := h'
      rcases List.mem_cons.1 hb with rfl | hb
      · rw [h1] at h2; simp at h2
      · exact ⟨b, hb, h2⟩
    · rw [h1]; rfl

theorem assertCards_eq {f g : Cat K} (hf : WF f) (hg : WF g) [Decidable (Consistent f g)] :
    assertCards f g = if Consistent f g then .ok () else .error .assertionError := by
  have e : ∀ v ∈ f.vars, (match Dict.get? g.varCards v with
      | none => (.ok () : Py Unit)
      | some c => do
        let d ← Dict.getItem f.varCards v
        pyAssert (d == c)) = if v ∈ g.vars → f.card v = g.card v then .ok () else .error .assertionError := by
    intro v hv
    by_cases hvg : v ∈ g.vars
    · rw [hg.get?_cards hvg, getItem_ok (hf.get?_cards hv)]
      simp only [py_bind_ok, pyAssert]
      by_cases h : f.card v = g.card v <;> simp [h, hvg]
    · rw [hg.get?_cards_none hvg]; simp [hvg]
  unfold assertCards
  split
  · rename_i h
    exact forM_ok fun v hv => (e v hv).trans (if_pos (h v hv))
  · rename_i h
    apply forM_error
    · intro v hv
      by_cases h2 : v ∈ g.vars → f.card v = g.card v
      · exact Or.inl ((e v hv).trans (if_pos h2))
      · exact Or.inr ((e v hv).trans (if_neg h2))
    · unfold Consistent at h
      push Not at h
      obtain ⟨v, hv, hvg, hne⟩ := h
      exact ⟨v, hv, (e v hv).trans (if_neg (by simp [hvg, hne]))⟩

theorem checkNames_eq {f g : Cat K} (hf : WF f) (hg : WF g) [Decidable (SameNames f g)] :
    checkNames f.names g.names = if SameNames f g then .ok () else .error .inconsistentNames := by
  have e : ∀ v, (match Dict.get? f.names v, Dict.get? g.names v with
      | some x, some y => pyGuard .inconsistentNames (x == y)
      | _, _ => .ok ()) = if v ∈ f.vars → v ∈ g.vars → f.name v = g.name v then .ok ()
        else .error .inconsistentNames := by
    intro v
    by_cases hvf : v ∈ f.vars
    · by_cases hvg : v ∈ g.vars
      · rw [hf.get?_names hvf, hg.get?_names hvg]
        simp only [pyGuard]
        by_cases h : f.name v = g.name v <;> simp [h, hvg, hvf]
      · rw [hg.get?_names_none hvg, hf.get?_names hvf]; simp [hvg]
    · rw [hf.get?_names_none hvf]; simp [hvf]
  unfold checkNames
  split
  · rename_i h
    exact forM_ok fun v _ => (e v).trans (if_pos (h v))
  · rename_i h
    apply forM_error
    · intro v _
      by_cases h2 : v ∈ f.vars → v ∈ g.vars → f.name v = g.name v
      · exact Or.inl ((e v).trans (if_pos h2))
      · exact Or.inr ((e v).trans (if_neg h2))
    · unfold SameNames at h
      push Not at h
      obtain ⟨v, hv, hvg, hne⟩ := h
      refine ⟨v, List.mem_append_left _ (by rw [hf.names]; exact hv),
        (e v).trans (if_neg (by simp [hvg, hv, hne]))⟩

theorem namesOf_merge {f g : Cat K} (hf : WF f) (hg : WF g) {l : List Var}
    (hl : ∀ v ∈ l, v ∈ f.vars ∨ v ∈ g.vars) :
    namesOf (Dict.merge f.names g.names) l
      = .ok (l.map fun v => if v ∈ g.vars then g.name v else f.name v) := by
  unfold namesOf
  rw [mapM_ok]
  intro v hv
  apply getItem_ok
  rw [Dict.get?_merge _ _ (by rw [hg.names]; exact hg.nodup)]
  by_cases hvg : v ∈ g.vars
  · rw [hg.get?_names hvg, if_pos hvg]; rfl
  · rw [hg.get?_names_none hvg, if_neg hvg, hf.get?_names ((hl v hv).resolve_right hvg)]; rfl

/-- What a binary operation on dense factors must produce. -/
structure BinSpec (op : XF K → XF K → XF K) (f g r : Cat K) : Prop where
  wf : WF r
  scope : ∀ v, v ∈ r.vars ↔ v ∈ f.vars ∨ v ∈ g.vars
  cardL : ∀ v ∈ f.vars, r.card v = f.card v
  cardR : ∀ v ∈ g.vars, r.card v = g.card v
  nameL : ∀ v ∈ f.vars, r.name v = f.name v
  nameR : ∀ v ∈ g.vars, r.name v = g.name v
  val : ∀ x, f.InRange x → g.InRange x → r.val x = op (f.val x) (g.val x)

theorem binSpec_of {f g : Cat K} (hf : WF f) (hg : WF g) (hc : Consistent f g)
    {op : XF K → XF K → XF K} {r : Tensor (XF K)} {vs : List Var} (nd : vs.Nodup)
    (mem : ∀ v, v ∈ vs ↔ v ∈ f.vars ∨ v ∈ g.vars)
    (hs : r.shape = vs.map fun v => if v ∈ f.vars then f.card v else g.card v)
    (hv : ∀ x : Asg, (∀ v ∈ f.vars, x v < f.card v) → (∀ v ∈ g.vars, x v < g.card v) →
        r.get (vs.map x) = op (f.tensor.get (f.vars.map x)) (g.tensor.get (g.vars.map x)))
    {nm : Var → List AName} (hnm : ∀ v ∈ f.vars, nm v = f.name v) (hnm' : ∀ v ∈ g.vars, nm v = g.name v) :
    ofTensor vs r none (some (vs.map nm)) = .ok (mk' vs r nm) ∧ BinSpec op f g (mk' vs r nm) := by
  have hnc : ∀ v ∈ vs, (nm v).dedup.length = if v ∈ f.vars then f.card v else g.card v := by
    intro v hv
    by_cases h : v ∈ f.vars
    · rw [if_pos h, hnm v h, hf.namesCard v h]
    · have := ((mem v).1 hv).resolve_left h
      rw [if_neg h, hnm' v this, hg.namesCard v this]
  refine ⟨ofTensor_eq nd hs hnc, mk'_wf nd hs hnc, mem, fun v h => ?_, fun v h => ?_, fun v h => ?_,
    fun v h => ?_, hv⟩
  · rw [card_mk' hs ((mem v).2 (Or.inl h)), if_pos h]
  · rw [card_mk' hs ((mem v).2 (Or.inr h))]
    split
    · exact hc v ‹_› h
    · rfl
  · rw [name_mk' ((mem v).2 (Or.inl h)), hnm v h]
  · rw [name_mk' ((mem v).2 (Or.inr h)), hnm' v h]

theorem multiply_ok [Add K] {f g : Cat K} (hf : WF f) (hg : WF g) (hc : Consistent f g)
    (hn : SameNames f g) : ∃ r, multiply f g = .ok r ∧ BinSpec XF.add f g r := by
  classical
  obtain ⟨r, vs, h1, nd, mem, hs, hv⟩ := tensorOp_ok hf.nodup hg.nodup hf.shape hg.shape hc XF.add
  obtain ⟨h2, h3⟩ := binSpec_of hf hg hc nd mem hs hv
    (nm := fun v => if v ∈ g.vars then g.name v else f.name v)
    (fun v h => by
      split
      · exact (hn v h ‹_›).symm
      · rfl) (fun v h => by simp [h])
  refine ⟨_, ?_, h3⟩
  unfold multiply
  rw [assertCards_eq hf hg, if_pos hc, py_bind_ok, h1, py_bind_ok, checkNames_eq hf hg, if_pos hn,
    py_bind_ok]
  simp only
  rw [namesOf_merge hf hg fun v hv => (mem v).1 hv, py_bind_ok, h2]

theorem divide_ok [Sub K] {f g : Cat K} (hf : WF f) (hg : WF g) (hc : Consistent f g)
    (hn : SameNames f g) (hsub : ∀ v ∈ g.vars, v ∈ f.vars) :
    ∃ r, divide f g = .ok r ∧ BinSpec XF.sub f g r := by
  classical
  obtain ⟨r, vs, h1, nd, mem, hs, hv⟩ := tensorOp_ok hf.nodup hg.nodup hf.shape hg.shape hc XF.sub
  obtain ⟨h2, h3⟩ := binSpec_of hf hg hc nd mem hs hv (nm := f.name)
    (fun v h => rfl) (fun v h => hn v (hsub v h) h)
  refine ⟨_, ?_, h3⟩
  unfold divide
  rw [assertCards_eq hf hg, if_pos hc, py_bind_ok, h1, py_bind_ok, checkNames_eq hf hg, if_pos hn,
    py_bind_ok]
  simp only
  rw [hf.namesOf fun v hv => ((mem v).1 hv).elim id (hsub v), py_bind_ok, h2]

theorem mapM_error {α β : Type} {f : α → Py β} {l : List α} {e : PyErr}
    (h : ∀ a ∈ l, (∃ b, f a = .ok b) ∨ f a = .error e) (h' : ∃ a ∈ l, f a = .error e) :
    l.mapM f = .error e := by
  induction l with
  | nil => simp at h'
  | cons a l ih =>
    rw [List.mapM_cons]
    rcases h a (by simp) with ⟨b, h1⟩ | h1
    · rw [h1, py_bind_ok, ih (fun b hb => h b (by simp [hb]))]
      · rfl
      · obtain ⟨b, hb, h2⟩ := h'
        rcases List.mem_cons.1 hb with rfl | hb
        · rw [h1] at h2; simp at h2
        · exact ⟨b, hb, h2⟩
    · rw [h1]; rfl

theorem divide_foreign [Sub K] {f g : Cat K} (hf : WF f) (hg : WF g) (hc : Consistent f g)
    (hn : SameNames f g) (hsub : ∃ v ∈ g.vars, v ∉ f.vars) :
    divide f g = .error .keyError := by
  classical
  obtain ⟨r, vs, h1, nd, mem, hs, hv⟩ := tensorOp_ok hf.nodup hg.nodup hf.shape hg.shape hc XF.sub
  unfold divide
  rw [assertCards_eq hf hg, if_pos hc, py_bind_ok, h1, py_bind_ok, checkNames_eq hf hg, if_pos hn,
    py_bind_ok]
  simp only
  rw [show namesOf f.names vs = .error .keyError from ?_]
  · rfl
  · apply mapM_error
    · intro v _
      unfold Dict.getItem
      cases Dict.get? f.names v with
      | none => exact Or.inr rfl
      | some a => exact Or.inl ⟨a, rfl⟩
    · obtain ⟨v, hvg, hvf⟩ := hsub
      refine ⟨v, (mem v).2 (Or.inr hvg), ?_⟩
      unfold Dict.getItem
      rw [hf.get?_names_none hvf]

/-! ### reorder -/

theorem reorder_ok {f : Cat K} (hf : WF f) {nv : List Var} (hp : nv.Perm f.vars) :
    ∃ r, reorder f nv = .ok r ∧ WF r ∧ r.vars = nv ∧ (∀ v ∈ nv, r.card v = f.card v) ∧
      (∀ v ∈ nv, r.name v = f.name v) ∧ ∀ x, r.val x = f.val x := by
  unfold reorder
  by_cases h : nv = f.vars
  · rw [if_pos h, copy_eq hf]
    exact ⟨f, rfl, hf, h.symm, fun _ _ => rfl, fun _ _ => rfl, fun _ => rfl⟩
  · rw [if_neg h]
    have ha : (decide (∀ v ∈ nv, v ∈ f.vars) && decide (∀ v ∈ f.vars, v ∈ nv)) = true := by
      simp only [Bool.and_eq_true, decide_eq_true_eq]
      exact ⟨fun v => hp.mem_iff.1, fun v => hp.mem_iff.2⟩
    obtain ⟨t, h1, h2, h3⟩ := f.tensor.transpose_named hf.nodup hp f.card hf.shape
    rw [ha]
    simp only [pyGuard, if_true, py_bind_ok]
    have hnc : ∀ v ∈ nv, (f.name v).dedup.length = f.card v := fun v hv =>
      hf.namesCard v (hp.mem_iff.1 hv)
    have hnd : nv.Nodup := hp.nodup_iff.2 hf.nodup
    rw [mapM_ok (g := fun v => f.vars.idxOf v) fun v hv => pyIndex_ok (hp.mem_iff.1 hv), py_bind_ok, h1,
      py_bind_ok, hf.namesOf fun v hv => hp.mem_iff.1 hv, py_bind_ok, ofTensor_eq hnd h2 hnc]
    exact ⟨_, rfl, mk'_wf hnd h2 hnc, rfl, fun v hv => card_mk' h2 hv, fun v hv => name_mk' hv, h3⟩

theorem reorder_error {f : Cat K} (hf : WF f) {nv : List Var} (hp : ¬ nv.Perm f.vars) :
    reorder f nv = .error .valueError := by
  unfold reorder
  rw [if_neg (by rintro rfl; exact hp (List.Perm.refl _))]
  by_cases ha : (decide (∀ v ∈ nv, v ∈ f.vars) && decide (∀ v ∈ f.vars, v ∈ nv)) = true
  · rw [ha]
    simp only [Bool.and_eq_true, decide_eq_true_eq] at ha
    simp only [pyGuard, if_true, py_bind_ok]
    rw [mapM_ok (g := fun v => f.vars.idxOf v) fun v hv => pyIndex_ok (ha.1 v hv), py_bind_ok]
    unfold Tensor.transpose
    rw [if_neg]
    · rfl
    · rintro ⟨hl, _⟩
      rw [List.length_map, Tensor.ndim, hf.ndim] at hl
      apply hp
      have hs : f.vars ⊆ nv := ha.2
      exact ((hf.nodup.subperm hs).perm_of_length_le (by omega)).symm
  · rw [show (decide (∀ v ∈ nv, v ∈ f.vars) && decide (∀ v ∈ f.vars, v ∈ nv)) = false by simpa using ha]
    rfl

/-! ### indexing -/

/-- Evidence at a variable as the code's dictionary sees it (last pair wins). -/
def ev (vrs : List Var) (values : List Int) (v : Var) : Option Int :=
  Dict.get? (Dict.ofPairs (vrs.zip values)) v

theorem resolve_ok {vs : List Var} {c : Var → Nat} {e : Var → Option Int} {k : Var → Option Nat}
    (h : ∀ v ∈ vs, match e v with
      | none => k v = none
      | some i => ∃ n, Tensor.normIdx (c v) i = .ok n ∧ k v = some n) :
    Tensor.resolve (vs.map c) (vs.map e) = .ok (vs.map k) := by
  induction vs with
  | nil => rfl
  | cons v l ih =>
    have hv := h v (by simp)
    have ih := ih fun w hw => h w (by simp [hw])
    simp only [List.map_cons]
    cases he : e v with
    | none =>
      rw [he] at hv
      simp only at hv
      simp [Tensor.resolve, ih, hv]
    | some i =>
      rw [he] at hv
      obtain ⟨n, h1, h2⟩ := hv
      simp [Tensor.resolve, ih, h1, h2]

theorem resolve_error {vs : List Var} {c : Var → Nat} {e : Var → Option Int}
    (h : ∃ v ∈ vs, ∃ i, e v = some i ∧ Tensor.normIdx (c v) i = .error .indexError) :
    Tensor.resolve (vs.map c) (vs.map e) = .error .indexError := by
  induction vs with
  | nil => simp at h
  | cons v l ih =>
    simp only [List.map_cons]
    have ih' : (∃ w ∈ l, ∃ i, e w = some i ∧ Tensor.normIdx (c w) i = .error .indexError) →
        Tensor.resolve (l.map c) (l.map e) = .error .indexError := ih
    cases he : e v with
    | none =>
      rw [Tensor.resolve, ih']
      · rfl
      · obtain ⟨w, hw, i, h1, h2⟩ := h
        rcases List.mem_cons.1 hw with rfl | hw
        · rw [he] at h1; simp at h1
        · exact ⟨w, hw, i, h1, h2⟩
    | some i =>
      rw [Tensor.resolve]
      by_cases hn : Tensor.normIdx (c v) i = .error .indexError
      · rw [hn]; rfl
      · have : ∃ n, Tensor.normIdx (c v) i = .ok n := by
          unfold Tensor.normIdx at hn ⊢
          split_ifs at hn ⊢ <;> simp_all
        obtain ⟨n, h1⟩ := this
        rw [h1, py_bind_ok, ih']
        · rfl
        · obtain ⟨w, hw, j, h3, h2⟩ := h
          rcases List.mem_cons.1 hw with rfl | hw
          · rw [he] at h3
            obtain rfl : i = j := by simpa using h3
            exact absurd h2 hn
          · exact ⟨w, hw, j, h3, h2⟩

theorem fill_named (vs : List Var) (k : Var → Option Nat) (x : Asg) :
    Tensor.fill (vs.map k) ((vs.filter fun v => (k v).isNone).map x) = vs.map fun v => (k v).getD (x v) := by
  induction vs with
  | nil => rfl
  | cons v l ih =>
    cases h : k v with
    | none => simp [h, Tensor.fill, ih]
    | some n => simp [h, Tensor.fill, ih]

theorem index_named {t : Tensor (XF K)} {vs : List Var} {c : Var → Nat} (hs : t.shape = vs.map c)
    {e : Var → Option Int} {k : Var → Option Nat}
    (h : ∀ v ∈ vs, match e v with
      | none => k v = none
      | some i => ∃ n, Tensor.normIdx (c v) i = .ok n ∧ k v = some n) :
    ∃ t', t.index (vs.map e) = .ok t' ∧ t'.shape = (vs.filter fun v => (k v).isNone).map c ∧
      ∀ x : Asg, t'.get ((vs.filter fun v => (k v).isNone).map x)
        = t.get (vs.map fun v => (k v).getD (x v)) := by
  unfold Tensor.index
  rw [hs, resolve_ok h, py_bind_ok]
  refine ⟨_, rfl, ?_, fun x => ?_⟩
  · simp only [Tensor.ndim, hs, List.length_map, Nat.sub_self, List.replicate_zero, List.append_nil]
    clear h hs
    induction vs with
    | nil => rfl
    | cons v l ih =>
      cases hk : k v with
      | none => simp [hk, ih]
      | some n => simp [hk, ih]
  · simp only
    rw [fill_named]

/-! ### marginalize -/

theorem lseAxis_named {t : Tensor (XF ℝ)} {vs : List Var} (hn : vs.Nodup) {c : Var → Nat}
    (hs : t.shape = vs.map c) {v : Var} (hv : v ∈ vs) (hc : c v ≠ 0) {F : Asg → ℝ}
    (hF : ∀ x, (∀ w ∈ vs, x w < c w) → (t.get (vs.map x)).Proper ∧ (t.get (vs.map x)).prob = F x) :
    ∃ t', t.lseAxis (vs.idxOf v) = .ok t' ∧ t'.shape = vs.map (Function.update c v 1) ∧
      ∀ x, (∀ w ∈ vs, w ≠ v → x w < c w) →
        (t'.get (vs.map x)).Proper ∧ (t'.get (vs.map x)).prob = Spec.sumVar v (c v) F x := by
  have hcv : t.shape.getD (vs.idxOf v) 0 = c v := by
    rw [hs, List.getD_eq_getElem?_getD, getElem?_map_idxOf c hv]; rfl
  unfold Tensor.lseAxis
  rw [hcv, if_neg hc]
  refine ⟨_, rfl, ?_, fun x hx => ?_⟩
  · simp only [hs]
    rw [set_map_idxOf hn]
    apply List.map_congr_left
    intro w _
    simp [Function.update_apply]
  · have hset : ∀ k, (vs.map x).set (vs.idxOf v) k = vs.map (Function.update x v k) := by
      intro k
      rw [set_map_idxOf hn]
      apply List.map_congr_left
      intro w _
      simp [Function.update_apply]
    have hr : ∀ k < c v, ∀ w ∈ vs, Function.update x v k w < c w := by
      intro k hk w hw
      by_cases h : w = v
      · subst h; simpa using hk
      · rw [Function.update_of_ne h]; exact hx w hw h
    have hl := XF.logsumexp_proper (l := (List.range (c v)).map fun k => t.get (vs.map (Function.update x v k)))
      (by simpa using hc) (by
        intro a ha
        obtain ⟨k, hk, rfl⟩ := List.mem_map.1 ha
        exact (hF _ (hr k (List.mem_range.1 hk))).1)
    have hl' : XF.log (XF.sum ((List.range (c v)).map fun k => XF.exp (t.get ((vs.map x).set (vs.idxOf v) k))))
        = XF.ofProb (((List.range (c v)).map fun k => (t.get (vs.map (Function.update x v k))).prob).sum) := by
      unfold XF.logsumexp at hl
      rw [if_neg (by simpa using hc)] at hl
      simp only [Except.ok.injEq, List.map_map] at hl
      simp only [hset]
      exact hl
    simp only
    rw [hl']
    refine ⟨XF.proper_ofProb _, ?_⟩
    rw [XF.prob_ofProb]
    · unfold Spec.sumVar
      rw [Finset.sum_range]
      rw [← List.sum_ofFn]
      congr 1
      apply List.ext_getElem
      · simp
      · intro i h1 h2
        simp only [List.length_map, List.length_range] at h1
        simp only [List.getElem_map, List.getElem_range, List.getElem_ofFn]
        exact (hF _ (hr i h1)).2
    · apply List.sum_nonneg
      intro a ha
      obtain ⟨k, _, rfl⟩ := List.mem_map.1 ha
      exact XF.prob_nonneg _

theorem applyOver_named {vs : List Var} (hn : vs.Nodup) {out : List Var} (ho : out.Nodup)
    (hsub : ∀ v ∈ out, v ∈ vs) {t : Tensor (XF ℝ)} {c : Var → Nat} (hs : t.shape = vs.map c)
    (hc : ∀ v ∈ out, c v ≠ 0) {F : Asg → ℝ}
    (hF : ∀ x, (∀ w ∈ vs, x w < c w) → (t.get (vs.map x)).Proper ∧ (t.get (vs.map x)).prob = F x) :
    ∃ t', t.applyOverAxes (out.map fun v => vs.idxOf v) = .ok t' ∧
      t'.shape = vs.map (fun v => if v ∈ out then 1 else c v) ∧
      ∀ x, (∀ w ∈ vs, x w < if w ∈ out then 1 else c w) →
        (t'.get (vs.map x)).Proper ∧
        (t'.get (vs.map x)).prob = Spec.sumVars (out.map fun v => (v, c v)) F x := by
  induction out generalizing t c F with
  | nil =>
    refine ⟨t, rfl, by simpa using hs, fun x hx => ?_⟩
    simpa [Spec.sumVars] using hF x (by simpa using hx)
  | cons v out ih =>
    have hv := hsub v (by simp)
    rw [List.nodup_cons] at ho
    obtain ⟨t1, h1, h2, h3⟩ := lseAxis_named hn hs hv (hc v (by simp)) hF
    obtain ⟨t', g1, g2, g3⟩ := ih (c := Function.update c v 1) ho.2 (fun w hw => hsub w (by simp [hw])) h2
      (fun w hw => by
        rw [Function.update_of_ne (by rintro rfl; exact ho.1 hw)]
        exact hc w (by simp [hw]))
      (fun x hx => h3 x fun w hw hne => by
        have := hx w hw
        rwa [Function.update_of_ne hne] at this)
    refine ⟨t', ?_, ?_, fun x hx => ?_⟩
    · unfold Tensor.applyOverAxes at g1 ⊢
      rw [List.map_cons, List.foldlM_cons, h1, py_bind_ok, g1]
    · rw [g2]
      apply List.map_congr_left
      intro w _
      by_cases hwv : w = v
      · subst hwv; simp [ho.1]
      · simp [hwv]
    · have := g3 x fun w hw => by
        have := hx w hw
        by_cases hwv : w = v
        · subst hwv; simp only [ho.1, if_false, Function.update_self]; simpa using this
        · simpa [hwv] using this
      refine ⟨this.1, ?_⟩
      rw [this.2]
      have e1 : (out.map fun w => (w, Function.update c v 1 w)) = out.map fun w => (w, c w) := by
        apply List.map_congr_left
        intro w hw
        rw [Function.update_of_ne (by rintro rfl; exact ho.1 hw)]
      rw [e1]
      have e2 : Spec.sumVar v (c v) F = Spec.sumVars [(v, c v)] F := rfl
      rw [e2, ← Spec.sumVars_append]
      refine congrFun (Spec.sumVars_perm ?_ ?_ F) x
      · exact List.perm_append_comm
      · rw [List.map_append, List.nodup_append']
        refine ⟨?_, by simp, ?_⟩
        · rw [List.map_map]; simpa [Function.comp_def] using ho.2
        · rw [List.map_map]
          intro w k1 k2
          simp only [Function.comp_def, List.map_id', List.map_cons, List.map_nil, List.mem_singleton] at k1 k2
          subst k2
          exact ho.1 k1

theorem squeeze_named {t : Tensor (XF K)} {vs : List Var} {d : Var → Nat}
    (hs : t.shape = vs.map d) :
    t.squeeze.shape = (vs.filter fun v => d v ≠ 1).map d ∧
    ∀ x : Asg, t.squeeze.get ((vs.filter fun v => d v ≠ 1).map x)
      = t.get (vs.map fun v => if d v = 1 then 0 else x v) := by
  have hnd : t.ndim = vs.length := by simp [Tensor.ndim, hs]
  have hg : ∀ p, (h : p < vs.length) → t.shape.getD p 0 = d vs[p] := by
    intro p h; simp [hs, h]
  have hk : ∀ y : Var → Nat, (vs.filter fun v => d v ≠ 1).map y =
      ((List.range t.ndim).filter fun p => t.shape.getD p 0 ≠ 1).map fun p => (vs.map y).getD p 0 := by
    intro y
    rw [hnd, hs]
    clear hg hnd hs
    induction vs with
    | nil => rfl
    | cons v l ih =>
      rw [List.length_cons, List.range_succ_eq_map, List.filter_cons, List.filter_cons, List.filter_map]
      have : ((fun p => decide ((List.map d (v :: l)).getD p 0 ≠ 1)) ∘ Nat.succ)
          = fun p => decide ((l.map d).getD p 0 ≠ 1) := by funext p; simp
      rw [this]
      simp only [List.map_cons, List.getD_cons_zero]
      split
      · rw [List.map_cons, List.map_cons, List.map_map, ih]; rfl
      · rw [List.map_map, ih]; rfl
  unfold Tensor.squeeze
  simp only
  refine ⟨?_, fun x => ?_⟩
  · rw [hk d, hs]
  · congr 1
    apply List.ext_getElem
    · simp [hnd]
    · intro i h1 h2
      simp only [List.length_map] at h2
      simp only [List.getElem_map, List.getElem_range, hg i h2]
      split
      · rfl
      · rename_i hne
        rw [hk x]
        have hm : i ∈ (List.range t.ndim).filter fun p => t.shape.getD p 0 ≠ 1 := by
          simp only [List.mem_filter, List.mem_range, hnd, decide_eq_true_eq, hg i h2]
          exact ⟨h2, hne⟩
        have hlt := List.idxOf_lt_length_iff.2 hm
        rw [List.getD_eq_getElem?_getD, List.getElem?_eq_getElem (by simpa using hlt), Option.getD_some,
          List.getElem_map, List.getElem_idxOf]
        simp [h2]

end Verif.Cat
