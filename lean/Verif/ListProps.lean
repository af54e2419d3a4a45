import Verif.ListModel
import Verif.CatProps3
import Verif.CatProps4
import Verif.SparseProps

/-!
# Listings of categorical factors (C106, C107)
-/

namespace Verif
open Spec (Asg)

/-- The rows list every assignment with values below the cardinalities exactly once, each with `value` at the
assignment. -/
structure Lists (vars : List Var) (card : Var → ℕ) (value : Asg → XF ℝ) (rows : List (List ℕ × XF ℝ)) : Prop where
  complete : ∀ x : Asg, (∀ v ∈ vars, x v < card v) → (vars.map x, XF.exp (value x)) ∈ rows
  sound : ∀ row ∈ rows, ∃ x : Asg, (∀ v ∈ vars, x v < card v) ∧ row = (vars.map x, XF.exp (value x))
  once : (rows.map Prod.fst).Nodup

theorem productRange_lex (cs : List ℕ) : (productRange cs).Pairwise (List.Lex (· < ·)) := by
  induction cs with
  | nil => simp [productRange]
  | cons c cs ih =>
    rw [productRange, List.flatMap_def, List.pairwise_flatten]
    refine ⟨?_, ?_⟩
    · intro l hl
      obtain ⟨i, _, rfl⟩ := List.mem_map.1 hl
      rw [List.pairwise_map]
      exact ih.imp fun h => .cons h
    · rw [List.pairwise_map]
      refine List.pairwise_lt_range.imp fun {i j} hij => ?_
      intro a ha b hb
      obtain ⟨a', _, rfl⟩ := List.mem_map.1 ha
      obtain ⟨b', _, rfl⟩ := List.mem_map.1 hb
      exact .rel hij

/-- A list of values within the cardinalities belongs to an assignment. -/
theorem exists_asg {vars : List Var} (hv : vars.Nodup) {card : Var → ℕ} {k : List ℕ}
    (hk : List.Forall₂ (fun i c => i < c) k (vars.map card)) :
    ∃ x : Asg, (∀ v ∈ vars, x v < card v) ∧ vars.map x = k := by
  induction vars generalizing k with
  | nil => cases hk; exact ⟨fun _ => 0, by simp, rfl⟩
  | cons v vs ih =>
    cases hk with
    | cons h hk =>
      rename_i i k
      rw [List.nodup_cons] at hv
      obtain ⟨x, h1, h2⟩ := ih hv.2 hk
      refine ⟨Function.update x v i, fun w hw => ?_, ?_⟩
      · rcases List.mem_cons.1 hw with rfl | hw
        · simpa using h
        · have hne : w ≠ v := fun e => hv.1 (e ▸ hw)
          rw [Function.update_of_ne hne]
          exact h1 w hw
      · rw [List.map_cons, Function.update_self, List.cons.injEq, eq_self, true_and, ← h2]
        exact List.map_congr_left fun w hw => Function.update_of_ne (fun e : w = v => hv.1 (e ▸ hw)) _ _

theorem forall₂_of_asg {vars : List Var} {card : Var → ℕ} {x : Asg} (hx : ∀ v ∈ vars, x v < card v) :
    List.Forall₂ (fun i c => i < c) (vars.map x) (vars.map card) := by
  rw [List.forall₂_map_left_iff, List.forall₂_map_right_iff]
  exact List.forall₂_same.2 hx

/-- **C106 (dense).** The listing of a dense factor contains every assignment exactly once, in lexicographic order, with
the value of the factor. -/
theorem C106_dense (f : Cat ℝ) (hf : Cat.WF f) : Lists f.vars f.card f.val f.distribution ∧
    (f.distribution.map Prod.fst).Pairwise (List.Lex (· < ·)) := by
  have hfst : f.distribution.map Prod.fst = productRange f.tensor.shape := by
    simp [Cat.distribution, Function.comp_def]
  refine ⟨⟨fun x hx => ?_, fun row hrow => ?_, ?_⟩, ?_⟩
  · refine List.mem_map.2 ⟨f.vars.map x, ?_, rfl⟩
    rw [mem_productRange, hf.shape]
    exact forall₂_of_asg hx
  · obtain ⟨k, hk, rfl⟩ := List.mem_map.1 hrow
    rw [mem_productRange, hf.shape] at hk
    obtain ⟨x, h1, rfl⟩ := exists_asg hf.nodup hk
    exact ⟨x, h1, rfl⟩
  · rw [hfst]; exact nodup_productRange _
  · rw [hfst]; exact productRange_lex _

theorem fold_dense {K : Type} (d : XF K) (l : List (List ℕ)) (t : Dict (List ℕ) (XF K)) (ht : (Dict.keys t).Nodup) :
    let r := l.foldl (fun t a => if a ∈ Dict.keys t then t else Dict.set t a d) t
    (Dict.keys r).Nodup ∧ (∀ k, k ∈ Dict.keys r ↔ k ∈ Dict.keys t ∨ k ∈ l) ∧
      ∀ k, (Dict.get? r k).getD d = (Dict.get? t k).getD d := by
  induction l generalizing t with
  | nil => exact ⟨ht, by simp, fun _ => rfl⟩
  | cons a l ih =>
    simp only [List.foldl_cons]
    split
    · rename_i ha
      obtain ⟨h1, h2, h3⟩ := ih t ht
      refine ⟨h1, fun k => ?_, h3⟩
      rw [h2 k, List.mem_cons]
      constructor
      · rintro (h | h)
        · exact .inl h
        · exact .inr (.inr h)
      · rintro (h | rfl | h)
        · exact .inl h
        · exact .inl ha
        · exact .inr h
    · rename_i ha
      obtain ⟨h1, h2, h3⟩ := ih (Dict.set t a d) (Dict.nodup_keys_set ht _ _)
      refine ⟨h1, fun k => ?_, fun k => ?_⟩
      · rw [h2 k, Dict.mem_keys_set, List.mem_cons]
        tauto
      · rw [h3 k, Dict.get?_set]
        split
        · rename_i hk
          subst hk
          rw [Dict.get?_eq_none_iff.2 ha]
          rfl
        · rfl

/-- **C106 (sparse).** The listing of a sparse factor contains every assignment exactly once with the value of the factor,
also those the table does not mention, whatever the default is. -/
theorem C106_sparse (f : Sparse ℝ) (hf : Sparse.WF f) : ∃ rows, f.distribution = .ok rows ∧
    Lists f.vars f.card f.val rows := by
  have hcopy : f.copy = .ok f := by
    unfold Sparse.copy Sparse.new
    rw [if_neg (by simpa using hf.nodup), if_neg (by simpa using hf.cardsLen)]
  have hcards : f.vars.mapM (Dict.getItem f.varCards) = .ok f.cards := by
    rw [mapM_ok (g := f.card)]
    · rw [hf.cards_eq]
    · intro v hv
      rw [Dict.getItem, hf.get?_varCards hv]
  obtain ⟨t, ht⟩ : ∃ t, t = (productRange f.cards).foldl
    (fun t a => if a ∈ Dict.keys t then t else Dict.set t a f.dflt) f.table := ⟨_, rfl⟩
  obtain ⟨h1, h2, h3⟩ := fold_dense f.dflt (productRange f.cards) f.table hf.keys
  rw [← ht] at h1 h2 h3
  have hk : ∀ k, k ∈ Dict.keys t ↔ List.Forall₂ (fun i c => i < c) k (f.vars.map f.card) := by
    intro k
    rw [h2 k, mem_productRange, ← hf.cards_eq]
    exact ⟨fun h => h.elim (hf.range k) id, .inr⟩
  have hval : ∀ x : Asg, f.vars.map x ∈ Dict.keys t → Dict.get? t (f.vars.map x) = some (f.val x) := by
    intro x hx
    obtain ⟨v, hv⟩ := Dict.get?_isSome_iff.2 hx
    rw [hv]
    have := h3 (f.vars.map x)
    rw [hv] at this
    exact congrArg some this
  refine ⟨t.map fun e => (e.1, XF.exp e.2), ?_, ⟨fun x hx => ?_, fun row hrow => ?_, ?_⟩⟩
  · unfold Sparse.distribution Sparse.makeDense
    rw [hcopy, py_bind_ok, hcards, py_bind_ok, py_bind_ok, ← ht]
  · have hx' := (hk _).2 (forall₂_of_asg hx)
    exact List.mem_map.2 ⟨_, Dict.mem_of_get? (hval x hx'), rfl⟩
  · obtain ⟨e, he, rfl⟩ := List.mem_map.1 hrow
    have hek : e.1 ∈ Dict.keys t := List.mem_map.2 ⟨e, he, rfl⟩
    obtain ⟨x, hx, hxe⟩ := exists_asg hf.nodup ((hk _).1 hek)
    refine ⟨x, hx, ?_⟩
    have := hval x (by rw [hxe]; exact hek)
    rw [hxe, Dict.get?_of_mem h1 he] at this
    rw [hxe, Option.some.inj this]
  · rw [List.map_map]
    exact h1

/-- A listing is determined up to the order of its rows. -/
theorem Lists.perm {vars : List Var} {card : Var → ℕ} {value value' : Asg → XF ℝ} {rows rows' : List (List ℕ × XF ℝ)}
    (h : Lists vars card value rows) (h' : Lists vars card value' rows')
    (heq : ∀ x : Asg, (∀ v ∈ vars, x v < card v) → value x = value' x) : rows.Perm rows' := by
  rw [List.perm_ext_iff_of_nodup h.once.of_map h'.once.of_map]
  intro row
  constructor
  · intro hr
    obtain ⟨x, hx, rfl⟩ := h.sound row hr
    rw [heq x hx]
    exact h'.complete x hx
  · intro hr
    obtain ⟨x, hx, rfl⟩ := h'.sound row hr
    rw [← heq x hx]
    exact h.complete x hx

/-- **C106 (both).** A dense and a sparse factor with the same function over the same list of variables are listed
with the same rows, in some order. -/
theorem C106_agree (f : Cat ℝ) (s : Sparse ℝ) (hf : Cat.WF f) (hs : Sparse.WF s) (hv : f.vars = s.vars)
    (h : Cat.Agree f s) : ∃ rows, s.distribution = .ok rows ∧ rows.Perm f.distribution := by
  obtain ⟨rows, h1, h2⟩ := C106_sparse s hs
  refine ⟨rows, h1, ?_⟩
  have h3 : Lists s.vars s.card f.val f.distribution := by
    obtain ⟨⟨a, b, c⟩, _⟩ := C106_dense f hf
    rw [← hv]
    have hc := h.cards
    refine ⟨fun x hx => a x fun v hvv => by rw [hc v hvv]; exact hx v hvv, fun row hr => ?_, c⟩
    obtain ⟨x, hx, hr⟩ := b row hr
    exact ⟨x, fun v hvv => by rw [← hc v hvv]; exact hx v hvv, hr⟩
  refine h2.perm h3 fun x hx => (h.vals x fun v hvv => ?_).symm
  rw [h.cards v hvv]
  exact hx v (hv ▸ hvv)

/-- **C106 (sum).** The probabilities listed for a dense factor without `nan` and `+inf` sum up to its total mass. -/
theorem C106_sum (f : Cat ℝ) (hf : Cat.WF f) (hp : Cat.Proper f) :
    ∃ ps : List ℝ, f.distribution.map Prod.snd = ps.map XF.fin ∧ ps.sum = f.mass := by
  refine ⟨f.tensor.entries.map XF.prob, ?_, Cat.entries_prob hf⟩
  simp only [Cat.distribution, Tensor.entries, List.map_map, Function.comp_def]
  refine List.map_congr_left fun k hk => ?_
  rw [mem_productRange, hf.shape] at hk
  obtain ⟨x, hx, rfl⟩ := exists_asg hf.nodup hk
  exact XF.exp_proper (hp x hx)

/-! ### C107 names -/

/-- **C107 (part that holds).** If the names of each variable are distinct, the listing with names has one row for every
assignment, with the names of its values and the value of the factor, and no two rows have the same names. -/
theorem C107_named_rows_partial (f : Cat ℝ) (hf : Cat.WF f) (hn : ∀ v ∈ f.vars, (f.name v).Nodup) :
    ∃ rows, f.namedRows = .ok rows ∧
      (∀ x : Asg, (∀ v ∈ f.vars, x v < f.card v) →
        (f.vars.map fun v => (f.name v).getD (x v) (.int 0), XF.exp (f.val x)) ∈ rows) ∧
      (∀ row ∈ rows, ∃ x : Asg, (∀ v ∈ f.vars, x v < f.card v) ∧
        row = (f.vars.map fun v => (f.name v).getD (x v) (.int 0), XF.exp (f.val x))) ∧
      (rows.map Prod.fst).Nodup := by
  have hlen : ∀ v ∈ f.vars, (f.name v).length = f.card v := by
    intro v hv
    rw [← hf.namesCard v hv, (hn v hv).dedup]
  obtain ⟨⟨a, b, c⟩, _⟩ := C106_dense f hf
  obtain ⟨g, hg⟩ : ∃ g : List ℕ × XF ℝ → List AName × XF ℝ, g = fun row =>
    ((f.vars.zip row.1).map fun e => (f.name e.1).getD e.2 (.int 0), row.2) := ⟨_, rfl⟩
  have hgx : ∀ x : Asg, g (f.vars.map x, XF.exp (f.val x)) =
      (f.vars.map fun v => (f.name v).getD (x v) (.int 0), XF.exp (f.val x)) := by
    intro x
    rw [hg]
    simp only [Prod.mk.injEq, and_true]
    rw [zip_map_self, List.map_map]
    rfl
  have hm : f.namedRows = .ok (f.distribution.map g) := by
    unfold Cat.namedRows
    refine mapM_ok fun row hrow => ?_
    obtain ⟨x, hx, rfl⟩ := b row hrow
    rw [mapM_ok (g := fun e => (f.name e.1).getD e.2 (.int 0))]
    · rw [py_bind_ok, hg]
    · intro e he
      have hev : e.1 ∈ f.vars := (List.of_mem_zip he).1
      have hex : e.2 = x e.1 := by
        rw [zip_map_self] at he
        obtain ⟨v, _, rfl⟩ := List.mem_map.1 he
        rfl
      have hk : e.1 ∈ Dict.keys f.names := by rw [hf.names]; exact hev
      obtain ⟨ns, hns⟩ := Dict.get?_isSome_iff.2 hk
      have hname : f.name e.1 = ns := by rw [Cat.name, hns]; rfl
      have hlt : e.2 < ns.length := by rw [← hname, hlen _ hev, hex]; exact hx _ hev
      rw [Dict.getItem, hns]
      simp only
      rw [py_bind_ok, pyGet, List.getElem?_eq_getElem hlt, hname, List.getD_eq_getElem?_getD,
        List.getElem?_eq_getElem hlt]
      rfl
  refine ⟨_, hm, fun x hx => ?_, fun row hrow => ?_, ?_⟩
  · exact List.mem_map.2 ⟨_, a x hx, hgx x⟩
  · obtain ⟨r, hr, rfl⟩ := List.mem_map.1 hrow
    obtain ⟨x, hx, rfl⟩ := b r hr
    exact ⟨x, hx, hgx x⟩
  · rw [List.map_map]
    refine (List.nodup_map_iff_inj_on c.of_map).2 fun r hr r' hr' he => ?_
    obtain ⟨x, hx, rfl⟩ := b r hr
    obtain ⟨y, hy, rfl⟩ := b r' hr'
    simp only [Function.comp_apply, hgx] at he
    have hxy : ∀ v ∈ f.vars, x v = y v := by
      intro v hv
      have h1 : (f.name v).getD (x v) (.int 0) = (f.name v).getD (y v) (.int 0) := by
        have := (List.map_inj_left.1 he) v hv
        exact this
      have hxl : x v < (f.name v).length := by rw [hlen v hv]; exact hx v hv
      have hyl : y v < (f.name v).length := by rw [hlen v hv]; exact hy v hv
      rw [List.getD_eq_getElem?_getD, List.getD_eq_getElem?_getD, List.getElem?_eq_getElem hxl,
        List.getElem?_eq_getElem hyl] at h1
      exact (hn v hv).getElem_inj_iff.1 h1
    have hmap : f.vars.map x = f.vars.map y := List.map_congr_left hxy
    rw [hmap, show f.val x = f.val y by unfold Cat.val; rw [hmap]]

/-- **C107 violated.** The constructor accepts three names for a variable with two values if only two of them are
different; then two rows have the same name and the third name is never used. -/
theorem C107_names_violated : ∃ f : Cat ℝ, Cat.ofTensor ["a"] ⟨[2], fun i => if i = [0] then .fin 0 else .ninf⟩ none
      (some [[.str "x", .str "x", .str "y"]]) = .ok f ∧ Cat.WF f ∧
    f.namedRows = .ok [([.str "x"], .fin 1), ([.str "x"], .fin 0)] := by
  refine ⟨_, rfl, ⟨by decide, rfl, rfl, rfl, fun v hv => ?_⟩, ?_⟩
  · obtain rfl : v = "a" := by simpa using hv
    rfl
  · show (Except.ok _ : Py _) = _
    simp [XF.exp]

/-! ### The hypotheses can be met -/

example : Lists ["a", "b"] (Cat.mk0 ["a", "b"] [2, 3] fun _ => (.fin (1 : ℝ))).card (Cat.mk0 ["a", "b"] [2, 3] fun _ => (.fin (1 : ℝ))).val
    (Cat.mk0 ["a", "b"] [2, 3] fun _ => (.fin (1 : ℝ))).distribution :=
  (C106_dense _ (Cat.mk0_wf _ (by decide) rfl)).1

example : ∃ rows, Sparse.exF.distribution = .ok rows ∧ rows.length = 6 := by
  obtain ⟨rows, h1, h2⟩ := C106_sparse Sparse.exF Sparse.exF_regular.wf
  exact ⟨rows, h1, by
    have : Sparse.exF.distribution = .ok rows := h1
    have h3 : rows = _ := (Except.ok.inj this).symm
    rw [h3]; rfl⟩

example : ∃ rows, (Cat.mk0 ["a", "b"] [2, 3] fun _ => (.fin (1 : ℝ))).namedRows = .ok rows ∧ (rows.map Prod.fst).Nodup := by
  obtain ⟨rows, h1, _, _, h2⟩ := C107_named_rows_partial (Cat.mk0 ["a", "b"] [2, 3] fun _ => (.fin (1 : ℝ)))
    (Cat.mk0_wf _ (by decide) rfl) (fun v hv => by
      have : v = "a" ∨ v = "b" := by simpa [Cat.mk0, Cat.mk'] using hv
      rcases this with rfl | rfl <;> decide)
  exact ⟨rows, h1, h2⟩

example : ∃ rows, Cat.exRs.distribution = .ok rows ∧ rows.Perm Cat.exR.distribution :=
  C106_agree Cat.exR Cat.exRs Cat.exR_wf Cat.exRs_regular.wf rfl Cat.exR_agree

end Verif
