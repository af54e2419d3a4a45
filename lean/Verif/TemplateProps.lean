import Verif.TemplateModel
import Verif.FormatProps
import Verif.CatProps
import Verif.SparseProps
import Verif.GaussProps2

/-!
# C122: factors made from a template

The factors made from one template are the same function, each of its own variables: the names of the variables are
the templates with the fields filled in, in the order of the templates, and the value at an assignment is the
template's.
-/

namespace Verif.Fmt

variable {special : Special} {d : Dict (List Char) (List Char)}

/-- The names `ns` are the templates `ls` with the fields replaced by the values in `d`. -/
def Filled (d : Dict (List Char) (List Char)) (ls : List (List Piece)) (ns : List Var) : Prop :=
  List.Forall₂ (fun ps v => ∃ r, ps.mapM (Piece.value d) = some r ∧ v = String.ofList r.flatten) ls ns

/-- The templates as written. -/
def writtenAll (ls : List (List Piece)) : List (List Char) := ls.map fun ps => ps.flatMap Piece.written

/-- The fields are plainly named. -/
def AllPlain (ls : List (List Piece)) : Prop := ∀ ps ∈ ls, ∀ p ∈ ps, p.Plain

/-- Some field has no value. -/
def Missing (d : Dict (List Char) (List Char)) (ls : List (List Piece)) : Prop :=
  ∃ ps ∈ ls, ∃ n, Piece.field n ∈ ps ∧ n ∉ Dict.keys d

theorem formatAll_filled {ls : List (List Piece)} {ns : List Var} (hp : AllPlain ls) (h : Filled d ls ns) :
    ∃ r, formatAll special d (writtenAll ls) = .ok r ∧ r.map toVar = ns := by
  induction h with
  | nil => exact ⟨[], rfl, rfl⟩
  | @cons ps v ls ns h1 _ ih =>
    obtain ⟨r, hr, rfl⟩ := h1
    obtain ⟨r', h2, rfl⟩ := ih fun q hq => hp q (List.mem_cons_of_mem _ hq)
    refine ⟨r.flatten :: r', ?_, rfl⟩
    unfold formatAll writtenAll at *
    rw [List.map_cons, List.mapM_cons, C76_format ps (hp ps (by simp)), hr]
    dsimp only
    rw [py_bind_ok, h2]
    rfl

theorem value_missing {ps : List Piece} (h : ∃ n, Piece.field n ∈ ps ∧ n ∉ Dict.keys d) :
    ps.mapM (Piece.value d) = none := by
  induction ps with
  | nil => obtain ⟨n, h, -⟩ := h; simp at h
  | cons p ps ih =>
    obtain ⟨n, h, hn⟩ := h
    rw [List.mapM_cons]
    rcases List.mem_cons.1 h with rfl | h
    · have : Dict.get? d n = none := by
        by_contra hc
        obtain ⟨v, hv⟩ := Option.ne_none_iff_exists'.1 hc
        exact hn ((Dict.get?_isSome_iff).1 ⟨v, hv⟩)
      simp [Piece.value, this]
    · rw [ih ⟨n, h, hn⟩]
      cases Piece.value d p <;> rfl

theorem formatAll_missing {ls : List (List Piece)} (hp : AllPlain ls) (h : Missing d ls) :
    formatAll special d (writtenAll ls) = .error .keyError := by
  induction ls with
  | nil => obtain ⟨ps, h, -⟩ := h; simp at h
  | cons ps ls ih =>
    unfold formatAll writtenAll at *
    rw [List.map_cons, List.mapM_cons, C76_format ps (hp ps (by simp))]
    cases hv : ps.mapM (Piece.value d) with
    | none => rfl
    | some r =>
      dsimp only
      rw [py_bind_ok, ih (fun q hq => hp q (List.mem_cons_of_mem _ hq)) ?_]
      · rfl
      · obtain ⟨qs, hq, n, hn, hk⟩ := h
        rcases List.mem_cons.1 hq with rfl | hq
        · rw [value_missing ⟨n, hn, hk⟩] at hv
          cases hv
        · exact ⟨qs, hq, n, hn, hk⟩

theorem denseNames_filled {ls : List (List Piece)} {ns : List Var} (hp : AllPlain ls) (h : Filled d ls ns) :
    ∃ r, Template.denseNames special ⟨some (writtenAll ls), none, none⟩ (some d) none = .ok (some r) ∧ r.map toVar = ns := by
  obtain ⟨r, h1, h2⟩ := formatAll_filled (special := special) hp h
  refine ⟨r, ?_, h2⟩
  change (formatAll special d (writtenAll ls)).bind (fun r => .ok (some r)) = _
  rw [h1]
  rfl

theorem sparseNames_filled {ls : List (List Piece)} {ns : List Var} (hp : AllPlain ls) (h : Filled d ls ns) :
    ∃ r, Template.sparseNames special ⟨some (writtenAll ls), none, none⟩ (some d) none = .ok (some r) ∧ r.map toVar = ns :=
  denseNames_filled hp h

theorem nonLinNames_filled {as bs : List (List Piece)} {xs ys : List Var} (ha : AllPlain as) (hb : AllPlain bs)
    (h : Filled d as xs) (h' : Filled d bs ys) (c : Option (List (List Char))) :
    ∃ r s, Template.nonLinNames special ⟨none, some (writtenAll as), some (writtenAll bs)⟩ (some d) none c =
      .ok (some r, some s) ∧ r.map toVar = xs ∧ s.map toVar = ys := by
  obtain ⟨r, h1, h2⟩ := formatAll_filled (special := special) ha h
  obtain ⟨s, h3, h4⟩ := formatAll_filled (special := special) hb h'
  refine ⟨r, s, ?_, h2, h4⟩
  change (formatAll special d (writtenAll as)).bind (fun a => (formatAll special d (writtenAll bs)).bind
    fun b => .ok (some a, some b)) = _
  rw [h1]
  change (formatAll special d (writtenAll bs)).bind (fun b => .ok (some r, some b)) = _
  rw [h3]
  rfl

/-- **C122, dense factors from a table.** The factor has the filled in names as variables, in the order of the templates.
Its value at an assignment is the table's, 0 if the table has none. -/
theorem C122_categorical_table {ls : List (List Piece)} {ns : List Var} {cards : List ℕ} {table : List (List ℕ × ℝ)}
    {t : CatTemplate} (ht : CatTemplate.init (some (writtenAll ls)) (some cards)
      (some (table.map fun e => (e.1.map Int.ofNat, e.2))) none = .ok t)
    (hp : AllPlain ls) (hf : Filled d ls ns) (hn : ns.Nodup) (hl : cards.length = ns.length)
    (hok : ∀ e ∈ table, List.Forall₂ (· < ·) e.1 cards) (hk : (table.map Prod.fst).Nodup) (hpos : ∀ e ∈ table, 0 ≤ e.2) :
    ∃ f, t.make special (some d) none = .ok f ∧ f.vars = ns ∧ ∀ x : Spec.Asg,
      (∀ p, (ns.map x, p) ∈ table → f.prob x = p) ∧ (ns.map x ∉ table.map Prod.fst → f.prob x = 0) := by
  obtain rfl : (⟨⟨some _, none, none⟩, _, _, _⟩ : CatTemplate) = t := Except.ok.inj ht
  obtain ⟨r, h1, rfl⟩ := denseNames_filled (special := special) hp hf
  obtain ⟨f, h2, h3⟩ := Cat.C14_table_nonneg (r.map toVar) cards table hn hl hok hk hpos
  refine ⟨f, ?_, ?_, h3⟩
  · unfold CatTemplate.make
    rw [h1, py_bind_ok]
    unfold categorical
    rw [Option.map_some]
    dsimp only
    rw [if_neg (by rw [hn.dedup]; simp)]
    exact h2
  · unfold Cat.ofTable at h2
    obtain ⟨-, -, h2⟩ := py_bind_eq_ok.1 h2
    obtain ⟨-, -, h2⟩ := py_bind_eq_ok.1 h2
    obtain ⟨_, -, h2⟩ := py_bind_eq_ok.1 h2
    obtain ⟨_, -, h2⟩ := py_bind_eq_ok.1 h2
    cases h2
    rfl

/-- **C122, dense factors from a tensor.** The table, if the template has one as well, is ignored. -/
theorem C122_categorical_tensor {ls : List (List Piece)} {ns : List Var} {cards : Option (List ℕ)}
    {table : Option (Dict (List Int) ℝ)} {T : Tensor (XF ℝ)} {t : CatTemplate}
    (ht : CatTemplate.init (some (writtenAll ls)) cards table (some T) = .ok t)
    (hp : AllPlain ls) (hf : Filled d ls ns) (hn : ns.Nodup) (hc : cards = none ∨ cards = some T.shape)
    (hT : T.shape.length = ns.length) :
    ∃ f, t.make special (some d) none = .ok f ∧ f.vars = ns ∧ (∀ x : Spec.Asg, f.val x = T.get (ns.map x)) ∧
      ∀ i (h : i < ns.length), f.card ns[i] = T.shape[i] := by
  obtain rfl : (⟨⟨some _, none, none⟩, _, _, _⟩ : CatTemplate) = t := Except.ok.inj ht
  obtain ⟨r, h1, rfl⟩ := denseNames_filled (special := special) hp hf
  have hnd : (T.ndim == (r.map toVar).length) = true := by simpa [Tensor.ndim] using hT
  have key : Cat.ofTensor (r.map toVar) T cards = .ok ⟨r.map toVar, T, Dict.ofPairs ((r.map toVar).zip T.shape),
      Dict.ofPairs (((r.map toVar).zip T.shape).map fun e => (e.1, (List.range e.2).map AName.int))⟩ := by
    unfold Cat.ofTensor Cat.mkNames
    rcases hc with rfl | rfl
    · simp only [Cat.dedup_length_eq hn, pyGuard, if_true, py_bind_ok, hnd]
    · simp only [Cat.dedup_length_eq hn, pyGuard, if_true, py_bind_ok, hnd, hT, beq_self_eq_true]
  refine ⟨⟨r.map toVar, T, Dict.ofPairs ((r.map toVar).zip T.shape),
      Dict.ofPairs (((r.map toVar).zip T.shape).map fun e => (e.1, (List.range e.2).map AName.int))⟩,
      ?_, rfl, fun x => rfl, fun i h => ?_⟩
  · unfold CatTemplate.make
    rw [h1, py_bind_ok]
    unfold categorical
    rw [Option.map_some]
    dsimp only
    rw [if_neg (by rw [hn.dedup]; simp)]
    rcases hc with rfl | rfl
    · exact key
    · cases table <;> exact key
  · change T.shape.getD ((r.map toVar).idxOf (r.map toVar)[i]) 0 = _
    rw [hn.idxOf_getElem i h, List.getD_eq_getElem?_getD, List.getElem?_eq_getElem (by omega)]
    rfl

/-- **C122, sparse factors.** -/
theorem C122_sparse {ls : List (List Piece)} {ns : List Var} {cards : List ℕ} {table : List (List ℕ × ℝ)}
    {t : SparseTemplate} (ht : SparseTemplate.init (table.map fun e => (e.1, XF.fin e.2)) cards
      (some (writtenAll ls)) = .ok t)
    (hp : AllPlain ls) (hf : Filled d ls ns) (hn : ns.Nodup) (hl : cards.length = ns.length)
    (hk : (table.map Prod.fst).Nodup) (hpos : ∀ e ∈ table, 0 ≤ e.2) :
    ∃ f, t.make special (some d) none = .ok f ∧ f.vars = ns ∧ f.cards = cards ∧ ∀ x : Spec.Asg,
      (∀ p, (ns.map x, p) ∈ table → f.prob x = p) ∧ (ns.map x ∉ table.map Prod.fst → f.prob x = 0) := by
  obtain rfl : (⟨⟨some _, none, none⟩, _, _⟩ : SparseTemplate) = t := Except.ok.inj ht
  obtain ⟨r, h1, rfl⟩ := sparseNames_filled (special := special) hp hf
  have hfc : fastCopy (table.map fun e => (e.1, XF.fin e.2)) = table.map fun e => (e.1, XF.fin e.2) :=
    Dict.ofPairs_eq (by rw [List.map_map]; exact hk)
  refine ⟨⟨r.map toVar, cards, table.map fun e => (e.1, XF.log (XF.fin e.2)), .ninf⟩, ?_, rfl, rfl, fun x => ?_⟩
  · unfold SparseTemplate.make
    rw [h1, py_bind_ok]
    unfold sparseCategorical
    rw [Option.map_some]
    dsimp only
    unfold Sparse.newProbs Sparse.new
    rw [if_neg (not_not.2 hn), if_neg (not_not.2 hl), hfc, List.map_map]
    rfl
  · unfold Sparse.prob Sparse.val
    dsimp only
    have hkk : (Dict.keys (table.map fun e => (e.1, XF.log (XF.fin e.2)))).Nodup := by
      unfold Dict.keys
      rw [List.map_map]
      exact hk
    constructor
    · intro p hmem
      rw [Dict.get?_of_mem hkk (List.mem_map.2 ⟨_, hmem, rfl⟩), Option.getD_some, XF.log_fin (hpos _ hmem),
        XF.prob_ofProb (hpos _ hmem)]
    · intro hmem
      have : Dict.get? (table.map fun e => (e.1, XF.log (XF.fin e.2))) ((r.map toVar).map x) = none := by
        by_contra hc
        obtain ⟨v, hv⟩ := Option.ne_none_iff_exists'.1 hc
        have := (Dict.get?_isSome_iff).1 ⟨v, hv⟩
        unfold Dict.keys at this
        rw [List.map_map] at this
        exact hmem this
      rw [this]
      rfl

open Matrix in
/-- **C122, Gaussians (part that holds).** The factor made from the template is the function with the template's canonical
parameters of its own variables. What is missing is that it behaves like the constructed one: it is marked as vacuous
(`C41_template_marginal`). -/
theorem C122_gaussian_partial {ls : List (List Piece)} {ns : List Var} {n : ℕ} {params : Can n} {b : Template}
    (ht : Template.mk' (some (writtenAll ls)) none none = .ok b) (hp : AllPlain ls) (hf : Filled d ls ns) (hn : ns.Nodup)
    (hl : ns.length = n) (hs : params.prec.IsSymm) :
    ∃ f, gaussMake special b params (some d) none = .ok f ∧ f.vars = ns ∧ ∃ L, Gauss.Denotes f L ∧ ∀ x : Var → ℝ,
      ∀ z : Fin n → ℝ, (∀ i : Fin n, z i = x (ns[i.1]'(hl.symm ▸ i.2))) →
        L x = -(z ⬝ᵥ params.prec *ᵥ z) / 2 + z ⬝ᵥ params.h + params.g := by
  obtain rfl : (⟨some _, none, none⟩ : Template) = b := Except.ok.inj ht
  obtain ⟨r, h1, rfl⟩ := denseNames_filled (special := special) hp hf
  have hc := Gauss.mkCan_ok (c := params) hn hl
  have hm : (⟨params, []⟩ : GTemplate n).makeFactor (r.map toVar) =
      .ok ⟨r.map toVar, some params, none, true⟩ := by
    unfold GTemplate.makeFactor
    dsimp only
    rw [hc]
    rfl
  obtain ⟨h2, -, L, h3, -, h4⟩ := (Gauss.C41_template_partial (⟨params, []⟩ : GTemplate n) (r.map toVar) hs).2 _ _ hm hc
  refine ⟨_, ?_, h2, L, h3, fun x z hz => ?_⟩
  · unfold gaussMake
    rw [h1, py_bind_ok, Option.map_some]
    exact hm
  · have : z = Gauss.vecAt (r.map toVar) hl x := funext hz
    rw [this]
    exact h4 x hl

/-- **C122, nonlinear Gaussians.** The factor is the one constructed with the filled in names, the template's function and
noise, and weight 1. -/
theorem C122_nonlinear {as bs : List (List Piece)} {xs ys : List Var} {T : Sigma.Transform} {q : ℕ}
    {noise : Matrix (Fin q) (Fin q) ℝ} {t : NonLinTemplate}
    (ht : NonLinTemplate.init (writtenAll as) (writtenAll bs) T noise = .ok t) (ha : AllPlain as) (hb : AllPlain bs)
    (hx : Filled d as xs) (hy : Filled d bs ys) (hn : (xs ++ ys).Nodup) (hl : ys.length = q) :
    t.make special (some d) none none = NLG.make xs ys T noise ∧
    ∃ f, t.make special (some d) none none = .ok f ∧ f.xs = xs ∧ f.ys = ys ∧ f.vars = xs ++ ys ∧ f.transform = T ∧
      (⟨f.q, f.noise⟩ : Σ k, Matrix (Fin k) (Fin k) ℝ) = ⟨q, noise⟩ ∧ f.lw = 0 ∧ f.upd = none ∧ f.cond = none ∧ f.ev = [] ∧
      ∃ v, Gauss.makeVacuous (xs ++ ys) = .ok v ∧ f.joint = ⟨_, v⟩ := by
  obtain rfl : (⟨⟨none, some _, some _⟩, _, _, _, _⟩ : NonLinTemplate) = t := Except.ok.inj ht
  obtain ⟨r, s, h1, rfl, rfl⟩ := nonLinNames_filled (special := special) ha hb hx hy none
  have hmk : NonLinTemplate.make special ⟨⟨none, some (writtenAll as), some (writtenAll bs)⟩, T, q, q, noise⟩ (some d) none
      none = NLG.make (r.map toVar) (s.map toVar) T noise := by
    unfold NonLinTemplate.make
    rw [h1, py_bind_ok]
    rfl
  refine ⟨hmk, ?_⟩
  rw [hmk]
  subst hl
  have hv : Gauss.makeVacuous (r.map toVar ++ s.map toVar) = .ok _ := Gauss.mkCan_ok hn rfl
  refine ⟨⟨r.map toVar, s.map toVar, T, _, noise, 0, ⟨_, _⟩, none, none, []⟩, ?_, rfl, rfl, rfl, rfl, rfl, rfl, rfl, rfl, rfl,
    _, hv, rfl⟩
  unfold NLG.make
  have hdis : ∀ v ∈ r.map toVar, v ∉ s.map toVar := fun v h h' => (List.nodup_append.1 hn).2.2 v h v h' rfl
  rw [pyGuard, if_pos (by simpa using hdis), py_bind_ok, pyGuard, if_pos (by simpa using hn), py_bind_ok, pyGuard,
    if_pos (by simp), py_bind_ok, dif_pos rfl]
  unfold NLG.initJoint
  rw [hv]
  rfl

/-- **C122, coinciding names.** If two templates are filled in to the same name, `make_factor` raises `ValueError`. -/
theorem C122_clash {ls : List (List Piece)} {ns : List Var} (hp : AllPlain ls) (hf : Filled d ls ns) (hn : ¬ ns.Nodup) :
    (∀ {cards table tensor t}, CatTemplate.init (some (writtenAll ls)) cards table tensor = .ok t →
      t.make special (some d) none = .error .valueError) ∧
    (∀ {table cards t}, SparseTemplate.init table cards (some (writtenAll ls)) = .ok t →
      t.make special (some d) none = .error .valueError) ∧
    (∀ {n : ℕ} {params : Can n} {b : Template}, Template.mk' (some (writtenAll ls)) none none = .ok b →
      gaussMake special b params (some d) none = .error .valueError) := by
  obtain ⟨r, h1, rfl⟩ := denseNames_filled (special := special) hp hf
  refine ⟨fun {cards table tensor t} ht => ?_, fun {table cards t} ht => ?_, fun {n params b} ht => ?_⟩
  · obtain rfl : (⟨⟨some _, none, none⟩, _, _, _⟩ : CatTemplate) = t := Except.ok.inj ht
    unfold CatTemplate.make
    rw [h1, py_bind_ok]
    unfold categorical
    rw [Option.map_some]
    dsimp only
    rw [if_pos]
    intro h
    apply hn
    rw [← List.dedup_eq_self]
    exact (List.dedup_sublist _).eq_of_length h
  · obtain rfl : (⟨⟨some _, none, none⟩, _, _⟩ : SparseTemplate) = t := Except.ok.inj ht
    unfold SparseTemplate.make
    have h2 : Template.sparseNames special ⟨some (writtenAll ls), none, none⟩ (some d) none = .ok (some r) := h1
    rw [h2, py_bind_ok]
    unfold sparseCategorical
    rw [Option.map_some]
    dsimp only
    unfold Sparse.newProbs Sparse.new
    rw [if_pos hn]
  · obtain rfl : (⟨some _, none, none⟩ : Template) = b := Except.ok.inj ht
    unfold gaussMake
    rw [h1, py_bind_ok, Option.map_some]
    change GTemplate.makeFactor _ (r.map toVar) = _
    unfold GTemplate.makeFactor Gauss.mkCan
    rw [if_pos hn]
    rfl

/-- The same for nonlinear Gaussians. -/
theorem C122_clash_nonlinear {as bs : List (List Piece)} {xs ys : List Var} {T : Sigma.Transform} {q q' : ℕ}
    {noise : Matrix (Fin q) (Fin q') ℝ} {t : NonLinTemplate}
    (ht : NonLinTemplate.init (writtenAll as) (writtenAll bs) T noise = .ok t) (ha : AllPlain as) (hb : AllPlain bs)
    (hx : Filled d as xs) (hy : Filled d bs ys) (hn : ¬ (xs ++ ys).Nodup) :
    t.make special (some d) none none = .error .valueError := by
  obtain rfl : (⟨⟨none, some _, some _⟩, _, _, _, _⟩ : NonLinTemplate) = t := Except.ok.inj ht
  obtain ⟨r, s, h1, rfl, rfl⟩ := nonLinNames_filled (special := special) ha hb hx hy none
  unfold NonLinTemplate.make
  rw [h1, py_bind_ok]
  change NLG.make _ _ _ _ = _
  unfold NLG.make
  by_cases hd : ∀ v ∈ r.map toVar, v ∉ s.map toVar
  · rw [pyGuard, if_pos (by simpa using hd), py_bind_ok, pyGuard, if_neg (by simpa using hn)]
    rfl
  · rw [pyGuard, if_neg (by simpa using hd)]
    rfl

/-- **C122, missing values.** If some field has no value in the dictionary, `make_factor` raises `KeyError`. -/
theorem C122_missing {ls : List (List Piece)} (hp : AllPlain ls) (hm : Missing d ls) :
    (∀ {cards table tensor t}, CatTemplate.init (some (writtenAll ls)) cards table tensor = .ok t →
      t.make special (some d) none = .error .keyError) ∧
    (∀ {table cards t}, SparseTemplate.init table cards (some (writtenAll ls)) = .ok t →
      t.make special (some d) none = .error .keyError) ∧
    (∀ {n : ℕ} {params : Can n} {b : Template}, Template.mk' (some (writtenAll ls)) none none = .ok b →
      gaussMake special b params (some d) none = .error .keyError) := by
  have h1 : Template.denseNames special ⟨some (writtenAll ls), none, none⟩ (some d) none = .error .keyError := by
    change (formatAll special d (writtenAll ls)).bind (fun r => .ok (some r)) = _
    rw [formatAll_missing hp hm]
    rfl
  refine ⟨fun {cards table tensor t} ht => ?_, fun {table cards t} ht => ?_, fun {n params b} ht => ?_⟩
  · obtain rfl : (⟨⟨some _, none, none⟩, _, _, _⟩ : CatTemplate) = t := Except.ok.inj ht
    unfold CatTemplate.make
    rw [h1]
    rfl
  · obtain rfl : (⟨⟨some _, none, none⟩, _, _⟩ : SparseTemplate) = t := Except.ok.inj ht
    unfold SparseTemplate.make
    have h2 : Template.sparseNames special ⟨some (writtenAll ls), none, none⟩ (some d) none = .error .keyError := h1
    rw [h2]
    rfl
  · obtain rfl : (⟨some _, none, none⟩ : Template) = b := Except.ok.inj ht
    unfold gaussMake
    rw [h1]
    rfl

/-- **C122, names given by the caller.** Without a dictionary the given names are used, whatever the templates are; with
both, `AssertionError` is raised. -/
theorem C122_given (b : Template) (names : List (List Char)) (d : Dict (List Char) (List Char)) :
    (∀ cards table tensor, CatTemplate.make special ⟨b, cards, table, tensor⟩ none (some names) =
      categorical (some (names.map toVar)) cards table tensor) ∧
    (∀ table cards, SparseTemplate.make special ⟨b, table, cards⟩ none (some names) =
      Sparse.newProbs (names.map toVar) cards table) ∧
    (∀ cards table tensor, CatTemplate.make special ⟨b, cards, table, tensor⟩ (some d) (some names) =
      .error .assertionError) ∧
    (∀ table cards, SparseTemplate.make special ⟨b, table, cards⟩ (some d) (some names) = .error .assertionError) ∧
    (∀ (n : ℕ) (params : Can n), gaussMake special b params (some d) (some names) = .error .assertionError) := by
  refine ⟨fun _ _ _ => rfl, fun _ _ => ?_, fun _ _ _ => rfl, fun _ _ => ?_, fun _ _ => rfl⟩
  · unfold SparseTemplate.make Template.sparseNames
    rw [if_neg (by simp)]
    rfl
  · unfold SparseTemplate.make Template.sparseNames
    rw [if_neg (by simp)]
    rfl

/-- **C122 (violation).** Conditional variables given together with a dictionary are not refused, as conditioning variables
are: they are dropped. -/
theorem C122_conditional_ignored {as bs : List (List Piece)} {xs ys : List Var} {T : Sigma.Transform} {q : ℕ}
    {noise : Matrix (Fin q) (Fin q) ℝ} {t : NonLinTemplate}
    (ht : NonLinTemplate.init (writtenAll as) (writtenAll bs) T noise = .ok t) (ha : AllPlain as) (hb : AllPlain bs)
    (hx : Filled d as xs) (hy : Filled d bs ys) (hn : (xs ++ ys).Nodup) (hl : ys.length = q) (given : List (List Char)) :
    (∃ f, t.make special (some d) none (some given) = .ok f ∧ f.ys = ys) ∧
    ∀ c, t.make special (some d) (some given) c = .error .assertionError := by
  obtain ⟨-, f, h1, -, h2, -⟩ := C122_nonlinear (special := special) ht ha hb hx hy hn hl
  obtain rfl : (⟨⟨none, some _, some _⟩, _, _, _, _⟩ : NonLinTemplate) = t := Except.ok.inj ht
  exact ⟨⟨f, h1, h2⟩, fun c => rfl⟩

/-- **C122, neither names nor dictionary.** The exceptions differ from class to class: the templates of dense and nonlinear
factors raise `TypeError`, those of Gaussians `ValueError`, those of sparse factors either of them, by whether they
have templates. -/
theorem C122_nothing (b : Template) :
    (∀ cards table tensor, CatTemplate.make special ⟨b, cards, table, tensor⟩ none none = .error .typeError) ∧
    (∀ (n : ℕ) (params : Can n), gaussMake special b params none none = .error .valueError) ∧
    (∀ table cards, SparseTemplate.make special ⟨b, table, cards⟩ none none =
      if b.vars.isNone then .error .valueError else .error .typeError) ∧
    ∀ t : NonLinTemplate, t.make special none none none = .error .typeError := by
  refine ⟨fun _ _ _ => rfl, fun _ _ => rfl, fun _ _ => ?_, fun _ => rfl⟩
  unfold SparseTemplate.make Template.sparseNames
  cases b.vars <;> rfl

/-- **C122, instances of one template.** Two dense factors made from one template have equal values at assignments that
agree variable by variable. -/
theorem C122_instances {d' : Dict (List Char) (List Char)} {ls : List (List Piece)} {ns ns' : List Var} {cards : List ℕ}
    {table : List (List ℕ × ℝ)} {t : CatTemplate} (ht : CatTemplate.init (some (writtenAll ls)) (some cards)
      (some (table.map fun e => (e.1.map Int.ofNat, e.2))) none = .ok t)
    (hp : AllPlain ls) (hf : Filled d ls ns) (hn : ns.Nodup) (hf' : Filled d' ls ns') (hn' : ns'.Nodup)
    (hl : cards.length = ls.length) (hok : ∀ e ∈ table, List.Forall₂ (· < ·) e.1 cards) (hk : (table.map Prod.fst).Nodup)
    (hpos : ∀ e ∈ table, 0 ≤ e.2) :
    ∃ f g, t.make special (some d) none = .ok f ∧ t.make special (some d') none = .ok g ∧ f.vars = ns ∧ g.vars = ns' ∧
      ∀ x y : Spec.Asg, ns.map x = ns'.map y → f.prob x = g.prob y := by
  obtain ⟨f, h1, h2, h3⟩ := C122_categorical_table (special := special) ht hp hf hn (hl.trans hf.length_eq) hok hk hpos
  obtain ⟨g, h4, h5, h6⟩ := C122_categorical_table (special := special) ht hp hf' hn' (hl.trans hf'.length_eq) hok hk hpos
  refine ⟨f, g, h1, h4, h2, h5, fun x y hxy => ?_⟩
  by_cases hm : ns.map x ∈ table.map Prod.fst
  · obtain ⟨e, he, hx⟩ := List.mem_map.1 hm
    have e1 := (h3 x).1 e.2 (by rw [← hx]; exact he)
    have e2 := (h6 y).1 e.2 (by rw [← hxy, ← hx]; exact he)
    rw [e1, e2]
  · rw [(h3 x).2 hm, (h6 y).2 (by rw [← hxy]; exact hm)]

/-- The templates `a_{i}` and `b_{i}`. -/
def exLs : List (List Piece) := [[.lit 'a', .lit '_', .field ['i']], [.lit 'b', .lit '_', .field ['i']]]

/-- The hypotheses can be met: `a_{i}`, `b_{i}` with `i = 0` and with `i = 1`. -/
example : AllPlain exLs ∧ Filled [(['i'], ['0'])] exLs ["a_0", "b_0"] ∧ Filled [(['i'], ['1'])] exLs ["a_1", "b_1"] ∧
    Missing [(['j'], ['0'])] exLs ∧
    Filled [(['i'], ['0']), (['j'], ['0'])] [[.lit 'a', .field ['i']], [.lit 'a', .field ['j']]] ["a0", "a0"] ∧
    (∀ e ∈ [([0, 1], (1 : ℝ) / 4), ([1, 0], 3 / 4)], List.Forall₂ (· < ·) e.1 [2, 2]) := by
  refine ⟨?_, ?_, ?_, ⟨_, by simp [exLs]; exact .inl rfl, ['i'], by simp, by simp [Dict.keys]⟩, ?_, by simp⟩
  · simp only [AllPlain, exLs, List.mem_cons, List.not_mem_nil, or_false]
    rintro ps (rfl | rfl) p hp
    all_goals
      simp only [List.mem_cons, List.not_mem_nil, or_false] at hp
      rcases hp with rfl | rfl | rfl
      · trivial
      · trivial
      · exact (by decide : isPlain ['i'] = true)
  all_goals
    exact .cons ⟨_, rfl, by decide⟩ (.cons ⟨_, rfl, by decide⟩ .nil)

end Verif.Fmt
