import Verif.FormatModel
import Verif.PyLemmas

/-!
# Properties of the name templates (C76)
-/

namespace Verif.Fmt

variable {special : Special} {d : Dict (List Char) (List Char)}

/-! ### What `str.format` does -/

/-- A part of a template: a character or the name of a replacement field. -/
inductive Piece
  | lit (c : Char)
  | field (name : List Char)

/-- How a part is written in a template. -/
def Piece.written : Piece → List Char
  | .lit '{' => ['{', '{']
  | .lit '}' => ['}', '}']
  | .lit c => [c]
  | .field n => '{' :: (n ++ ['}'])

/-- What a part becomes. -/
def Piece.value (d : Dict (List Char) (List Char)) : Piece → Option (List Char)
  | .lit c => some [c]
  | .field n => Dict.get? d n

/-- The names of the fields are plain. -/
def Piece.Plain : Piece → Prop
  | .lit _ => True
  | .field n => isPlain n = true

theorem takeWhile_name {n s : List Char} (h : ∀ c ∈ n, c ≠ '}') : (n ++ '}' :: s).takeWhile (· != '}') = n := by
  induction n with
  | nil => simp
  | cons a n ih =>
    rw [List.cons_append, List.takeWhile_cons_of_pos (by simpa using h a (by simp)), ih fun c hc => h c (List.mem_cons_of_mem _ hc)]

theorem isPlain_spec {n : List Char} (h : isPlain n = true) :
    (∀ c ∈ n, isSpecial c = false ∧ c ≠ '}') ∧ ∃ c ∈ n, c.isDigit = false := by
  unfold isPlain at h
  rw [Bool.and_eq_true, List.all_eq_true, List.any_eq_true] at h
  refine ⟨fun c hc => by simpa using h.1 c hc, ?_⟩
  obtain ⟨c, hc, h'⟩ := h.2
  exact ⟨c, hc, by simp at h'; simpa using h'.2⟩

theorem field_plain {n s : List Char} (h : isPlain n = true) :
    field special d (n ++ '}' :: s) = match Dict.get? d n with
      | some v => .ok (v, n.length + 1)
      | none => .error .keyError := by
  obtain ⟨h1, c, hc, h2⟩ := isPlain_spec h
  unfold field
  dsimp only
  rw [takeWhile_name fun c hc => (h1 c hc).2, if_neg, if_neg, if_neg, if_pos h]
  · cases Dict.get? d n <;> rfl
  · rw [Bool.and_eq_true, List.all_eq_true]
    rintro ⟨h3, -⟩
    rw [h3 c hc] at h2
    exact absurd h2 (by simp)
  · simp
  · rw [List.any_eq_true]
    rintro ⟨c, hc, h3⟩
    rw [(h1 c hc).1] at h3
    exact absurd h3 (by simp)

theorem format_field {n s : List Char} (h : isPlain n = true) :
    format special d ('{' :: (n ++ '}' :: s)) = match Dict.get? d n with
      | some v => (format special d s).map (v ++ ·)
      | none => .error .keyError := by
  obtain ⟨h1, c, hc, h2⟩ := isPlain_spec h
  have hn : ∀ t, n ++ '}' :: s ≠ '{' :: t := by
    intro t ht
    cases n with
    | nil => simp at hc
    | cons a n =>
      rw [List.cons_append, List.cons.injEq] at ht
      have := (h1 a (by simp)).1
      rw [ht.1] at this
      exact absurd this (by decide)
  rw [format]
  · rw [field_plain h]
    cases Dict.get? d n with
    | none => rfl
    | some v =>
      dsimp only [bind, Except.bind]
      have : (n ++ '}' :: s).drop (n.length + 1) = s := by
        rw [List.drop_append]
        simp
      rw [this]
      cases format special d s <;> rfl
  · rintro h
    simp at h
  · exact hn

theorem format_lit {c : Char} {s : List Char} :
    format special d ((Piece.lit c).written ++ s) = (format special d s).map ([c] ++ ·) := by
  by_cases h1 : c = '{'
  · subst h1
    change format special d ('{' :: '{' :: s) = _
    rw [format]
    cases format special d s <;> rfl
  · by_cases h2 : c = '}'
    · subst h2
      change format special d ('}' :: '}' :: s) = _
      rw [format]
      cases format special d s <;> rfl
    · have : (Piece.lit c).written = [c] := by
        unfold Piece.written
        split <;> simp_all
      rw [this, List.singleton_append]
      rw [format]
      · cases format special d s <;> rfl
      all_goals simp_all

/-- **What formatting gives.** For every template of characters and plainly named fields, the result is the template
with every field replaced by its value; it raises `KeyError` exactly if a field has no value. -/
theorem C76_format (ps : List Piece) (hps : ∀ p ∈ ps, p.Plain) :
    format special d (ps.flatMap Piece.written) = match ps.mapM (Piece.value d) with
      | some r => .ok r.flatten
      | none => .error .keyError := by
  induction ps with
  | nil => rw [List.flatMap_nil, format]; rfl
  | cons p ps ih =>
    have ih := ih fun q hq => hps q (List.mem_cons_of_mem _ hq)
    rw [List.flatMap_cons, List.mapM_cons]
    cases p with
    | lit c =>
      rw [format_lit, ih]
      change _ = match (ps.mapM (Piece.value d)).bind (fun r => some ([c] :: r)) with
        | some r => Except.ok r.flatten
        | none => Except.error PyErr.keyError
      cases ps.mapM (Piece.value d) <;> rfl
    | field n =>
      have : (Piece.field n).written ++ ps.flatMap Piece.written = '{' :: (n ++ '}' :: ps.flatMap Piece.written) := by
        simp [Piece.written]
      rw [this, format_field (show isPlain n = true from hps (.field n) (by simp)), ih]
      change _ = match (Dict.get? d n).bind (fun v => (ps.mapM (Piece.value d)).bind fun r => some (v :: r)) with
        | some r => Except.ok r.flatten
        | none => Except.error PyErr.keyError
      cases Dict.get? d n with
      | none => rfl
      | some v => cases ps.mapM (Piece.value d) <;> rfl

/-! ### `formattable` -/

/-- The templates of a class of factors: of one list of variables, or of two. -/
def Template.Valid (t : Template) : Prop := ∃ a b c, Template.mk' a b c = .ok t

theorem py_mapM_ok_iff {l : List (List Char)} :
    (∃ r, formatAll special d l = .ok r) ↔ ∀ s ∈ l, ∃ r, format special d s = .ok r := by
  unfold formatAll
  induction l with
  | nil => simp [pure, Except.pure]
  | cons a l ih =>
    rw [List.mapM_cons]
    constructor
    · rintro ⟨r, hr⟩
      obtain ⟨x, hx, hr⟩ := py_bind_eq_ok.1 hr
      obtain ⟨y, hy, hr⟩ := py_bind_eq_ok.1 hr
      intro s hs
      rcases List.mem_cons.1 hs with rfl | hs
      · exact ⟨x, hx⟩
      · exact ih.1 ⟨y, hy⟩ s hs
    · intro h
      obtain ⟨x, hx⟩ := h a (by simp)
      obtain ⟨y, hy⟩ := ih.2 fun s hs => h s (List.mem_cons_of_mem _ hs)
      exact ⟨x :: y, by rw [hx, py_bind_ok, hy]; rfl⟩

/-- **C76 for templates of one list of variables** (categorical and Gaussian templates). `formattable(d)` is true exactly
if `make_factor(d)` can make the names; it is false exactly if that raises `KeyError`; any other exception is raised
by both. -/
theorem C76_formattable {t : Template} {l : List (List Char)} (ht : Template.mk' (some l) none none = .ok t) :
    (t.formattable special d = .ok true ↔ ∃ r, t.denseNames special (some d) none = .ok (some r)) ∧
    (t.formattable special d = .ok false ↔ t.denseNames special (some d) none = .error .keyError) ∧
    (∀ e, t.formattable special d = .error e ↔ e ≠ .keyError ∧ t.denseNames special (some d) none = .error e) ∧
    t.sparseNames special (some d) none = t.denseNames special (some d) none ∧
    (t.formattable special d = .ok true ↔ ∀ s ∈ l, ∃ r, format special d s = .ok r) := by
  obtain rfl : (⟨some l, none, none⟩ : Template) = t := Except.ok.inj ht
  have h1 : Template.denseNames special ⟨some l, none, none⟩ (some d) none = (formatAll special d l).map some := by
    change (formatAll special d l).bind (fun r => .ok (some r)) = _
    cases formatAll special d l <;> rfl
  have h2 : Template.sparseNames special ⟨some l, none, none⟩ (some d) none = (formatAll special d l).map some := h1
  have h3 : Template.formattable special ⟨some l, none, none⟩ d = match formatAll special d l with
      | .error .keyError => .ok false
      | .error e => .error e
      | .ok _ => .ok true := by
    unfold Template.formattable Template.tryFormat
    dsimp only [bind, Except.bind]
    cases h : formatAll special d l with
    | ok r => rfl
    | error e => cases e <;> rfl
  rw [h1, h2, h3, ← py_mapM_ok_iff]
  cases h : formatAll special d l with
  | ok r => simp [Except.map]
  | error e => cases e <;> simp [Except.map] <;> exact fun e h h' => h h'.symm

/-- **C76 for templates of conditioning and conditional variables.** -/
theorem C76_formattable_conditional {t : Template} {vs : Option (List (List Char))} {a b : List (List Char)}
    (ht : Template.mk' vs (some a) (some b) = .ok t) :
    (t.formattable special d = .ok true ↔ ∃ r, t.nonLinNames special (some d) none none = .ok r) ∧
    (t.formattable special d = .ok false ↔ t.nonLinNames special (some d) none none = .error .keyError) ∧
    (∀ e, t.formattable special d = .error e ↔ e ≠ .keyError ∧ t.nonLinNames special (some d) none none = .error e) ∧
    (t.formattable special d = .ok true ↔ ∀ s ∈ a ++ b, ∃ r, format special d s = .ok r) := by
  obtain rfl : (⟨none, some a, some b⟩ : Template) = t := Except.ok.inj ht
  have h1 : Template.nonLinNames special ⟨none, some a, some b⟩ (some d) none none =
      (formatAll special d a).bind fun x => (formatAll special d b).bind fun y => .ok (some x, some y) := rfl
  have h3 : Template.formattable special ⟨none, some a, some b⟩ d =
      match (formatAll special d a).bind fun x => (formatAll special d b).bind fun y => .ok (some x, some y) with
      | .error .keyError => .ok false
      | .error e => .error e
      | .ok _ => .ok true := by
    unfold Template.formattable Template.tryFormat
    dsimp only [bind, Except.bind, formatOpt]
    cases h : formatAll special d a with
    | ok r =>
      cases h : formatAll special d b with
      | ok r => rfl
      | error e => cases e <;> rfl
    | error e => cases e <;> rfl
  have h4 : (∀ s ∈ a ++ b, ∃ r, format special d s = .ok r) ↔ ∃ r, ((formatAll special d a).bind fun x =>
      (formatAll special d b).bind fun y => (.ok (some x, some y) : Py _)) = .ok r := by
    have : (∀ s ∈ a ++ b, ∃ r, format special d s = .ok r) ↔ (∀ s ∈ a, ∃ r, format special d s = .ok r) ∧
        ∀ s ∈ b, ∃ r, format special d s = .ok r := by
      constructor
      · exact fun h => ⟨fun s hs => h s (List.mem_append_left _ hs), fun s hs => h s (List.mem_append_right _ hs)⟩
      · rintro ⟨h, h'⟩ s hs
        exact (List.mem_append.1 hs).elim (h s) (h' s)
    rw [this, ← py_mapM_ok_iff, ← py_mapM_ok_iff]
    cases formatAll special d a <;> cases formatAll special d b <;> simp [Except.bind]
  rw [h1, h3, h4]
  cases h : ((formatAll special d a).bind fun x => (formatAll special d b).bind fun y =>
    (.ok (some x, some y) : Py (Option (List (List Char)) × Option (List (List Char))))) with
  | ok r => simp
  | error e => cases e <;> simp <;> exact fun e h h' => h h'.symm

/-- **C76 in terms of the names in the templates.** If all fields are plainly named, `formattable(d)` returns, and is true
exactly if every field has a value; the names made by `make_factor` are then the templates with the fields filled in. -/
theorem C76_plain {t : Template} {ls : List (List Piece)} (hls : ∀ ps ∈ ls, ∀ p ∈ ps, p.Plain)
    (ht : Template.mk' (some (ls.map fun ps => ps.flatMap Piece.written)) none none = .ok t) :
    (t.formattable special d = .ok true ∨ t.formattable special d = .ok false) ∧
    (t.formattable special d = .ok true ↔ ∀ ps ∈ ls, ∀ n, Piece.field n ∈ ps → n ∈ Dict.keys d) := by
  have hval : ∀ ps : List Piece, (∃ r, ps.mapM (Piece.value d) = some r) ↔ ∀ n, Piece.field n ∈ ps → n ∈ Dict.keys d := by
    intro ps
    induction ps with
    | nil => simp
    | cons p ps ih =>
      rw [List.mapM_cons]
      cases p with
      | lit c =>
        have : (∃ r, (do let y ← Piece.value d (Piece.lit c); let ys ← ps.mapM (Piece.value d); pure (y :: ys)) = some r) ↔
            ∃ r, ps.mapM (Piece.value d) = some r := by
          simp only [Piece.value]
          cases ps.mapM (Piece.value d) <;> simp
        rw [this, ih]
        simp
      | field n =>
        have : (∃ r, (do let y ← Piece.value d (Piece.field n); let ys ← ps.mapM (Piece.value d); pure (y :: ys)) = some r) ↔
            (∃ v, Dict.get? d n = some v) ∧ ∃ r, ps.mapM (Piece.value d) = some r := by
          simp only [Piece.value]
          cases Dict.get? d n <;> cases ps.mapM (Piece.value d) <;> simp
        rw [this, ih, Dict.get?_isSome_iff]
        simp
  have hf := C76_formattable (special := special) (d := d) ht
  refine ⟨?_, ?_⟩
  · cases h : t.formattable special d with
    | ok b => cases b <;> simp
    | error e =>
      exfalso
      obtain ⟨he, h0⟩ := (hf.2.2.1 e).1 h
      obtain rfl : (⟨some _, none, none⟩ : Template) = t := Except.ok.inj ht
      have h' : (formatAll special d (ls.map fun ps => ps.flatMap Piece.written)).bind (fun r => .ok (some r)) =
        .error e := h0
      have key : ∀ e', formatAll special d (ls.map fun ps => ps.flatMap Piece.written) = .error e' → e' = .keyError := by
        clear hf ht h h' h0
        intro e'
        unfold formatAll
        induction ls with
        | nil => intro h; cases h
        | cons ps ls ih =>
          rw [List.map_cons, List.mapM_cons, C76_format ps (hls ps (by simp))]
          have ih := ih fun qs hq => hls qs (List.mem_cons_of_mem _ hq)
          cases ps.mapM (Piece.value d) with
          | none =>
            intro h
            exact (Except.error.inj h).symm
          | some r =>
            dsimp only [bind, Except.bind]
            cases hm : List.mapM (format special d) (ls.map fun ps => ps.flatMap Piece.written) with
            | ok x => intro h; cases h
            | error x =>
              rw [hm] at ih
              intro h
              exact ih (congrArg _ (Except.error.inj h))
      cases hm : formatAll special d (ls.map fun ps => ps.flatMap Piece.written) with
      | ok x => rw [hm] at h'; cases h'
      | error x =>
        rw [hm] at h'
        exact he ((Except.error.inj h') ▸ key x hm)
  · rw [hf.2.2.2.2]
    constructor
    · intro h ps hps
      obtain ⟨r, hr⟩ := h _ (List.mem_map.2 ⟨ps, hps, rfl⟩)
      rw [C76_format ps (hls ps hps)] at hr
      rw [← hval]
      cases hv : ps.mapM (Piece.value d) with
      | none => rw [hv] at hr; cases hr
      | some x => exact ⟨x, rfl⟩
    · intro h s hs
      obtain ⟨ps, hps, rfl⟩ := List.mem_map.1 hs
      obtain ⟨x, hx⟩ := (hval ps).2 (h ps hps)
      exact ⟨_, by rw [C76_format ps (hls ps hps), hx]⟩

/-- `formattable` is no test of being well formed: for the template `a_{}` it raises `IndexError`, for `a}` and `{a` it
raises `ValueError`, whatever the dictionary. -/
theorem C76_raises (special : Special) (d : Dict (List Char) (List Char)) :
    Template.formattable special ⟨some [['a', '_', '{', '}']], none, none⟩ d = .error .indexError ∧
    Template.formattable special ⟨some [['a', '}']], none, none⟩ d = .error .valueError ∧
    Template.formattable special ⟨some [['{', 'a']], none, none⟩ d = .error .valueError := by
  refine ⟨?_, ?_, ?_⟩ <;>
    simp [Template.formattable, Template.tryFormat, formatAll, format, field, isSpecial, bind, Except.bind]

/-- A template without any names cannot be checked: `TypeError` is raised. -/
theorem C76_no_templates (special : Special) (d : Dict (List Char) (List Char)) :
    Template.mk' none none none = .ok ⟨none, none, none⟩ ∧
    Template.formattable special ⟨none, none, none⟩ d = .error .typeError := ⟨rfl, rfl⟩

/-- The constructor accepts conditioning and conditional templates only together. -/
theorem C76_constructor (a : Option (List (List Char))) (b : List (List Char)) :
    Template.mk' a (some b) none = .error .valueError ∧ Template.mk' a none (some b) = .error .valueError := ⟨rfl, rfl⟩

/-- The hypotheses can be met: the template `a_{i}`. -/
example : ∃ t, Template.mk' (some ([[Piece.lit 'a', .lit '_', .field ['i']]].map fun ps => ps.flatMap Piece.written))
    none none = .ok t ∧ t.formattable special [(['i'], ['0'])] = .ok true ∧ t.formattable special [(['j'], ['0'])] = .ok false := by
  refine ⟨_, rfl, ?_, ?_⟩
  · rw [(C76_plain (by simp [Piece.Plain]; decide) rfl).2]
    simp [Dict.keys]
  · rcases (C76_plain (special := special) (d := [(['j'], ['0'])])
      (ls := [[Piece.lit 'a', .lit '_', .field ['i']]]) (by simp [Piece.Plain]; decide) rfl).1 with h | h
    · rw [(C76_plain (by simp [Piece.Plain]; decide) rfl).2] at h
      simp [Dict.keys] at h
    · exact h

end Verif.Fmt
