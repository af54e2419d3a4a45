import Verif.Py

/-!
# Model of the name templates (`veroku/factors/_factor_template.py`)

The variable names of the templates are made with Python's `str.format(**format_dict)`. Strings are lists of
characters here. The model of `str.format` covers literal text, the escapes `{{` and `}}`, the malformed strings
and replacement fields that are plain names, empty or numbers. A field with one of the characters `.[!:{`, or
a name without any ASCII character that is not a digit, is passed to a parameter of the model, `special`, about which
nothing is assumed: it returns what the field is replaced by and the number of characters it takes, or raises.
The values of the dictionary are the strings they are formatted to.
-/

namespace Verif.Fmt

/-- The behaviour of the replacement fields that are not modelled. -/
abbrev Special := Dict (List Char) (List Char) → List Char → Py (List Char × ℕ)

/-- Characters with a meaning in a replacement field. -/
def isSpecial (c : Char) : Bool := c == '.' || c == '[' || c == '!' || c == ':' || c == '{'

/-- A plain name: it has no special characters and some ASCII character that is not a digit. -/
def isPlain (s : List Char) : Bool :=
  s.all (fun c => !isSpecial c && c != '}') && s.any fun c => c.toNat < 128 && !c.isDigit

/-- The replacement field at the start of `s` (after its `{`): what it is replaced by and the number of characters it
takes. -/
def field (special : Special) (d : Dict (List Char) (List Char)) (s : List Char) : Py (List Char × ℕ) :=
  let name := s.takeWhile (· != '}')
  if name.any isSpecial then special d s
  else if name.length = s.length then .error .valueError
  else if name.all (fun c => c.isDigit) && name.length ≤ 18 then .error .indexError
  else if isPlain name then
    match Dict.get? d name with
    | some v => .ok (v, name.length + 1)
    | none => .error .keyError
  else special d s

/-- `s.format(**d)`. -/
def format (special : Special) (d : Dict (List Char) (List Char)) : List Char → Py (List Char)
  | [] => .ok []
  | '{' :: [] => .error .valueError
  | '{' :: '{' :: s => do
    let r ← format special d s
    .ok ('{' :: r)
  | '{' :: s => do
    let (out, n) ← field special d s
    let r ← format special d (s.drop n)
    .ok (out ++ r)
  | '}' :: '}' :: s => do
    let r ← format special d s
    .ok ('}' :: r)
  | '}' :: _ => .error .valueError
  | c :: s => do
    let r ← format special d s
    .ok (c :: r)
termination_by s => s.length
decreasing_by all_goals simp_wf; try omega

/-- `format_list_elements` (_factor_utils.py 17-33); also `[vt.format(**format_dict) for vt in templates]`. -/
def formatAll (special : Special) (d : Dict (List Char) (List Char)) (l : List (List Char)) : Py (List (List Char)) :=
  l.mapM (format special d)

/-- A loop over a list that may be `None`. -/
def formatOpt (special : Special) (d : Dict (List Char) (List Char)) : Option (List (List Char)) → Py (List (List Char))
  | none => .error .typeError
  | some l => formatAll special d l

/-- The fields of `FactorTemplate`. -/
structure Template where
  vars : Option (List (List Char))
  conditioning : Option (List (List Char))
  conditional : Option (List (List Char))

/-- `FactorTemplate.__init__` (_factor_template.py 14-35). -/
def Template.mk' (vars conditioning conditional : Option (List (List Char))) : Py Template :=
  match conditioning, conditional with
  | none, none => .ok ⟨vars, none, none⟩
  | some a, some b => .ok ⟨none, some a, some b⟩
  | _, _ => .error .valueError

/-- The body of the `try` statement of `formattable` (_factor_template.py 47-52). -/
def Template.tryFormat (special : Special) (t : Template) (d : Dict (List Char) (List Char)) : Py Bool :=
  match t.vars with
  | some l => do
    let _ ← formatAll special d l
    .ok true
  | none => do
    let _ ← formatOpt special d t.conditioning
    let _ ← formatOpt special d t.conditional
    .ok true

/-- `FactorTemplate.formattable` (_factor_template.py 37-55). -/
def Template.formattable (special : Special) (t : Template) (d : Dict (List Char) (List Char)) : Py Bool :=
  match t.tryFormat special d with
  | .error .keyError => .ok false
  | r => r

/-- The variable names in `SparseCategoricalTemplate.make_factor` (sparse_categorical.py 975-982). The names are
`None` if neither is given. -/
def Template.sparseNames (special : Special) (t : Template) (d : Option (Dict (List Char) (List Char)))
    (names : Option (List (List Char))) : Py (Option (List (List Char))) :=
  if t.vars.isNone && names.isNone then .error .valueError
  else match d with
    | none => .ok names
    | some d => do
      pyAssert names.isNone
      let r ← formatOpt special d t.vars
      .ok (some r)

/-- The variable names in `CategoricalTemplate.make_factor` (categorical.py 657-659) and in
`GaussianTemplate.make_factor` (gaussian.py 1079-1081). -/
def Template.denseNames (special : Special) (t : Template) (d : Option (Dict (List Char) (List Char)))
    (names : Option (List (List Char))) : Py (Option (List (List Char))) :=
  match d with
  | none => .ok names
  | some d => do
    pyAssert names.isNone
    let r ← formatOpt special d t.vars
    .ok (some r)

/-- The names of the conditioning and the conditional variables in `NonLinearGaussianTemplate.make_factor`
(nonlinear_gaussian.py 695-700). The second assertion checks the same argument as the first. -/
def Template.nonLinNames (special : Special) (t : Template) (d : Option (Dict (List Char) (List Char)))
    (conditioning conditional : Option (List (List Char))) :
    Py (Option (List (List Char)) × Option (List (List Char))) :=
  match d with
  | none => .ok (conditioning, conditional)
  | some d => do
    pyAssert conditioning.isNone
    pyAssert conditioning.isNone
    let a ← formatOpt special d t.conditioning
    let b ← formatOpt special d t.conditional
    .ok (some a, some b)

end Verif.Fmt
