import Verif.Num

/-!
# Model of `veroku/factors/sparse_categorical.py`

Function by function, polymorphic in the exact finite numbers `K` where no `exp`/`log` occurs.
`isinstance` checks are discharged by typing. `_to_df`, `show` and `__repr__` are not modelled.
-/

namespace Verif

/-- `SparseCategorical` object state (sparse_categorical.py 418-428): `_var_names`, `cardinalities`,
`log_probs_table`, `default_log_prob`. Assignments are tuples of non-negative ints (negative or
non-integer assignment values, which the class does not reject, are not modelled). -/
structure Sparse (K : Type) where
  vars : List Var
  cards : List Nat
  table : Dict (List Nat) (XF K)
  dflt : XF K
  deriving DecidableEq

/-- The nested table dictionaries of sparse_categorical.py: outer assignment to (inner assignment to
value). -/
abbrev Nested (K : Type) := Dict (List Nat) (Dict (List Nat) (XF K))

/-- The `default_rules` argument of `_any_scope_binary_operation` (305-361). -/
inductive Rule
  | any
  | both
  | none

namespace Sparse
variable {K : Type}

/-- `SparseCategorical.__init__` with `log_probs_table` (sparse_categorical.py 386-428) including
`Factor.__init__` (_factor.py 18-29). No check relates the table to the cardinalities, as in the code. -/
def new (vars : List Var) (cards : List Nat) (table : Dict (List Nat) (XF K)) (dflt : XF K := .ninf) :
    Py (Sparse K) :=
  if ¬ vars.Nodup then .error .valueError
  else if cards.length ≠ vars.length then .error .valueError
  else .ok ⟨vars, cards, table, dflt⟩

/-- `SparseCategorical.__init__` with `probs_table` (423-425): logs are taken entry by entry. -/
noncomputable def newProbs (vars : List Var) (cards : List Nat) (table : Dict (List Nat) (XF ℝ))
    (dflt : XF ℝ := .ninf) : Py (Sparse ℝ) :=
  new vars cards (table.map fun e => (e.1, XF.log e.2)) dflt

/-- `self.var_cards = dict(zip(var_names, cardinalities))` (426). -/
def varCards (f : Sparse K) : Dict Var Nat := f.vars.zip f.cards

/-- `copy` (493-505): factors are values here. -/
def copy (f : Sparse K) : Py (Sparse K) := new f.vars f.cards f.table f.dflt

/-- Lines 119-122 of `_get_nested_sorted_probs`: scatter one assignment into the new order.
A slot left `None` (only possible when the new order mentions foreign or repeated variables, where
every caller raises afterwards) is represented by 0. -/
def scatterRow (assign : List Nat) (idx : List Nat) : Py (List Nat) := do
  let row ← idx.zipIdx.foldlM (fun (row : List (Option Nat)) (p : Nat × Nat) => do
      let a ← pyGet assign p.2
      if p.1 < row.length then .ok (row.set p.1 (some a)) else .error .indexError)
    (List.replicate assign.length none)
  .ok (row.map (·.getD 0))

/-- `nd.setdefault(o, {})[i] = v` (123-127). -/
def set2 (nd : Nested K) (o i : List Nat) (v : XF K) : Nested K :=
  Dict.set nd o (Dict.set ((Dict.get? nd o).getD []) i v)

/-- `_get_nested_sorted_probs` (sparse_categorical.py 91-130). The second component of the Python
result (the concatenated order) is ignored by every caller. -/
def nestedSorted (outer inner old : List Var) (table : Dict (List Nat) (XF K)) : Py (Nested K) := do
  let idx ← old.mapM (pyIndex (outer ++ inner))
  table.foldlM (fun nd e => do
    let row ← scatterRow e.1 idx
    .ok (set2 nd (row.take outer.length) (row.drop outer.length) e.2)) []

/-- `_same_scope_binary_operation` (sparse_categorical.py 133-151). -/
def sameScope [DecidableEq K] (hs : HashSeed) (a b : Dict (List Nat) (XF K)) (op : XF K → XF K → XF K)
    (d : XF K) : Dict (List Nat) (XF K) :=
  (hs.tups.toList (Dict.keys a ++ Dict.keys b)).foldl (fun res k =>
    let r := op ((Dict.get? a k).getD d) ((Dict.get? b k).getD d)
    if XF.ne r (op d d) then Dict.set res k r else res) []

/-- `_flatten_ntd` (sparse_categorical.py 154-162). -/
def flatten (ntd : Nested K) : Dict (List Nat) (XF K) :=
  ntd.foldl (fun acc o => o.2.foldl (fun acc i => Dict.set acc (o.1 ++ i.1) i.2) acc) []

/-- `_apply_any_scope_binary_opp` (sparse_categorical.py 165-203). -/
def applyAnyScope [DecidableEq K] (hs : HashSeed) (a b : Nested K) (da db : Dict (List Nat) (XF K))
    (combos : List (List Nat × List Nat)) (op : XF K → XF K → XF K) (d : XF K) : Nested K :=
  combos.foldl (fun res c =>
    let sub := sameScope hs ((Dict.get? a c.1).getD da) ((Dict.get? b c.2).getD db) op d
    if sub.isEmpty then res else Dict.set res (c.1 ++ c.2) sub) []

/-- `_make_dense_default_probs_dict` (sparse_categorical.py 41-66). -/
def denseDefault (cards : List Nat) (d : XF K) : Dict (List Nat) (XF K) :=
  (productRange cards).map fun t => (t, d)

/-- Lines 85-87 of `_make_inner_dense` for one outer assignment. -/
def fillInner (cards : List Nat) (d : XF K) (sub : Dict (List Nat) (XF K)) : Dict (List Nat) (XF K) :=
  (productRange cards).foldl (fun s t => if t ∈ Dict.keys s then s else Dict.set s t d) sub

/-- `_make_inner_dense` (sparse_categorical.py 69-88). The product iterator is created once outside
the loop, so it is exhausted after the first outer key: only the first sub table becomes dense. -/
def makeInnerDense (nd : Nested K) (innerCards : List Nat) (d : XF K) : Nested K :=
  match nd with
  | [] => []
  | e :: rest => (e.1, fillInner innerCards d e.2) :: rest

/-- `_any_scope_bin_opp_none` (sparse_categorical.py 206-240). -/
def anyScopeNone [DecidableEq K] (hs : HashSeed) (a b : Nested K) (oa ia ob ib : List Nat)
    (op : XF K → XF K → XF K) (d : XF K) : Nested K :=
  applyAnyScope hs (makeInnerDense a ia d) (makeInnerDense b ib d) (denseDefault ia d)
    (denseDefault ib d) (product2 (productRange oa) (productRange ob)) op d

/-- `_any_scope_bin_opp_both` (sparse_categorical.py 243-302); not reached from the public API. -/
def anyScopeBoth [DecidableEq K] (hs : HashSeed) (a b : Nested K) (ia ib : List Nat)
    (op : XF K → XF K → XF K) (d : XF K) : Nested K :=
  let u := hs.tups.toList (Dict.keys a ++ Dict.keys b)
  applyAnyScope hs a b (denseDefault ia d) (denseDefault ib d) (product2 u u) op d

/-- `_any_scope_binary_operation` (sparse_categorical.py 305-361). For rule `any` the default sub
tables are `None` but never used, because only existing keys are combined; they are `[]` here. -/
def anyScope [DecidableEq K] (hs : HashSeed) (a b : Nested K) (oa ia ob ib : List Nat)
    (op : XF K → XF K → XF K) (d : XF K) : Rule → Nested K
  | .none => anyScopeNone hs a b oa ia ob ib op d
  | .both => anyScopeBoth hs a b ia ib op d
  | .any => applyAnyScope hs a b [] [] (product2 (Dict.keys a) (Dict.keys b)) op d

/-- `_assert_consistent_cardinalities` (sparse_categorical.py 570-579). -/
def consistentCards (f g : Sparse K) : Bool :=
  f.vars.all fun v => match Dict.get? g.varCards v with
    | some c => decide (Dict.get? f.varCards v = some c)
    | none => true

/-- `_apply_binary_operator` (sparse_categorical.py 645-724). -/
def applyBinary [DecidableEq K] (hs : HashSeed) (f g : Sparse K) (op : XF K → XF K → XF K)
    (rule : Rule) : Py (Sparse K) := do
  pyAssert (consistentCards f g)
  let inter := pySorted (hs.strs.toList (f.vars.filter (· ∈ g.vars)))
  let remA := hs.strs.toList (f.vars.filter (· ∉ inter))
  let ntdA ← nestedSorted remA inter f.vars f.table
  let remB := hs.strs.toList (g.vars.filter (· ∉ inter))
  let ntdB ← nestedSorted remB inter g.vars g.table
  pyGuard .notImplementedError (! XF.ne f.dflt g.dflt)
  let oa ← remA.mapM (Dict.getItem f.varCards)
  let ia ← inter.mapM (Dict.getItem f.varCards)
  let ob ← remB.mapM (Dict.getItem g.varCards)
  let ib ← inter.mapM (Dict.getItem g.varCards)
  let res := anyScope hs ntdA ntdB oa ia ob ib op f.dflt rule
  let vars := remA ++ remB ++ inter
  let cards ← vars.mapM (Dict.getItem (Dict.merge f.varCards g.varCards))
  new vars cards (flatten res) (op f.dflt f.dflt)

/-- `multiply` (sparse_categorical.py 581-592). -/
def multiply [DecidableEq K] [Add K] (hs : HashSeed) (f g : Sparse K) : Py (Sparse K) :=
  applyBinary hs f g XF.add .any

/-- `special_divide` inside `cancel` (sparse_categorical.py 604-607). -/
def specialDivide [DecidableEq K] [Sub K] (a b : XF K) : XF K :=
  if XF.eq a .ninf && XF.eq b .ninf then .ninf else XF.sub a b

/-- `cancel` (sparse_categorical.py 594-609). -/
def cancel [DecidableEq K] [Sub K] (hs : HashSeed) (f g : Sparse K) : Py (Sparse K) :=
  applyBinary hs f g specialDivide .any

/-- `divide` (sparse_categorical.py 611-620). -/
def divide [DecidableEq K] [Sub K] (hs : HashSeed) (f g : Sparse K) : Py (Sparse K) :=
  applyBinary hs f g XF.sub .none

/-- `Factor.get_marginal_vars` (_factor.py 49-62); a bare string argument is a one element list. -/
def marginalVars (hs : HashSeed) (scope vrs : List Var) (keep : Bool) : List Var :=
  if keep then vrs else hs.strs.toList (scope.filter (· ∉ vrs))

/-- `marginalize` (sparse_categorical.py 507-540). -/
noncomputable def marginalize (hs : HashSeed) (f : Sparse ℝ) (vrs : List Var) (keep : Bool := true) :
    Py (Sparse ℝ) := do
  let keepVars := marginalVars hs f.vars vrs keep
  let sumOut := f.vars.filter (· ∉ keepVars)
  let nd ← nestedSorted keepVars sumOut f.vars f.table
  let table ← nd.foldlM (fun res e => do
    let p ← XF.logsumexp (Dict.values e.2)
    .ok (Dict.set res e.1 p)) []
  let _ ← sumOut.foldlM (fun d v => Dict.del d v) f.varCards
  let cards ← keepVars.mapM (Dict.getItem f.varCards)
  new keepVars cards table

/-- `reduce` (sparse_categorical.py 542-568). -/
def reduce (f : Sparse K) (vrs : List Var) (values : List Nat) : Py (Sparse K) := do
  let unobs := f.vars.filter (· ∉ vrs)
  let nd ← nestedSorted vrs unobs f.vars f.table
  let lp ← Dict.getItem nd values
  let vc ← vrs.foldlM (fun d v => Dict.del d v) f.varCards
  new unobs (Dict.values vc) lp

/-- `argmax` (sparse_categorical.py 622-629): Python's `max` keeps the first maximal item; an empty
table raises `ValueError`. -/
def argmax [LT K] [DecidableLT K] (f : Sparse K) : Py (List Nat) :=
  match f.table with
  | [] => .error .valueError
  | e :: rest => .ok (rest.foldl (fun best e => if XF.lt best.2 e.2 then e else best) e).1

/-- `normalize` (sparse_categorical.py 726-738). -/
noncomputable def normalize (f : Sparse ℝ) : Py (Sparse ℝ) := do
  let c ← f.copy
  let logz ← XF.logsumexp (Dict.values c.table)
  .ok { c with table := c.table.map fun e => (e.1, XF.sub e.2 logz) }

/-- `_is_dense` (sparse_categorical.py 740-751). -/
def isDense (f : Sparse K) : Bool := f.table.length == f.cards.prod

/-- `kld_from_log_elements` inside `_raw_kld` (sparse_categorical.py 764-771). -/
noncomputable def kldElement (p q : XF ℝ) : XF ℝ :=
  if XF.eq p .ninf then .fin 0 else XF.mul (XF.exp p) (XF.sub p q)

/-- `_raw_kld` (sparse_categorical.py 753-779). -/
noncomputable def rawKld (hs : HashSeed) (p q : Sparse ℝ) : Py (XF ℝ) := do
  let k ← applyBinary hs p q kldElement .none
  .ok (XF.sum (Dict.values k.table))

/-- `kl_divergence` (sparse_categorical.py 781-808). -/
noncomputable def klDivergence (hs : HashSeed) (f g : Sparse ℝ) (normalizeFactor : Bool := true) :
    Py (XF ℝ) := do
  let p ← f.normalize
  let q ← if normalizeFactor then g.normalize else .ok g
  let kld ← rawKld hs p q
  if XF.lt kld (.fin 0) then
    if XF.isclose (1/100000) (1/10000) kld (.fin 0) then .ok (.fin 0) else .error .valueError
  else .ok kld

/-- `distance_from_vacuous` (sparse_categorical.py 810-823). -/
noncomputable def distanceFromVacuous (hs : HashSeed) (f : Sparse ℝ) : Py (XF ℝ) := do
  let u ← f.copy
  let lp := XF.neg (XF.log (.fin ((Dict.values u.varCards).prod : ℕ)))
  klDivergence hs f { u with table := u.table.map fun e => (e.1, lp) } false

/-- `potential` up to the final `np.exp` (sparse_categorical.py 825-835): the returned log value. The
`set(vrs) == set(var_names)` test is an `assert`. -/
def logPotential (f : Sparse K) (vrs : List Var) (assignment : List Nat) : Py (XF K) := do
  pyAssert (decide (∀ v ∈ vrs, v ∈ f.vars) && decide (∀ v ∈ f.vars, v ∈ vrs))
  let idx ← vrs.mapM (pyIndex f.vars)
  let key ← idx.mapM (pyGet assignment)
  Dict.getItem f.table key

/-- `potential` (sparse_categorical.py 825-835). -/
noncomputable def potential (f : Sparse ℝ) (vrs : List Var) (assignment : List Nat) : Py (XF ℝ) := do
  let l ← logPotential f vrs assignment
  .ok (XF.exp l)

/-- `weight` (sparse_categorical.py 846-853). -/
noncomputable def weight (f : Sparse ℝ) : Py (XF ℝ) := do
  let l ← XF.logsumexp (Dict.values f.table)
  .ok (XF.exp l)

/-- `reorder` (sparse_categorical.py 894-924): the default value of the result is the constructor's
`-inf`. -/
def reorder (f : Sparse K) (newVars : List Var) : Py (Sparse K) := do
  let idx ← newVars.mapM (pyIndex f.vars)
  let table ← f.table.foldlM (fun t e => do
    let k ← idx.mapM (pyGet e.1)
    .ok (Dict.set t k e.2)) []
  let cards ← idx.mapM (pyGet f.cards)
  new newVars cards table

/-- `_all_non_default_equal` (sparse_categorical.py 431-453). -/
noncomputable def allNonDefaultEqual (rtol atol : ℝ) (f g : Sparse ℝ) : Bool :=
  f.table.all fun e => match Dict.get? g.table e.1 with
    | .none => ! XF.ne e.2 g.dflt
    | some w => XF.isclose rtol atol w e.2

/-- `equals` (sparse_categorical.py 455-491). -/
noncomputable def equals (rtol atol : ℝ) (f g : Sparse ℝ) : Py Bool := do
  if ¬ ((∀ v ∈ f.vars, v ∈ g.vars) ∧ (∀ v ∈ g.vars, v ∈ f.vars)) then .ok false
  else do
    let g' ← if f.vars ≠ g.vars then g.reorder f.vars else .ok g
    if ! allNonDefaultEqual rtol atol f g' then .ok false
    else if ! allNonDefaultEqual rtol atol g' f then .ok false
    else if (! isDense f && ! isDense g) && XF.ne f.dflt g.dflt then .ok false
    else .ok true

/-- `_make_dense` (sparse_categorical.py 24-38). -/
def makeDense (f : Sparse K) : Py (Sparse K) := do
  let c ← f.copy
  let cards ← c.vars.mapM (Dict.getItem c.varCards)
  let t := (productRange cards).foldl
    (fun t a => if a ∈ Dict.keys t then t else Dict.set t a c.dflt) c.table
  .ok { c with table := t }

end Sparse
end Verif
