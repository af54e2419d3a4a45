import Mathlib.Data.List.Basic
import Mathlib.Data.List.Nodup
import Mathlib.Data.List.Dedup
import Mathlib.Data.List.Perm.Basic
import Mathlib.Data.List.Sort

/-!
# Python prelude

The few Python built-ins the modelled code relies on: exceptions as values, insertion ordered
dictionaries, `list.index`, `itertools.product`, and the unspecified iteration order of sets.
-/

namespace Verif

/-- Variable names. Python `str`; compared and sorted by code point, as Lean's `String`. -/
abbrev Var := String

/-- The Python exception classes that the modelled code can raise. -/
inductive PyErr
  | valueError
  | typeError
  | keyError
  | indexError
  | assertionError
  | notImplementedError
  | attributeError
  | unboundLocalError
  | linAlgError
  /-- `veroku.factors.categorical.InconsistentAssignmentNamesError` (categorical.py 25-28). -/
  | inconsistentNames
  /-- `raise Warning(...)` -/
  | warning
  /-- `raise Exception(...)` -/
  | exception
  /-- Not a Python exception: the program goes on computing with NaN. The real valued parts of the
  model (Gaussians) stop here instead, and nothing is claimed about such runs. -/
  | nan
  deriving DecidableEq, Repr

/-- A Python computation that returns a value or raises. -/
abbrev Py (α : Type*) := Except PyErr α

/-- Python's `assert` statement. -/
def pyAssert (b : Bool) : Py Unit := if b then .ok () else .error .assertionError

/-- `raise e` unless `b`. -/
def pyGuard (e : PyErr) (b : Bool) : Py Unit := if b then .ok () else .error e

/-! ### Dictionaries -/

/-- A Python `dict`: key/value pairs in insertion order. Keys are unique in every reachable value
(`Dict.set` keeps them so). -/
abbrev Dict (κ ν : Type*) := List (κ × ν)

namespace Dict
variable {κ ν : Type*} [DecidableEq κ]

/-- `d.get(k)` with `None` for a missing key. -/
def get? : Dict κ ν → κ → Option ν
  | [], _ => none
  | (k', v) :: d, k => if k' = k then some v else get? d k

/-- `d.keys()`. -/
def keys (d : Dict κ ν) : List κ := d.map Prod.fst

/-- `d.values()`. -/
def values (d : Dict κ ν) : List ν := d.map Prod.snd

/-- `d[k] = v`: replaces in place, or appends a new key at the end. -/
def set : Dict κ ν → κ → ν → Dict κ ν
  | [], k, v => [(k, v)]
  | (k', v') :: d, k, v => if k' = k then (k', v) :: d else (k', v') :: set d k v

/-- `d[k]`. -/
def getItem (d : Dict κ ν) (k : κ) : Py ν :=
  match get? d k with
  | some v => .ok v
  | none => .error .keyError

/-- `del d[k]`. -/
def del (d : Dict κ ν) (k : κ) : Py (Dict κ ν) :=
  if k ∈ keys d then .ok (d.filter (fun e => e.1 ≠ k)) else .error .keyError

/-- `{**a, **b}`. -/
def merge (a b : Dict κ ν) : Dict κ ν := b.foldl (fun d e => set d e.1 e.2) a

/-- `dict(pairs)`: later pairs overwrite earlier ones. -/
def ofPairs (l : List (κ × ν)) : Dict κ ν := l.foldl (fun d e => set d e.1 e.2) []

theorem get?_eq_none_iff {d : Dict κ ν} {k : κ} : get? d k = none ↔ k ∉ keys d := by
  induction d with
  | nil => simp [get?, keys]
  | cons e d ih =>
    obtain ⟨k', v⟩ := e
    by_cases h : k' = k
    · simp [get?, keys, h]
    · have h' : k ≠ k' := fun e => h e.symm
      simp only [get?, h, if_false, ih, keys, List.map_cons, List.mem_cons, h', false_or]

theorem get?_isSome_iff {d : Dict κ ν} {k : κ} : (∃ v, get? d k = some v) ↔ k ∈ keys d := by
  have := (get?_eq_none_iff (d := d) (k := k)).not
  rw [not_not] at this
  rw [← this]
  cases get? d k <;> simp

theorem mem_of_get? {d : Dict κ ν} {k : κ} {v : ν} (h : get? d k = some v) : (k, v) ∈ d := by
  induction d with
  | nil => simp [get?] at h
  | cons e d ih =>
    obtain ⟨k', v'⟩ := e
    by_cases hk : k' = k
    · simp [get?, hk] at h; simp [hk, h]
    · simp only [get?, hk, if_false] at h
      exact List.mem_cons_of_mem _ (ih h)

theorem get?_of_mem {d : Dict κ ν} (hd : (keys d).Nodup) {k : κ} {v : ν} (h : (k, v) ∈ d) :
    get? d k = some v := by
  induction d with
  | nil => simp at h
  | cons e d ih =>
    obtain ⟨k', v'⟩ := e
    simp only [keys, List.map_cons, List.nodup_cons] at hd
    rcases List.mem_cons.1 h with h | h
    · simp only [Prod.mk.injEq] at h; simp [get?, h.1, h.2]
    · have : k' ≠ k := by
        rintro rfl
        exact hd.1 (List.mem_map.2 ⟨_, h, rfl⟩)
      simp only [get?, this, if_false]
      exact ih hd.2 h

theorem get?_iff_mem {d : Dict κ ν} (hd : (keys d).Nodup) {k : κ} {v : ν} :
    get? d k = some v ↔ (k, v) ∈ d := ⟨mem_of_get?, get?_of_mem hd⟩

theorem get?_set (d : Dict κ ν) (k k' : κ) (v : ν) :
    get? (set d k v) k' = if k = k' then some v else get? d k' := by
  induction d with
  | nil => simp [set, get?]
  | cons e d ih =>
    obtain ⟨k₀, v₀⟩ := e
    by_cases h : k₀ = k
    · by_cases h' : k = k'
      · simp [set, get?, h, h']
      · subst h; simp [set, get?, h']
    · by_cases h' : k₀ = k'
      · subst h'
        have : k ≠ k₀ := fun e => h e.symm
        simp [set, get?, h, this]
      · simp [set, get?, h, h', ih]

theorem keys_set (d : Dict κ ν) (k : κ) (v : ν) :
    keys (set d k v) = if k ∈ keys d then keys d else keys d ++ [k] := by
  induction d with
  | nil => simp [set, keys]
  | cons e d ih =>
    obtain ⟨k₀, v₀⟩ := e
    by_cases h : k₀ = k
    · simp [set, keys, h]
    · have h' : k ≠ k₀ := fun e => h e.symm
      simp only [keys] at ih
      simp only [set, h, if_false, keys, List.map_cons, List.mem_cons, h', false_or, ih]
      split <;> simp_all

theorem mem_keys_set {d : Dict κ ν} {k k' : κ} {v : ν} :
    k' ∈ keys (set d k v) ↔ k' = k ∨ k' ∈ keys d := by
  rw [keys_set]; split
  · constructor
    · exact Or.inr
    · rintro (rfl | h) <;> assumption
  · simp [or_comm]

theorem nodup_keys_set {d : Dict κ ν} (hd : (keys d).Nodup) (k : κ) (v : ν) :
    (keys (set d k v)).Nodup := by
  rw [keys_set]; split
  · exact hd
  · rename_i h
    exact List.nodup_append.2 ⟨hd, by simp, by
      intro a ha b hb
      simp only [List.mem_singleton] at hb
      rintro rfl
      exact h (hb ▸ ha)⟩

theorem set_of_not_mem {d : Dict κ ν} {k : κ} (h : k ∉ keys d) (v : ν) :
    set d k v = d ++ [(k, v)] := by
  induction d with
  | nil => simp [set]
  | cons e d ih =>
    obtain ⟨k₀, v₀⟩ := e
    simp only [keys, List.map_cons, List.mem_cons, not_or] at h
    have : k₀ ≠ k := fun e => h.1 e.symm
    simp only [set, this, if_false, List.cons_append]
    rw [ih h.2]

theorem nodup_keys_foldl_set {l : List (κ × ν)} {d : Dict κ ν} (hd : (keys d).Nodup) :
    (keys (l.foldl (fun d e => set d e.1 e.2) d)).Nodup := by
  induction l generalizing d with
  | nil => exact hd
  | cons e l ih => exact ih (nodup_keys_set hd _ _)

theorem get?_append (d e : Dict κ ν) (k : κ) :
    get? (d ++ e) k = (get? d k).or (get? e k) := by
  induction d with
  | nil => simp [get?]
  | cons x d ih =>
    obtain ⟨k₀, v₀⟩ := x
    by_cases h : k₀ = k <;> simp [get?, h, ih]

/-- Values of `{**a, **b}`. -/
theorem get?_merge (a b : Dict κ ν) (hb : (keys b).Nodup) (k : κ) :
    get? (merge a b) k = (get? b k).or (get? a k) := by
  unfold merge
  induction b generalizing a with
  | nil => simp [get?]
  | cons e b ih =>
    obtain ⟨k₀, v₀⟩ := e
    simp only [keys, List.map_cons, List.nodup_cons] at hb
    rw [List.foldl_cons, ih _ hb.2, get?_set]
    by_cases h : k₀ = k
    · subst h
      have : get? b k₀ = none := get?_eq_none_iff.2 hb.1
      simp [get?, this]
    · simp [get?, h]

theorem get?_zip_map {α : Type*} [DecidableEq α] (l : List α) (f : α → ν) (a : α) (h : a ∈ l) :
    get? (l.zip (l.map f)) a = some (f a) := by
  induction l with
  | nil => simp at h
  | cons b l ih =>
    by_cases hb : b = a
    · simp [get?, hb]
    · have : a ∈ l := by simpa [Ne.symm hb] using h
      simp [get?, hb, ih this]

theorem get?_map_inj {κ' : Type*} [DecidableEq κ'] (g : κ → κ') (d : Dict κ ν) (k : κ)
    (hg : ∀ k' ∈ keys d, g k' = g k → k' = k) :
    get? (d.map fun e => (g e.1, e.2)) (g k) = get? d k := by
  induction d with
  | nil => simp [get?]
  | cons e d ih =>
    obtain ⟨k₀, v₀⟩ := e
    by_cases h : k₀ = k
    · simp [get?, h]
    · have : g k₀ ≠ g k := fun e => h (hg k₀ (by simp [keys]) e)
      simp only [List.map_cons, get?, this, h, if_false]
      exact ih fun k' hk' => hg k' (by simp only [keys, List.map_cons, List.mem_cons]; exact Or.inr hk')

theorem get?_map_val {ν' : Type*} (g : ν → ν') (d : Dict κ ν) (k : κ) :
    get? (d.map fun e => (e.1, g e.2)) k = (get? d k).map g := by
  induction d with
  | nil => simp [get?]
  | cons e d ih =>
    obtain ⟨k₀, v₀⟩ := e
    by_cases h : k₀ = k <;> simp [get?, h, ih]

theorem foldl_set_eq_append {l : List (κ × ν)} {d : Dict κ ν}
    (h : (keys d ++ l.map Prod.fst).Nodup) :
    l.foldl (fun d e => set d e.1 e.2) d = d ++ l := by
  induction l generalizing d with
  | nil => simp
  | cons e l ih =>
    have he : e.1 ∉ keys d := by
      intro hm
      have := List.nodup_append.1 h
      exact this.2.2 _ hm _ (by simp) rfl
    rw [List.foldl_cons, set_of_not_mem he, ih]
    · simp
    · simpa [keys] using h

/-- Building a dict from pairs with distinct keys just lists the pairs. -/
theorem ofPairs_eq {l : List (κ × ν)} (h : (l.map Prod.fst).Nodup) : ofPairs l = l := by
  unfold ofPairs
  rw [foldl_set_eq_append]
  · simp
  · simpa [keys] using h

end Dict

/-! ### Lists -/

/-- `l.index(v)`. -/
def pyIndex {α : Type*} [DecidableEq α] (l : List α) (v : α) : Py Nat :=
  if v ∈ l then .ok (l.idxOf v) else .error .valueError

/-- `l[i]` for a non-negative `i`. -/
def pyGet {α : Type*} (l : List α) (i : Nat) : Py α :=
  match l[i]? with
  | some a => .ok a
  | none => .error .indexError

/-- `itertools.product(*[range(c) for c in cards])` as a list of tuples, last position fastest. -/
def productRange : List Nat → List (List Nat)
  | [] => [[]]
  | c :: cs => (List.range c).flatMap fun i => (productRange cs).map fun t => i :: t

/-- `itertools.product(a, b)`. -/
def product2 {α β : Type*} (a : List α) (b : List β) : List (α × β) :=
  a.flatMap fun x => b.map fun y => (x, y)

/-- `sorted(l)` for strings. -/
def pySorted (l : List Var) : List Var := l.mergeSort (fun a b => decide (a ≤ b))

theorem pySorted_perm (l : List Var) : (pySorted l).Perm l := List.mergeSort_perm _ _

@[simp] theorem mem_pySorted {l : List Var} {v : Var} : v ∈ pySorted l ↔ v ∈ l :=
  (pySorted_perm l).mem_iff

theorem nodup_pySorted {l : List Var} : (pySorted l).Nodup ↔ l.Nodup := (pySorted_perm l).nodup_iff

/-- The iteration order of a Python `set` built from the elements of a list. It depends on the hash
seed and the insertion history, so it is a parameter; all that is assumed is that every element
appears exactly once. -/
structure SetOrder (κ : Type*) [DecidableEq κ] where
  toList : List κ → List κ
  perm : ∀ l, (toList l).Perm l.dedup

namespace SetOrder
variable {κ : Type*} [DecidableEq κ] (o : SetOrder κ)

@[simp] theorem mem {l : List κ} {v : κ} : v ∈ o.toList l ↔ v ∈ l := by
  rw [(o.perm l).mem_iff, List.mem_dedup]

theorem nodup (l : List κ) : (o.toList l).Nodup := (o.perm l).nodup_iff.2 (List.nodup_dedup l)

/-- One possible order (used in examples): first occurrence order of `List.dedup`. -/
def dedupOrder (κ : Type*) [DecidableEq κ] : SetOrder κ := ⟨List.dedup, fun _ => List.Perm.refl _⟩

end SetOrder

/-- Everything that is decided by the hash seed of the Python process: the iteration order of sets
of strings and of sets of tuples. -/
structure HashSeed where
  strs : SetOrder Var
  tups : SetOrder (List Nat)

/-- A concrete hash seed for examples. -/
def HashSeed.example : HashSeed := ⟨SetOrder.dedupOrder _, SetOrder.dedupOrder _⟩

theorem mem_productRange {cs t : List Nat} :
    t ∈ productRange cs ↔ List.Forall₂ (fun i c => i < c) t cs := by
  induction cs generalizing t with
  | nil => cases t <;> simp [productRange]
  | cons c cs ih =>
    cases t with
    | nil => simp [productRange]
    | cons i t => simp [productRange, ih]

theorem nodup_productRange (cs : List Nat) : (productRange cs).Nodup := by
  induction cs with
  | nil => simp [productRange]
  | cons c cs ih =>
    refine List.nodup_flatMap.2 ⟨fun i _ => ih.map (fun a b h => by simpa using h), ?_⟩
    refine (List.nodup_range (n := c)).imp ?_
    intro i j hij t ht ht'
    simp only [List.mem_map] at ht ht'
    obtain ⟨a, _, rfl⟩ := ht
    obtain ⟨b, _, hb⟩ := ht'
    simp only [List.cons.injEq] at hb
    exact hij hb.1.symm

end Verif
