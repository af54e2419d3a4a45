import Verif.Py

/-!
# Model of the string functions of `veroku/_cg_helpers/_animation.py`

Strings are lists of characters in the substring functions. The functions that edit graphviz sources with regular
expressions and that render images are not modelled.
-/

namespace Verif.Anim

/-- `make_sepset_node_name` (_animation.py 13-22). -/
def sepsetName (a b : Var) : String := "sepset__" ++ String.intercalate "__" (pySorted [a, b])

/-- Python's `s in t` for strings. -/
def isIn (s t : List Char) : Bool := decide (s <:+: t)

/-- `t.replace(s, "")`: the occurrences of `s`, found from the left and not overlapping, are removed. An empty `s` is
replaced by an empty string everywhere. -/
def remove (s t : List Char) : List Char :=
  match t with
  | [] => []
  | c :: t =>
    if _h : s ≠ [] ∧ s <+: c :: t then remove s ((c :: t).drop s.length)
    else c :: remove s t
termination_by t.length
decreasing_by
  · have := List.length_pos_iff.2 _h.1
    simp only [List.length_drop, List.length_cons]
    omega
  · simp

/-- `sub_and_super_both_in` (_animation.py 46-61). -/
def subAndSuperBothIn (sub super main : List Char) : Bool :=
  if !isIn sub main then false
  else isIn sub (remove super main)

/-- `contains_non_overlapping_substrings` (_animation.py 64-102). -/
def containsNonOverlapping (a b main : List Char) : Bool :=
  if isIn a b then subAndSuperBothIn a b main
  else if isIn b a then subAndSuperBothIn b a main
  else if isIn a main then isIn b (remove a main)
  else false

end Verif.Anim
