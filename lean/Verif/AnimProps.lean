import Verif.AnimModel
import Mathlib.Data.String.Basic
import Mathlib.Tactic.IntervalCases

/-!
# Properties of the string functions of the animations (C77)
-/

namespace Verif.Anim

/-! ### Names of sepset nodes -/

theorem pySorted_congr {l l' : List Var} (h : l.Perm l') : pySorted l = pySorted l' := by
  have hs : ∀ l : List Var, (pySorted l).Pairwise (fun a b => a ≤ b) := fun l => by
    have := List.pairwise_mergeSort (le := fun a b : Var => decide (a ≤ b))
      (fun a b c h1 h2 => by simp at *; exact le_trans h1 h2) (fun a b => by simp; exact le_total a b) l
    simpa [pySorted] using this
  exact List.Perm.eq_of_pairwise (le := fun a b => a ≤ b) (fun a b _ _ h1 h2 => le_antisymm h1 h2) (hs l) (hs l')
    (((pySorted_perm l).trans h).trans (pySorted_perm l').symm)

/-- **C77, name of the sepset.** It is the same for both directions of an edge. -/
theorem C77_sepset_symmetric (a b : Var) : sepsetName a b = sepsetName b a := by
  unfold sepsetName
  rw [pySorted_congr (List.Perm.swap b a [])]


/-- A string ends before the first double underscore that follows it. -/
def NoDouble (s : String) : Prop := ¬ ['_', '_'] <:+: s.toList ++ ['_']

theorem split_double {x x' y y' : List Char} (hx : ¬ ['_', '_'] <:+: x ++ ['_']) (hx' : ¬ ['_', '_'] <:+: x' ++ ['_'])
    (h : x ++ '_' :: '_' :: y = x' ++ '_' :: '_' :: y') : x = x' ∧ y = y' := by
  induction x generalizing x' with
  | nil =>
    cases x' with
    | nil => simpa using h
    | cons c x' =>
      exfalso
      rw [List.nil_append, List.cons_append, List.cons.injEq] at h
      obtain ⟨rfl, h⟩ := h
      cases x' with
      | nil => exact hx' ⟨[], [], rfl⟩
      | cons d x' =>
        rw [List.cons_append, List.cons.injEq] at h
        obtain ⟨rfl, h⟩ := h
        exact hx' ⟨[], x' ++ ['_'], by simp⟩
  | cons c x ih =>
    have hx1 : ¬ ['_', '_'] <:+: x ++ ['_'] := fun h => hx (h.trans (List.suffix_cons c _).isInfix)
    cases x' with
    | nil =>
      exfalso
      rw [List.nil_append, List.cons_append, List.cons.injEq] at h
      obtain ⟨rfl, h⟩ := h
      cases x with
      | nil => exact hx ⟨[], [], rfl⟩
      | cons d x =>
        rw [List.cons_append, List.cons.injEq] at h
        obtain ⟨rfl, h⟩ := h
        exact hx ⟨[], x ++ ['_'], by simp⟩
    | cons d x' =>
      rw [List.cons_append, List.cons_append, List.cons.injEq] at h
      obtain ⟨rfl, h⟩ := h
      have := ih hx1 (fun h => hx' (h.trans (List.suffix_cons _ _).isInfix)) h
      exact ⟨by rw [this.1], this.2⟩

theorem pySorted_pair (a b : Var) : pySorted [a, b] = [a, b] ∨ pySorted [a, b] = [b, a] := by
  have h := pySorted_perm [a, b]
  obtain ⟨x, y, hl⟩ : ∃ x y, pySorted [a, b] = [x, y] := by
    have := h.length_eq
    match pySorted [a, b], this with
    | [x, y], _ => exact ⟨x, y, rfl⟩
  rw [hl] at h ⊢
  have hx : x = a ∨ x = b := by simpa using h.subset (show x ∈ [x, y] by simp)
  rcases hx with rfl | rfl
  · left
    rw [List.perm_singleton.1 ((List.perm_cons _).1 h)]
  · right
    rw [List.perm_singleton.1 ((List.perm_cons _).1 (h.trans (List.Perm.swap x a [])))]

theorem sepsetName_toList (a b : Var) : ∃ x y, (x = a ∧ y = b ∨ x = b ∧ y = a) ∧
    sepsetName a b = "sepset__" ++ (x ++ "__" ++ y) := by
  unfold sepsetName
  rcases pySorted_pair a b with h | h
  · exact ⟨a, b, .inl ⟨rfl, rfl⟩, by rw [h]; rfl⟩
  · exact ⟨b, a, .inr ⟨rfl, rfl⟩, by rw [h]; rfl⟩

/-- **C77, name of the sepset.** For node names without a double underscore and without an underscore at the end,
the name of the sepset tells which two nodes it connects. -/
theorem C77_sepset_injective_partial {a b a' b' : Var} (ha : NoDouble a) (hb : NoDouble b) (ha' : NoDouble a')
    (hb' : NoDouble b') (h : sepsetName a b = sepsetName a' b') : a = a' ∧ b = b' ∨ a = b' ∧ b = a' := by
  obtain ⟨x, y, hxy, h1⟩ := sepsetName_toList a b
  obtain ⟨x', y', hxy', h2⟩ := sepsetName_toList a' b'
  rw [h1, h2] at h
  have h := congrArg String.toList h
  simp only [String.toList_append] at h
  have h := List.append_cancel_left h
  have e : "__".toList = ['_', '_'] := by decide
  rw [e] at h
  have hx : NoDouble x := by rcases hxy with ⟨rfl, -⟩ | ⟨rfl, -⟩ <;> assumption
  have hx' : NoDouble x' := by rcases hxy' with ⟨rfl, -⟩ | ⟨rfl, -⟩ <;> assumption
  obtain ⟨e1, e2⟩ := split_double hx hx' (by simpa using h)
  have e1 := String.toList_inj.1 e1
  have e2 := String.toList_inj.1 e2
  subst e1 e2
  rcases hxy with ⟨rfl, rfl⟩ | ⟨rfl, rfl⟩ <;> rcases hxy' with ⟨rfl, rfl⟩ | ⟨rfl, rfl⟩ <;> simp

/-- For other names it does not: the edge of `a` and `b__c` and the edge of `a__b` and `c` share a name. -/
theorem C77_sepset_clash : sepsetName "a" "b__c" = sepsetName "a__b" "c" := by
  have h1 : pySorted ["a", "b__c"] = ["a", "b__c"] :=
    List.mergeSort_of_pairwise (by simp only [List.pairwise_cons]; decide +kernel)
  have h2 : pySorted ["a__b", "c"] = ["a__b", "c"] :=
    List.mergeSort_of_pairwise (by simp only [List.pairwise_cons]; decide +kernel)
  unfold sepsetName
  rw [h1, h2]
  decide +kernel

example : NoDouble "cluster_0" ∧ NoDouble "cluster_1" := by
  constructor <;> unfold NoDouble <;> decide +kernel

/-! ### Substrings -/

/-- Two strings occur in a string at places that do not overlap. -/
def NonOverlap (a b main : List Char) : Prop :=
  ∃ p q w, main = p ++ a ++ q ++ b ++ w ∨ main = p ++ b ++ q ++ a ++ w

/-- Every occurrence of `r` in `t` is followed by the end of `t` or by a character that is not in `o`. -/
def Guarded (r o t : List Char) : Prop := ∀ p c w, t = p ++ r ++ c :: w → c ∉ o

theorem Guarded.tail {r o t : List Char} {l : List Char} (h : Guarded r o (l ++ t)) : Guarded r o t := by
  intro p c w hw
  exact h (l ++ p) c w (by rw [hw]; simp)

theorem remove_starts {r : List Char} (hr : r ≠ []) (t : List Char) : remove r (r ++ t) = remove r t := by
  cases r with
  | nil => exact absurd rfl hr
  | cons c r =>
    rw [List.cons_append, remove, dif_pos ⟨hr, by rw [← List.cons_append]; exact List.prefix_append _ _⟩, ← List.cons_append]
    simp

theorem remove_other {r : List Char} {c : Char} {t : List Char} (h : ¬ r <+: c :: t) :
    remove r (c :: t) = c :: remove r t := by
  rw [remove, dif_neg fun h' => h h'.2]

theorem remove_nil_left (t : List Char) : remove [] t = t := by
  induction t with
  | nil => rw [remove]
  | cons c t ih => rw [remove, dif_neg (by simp), ih]

/-- After an occurrence of `r` is removed, what comes next is a character that is not in `o`, or nothing. -/
theorem remove_guard {r o : List Char} (hr : r ≠ []) (n : ℕ) : ∀ t, t.length = n → Guarded r o (r ++ t) →
    remove r (r ++ t) = [] ∨ ∃ c w, remove r (r ++ t) = c :: w ∧ c ∉ o := by
  induction n using Nat.strong_induction_on with
  | _ n ih =>
    intro t ht hg
    rw [remove_starts hr]
    cases t with
    | nil => left; rw [remove]
    | cons c t =>
      by_cases h : r <+: c :: t
      · obtain ⟨u, hu⟩ := h
        rw [← hu]
        have hl : u.length < n := by
          have := congrArg List.length hu
          have hr' := List.length_pos_iff.2 hr
          rw [List.length_append] at this
          omega
        rw [← hu] at hg
        exact ih _ hl u rfl hg.tail
      · right
        exact ⟨c, remove r t, remove_other h, hg [] c t (by simp)⟩

/-- A prefix of what is left, of characters of `o`, is a prefix of the string, and the occurrence of `r` comes after it. -/
theorem remove_prefix {r o : List Char} (hr : r ≠ []) (o' : List Char) : ∀ t, (∀ c ∈ o', c ∈ o) → Guarded r o t →
    (¬ r <+: t ∨ o' = []) → o' <+: remove r t → ∃ u, t = o' ++ u ∧ (r <:+: t → r <:+: u) := by
  induction o' with
  | nil => intro t _ _ _ _; exact ⟨t, rfl, id⟩
  | cons c o' ih =>
    intro t ho hg hn hp
    rcases hn with hn | hn
    · cases t with
      | nil => rw [remove] at hp; simp at hp
      | cons d t =>
        rw [remove_other hn, List.cons_prefix_cons] at hp
        obtain ⟨rfl, hp⟩ := hp
        have hi : r <:+: c :: t → r <:+: t := fun h => (List.infix_cons_iff.1 h).resolve_left hn
        have hg' : Guarded r o t := Guarded.tail (l := [c]) hg
        have hn' : ¬ r <+: t ∨ o' = [] := by
          by_contra hc
          rw [not_or, not_not] at hc
          obtain ⟨⟨u, hu⟩, ho'⟩ := hc
          rw [← hu] at hp hg'
          rcases remove_guard hr _ u rfl hg' with h | ⟨x, w, h, hx⟩
          · rw [h] at hp
            exact ho' (List.prefix_nil.1 hp)
          · rw [h] at hp
            cases o' with
            | nil => exact ho' rfl
            | cons y o' =>
              rw [List.cons_prefix_cons] at hp
              exact hx (hp.1 ▸ ho y (by simp))
        obtain ⟨u, hu, hu'⟩ := ih t (fun x hx => ho x (List.mem_cons_of_mem _ hx)) hg' hn' hp
        exact ⟨u, by rw [hu]; rfl, fun h => hu' (hi h)⟩
    · cases hn

/-- What is found after the removal was there before. -/
theorem infix_of_remove {r o : List Char} (hr : r ≠ []) (n : ℕ) : ∀ t, t.length = n → Guarded r o t →
    o <:+: remove r t → o <:+: t := by
  induction n using Nat.strong_induction_on with
  | _ n ih =>
    intro t ht hg ho
    by_cases h : r <+: t
    · obtain ⟨u, rfl⟩ := h
      rw [remove_starts hr] at ho
      have hl : u.length < n := by
        have hr' := List.length_pos_iff.2 hr
        rw [List.length_append] at ht
        omega
      exact (ih _ hl u rfl hg.tail ho).trans (List.suffix_append r u).isInfix
    · cases t with
      | nil => rw [remove] at ho; exact ho
      | cons c t =>
        have ho' := ho
        rw [remove_other h] at ho'
        rcases List.infix_cons_iff.1 ho' with hp | hp
        · rw [← remove_other h] at hp
          obtain ⟨u, hu, -⟩ := remove_prefix hr o _ (fun _ => id) hg (.inl h) hp
          exact ⟨[], u, by rw [hu]; rfl⟩
        · exact (ih t.length (by rw [← ht]; simp) t rfl (Guarded.tail (l := [c]) hg) hp).trans (List.suffix_cons c t).isInfix

theorem nonOverlap_of_remove {r o : List Char} (hr : r ≠ []) (t : List Char) (hg : Guarded r o t)
    (ho : o <:+: remove r t) (hrt : r <:+: t) : NonOverlap r o t := by
  induction t with
  | nil => exact absurd (List.infix_nil.1 hrt) hr
  | cons c t ih =>
    by_cases h : r <+: c :: t
    · obtain ⟨u, hu⟩ := h
      rw [← hu] at hg ho ⊢
      rw [remove_starts hr] at ho
      obtain ⟨p, w, hw⟩ := infix_of_remove hr _ u rfl hg.tail ho
      exact ⟨[], p, w, .inl (by rw [← hw]; simp)⟩
    · have ho' := ho
      rw [remove_other h] at ho'
      rcases List.infix_cons_iff.1 ho' with hp | hp
      · rw [← remove_other h] at hp
        obtain ⟨u, hu, hu'⟩ := remove_prefix hr o _ (fun _ => id) hg (.inl h) hp
        obtain ⟨p, w, hw⟩ := hu' hrt
        exact ⟨[], p, w, .inr (by rw [hu, ← hw]; simp)⟩
      · obtain ⟨p, q, w, h'⟩ := ih (Guarded.tail (l := [c]) hg) hp ((List.infix_cons_iff.1 hrt).resolve_left h)
        refine ⟨c :: p, q, w, h'.imp (fun h' => ?_) fun h' => ?_⟩ <;> rw [h'] <;> simp

theorem NonOverlap.symm {a b t : List Char} (h : NonOverlap a b t) : NonOverlap b a t := by
  obtain ⟨p, q, w, h⟩ := h
  exact ⟨p, q, w, h.symm⟩

theorem nonOverlap_of_remove' {r o t : List Char} (hg : Guarded r o t) (ho : o <:+: remove r t) (hrt : r <:+: t) :
    NonOverlap r o t := by
  by_cases hr : r = []
  · subst hr
    rw [remove_nil_left] at ho
    obtain ⟨p, w, rfl⟩ := ho
    exact ⟨[], p, w, .inl (by simp)⟩
  · exact nonOverlap_of_remove hr t hg ho hrt

/-- **C77 (part that holds).** If the check returns true, then both strings occur at places of the main string that do not
overlap, provided that (1) if one string contains the other, the longer one occurs in the main string, and (2) every
occurrence in the main string of the one that is removed - the longer one if one contains the other, the first one
otherwise - is followed by the end or by a character that the other string does not have (as a closing quote). What is missing: both
conditions are needed (`C77_joined`, `C77_super_missing`). -/
theorem C77_sound_partial {a b main : List Char} (h : containsNonOverlapping a b main = true)
    (h1 : a <:+: b → b <:+: main) (h2 : b <:+: a → a <:+: main)
    (h3 : a <:+: b → Guarded b a main) (h4 : ¬ a <:+: b → Guarded a b main) : NonOverlap a b main := by
  unfold containsNonOverlapping subAndSuperBothIn isIn at h
  split at h
  · rename_i hab
    rw [decide_eq_true_eq] at hab
    split at h
    · simp at h
    · rw [decide_eq_true_eq] at h
      exact (nonOverlap_of_remove' (h3 hab) h (h1 hab)).symm
  · rename_i hab
    rw [decide_eq_true_eq] at hab
    split at h
    · rename_i hba
      rw [decide_eq_true_eq] at hba
      split at h
      · simp at h
      · rw [decide_eq_true_eq] at h
        exact nonOverlap_of_remove' (h4 hab) h (h2 hba)
    · split at h
      · rename_i ham
        rw [decide_eq_true_eq] at ham h
        exact nonOverlap_of_remove' (h4 hab) h ham
      · simp at h

theorem NonOverlap.infix {a b t : List Char} (h : NonOverlap a b t) : a <:+: t ∧ b <:+: t := by
  obtain ⟨p, q, w, rfl | rfl⟩ := h
  · exact ⟨⟨p, q ++ b ++ w, by simp⟩, ⟨p ++ a ++ q, w, by simp⟩⟩
  · exact ⟨⟨p ++ b ++ q, w, by simp⟩, ⟨p, q ++ a ++ w, by simp⟩⟩

/-- **C77 is violated**: the removal can join the parts of the other string. In `1X2` the strings `X` and `12` are reported,
though `12` does not occur. The answer also depends on the order of the arguments. -/
theorem C77_joined : containsNonOverlapping ['X'] ['1', '2'] ['1', 'X', '2'] = true ∧
    ¬ NonOverlap ['X'] ['1', '2'] ['1', 'X', '2'] ∧
    containsNonOverlapping ['1', '2'] ['X'] ['1', 'X', '2'] = false := by
  refine ⟨by simp [containsNonOverlapping, isIn, remove]; decide, fun h => ?_, by
    simp [containsNonOverlapping, isIn, remove]; decide⟩
  exact absurd h.infix.2 (by decide)

/-- **C77 is violated** if one string contains the other: nothing checks that the longer one occurs. -/
theorem C77_super_missing : containsNonOverlapping ['a', 'b'] ['a', 'b', 'c'] ['a', 'b'] = true ∧
    ¬ NonOverlap ['a', 'b'] ['a', 'b', 'c'] ['a', 'b'] := by
  refine ⟨by simp [containsNonOverlapping, subAndSuperBothIn, isIn, remove]; decide, fun h => ?_⟩
  exact absurd h.infix.2 (by decide)

/-- The check is not complete either: in `ababa` the strings `ab` and `ba` occur at places that do not overlap, and the
answer is false. -/
theorem C77_incomplete : containsNonOverlapping ['a', 'b'] ['b', 'a'] ['a', 'b', 'a', 'b', 'a'] = false ∧
    NonOverlap ['a', 'b'] ['b', 'a'] ['a', 'b', 'a', 'b', 'a'] := by
  refine ⟨by simp [containsNonOverlapping, subAndSuperBothIn, isIn, remove]; decide, [], ['a'], [], .inl rfl⟩

/-- The hypotheses of `C77_sound_partial` can be met: `c` and `sc` in `"c" -- "sc"`. -/
example : NonOverlap ['c'] ['s', 'c'] ['"', 'c', '"', ' ', '-', '-', ' ', '"', 's', 'c', '"'] := by
  refine C77_sound_partial (by simp [containsNonOverlapping, subAndSuperBothIn, isIn, remove]; decide) (fun _ => by decide)
    (fun h => absurd h (by decide)) (fun _ => ?_) (fun h => absurd (by decide) h)
  intro p c w h
  have h' : ∀ n, n ≤ 11 → ∀ (hn : p.length = n), c ∉ ['c'] := by
    intro n hn hp
    have hc := congrArg (fun l => l[n + 2]?) h
    have hs := congrArg (fun l => l[n]?) h
    simp only [List.append_assoc, List.getElem?_append, hp] at hc hs
    clear h
    interval_cases n <;> simp_all
    rw [← hc]
    decide
  refine h' p.length ?_ rfl
  have := congrArg List.length h
  simp at this
  omega

end Verif.Anim
