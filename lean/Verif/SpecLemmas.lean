import Verif.Spec
import Verif.PyLemmas
import Mathlib.Algebra.BigOperators.Ring.Finset
import Mathlib.Algebra.Order.BigOperators.Group.Finset

/-! Lemmas about the specification vocabulary. -/

namespace Verif.Spec

/-- Update several variables. -/
def updates (x : Asg) : List Var → List Nat → Asg
  | v :: vs, k :: t => updates (Function.update x v k) vs t
  | _, _ => x

theorem updates_of_not_mem {x : Asg} {vs : List Var} {t : List Nat} {v : Var} (h : v ∉ vs) :
    updates x vs t v = x v := by
  induction vs generalizing x t with
  | nil => rfl
  | cons w vs ih =>
    simp only [List.mem_cons, not_or] at h
    cases t with
    | nil => rfl
    | cons k t => rw [updates, ih h.2, Function.update_of_ne h.1]

theorem map_updates {x : Asg} {vs : List Var} {t : List Nat} (hn : vs.Nodup)
    (hl : t.length = vs.length) : vs.map (updates x vs t) = t := by
  induction vs generalizing x t with
  | nil => cases t <;> simp_all
  | cons w vs ih =>
    cases t with
    | nil => simp at hl
    | cons k t =>
      simp only [List.nodup_cons] at hn
      simp only [List.length_cons, Nat.add_right_cancel_iff] at hl
      simp only [List.map_cons, updates]
      rw [ih hn.2 hl, updates_of_not_mem hn.1, Function.update_self]

theorem sum_productRange_cons (c : Nat) (cs : List Nat) (G : List Nat → ℝ) :
    ((productRange (c :: cs)).map G).sum
      = ∑ k ∈ Finset.range c, ((productRange cs).map fun t => G (k :: t)).sum := by
  simp only [productRange, List.map_flatMap, List.map_map]
  rw [List.flatMap, List.sum_flatten, List.map_map]
  rw [Finset.sum_eq_multiset_sum, Finset.range_val, ← Multiset.coe_range, Multiset.map_coe,
    Multiset.sum_coe]
  rfl

/-- Iterated sums are sums over all tuples of values. -/
theorem sumVars_eq (vs : List Var) (cs : List Nat) (hl : cs.length = vs.length) (F : Asg → ℝ) (x : Asg) :
    sumVars (vs.zip cs) F x = ((productRange cs).map fun t => F (updates x vs t)).sum := by
  induction vs generalizing cs x with
  | nil => cases cs <;> simp_all [sumVars, productRange, updates]
  | cons v vs ih =>
    cases cs with
    | nil => simp at hl
    | cons c cs =>
      simp only [List.length_cons, Nat.add_right_cancel_iff] at hl
      rw [sum_productRange_cons]
      simp only [List.zip_cons_cons, sumVars, sumVar, updates]
      exact Finset.sum_congr rfl fun k _ => ih cs hl _

/-- A sum over all tuples only sees the tuples present in a dictionary. -/
theorem sum_dict {β : Type} (l : List (List Nat)) (hl : l.Nodup) (d : Dict (List Nat) β)
    (hd : (Dict.keys d).Nodup) (hsub : ∀ k ∈ Dict.keys d, k ∈ l) (h : β → ℝ) :
    (l.map fun t => ((Dict.get? d t).map h).getD 0).sum = (d.map fun e => h e.2).sum := by
  induction d with
  | nil => simp [Dict.get?]
  | cons e d ih =>
    simp only [Dict.keys, List.map_cons, List.nodup_cons] at hd
    have he : e.1 ∈ l := hsub _ (by simp [Dict.keys])
    have IH := ih hd.2 fun k hk => hsub k (by simp only [Dict.keys, List.map_cons, List.mem_cons]; exact Or.inr hk)
    rw [List.map_cons, List.sum_cons, ← IH]
    have hne : Dict.get? d e.1 = none := Dict.get?_eq_none_iff.2 hd.1
    have hp := List.perm_cons_erase he
    have hp2 := fun f : List Nat → ℝ => (hp.map f).sum_eq
    rw [hp2, hp2]
    have hn := (hp.nodup_iff.1 hl)
    simp only [List.nodup_cons] at hn
    simp only [List.map_cons, List.sum_cons, hne, Option.map_none, Option.getD_none, zero_add]
    congr 1
    · simp [Dict.get?]
    · congr 1
      apply List.map_congr_left
      intro t ht
      have : e.1 ≠ t := fun h => hn.1 (h ▸ ht)
      simp [Dict.get?, this]

theorem override_nil {β : Type} (x : Var → β) : override [] x = x := rfl

theorem override_cons {β : Type} (v : Var) (b : β) (ev : List (Var × β)) (x : Var → β) :
    override ((v, b) :: ev) x = Function.update (override ev x) v b := by
  funext w
  unfold override
  by_cases h : v = w
  · subst h; simp
  · have h' : w ≠ v := fun e => h e.symm
    simp [h, Function.update_of_ne h']

theorem override_of_not_mem {β : Type} {vs : List Var} {ks : List β} {x : Var → β} {v : Var}
    (h : v ∉ vs) : override (vs.zip ks) x v = x v := by
  induction vs generalizing ks with
  | nil => rfl
  | cons w vs ih =>
    simp only [List.mem_cons, not_or] at h
    cases ks with
    | nil => rfl
    | cons k ks => rw [List.zip_cons_cons, override_cons, Function.update_of_ne h.1, ih h.2]

theorem map_override {β : Type} {vs : List Var} {ks : List β} {x : Var → β} (hn : vs.Nodup)
    (hl : ks.length = vs.length) : vs.map (override (vs.zip ks) x) = ks := by
  induction vs generalizing ks with
  | nil => cases ks <;> simp_all
  | cons w vs ih =>
    cases ks with
    | nil => simp at hl
    | cons k ks =>
      simp only [List.nodup_cons] at hn
      simp only [List.length_cons, Nat.add_right_cancel_iff] at hl
      simp only [List.zip_cons_cons, override_cons, List.map_cons, Function.update_self]
      congr 1
      rw [← ih hn.2 hl]
      apply List.map_congr_left
      intro v hv
      have : v ≠ w := fun h => hn.1 (h ▸ hv)
      rw [Function.update_of_ne this, ih hn.2 hl]

end Verif.Spec
