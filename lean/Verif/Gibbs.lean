import Verif.SpecLemmas

/-! Order independence of iterated sums and Gibbs' inequality. -/

namespace Verif.Spec

theorem sumVar_comm {v w : Var} (h : v ≠ w) (c d : Nat) (F : Asg → ℝ) :
    sumVar v c (sumVar w d F) = sumVar w d (sumVar v c F) := by
  funext x
  unfold sumVar
  rw [Finset.sum_comm]
  refine Finset.sum_congr rfl fun j _ => Finset.sum_congr rfl fun i _ => ?_
  rw [Function.update_comm h]

theorem sumVars_perm {l l' : List (Var × Nat)} (hp : l.Perm l') (hn : (l.map Prod.fst).Nodup)
    (F : Asg → ℝ) : sumVars l F = sumVars l' F := by
  induction hp with
  | nil => rfl
  | cons e _ ih =>
    simp only [List.map_cons, List.nodup_cons] at hn
    simp only [sumVars, ih hn.2]
  | swap a b l =>
    simp only [List.map_cons, List.nodup_cons, List.mem_cons, not_or] at hn
    simp only [sumVars]
    exact sumVar_comm hn.1.1 _ _ _
  | trans h1 h2 ih1 ih2 =>
    rw [ih1 hn, ih2 ((h1.map Prod.fst).nodup_iff.1 hn)]

theorem sumVars_append (l l' : List (Var × Nat)) (F : Asg → ℝ) :
    sumVars (l ++ l') F = sumVars l (sumVars l' F) := by
  induction l with
  | nil => rfl
  | cons e l ih => simp only [List.cons_append, sumVars, ih]

theorem log_ineq {p q : ℝ} (hp : 0 ≤ p) (hq : 0 ≤ q) (h : q = 0 → p = 0) :
    p - q ≤ p * Real.log (p / q) ∧ (p - q = p * Real.log (p / q) → p = q) := by
  rcases hp.eq_or_lt with rfl | hp
  · simp only [zero_sub, zero_mul]
    exact ⟨by linarith, by intro h; linarith⟩
  · have hq : 0 < q := lt_of_le_of_ne hq fun e => hp.ne' (h e.symm)
    have hr : 0 < q / p := div_pos hq hp
    have e1 : Real.log (p / q) = - Real.log (q / p) := by rw [← Real.log_inv, inv_div]
    have e2 : p * (q / p) = q := by field_simp
    constructor
    · have := Real.log_le_sub_one_of_pos hr
      rw [e1]
      nlinarith
    · intro he
      by_contra hne
      have h1 : q / p ≠ 1 := by
        intro h
        rw [div_eq_one_iff_eq hp.ne'] at h
        exact hne h.symm
      have := Real.log_lt_sub_one_of_pos hr h1
      rw [e1] at he
      nlinarith

theorem list_sum_le {ι : Type} (l : List ι) (a b : ι → ℝ) (h : ∀ i ∈ l, a i ≤ b i) :
    (l.map a).sum ≤ (l.map b).sum := by
  induction l with
  | nil => simp
  | cons i l ih =>
    simp only [List.map_cons, List.sum_cons]
    exact add_le_add (h i (by simp)) (ih fun j hj => h j (by simp [hj]))

theorem list_sum_eq {ι : Type} (l : List ι) (a b : ι → ℝ) (h : ∀ i ∈ l, a i ≤ b i)
    (he : (l.map a).sum = (l.map b).sum) : ∀ i ∈ l, a i = b i := by
  induction l with
  | nil => simp
  | cons i l ih =>
    simp only [List.map_cons, List.sum_cons] at he
    have h1 := h i (by simp)
    have h2 := list_sum_le l a b fun j hj => h j (by simp [hj])
    have h3 : a i = b i := by linarith
    intro j hj
    rcases List.mem_cons.1 hj with rfl | hj
    · exact h3
    · exact ih (fun j hj => h j (by simp [hj])) (by linarith) j hj

theorem list_sum_sub {ι : Type} (l : List ι) (a b : ι → ℝ) :
    (l.map fun i => a i - b i).sum = (l.map a).sum - (l.map b).sum := by
  induction l with
  | nil => simp
  | cons i l ih => simp only [List.map_cons, List.sum_cons, ih]; ring

/-- Gibbs' inequality over a list of cells. -/
theorem gibbs {ι : Type} (l : List ι) (p q : ι → ℝ) (hp : ∀ i ∈ l, 0 ≤ p i) (hq : ∀ i ∈ l, 0 ≤ q i)
    (h : ∀ i ∈ l, q i = 0 → p i = 0) (hs : (l.map q).sum ≤ (l.map p).sum) :
    0 ≤ (l.map fun i => p i * Real.log (p i / q i)).sum ∧
    ((l.map fun i => p i * Real.log (p i / q i)).sum = 0 → ∀ i ∈ l, p i = q i) := by
  have h1 : (l.map fun i => p i - q i).sum ≤ (l.map fun i => p i * Real.log (p i / q i)).sum :=
    list_sum_le l _ _ fun i hi => (log_ineq (hp i hi) (hq i hi) (h i hi)).1
  rw [list_sum_sub] at h1
  refine ⟨by linarith, fun h0 i hi => ?_⟩
  have h2 : (l.map fun i => p i - q i).sum = (l.map fun i => p i * Real.log (p i / q i)).sum := by
    rw [list_sum_sub]; rw [h0] at h1 ⊢; linarith
  exact (log_ineq (hp i hi) (hq i hi) (h i hi)).2
    (list_sum_eq l _ _ (fun i hi => (log_ineq (hp i hi) (hq i hi) (h i hi)).1) h2 i hi)

/-- Gibbs' inequality for iterated sums. -/
theorem gibbs_kl (vs : List Var) (c : Var → Nat) (P Q : Asg → ℝ)
    (hn : vs.Nodup)
    (hP : ∀ x, 0 ≤ P x) (hQ : ∀ x, 0 ≤ Q x) (h : ∀ x, (∀ v ∈ vs, x v < c v) → Q x = 0 → P x = 0)
    (hs : sumVars (vs.map fun v => (v, c v)) Q (fun _ => 0) ≤
      sumVars (vs.map fun v => (v, c v)) P (fun _ => 0)) :
    0 ≤ kl (vs.map fun v => (v, c v)) P Q ∧
    (kl (vs.map fun v => (v, c v)) P Q = 0 → DependsOn P vs → DependsOn Q vs →
      ∀ x, (∀ v ∈ vs, x v < c v) → P x = Q x) := by
  unfold kl
  rw [← zip_map_self] at hs ⊢
  rw [sumVars_eq _ _ (by simp), sumVars_eq _ _ (by simp)] at hs
  rw [sumVars_eq _ _ (by simp)]
  have hr : ∀ t ∈ productRange (vs.map c), ∀ v ∈ vs, updates (fun _ => 0) vs t v < c v := by
    intro t ht
    have hl : t.length = vs.length := by simpa using (mem_productRange.1 ht).length_eq
    have h2 := mem_productRange.1 ht
    rw [← map_updates (x := fun _ => 0) hn hl, List.forall₂_map_left_iff,
      List.forall₂_map_right_iff, List.forall₂_same] at h2
    exact h2
  have key := gibbs (productRange (vs.map c)) (fun t => P (updates (fun _ => 0) vs t))
    (fun t => Q (updates (fun _ => 0) vs t)) (fun t _ => hP _) (fun t _ => hQ _)
    (fun t ht => h _ (hr t ht)) hs
  refine ⟨key.1, fun h0 dP dQ x hx => ?_⟩
  have hm : vs.map x ∈ productRange (vs.map c) := by
    rw [mem_productRange, List.forall₂_map_left_iff, List.forall₂_map_right_iff, List.forall₂_same]
    exact hx
  have h3 := key.2 h0 _ hm
  have he : ∀ v ∈ vs, updates (fun _ => 0) vs (vs.map x) v = x v := by
    have := map_updates (x := fun _ => 0) hn (t := vs.map x) (by simp)
    exact List.map_inj_left.1 this
  rw [dP _ _ he, dQ _ _ he] at h3
  exact h3

theorem sumVars_congr (vs : List Var) (c : Var → Nat) (hn : vs.Nodup) {F G : Asg → ℝ} (x : Asg)
    (h : ∀ y, (∀ v ∈ vs, y v < c v) → F y = G y) :
    sumVars (vs.map fun v => (v, c v)) F x = sumVars (vs.map fun v => (v, c v)) G x := by
  rw [← zip_map_self, sumVars_eq _ _ (by simp), sumVars_eq _ _ (by simp)]
  congr 1
  apply List.map_congr_left
  intro t ht
  apply h
  have hl : t.length = vs.length := by simpa using (mem_productRange.1 ht).length_eq
  have h2 := mem_productRange.1 ht
  rw [← map_updates (x := x) hn hl, List.forall₂_map_left_iff,
    List.forall₂_map_right_iff, List.forall₂_same] at h2
  exact h2

end Verif.Spec
