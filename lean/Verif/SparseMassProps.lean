import Verif.SparseEqDefaultProps
import Verif.GainProps

/-!
# C135: weight and normalisation of sparse factors with any default
-/

namespace Verif.Sparse
open Spec (Asg)

/-- The number of assignments without an entry. -/
def missing (f : Sparse ℝ) : ℕ := f.cards.prod - f.table.length

theorem length_le {f : Sparse ℝ} (hf : WF f) : f.table.length ≤ f.cards.prod := by
  have hsub : Dict.keys f.table ⊆ productRange f.cards := fun t ht => mem_productRange.2 (hf.range t ht)
  have := (List.subperm_of_subset hf.keys hsub).length_le
  rw [Cat.productRange_length] at this
  simpa [Dict.keys] using this

theorem sumVars_scope_const {f : Sparse ℝ} (hf : WF f) (c : ℝ) (x : Asg) :
    Spec.sumVars (f.vars.map fun v => (v, f.card v)) (fun _ => c) x = f.cards.prod * c := by
  rw [zip_cards, Spec.sumVars_eq _ _ (by simp), List.map_const', List.sum_replicate, Cat.productRange_length,
    ← hf.cards_eq, nsmul_eq_mul]

/-- The sum over all assignments is the sum of the entries and the default for each assignment without one. -/
theorem mass_gen {f : Sparse ℝ} (hf : WF f) :
    f.mass = ((Dict.values f.table).map XF.prob).sum + missing f * f.dflt.prob := by
  have e : f.prob = fun x => ((Dict.get? f.table (f.vars.map x)).map fun a => a.prob - f.dflt.prob).getD 0 + f.dflt.prob := by
    funext x
    unfold prob val
    cases Dict.get? f.table (f.vars.map x) with
    | none => simp
    | some a => simp
  have hs : ∀ l : List (List Nat × XF ℝ), (l.map fun e => e.2.prob - f.dflt.prob).sum =
      ((Dict.values l).map XF.prob).sum - l.length * f.dflt.prob := by
    intro l
    induction l with
    | nil => simp [Dict.values]
    | cons a l ih =>
      simp only [Dict.values, List.map_cons, List.sum_cons, List.length_cons, Nat.cast_add, Nat.cast_one] at ih ⊢
      rw [ih]
      ring
  unfold mass
  rw [e, Spec.sumVars_add, sum_all hf (fun a => a.prob - f.dflt.prob), sumVars_scope_const hf, hs]
  unfold missing
  rw [Nat.cast_sub (length_le hf)]
  ring

theorem logsumexp_table {f : Sparse ℝ} (hp : Proper f) (hne : f.table ≠ []) :
    XF.logsumexp (Dict.values f.table) = .ok (XF.ofProb ((Dict.values f.table).map XF.prob).sum) := by
  refine XF.logsumexp_proper (by simpa [Dict.values] using hne) fun a ha => ?_
  obtain ⟨e, he, rfl⟩ := List.mem_map.1 ha
  exact hp.1 e he

theorem sum_nonneg (f : Sparse ℝ) : 0 ≤ ((Dict.values f.table).map XF.prob).sum :=
  List.sum_nonneg fun a ha => by
    obtain ⟨b, _, rfl⟩ := List.mem_map.1 ha
    exact XF.prob_nonneg b

/-- **C135 fails** in general: `weight` is too small by the default for each assignment without an entry. -/
theorem C135_weight_gap (f : Sparse ℝ) (hf : WF f) (hp : Proper f) (hne : f.table ≠ []) :
    weight f = .ok (.fin (f.mass - missing f * f.dflt.prob)) := by
  unfold weight
  rw [logsumexp_table hp hne, py_bind_ok, XF.exp_proper (XF.proper_ofProb _), XF.prob_ofProb (sum_nonneg f), mass_gen hf]
  congr 2
  ring

/-- **C135**, weight (partial): `weight` is the total over all assignments exactly if the default is impossible or each
assignment has an entry. -/
theorem C135_weight_partial (f : Sparse ℝ) (hf : WF f) (hp : Proper f) (hne : f.table ≠ []) :
    weight f = .ok (.fin f.mass) ↔ f.dflt = .ninf ∨ f.table.length = f.cards.prod := by
  rw [C135_weight_gap f hf hp hne]
  have h0 : f.dflt.prob = 0 ↔ f.dflt = .ninf := by
    have := hp.2
    revert this
    cases f.dflt <;> simp [XF.prob, XF.Proper, Real.exp_ne_zero]
  have h1 : missing f = 0 ↔ f.table.length = f.cards.prod := by
    have := length_le hf
    unfold missing
    omega
  rw [← h0, ← h1]
  constructor
  · intro h
    have h := XF.fin.inj (Except.ok.inj h)
    have : (missing f : ℝ) * f.dflt.prob = 0 := by linarith
    rcases mul_eq_zero.1 this with h | h
    · exact .inr (Nat.cast_eq_zero.1 h)
    · exact .inl h
  · rintro (h | h) <;> simp [h]

/-- **C135**, normalize: the total of the result is one and the default, which is not scaled, for each assignment without
an entry. So it is one exactly if the default is impossible or each assignment has an entry. -/
theorem C135_normalize_partial (f : Sparse ℝ) (hf : WF f) (hp : Proper f)
    (hm : 0 < ((Dict.values f.table).map XF.prob).sum) :
    ∃ r, normalize f = .ok r ∧ r.vars = f.vars ∧ r.cards = f.cards ∧ r.mass = 1 + missing f * f.dflt.prob ∧
      (r.mass = 1 ↔ f.dflt = .ninf ∨ f.table.length = f.cards.prod) := by
  have hne : f.table ≠ [] := by
    intro h
    rw [h] at hm
    simp [Dict.values] at hm
  set m := ((Dict.values f.table).map XF.prob).sum with hmdef
  have hwf : WF ({ f with table := f.table.map fun e => (e.1, XF.sub e.2 (XF.ofProb m)) } : Sparse ℝ) := by
    have hk : Dict.keys (f.table.map fun e => (e.1, XF.sub e.2 (XF.ofProb m))) = Dict.keys f.table := by
      simp [Dict.keys]
    exact ⟨hf.nodup, hf.cardsLen, hk ▸ hf.keys, hk ▸ hf.range⟩
  have hmass := mass_gen hwf
  have hsum : ((Dict.values (f.table.map fun e => (e.1, XF.sub e.2 (XF.ofProb m)))).map XF.prob).sum = 1 := by
    have h1 : (Dict.values (f.table.map fun e => (e.1, XF.sub e.2 (XF.ofProb m)))).map XF.prob =
        ((Dict.values f.table).map XF.prob).map (· / m) := by
      simp only [Dict.values, List.map_map]
      exact List.map_congr_left fun e he => (prob_sub (hp.1 e he) hm).2
    have hdiv : ∀ l : List ℝ, (l.map (· / m)).sum = l.sum / m := by
      intro l
      induction l with
      | nil => simp
      | cons a l ih => simp [ih, add_div]
    rw [h1, hdiv, ← hmdef, div_self hm.ne']
  have hmiss : missing ({ f with table := f.table.map fun e => (e.1, XF.sub e.2 (XF.ofProb m)) } : Sparse ℝ) = missing f := by
    simp [missing]
  rw [hmiss] at hmass
  dsimp only at hmass
  rw [hsum] at hmass
  refine ⟨{ f with table := f.table.map fun e => (e.1, XF.sub e.2 (XF.ofProb m)) }, ?_, rfl, rfl, hmass, ?_⟩
  · unfold normalize
    rw [copy_eq hf, py_bind_ok, logsumexp_table hp hne, py_bind_ok]
  · rw [← C135_weight_partial f hf hp hne, C135_weight_gap f hf hp hne, hmass]
    constructor
    · intro h
      have : (missing f : ℝ) * f.dflt.prob = 0 := by linarith
      rw [this, sub_zero]
    · intro h
      have h := XF.fin.inj (Except.ok.inj h)
      linarith

/-- A factor with one entry for two assignments and default log value 1: the weight is 1, the total is 1 + e. -/
example : WF exH1 ∧ Proper exH1 ∧ weight exH1 = .ok (.fin 1) ∧ exH1.mass = 1 + Real.exp 1 := by
  have hw : WF exH1 := (C132_default_violated 0 0).1
  have hp : Proper exH1 := by simp [Proper, exH1, XF.Proper]
  have hm : exH1.mass = 1 + Real.exp 1 := by
    rw [mass_gen hw]
    simp [exH1, Dict.values, missing, XF.prob]
  refine ⟨hw, hp, ?_, hm⟩
  rw [C135_weight_gap _ hw hp (by simp [exH1]), hm]
  simp [exH1, missing, XF.prob]

end Verif.Sparse
