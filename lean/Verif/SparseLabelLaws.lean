import Verif.SparseLabelKl
import Verif.CatOps
import Verif.CatProps3

/-!
# Sparse factors with arbitrary assignment values obey the laws
-/

namespace Verif.Sparse
open Spec (Asg)

variable {C B : Var → Nat} {f g : Sparse ℝ} {hs : HashSeed}

/-- The normalised factor, keeping its own cardinalities. -/
noncomputable def labNorm (B : Var → Nat) (f : Sparse ℝ) : Sparse ℝ :=
  { f with table := (normResult (recard B f)).table }

theorem recard_labNorm : recard B (labNorm B f) = normResult (recard B f) := rfl

theorem Shaped.norm (cf : Shaped C f) : Shaped C (labNorm B f) := by
  refine ⟨cf.nodup, cf.cards, fun k hk => cf.keyLen k ?_⟩
  have : Dict.keys (labNorm B f).table = Dict.keys f.table := by
    simp only [labNorm, normResult, Dict.keys, List.map_map]
    rfl
  rwa [this] at hk

theorem normalize_lab (hf : Regular (recard B f)) (cf : Shaped C f) (ht : f.table ≠ []) :
    normalize f = .ok (labNorm B f) ∧ normalize (recard B f) = .ok (normResult (recard B f)) := by
  have h := normalize_eq hf
  rw [if_neg (show (recard B f).table ≠ [] from ht)] at h
  refine ⟨?_, h⟩
  have hc : f.copy = .ok f := by
    unfold copy new
    rw [if_neg (not_not.2 cf.nodup), if_neg (not_not.2 (by rw [cf.cards]; simp))]
  unfold normalize at h ⊢
  rw [copy_eq hf.wf, py_bind_ok] at h
  rw [hc, py_bind_ok]
  obtain ⟨z, h1, h2⟩ := py_bind_eq_ok.1 h
  rw [show XF.logsumexp (Dict.values f.table) = .ok z from h1, py_bind_ok]
  simp only [Except.ok.injEq] at h2 ⊢
  have := congrArg Sparse.table h2
  unfold labNorm
  rw [← this]
  rfl

/-- The divergence does not depend on the cardinalities. -/
theorem klDivergence_lab (hf : Regular (recard B f)) (hg : Regular (recard B g))
    (h : ∀ v, v ∈ f.vars ↔ v ∈ g.vars) (cf : Shaped C f) (cg : Shaped C g) (hCB : ∀ v, C v ≤ B v)
    (hmf : 0 < (recard B f).mass) (hmg : 0 < (recard B g).mass) (b : Bool) :
    klDivergence hs f g b = klDivergence hs (recard B f) (recard B g) b := by
  obtain ⟨f1, f2⟩ := normalize_lab hf cf (show (recard B f).table ≠ [] from table_ne_nil_of_mass hf hmf)
  obtain ⟨g1, g2⟩ := normalize_lab hg cg (show (recard B g).table ≠ [] from table_ne_nil_of_mass hg hmg)
  have rf := normResult_regular hf hmf
  have rg := normResult_regular hg hmg
  unfold klDivergence
  rw [f1, f2, g1, g2, py_bind_ok, py_bind_ok]
  cases b
  · simp only [Bool.false_eq_true, if_false, py_bind_ok]
    rw [rawKld_lab (B := B) (f := labNorm B f) (g := g) rf hg h cf.norm cg hCB, recard_labNorm]
  · simp only [if_true, py_bind_ok]
    rw [rawKld_lab (B := B) (f := labNorm B f) (g := labNorm B g) rf rg h cf.norm cg.norm hCB, recard_labNorm,
      recard_labNorm]

open Classical in
/-- The number of assignments with values in given sets. -/
theorem sumVars_sets (S : Var → Finset Nat) (hS : ∀ v, ∀ k ∈ S v, k < B v) (c : ℝ) :
    ∀ (vs : List Var), vs.Nodup → ∀ z : Asg,
    Spec.sumVars (vs.map fun v => (v, B v)) (fun x => if ∀ v ∈ vs, x v ∈ S v then c else 0) z =
      ((vs.map fun v => (S v).card).prod : ℕ) * c := by
  intro vs
  induction vs with
  | nil => intro _ z; simp [Spec.sumVars]
  | cons v vs ih =>
    intro hn z
    rw [List.nodup_cons] at hn
    rw [List.map_cons, Spec.sumVars, Spec.sumVar]
    have key : ∀ k, Spec.sumVars (vs.map fun v => (v, B v)) (fun x => if ∀ u ∈ v :: vs, x u ∈ S u then c else 0)
        (Function.update z v k) = if k ∈ S v then ((vs.map fun v => (S v).card).prod : ℕ) * c else 0 := by
      intro k
      rw [Spec.sumVars_congr' vs B hn.2 (G := fun x => (if ∀ u ∈ vs, x u ∈ S u then c else 0) *
        (if k ∈ S v then 1 else 0)) (Function.update z v k) fun y _ hy => ?_, Cat.sumVars_mul_const, ih hn.2]
      · split <;> simp
      · have : y v = k := by rw [hy v hn.1]; simp
        simp only [List.mem_cons, forall_eq_or_imp, this]
        by_cases hk : k ∈ S v <;> simp [hk]
    simp only [key]
    rw [← Finset.sum_filter, Finset.sum_const]
    have : (Finset.range (B v)).filter (· ∈ S v) = S v := by
      ext k
      simp only [Finset.mem_filter, Finset.mem_range]
      exact ⟨fun h => h.2, fun h => ⟨hS v k h, h⟩⟩
    rw [this]
    simp [mul_assoc]

open Classical in
/-- `distance_from_vacuous` returns, for a factor with at most as many possible values per variable as its
cardinality says. -/
theorem distanceFromVacuous_lab {S : Var → Finset Nat} (hS : ∀ v, ∀ k ∈ S v, k < B v) (hSC : ∀ v, (S v).card ≤ C v)
    (hC0 : ∀ v ∈ f.vars, 0 < C v)
    (hf : Regular (recard B f)) (cf : Shaped C f) (hCB : ∀ v, C v ≤ B v) (hm : 0 < (recard B f).mass)
    (hsupp : ∀ x, f.prob x ≠ 0 → ∀ v ∈ f.vars, x v ∈ S v) :
    ∃ d : ℝ, 0 ≤ d ∧ distanceFromVacuous hs f = .ok (.fin d) := by
  obtain ⟨N, hN⟩ : ∃ N, N = (f.vars.map C).prod := ⟨_, rfl⟩
  have hN0 : 0 < N := by
    rw [hN]
    apply List.prod_pos
    intro c hc
    obtain ⟨v, hv, rfl⟩ := List.mem_map.1 hc
    exact hC0 v hv
  have hN' : (0 : ℝ) < (N : ℕ) := Nat.cast_pos.2 hN0
  obtain ⟨u, hu⟩ : ∃ u : Sparse ℝ, u = { f with table := f.table.map fun e => (e.1, .fin (-Real.log (N : ℕ))) } :=
    ⟨_, rfl⟩
  have hku : Dict.keys u.table = Dict.keys f.table := by
    simp [hu, Dict.keys, Function.comp_def]
  have huv : u.vars = f.vars := by rw [hu]
  have huR : Regular (recard B u) := by
    refine ⟨⟨by show u.vars.Nodup; rw [huv]; exact cf.nodup, by simp [recard], ?_, ?_⟩, ?_, ?_⟩
    · show (Dict.keys u.table).Nodup
      rw [hku]; exact hf.wf.keys
    · intro k hk
      have hk' : k ∈ Dict.keys u.table := hk
      rw [hku] at hk'
      have := hf.wf.range k hk'
      show List.Forall₂ _ k (u.vars.map B)
      rw [huv]; exact this
    · intro e he
      have he' : e ∈ u.table := he
      rw [hu] at he'
      obtain ⟨e', _, rfl⟩ := List.mem_map.1 he'
      trivial
    · show u.dflt = _
      rw [hu]; exact hf.dflt
  have cu : Shaped C u := by
    refine ⟨by rw [huv]; exact cf.nodup, by rw [huv, ← cf.cards, hu], fun k hk => ?_⟩
    rw [hku] at hk
    rw [huv]
    exact cf.keyLen k hk
  have rf := normResult_regular hf hm
  have hP : (normResult (recard B f)).prob = (recard B f).dist := funext (normResult_prob hf hm)
  have hvc : ((normResult (recard B f)).vars.map fun v => (v, (normResult (recard B f)).card v)) =
      f.vars.map fun v => (v, B v) :=
    List.map_congr_left fun v hv => by
      show (v, (recard B f).card v) = _
      rw [recard_card (f := f) hv]
  have hP0 : ∀ x, Dict.get? f.table (f.vars.map x) = none → f.prob x = 0 := by
    intro x hx
    rw [prob_eq_elim (show f.dflt = .ninf from hf.dflt), hx]; rfl
  have hgu : ∀ x, u.prob x = if Dict.get? f.table (f.vars.map x) = none then (0 : ℝ) else 1 / (N : ℕ) := by
    intro x
    unfold prob val
    rw [hu]
    show XF.prob (Option.getD (Dict.get? (f.table.map _) _) f.dflt) = _
    rw [Dict.get?_map_val (g := fun _ => XF.fin (-Real.log (N : ℕ)))]
    show XF.prob (Option.getD (Option.map _ (Dict.get? f.table (f.vars.map x))) f.dflt) = _
    cases Dict.get? f.table (f.vars.map x) with
    | none => simp [show f.dflt = .ninf from hf.dflt, XF.prob]
    | some a => simp only [Option.map_some, Option.getD_some, XF.prob, reduceCtorEq, if_false, Real.exp_neg, Real.exp_log hN', one_div]
  have hraw := rawKld_fin (hs := hs) rf huR ⟨fun v => by
      show v ∈ f.vars ↔ v ∈ u.vars
      rw [huv], fun v hv => by
      show (recard B f).card v = _
      rw [recard_card (f := f) hv, recard_card (f := u) (by rw [huv]; exact hv)]⟩ (by
    intro x _ h0
    rw [hP]
    unfold dist
    rw [show (recard B u).prob = u.prob from rfl, hgu] at h0
    by_cases hx : Dict.get? f.table (f.vars.map x) = none
    · rw [show (recard B f).prob x = 0 from hP0 x hx, zero_div]
    · rw [if_neg hx] at h0
      exact absurd h0 (by positivity))
  rw [hP, hvc] at hraw
  have hkl : Spec.kl (f.vars.map fun v => (v, B v)) (recard B f).dist (recard B u).prob
      = Spec.kl (f.vars.map fun v => (v, B v)) (recard B f).dist
        (fun x => if ∀ v ∈ f.vars, x v ∈ S v then 1 / (N : ℕ) else 0) := by
    unfold Spec.kl
    congr 1
    funext x
    rw [show (recard B u).prob = u.prob from rfl, hgu]
    by_cases h0 : f.prob x = 0
    · unfold dist
      rw [show (recard B f).prob x = 0 from h0]
      simp
    · rw [if_neg fun hx => h0 (hP0 x hx)]
      dsimp only
      rw [if_pos (hsupp x h0)]
  rw [hkl] at hraw
  have hone := normResult_mass hf hm
  unfold mass at hone
  rw [hvc, hP] at hone
  have hgibbs := (Spec.gibbs_kl f.vars B (recard B f).dist
    (fun x => if ∀ v ∈ f.vars, x v ∈ S v then 1 / (N : ℕ) else 0) cf.nodup
    (fun x => div_nonneg (prob_nonneg _ x) hm.le) (fun x => by split <;> positivity)
    (fun x _ h0 => by
      by_contra hne
      have hp : f.prob x ≠ 0 := fun h => hne (by unfold dist; rw [show (recard B f).prob x = 0 from h, zero_div])
      rw [if_pos (hsupp x hp)] at h0
      exact absurd h0 (by positivity)) (by
      rw [hone, sumVars_sets S hS _ f.vars cf.nodup]
      rw [mul_one_div, div_le_one hN', hN]
      have : (f.vars.map fun v => (S v).card).prod ≤ (f.vars.map C).prod := by
        refine List.Forall₂.prod_le_prod' ?_
        rw [List.forall₂_map_left_iff, List.forall₂_map_right_iff, List.forall₂_same]
        exact fun v _ => hSC v
      exact_mod_cast this)).1
  refine ⟨_, hgibbs, ?_⟩
  obtain ⟨f1, _⟩ := normalize_lab hf cf (show (recard B f).table ≠ [] from table_ne_nil_of_mass hf hm)
  have hc : f.copy = .ok f := by
    unfold copy new
    rw [if_neg (not_not.2 cf.nodup), if_neg (not_not.2 (by rw [cf.cards]; simp))]
  have hlog : XF.neg (XF.log (.fin ((Dict.values f.varCards).prod : ℕ))) = .fin (-Real.log (N : ℕ)) := by
    unfold varCards
    rw [values_zip (by rw [cf.cards]; simp), cf.cards, ← hN, XF.log_fin hN'.le, XF.ofProb, if_neg hN'.ne']
    rfl
  unfold distanceFromVacuous klDivergence
  rw [hc, py_bind_ok]
  dsimp only
  rw [hlog, f1, py_bind_ok]
  simp only [Bool.false_eq_true, if_false, py_bind_ok]
  rw [← hu, rawKld_lab (B := B) (f := labNorm B f) (g := u) rf huR (fun v => by
      show v ∈ f.vars ↔ v ∈ u.vars
      rw [huv]) cf.norm cu hCB, recard_labNorm, hraw, py_bind_ok, if_neg]
  simp only [XF.lt, decide_eq_true_eq, not_lt]
  exact hgibbs

end Verif.Sparse
