import Verif.FactProps2
import Mathlib.Topology.Algebra.Order.LiminfLimsup
import Mathlib.Analysis.SpecialFunctions.Exp

/-!
# C134: vacuous mixtures and factorised factors
-/

namespace Verif
open Matrix Gauss Spec MeasureTheory Filter Topology

/-- The flag of a Gaussian is right: it is flagged and constant, or it is not flagged and strictly concave. -/
def Clear (c : AnyG) : Prop :=
  (c.2.vac = true ∧ ∃ a' g, c.2.getCan = .ok (a', ⟨0, 0, g⟩)) ∨
    (c.2.vac = false ∧ ∃ a' k, c.2.getCan = .ok (a', k) ∧ k.prec.PosDef)

theorem quad_tendsto {a b g : ℝ} (ha : 0 < a) :
    Tendsto (fun t : ℝ => (-1 / 2) * (t * (t * a)) + t * b + g) atTop atBot := by
  have h1 : Tendsto (fun t : ℝ => (-1 / 2) * (t * a) + b) atTop atBot := by
    refine tendsto_atBot_add_const_right _ _ ?_
    exact (tendsto_id.atTop_mul_const ha).const_mul_atTop_of_neg (by norm_num)
  have h2 : Tendsto (fun t : ℝ => t * ((-1 / 2) * (t * a) + b)) atTop atBot := tendsto_id.atTop_mul_atBot₀ h1
  refine (tendsto_atBot_add_const_right atTop g h2).congr fun t => ?_
  ring

theorem clear_cases {c : AnyG} {L : (Var → ℝ) → ℝ} (hm : Made c.2) (hd : Denotes c.2 L) (hv : c.2.vars ≠ [])
    (h : Clear c) : (c.2.vac = true ∧ ∀ x y, L x = L y) ∨
      (c.2.vac = false ∧ Tendsto (fun t : ℝ => L fun _ => t) atTop atBot) := by
  have hg := hd.good hm.inv
  have hL : ∀ x, L x = evalCan (canOf c.2) (vecAt c.2.vars hg.len x) := by
    intro x
    have := (hd x).1
    rw [logPotential_valid hg.toValid] at this
    exact (Except.ok.inj this).symm
  rcases h with ⟨h1, a', g, h2⟩ | ⟨h1, a', k, h2, hk⟩
  · refine .inl ⟨h1, fun x y => ?_⟩
    have e := (getCan_inv hm.inv h2).2.2
    rw [hL, hL, ← e]
    simp [evalCan]
  · refine .inr ⟨h1, ?_⟩
    have e := (getCan_inv hm.inv h2).2.2
    have hne : (1 : Fin c.1 → ℝ) ≠ 0 := by
      intro h0
      have : 0 < c.1 := by rw [← hg.len]; exact List.length_pos_iff.2 hv
      have := congrFun h0 ⟨0, this⟩
      simp at this
    have hp := hk.dotProduct_mulVec_pos hne
    simp only [star_trivial] at hp
    refine (quad_tendsto (b := 1 ⬝ᵥ k.h) (g := k.g) hp).congr fun t => ?_
    have hvec : vecAt c.2.vars hg.len (fun _ => t) = t • (1 : Fin c.1 → ℝ) := by
      funext i
      simp [vecAt]
    rw [hL, ← e, hvec]
    simp only [evalCan, mulVec_smul, dotProduct_smul, smul_dotProduct, smul_eq_mul]

namespace Mix

theorem mixFn_limit {cs : List AnyG} {Ls : List ((Var → ℝ) → ℝ)}
    (h : List.Forall₂ (fun c L => (c.2.vac = true ∧ ∀ x y : Var → ℝ, L x = L y) ∨
      (c.2.vac = false ∧ Tendsto (fun t : ℝ => L fun _ => t) atTop atBot)) cs Ls) :
    ∃ S, Tendsto (fun t : ℝ => mixFn Ls fun _ => t) atTop (𝓝 S) ∧ S ≤ mixFn Ls (fun _ => 0) ∧
      ((∃ c ∈ cs, c.2.vac = false) → S < mixFn Ls fun _ => 0) := by
  induction h with
  | nil => exact ⟨0, by simp [mixFn], by simp [mixFn], by simp⟩
  | @cons c L cs Ls h _ ih =>
    obtain ⟨S, h1, h2, h3⟩ := ih
    have e : ∀ x, mixFn (L :: Ls) x = Real.exp (L x) + mixFn Ls x := fun x => by simp [mixFn]
    simp only [e]
    rcases h with ⟨hv, hc⟩ | ⟨hv, ht⟩
    · refine ⟨Real.exp (L fun _ => 0) + S, Tendsto.add ?_ h1, by linarith, ?_⟩
      · refine tendsto_const_nhds.congr fun t => ?_
        rw [hc]
      · rintro ⟨d, hd, hdv⟩
        rcases List.mem_cons.1 hd with rfl | hd
        · rw [hv] at hdv; cases hdv
        · have := h3 ⟨d, hd, hdv⟩
          linarith
    · have hp := Real.exp_pos (L fun _ => 0)
      exact ⟨0 + S, Tendsto.add (Real.tendsto_exp_atBot.comp ht) h1, by linarith, fun _ => by linarith⟩

theorem mixFn_const {cs : List AnyG} {Ls : List ((Var → ℝ) → ℝ)}
    (h : List.Forall₂ (fun c L => (c.2.vac = true ∧ ∀ x y : Var → ℝ, L x = L y) ∨
      (c.2.vac = false ∧ Tendsto (fun t : ℝ => L fun _ => t) atTop atBot)) cs Ls)
    (hall : ∀ c ∈ cs, c.2.vac = true) (x y : Var → ℝ) : mixFn Ls x = mixFn Ls y := by
  induction h with
  | nil => rfl
  | @cons c L cs Ls h _ ih =>
    have e : ∀ x, mixFn (L :: Ls) x = Real.exp (L x) + mixFn Ls x := fun x => by simp [mixFn]
    rw [e, e, ih fun d hd => hall d (List.mem_cons_of_mem _ hd)]
    rcases h with ⟨-, hc⟩ | ⟨hv, -⟩
    · rw [hc x y]
    · rw [hall c List.mem_cons_self] at hv
      cases hv

theorem comps_cases {vars : List Var} {cs : List AnyG} {Ls : List ((Var → ℝ) → ℝ)} (h : List.Forall₂ (Comp vars) cs Ls)
    (hv : vars ≠ []) (hc : ∀ c ∈ cs, Clear c) :
    List.Forall₂ (fun c L => (c.2.vac = true ∧ ∀ x y : Var → ℝ, L x = L y) ∨
      (c.2.vac = false ∧ Tendsto (fun t : ℝ => L fun _ => t) atTop atBot)) cs Ls := by
  induction h with
  | nil => exact .nil
  | @cons c L cs Ls h _ ih =>
    exact .cons (clear_cases h.made h.den (h.vars ▸ hv) (hc c List.mem_cons_self))
      (ih fun d hd => hc d (List.mem_cons_of_mem _ hd))

/-- **C134**, mixtures (partial): if the flags of the components are right, a mixture over at least one variable is
reported vacuous exactly if its potential is constant. -/
theorem C134_mixture_partial (M : Mix) (Ls : List ((Var → ℝ) → ℝ)) (hM : IsMix M Ls) (hv : M.vars ≠ [])
    (hc : ∀ c ∈ M.comps, Clear c) :
    M.isVacuous = true ↔ ∃ C, ∀ x : Var → ℝ, M.potential (M.vars.map x) = .ok C := by
  have key := comps_cases hM.comps hv hc
  unfold isVacuous
  rw [List.all_eq_true]
  constructor
  · intro hall
    refine ⟨mixFn Ls fun _ => 0, fun x => ?_⟩
    rw [(hM.pot x).1, mixFn_const key hall x fun _ => 0]
  · rintro ⟨C, hC⟩
    by_contra hn
    push Not at hn
    obtain ⟨c, hcm, hcv⟩ := hn
    obtain ⟨S, h1, -, h3⟩ := mixFn_limit key
    have h3 := h3 ⟨c, hcm, by simpa using hcv⟩
    have hC' : ∀ x, mixFn Ls x = C := fun x => by
      have := (hM.pot x).1
      rw [hC] at this
      exact (Except.ok.inj this).symm
    simp only [hC'] at h1 h3
    have := tendsto_nhds_unique h1 tendsto_const_nhds
    linarith

end Mix

namespace Fact

theorem facts_cases {fs : List AnyG} {is : List Item} (h : List.Forall₂ Den fs is)
    (hc : ∀ c ∈ fs, Clear c ∧ c.2.vars ≠ []) :
    List.Forall₂ (fun c i => (c.2.vac = true ∧ ∀ x y : Var → ℝ, i.2 x = i.2 y) ∨
      (c.2.vac = false ∧ Tendsto (fun t : ℝ => i.2 fun _ => t) atTop atBot)) fs is := by
  induction h with
  | nil => exact .nil
  | @cons c i fs is h _ ih =>
    have h1 := hc c List.mem_cons_self
    exact .cons (clear_cases h.made h.den h1.2 h1.1) (ih fun d hd => hc d (List.mem_cons_of_mem _ hd))

theorem total_const {fs : List AnyG} {is : List Item}
    (h : List.Forall₂ (fun c i => (c.2.vac = true ∧ ∀ x y : Var → ℝ, i.2 x = i.2 y) ∨
      (c.2.vac = false ∧ Tendsto (fun t : ℝ => i.2 fun _ => t) atTop atBot)) fs is)
    (hall : ∀ c ∈ fs, c.2.vac = true) (x y : Var → ℝ) : total is x = total is y := by
  induction h with
  | nil => rfl
  | @cons c i fs is h _ ih =>
    have e : ∀ x, total (i :: is) x = i.2 x + total is x := fun x => by simp [total]
    rw [e, e, ih fun d hd => hall d (List.mem_cons_of_mem _ hd)]
    rcases h with ⟨-, hc⟩ | ⟨hv, -⟩
    · rw [hc x y]
    · rw [hall c List.mem_cons_self] at hv
      cases hv

theorem total_tendsto {fs : List AnyG} {is : List Item}
    (h : List.Forall₂ (fun c i => (c.2.vac = true ∧ ∀ x y : Var → ℝ, i.2 x = i.2 y) ∨
      (c.2.vac = false ∧ Tendsto (fun t : ℝ => i.2 fun _ => t) atTop atBot)) fs is) :
    (∀ t : ℝ, total is (fun _ => t) = total is fun _ => 0) ∨ Tendsto (fun t : ℝ => total is fun _ => t) atTop atBot := by
  induction h with
  | nil => exact .inl fun _ => rfl
  | @cons c i fs is h _ ih =>
    have e : ∀ x, total (i :: is) x = i.2 x + total is x := fun x => by simp [total]
    simp only [e]
    rcases h with ⟨-, hc⟩ | ⟨-, ht⟩ <;> rcases ih with ih | ih
    · exact .inl fun t => by rw [ih t, hc (fun _ => t) fun _ => 0]
    · refine .inr ((tendsto_atBot_add_const_left atTop (i.2 fun _ => 0) ih).congr fun t => ?_)
      rw [hc (fun _ => t) fun _ => 0]
    · refine .inr ((tendsto_atBot_add_const_right atTop (total is fun _ => 0) ht).congr fun t => ?_)
      rw [ih t]
    · exact .inr (ht.atBot_add_atBot ih)

theorem total_tendsto_of {fs : List AnyG} {is : List Item}
    (h : List.Forall₂ (fun c i => (c.2.vac = true ∧ ∀ x y : Var → ℝ, i.2 x = i.2 y) ∨
      (c.2.vac = false ∧ Tendsto (fun t : ℝ => i.2 fun _ => t) atTop atBot)) fs is)
    (hn : ∃ c ∈ fs, c.2.vac = false) : Tendsto (fun t : ℝ => total is fun _ => t) atTop atBot := by
  induction h with
  | nil => obtain ⟨c, hc, -⟩ := hn; cases hc
  | @cons c i fs is h hr ih =>
    have e : ∀ x, total (i :: is) x = i.2 x + total is x := fun x => by simp [total]
    simp only [e]
    rcases h with ⟨hv, hc⟩ | ⟨-, ht⟩
    · obtain ⟨d, hd, hdv⟩ := hn
      rcases List.mem_cons.1 hd with rfl | hd
      · rw [hv] at hdv; cases hdv
      · refine (tendsto_atBot_add_const_left atTop (i.2 fun _ => 0) (ih ⟨d, hd, hdv⟩)).congr fun t => ?_
        rw [hc (fun _ => t) fun _ => 0]
    · rcases total_tendsto hr with ih | ih
      · refine (tendsto_atBot_add_const_right atTop (total is fun _ => 0) ht).congr fun t => ?_
        rw [ih t]
      · exact ht.atBot_add_atBot ih

/-- **C134**, factorised factors (partial): if the flags of the factors are right, an answer is right: yes means that the
log potential of the joint distribution is constant, no that it is not. There is no answer exactly if some factors
are vacuous and some are not, though the product is then not constant either. -/
theorem C134_factorised_partial (a : Fact) (is : List Item) (ha : IsFact a is) (hne : a.factors ≠ [])
    (hc : ∀ f ∈ a.factors, Clear f ∧ f.2.vars ≠ []) :
    ∃ L, HasJoint a L ∧ (a.isVacuous = .ok true ↔ ∀ x y, L x = L y) ∧
      (a.isVacuous = .ok false → ¬ ∀ x y, L x = L y) ∧
      (a.isVacuous = .error .notImplementedError ↔
        (∃ f ∈ a.factors, f.2.vac = true) ∧ ∃ f ∈ a.factors, f.2.vac = false) := by
  have key := facts_cases ha hc
  have hnc : (∃ c ∈ a.factors, c.2.vac = false) → ¬ ∀ x y, total is x = total is y := by
    intro hn hall
    have h1 := total_tendsto_of key hn
    have h2 : Tendsto (fun _ : ℝ => total is fun _ => 0) atTop atBot := h1.congr fun t => hall _ _
    exact not_tendsto_const_atBot _ _ h2
  refine ⟨total is, ha.joint hne, ?_, ?_, ?_⟩
  · constructor
    · intro h
      refine total_const key ?_
      unfold isVacuous at h
      split at h
      · rename_i h1
        simpa using h1
      · split at h <;> cases h
    · intro h
      unfold isVacuous
      rw [if_pos]
      rw [List.all_eq_true]
      intro f hf
      by_contra hv
      exact hnc ⟨f, hf, by simpa using hv⟩ h
  · intro h
    refine hnc ?_
    unfold isVacuous at h
    split at h
    · cases h
    · rename_i h1
      simpa using h1
  · unfold isVacuous
    constructor
    · intro h
      split at h
      · cases h
      · rename_i h1
        split at h
        · cases h
        · rename_i h2
          exact ⟨by simpa using h2, by simpa using h1⟩
    · rintro ⟨⟨f, hf, h1⟩, g, hg, h2⟩
      rw [if_neg, if_neg]
      · intro h
        have := List.all_eq_true.1 h f hf
        rw [h1] at this
        cases this
      · intro h
        have := List.all_eq_true.1 h g hg
        rw [h2] at this
        cases this

theorem flat_clear (v : Var) (c : ℝ) : Clear ⟨1, flat v c⟩ := .inl ⟨flat_vac v c, _, c, rfl⟩

theorem unit_clear (v : Var) (m : ℝ) : Clear ⟨1, unit v m⟩ :=
  .inr ⟨rfl, _, _, getCan_valid (unit_good v m).toValid, by
    show (1 : Matrix (Fin 1) (Fin 1) ℝ)⁻¹.PosDef
    rw [inv_one]
    exact PosDef.one⟩

/-- **C134 fails**: a constant times a normal density raises instead of answering no, though it is not constant. -/
theorem C134_mixed_raises (c : ℝ) (vs : List Var) : ∃ is L, IsFact ⟨vs, [⟨1, flat "x" c⟩, ⟨1, unit "y" 0⟩]⟩ is ∧
    HasJoint ⟨vs, [⟨1, flat "x" c⟩, ⟨1, unit "y" 0⟩]⟩ L ∧
    isVacuous ⟨vs, [⟨1, flat "x" c⟩, ⟨1, unit "y" 0⟩]⟩ = .error .notImplementedError ∧ ¬ ∀ x y, L x = L y := by
  have hf : IsFact ⟨vs, [⟨1, flat "x" c⟩, ⟨1, unit "y" 0⟩]⟩ _ := .cons (flat_den "x" c) (.cons (unit_den "y" 0) .nil)
  obtain ⟨L, h1, h2, -, h4⟩ := C134_factorised_partial _ _ hf (by simp) (by
    intro f hf
    simp only [List.mem_cons, List.not_mem_nil, or_false] at hf
    rcases hf with rfl | rfl
    · exact ⟨flat_clear _ _, by simp [flat]⟩
    · exact ⟨unit_clear _ _, by simp [unit]⟩)
  have h5 := h4.2 ⟨⟨_, List.mem_cons_self, flat_vac "x" c⟩, ⟨1, unit "y" 0⟩, by simp, rfl⟩
  refine ⟨_, L, hf, h1, h5, fun h => ?_⟩
  rw [← h2, h5] at h
  cases h

/-- The hypotheses of `C134_mixture_partial` can be met; a constant added to a density is not vacuous. -/
example (c : ℝ) : ∃ M Ls, Mix.IsMix M Ls ∧ M.vars ≠ [] ∧ (∀ d ∈ M.comps, Clear d) ∧ M.isVacuous = false :=
  ⟨⟨["x"], [⟨1, flat "x" c⟩, ⟨1, unit "x" 0⟩], 0⟩, _,
    ⟨by simp, .cons ⟨(flat_den "x" c).made, (flat_den "x" c).den, rfl⟩
      (.cons ⟨(unit_den "x" 0).made, (unit_den "x" 0).den, rfl⟩ .nil)⟩, by simp, by
    intro f hf
    simp only [List.mem_cons, List.not_mem_nil, or_false] at hf
    rcases hf with rfl | rfl
    · exact flat_clear _ _
    · exact unit_clear _ _, by simp [Mix.isVacuous, unit]⟩

end Fact
end Verif
