import Verif.ClusterInt
import Verif.IntList

/-!
# Exact marginals at convergence for lawful classes of continuous factors
-/

namespace Verif.CG
open Spec (override intOut integrateOut IntegrableOut integrableOut_iff integrateOut_eq_intOut)
open Classical MeasureTheory
open scoped ENNReal
variable {F V G : Type} {ops : Ops F V G}

/-- The product of the input factors, as a function of the unobserved variables: evidence and special
evidence are substituted. -/
noncomputable def posteriorI (L : PosLaws ops) (factors : List F) (evidence : Option (Dict Var V))
    (special : Dict Var V) (x : Var → ℝ) : ℝ :=
  (factors.map fun f => L.den f (override ((evidence.getD []).map fun e => (e.1, L.val e.2))
    (override (special.map fun e => (e.1, L.val e.2)) x))).prod

theorem posteriorI_pos (L : PosLaws ops) {factors : List F} (hok : ∀ f ∈ factors, L.Ok f)
    (evidence : Option (Dict Var V)) (special : Dict Var V) (x : Var → ℝ) :
    0 < posteriorI L factors evidence special x := by
  unfold posteriorI
  refine List.prod_pos ?_
  intro y hy
  obtain ⟨f, hf, rfl⟩ := List.mem_map.1 hy
  exact L.pos (hok f hf) _

theorem posteriorI_meas (L : PosLaws ops) {factors : List F} (hok : ∀ f ∈ factors, L.Ok f)
    (evidence : Option (Dict Var V)) (special : Dict Var V) :
    Measurable (posteriorI L factors evidence special) := by
  unfold posteriorI
  induction factors with
  | nil => exact measurable_const
  | cons f l ih =>
    simp only [List.map_cons, List.prod_cons]
    refine Measurable.mul ?_ (ih fun f hf => hok f (List.mem_cons_of_mem _ hf))
    exact (L.meas (hok f (List.mem_cons_self ..))).comp
      ((measurable_override L (evidence.getD [])).comp (measurable_override L special))

/-- Lawful classes of continuous factors: if the edges form no cycle, message passing has converged, the
belief of every cluster can be normalised and its marginals are integrals, then the posterior can be normalised and `get_marginal` of
unobserved variables returns a positive multiple of its integral over all other unobserved variables. -/
theorem exact_marginals_of [Zero G] (L : PosLaws ops) (hs : HashSeed) (factors : List F)
    (hok : ∀ f ∈ factors, L.Ok f) (evidence : Option (Dict Var V)) (special : Dict Var V) (a : Any F V G)
    (h : new hs ops factors evidence special = .ok a)
    (htree : (SimpleGraph.fromRel fun i j => ∃ s, sepset a.graph i j = some s).IsAcyclic)
    (tr : List (Fin a.m × F)) (g : Graph F V G a.n a.m) (hr : Run ops a.graph tr g)
    (hconv : ∀ q, ∃ c : ℝ, 0 < c ∧ ∀ x,
      L.den (g.path q).next.factor x = c * ((lastMsg tr q).map fun f => L.den f x).getD 1)
    (hnorm : ∀ i, ∃ l x, l.Nodup ∧ (∀ v, v ∈ l ↔ v ∈ scope ops a.graph i ∧ v ∉ Dict.keys special) ∧
      IntegrableOut l (fun y => L.den (g.cl i).factor (override (special.map fun e => (e.1, L.val e.2)) y)) x)
    (hat : ∀ i red, L.Ok red → (∀ v, v ∈ ops.vars red ↔ v ∈ freeVars ops a.graph i) →
      (∀ x, ENNReal.ofReal (L.den red x) = beliefI L a.graph g i x) →
      specialReduced ops (g.cl i) = .ok red ∨ observe ops special (g.cl i).factor = .ok red → IntAt L red)
    (vrs : List Var) (hn : vrs.Nodup) (hun : ∀ v ∈ vrs, v ∉ Dict.keys special) (r : F)
    (hm : getMarginal ops g vrs = .ok r) :
    ∃ c : ℝ, 0 < c ∧ ∀ out : List Var, out.Nodup →
      (∀ v, v ∈ out ↔ v ∈ hiddenVars ops factors evidence special ∧ v ∉ vrs) →
      ∀ x, IntegrableOut out (posteriorI L factors evidence special) x ∧
        L.den r x = c * integrateOut out (posteriorI L factors evidence special) x := by
  obtain ⟨w, hsp, _⟩ := wired_new h
  have inv := hr.inv w
  have b := hr.bel w (new_ok L.toLaws hok h)
  have hconv' : ConvergedI L tr g := by
    intro q
    obtain ⟨c, hc, hx⟩ := hconv q
    refine ⟨c, hc, fun x => ?_⟩
    rw [hx x]
    unfold mval
    cases lastMsg tr q <;> rfl
  have hnorm' : ∀ i, ∃ x, intOut (freeVars ops a.graph i) (beliefI L a.graph g i) x ≠ ∞ := by
    intro i
    obtain ⟨l, x, hl, hv, hi⟩ := hnorm i
    have hset : l.toFinset = freeVars ops a.graph i := by
      ext v; rw [List.mem_toFinset, hv, mem_freeVars, hsp]
    refine ⟨x, ?_⟩
    have hi' := (integrableOut_iff hl ((L.meas (b.ok i)).comp (measurable_override L special))
      (fun y => L.nonneg (b.ok i) _) x).1 hi
    rw [hset] at hi'
    unfold beliefI
    rw [hsp]
    exact hi'
  have hpost : ∀ y, posteriorI L factors evidence special y =
      ∏ i, L.den (a.graph.cl i).factor (override (evPairs L.toLaws a.graph.special) y) := by
    intro y
    rw [(C44_evidence L.toLaws hs factors hok evidence special a h).1, hsp]
    rfl
  rcases C53_get_marginal ops a.n a.m g vrs with ⟨_, he⟩ | ⟨i, hi, _, he⟩
  · rw [he] at hm; cases hm
  rw [he] at hm
  obtain ⟨f, h1, h2⟩ := py_bind_eq_ok.1 hm
  obtain ⟨f1, f2, f3⟩ := L.toLaws.observe (b.ok i) g.special h1
  rw [inv.special] at f2 f3
  have hsub : ∀ v ∈ vrs, v ∈ ops.vars f := fun v hv => (f2 v).2 ⟨hi v hv, by rw [hsp]; exact hun v hv⟩
  have hset : (ops.vars f).toFinset = freeVars ops a.graph i := by
    ext v; rw [List.mem_toFinset, f2, mem_freeVars, b.vars]
  have hB : (fun y => ENNReal.ofReal (L.den f y)) = beliefI L a.graph g i := by
    funext y
    rw [f3]
    rfl
  have hsum := hat i f f1 (fun v => by rw [← hset, List.mem_toFinset]) (congrFun hB) (.inr (by rw [← hsp, ← inv.special]; exact h1)) vrs r hn hsub h2
  rw [hset, hB] at hsum
  obtain ⟨_, c, hc0, hc1, hex⟩ := beliefI_exact w b hconv' (b.next_of w inv fun i red k1 k2 k3 k4 => hat i red k1 k2 k3 (.inl k4)) hnorm' htree (rip_free L.toLaws hok h) i hpost
  rw [biUnion_free L.toLaws hok h] at hex
  have hvf : ∀ v ∈ vrs, v ∈ freeVars ops a.graph i := fun v hv => by rw [← hset]; simpa using hsub v hv
  have hfh : freeVars ops a.graph i ⊆ hiddenVars ops factors evidence special := by
    rw [← biUnion_free L.toLaws hok h]
    exact Finset.subset_biUnion_of_mem (freeVars ops a.graph) (Finset.mem_univ i)
  have hsplit : hiddenVars ops factors evidence special \ vrs.toFinset =
      (freeVars ops a.graph i \ vrs.toFinset) ∪ (hiddenVars ops factors evidence special \ freeVars ops a.graph i) := by
    ext v
    simp only [Finset.mem_sdiff, Finset.mem_union, List.mem_toFinset]
    constructor
    · rintro ⟨h1, h2⟩
      by_cases h3 : v ∈ freeVars ops a.graph i
      · exact Or.inl ⟨h3, h2⟩
      · exact Or.inr ⟨h1, h3⟩
    · rintro (⟨h1, h2⟩ | ⟨h1, h2⟩)
      · exact ⟨hfh h1, h2⟩
      · exact ⟨h1, fun hv => h2 (hvf v hv)⟩
  have hdisj : Disjoint (freeVars ops a.graph i \ vrs.toFinset)
      (hiddenVars ops factors evidence special \ freeVars ops a.graph i) := by
    rw [Finset.disjoint_left]
    intro v h1 h2
    exact (Finset.mem_sdiff.1 h2).2 (Finset.mem_sdiff.1 h1).1
  have hPm := posteriorI_meas L hok evidence special
  have hP0 : ∀ y, 0 ≤ posteriorI L factors evidence special y := fun y => (posteriorI_pos L hok evidence special y).le
  have key : ∀ x, intOut (hiddenVars ops factors evidence special \ vrs.toFinset)
      (fun y => .ofReal (posteriorI L factors evidence special y)) x = c * .ofReal (L.den r x) := by
    intro x
    have hfun : lmarginal (fun _ => volume) (hiddenVars ops factors evidence special \ freeVars ops a.graph i)
        (fun y => ENNReal.ofReal (posteriorI L factors evidence special y)) =
        fun y => c * beliefI L a.graph g i y := funext hex
    rw [intOut, hsplit, lmarginal_union _ _ hPm.ennreal_ofReal hdisj, hfun, hsum x]
    exact Spec.intOut_mul_left (G := fun _ => c) (fun _ _ _ => rfl) (beliefI_meas b i) x
  have hc : 0 < c.toReal := ENNReal.toReal_pos hc0 hc1
  have hr0 : L.Ok r := (L.marg f1 hn hsub h2).1
  refine ⟨c.toReal⁻¹, by positivity, fun out hout hmem x => ?_⟩
  have hos : out.toFinset = hiddenVars ops factors evidence special \ vrs.toFinset := by
    ext v; simp [hmem]
  rw [integrableOut_iff hout hPm hP0, integrateOut_eq_intOut hout hPm hP0, hos, key]
  refine ⟨ENNReal.mul_ne_top hc1 ENNReal.ofReal_ne_top, ?_⟩
  rw [ENNReal.toReal_mul, ENNReal.toReal_ofReal (L.nonneg hr0 x), ← mul_assoc, inv_mul_cancel₀ hc.ne', one_mul]

/-- Lawful classes of continuous factors: if the edges form no cycle, message passing has converged, and the
belief of every cluster can be normalised, then the posterior can be normalised and `get_marginal` of
unobserved variables returns a positive multiple of its integral over all other unobserved variables. -/
theorem exact_marginals_int [Zero G] (L : IntLaws ops) (hs : HashSeed) (factors : List F)
    (hok : ∀ f ∈ factors, L.Ok f) (evidence : Option (Dict Var V)) (special : Dict Var V) (a : Any F V G)
    (h : new hs ops factors evidence special = .ok a)
    (htree : (SimpleGraph.fromRel fun i j => ∃ s, sepset a.graph i j = some s).IsAcyclic)
    (tr : List (Fin a.m × F)) (g : Graph F V G a.n a.m) (hr : Run ops a.graph tr g)
    (hconv : ∀ q, ∃ c : ℝ, 0 < c ∧ ∀ x,
      L.den (g.path q).next.factor x = c * ((lastMsg tr q).map fun f => L.den f x).getD 1)
    (hnorm : ∀ i, ∃ l x, l.Nodup ∧ (∀ v, v ∈ l ↔ v ∈ scope ops a.graph i ∧ v ∉ Dict.keys special) ∧
      IntegrableOut l (fun y => L.den (g.cl i).factor (override (special.map fun e => (e.1, L.val e.2)) y)) x)
    (vrs : List Var) (hn : vrs.Nodup) (hun : ∀ v ∈ vrs, v ∉ Dict.keys special) (r : F)
    (hm : getMarginal ops g vrs = .ok r) :
    ∃ c : ℝ, 0 < c ∧ ∀ out : List Var, out.Nodup →
      (∀ v, v ∈ out ↔ v ∈ hiddenVars ops factors evidence special ∧ v ∉ vrs) →
      ∀ x, IntegrableOut out (posteriorI L.toPosLaws factors evidence special) x ∧
        L.den r x = c * integrateOut out (posteriorI L.toPosLaws factors evidence special) x := by
  obtain ⟨w, hsp, _⟩ := wired_new h
  have b := hr.bel w (new_ok L.toLaws hok h)
  refine exact_marginals_of L.toPosLaws hs factors hok evidence special a h htree tr g hr hconv hnorm
    (fun i red h1 h2 h3 _ vrs r hn hv hm => L.int h1 hn hv hm ?_) vrs hn hun r hm
  obtain ⟨l, x, hl, hv, hi⟩ := hnorm i
  have hset : l.toFinset = freeVars ops a.graph i := by
    ext v; rw [List.mem_toFinset, hv, mem_freeVars, hsp]
  have hset' : (ops.vars red).toFinset = freeVars ops a.graph i := by
    ext v; rw [List.mem_toFinset, h2]
  refine ⟨x, ?_⟩
  have hi' := (integrableOut_iff hl ((L.meas (b.ok i)).comp (measurable_override L.toPosLaws special))
    (fun y => L.nonneg (b.ok i) _) x).1 hi
  rw [hset', show (fun y => ENNReal.ofReal (L.den red y)) = _ from funext h3]
  rw [hset] at hi'
  unfold beliefI
  rw [hsp]
  exact hi'

end Verif.CG
