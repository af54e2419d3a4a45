import Verif.ClusterGaussSemi
import Verif.ClusterProps8

/-!
# Linear Gaussian networks: no failures (C116), convergence (C117), exact marginals (C118)

Conditional distributions cannot be normalised over all of their variables, so C87, C88 and C89 do not apply to
networks built from them.
-/

namespace Verif.CG
open Spec (override intOut IntegrableOut integrateOut)
open Gauss (AnyG Made Denotes Good canOf)
open MeasureTheory Classical
open scoped ENNReal

variable {hs : HashSeed}

/-- What is assumed of the input factors: built by some sequence of calls; `log_potential` is the function `D f`;
given the evidence there is an unobserved variable, the function is bounded above, it can be integrated over all but
any one of its unobserved variables, and its second difference in the direction of some variable is beyond the
tolerance of `is_vacuous`. -/
structure Local (D : AnyG → (Var → ℝ) → ℝ) (evidence : Option (Dict Var ℝ)) (special : Dict Var ℝ) (f : AnyG) : Prop where
  made : Made f.2
  den : Denotes f.2 (D f)
  cov : f.2.can = none → ∀ v, f.2.cov = some v → v.cov.PosDef
  free : ∃ v ∈ f.2.vars, v ∉ Dict.keys (evidence.getD []) ∧ v ∉ Dict.keys special
  bdd : ∃ C : ℝ, ∀ x, D f (override (evidence.getD []) (override special x)) ≤ C
  int : ∀ v ∈ f.2.vars, v ∉ Dict.keys (evidence.getD []) → v ∉ Dict.keys special → ∃ l x, l.Nodup ∧
    (∀ w, w ∈ l ↔ w ∈ f.2.vars ∧ w ∉ Dict.keys (evidence.getD []) ∧ w ∉ Dict.keys special ∧ w ≠ v) ∧
    IntegrableOut l (fun z => Real.exp (D f (override (evidence.getD []) (override special z)))) x
  sharp : ∃ v, D f (override (evidence.getD []) (override special (Pi.single v 1))) +
    D f (override (evidence.getD []) (override special (-Pi.single v 1))) -
    2 * D f (override (evidence.getD []) (override special 0)) < -(1 / 100000000)

section
variable {factors : List AnyG} {D : AnyG → (Var → ℝ) → ℝ} {evidence : Option (Dict Var ℝ)} {special : Dict Var ℝ}

theorem evPairs_gauss (ev : Dict Var ℝ) : evPairs (gaussLaws hs).toLaws ev = ev := by
  simp [evPairs, gaussLaws]

theorem Local.ok {f : AnyG} (h : Local D evidence special f) : GaussOk f := ⟨h.made, h.den.good h.made.inv, h.cov⟩

theorem Local.nice {f : AnyG} (h : Local D evidence special f) : NiceIn (gaussSemi hs) evidence special f := by
  have e : ∀ x, given (gaussLaws hs).toLaws evidence (override (evPairs (gaussLaws hs).toLaws special) x) =
      override (evidence.getD []) (override special x) := by
    intro x
    unfold given
    rw [evPairs_gauss, evPairs_gauss]
  have e2 : ∀ x, override (evidence.getD []) (override special x) = override (evidence.getD [] ++ special) x := by
    intro x
    funext v
    unfold override
    rw [List.find?_append]
    cases List.find? (fun e => decide (e.1 = v)) (evidence.getD []) <;> rfl
  have hd : ∀ x, gaussDen f x = Real.exp (D f x) := gaussDen_of h.den
  refine ⟨h.ok, h.free, ?_, ?_⟩
  · obtain ⟨v, hv⟩ := h.sharp
    refine ⟨v, ?_⟩
    simp only [e]
    show Real.log (gaussDen f _) + Real.log (gaussDen f _) - 2 * Real.log (gaussDen f _) < _
    rw [hd, hd, hd, Real.log_exp, Real.log_exp, Real.log_exp]
    exact hv
  · simp only [e, e2]
    obtain ⟨C, hC⟩ := h.bdd
    refine boundedInt_gauss (B := Real.exp C) h.ok ?_ (fun x => ?_) ?_
    · intro v hv
      simp only [Finset.mem_sdiff, List.mem_toFinset] at hv
      simp only [List.map_append, List.mem_append]
      rintro (h1 | h1)
      · exact hv.1.2 h1
      · exact hv.2 h1
    · rw [hd, ← e2]
      exact Real.exp_le_exp.2 (hC x)
    · intro v hv
      simp only [Finset.mem_sdiff, List.mem_toFinset] at hv
      obtain ⟨l, x, hn, hl, hi⟩ := h.int v hv.1.1 hv.1.2 hv.2
      have hm : Measurable fun z => gaussDen f (override (evidence.getD []) (override special z)) := by
        have h1 := (gaussDen_meas h.ok).comp ((measurable_override (gaussLaws hs).toPosLaws (evidence.getD [])).comp
          (measurable_override (gaussLaws hs).toPosLaws special))
        simp only [evPairs_gauss] at h1
        exact h1
      have hset : l.toFinset = ((((gaussOps hs).vars f).toFinset \ (Dict.keys (evidence.getD [])).toFinset) \
          (Dict.keys special).toFinset).erase v := by
        ext w
        simp only [List.mem_toFinset, hl, Finset.mem_erase, Finset.mem_sdiff]
        constructor
        · rintro ⟨h1, h2, h3, h4⟩; exact ⟨h4, ⟨h1, h2⟩, h3⟩
        · rintro ⟨h4, ⟨h1, h2⟩, h3⟩; exact ⟨h1, h2, h3, h4⟩
      refine ⟨x, ?_⟩
      rw [← hset]
      simp only [← e2]
      refine (Spec.integrableOut_iff hn hm (fun y => (gaussDen_pos h.ok _).le) x).1 ?_
      simp only [hd]
      exact hi

/-- Any two factors have at most one unobserved variable in common. -/
def FewShared (factors : List AnyG) (evidence : Option (Dict Var ℝ)) (special : Dict Var ℝ) : Prop :=
  factors.Pairwise fun f g => ∀ u v, u ∈ f.2.vars → u ∈ g.2.vars → v ∈ f.2.vars → v ∈ g.2.vars →
    u ∉ Dict.keys (evidence.getD []) → u ∉ Dict.keys special → v ∉ Dict.keys (evidence.getD []) → v ∉ Dict.keys special →
    u = v

theorem FewShared.share (h : FewShared factors evidence special) :
    factors.Pairwise fun f g => ShareOne (evidenceVars evidence special) ((gaussOps hs).vars f) ((gaussOps hs).vars g) := by
  refine List.Pairwise.imp ?_ h
  intro f g hfg u v h1 h2 h3 h4 h5 h6
  rw [mem_evidenceVars] at h3 h6
  have key : ∀ z, ¬ Observed evidence special z → z ∉ Dict.keys (evidence.getD []) ∧ z ∉ Dict.keys special := by
    intro z hz
    refine ⟨fun hk => hz (Or.inr ?_), fun hk => hz (Or.inl hk)⟩
    cases evidence with
    | none => cases hk
    | some ev => exact ⟨ev, rfl, hk⟩
  exact hfg u v h1 h2 h4 h5 (key u h3).1 (key u h3).2 (key v h6).1 (key v h6).2

theorem local_start (hp : ∀ f ∈ factors, Local D evidence special f) (hsh : FewShared factors evidence special)
    {a : Any AnyG ℝ EReal} (h : new hs (gaussOps hs) factors evidence special = .ok a) :
    SemiStart (gaussSemi hs) a.graph :=
  (gaussSemi hs).start (fun f hf => (hp f hf).nice) hsh.share h

/-- **C116.** Linear Gaussian networks, clusters sharing at most one unobserved variable: building the cluster graph
returns; and after any execution - on any graph, with or without cycles - passing any message, running
`process_graph` (on a graph with more than one cluster) and querying one or more unobserved variables of one input
factor all return. -/
theorem C116_linear_gaussian_never_fails_partial (hs : HashSeed) (factors : List AnyG) (D : AnyG → (Var → ℝ) → ℝ)
    (evidence : Option (Dict Var ℝ)) (special : Dict Var ℝ) (hp : ∀ f ∈ factors, Local D evidence special f)
    (hsh : FewShared factors evidence special) :
    ∃ a, new hs (gaussOps hs) factors evidence special = .ok a ∧
      ∀ tr g, Run (gaussOps hs) a.graph tr g →
        (∀ q, ∃ g', pass (gaussOps hs) g q = .ok g') ∧
        (a.n ≠ 1 → ∀ tol maxIter, ∃ g', processGraph (gaussOps hs) tol maxIter g = .ok g') ∧
        (∀ f ∈ factors, ∀ vrs : List Var, vrs.Nodup → vrs ≠ [] → (∀ v ∈ vrs, v ∈ f.2.vars ∧
          v ∉ Dict.keys (evidence.getD []) ∧ v ∉ Dict.keys special) →
          ∃ r, getMarginal (gaussOps hs) g vrs = .ok r) := by
  obtain ⟨a, ha⟩ := (gaussSemi hs).new hs evidence special fun f hf => (hp f hf).nice
  obtain ⟨w, hsp, _⟩ := wired_new ha
  have st := local_start hp hsh ha
  refine ⟨a, ha, fun tr g hr => ⟨fun q => st.step w hr q, fun hn tol k =>
    process_of w (fun tr g hr q => st.step w hr q) hn tol k hr, ?_⟩⟩
  intro f hf vrs hn hne hv
  obtain ⟨i, hi⟩ := new_covers (gaussLaws hs).toLaws (fun f hf => (hp f hf).ok) ha hf
  refine st.answer w hr hn hne ⟨i, fun v hvv => hi v (hv v hvv).1 (hv v hvv).2.1⟩ fun v hvv => ?_
  rw [hsp]
  exact (hv v hvv).2.2

/-- **C117.** Linear Gaussian networks on cluster graphs without cycles: for every `tol >= 0` and `max_iter` at least
the number of clusters, `process_graph` - started after any execution - ends with every information gain at most
`tol`, whatever order the queue had. -/
theorem C117_linear_gaussian_converges (hs : HashSeed) (factors : List AnyG) (D : AnyG → (Var → ℝ) → ℝ)
    (evidence : Option (Dict Var ℝ)) (special : Dict Var ℝ) (hp : ∀ f ∈ factors, Local D evidence special f)
    (hsh : FewShared factors evidence special)
    (a : Any AnyG ℝ EReal) (h : new hs (gaussOps hs) factors evidence special = .ok a) (hn : a.n ≠ 1)
    (htree : (SimpleGraph.fromRel fun i j => ∃ s, sepset a.graph i j = some s).IsAcyclic)
    (tol : EReal) (htol : 0 ≤ tol) (maxIter : Nat) (hbud : a.n ≤ maxIter)
    (tr : List (Fin a.m × AnyG)) (g : Graph AnyG ℝ EReal a.n a.m) (hr : Run (gaussOps hs) a.graph tr g) :
    ∃ g', processGraph (gaussOps hs) tol maxIter g = .ok g' ∧ ∀ q, (g'.path q).gain ≤ tol := by
  obtain ⟨w, hsp, _⟩ := wired_new h
  have st := local_start hp hsh h
  obtain ⟨g', hg'⟩ := process_of w (fun tr g hr q => st.step w hr q) hn tol maxIter hr
  refine ⟨g', hg', ?_⟩
  refine process_converges_int (L := (gaussLaws hs).toPosLaws) w (fun i => (st.nice i).ok) (st.allNext w) htree ?_ hn hbud hr hg'
  intro tr g q hr hq hc
  exact absurd (semi_clean_gain w st hr hc) (not_le.2 (lt_of_le_of_lt htol hq))

/-- **C117**, exact convergence: after any execution, at most `m (n - 1)` further messages (`m` paths, `n` clusters)
bring a graph without cycles into a state where every next message is a positive multiple of the last one passed
along its path. -/
theorem C117_exact_convergence (hs : HashSeed) (factors : List AnyG) (D : AnyG → (Var → ℝ) → ℝ)
    (evidence : Option (Dict Var ℝ)) (special : Dict Var ℝ) (hp : ∀ f ∈ factors, Local D evidence special f)
    (hsh : FewShared factors evidence special)
    (a : Any AnyG ℝ EReal) (h : new hs (gaussOps hs) factors evidence special = .ok a)
    (htree : (SimpleGraph.fromRel fun i j => ∃ s, sepset a.graph i j = some s).IsAcyclic)
    (tr : List (Fin a.m × AnyG)) (g : Graph AnyG ℝ EReal a.n a.m) (hr : Run (gaussOps hs) a.graph tr g) :
    ∃ ext g', ext.length ≤ a.m * (a.n - 1) ∧ Run (gaussOps hs) a.graph (tr ++ ext) g' ∧
      ∀ q, ∃ c : ℝ, 0 < c ∧ ∀ x,
        gaussDen (g'.path q).next.factor x = c * ((lastMsg (tr ++ ext) q).map fun f => gaussDen f x).getD 1 := by
  obtain ⟨w, hsp, _⟩ := wired_new h
  have st := local_start hp hsh h
  obtain ⟨ext, g', h1, h2, h3⟩ := converge_exact (L := (gaussLaws hs).toPosLaws) w htree (fun i => (st.nice i).ok) (st.allNext w)
    (fun tr g hr q => st.step w hr q) hr
  refine ⟨ext, g', h1, h2, fun q => ?_⟩
  obtain ⟨c, hc, hx⟩ := h3 q
  refine ⟨c, hc, fun x => (hx x).trans ?_⟩
  unfold mval
  cases lastMsg (tr ++ ext) q <;> rfl

/-- **C118.** Linear Gaussian networks on cluster graphs without cycles, with a posterior that can be normalised:
once no message has new content, every query of one or more unobserved variables of one input factor returns, and
the answer is a positive multiple of the exact posterior marginal. -/
theorem C118_linear_gaussian_exact (hs : HashSeed) (factors : List AnyG) (D : AnyG → (Var → ℝ) → ℝ)
    (evidence : Option (Dict Var ℝ)) (special : Dict Var ℝ) (hp : ∀ f ∈ factors, Local D evidence special f)
    (hsh : FewShared factors evidence special)
    (P : (Var → ℝ) → ℝ) (hP : ∀ x, P x = Real.exp ((factors.map fun f => D f (override (evidence.getD [])
      (override special x))).sum))
    (hpost : ∃ l x, l.Nodup ∧ (∀ v, v ∈ l ↔ Hidden factors evidence special v) ∧ IntegrableOut l P x)
    (a : Any AnyG ℝ EReal) (h : new hs (gaussOps hs) factors evidence special = .ok a)
    (htree : (SimpleGraph.fromRel fun i j => ∃ s, sepset a.graph i j = some s).IsAcyclic)
    (tr : List (Fin a.m × AnyG)) (g : Graph AnyG ℝ EReal a.n a.m) (hr : Run (gaussOps hs) a.graph tr g)
    (hconv : ∀ q, ∃ c : ℝ, 0 < c ∧ ∀ x,
      gaussDen (g.path q).next.factor x = c * ((lastMsg tr q).map fun f => gaussDen f x).getD 1)
    (f : AnyG) (hf : f ∈ factors) (vrs : List Var) (hnv : vrs.Nodup) (hne : vrs ≠ [])
    (hv : ∀ v ∈ vrs, v ∈ f.2.vars ∧ v ∉ Dict.keys (evidence.getD []) ∧ v ∉ Dict.keys special) :
    ∃ r, getMarginal (gaussOps hs) g vrs = .ok r ∧ ∃ c : ℝ, 0 < c ∧ ∀ out : List Var, out.Nodup →
      (∀ v, v ∈ out ↔ Hidden factors evidence special v ∧ v ∉ vrs) →
      ∀ x, IntegrableOut out P x ∧ gaussDen r x = c * integrateOut out P x := by
  obtain ⟨w, hsp, _⟩ := wired_new h
  have st := local_start hp hsh h
  have b := hr.bel w fun i => (st.nice i).ok
  obtain ⟨i, hi⟩ := new_covers (gaussLaws hs).toLaws (fun f hf => (hp f hf).ok) h hf
  obtain ⟨r, hm⟩ := st.answer w hr hnv hne ⟨i, fun v hvv => hi v (hv v hvv).1 (hv v hvv).2.1⟩ fun v hvv => by
    rw [hsp]
    exact (hv v hvv).2.2
  refine ⟨r, hm, ?_⟩
  have hok : ∀ f ∈ factors, (gaussLaws hs).Ok f := fun f hf => (hp f hf).ok
  have hpo := posteriorI_gauss (hs := hs) (fun f hf => (hp f hf).den) hP
  have hconv' : ConvergedI (gaussLaws hs).toPosLaws tr g := by
    intro q
    obtain ⟨c, hc, hx⟩ := hconv q
    refine ⟨c, hc, fun x => (hx x).trans ?_⟩
    unfold mval
    cases lastMsg tr q <;> rfl
  have hJ : ∀ y, P y = ∏ i, (gaussLaws hs).den (a.graph.cl i).factor
      (override (evPairs (gaussLaws hs).toLaws a.graph.special) y) := by
    intro y
    rw [(C44_evidence (gaussLaws hs).toLaws hs factors hok evidence special a h).1, hsp, ← hpo]
    rfl
  have hbel := fun i => beliefI_norm w b hconv' (st.allNext w tr g hr) htree (rip_free (gaussLaws hs).toLaws hok h) hJ (by
    obtain ⟨l, x, h1, h2, h3⟩ := hpost
    refine ⟨x, ?_⟩
    rw [biUnion_free (gaussLaws hs).toLaws hok h]
    have hset : l.toFinset = hiddenVars (gaussOps hs) factors evidence special := by
      ext v
      rw [List.mem_toFinset, h2, mem_hiddenG]
    rw [← hset]
    rw [← hpo] at h3 ⊢
    exact (Spec.integrableOut_iff h1 (posteriorI_meas (gaussLaws hs).toPosLaws hok evidence special)
      (fun y => (posteriorI_pos (gaussLaws hs).toPosLaws hok evidence special y).le) x).1 h3) i
  refine C87_gaussian_exact hs factors (fun f hf => (hp f hf).made) (fun f hf => (hp f hf).cov) D
    (fun f hf => (hp f hf).den) evidence special a h htree tr g hr hconv ?_ P hP vrs hnv (fun v h => (hv v h).2.2) r hm
  intro i
  obtain ⟨x, hx⟩ := hbel i
  have hnd : (scope (gaussOps hs) a.graph i).Nodup := (gaussLaws hs).nodup (st.nice i).ok
  refine ⟨(scope (gaussOps hs) a.graph i).filter fun v => v ∉ Dict.keys special, x, hnd.filter _, fun v => by simp, ?_⟩
  refine (Spec.integrableOut_iff (hnd.filter _) ?_ (fun y => (gaussDen_pos (b.ok i) _).le) x).2 ?_
  · have := ((gaussLaws hs).meas (b.ok i)).comp (measurable_override (gaussLaws hs).toPosLaws special)
    simp only [evPairs_gauss] at this
    exact this
  · have hset : ((scope (gaussOps hs) a.graph i).filter fun v => v ∉ Dict.keys special).toFinset =
        freeVars (gaussOps hs) a.graph i := by
      ext v; simp [mem_freeVars, hsp]
    rw [hset]
    have e : beliefI (gaussLaws hs).toPosLaws a.graph g i = fun y => ENNReal.ofReal (gaussDen (g.cl i).factor (override special y)) := by
      funext y
      unfold beliefI
      rw [hsp, evPairs_gauss]
      rfl
    rw [e] at hx
    exact hx

end
end Verif.CG
