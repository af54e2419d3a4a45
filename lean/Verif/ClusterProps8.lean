import Verif.ClusterIntConverge
import Verif.ClusterExamples

/-!
# Cluster graphs of Gaussian factors: exact marginals (C87), no failures (C88), convergence (C89)

The value of a factor at a named point is what its `potential` method returns (`gaussDen`).
-/

namespace Verif.CG
open Spec (override intOut IntegrableOut integrateOut)
open Gauss (AnyG Made Denotes Good canOf)
open MeasureTheory Classical
open scoped ENNReal

variable {hs : HashSeed}

/-- The unobserved variables of the factors, named once. -/
def Hidden (factors : List AnyG) (evidence : Option (Dict Var ℝ)) (special : Dict Var ℝ) (v : Var) : Prop :=
  (∃ f ∈ factors, v ∈ f.2.vars) ∧ v ∉ Dict.keys (evidence.getD []) ∧ v ∉ Dict.keys special

theorem mem_hiddenG {factors : List AnyG} {evidence : Option (Dict Var ℝ)} {special : Dict Var ℝ} {v : Var} :
    v ∈ hiddenVars (gaussOps hs) factors evidence special ↔ Hidden factors evidence special v := by
  unfold hiddenVars Hidden
  simp [gaussOps]

theorem posteriorI_gauss {factors : List AnyG} {D : AnyG → (Var → ℝ) → ℝ}
    (hden : ∀ f ∈ factors, Denotes f.2 (D f)) {evidence : Option (Dict Var ℝ)} {special : Dict Var ℝ}
    {P : (Var → ℝ) → ℝ} (hP : ∀ x, P x = Real.exp ((factors.map fun f => D f (override (evidence.getD [])
      (override special x))).sum)) : posteriorI (gaussLaws hs).toPosLaws factors evidence special = P := by
  funext x
  rw [hP]
  unfold posteriorI
  simp only [gaussLaws, id_eq, Prod.mk.eta, List.map_id']
  clear hP
  induction factors with
  | nil => simp
  | cons f l ih =>
    rw [List.map_cons, List.prod_cons, List.map_cons, List.sum_cons, Real.exp_add,
      ih fun f hf => hden f (List.mem_cons_of_mem _ hf), gaussDen_of (hden f (List.mem_cons_self ..))]

/-- **C87.** Gaussian factors, any schedule: if the edges of the cluster graph form no cycle, every next message
is a positive multiple of the last message passed along its path, and the beliefs can be normalised, then the
product of the factors given the evidence can be integrated over the unobserved variables, and `get_marginal`
returns a positive multiple of its integral over all unobserved variables other than the queried ones. -/
theorem C87_gaussian_exact (hs : HashSeed) (factors : List AnyG) (hmade : ∀ f ∈ factors, Made f.2)
    (hcov : ∀ f ∈ factors, f.2.can = none → ∀ v, f.2.cov = some v → v.cov.PosDef)
    (D : AnyG → (Var → ℝ) → ℝ) (hden : ∀ f ∈ factors, Denotes f.2 (D f))
    (evidence : Option (Dict Var ℝ)) (special : Dict Var ℝ) (a : Any AnyG ℝ EReal)
    (h : new hs (gaussOps hs) factors evidence special = .ok a)
    (htree : (SimpleGraph.fromRel fun i j => ∃ s, sepset a.graph i j = some s).IsAcyclic)
    (tr : List (Fin a.m × AnyG)) (g : Graph AnyG ℝ EReal a.n a.m) (hr : Run (gaussOps hs) a.graph tr g)
    (hconv : ∀ q, ∃ c : ℝ, 0 < c ∧ ∀ x,
      gaussDen (g.path q).next.factor x = c * ((lastMsg tr q).map fun f => gaussDen f x).getD 1)
    (hnorm : ∀ i, ∃ l x, l.Nodup ∧ (∀ v, v ∈ l ↔ v ∈ scope (gaussOps hs) a.graph i ∧ v ∉ Dict.keys special) ∧
      IntegrableOut l (fun y => gaussDen (g.cl i).factor (override special y)) x)
    (P : (Var → ℝ) → ℝ) (hP : ∀ x, P x = Real.exp ((factors.map fun f => D f (override (evidence.getD [])
      (override special x))).sum))
    (vrs : List Var) (hn : vrs.Nodup) (hun : ∀ v ∈ vrs, v ∉ Dict.keys special) (r : AnyG)
    (hm : getMarginal (gaussOps hs) g vrs = .ok r) :
    ∃ c : ℝ, 0 < c ∧ ∀ out : List Var, out.Nodup → (∀ v, v ∈ out ↔ Hidden factors evidence special v ∧ v ∉ vrs) →
      ∀ x, IntegrableOut out P x ∧ gaussDen r x = c * integrateOut out P x := by
  have hok : ∀ f ∈ factors, (gaussLaws hs).Ok f := fun f hf =>
    ⟨hmade f hf, (hden f hf).good (hmade f hf).inv, hcov f hf⟩
  obtain ⟨c, hc, hall⟩ := exact_marginals_int (gaussLaws hs) hs factors hok evidence special a h htree tr g hr hconv
    (by
      intro i
      obtain ⟨l, x, h1, h2, h3⟩ := hnorm i
      refine ⟨l, x, h1, h2, ?_⟩
      have e : (special.map fun e => (e.1, (gaussLaws hs).val e.2)) = special := by
        simp [gaussLaws]
      rw [e]
      exact h3) vrs hn hun r hm
  rw [posteriorI_gauss hden hP] at hall
  exact ⟨c, hc, fun out ho hmem => hall out ho fun v => by rw [hmem, mem_hiddenG]⟩

/-! ### Factors that can be normalised -/

/-- What is assumed of the input factors in C88, C89 and the total form of C87: built by some sequence of calls,
`log_potential` is the function `D f`, and its exponential has a finite integral over the factor's variables. -/
structure Proper (f : AnyG) (D : AnyG → (Var → ℝ) → ℝ) : Prop where
  made : Made f.2
  den : Denotes f.2 (D f)
  int : ∃ x, IntegrableOut f.2.vars (fun z => Real.exp (D f z)) x

theorem Proper.ok {f : AnyG} {D : AnyG → (Var → ℝ) → ℝ} (hp : Proper f D) :
    (gaussLaws hs).Ok f ∧ Norm (gaussLaws hs) f := by
  obtain ⟨x, hx⟩ := hp.int
  obtain ⟨h1, h2⟩ := gaussOk_of_int hp.made hp.den hx
  exact ⟨h1, (gauss_norm h1).2 h2⟩

section
variable {factors : List AnyG} {D : AnyG → (Var → ℝ) → ℝ} {evidence : Option (Dict Var ℝ)} {special : Dict Var ℝ}

theorem gauss_start (hp : ∀ f ∈ factors, Proper f D)
    (hx : ∀ f ∈ factors, ∃ v ∈ f.2.vars, v ∉ Dict.keys (evidence.getD []) ∧ v ∉ Dict.keys special)
    {a : Any AnyG ℝ EReal} (h : new hs (gaussOps hs) factors evidence special = .ok a) :
    (∀ i, (gaussLaws hs).Ok (a.graph.cl i).factor) ∧
    (∀ i, ∃ x, intOut (freeVars (gaussOps hs) a.graph i) (beliefI (gaussLaws hs).toPosLaws a.graph a.graph i) x ≠ ∞) ∧
    ∀ i, ∃ v ∈ scope (gaussOps hs) a.graph i, v ∉ Dict.keys a.graph.special := by
  obtain ⟨h1, h2⟩ := (gaussTotal hs).start (fun f hf => (hp f hf).ok) hx h
  exact ⟨new_ok (gaussLaws hs).toLaws (fun f hf => (hp f hf).ok.1) h, h1, h2⟩

/-- **C88.** If every Gaussian factor has a finite integral and keeps an unobserved variable, then building the
cluster graph returns; and after any execution - on any graph, with or without cycles - passing any message,
running `process_graph` (on a graph with more than one cluster) and querying any unobserved variables of one input
factor all return, and every belief, as a function of its unobserved variables, and every next message still has
a finite integral. -/
theorem C88_gaussian_never_fails (hs : HashSeed) (factors : List AnyG) (D : AnyG → (Var → ℝ) → ℝ)
    (hp : ∀ f ∈ factors, Proper f D) (evidence : Option (Dict Var ℝ)) (special : Dict Var ℝ)
    (hx : ∀ f ∈ factors, ∃ v ∈ f.2.vars, v ∉ Dict.keys (evidence.getD []) ∧ v ∉ Dict.keys special) :
    ∃ a, new hs (gaussOps hs) factors evidence special = .ok a ∧
      ∀ tr g, Run (gaussOps hs) a.graph tr g →
        (∀ q, ∃ g', pass (gaussOps hs) g q = .ok g') ∧
        (a.n ≠ 1 → ∀ tol maxIter, ∃ g', processGraph (gaussOps hs) tol maxIter g = .ok g') ∧
        (∀ f ∈ factors, ∀ vrs : List Var, vrs.Nodup → (∀ v ∈ vrs, v ∈ f.2.vars ∧
          v ∉ Dict.keys (evidence.getD []) ∧ v ∉ Dict.keys special) →
          ∃ r, getMarginal (gaussOps hs) g vrs = .ok r) ∧
        (∀ i, ∃ l x, l.Nodup ∧ (∀ v, v ∈ l ↔ v ∈ scope (gaussOps hs) a.graph i ∧ v ∉ Dict.keys special) ∧
          IntegrableOut l (fun y => gaussDen (g.cl i).factor (override special y)) x) ∧
        ∀ q, ∃ x, IntegrableOut (g.path q).next.factor.2.vars (gaussDen (g.path q).next.factor) x := by
  have T := gaussTotal hs
  have hok : ∀ f ∈ factors, (gaussLaws hs).Ok f ∧ Norm (gaussLaws hs) f := fun f hf => (hp f hf).ok
  obtain ⟨a, ha⟩ := T.new hs hok evidence special hx
  obtain ⟨w, hsp, _⟩ := wired_new ha
  obtain ⟨hok0, h0, hfree⟩ := gauss_start hp hx ha
  refine ⟨a, ha, fun tr g hr => ⟨fun q => T.step w hok0 h0 hfree hr q, fun hn tol k =>
    process_of w (fun tr g hr q => T.step w hok0 h0 hfree hr q) hn tol k hr, ?_, ?_, ?_⟩⟩
  · intro f hf vrs hn hv
    obtain ⟨i, hi⟩ := new_covers (gaussLaws hs).toLaws (fun f hf => (hok f hf).1) ha hf
    refine T.getMarginal w hok0 h0 hfree hr hn ⟨i, fun v hvv => hi v (hv v hvv).1 (hv v hvv).2.1⟩ fun v hvv => ?_
    rw [hsp]
    exact (hv v hvv).2.2
  · intro i
    have b := hr.bel w hok0
    obtain ⟨x, hx⟩ := T.beliefs w hok0 h0 hfree hr i
    refine ⟨(scope (gaussOps hs) a.graph i).filter fun v => v ∉ Dict.keys special, x,
      ((gaussLaws hs).nodup (hok0 i)).filter _, fun v => by simp, ?_⟩
    refine (Spec.integrableOut_iff (((gaussLaws hs).nodup (hok0 i)).filter _) ?_ ?_ x).2 ?_
    · have := ((gaussLaws hs).meas (b.ok i)).comp (measurable_override (gaussLaws hs).toPosLaws special)
      simpa [gaussLaws, evPairs, Function.comp_def] using this
    · exact fun y => ((gaussLaws hs).nonneg (b.ok i) _)
    · have hset : ((scope (gaussOps hs) a.graph i).filter fun v => v ∉ Dict.keys special).toFinset =
          freeVars (gaussOps hs) a.graph i := by
        ext v; simp [mem_freeVars, hsp]
      rw [show (gaussOps hs).vars (a.graph.cl i).factor = scope (gaussOps hs) a.graph i from rfl, hset]
      have e : beliefI (gaussLaws hs).toPosLaws a.graph g i = fun y => ENNReal.ofReal (gaussDen (g.cl i).factor (override special y)) := by
        funext y
        unfold beliefI evPairs
        rw [hsp]
        simp [gaussLaws]
      rw [e] at hx
      exact hx
  · intro q
    have b := hr.bel w hok0
    have inv := hr.inv w
    obtain ⟨⟨x, hx⟩, -⟩ := T.next_norm w inv b (T.msgs w hok0 h0 hfree hr) h0 hfree q
    obtain ⟨rv, hr1, hr2, hr3⟩ := w.rev q
    obtain ⟨n1, -⟩ := b.next w inv hr1 hr2 hr3
    refine ⟨x, (Spec.integrableOut_iff ((gaussLaws hs).nodup n1) ((gaussLaws hs).meas n1)
      ((gaussLaws hs).nonneg n1) x).2 hx⟩

/-- A next message of the same shape as the last one carries no information. -/
theorem gauss_clean_gain {n m : Nat} {evVars : List Var} {g0 g : Graph AnyG ℝ EReal n m} {tr : List (Fin m × AnyG)}
    (w : Wired (gaussOps hs) evVars g0) (hok : ∀ i, (gaussLaws hs).Ok (g0.cl i).factor)
    (h0 : ∀ i, ∃ x, intOut (freeVars (gaussOps hs) g0 i) (beliefI (gaussLaws hs).toPosLaws g0 g0 i) x ≠ ∞)
    (hfree : ∀ i, ∃ v ∈ scope (gaussOps hs) g0 i, v ∉ Dict.keys g0.special)
    (hr : Run (gaussOps hs) g0 tr g) {q : Fin m} (hsep : sepOf g0 q ≠ [])
    (hc : CleanI (gaussLaws hs).toPosLaws tr g q) : (g.path q).gain ≤ 0 := by
  have T := gaussTotal hs
  have inv := hr.inv w
  have b := hr.bel w hok
  have hN := T.msgs w hok h0 hfree hr
  obtain ⟨hn1, hn2⟩ := T.next_norm w inv b hN h0 hfree q
  obtain ⟨rv, hr1, hr2, hr3⟩ := w.rev q
  obtain ⟨n1, -⟩ := b.next w inv hr1 hr2 hr3
  obtain ⟨c, c0, cx⟩ := hc
  rcases inv.gain q with hg | ⟨hg, hp⟩
  swap
  · exact le_of_eq hg
  unfold mval at cx
  cases hp : (g.path q).prev with
  | none =>
    have hl : lastMsg tr q = none := by rw [← inv.prev, hp]; rfl
    rw [hl] at cx
    obtain ⟨x, hx⟩ := hn1
    exfalso
    apply hx
    have hnd : ((gaussOps hs).vars (g.path q).next.factor).Nodup := (gaussLaws hs).nodup n1
    have hlen : 0 < ((gaussOps hs).vars (g.path q).next.factor).length := by
      rw [hn2]; exact List.length_pos_iff.2 hsep
    rw [Spec.intOut_list hnd]
    have e : ∀ y, ENNReal.ofReal ((gaussLaws hs).den (g.path q).next.factor y) = ENNReal.ofReal c := by
      intro y
      rw [cx]
      simp
    simp only [e, lintegral_const]
    have : Nonempty (Fin ((gaussOps hs).vars (g.path q).next.factor).length) := ⟨⟨0, hlen⟩⟩
    rw [measure_univ_of_isAddLeftInvariant]
    exact ENNReal.mul_top (by simpa using c0)
  | some p =>
    have hl : lastMsg tr q = some p.factor := by rw [← inv.prev, hp]; rfl
    obtain ⟨o1, -⟩ := b.msg q _ hl
    obtain ⟨o2, o3⟩ := hN q _ hl
    rw [hp] at hg
    rw [hl] at cx
    obtain ⟨r, -, h2, h3⟩ := gauss_kl (hs := hs) o1 n1 (o3.trans hn2.symm) ((gauss_norm o1).1 o2)
      ((gauss_norm n1).1 hn1)
    have hz := h3 ⟨c, c0, cx⟩
    have hg' : (gaussOps hs).kl p.factor (g.path q).next.factor = .ok (g.path q).gain := hg
    rw [h2, hz] at hg'
    simp only [Except.ok.injEq] at hg'
    rw [← hg']
    simp

/-- **C89.** On a cluster graph of Gaussian factors without cycles, message passing terminates by itself: for every
`tol >= 0` and `max_iter` at least the number of clusters, `process_graph` - started after any execution - ends
with every information gain at most `tol`, whatever order the queue had. -/
theorem C89_gaussian_tree_converges (hs : HashSeed) (factors : List AnyG) (D : AnyG → (Var → ℝ) → ℝ)
    (hp : ∀ f ∈ factors, Proper f D) (evidence : Option (Dict Var ℝ)) (special : Dict Var ℝ)
    (hx : ∀ f ∈ factors, ∃ v ∈ f.2.vars, v ∉ Dict.keys (evidence.getD []) ∧ v ∉ Dict.keys special)
    (a : Any AnyG ℝ EReal) (h : new hs (gaussOps hs) factors evidence special = .ok a) (hn : a.n ≠ 1)
    (htree : (SimpleGraph.fromRel fun i j => ∃ s, sepset a.graph i j = some s).IsAcyclic)
    (tol : EReal) (htol : 0 ≤ tol) (maxIter : Nat) (hbud : a.n ≤ maxIter)
    (tr : List (Fin a.m × AnyG)) (g : Graph AnyG ℝ EReal a.n a.m) (hr : Run (gaussOps hs) a.graph tr g) :
    ∃ g', processGraph (gaussOps hs) tol maxIter g = .ok g' ∧ ∀ q, (g'.path q).gain ≤ tol := by
  have T := gaussTotal hs
  obtain ⟨w, hsp, _⟩ := wired_new h
  obtain ⟨hok0, h0, hfree⟩ := gauss_start hp hx h
  obtain ⟨g', hg'⟩ := process_of w (fun tr g hr q => T.step w hok0 h0 hfree hr q) hn tol maxIter hr
  refine ⟨g', hg', ?_⟩
  refine process_converges_int (L := (gaussLaws hs).toPosLaws) w hok0
    (fun tr g hr => (hr.bel w hok0).next_int w (hr.inv w) fun i => T.beliefs w hok0 h0 hfree hr i) htree ?_
    hn hbud hr hg'
  intro tr g q hr hq hc
  have hsep := ((C46_sepsets hs (gaussOps hs) factors evidence special a h).1 _ _ _ (w.sepOf_eq q)).1
  exact absurd (gauss_clean_gain w hok0 h0 hfree hr hsep hc) (not_le.2 (lt_of_le_of_lt htol hq))

/-- **C89**, exact convergence: after any execution, at most `m (n - 1)` further messages (`m` paths, `n` clusters)
bring a graph without cycles into a state where every next message is a positive multiple of the last one passed
along its path. -/
theorem C89_gaussian_exact_convergence (hs : HashSeed) (factors : List AnyG) (D : AnyG → (Var → ℝ) → ℝ)
    (hp : ∀ f ∈ factors, Proper f D) (evidence : Option (Dict Var ℝ)) (special : Dict Var ℝ)
    (hx : ∀ f ∈ factors, ∃ v ∈ f.2.vars, v ∉ Dict.keys (evidence.getD []) ∧ v ∉ Dict.keys special)
    (a : Any AnyG ℝ EReal) (h : new hs (gaussOps hs) factors evidence special = .ok a)
    (htree : (SimpleGraph.fromRel fun i j => ∃ s, sepset a.graph i j = some s).IsAcyclic)
    (tr : List (Fin a.m × AnyG)) (g : Graph AnyG ℝ EReal a.n a.m) (hr : Run (gaussOps hs) a.graph tr g) :
    ∃ ext g', ext.length ≤ a.m * (a.n - 1) ∧ Run (gaussOps hs) a.graph (tr ++ ext) g' ∧
      ∀ q, ∃ c : ℝ, 0 < c ∧ ∀ x,
        gaussDen (g'.path q).next.factor x = c * ((lastMsg (tr ++ ext) q).map fun f => gaussDen f x).getD 1 := by
  have T := gaussTotal hs
  obtain ⟨w, hsp, _⟩ := wired_new h
  obtain ⟨hok0, h0, hfree⟩ := gauss_start hp hx h
  obtain ⟨ext, g', h1, h2, h3⟩ := converge_exact (L := (gaussLaws hs).toPosLaws) w htree hok0
    (fun tr g hr => (hr.bel w hok0).next_int w (hr.inv w) fun i => T.beliefs w hok0 h0 hfree hr i)
    (fun tr g hr q => T.step w hok0 h0 hfree hr q) hr
  refine ⟨ext, g', h1, h2, fun q => ?_⟩
  obtain ⟨c, hc, hx⟩ := h3 q
  refine ⟨c, hc, fun x => (hx x).trans ?_⟩
  unfold mval
  cases lastMsg (tr ++ ext) q <;> rfl

/-- **C87**, factors that can be normalised: on a graph without cycles, once no message has new content, every
query of unobserved variables of one input factor returns a positive multiple of the exact posterior marginal. -/
theorem C87_gaussian_tree_inference (hs : HashSeed) (factors : List AnyG) (D : AnyG → (Var → ℝ) → ℝ)
    (hp : ∀ f ∈ factors, Proper f D) (evidence : Option (Dict Var ℝ)) (special : Dict Var ℝ)
    (hx : ∀ f ∈ factors, ∃ v ∈ f.2.vars, v ∉ Dict.keys (evidence.getD []) ∧ v ∉ Dict.keys special)
    (P : (Var → ℝ) → ℝ) (hP : ∀ x, P x = Real.exp ((factors.map fun f => D f (override (evidence.getD [])
      (override special x))).sum)) :
    ∃ a, new hs (gaussOps hs) factors evidence special = .ok a ∧
      ((SimpleGraph.fromRel fun i j => ∃ s, sepset a.graph i j = some s).IsAcyclic →
        ∀ tr g, Run (gaussOps hs) a.graph tr g →
        (∀ q, ∃ c : ℝ, 0 < c ∧ ∀ x,
          gaussDen (g.path q).next.factor x = c * ((lastMsg tr q).map fun f => gaussDen f x).getD 1) →
        ∀ f ∈ factors, ∀ vrs : List Var, vrs.Nodup →
          (∀ v ∈ vrs, v ∈ f.2.vars ∧ v ∉ Dict.keys (evidence.getD []) ∧ v ∉ Dict.keys special) →
          ∃ r, getMarginal (gaussOps hs) g vrs = .ok r ∧ ∃ c : ℝ, 0 < c ∧ ∀ out : List Var, out.Nodup →
            (∀ v, v ∈ out ↔ Hidden factors evidence special v ∧ v ∉ vrs) →
            ∀ x, IntegrableOut out P x ∧ gaussDen r x = c * integrateOut out P x) := by
  obtain ⟨a, ha, hall⟩ := C88_gaussian_never_fails hs factors D hp evidence special hx
  refine ⟨a, ha, fun htree tr g hr hconv f hf vrs hnv hv => ?_⟩
  obtain ⟨-, -, h3, h4, -⟩ := hall tr g hr
  obtain ⟨r, hm⟩ := h3 f hf vrs hnv hv
  refine ⟨r, hm, C87_gaussian_exact hs factors (fun f hf => (hp f hf).made) ?_ D (fun f hf => (hp f hf).den) evidence
    special a ha htree tr g hr hconv h4 P hP vrs hnv (fun v h => (hv v h).2.2) r hm⟩
  intro f hf
  exact ((hp f hf).ok (hs := hs)).1.cov

end

end Verif.CG
