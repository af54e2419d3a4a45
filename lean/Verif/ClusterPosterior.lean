import Verif.ClusterAgree

/-!
# The posterior distribution, whatever the order of the factors (C102)
-/

namespace Verif.CG
open Spec (override Asg sumOut)
open Classical

/-- Overriding keeps the variables that are not listed. -/
theorem override_free {β : Type} {ev : List (Var × β)} {v : Var} (h : v ∉ Dict.keys ev) (x : Var → β) : override ev x v = x v := by
  unfold override
  rw [List.find?_eq_none.2]
  intro e he
  simp only [decide_eq_true_eq]
  rintro rfl
  exact h (List.mem_map.2 ⟨e, he, rfl⟩)

/-- Overriding fixes the variables that are listed. -/
theorem override_fixed {β : Type} {ev : List (Var × β)} {v : Var} (h : v ∈ Dict.keys ev) (x y : Var → β) :
    override ev x v = override ev y v := by
  unfold override
  obtain ⟨e, he, rfl⟩ := List.mem_map.1 h
  cases hf : ev.find? (fun e' => e'.1 = e.1) with
  | some e' => rfl
  | none => exact absurd (List.find?_eq_none.1 hf e he) (by simp)

/-- Observations that fix the same values fix the same variables. -/
theorem override_keys {β : Type} (k l : β) (hkl : k ≠ l) {e₁ e₂ s₁ s₂ : Dict Var β}
    (hev : ∀ x, override e₁ (override s₁ x) = override e₂ (override s₂ x)) (v : Var) :
    (v ∉ Dict.keys e₁ ∧ v ∉ Dict.keys s₁) ↔ (v ∉ Dict.keys e₂ ∧ v ∉ Dict.keys s₂) := by
  have key : ∀ (e₁ e₂ s₁ s₂ : Dict Var β), (∀ x, override e₁ (override s₁ x) = override e₂ (override s₂ x)) →
      v ∉ Dict.keys e₁ ∧ v ∉ Dict.keys s₁ → v ∉ Dict.keys e₂ ∧ v ∉ Dict.keys s₂ := by
    intro e₁ e₂ s₁ s₂ hev ⟨h1, h2⟩
    have e : ∀ k : β, override e₂ (override s₂ fun _ => k) v = k := fun k => by
      rw [← hev, override_free h1, override_free h2]
    by_contra hc
    have : override e₂ (override s₂ fun _ => k) v = override e₂ (override s₂ fun _ => l) v := by
      by_cases h3 : v ∈ Dict.keys e₂
      · exact override_fixed h3 _ _
      · rw [override_free h3, override_free h3]
        refine override_fixed ?_ _ _
        by_contra h4
        exact hc ⟨h3, h4⟩
    rw [e, e] at this
    exact hkl this
  exact ⟨key _ _ _ _ hev, key _ _ _ _ fun x => (hev x).symm⟩

section
variable {hs : HashSeed} {C : Var → Nat} {factors : List (Sparse ℝ)}
  {evidence : Option (Dict Var Nat)} {special : Dict Var Nat} {a : Any (Sparse ℝ) Nat EReal}

/-- What `get_marginal` returns is a well-formed factor over the queried variables, which are all hidden. -/
theorem marginal_shape (hok : ∀ f ∈ factors, Sparse.Regular f ∧ ∀ v ∈ f.vars, f.card v = C v)
    (h : new hs (sparseOps hs) factors evidence special = .ok a)
    {tr : List (Fin a.m × Sparse ℝ)} {g : Graph (Sparse ℝ) Nat EReal a.n a.m} (hr : Run (sparseOps hs) a.graph tr g)
    {vrs : List Var} (hn : vrs.Nodup) (hun : ∀ v ∈ vrs, v ∉ Dict.keys special) {r : Sparse ℝ}
    (hm : getMarginal (sparseOps hs) g vrs = .ok r) :
    SparseOk C r ∧ (∀ v, v ∈ r.vars ↔ v ∈ vrs) ∧ ∀ v ∈ vrs, ∃ f ∈ factors, v ∈ f.vars ∧ v ∉ Dict.keys (evidence.getD []) := by
  obtain ⟨w, hsp, _⟩ := wired_new h
  have inv := hr.inv w
  have b := hr.bel (L := (sparseLaws hs C).toLaws) w (new_ok (sparseLaws hs C).toLaws hok h)
  rcases C53_get_marginal (sparseOps hs) _ _ g vrs with ⟨_, h1⟩ | ⟨i, h1, _, h2⟩
  · rw [h1] at hm; cases hm
  rw [h2] at hm
  have hfree : ∀ v ∈ vrs, v ∈ freeVars (sparseOps hs) a.graph i := fun v hv =>
    mem_freeVars.2 ⟨(b.vars i v).1 (h1 v hv), by rw [hsp]; exact hun v hv⟩
  obtain ⟨f, k1, k2⟩ := py_bind_eq_ok.1 hm
  obtain ⟨f1, f2, f3⟩ := (sparseLaws hs C).toLaws.observe (b.ok i) g.special k1
  obtain ⟨r1, r2, -⟩ := (sparseLaws hs C).marg f1 hn (fun v hv => (f2 v).2 ⟨h1 v hv, by
    rw [inv.special, hsp]; exact hun v hv⟩) k2
  refine ⟨r1, r2, fun v hv => ?_⟩
  obtain ⟨f', hf', hsc⟩ := (C44_evidence (sparseLaws hs C).toLaws hs factors hok evidence special a h).2.2 i
  exact ⟨f', hf', (hsc v).1 ((b.vars i v).1 (h1 v hv))⟩

end

/-- **C102.** The normalised answer of a converged graph without cycles is the posterior distribution: the sum of the joint
given the evidence over the other hidden variables, divided by its sum over all hidden variables. -/
theorem C102_posterior (hs : HashSeed) (C : Var → Nat) (factors : List (Sparse ℝ))
    (hok : ∀ f ∈ factors, Sparse.Regular f ∧ ∀ v ∈ f.vars, f.card v = C v)
    (evidence : Option (Dict Var Nat)) (special : Dict Var Nat) (a : Any (Sparse ℝ) Nat EReal)
    (h : new hs (sparseOps hs) factors evidence special = .ok a)
    (htree : (SimpleGraph.fromRel fun i j => ∃ s, sepset a.graph i j = some s).IsAcyclic)
    (tr : List (Fin a.m × Sparse ℝ)) (g : Graph (Sparse ℝ) Nat EReal a.n a.m)
    (hr : Run (sparseOps hs) a.graph tr g) (hgain : ∀ q, (g.path q).gain ≤ 0)
    (P : Asg → ℝ) (hP : ∀ x, P x = (factors.map fun f => f.prob (override (evidence.getD [])
      (override special x))).prod) (hpos : ∃ x, P x ≠ 0)
    (hidden : Finset Var) (hhid : ∀ v, v ∈ hidden ↔ (∃ f ∈ factors, v ∈ f.vars) ∧ v ∉ Dict.keys (evidence.getD []) ∧
      v ∉ Dict.keys special)
    (vrs : List Var) (hn : vrs.Nodup) (hun : ∀ v ∈ vrs, v ∉ Dict.keys special) (r : Sparse ℝ)
    (hm : getMarginal (sparseOps hs) g vrs = .ok r) :
    ∃ s, Sparse.normalize r = .ok s ∧ (∀ v, v ∈ s.vars ↔ v ∈ vrs) ∧
      0 < sumOut C hidden P (fun _ => 0) ∧
      ∀ x, s.prob x = sumOut C (hidden \ vrs.toFinset) P x / sumOut C hidden P (fun _ => 0) := by
  obtain ⟨r1, r2, r3⟩ := marginal_shape hok h hr hn hun hm
  obtain ⟨c, hc, hx⟩ := C52_sparse hs C factors hok evidence special a h htree tr g hr hgain P hP hpos vrs hn hun r hm
  have hH : ((factors.flatMap fun f => f.vars).toFinset.filter fun v =>
        v ∉ Dict.keys (evidence.getD []) ∧ v ∉ Dict.keys special) = hidden := by
    ext v
    rw [hhid]
    simp
  rw [hH] at hx
  have hPn : ∀ y, 0 ≤ P y := fun y => by
    rw [hP]
    refine List.prod_nonneg fun z hz => ?_
    obtain ⟨f, _, rfl⟩ := List.mem_map.1 hz
    exact Sparse.prob_nonneg _ _
  obtain ⟨x0, hx0⟩ := hpos
  have hrange : ∀ v ∈ hidden, x0 v < C v := by
    intro v hv
    obtain ⟨⟨f, hf, hvf⟩, h1, h2⟩ := (hhid v).1 hv
    have : f.prob (override (evidence.getD []) (override special x0)) ≠ 0 := fun h0 =>
      hx0 (by rw [hP]; exact List.prod_eq_zero (List.mem_map.2 ⟨f, hf, h0⟩))
    have := SparseOk.supp (hok f hf) _ this v hvf
    rwa [override_free h1, override_free h2] at this
  have hnz : r.prob x0 ≠ 0 := by
    rw [hx]
    refine mul_ne_zero hc.ne' fun h0 => hx0 ?_
    exact Spec.sumOut_eq_zero hPn h0 (fun _ _ => rfl) fun v hv => hrange v (Finset.mem_sdiff.1 hv).1
  have hmass := mass_pos r1 ⟨x0, hnz⟩
  obtain ⟨s, hs', -, sv, -, -, sp⟩ := Sparse.C09_normalize r r1.1 hmass
  have hsub : vrs.toFinset ⊆ hidden := fun v hv => by
    have hv' : v ∈ vrs := by simpa using hv
    obtain ⟨f, hf, h1, h2⟩ := r3 v hv'
    exact (hhid v).2 ⟨⟨f, hf, h1⟩, h2, hun v hv'⟩
  have hsum : r.mass = c * sumOut C hidden P (fun _ => 0) := by
    rw [mass_eq_sumOut r1]
    have e1 : r.vars.toFinset = vrs.toFinset := by ext v; simp [r2]
    have e2 : hidden = vrs.toFinset ∪ (hidden \ vrs.toFinset) := (Finset.union_sdiff_of_subset hsub).symm
    rw [e1]
    conv_rhs => rw [e2]
    rw [Spec.sumOut_union Finset.disjoint_sdiff, ← Spec.sumOut_const_mul]
    exact Spec.sumOut_congr fun y _ => hx y
  refine ⟨s, hs', fun v => by rw [sv, r2], ?_, fun x => ?_⟩
  · rw [hsum] at hmass
    exact pos_of_mul_pos_right hmass hc.le
  · rw [sp, hx, hsum, mul_div_mul_left _ _ hc.ne']

/-- **C102.** The posterior distribution a converged graph without cycles answers does not depend on the order in which the
factors are given, on the order of the queried variables, on the hash seed, on the message schedule, or on which
observations are passed as evidence and which as special evidence. -/
theorem C102_order_independent (C : Var → Nat) (hs₁ hs₂ : HashSeed) (factors₁ factors₂ : List (Sparse ℝ))
    (hperm : factors₁.Perm factors₂) (hok : ∀ f ∈ factors₁, Sparse.Regular f ∧ ∀ v ∈ f.vars, f.card v = C v)
    (ev₁ ev₂ : Option (Dict Var Nat)) (sp₁ sp₂ : Dict Var Nat)
    (hev : ∀ x, override (ev₁.getD []) (override sp₁ x) = override (ev₂.getD []) (override sp₂ x))
    (hpos : ∃ x : Asg, ∀ f ∈ factors₁, f.prob (override (ev₁.getD []) (override sp₁ x)) ≠ 0)
    (a₁ a₂ : Any (Sparse ℝ) Nat EReal) (h₁ : new hs₁ (sparseOps hs₁) factors₁ ev₁ sp₁ = .ok a₁)
    (h₂ : new hs₂ (sparseOps hs₂) factors₂ ev₂ sp₂ = .ok a₂)
    (htree₁ : (SimpleGraph.fromRel fun i j => ∃ s, sepset a₁.graph i j = some s).IsAcyclic)
    (htree₂ : (SimpleGraph.fromRel fun i j => ∃ s, sepset a₂.graph i j = some s).IsAcyclic)
    (tr₁ : List (Fin a₁.m × Sparse ℝ)) (g₁ : Graph (Sparse ℝ) Nat EReal a₁.n a₁.m)
    (tr₂ : List (Fin a₂.m × Sparse ℝ)) (g₂ : Graph (Sparse ℝ) Nat EReal a₂.n a₂.m)
    (hr₁ : Run (sparseOps hs₁) a₁.graph tr₁ g₁) (hr₂ : Run (sparseOps hs₂) a₂.graph tr₂ g₂)
    (hgain₁ : ∀ q, (g₁.path q).gain ≤ 0) (hgain₂ : ∀ q, (g₂.path q).gain ≤ 0)
    (vrs₁ vrs₂ : List Var) (hn : vrs₁.Nodup) (hvrs : vrs₁.Perm vrs₂)
    (hun : ∀ v ∈ vrs₁, v ∉ Dict.keys sp₁ ∧ v ∉ Dict.keys sp₂) (r₁ r₂ : Sparse ℝ)
    (hm₁ : getMarginal (sparseOps hs₁) g₁ vrs₁ = .ok r₁) (hm₂ : getMarginal (sparseOps hs₂) g₂ vrs₂ = .ok r₂) :
    ∃ s₁ s₂, Sparse.normalize r₁ = .ok s₁ ∧ Sparse.normalize r₂ = .ok s₂ ∧ (∀ v, v ∈ s₁.vars ↔ v ∈ s₂.vars) ∧
      ∀ x, s₁.prob x = s₂.prob x := by
  have hkeys := override_keys 0 1 (by decide) hev
  obtain ⟨P, hP⟩ : ∃ P : Asg → ℝ, ∀ x, P x = (factors₁.map fun f => f.prob (override (ev₁.getD [])
      (override sp₁ x))).prod := ⟨_, fun _ => rfl⟩
  have hP₂ : ∀ x, P x = (factors₂.map fun f => f.prob (override (ev₂.getD []) (override sp₂ x))).prod := fun x => by
    rw [hP, ← hev]
    exact (hperm.map _).prod_eq
  have hpos' : ∃ x, P x ≠ 0 := by
    obtain ⟨x, hx⟩ := hpos
    refine ⟨x, ?_⟩
    rw [hP]
    apply List.prod_ne_zero
    intro h0
    obtain ⟨f, hf, h⟩ := List.mem_map.1 h0
    exact hx f hf h
  obtain ⟨H, hH⟩ : ∃ H : Finset Var, ∀ v, v ∈ H ↔ (∃ f ∈ factors₁, v ∈ f.vars) ∧ v ∉ Dict.keys (ev₁.getD []) ∧
      v ∉ Dict.keys sp₁ := ⟨(factors₁.flatMap fun f => f.vars).toFinset.filter fun v =>
        v ∉ Dict.keys (ev₁.getD []) ∧ v ∉ Dict.keys sp₁, fun v => by simp⟩
  have hH₂ : ∀ v, v ∈ H ↔ (∃ f ∈ factors₂, v ∈ f.vars) ∧ v ∉ Dict.keys (ev₂.getD []) ∧ v ∉ Dict.keys sp₂ := fun v => by
    rw [hH, hkeys]
    simp only [hperm.mem_iff]
  obtain ⟨s₁, n1, v1, z1, p1⟩ := C102_posterior hs₁ C factors₁ hok ev₁ sp₁ a₁ h₁ htree₁ tr₁ g₁ hr₁ hgain₁ P hP hpos' H hH
    vrs₁ hn (fun v hv => (hun v hv).1) r₁ hm₁
  obtain ⟨s₂, n2, v2, z2, p2⟩ := C102_posterior hs₂ C factors₂ (fun f hf => hok f (hperm.mem_iff.2 hf)) ev₂ sp₂ a₂ h₂ htree₂
    tr₂ g₂ hr₂ hgain₂ P hP₂ hpos' H hH₂ vrs₂ (hvrs.nodup_iff.1 hn) (fun v hv => (hun v (hvrs.mem_iff.2 hv)).2) r₂ hm₂
  refine ⟨s₁, s₂, n1, n2, fun v => by rw [v1, v2, hvrs.mem_iff], fun x => ?_⟩
  rw [p1, p2, List.toFinset_eq_of_perm _ _ hvrs]

/-! ### Gaussian factors -/

section
open MeasureTheory Gauss
open Spec (intOut integrateOut IntegrableOut)
open scoped ENNReal

/-- What `get_marginal` returns is a Gaussian with a finite integral over the queried variables, which are all hidden. -/
theorem marginal_shapeG {hs : HashSeed} {factors : List AnyG} {D : AnyG → (Var → ℝ) → ℝ} {evidence : Option (Dict Var ℝ)}
    {special : Dict Var ℝ} {a : Any AnyG ℝ EReal} (hp : ∀ f ∈ factors, Proper f D)
    (hx : ∀ f ∈ factors, ∃ v ∈ f.2.vars, v ∉ Dict.keys (evidence.getD []) ∧ v ∉ Dict.keys special)
    (h : new hs (gaussOps hs) factors evidence special = .ok a)
    {tr : List (Fin a.m × AnyG)} {g : Graph AnyG ℝ EReal a.n a.m} (hr : Run (gaussOps hs) a.graph tr g)
    {vrs : List Var} (hn : vrs.Nodup) (hun : ∀ v ∈ vrs, v ∉ Dict.keys special) {r : AnyG}
    (hm : getMarginal (gaussOps hs) g vrs = .ok r) :
    GaussOk r ∧ Norm (gaussLaws hs) r ∧ (∀ v, v ∈ r.2.vars ↔ v ∈ vrs) ∧ ∀ v ∈ vrs, Hidden factors evidence special v := by
  obtain ⟨w, hsp, _⟩ := wired_new h
  obtain ⟨hok0, h0, hfree⟩ := gauss_start hp hx h
  have inv := hr.inv w
  have b := hr.bel w hok0
  have T := gaussTotal hs
  rcases C53_get_marginal (gaussOps hs) _ _ g vrs with ⟨_, h1⟩ | ⟨i, h1, _, h2⟩
  · rw [h1] at hm; cases hm
  rw [h2] at hm
  have hvf : ∀ v ∈ vrs, v ∈ freeVars (gaussOps hs) a.graph i := fun v hv =>
    mem_freeVars.2 ⟨(b.vars i v).1 (h1 v hv), by rw [hsp]; exact hun v hv⟩
  obtain ⟨f, k1, k2⟩ := py_bind_eq_ok.1 hm
  obtain ⟨f1, f2, f3⟩ := (gaussLaws hs).toLaws.observe (b.ok i) g.special k1
  rw [inv.special] at f2 f3
  have hset : ((gaussOps hs).vars f).toFinset = freeVars (gaussOps hs) a.graph i := by
    ext v; rw [List.mem_toFinset, f2, mem_freeVars, b.vars]
  have hB : (fun y => ENNReal.ofReal ((gaussLaws hs).den f y)) = beliefI (gaussLaws hs).toPosLaws a.graph g i := by
    funext y
    rw [f3]
    rfl
  have hsub : ∀ v ∈ vrs, v ∈ (gaussOps hs).vars f := fun v hv => by
    have := hvf v hv
    rw [← hset] at this
    simpa using this
  have hfin := T.beliefs w hok0 h0 hfree hr i
  obtain ⟨r1, r2, -⟩ := (gaussLaws hs).marg f1 hn hsub k2
  have hint := (gaussLaws hs).int f1 hn hsub k2 (by rw [hset, hB]; exact hfin)
  rw [hset, hB] at hint
  refine ⟨r1, ?_, r2, fun v hv => ?_⟩
  · obtain ⟨x, hx⟩ := hfin
    refine ⟨x, ?_⟩
    have e : ((gaussOps hs).vars r).toFinset = vrs.toFinset := by ext v; simp [r2]
    have e2 : freeVars (gaussOps hs) a.graph i = vrs.toFinset ∪ (freeVars (gaussOps hs) a.graph i \ vrs.toFinset) :=
      (Finset.union_sdiff_of_subset fun v hv => hvf v (by simpa using hv)).symm
    rw [e, show (fun y => ENNReal.ofReal ((gaussLaws hs).den r y)) =
      intOut (freeVars (gaussOps hs) a.graph i \ vrs.toFinset) (beliefI (gaussLaws hs).toPosLaws a.graph g i) from funext hint]
    rw [e2, intOut, lmarginal_union _ _ (beliefI_meas b i) Finset.disjoint_sdiff] at hx
    exact hx
  · obtain ⟨f', hf', hsc⟩ := (C44_evidence (gaussLaws hs).toLaws hs factors (fun f hf => (hp f hf).ok.1) evidence special a h).2.2 i
    have := (hsc v).1 ((b.vars i v).1 (h1 v hv))
    exact ⟨⟨f', hf', this.1⟩, this.2, hun v hv⟩

/-- **C102** for Gaussian factors: the normalised answer of a converged graph without cycles is the posterior density: the
integral of the joint given the evidence over the other hidden variables, divided by its integral over all hidden variables. -/
theorem C102_gaussian_posterior (hs : HashSeed) (factors : List AnyG) (D : AnyG → (Var → ℝ) → ℝ)
    (hp : ∀ f ∈ factors, Proper f D) (evidence : Option (Dict Var ℝ)) (special : Dict Var ℝ)
    (hx : ∀ f ∈ factors, ∃ v ∈ f.2.vars, v ∉ Dict.keys (evidence.getD []) ∧ v ∉ Dict.keys special)
    (a : Any AnyG ℝ EReal) (h : new hs (gaussOps hs) factors evidence special = .ok a)
    (htree : (SimpleGraph.fromRel fun i j => ∃ s, sepset a.graph i j = some s).IsAcyclic)
    (tr : List (Fin a.m × AnyG)) (g : Graph AnyG ℝ EReal a.n a.m) (hr : Run (gaussOps hs) a.graph tr g)
    (hconv : ∀ q, ∃ c : ℝ, 0 < c ∧ ∀ x,
      gaussDen (g.path q).next.factor x = c * ((lastMsg tr q).map fun f => gaussDen f x).getD 1)
    (P : (Var → ℝ) → ℝ) (hP : ∀ x, P x = Real.exp ((factors.map fun f => D f (override (evidence.getD [])
      (override special x))).sum))
    (hidden : List Var) (hhn : hidden.Nodup) (hhid : ∀ v, v ∈ hidden ↔ Hidden factors evidence special v)
    (vrs : List Var) (hn : vrs.Nodup) (hun : ∀ v ∈ vrs, v ∉ Dict.keys special) (r : AnyG)
    (hm : getMarginal (gaussOps hs) g vrs = .ok r) :
    ∃ s N, r.2.normalize = .ok s ∧ (∀ v, v ∈ s.vars ↔ v ∈ vrs) ∧ Denotes s N ∧
      IntegrableOut hidden P (fun _ => 0) ∧ 0 < integrateOut hidden P (fun _ => 0) ∧
      ∀ x, IntegrableOut (hidden.filter (· ∉ vrs)) P x ∧
        Real.exp (N x) = integrateOut (hidden.filter (· ∉ vrs)) P x / integrateOut hidden P (fun _ => 0) := by
  obtain ⟨r1, r2, r3, r4⟩ := marginal_shapeG hp hx h hr hn hun hm
  obtain ⟨a', ha', hall⟩ := C88_gaussian_never_fails hs factors D hp evidence special hx
  rw [h] at ha'
  cases ha'
  obtain ⟨c, hc, hex⟩ := C87_gaussian_exact hs factors (fun f hf => (hp f hf).made)
    (fun f hf => ((hp f hf).ok (hs := hs)).1.cov) D (fun f hf => (hp f hf).den) evidence special a h htree tr g hr hconv
    (hall tr g hr).2.2.2.1 P hP vrs hn hun r hm
  have hout := hex (hidden.filter (· ∉ vrs)) (hhn.filter _) (fun v => by simp [hhid])
  obtain ⟨s, N, s1, s2, s3, ⟨t, s4⟩, s5⟩ := C35_normalize r1.made r1.good.denotes (getCan_valid r1.good.toValid) ((gauss_norm r1).1 r2)
  have hPm : Measurable P := by
    rw [← posteriorI_gauss (hs := hs) (fun f hf => (hp f hf).den) hP]
    exact posteriorI_meas (gaussLaws hs).toPosLaws (fun f hf => (hp f hf).ok.1) evidence special
  have hP0 : ∀ y, 0 ≤ P y := fun y => by rw [hP]; exact (Real.exp_pos _).le
  have hN : ∀ x, Real.exp (N x) = Real.exp t * (c * integrateOut (hidden.filter (· ∉ vrs)) P x) := fun x => by
    rw [s4, Real.exp_add, ← (hout x).2, gaussDen_of r1.good.denotes, mul_comm]
  have hsub : vrs.toFinset ⊆ hidden.toFinset := fun v hv => by
    rw [List.mem_toFinset] at hv ⊢
    exact (hhid v).2 (r4 v hv)
  have hsplit : hidden.toFinset = r.2.vars.toFinset ∪ (hidden.filter (· ∉ vrs)).toFinset := by
    ext v
    simp only [List.mem_toFinset, Finset.mem_union, List.mem_filter, decide_eq_true_eq, r3]
    constructor
    · intro h1
      by_cases h2 : v ∈ vrs
      · exact Or.inl h2
      · exact Or.inr ⟨h1, h2⟩
    · rintro (h1 | h1)
      · exact (hhid v).2 (r4 v h1)
      · exact h1.1
  have hdisj : Disjoint r.2.vars.toFinset (hidden.filter (· ∉ vrs)).toFinset := by
    rw [Finset.disjoint_left]
    intro v h1 h2
    simp only [List.mem_toFinset, List.mem_filter, decide_eq_true_eq, r3] at h1 h2
    exact h2.2 h1
  have hden : ∀ y, 0 ≤ gaussDen r y := fun y => (gaussDen_pos r1 y).le
  have hdm := gaussDen_meas r1
  have key : ∀ x, intOut hidden.toFinset (fun y => .ofReal (P y)) x =
      .ofReal c⁻¹ * intOut r.2.vars.toFinset (fun y => .ofReal (gaussDen r y)) x := by
    intro x
    have hfun : lmarginal (fun _ => volume) (hidden.filter (· ∉ vrs)).toFinset (fun y => ENNReal.ofReal (P y)) =
        fun y => .ofReal c⁻¹ * .ofReal (gaussDen r y) := by
      funext y
      have e1 := (Spec.integrableOut_iff (hhn.filter _) hPm hP0 y).1 (hout y).1
      have e2 := Spec.integrateOut_eq_intOut (hhn.filter fun v => decide (v ∉ vrs)) hPm hP0 y
      show intOut _ _ y = _
      rw [← ENNReal.ofReal_toReal e1, ← e2, (hout y).2, ← ENNReal.ofReal_mul (by positivity), ← mul_assoc, inv_mul_cancel₀ hc.ne', one_mul]
    rw [intOut, hsplit, lmarginal_union _ _ hPm.ennreal_ofReal hdisj, hfun]
    exact Spec.intOut_mul_left (G := fun _ => ENNReal.ofReal c⁻¹) (fun _ _ _ => rfl) hdm.ennreal_ofReal x
  have hone : Real.exp t * integrateOut r.2.vars (gaussDen r) (fun _ => 0) = 1 := by
    rw [← s5 fun _ => 0, s2]
    unfold integrateOut
    rw [← integral_const_mul]
    refine integral_congr_ae (Filter.Eventually.of_forall fun y => ?_)
    dsimp only
    rw [s4, Real.exp_add, gaussDen_of r1.good.denotes, mul_comm]
  have hpd := (gauss_norm r1).1 r2
  have hrint : IntegrableOut r.2.vars (gaussDen r) (fun _ => 0) := by
    have h := (Gauss.integrate_good r1.good hpd fun _ => 0).1
    rwa [show (fun z => Real.exp (Gauss.logOf r.2 r1.good.len z)) = gaussDen r from by
      funext z; rw [gaussDen_of r1.good.denotes]] at h
  have hrfin := (Spec.integrableOut_iff r1.good.nodup hdm hden _).1 hrint
  have hZ : integrateOut hidden P (fun _ => 0) = c⁻¹ * integrateOut r.2.vars (gaussDen r) (fun _ => 0) := by
    rw [Spec.integrateOut_eq_intOut hhn hPm hP0, Spec.integrateOut_eq_intOut r1.good.nodup hdm hden, key, ENNReal.toReal_mul,
      ENNReal.toReal_ofReal (by positivity)]
  have hI : 0 < integrateOut r.2.vars (gaussDen r) (fun _ => 0) := by
    by_contra hcon
    have : Real.exp t * integrateOut r.2.vars (gaussDen r) (fun _ => 0) ≤ 0 :=
      mul_nonpos_of_nonneg_of_nonpos (Real.exp_pos t).le (not_lt.1 hcon)
    rw [hone] at this
    exact absurd this (by norm_num)
  refine ⟨s, N, s1, fun v => by rw [s2, r3], s3, ?_, ?_, fun x => ⟨(hout x).1, ?_⟩⟩
  · rw [Spec.integrableOut_iff hhn hPm hP0, key]
    exact ENNReal.mul_ne_top ENNReal.ofReal_ne_top hrfin
  · rw [hZ]
    positivity
  · rw [hN, hZ]
    have : Real.exp t = (integrateOut r.2.vars (gaussDen r) (fun _ => 0))⁻¹ := eq_inv_of_mul_eq_one_left hone
    rw [this]
    field_simp

/-- **C102** for Gaussian factors: the posterior density does not depend on the order of the factors, on the order of the
queried variables, on the hash seed, on the message schedule, or on which observations are special evidence. -/
theorem C102_gaussian_order_independent (hs₁ hs₂ : HashSeed) (factors₁ factors₂ : List AnyG) (D : AnyG → (Var → ℝ) → ℝ)
    (hperm : factors₁.Perm factors₂) (hp : ∀ f ∈ factors₁, Proper f D) (ev₁ ev₂ : Option (Dict Var ℝ)) (sp₁ sp₂ : Dict Var ℝ)
    (hev : ∀ x, override (ev₁.getD []) (override sp₁ x) = override (ev₂.getD []) (override sp₂ x))
    (hx : ∀ f ∈ factors₁, ∃ v ∈ f.2.vars, v ∉ Dict.keys (ev₁.getD []) ∧ v ∉ Dict.keys sp₁)
    (a₁ a₂ : Any AnyG ℝ EReal) (h₁ : new hs₁ (gaussOps hs₁) factors₁ ev₁ sp₁ = .ok a₁)
    (h₂ : new hs₂ (gaussOps hs₂) factors₂ ev₂ sp₂ = .ok a₂)
    (htree₁ : (SimpleGraph.fromRel fun i j => ∃ s, sepset a₁.graph i j = some s).IsAcyclic)
    (htree₂ : (SimpleGraph.fromRel fun i j => ∃ s, sepset a₂.graph i j = some s).IsAcyclic)
    (tr₁ : List (Fin a₁.m × AnyG)) (g₁ : Graph AnyG ℝ EReal a₁.n a₁.m)
    (tr₂ : List (Fin a₂.m × AnyG)) (g₂ : Graph AnyG ℝ EReal a₂.n a₂.m)
    (hr₁ : Run (gaussOps hs₁) a₁.graph tr₁ g₁) (hr₂ : Run (gaussOps hs₂) a₂.graph tr₂ g₂)
    (hconv₁ : ∀ q, ∃ c : ℝ, 0 < c ∧ ∀ x,
      gaussDen (g₁.path q).next.factor x = c * ((lastMsg tr₁ q).map fun f => gaussDen f x).getD 1)
    (hconv₂ : ∀ q, ∃ c : ℝ, 0 < c ∧ ∀ x,
      gaussDen (g₂.path q).next.factor x = c * ((lastMsg tr₂ q).map fun f => gaussDen f x).getD 1)
    (vrs₁ vrs₂ : List Var) (hn : vrs₁.Nodup) (hvrs : vrs₁.Perm vrs₂)
    (hun : ∀ v ∈ vrs₁, v ∉ Dict.keys sp₁ ∧ v ∉ Dict.keys sp₂) (r₁ r₂ : AnyG)
    (hm₁ : getMarginal (gaussOps hs₁) g₁ vrs₁ = .ok r₁) (hm₂ : getMarginal (gaussOps hs₂) g₂ vrs₂ = .ok r₂) :
    ∃ s₁ s₂ N, r₁.2.normalize = .ok s₁ ∧ r₂.2.normalize = .ok s₂ ∧ (∀ v, v ∈ s₁.vars ↔ v ∈ s₂.vars) ∧
      Denotes s₁ N ∧ Denotes s₂ N := by
  have hkeys := override_keys (0 : ℝ) 1 (by norm_num) hev
  have hx₂ : ∀ f ∈ factors₂, ∃ v ∈ f.2.vars, v ∉ Dict.keys (ev₂.getD []) ∧ v ∉ Dict.keys sp₂ := fun f hf => by
    obtain ⟨v, h1, h2⟩ := hx f (hperm.mem_iff.2 hf)
    exact ⟨v, h1, (hkeys v).1 h2⟩
  obtain ⟨P, hP⟩ : ∃ P : (Var → ℝ) → ℝ, ∀ x, P x = Real.exp ((factors₁.map fun f => D f (override (ev₁.getD [])
      (override sp₁ x))).sum) := ⟨_, fun _ => rfl⟩
  have hP₂ : ∀ x, P x = Real.exp ((factors₂.map fun f => D f (override (ev₂.getD []) (override sp₂ x))).sum) := fun x => by
    rw [hP, ← hev, (hperm.map _).sum_eq]
  obtain ⟨H, hHn, hH⟩ : ∃ H : List Var, H.Nodup ∧ ∀ v, v ∈ H ↔ Hidden factors₁ ev₁ sp₁ v := by
    refine ⟨(hiddenVars (gaussOps hs₁) factors₁ ev₁ sp₁).toList, Finset.nodup_toList _, fun v => ?_⟩
    rw [Finset.mem_toList, mem_hiddenG]
  have hH₂ : ∀ v, v ∈ H ↔ Hidden factors₂ ev₂ sp₂ v := fun v => by
    rw [hH]
    unfold Hidden
    rw [hkeys]
    simp only [hperm.mem_iff]
  obtain ⟨s₁, N₁, n1, v1, d1, -, z1, p1⟩ := C102_gaussian_posterior hs₁ factors₁ D hp ev₁ sp₁ hx a₁ h₁ htree₁ tr₁ g₁ hr₁ hconv₁
    P hP H hHn hH vrs₁ hn (fun v hv => (hun v hv).1) r₁ hm₁
  obtain ⟨s₂, N₂, n2, v2, d2, -, z2, p2⟩ := C102_gaussian_posterior hs₂ factors₂ D (fun f hf => hp f (hperm.mem_iff.2 hf)) ev₂ sp₂ hx₂
    a₂ h₂ htree₂ tr₂ g₂ hr₂ hconv₂ P hP₂ H hHn hH₂ vrs₂ (hvrs.nodup_iff.1 hn) (fun v hv => (hun v (hvrs.mem_iff.2 hv)).2) r₂ hm₂
  refine ⟨s₁, s₂, N₁, n1, n2, fun v => by rw [v1, v2, hvrs.mem_iff], d1, ?_⟩
  have : N₁ = N₂ := by
    funext x
    apply Real.exp_injective
    rw [(p1 x).2, (p2 x).2]
    have e : H.filter (· ∉ vrs₁) = H.filter (· ∉ vrs₂) := List.filter_congr fun v _ => by
      simp [hvrs.mem_iff]
    rw [e]
  rw [this]
  exact d2

end

end Verif.CG
