import Verif.ClusterSparse

/-!
# Exact marginals for sparse categorical factors (C52)
-/

namespace Verif.CG
open Spec (override Asg sumOut)
open Classical

/-- Where the posterior is not zero, no message is zero. -/
theorem BelInv.next_pos {F V G D : Type} {n m : Nat} {ops : Ops F V G} [Zero G] {L : Laws ops D}
    {evVars : List Var} {g0 g : Graph F V G n m} {tr : List (Fin m × F)} (w : Wired ops evVars g0)
    (inv : RunInv ops g0 tr g) (b : BelInv L g0 tr g) {x : Var → D}
    (hx : ∀ i, L.den (g0.cl i).factor (override (evPairs L g0.special) x) ≠ 0) (q : Fin m) :
    L.den (g.path q).next.factor x ≠ 0 := by
  intro h0
  have := (b.next_zero w inv q x).1 h0 x (fun _ _ => rfl)
  rw [b.belief, mul_eq_zero] at this
  rcases this with h1 | h1
  · exact hx _ h1
  · rw [Finset.prod_eq_zero_iff] at h1
    obtain ⟨s, _, hs⟩ := h1
    refine b.pos x hx s ?_
    rw [← hs]
    refine (mval_congr L (b.msg s) fun v hv => ?_).symm
    exact override_keep L (w.sepOf_mem s hv).2.2 x

variable {hs : HashSeed} {C : Var → Nat}

/-- A factor at distance zero from vacuous is constant. -/
theorem dist_zero {f : Sparse ℝ} (hf : SparseOk C f) (hm : 0 < f.mass) {d : EReal}
    (h : (sparseOps hs).distVacuous f = .ok d) (hd : d ≤ 0) :
    ∃ c : ℝ, 0 < c ∧ ∀ x, (∀ v ∈ f.vars, x v < C v) → f.prob x = c := by
  obtain ⟨h1, h2, h3⟩ := Sparse.C11_distance_from_vacuous hs f hf.1 hm
  have h' : (do let d ← Sparse.distanceFromVacuous hs f; toGain d) = .ok d := h
  rw [h1] at h'
  have h'' : (Except.ok ((Spec.kl (f.vars.map fun v => (v, f.card v)) f.dist
    (fun _ => 1 / (f.cards.prod : ℕ)) : ℝ) : EReal) : Py EReal) = .ok d := h'
  simp only [Except.ok.injEq] at h''
  rw [← h''] at hd
  have hz := h3 (le_antisymm (by exact_mod_cast hd) h2)
  have hN := Sparse.card_prod_pos hf.1 hm
  refine ⟨f.mass * (1 / (f.cards.prod : ℕ)), by positivity, fun x hx => ?_⟩
  rw [← hz x (fun v hv => by rw [hf.2 v hv]; exact hx v hv)]
  unfold Sparse.dist
  field_simp

/-- Factors at divergence zero are proportional. -/
theorem kl_zero {f g : Sparse ℝ} (hf : SparseOk C f) (hg : SparseOk C g) (hv : ∀ v, v ∈ f.vars ↔ v ∈ g.vars)
    (hmf : 0 < f.mass) (hmg : 0 < g.mass) {d : EReal}
    (h : (sparseOps hs).kl f g = .ok d) (hd : d ≤ 0) :
    ∃ c : ℝ, 0 < c ∧ ∀ x, (∀ v ∈ f.vars, x v < C v) → g.prob x = c * f.prob x := by
  have hss : Sparse.SameScope f g := ⟨hv, fun v h1 => by rw [hf.2 v h1, hg.2 v ((hv v).1 h1)]⟩
  obtain ⟨h1, h2⟩ := Sparse.C11_kl_divergence hs f g hf.1 hg.1 hss hmf hmg
  have h' : (do let d ← Sparse.klDivergence hs f g; toGain d) = .ok d := h
  by_cases hsup : ∀ x : Asg, (∀ v ∈ f.vars, x v < f.card v) → g.prob x = 0 → f.prob x = 0
  · obtain ⟨k1, k2, k3⟩ := h1 hsup
    rw [k1] at h'
    have h'' : (Except.ok ((Spec.kl (f.vars.map fun v => (v, f.card v)) f.dist g.dist : ℝ) : EReal) : Py EReal)
      = .ok d := h'
    simp only [Except.ok.injEq] at h''
    rw [← h''] at hd
    have hz := k3 (le_antisymm (by exact_mod_cast hd) k2)
    refine ⟨g.mass / f.mass, by positivity, fun x hx => ?_⟩
    have := hz x (fun v hv => by rw [hf.2 v hv]; exact hx v hv)
    unfold Sparse.dist at this
    field_simp at this ⊢
    linarith
  · push Not at hsup
    rw [h2 (by obtain ⟨x, a, b, c⟩ := hsup; exact ⟨x, a, b, c⟩)] at h'
    have h'' : (Except.ok (⊤ : EReal) : Py EReal) = .ok d := h'
    simp only [Except.ok.injEq] at h''
    rw [← h''] at hd
    simp at hd

/-- At zero gain every next message is a multiple of the last one. -/
theorem converged_of_gains {n m : Nat} {evVars : List Var}
    {g0 g : Graph (Sparse ℝ) Nat EReal n m} {tr : List (Fin m × Sparse ℝ)} (w : Wired (sparseOps hs) evVars g0)
    (inv : RunInv (sparseOps hs) g0 tr g) (b : BelInv (sparseLaws hs C).toLaws g0 tr g)
    (hgain : ∀ q, (g.path q).gain ≤ 0) {x0 : Asg}
    (hx0 : ∀ i, (g0.cl i).factor.prob (override (evPairs (sparseLaws hs C).toLaws g0.special) x0) ≠ 0) :
    Converged (sparseLaws hs C) g0 tr g := by
  set L := sparseLaws hs C with hL
  intro q
  obtain ⟨rv, hr1, hr2, hr3⟩ := w.rev q
  obtain ⟨n1, n2, _⟩ := b.next w inv hr1 hr2 hr3
  have hnz := b.next_pos w inv hx0 q
  have hmn : 0 < (g.path q).next.factor.mass := mass_pos n1 ⟨x0, hnz⟩
  unfold mval
  rcases inv.gain q with hg | ⟨_, hp⟩
  · cases hp : (g.path q).prev with
    | none =>
      have hl : lastMsg tr q = none := by rw [← inv.prev, hp]; rfl
      rw [hp] at hg
      obtain ⟨c, hc, hx⟩ := dist_zero n1 hmn hg (hgain q)
      refine ⟨c, hc, fun x hxr => ?_⟩
      rw [hl]
      dsimp only
      rw [mul_one]
      exact hx x fun v hv => hxr v ((n2 v).1 hv)
    | some p =>
      have hl : lastMsg tr q = some p.factor := by rw [← inv.prev, hp]; rfl
      obtain ⟨o1, o2⟩ := b.msg q _ hl
      have hpz : L.den p.factor x0 ≠ 0 := by
        have := b.pos x0 hx0 q
        unfold mval at this
        rwa [hl] at this
      rw [hp] at hg
      obtain ⟨c, hc, hx⟩ := kl_zero o1 n1 (fun v => (o2 v).trans (n2 v).symm) (mass_pos o1 ⟨x0, hpz⟩) hmn hg (hgain q)
      refine ⟨c, hc, fun x hxr => ?_⟩
      rw [hl]
      exact hx x fun v hv => hxr v ((o2 v).1 hv)
  · have hl : lastMsg tr q = some (g.path q).next.factor := by rw [← inv.prev, hp]; rfl
    refine ⟨1, one_pos, fun x _ => ?_⟩
    rw [hl, one_mul]

/-- Where the product of the inputs does not vanish, neither do the initial cluster factors. -/
theorem new_pos {F V G D : Type} {ops : Ops F V G} (L : Laws ops D) {hs : HashSeed} {factors : List F}
    (hok : ∀ f ∈ factors, L.Ok f) {evidence : Option (Dict Var V)} {special : Dict Var V} {a : Any F V G}
    (h : new hs ops factors evidence special = .ok a) {x : Var → D}
    (hx : ∀ f ∈ factors, L.den f (given L evidence (override (evPairs L special) x)) ≠ 0) (i : Fin a.n) :
    L.den (a.graph.cl i).factor (override (evPairs L a.graph.special) x) ≠ 0 := by
  obtain ⟨w, hsp, _⟩ := wired_new h
  obtain ⟨fs, h1, h2⟩ := new_factors h
  obtain ⟨_, _, h3⟩ := L.clusterFactors hok evidence h1
  rw [hsp]
  have h4 : (fs.map fun f => L.den f (override (evPairs L special) x)).prod ≠ 0 := by
    rw [h3]
    apply List.prod_ne_zero
    intro h0
    obtain ⟨f, hf, h⟩ := List.mem_map.1 h0
    exact hx f hf h
  intro h0
  refine h4 (List.prod_eq_zero (List.mem_map.2 ⟨_, ?_, h0⟩))
  rw [← h2]
  exact (List.mem_ofFn' _ _).2 ⟨i, rfl⟩

/-- **C52** for sparse categorical factors: if the edges of the cluster graph form no cycle and all
information gains are zero after any execution, then `get_marginal` returns a positive multiple of the exact
posterior marginal. -/
theorem C52_sparse (hs : HashSeed) (C : Var → Nat) (factors : List (Sparse ℝ))
    (hok : ∀ f ∈ factors, Sparse.Regular f ∧ ∀ v ∈ f.vars, f.card v = C v)
    (evidence : Option (Dict Var Nat)) (special : Dict Var Nat) (a : Any (Sparse ℝ) Nat EReal)
    (h : new hs (sparseOps hs) factors evidence special = .ok a)
    (htree : (SimpleGraph.fromRel fun i j => ∃ s, sepset a.graph i j = some s).IsAcyclic)
    (tr : List (Fin a.m × Sparse ℝ)) (g : Graph (Sparse ℝ) Nat EReal a.n a.m)
    (hr : Run (sparseOps hs) a.graph tr g) (hgain : ∀ q, (g.path q).gain ≤ 0)
    (P : Asg → ℝ) (hP : ∀ x, P x = (factors.map fun f => f.prob (override (evidence.getD [])
      (override special x))).prod) (hpos : ∃ x, P x ≠ 0)
    (vrs : List Var) (hn : vrs.Nodup) (hun : ∀ v ∈ vrs, v ∉ Dict.keys special) (r : Sparse ℝ)
    (hm : getMarginal (sparseOps hs) g vrs = .ok r) :
    ∃ c : ℝ, 0 < c ∧ ∀ x, r.prob x = c * sumOut C
      (((factors.flatMap fun f => f.vars).toFinset.filter fun v =>
        v ∉ Dict.keys (evidence.getD []) ∧ v ∉ Dict.keys special) \ vrs.toFinset) P x := by
  set L := sparseLaws hs C with hL
  have hPp : P = posterior L factors evidence special := by
    funext x
    rw [hP]
    unfold posterior
    simp only [hL, sparseLaws, id_eq, Prod.mk.eta, List.map_id']
  have hx0 : ∃ x0, ∀ f ∈ factors, L.den f (given L.toLaws evidence (override (evPairs L.toLaws special) x0)) ≠ 0 := by
    obtain ⟨x0, hx0⟩ := hpos
    refine ⟨x0, fun f hf h0 => ?_⟩
    rw [hPp] at hx0
    exact hx0 (List.prod_eq_zero (List.mem_map.2 ⟨f, hf, h0⟩))
  obtain ⟨x0, hx0⟩ := hx0
  obtain ⟨w, hsp, _⟩ := wired_new h
  have inv := hr.inv w
  have b := hr.bel (L := L.toLaws) w (new_ok L.toLaws hok h)
  have hconv := converged_of_gains w inv b hgain (new_pos L.toLaws hok h hx0)
  have key := C52_exact_marginals L hs factors hok evidence special a h htree tr g hr ?_
    (by rw [← hPp]; exact hpos) vrs hn hun r hm
  · rw [hPp]
    exact key
  intro q s hsq
  obtain ⟨c, c0, cx⟩ := hconv q
  rw [w.sepOf_eq q, Option.some.injEq] at hsq
  refine ⟨c, c0, fun x hx => ?_⟩
  rw [cx x (by rw [hsq]; exact hx)]
  unfold mval
  cases lastMsg tr q <;> rfl

/-- **C52**, `process_graph` itself: on a graph without cycles, if it stops before its budget with
`tol <= 0`, `get_marginal` returns a positive multiple of the exact posterior marginal. -/
theorem C52_sparse_process (hs : HashSeed) (C : Var → Nat) (factors : List (Sparse ℝ))
    (hok : ∀ f ∈ factors, Sparse.Regular f ∧ ∀ v ∈ f.vars, f.card v = C v)
    (evidence : Option (Dict Var Nat)) (special : Dict Var Nat) (a : Any (Sparse ℝ) Nat EReal)
    (h : new hs (sparseOps hs) factors evidence special = .ok a) (hn1 : a.n ≠ 1)
    (htree : (SimpleGraph.fromRel fun i j => ∃ s, sepset a.graph i j = some s).IsAcyclic)
    (tol : EReal) (htol : tol ≤ 0) (maxIter : Nat) (g : Graph (Sparse ℝ) Nat EReal a.n a.m)
    (hg : processGraph (sparseOps hs) tol maxIter a.graph = .ok g)
    (hstop : g.passed < maxIter * a.m ∨ a.m = 0)
    (P : Asg → ℝ) (hP : ∀ x, P x = (factors.map fun f => f.prob (override (evidence.getD [])
      (override special x))).prod) (hpos : ∃ x, P x ≠ 0)
    (vrs : List Var) (hn : vrs.Nodup) (hun : ∀ v ∈ vrs, v ∉ Dict.keys special) (r : Sparse ℝ)
    (hm : getMarginal (sparseOps hs) g vrs = .ok r) :
    ∃ c : ℝ, 0 < c ∧ ∀ x, r.prob x = c * sumOut C
      (((factors.flatMap fun f => f.vars).toFinset.filter fun v =>
        v ∉ Dict.keys (evidence.getD []) ∧ v ∉ Dict.keys special) \ vrs.toFinset) P x := by
  obtain ⟨w, _, hp0⟩ := wired_new h
  obtain ⟨tr, hgr, _, h2, _, h4⟩ := Greedy.process w hn1 .start hg
  have hrun := hgr.run .start
  refine C52_sparse hs C factors hok evidence special a h htree _ g hrun (fun q => ?_) P hP hpos vrs hn hun r hm
  rcases hstop with hstop | hstop
  · exact (h4 (by omega) q).trans htol
  · exact absurd q.2 (by omega)

end Verif.CG
