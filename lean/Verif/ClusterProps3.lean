import Verif.ClusterBelief

/-!
# Inference properties of cluster graphs (C44, C50, C51)

For every lawful factor class `L : Laws ops D` (see `ClusterLaws`), every list of lawful factors and every
execution.
-/

namespace Verif.CG
open Spec (override)
variable {F V G : Type} {D : Type} {ops : Ops F V G}

/-- **C44.** The product of the initial cluster factors is the product of the input factors with the
evidence substituted, at every assignment, and no cluster mentions an evidence variable. -/
theorem C44_evidence (L : Laws ops D) (hs : HashSeed) (factors : List F) (hok : ∀ f ∈ factors, L.Ok f)
    (evidence : Option (Dict Var V)) (special : Dict Var V) (a : Any F V G)
    (h : new hs ops factors evidence special = .ok a) :
    (∀ x, ∏ i, L.den (a.graph.cl i).factor x =
      (factors.map fun f => L.den f (override ((evidence.getD []).map fun e => (e.1, L.val e.2)) x)).prod) ∧
    (∀ i, ∀ v ∈ scope ops a.graph i, v ∉ Dict.keys (evidence.getD [])) ∧
    (∀ i, ∃ f ∈ factors, ∀ v, v ∈ scope ops a.graph i ↔ v ∈ ops.vars f ∧ v ∉ Dict.keys (evidence.getD [])) := by
  obtain ⟨fs, h1, h2⟩ := new_factors h
  obtain ⟨c1, c2, c3⟩ := L.clusterFactors hok evidence h1
  have hsc : ∀ i, ∃ f ∈ factors, ∀ v, v ∈ scope ops a.graph i ↔ v ∈ ops.vars f ∧ v ∉ Dict.keys (evidence.getD []) :=
    fun i => c2 _ (by rw [← h2]; exact (List.mem_ofFn' _ _).2 ⟨i, rfl⟩)
  refine ⟨fun x => ?_, fun i v hv => ?_, hsc⟩
  · have := c3 x
    rw [← h2, List.map_ofFn, List.prod_ofFn] at this
    exact this
  · obtain ⟨f, _, hf⟩ := hsc i
    exact ((hf v).1 hv).2

theorem new_ok (L : Laws ops D) {hs : HashSeed} {factors : List F} (hok : ∀ f ∈ factors, L.Ok f)
    {evidence : Option (Dict Var V)} {special : Dict Var V} {a : Any F V G}
    (h : new hs ops factors evidence special = .ok a) (i : Fin a.n) : L.Ok (a.graph.cl i).factor := by
  obtain ⟨fs, h1, h2⟩ := new_factors h
  exact (L.clusterFactors hok evidence h1).1 _ (by rw [← h2]; exact (List.mem_ofFn' _ _).2 ⟨i, rfl⟩)

/-- **C50.** After any execution every cluster's factor is, at every assignment, its initial factor times
the last message received from each neighbour (1 if none was received). Zeros are included: no belief is
undefined or wrong where a message is zero. -/
theorem C50_belief [Zero G] (L : Laws ops D) (hs : HashSeed) (factors : List F)
    (hok : ∀ f ∈ factors, L.Ok f) (evidence : Option (Dict Var V)) (special : Dict Var V) (a : Any F V G)
    (h : new hs ops factors evidence special = .ok a) (tr : List (Fin a.m × F)) (g : Graph F V G a.n a.m)
    (hr : Run ops a.graph tr g) (i : Fin a.n) :
    (∀ v, v ∈ scope ops g i ↔ v ∈ scope ops a.graph i) ∧
    ∀ x, L.den (g.cl i).factor x = L.den (a.graph.cl i).factor x *
      ∏ q with (a.graph.path q).rcv = i, ((lastMsg tr q).map fun f => L.den f x).getD 1 := by
  have b := hr.bel (wired_new h).1 (new_ok L hok h)
  refine ⟨b.vars i, fun x => ?_⟩
  rw [b.belief]
  congr 1
  refine Finset.prod_congr rfl fun q _ => ?_
  unfold mval
  cases lastMsg tr q <;> rfl

/-- **C50**, where messages vanish: a message that was zero at some value of the sepset stays zero. -/
theorem C50_zeros_stay [Zero G] (L : Laws ops D) (hs : HashSeed) (factors : List F)
    (hok : ∀ f ∈ factors, L.Ok f) (evidence : Option (Dict Var V)) (special : Dict Var V) (a : Any F V G)
    (h : new hs ops factors evidence special = .ok a) (tr : List (Fin a.m × F)) (g : Graph F V G a.n a.m)
    (hr : Run ops a.graph tr g) (q : Fin a.m) (old : F) (hl : lastMsg tr q = some old) (x : Var → D)
    (h0 : L.den old x = 0) : L.den (g.path q).next.factor x = 0 := by
  have w := (wired_new h).1
  have b := hr.bel w (new_ok L hok h)
  rw [b.next_zero w (hr.inv w)]
  exact b.supp q x (by unfold mval; rw [hl]; exact h0)

theorem mapM_prev {n m : Nat} {g : Graph F V G n m} {l : List (Fin m)} {r : List F}
    (h : l.mapM (fun q => match (g.path q).prev with
      | none => (.error .attributeError : Py F)
      | some msg => .ok msg.factor) = .ok r) :
    List.Forall₂ (fun q f => (g.path q).prev.map (fun msg => msg.factor) = some f) l r := by
  induction l generalizing r with
  | nil =>
    have : r = [] := by simpa [pure, Except.pure] using h.symm
    subst this
    exact .nil
  | cons q l ih =>
    rw [List.mapM_cons] at h
    obtain ⟨f, h1, h⟩ := py_bind_eq_ok.1 h
    obtain ⟨r', h2, h⟩ := py_bind_eq_ok.1 h
    have : r = f :: r' := by simpa [pure, Except.pure] using h.symm
    subst this
    refine .cons ?_ (ih h2)
    cases hp : (g.path q).prev with
    | none => rw [hp] at h1; cases h1
    | some msg =>
      rw [hp] at h1
      simpa using h1

theorem lastMessages_ok [Zero G] {L : Laws ops D} {n m : Nat} {g0 g : Graph F V G n m}
    {tr : List (Fin m × F)} (inv : RunInv ops g0 tr g) (b : BelInv L g0 tr g) {r : List F}
    (h : lastMessages g = .ok r) :
    (∀ f ∈ r, L.Ok f ∧ ∃ q, ∀ v, v ∈ ops.vars f ↔ v ∈ sepOf g0 q) ∧
    (∀ x, (r.map fun f => L.den f x).prod = ∏ q, mval L tr q x) ∧ (r = [] ↔ m = 0) := by
  unfold lastMessages at h
  have h2 := mapM_prev h
  have key : ∀ (l : List (Fin m)) (r : List F),
      List.Forall₂ (fun q f => (g.path q).prev.map (fun msg => msg.factor) = some f) l r →
      (∀ f ∈ r, L.Ok f ∧ ∃ q, ∀ v, v ∈ ops.vars f ↔ v ∈ sepOf g0 q) ∧
      (∀ x, (r.map fun f => L.den f x).prod = (l.map fun q => mval L tr q x).prod) := by
    intro l r hlr
    induction hlr with
    | nil => simp
    | @cons q f l r hqf _ ih =>
      rw [inv.prev] at hqf
      refine ⟨fun a ha => ?_, fun x => ?_⟩
      · rcases List.mem_cons.1 ha with rfl | ha
        · exact ⟨(b.msg q a hqf).1, q, (b.msg q a hqf).2⟩
        · exact ih.1 a ha
      · rw [List.map_cons, List.map_cons, List.prod_cons, List.prod_cons, ih.2]
        congr 1
        unfold mval; rw [hqf]
  refine ⟨(key _ _ h2).1, fun x => ?_, ?_⟩
  · rw [(key _ _ h2).2, (inv.queue.map _).prod_eq, ← List.ofFn_eq_map, List.prod_ofFn]
  · rw [← List.length_eq_zero_iff, ← h2.length_eq, inv.queue.length_eq, List.length_finRange]

/-- **C51**, what is proved: whenever `get_posterior_joint` returns after any execution, it returns the
product of the initial cluster factors at every assignment that agrees with the special evidence; without
special evidence that is every assignment. Missing: it does not always return, see
`C51_unavailable`. -/
theorem C51_joint_partial [Zero G] (L : Laws ops D) (hs : HashSeed) (factors : List F)
    (hok : ∀ f ∈ factors, L.Ok f) (evidence : Option (Dict Var V)) (special : Dict Var V) (a : Any F V G)
    (h : new hs ops factors evidence special = .ok a) (tr : List (Fin a.m × F)) (g : Graph F V G a.n a.m)
    (hr : Run ops a.graph tr g) (J : F) (hJ : getPosteriorJoint ops g = .ok J) (x : Var → D)
    (hx : ∀ v s, Dict.get? special v = some s → x v = L.val s) :
    L.den J x =
      (factors.map fun f => L.den f (override ((evidence.getD []).map fun e => (e.1, L.val e.2)) x)).prod := by
  rw [← (C44_evidence L hs factors hok evidence special a h).1 x]
  obtain ⟨w, hsp, _⟩ := wired_new h
  have inv := hr.inv w
  have b := hr.bel w (new_ok L hok h)
  unfold getPosteriorJoint at hJ
  dsimp only at hJ
  obtain ⟨f0, h0, hJ⟩ := py_bind_eq_ok.1 hJ
  obtain ⟨P, hP, hJ⟩ := py_bind_eq_ok.1 hJ
  obtain ⟨msgs, hM, hJ⟩ := py_bind_eq_ok.1 hJ
  obtain ⟨m1, m2, m3⟩ := lastMessages_ok inv b hM
  have hfs : (List.finRange a.n).map (fun i => (g.cl i).factor) =
      f0 :: ((List.finRange a.n).map (fun i => (g.cl i).factor)).tail := by
    cases hl : (List.finRange a.n).map (fun i => (g.cl i).factor) with
    | nil => rw [hl] at h0; simp [pyGet] at h0
    | cons c l =>
      rw [hl] at h0
      have : c = f0 := by simpa [pyGet] using h0
      rw [this]; rfl
  have hall : ∀ f ∈ (List.finRange a.n).map (fun i => (g.cl i).factor), L.Ok f := by
    intro f hf
    obtain ⟨i, _, rfl⟩ := List.mem_map.1 hf
    exact b.ok i
  obtain ⟨P1, P2, P3⟩ := L.productFrom (hall f0 (by rw [hfs]; simp))
    (fun f hf => hall f (List.mem_of_mem_tail hf)) hP
  have P4 : ∀ y, L.den P y = ∏ i, L.den (g.cl i).factor y := by
    intro y
    have e1 := congrArg (fun l => (l.map fun f => L.den f y).prod) hfs
    rw [List.map_cons, List.prod_cons, List.map_map, ← List.ofFn_eq_map, List.prod_ofFn] at e1
    rw [P3, ← e1]
    rfl
  have Pv : ∀ v i, v ∈ ops.vars (g.cl i).factor → v ∈ ops.vars P := by
    intro v i hv
    rw [P2]
    have : (g.cl i).factor ∈ f0 :: ((List.finRange a.n).map (fun i => (g.cl i).factor)).tail := by
      rw [← hfs]; exact List.mem_map.2 ⟨i, List.mem_finRange i, rfl⟩
    rcases List.mem_cons.1 this with h | h
    · left; rw [← h]; exact hv
    · exact Or.inr ⟨_, h, hv⟩
  have hprod : ∀ y, ∏ i, L.den (g.cl i).factor y = (∏ i, L.den (a.graph.cl i).factor y) * ∏ q, mval L tr q y := by
    intro y
    rw [Finset.prod_congr rfl fun i _ => b.belief i y, Finset.prod_mul_distrib]
    congr 1
    exact Finset.prod_fiberwise Finset.univ (fun q => (a.graph.path q).rcv) fun q => mval L tr q y
  cases hmsgs : msgs with
  | nil =>
    rw [hmsgs] at hJ m2
    obtain ⟨_, _, hJ⟩ := py_bind_eq_ok.1 hJ
    simp only [Except.ok.injEq] at hJ
    subst hJ
    rw [P4, hprod, ← m2]; simp
  | cons f l =>
    rw [hmsgs] at hJ m1 m2
    obtain ⟨mp, hmp, hJ⟩ := py_bind_eq_ok.1 hJ
    obtain ⟨M1, M2, M3⟩ := L.productFrom (m1 f (by simp)).1 (fun c hc => (m1 c (by simp [hc])).1) hmp
    have M4 : ∀ y, L.den mp y = ∏ q, mval L tr q y := fun y => by
      rw [M3, ← m2 y, List.map_cons, List.prod_cons]
    have hsub : ∀ c ∈ f :: l, ∀ v ∈ ops.vars c, v ∈ ops.vars P := by
      intro c hc v hv
      obtain ⟨_, q, hq⟩ := m1 c hc
      have hs := (w.sepOf_mem q ((hq v).1 hv)).1
      exact Pv v _ ((b.vars _ v).2 hs)
    obtain ⟨_, _, J3⟩ := L.cancel P1 M1
      (fun v hv => by
        rcases (M2 v).1 hv with h | ⟨c, hc, h⟩
        · exact hsub f (by simp) v h
        · exact hsub c (by simp [hc]) v h)
      (fun y hy => by rw [P4, hprod, ← M4, hy, mul_zero]) hJ
    rw [J3, P4, hprod, M4]
    by_cases hz : ∏ q, mval L tr q x = 0
    · rw [hz, mul_zero, zero_div]
      by_contra hne
      have hx' : override (evPairs L a.graph.special) x = x := by
        funext v
        rw [override_apply, hsp]
        cases hv : Dict.get? special v with
        | none => rfl
        | some s => exact (hx v s hv).symm
      rw [Finset.prod_eq_zero_iff] at hz
      obtain ⟨q, _, hq⟩ := hz
      refine b.pos x (fun i hi => ?_) q hq
      rw [hx'] at hi
      exact hne (Finset.prod_eq_zero (Finset.mem_univ i) hi).symm
    · exact mul_div_cancel_right₀ _ hz

/-- **C51**, violation: while some path has never sent a message (in particular right after construction,
if there is any path at all), `get_posterior_joint` raises `AttributeError` (or whatever the factor
product before it raises). -/
theorem C51_unavailable [Zero G] (hs : HashSeed) (factors : List F) (evidence : Option (Dict Var V))
    (special : Dict Var V) (a : Any F V G) (h : new hs ops factors evidence special = .ok a)
    (tr : List (Fin a.m × F)) (g : Graph F V G a.n a.m) (hr : Run ops a.graph tr g) (q : Fin a.m)
    (hq : lastMsg tr q = none) :
    getPosteriorJoint ops g = .error .attributeError ∨
      ∃ e, (do
        let f ← pyGet ((List.finRange a.n).map fun i => (g.cl i).factor) 0
        productFrom ops f ((List.finRange a.n).map fun i => (g.cl i).factor).tail) = .error e := by
  have inv := hr.inv (wired_new h).1
  have hlast : lastMessages g = .error .attributeError := by
    unfold lastMessages
    have hmem : q ∈ g.queue := inv.queue.mem_iff.2 (List.mem_finRange q)
    have hp : (g.path q).prev = none := by
      have := inv.prev q
      rw [hq] at this
      simpa using this
    generalize g.queue = l at hmem
    induction l with
    | nil => simp at hmem
    | cons c l ih =>
      rw [List.mapM_cons]
      by_cases hc : c = q
      · subst hc; rw [hp]; rfl
      · have hql : q ∈ l := by simpa [Ne.symm hc] using hmem
        rw [ih hql]
        cases (g.path c).prev <;> rfl
  unfold getPosteriorJoint
  dsimp only
  cases h0 : pyGet ((List.finRange a.n).map fun i => (g.cl i).factor) 0 with
  | error e => exact Or.inr ⟨e, rfl⟩
  | ok f =>
    cases h1 : productFrom ops f ((List.finRange a.n).map fun i => (g.cl i).factor).tail with
    | error e => right; exact ⟨e, by simpa [bind, Except.bind] using h1⟩
    | ok P =>
      left
      simp only [bind, Except.bind, h1, hlast]

end Verif.CG
