import Verif.ClusterProps3
import Verif.TreeExact

/-!
# Converged tree-structured cluster graphs carry exact marginals
-/

namespace Verif.CG
open Spec (override Asg sumOut Calibrated edgeProd)
open Classical
variable {F V G : Type} {n m : Nat} {ops : Ops F V G}

/-- Lawful classes of discrete factors: variables have global cardinalities `C`, factors vanish outside
the range, and marginalisation sums. -/
structure SumLaws (ops : Ops F V G) extends Laws ops Nat where
  C : Var → Nat
  supp : ∀ {f}, Ok f → ∀ x, den f x ≠ 0 → ∀ v ∈ ops.vars f, x v < C v
  sum : ∀ {f vrs r}, Ok f → vrs.Nodup → (∀ v ∈ vrs, v ∈ ops.vars f) → ops.marginalize f vrs = .ok r →
    ∀ x, den r x = sumOut C ((ops.vars f).toFinset \ vrs.toFinset) (den f) x

/-- Every path's next message is, on the range of the sepset, a positive multiple of the last message
passed along it (of 1 if there was none). -/
def Converged (L : SumLaws ops) (g0 : Graph F V G n m) (tr : List (Fin m × F)) (g : Graph F V G n m) : Prop :=
  ∀ q, ∃ c : ℝ, 0 < c ∧ ∀ x : Asg, (∀ v ∈ sepOf g0 q, x v < L.C v) →
    L.den (g.path q).next.factor x = c * mval L.toLaws tr q x

/-- The undirected graph of the clusters. -/
def edgeGraph (g : Graph F V G n m) : SimpleGraph (Fin n) :=
  SimpleGraph.fromRel fun i j => ∃ s, sepset g i j = some s

theorem Wired.edge_adj {evVars : List Var} {g0 : Graph F V G n m} (w : Wired ops evVars g0) {i j : Fin n} :
    (edgeGraph g0).Adj i j ↔ ∃ s, sepset g0 i j = some s := by
  unfold edgeGraph
  rw [SimpleGraph.fromRel_adj, w.sepSymm j i, or_self]
  refine ⟨fun h => h.2, fun h => ⟨?_, h⟩⟩
  rintro rfl
  obtain ⟨s, hs⟩ := h
  rw [w.sepIrrefl] at hs
  cases hs

/-- The paths along an edge. -/
def onEdge (g0 : Graph F V G n m) (i j : Fin n) (q : Fin m) : Prop :=
  ((g0.path q).snd = i ∧ (g0.path q).rcv = j) ∨ ((g0.path q).snd = j ∧ (g0.path q).rcv = i)

/-- The sepset of an edge as a set. -/
def edgeSep (g0 : Graph F V G n m) (i j : Fin n) : Finset Var := ((sepset g0 i j).getD []).toFinset

/-- The product of the messages along an edge, on the range. -/
noncomputable def edgeWeight (L : SumLaws ops) (g0 : Graph F V G n m) (tr : List (Fin m × F)) (i j : Fin n)
    (x : Asg) : ℝ :=
  if ∀ v ∈ edgeSep g0 i j, x v < L.C v then ∏ q with onEdge g0 i j q, mval L.toLaws tr q x else 0

theorem edgeWeight_eq (L : SumLaws ops) {evVars : List Var} {g0 : Graph F V G n m} (w : Wired ops evVars g0)
    (tr : List (Fin m × F)) {q r : Fin m} (hr1 : (g0.path r).snd = (g0.path q).rcv)
    (hr2 : (g0.path r).rcv = (g0.path q).snd) (x : Asg) :
    ∏ p with onEdge g0 (g0.path q).snd (g0.path q).rcv p, mval L.toLaws tr p x =
      mval L.toLaws tr q x * mval L.toLaws tr r x := by
  have hqr : q ≠ r := by
    rintro rfl
    exact w.ne q hr1
  have : (Finset.univ.filter fun p => onEdge g0 (g0.path q).snd (g0.path q).rcv p) = {q, r} := by
    ext p
    simp only [Finset.mem_filter, Finset.mem_univ, true_and, Finset.mem_insert, Finset.mem_singleton]
    constructor
    · rintro (⟨h1, h2⟩ | ⟨h1, h2⟩)
      · exact Or.inl (w.pathInj p q h1 h2)
      · exact Or.inr (w.pathInj p r (h1.trans hr1.symm) (h2.trans hr2.symm))
    · rintro (rfl | rfl)
      · exact Or.inl ⟨rfl, rfl⟩
      · exact Or.inr ⟨hr1, hr2⟩
  rw [this, Finset.prod_pair hqr]

theorem edgeProd_eq (L : SumLaws ops) {evVars : List Var} {g0 : Graph F V G n m} (w : Wired ops evVars g0)
    (tr : List (Fin m × F)) {x : Asg} (hx : ∀ i, ∀ v ∈ scope ops g0 i, v ∉ Dict.keys g0.special → x v < L.C v) :
    edgeProd (edgeGraph g0) (edgeWeight L g0 tr) Finset.univ x = ∏ q, mval L.toLaws tr q x := by
  unfold edgeProd
  have hmaps : ∀ q ∈ (Finset.univ : Finset (Fin m)),
      (min (g0.path q).snd (g0.path q).rcv, max (g0.path q).snd (g0.path q).rcv) ∈
      ((Finset.univ ×ˢ Finset.univ).filter fun e : Fin n × Fin n => e.1 < e.2 ∧ (edgeGraph g0).Adj e.1 e.2) := by
    intro q _
    have hne := w.ne q
    have hs := w.sepOf_eq q
    simp only [Finset.mem_filter, Finset.mem_product, Finset.mem_univ, true_and, w.edge_adj]
    rcases lt_or_gt_of_ne hne with h | h
    · rw [min_eq_left h.le, max_eq_right h.le]; exact ⟨h, _, hs⟩
    · rw [min_eq_right h.le, max_eq_left h.le]; exact ⟨h, _, by rw [w.sepSymm]; exact hs⟩
  rw [← Finset.prod_fiberwise_of_maps_to hmaps]
  refine Finset.prod_congr rfl fun e he => ?_
  simp only [Finset.mem_filter, Finset.mem_product, Finset.mem_univ, true_and] at he
  unfold edgeWeight
  rw [if_pos]
  · refine Finset.prod_congr ?_ fun _ _ => rfl
    ext q
    simp only [Finset.mem_filter, Finset.mem_univ, true_and, Prod.ext_iff]
    unfold onEdge
    have hne := w.ne q
    have hlt := he.1
    rcases lt_or_gt_of_ne hne with h | h
    · rw [min_eq_left h.le, max_eq_right h.le]
      constructor
      · rintro (h' | ⟨h1, h2⟩)
        · exact h'
        · exact absurd (h1 ▸ h2 ▸ h) (not_lt.2 hlt.le)
      · exact Or.inl
    · rw [min_eq_right h.le, max_eq_left h.le]
      constructor
      · rintro (⟨h1, h2⟩ | ⟨h1, h2⟩)
        · exact absurd (h1 ▸ h2 ▸ h) (not_lt.2 hlt.le)
        · exact ⟨h2, h1⟩
      · rintro ⟨h1, h2⟩; exact Or.inr ⟨h2, h1⟩
  · intro v hv
    obtain ⟨s, hs⟩ := w.edge_adj.1 he.2
    unfold edgeSep at hv
    rw [hs] at hv
    have := (w.sepOk _ _ _ hs).2 v (by simpa using hv)
    exact hx e.1 v this.1 fun hk => this.2.2 (w.specialEv v hk)

/-- The unobserved variables of a cluster. -/
def freeVars (ops : Ops F V G) (g0 : Graph F V G n m) (i : Fin n) : Finset Var :=
  (scope ops g0 i).toFinset \ (Dict.keys g0.special).toFinset

theorem mem_freeVars {g0 : Graph F V G n m} {i : Fin n} {v : Var} :
    v ∈ freeVars ops g0 i ↔ v ∈ scope ops g0 i ∧ v ∉ Dict.keys g0.special := by
  simp [freeVars]

/-- The belief of a cluster given the special evidence. -/
noncomputable def belief (L : SumLaws ops) (g0 g : Graph F V G n m) (i : Fin n) (x : Asg) : ℝ :=
  L.den (g.cl i).factor (override (evPairs L.toLaws g0.special) x)

theorem calibrated [Zero G] (L : SumLaws ops) {evVars : List Var} {g0 g : Graph F V G n m}
    {tr : List (Fin m × F)} (w : Wired ops evVars g0) (inv : RunInv ops g0 tr g) (b : BelInv L.toLaws g0 tr g)
    (hc : Converged L g0 tr g) :
    Calibrated L.C (freeVars ops g0) (belief L g0 g) (edgeGraph g0) (edgeSep g0) (edgeWeight L g0 tr) := by
  have hsuppB : ∀ i x, belief L g0 g i x ≠ 0 → ∀ v ∈ freeVars ops g0 i, x v < L.C v := by
    intro i x hx v hv
    rw [mem_freeVars] at hv
    have := L.supp (b.ok i) _ hx v ((b.vars i v).2 hv.1)
    rwa [override_keep L.toLaws hv.2] at this
  have hsym : ∀ i j, edgeSep g0 i j = edgeSep g0 j i := fun i j => by unfold edgeSep; rw [w.sepSymm]
  refine ⟨fun i x => L.nonneg (b.ok i) _, fun i x y h => ?_, hsuppB, hsym, fun i j => ?_, fun i j hij v hv => ?_,
    fun i j hij x y h => ?_, fun i j hij => ?_⟩
  · refine L.dep (b.ok i) _ _ fun v hv => ?_
    rw [override_apply, override_apply]
    cases hg : Dict.get? g0.special v with
    | some s => rfl
    | none => exact h v (mem_freeVars.2 ⟨(b.vars i v).1 hv, Dict.get?_eq_none_iff.1 hg⟩)
  · funext x
    unfold edgeWeight
    rw [hsym i j]
    congr 2
    ext q
    simp only [Finset.mem_filter, Finset.mem_univ, true_and]
    exact or_comm
  · obtain ⟨s, hs⟩ := w.edge_adj.1 hij
    unfold edgeSep at hv
    rw [hs] at hv
    have := (w.sepOk _ _ _ hs).2 v (by simpa using hv)
    exact mem_freeVars.2 ⟨this.1, fun hk => this.2.2 (w.specialEv v hk)⟩
  · obtain ⟨s, hs⟩ := w.edge_adj.1 hij
    have hr : (∀ v ∈ edgeSep g0 i j, x v < L.C v) ↔ ∀ v ∈ edgeSep g0 i j, y v < L.C v :=
      forall₂_congr fun v hv => by rw [h v hv]
    unfold edgeWeight
    by_cases hx : ∀ v ∈ edgeSep g0 i j, x v < L.C v
    · rw [if_pos hx, if_pos (hr.1 hx)]
      refine Finset.prod_congr rfl fun q hq => ?_
      refine mval_congr L.toLaws (b.msg q) fun v hv => h v ?_
      unfold sepOf at hv
      unfold edgeSep
      rcases (Finset.mem_filter.1 hq).2 with ⟨h1, h2⟩ | ⟨h1, h2⟩
      · rw [h1, h2] at hv; simpa using hv
      · rw [h1, h2, w.sepSymm] at hv; simpa using hv
    · rw [if_neg hx, if_neg (mt hr.2 hx)]
  · obtain ⟨q, rfl, rfl⟩ := (w.pathSep i j).2 (w.edge_adj.1 hij)
    obtain ⟨r, hr1, hr2, hr3⟩ := w.rev q
    obtain ⟨_, _, red, M, h1, h2, h3, h4, h5, h6⟩ := b.next w inv hr1 hr2 hr3
    obtain ⟨c, hc0, hcx⟩ := hc q
    have hsum := L.sum h1 (w.sepOk _ _ _ (w.sepOf_eq q)).1
      (fun v hv => (h2 v).2 ⟨(w.sepOf_mem q hv).1, (w.sepOf_mem q hv).2.2⟩) h4
    have hset : (ops.vars red).toFinset = freeVars ops g0 (g0.path q).snd := by
      ext v; rw [List.mem_toFinset, h2, mem_freeVars]
    have hS : edgeSep g0 (g0.path q).snd (g0.path q).rcv = (sepOf g0 q).toFinset := by
      unfold edgeSep; rw [w.sepOf_eq]; rfl
    have hB : L.den red = belief L g0 g (g0.path q).snd := funext h3
    rw [hset, ← hS, hB] at hsum
    refine ⟨c, hc0, fun x => ?_⟩
    unfold edgeWeight
    split
    · rename_i hx
      rw [edgeWeight_eq L w tr hr1 hr2, ← mul_assoc, ← hcx x (fun v hv => hx v (by rw [hS]; simpa using hv)), h6,
        ← hsum]
      by_cases h0 : mval L.toLaws tr r x = 0
      · rw [h0, h5 x h0]; simp
      · field_simp
    · rename_i hx
      push Not at hx
      obtain ⟨v, hv, hvx⟩ := hx
      rw [mul_zero]
      have hz : ∀ y : Asg, (∀ u, u ∉ freeVars ops g0 (g0.path q).snd \ edgeSep g0 (g0.path q).snd (g0.path q).rcv →
          y u = x u) → belief L g0 g (g0.path q).snd y = (fun _ => (0 : ℝ)) y := by
        intro y hy
        by_contra hne
        have hvU : v ∈ freeVars ops g0 (g0.path q).snd := by
          rw [hS, List.mem_toFinset] at hv
          exact mem_freeVars.2 ⟨(w.sepOf_mem q hv).1, (w.sepOf_mem q hv).2.2⟩
        have := hsuppB _ y hne v hvU
        rw [hy v (by simp [hv])] at this
        omega
      rw [Spec.sumOut_congr hz]
      have := Spec.sumOut_const_mul (C := L.C) (freeVars ops g0 (g0.path q).snd \ edgeSep g0 (g0.path q).snd (g0.path q).rcv)
        (fun _ => (0 : ℝ)) 0 x
      simpa using this

/-- In a converged tree, the belief of each cluster is the marginal of the product of the initial factors
given the special evidence. -/
theorem belief_exact [Zero G] (L : SumLaws ops) {evVars : List Var} {g0 g : Graph F V G n m}
    {tr : List (Fin m × F)} (w : Wired ops evVars g0) (inv : RunInv ops g0 tr g) (b : BelInv L.toLaws g0 tr g)
    (hc : Converged L g0 tr g) (hE : (edgeGraph g0).IsAcyclic)
    (rip : ∀ v i j, v ∈ freeVars ops g0 i → v ∈ freeVars ops g0 j →
      Relation.ReflTransGen (fun i j => (edgeGraph g0).Adj i j ∧ v ∈ edgeSep g0 i j) i j)
    (hpos : ∃ x : Asg, ∀ i, L.den (g0.cl i).factor (override (evPairs L.toLaws g0.special) x) ≠ 0) (i : Fin n) :
    ∃ c : ℝ, 0 < c ∧ ∀ x, belief L g0 g i x = c *
      sumOut L.C (Finset.univ.biUnion (freeVars ops g0) \ freeVars ops g0 i)
        (fun y => ∏ i, L.den (g0.cl i).factor (override (evPairs L.toLaws g0.special) y)) x := by
  have hcal := calibrated L w inv b hc
  obtain ⟨c, hc0, _, hex⟩ := hcal.exact hE rip i
  set J : Asg → ℝ := fun y => ∏ i, L.den (g0.cl i).factor (override (evPairs L.toLaws g0.special) y) with hJ
  have hmv : ∀ q y, mval L.toLaws tr q (override (evPairs L.toLaws g0.special) y) = mval L.toLaws tr q y := by
    intro q y
    refine mval_congr L.toLaws (b.msg q) fun v hv => ?_
    exact override_keep L.toLaws (w.sepOf_mem q hv).2.2 y
  have hprod : ∀ y, ∏ i, belief L g0 g i y = J y * ∏ q, mval L.toLaws tr q y := by
    intro y
    unfold belief
    rw [Finset.prod_congr rfl fun i _ => b.belief i _, Finset.prod_mul_distrib]
    congr 1
    rw [Finset.prod_congr rfl fun q _ => (hmv q y).symm]
    exact Finset.prod_fiberwise Finset.univ (fun q => (g0.path q).rcv)
      fun q => mval L.toLaws tr q (override (evPairs L.toLaws g0.special) y)
  have hquot : ∀ y, (∏ i, belief L g0 g i y) / edgeProd (edgeGraph g0) (edgeWeight L g0 tr) Finset.univ y = J y := by
    intro y
    by_cases hJ0 : J y = 0
    · rw [hprod, hJ0, zero_mul, zero_div]
    · have hnz : ∀ i, L.den (g0.cl i).factor (override (evPairs L.toLaws g0.special) y) ≠ 0 := by
        intro i hi
        exact hJ0 (Finset.prod_eq_zero (Finset.mem_univ i) hi)
      have hm : ∏ q, mval L.toLaws tr q y ≠ 0 := Finset.prod_ne_zero_iff.2 fun q _ => b.pos y hnz q
      rw [edgeProd_eq L w tr, hprod, mul_div_cancel_right₀ _ hm]
      intro i v hv hk
      have := L.supp (b.ok0 i) _ (hnz i) v hv
      rwa [override_keep L.toLaws hk] at this
  have hfun : (fun y => (∏ i, belief L g0 g i y) / edgeProd (edgeGraph g0) (edgeWeight L g0 tr) Finset.univ y) = J :=
    funext hquot
  rw [hfun] at hex
  have hcne : c ≠ 0 := by
    rintro rfl
    obtain ⟨x, hx⟩ := hpos
    have h0 := hex x
    rw [zero_mul] at h0
    have hJnn : ∀ y, 0 ≤ J y := fun y => Finset.prod_nonneg fun i _ => L.nonneg (b.ok0 i) _
    have : J x = 0 := Spec.sumOut_eq_zero hJnn h0 (fun _ _ => rfl) (by
      intro v hv
      obtain ⟨k, _, hk⟩ := Finset.mem_biUnion.1 (Finset.mem_sdiff.1 hv).1
      rw [mem_freeVars] at hk
      have := L.supp (b.ok0 k) _ (hx k) v hk.1
      rwa [override_keep L.toLaws hk.2] at this)
    exact (Finset.prod_ne_zero_iff.2 fun i _ => hx i) this
  refine ⟨c⁻¹, by positivity, fun x => ?_⟩
  rw [hex x, ← mul_assoc, inv_mul_cancel₀ hcne, one_mul]

end Verif.CG
