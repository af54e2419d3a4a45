import Verif.ClusterProps4
import Verif.TreeInt
import Verif.GaussSpec

/-!
# Converged tree-structured cluster graphs over continuous variables carry exact marginals

The counterpart of `ClusterExact.lean` for factor classes that stand for positive functions of real variables
and whose marginals are integrals.
-/

namespace Verif.CG
open Spec (override intOut CalibratedI jointI edgeProd)
open Classical MeasureTheory
open scoped ENNReal
variable {F V G : Type} {n m : Nat} {ops : Ops F V G}

/-- Lawful classes of continuous factors: factors stand for positive functions. -/
structure PosLaws (ops : Ops F V G) extends Laws ops ℝ where
  pos : ∀ {f}, Ok f → ∀ x, 0 < den f x
  meas : ∀ {f}, Ok f → Measurable (den f)

/-- Lawful classes in which moreover the marginal of a factor that can be normalised is the integral. -/
structure IntLaws (ops : Ops F V G) extends PosLaws ops where
  int : ∀ {f vrs r}, Ok f → vrs.Nodup → (∀ v ∈ vrs, v ∈ ops.vars f) → ops.marginalize f vrs = .ok r →
    (∃ x, intOut (ops.vars f).toFinset (fun y => .ofReal (den f y)) x ≠ ∞) →
    ∀ x, ENNReal.ofReal (den r x) =
      intOut ((ops.vars f).toFinset \ vrs.toFinset) (fun y => .ofReal (den f y)) x

/-- Every path's next message is a positive multiple of the last message passed along it (of 1 if there was
none). -/
def ConvergedI (L : PosLaws ops) (tr : List (Fin m × F)) (g : Graph F V G n m) : Prop :=
  ∀ q, ∃ c : ℝ, 0 < c ∧ ∀ x, L.den (g.path q).next.factor x = c * mval L.toLaws tr q x

/-- The belief of a cluster given the special evidence. -/
noncomputable def beliefI (L : PosLaws ops) (g0 g : Graph F V G n m) (i : Fin n) (x : Var → ℝ) : ℝ≥0∞ :=
  .ofReal (L.den (g.cl i).factor (override (evPairs L.toLaws g0.special) x))

/-- The product of the messages along an edge. -/
noncomputable def edgeWeightI (L : PosLaws ops) (g0 : Graph F V G n m) (tr : List (Fin m × F)) (i j : Fin n)
    (x : Var → ℝ) : ℝ≥0∞ :=
  ∏ q with onEdge g0 i j q, ENNReal.ofReal (mval L.toLaws tr q x)

theorem edge_pair {K : Type} [CommMonoid K] {evVars : List Var} {g0 : Graph F V G n m} (w : Wired ops evVars g0)
    (f : Fin m → K) {q r : Fin m} (hr1 : (g0.path r).snd = (g0.path q).rcv)
    (hr2 : (g0.path r).rcv = (g0.path q).snd) :
    ∏ p with onEdge g0 (g0.path q).snd (g0.path q).rcv p, f p = f q * f r := by
  have hqr : q ≠ r := by
    rintro rfl
    exact w.ne q hr1
  have : (Finset.univ.filter fun p => onEdge g0 (g0.path q).snd (g0.path q).rcv p) = {q, r} := by
    ext p
    simp only [Finset.mem_filter, Finset.mem_univ, true_and, Finset.mem_insert, Finset.mem_singleton]
    constructor
    · rintro (⟨h1, h2⟩ | ⟨h1, h2⟩)
      · exact Or.inl (w.pathInj p q h1 h2)
      · exact Or.inr (w.pathInj p r (h1.trans hr1.symm) (h2.trans hr2.symm))
    · rintro (rfl | rfl)
      · exact Or.inl ⟨rfl, rfl⟩
      · exact Or.inr ⟨hr1, hr2⟩
  rw [this, Finset.prod_pair hqr]

theorem edgeProdI_eq (L : PosLaws ops) {evVars : List Var} {g0 : Graph F V G n m} (w : Wired ops evVars g0)
    (tr : List (Fin m × F)) (x : Var → ℝ) :
    edgeProd (edgeGraph g0) (edgeWeightI L g0 tr) Finset.univ x = ∏ q, ENNReal.ofReal (mval L.toLaws tr q x) := by
  unfold edgeProd
  have hmaps : ∀ q ∈ (Finset.univ : Finset (Fin m)),
      (min (g0.path q).snd (g0.path q).rcv, max (g0.path q).snd (g0.path q).rcv) ∈
      ((Finset.univ ×ˢ Finset.univ).filter fun e : Fin n × Fin n => e.1 < e.2 ∧ (edgeGraph g0).Adj e.1 e.2) := by
    intro q _
    have hne := w.ne q
    have hs := w.sepOf_eq q
    simp only [Finset.mem_filter, Finset.mem_product, Finset.mem_univ, true_and, w.edge_adj]
    rcases lt_or_gt_of_ne hne with h | h
    · rw [min_eq_left h.le, max_eq_right h.le]; exact ⟨h, _, hs⟩
    · rw [min_eq_right h.le, max_eq_left h.le]; exact ⟨h, _, by rw [w.sepSymm]; exact hs⟩
  rw [← Finset.prod_fiberwise_of_maps_to hmaps]
  refine Finset.prod_congr rfl fun e he => ?_
  simp only [Finset.mem_filter, Finset.mem_product, Finset.mem_univ, true_and] at he
  unfold edgeWeightI
  refine Finset.prod_congr ?_ fun _ _ => rfl
  ext q
  simp only [Finset.mem_filter, Finset.mem_univ, true_and, Prod.ext_iff]
  unfold onEdge
  have hne := w.ne q
  have hlt := he.1
  rcases lt_or_gt_of_ne hne with h | h
  · rw [min_eq_left h.le, max_eq_right h.le]
    constructor
    · rintro (h' | ⟨h1, h2⟩)
      · exact h'
      · exact absurd (h1 ▸ h2 ▸ h) (not_lt.2 hlt.le)
    · exact Or.inl
  · rw [min_eq_right h.le, max_eq_left h.le]
    constructor
    · rintro (⟨h1, h2⟩ | ⟨h1, h2⟩)
      · exact absurd (h1 ▸ h2 ▸ h) (not_lt.2 hlt.le)
      · exact ⟨h2, h1⟩
    · rintro ⟨h1, h2⟩; exact Or.inr ⟨h2, h1⟩

theorem measurable_override (L : PosLaws ops) (ev : Dict Var V) :
    Measurable fun x : Var → ℝ => override (evPairs L.toLaws ev) x := by
  refine measurable_pi_iff.2 fun v => ?_
  simp only [override_apply]
  cases Dict.get? ev v with
  | none => exact measurable_pi_apply v
  | some s => exact measurable_const

section
variable {L : PosLaws ops} {evVars : List Var} {g0 g : Graph F V G n m} {tr : List (Fin m × F)}

theorem mval_pos (b : BelInv L.toLaws g0 tr g) (q : Fin m) (x : Var → ℝ) : 0 < mval L.toLaws tr q x := by
  unfold mval
  cases hl : lastMsg tr q with
  | none => exact one_pos
  | some f => exact L.pos (b.msg q f hl).1 x

theorem mval_meas (b : BelInv L.toLaws g0 tr g) (q : Fin m) : Measurable (mval L.toLaws tr q) := by
  unfold mval
  cases hl : lastMsg tr q with
  | none => exact measurable_const
  | some f => exact L.meas (b.msg q f hl).1

theorem beliefI_meas (b : BelInv L.toLaws g0 tr g) (i : Fin n) : Measurable (beliefI L g0 g i) :=
  ((L.meas (b.ok i)).comp (measurable_override L _)).ennreal_ofReal

theorem beliefI_dep (b : BelInv L.toLaws g0 tr g) (i : Fin n) {x y : Var → ℝ}
    (h : ∀ v ∈ freeVars ops g0 i, x v = y v) : beliefI L g0 g i x = beliefI L g0 g i y := by
  unfold beliefI
  congr 1
  refine L.dep (b.ok i) _ _ fun v hv => ?_
  rw [override_apply, override_apply]
  cases hg : Dict.get? g0.special v with
  | some s => rfl
  | none => exact h v (mem_freeVars.2 ⟨(b.vars i v).1 hv, Dict.get?_eq_none_iff.1 hg⟩)

/-- The next message of every path is the integral of the sender's belief, divided by the last message of the
reverse path. -/
def NextI (L : PosLaws ops) (g0 : Graph F V G n m) (tr : List (Fin m × F)) (g : Graph F V G n m) : Prop :=
  ∀ q r, (g0.path r).snd = (g0.path q).rcv → (g0.path r).rcv = (g0.path q).snd → ∀ x,
    ENNReal.ofReal (L.den (g.path q).next.factor x * mval L.toLaws tr r x) =
      intOut (freeVars ops g0 (g0.path q).snd \ (sepOf g0 q).toFinset) (beliefI L g0 g (g0.path q).snd) x

/-- Marginals of the factor are integrals. -/
def IntAt (L : PosLaws ops) (f : F) : Prop :=
  ∀ vrs r, vrs.Nodup → (∀ v ∈ vrs, v ∈ ops.vars f) → ops.marginalize f vrs = .ok r →
    ∀ x, ENNReal.ofReal (L.den r x) =
      intOut ((ops.vars f).toFinset \ vrs.toFinset) (fun y => .ofReal (L.den f y)) x

/-- It is, if the marginals of the beliefs given the special evidence are integrals. -/
theorem BelInv.next_of [Zero G] (w : Wired ops evVars g0) (inv : RunInv ops g0 tr g) (b : BelInv L.toLaws g0 tr g)
    (hat : ∀ i red, L.Ok red → (∀ v, v ∈ ops.vars red ↔ v ∈ freeVars ops g0 i) →
      (∀ x, ENNReal.ofReal (L.den red x) = beliefI L g0 g i x) → specialReduced ops (g.cl i) = .ok red → IntAt L red) :
    NextI L g0 tr g := by
  intro q r hr1 hr2 x
  have hr3 : sepOf g0 r = sepOf g0 q := by
    unfold sepOf
    rw [hr1, hr2, w.sepSymm]
  obtain ⟨_, _, red, M, h1, h2, h3, h4, h5, h6, h7⟩ := b.next' w inv hr1 hr2 hr3
  have hset : (ops.vars red).toFinset = freeVars ops g0 (g0.path q).snd := by
    ext v; rw [List.mem_toFinset, h2, mem_freeVars]
  have hB : (fun y => ENNReal.ofReal (L.den red y)) = beliefI L g0 g (g0.path q).snd := by
    funext y
    rw [h3]
    rfl
  have hsum := hat (g0.path q).snd red h1 (fun v => by rw [h2, mem_freeVars]) (congrFun hB) h7 _ M
    (w.sepOk _ _ _ (w.sepOf_eq q)).1
    (fun v hv => (h2 v).2 ⟨(w.sepOf_mem q hv).1, (w.sepOf_mem q hv).2.2⟩) h4
  rw [hset, hB] at hsum
  rw [← hsum, h6, div_mul_cancel₀ _ (mval_pos b r x).ne']

/-- It is, if the beliefs can be normalised. -/
theorem BelInv.next_int [Zero G] {L : IntLaws ops} (w : Wired ops evVars g0) (inv : RunInv ops g0 tr g)
    (b : BelInv L.toLaws g0 tr g)
    (hnorm : ∀ i, ∃ x, intOut (freeVars ops g0 i) (beliefI L.toPosLaws g0 g i) x ≠ ∞) : NextI L.toPosLaws g0 tr g := by
  refine b.next_of w inv fun i red h1 h2 h3 _ vrs r hn hv hm => L.int h1 hn hv hm ?_
  have hset : (ops.vars red).toFinset = freeVars ops g0 i := by
    ext v; rw [List.mem_toFinset, h2]
  rw [hset, show (fun y => ENNReal.ofReal (L.den red y)) = _ from funext h3]
  exact hnorm i

theorem calibratedI (w : Wired ops evVars g0) (b : BelInv L.toLaws g0 tr g)
    (hc : ConvergedI L tr g) (hI : NextI L g0 tr g) :
    CalibratedI (freeVars ops g0) (beliefI L g0 g) (edgeGraph g0) (edgeSep g0) (edgeWeightI L g0 tr) := by
  have hsym : ∀ i j, edgeSep g0 i j = edgeSep g0 j i := fun i j => by unfold edgeSep; rw [w.sepSymm]
  refine ⟨beliefI_meas b, fun i x => ?_, fun i x => ENNReal.ofReal_ne_top, fun i x y h => beliefI_dep b i h, hsym,
    fun i j => ?_, fun i j hij => ?_, fun i j hij x => ?_, fun i j hij x => ?_, fun i j hij v hv => ?_,
    fun i j hij x y h => ?_, fun i j hij => ?_⟩
  · rw [beliefI, Ne, ENNReal.ofReal_eq_zero, not_le]
    exact L.pos (b.ok i) _
  · funext x
    unfold edgeWeightI
    congr 1
    ext q
    simp only [Finset.mem_filter, Finset.mem_univ, true_and]
    exact or_comm
  · unfold edgeWeightI
    exact Finset.measurable_prod _ fun q _ => (mval_meas b q).ennreal_ofReal
  · refine Finset.prod_ne_zero_iff.2 fun q _ => ?_
    rw [Ne, ENNReal.ofReal_eq_zero, not_le]
    exact mval_pos b q x
  · exact ENNReal.prod_ne_top fun q _ => ENNReal.ofReal_ne_top
  · obtain ⟨s, hs⟩ := w.edge_adj.1 hij
    unfold edgeSep at hv
    rw [hs] at hv
    have := (w.sepOk _ _ _ hs).2 v (by simpa using hv)
    exact mem_freeVars.2 ⟨this.1, fun hk => this.2.2 (w.specialEv v hk)⟩
  · unfold edgeWeightI
    refine Finset.prod_congr rfl fun q hq => ?_
    congr 1
    refine mval_congr L.toLaws (b.msg q) fun v hv => h v ?_
    unfold sepOf at hv
    unfold edgeSep
    rcases (Finset.mem_filter.1 hq).2 with ⟨h1, h2⟩ | ⟨h1, h2⟩
    · rw [h1, h2] at hv; simpa using hv
    · rw [h1, h2, w.sepSymm] at hv; simpa using hv
  · obtain ⟨q, rfl, rfl⟩ := (w.pathSep i j).2 (w.edge_adj.1 hij)
    obtain ⟨r, hr1, hr2, hr3⟩ := w.rev q
    obtain ⟨c, hc0, hcx⟩ := hc q
    have hS : edgeSep g0 (g0.path q).snd (g0.path q).rcv = (sepOf g0 q).toFinset := by
      unfold edgeSep; rw [w.sepOf_eq]; rfl
    refine ⟨.ofReal c, by simpa using hc0, ENNReal.ofReal_ne_top, fun x => ?_⟩
    unfold edgeWeightI
    have hq := mval_pos b q x
    rw [edge_pair w _ hr1 hr2, ← ENNReal.ofReal_mul hq.le, ← ENNReal.ofReal_mul hc0.le, ← mul_assoc, ← hcx x,
      hI q r hr1 hr2, hS]

theorem jointI_eq (w : Wired ops evVars g0) (b : BelInv L.toLaws g0 tr g) {J : (Var → ℝ) → ℝ}
    (hJ : ∀ y, J y = ∏ i, L.den (g0.cl i).factor (override (evPairs L.toLaws g0.special) y)) :
    jointI (beliefI L g0 g) (edgeGraph g0) (edgeWeightI L g0 tr) Finset.univ = fun y => .ofReal (J y) := by
  have hmv : ∀ q y, mval L.toLaws tr q (override (evPairs L.toLaws g0.special) y) = mval L.toLaws tr q y := by
    intro q y
    refine mval_congr L.toLaws (b.msg q) fun v hv => ?_
    exact override_keep L.toLaws (w.sepOf_mem q hv).2.2 y
  have hJ0 : ∀ y, 0 ≤ J y := fun y => by
    rw [hJ]
    exact Finset.prod_nonneg fun i _ => L.nonneg (b.ok0 i) _
  have hprod : ∀ y, ∏ i, beliefI L g0 g i y = .ofReal (J y) * ∏ q, ENNReal.ofReal (mval L.toLaws tr q y) := by
    intro y
    unfold beliefI
    rw [← ENNReal.ofReal_prod_of_nonneg (fun i _ => L.nonneg (b.ok i) _),
      ← ENNReal.ofReal_prod_of_nonneg (fun q _ => (mval_pos b q y).le), ← ENNReal.ofReal_mul (hJ0 y)]
    congr 1
    rw [Finset.prod_congr rfl fun i _ => b.belief i _, Finset.prod_mul_distrib, hJ]
    congr 1
    rw [Finset.prod_congr rfl fun q _ => (hmv q y).symm]
    exact Finset.prod_fiberwise Finset.univ (fun q => (g0.path q).rcv)
      fun q => mval L.toLaws tr q (override (evPairs L.toLaws g0.special) y)
  funext y
  unfold jointI
  rw [edgeProdI_eq L w tr, hprod, ENNReal.mul_div_cancel_right]
  · refine Finset.prod_ne_zero_iff.2 fun q _ => ?_
    rw [Ne, ENNReal.ofReal_eq_zero, not_le]
    exact mval_pos b q y
  · exact ENNReal.prod_ne_top fun q _ => ENNReal.ofReal_ne_top

/-- In a converged tree whose beliefs can be normalised, the product of the initial factors given the special
evidence can be normalised, and the belief of each cluster is its marginal. -/
theorem beliefI_exact (w : Wired ops evVars g0) (b : BelInv L.toLaws g0 tr g)
    (hc : ConvergedI L tr g) (hI : NextI L g0 tr g)
    (hnorm : ∀ i, ∃ x, intOut (freeVars ops g0 i) (beliefI L g0 g i) x ≠ ∞)
    (hE : (edgeGraph g0).IsAcyclic)
    (rip : ∀ v i j, v ∈ freeVars ops g0 i → v ∈ freeVars ops g0 j →
      Relation.ReflTransGen (fun i j => (edgeGraph g0).Adj i j ∧ v ∈ edgeSep g0 i j) i j)
    (i : Fin n) {J : (Var → ℝ) → ℝ}
    (hJ : ∀ y, J y = ∏ i, L.den (g0.cl i).factor (override (evPairs L.toLaws g0.special) y)) :
    (∃ x, intOut (Finset.univ.biUnion (freeVars ops g0)) (fun y => .ofReal (J y)) x ≠ ∞) ∧
    ∃ c : ℝ≥0∞, c ≠ 0 ∧ c ≠ ∞ ∧ ∀ x, intOut (Finset.univ.biUnion (freeVars ops g0) \ freeVars ops g0 i)
        (fun y => .ofReal (J y)) x = c * beliefI L g0 g i x := by
  rw [← jointI_eq w b hJ]
  exact (calibratedI w b hc hI).exact hnorm hE rip i

/-- In a converged tree, if the product of the initial factors given the special evidence can be normalised, so
can the beliefs. -/
theorem beliefI_norm (w : Wired ops evVars g0) (b : BelInv L.toLaws g0 tr g)
    (hc : ConvergedI L tr g) (hI : NextI L g0 tr g) (hE : (edgeGraph g0).IsAcyclic)
    (rip : ∀ v i j, v ∈ freeVars ops g0 i → v ∈ freeVars ops g0 j →
      Relation.ReflTransGen (fun i j => (edgeGraph g0).Adj i j ∧ v ∈ edgeSep g0 i j) i j) {J : (Var → ℝ) → ℝ}
    (hJ : ∀ y, J y = ∏ i, L.den (g0.cl i).factor (override (evPairs L.toLaws g0.special) y))
    (hfin : ∃ x, intOut (Finset.univ.biUnion (freeVars ops g0)) (fun y => .ofReal (J y)) x ≠ ∞) (i : Fin n) :
    ∃ x, intOut (freeVars ops g0 i) (beliefI L g0 g i) x ≠ ∞ := by
  rw [← jointI_eq w b hJ] at hfin
  exact (calibratedI w b hc hI).norm hE rip hfin i

end

end Verif.CG
