import Verif.SumOut
import Mathlib.Combinatorics.SimpleGraph.Acyclic
import Mathlib.Algebra.BigOperators.Field

/-!
# Calibrated trees carry exact marginals

Pure mathematics, independent of the model: beliefs `B i` and edge weights `μ i j` on an acyclic graph
with the running intersection property, where every belief sums to the edge weight (up to scale) on
every edge, have exact marginals of `∏ B / ∏ μ`.
-/

namespace Verif.Spec
open Classical Finset

theorem exists_leaf {n : Nat} {E : SimpleGraph (Fin n)} (hE : E.IsAcyclic) {A : Finset (Fin n)}
    {r : Fin n} (hne : ∃ i ∈ A, i ≠ r) :
    ∃ i ∈ A, i ≠ r ∧ ∀ p ∈ A, ∀ p' ∈ A, E.Adj i p → E.Adj i p' → p = p' := by
  obtain ⟨a, ha, har⟩ := hne
  have hH : (E.induce (A : Set (Fin n))).IsAcyclic := hE.induce _
  have : Nonempty (A : Set (Fin n)) := ⟨⟨a, ha⟩⟩
  obtain ⟨u, v, p, hp, hmax⟩ :=
    SimpleGraph.Walk.exists_isPath_forall_isPath_length_le_length (E.induce (A : Set (Fin n)))
  by_cases hnil : p.Nil
  · refine ⟨a, ha, har, fun q hq q' _ h _ => ?_⟩
    exfalso
    have hadj : (E.induce (A : Set (Fin n))).Adj ⟨a, ha⟩ ⟨q, hq⟩ := h
    have := hmax _ _ hadj.toWalk (by simp [SimpleGraph.Walk.isPath_def, hadj.ne])
    have h0 : p.length = 0 := SimpleGraph.Walk.length_eq_zero_iff.2 hnil
    simp [h0] at this
  · have huv : u ≠ v := hp.nil_iff_eq.not.mp hnil
    have hu : ∀ w, (E.induce (A : Set (Fin n))).Adj u w → w = p.snd := fun w hadj => by
      apply hH.eq_snd_of_adj_start hp hadj
      have : ¬(p.cons hadj.symm).IsPath := fun h => by
        have := hmax _ _ _ h
        simp at this
      grind [hp.cons]
    have hv : ∀ w, (E.induce (A : Set (Fin n))).Adj v w → w = p.penultimate := fun w hadj => by
      apply hH.eq_penultimate_of_adj_end hp hadj
      have : ¬(p.concat hadj).IsPath := fun h => by
        have := hmax _ _ _ h
        simp at this
      grind [hp.concat]
    have fin : ∀ t (w : (A : Set (Fin n))), (∀ w', (E.induce (A : Set (Fin n))).Adj t w' → w' = w) →
        ∀ q ∈ A, ∀ q' ∈ A, E.Adj t q → E.Adj t q' → q = q' := by
      intro t w h q hq q' hq' h1 h2
      have e1 := h ⟨q, hq⟩ h1
      have e2 := h ⟨q', hq'⟩ h2
      exact congrArg Subtype.val (e1.trans e2.symm)
    by_cases hur : (u : Fin n) = r
    · refine ⟨v, v.2, fun h => huv (Subtype.ext (hur.trans h.symm)), fin v _ hv⟩
    · exact ⟨u, u.2, hur, fin u _ hu⟩

/-- The relation `R` restricted to `A`. -/
def Within {n : Nat} (A : Finset (Fin n)) (R : Fin n → Fin n → Prop) (i j : Fin n) : Prop :=
  i ∈ A ∧ j ∈ A ∧ R i j

/-- Removing a vertex with at most one neighbour does not disconnect the others. -/
theorem reach_erase {n : Nat} {A : Finset (Fin n)} {R : Fin n → Fin n → Prop} (hs : ∀ i j, R i j → R j i)
    {i : Fin n} (hi : ∀ p ∈ A, ∀ p' ∈ A, R i p → R i p' → p = p') {a b : Fin n} (ha : a ≠ i)
    (h : Relation.ReflTransGen (Within A R) a b) (hb : b ≠ i) :
    Relation.ReflTransGen (Within (A.erase i) R) a b := by
  have key : ∀ c, Relation.ReflTransGen (Within A R) a c →
      (c ≠ i → Relation.ReflTransGen (Within (A.erase i) R) a c) ∧
      (c = i → ∀ p ∈ A, R i p → p ≠ i → Relation.ReflTransGen (Within (A.erase i) R) a p) := by
    intro c hc
    induction hc with
    | refl => exact ⟨fun _ => .refl, fun h => absurd h ha⟩
    | @tail c d _ hcd ih =>
      obtain ⟨hcA, hdA, hR⟩ := hcd
      constructor
      · intro hd
        by_cases hci : c = i
        · subst hci; exact ih.2 rfl d hdA hR hd
        · exact (ih.1 hci).tail ⟨mem_erase.2 ⟨hci, hcA⟩, mem_erase.2 ⟨hd, hdA⟩, hR⟩
      · rintro rfl p hp hRp hpd
        by_cases hci : c = d
        · subst hci; exact ih.2 rfl p hp hRp hpd
        · rw [← hi c hcA p hp (hs _ _ hR) hRp]
          exact ih.1 hci
  exact (key b h).1 hb

section
variable {C : Var → Nat} {n : Nat} {U : Fin n → Finset Var} {B : Fin n → Asg → ℝ}
  {E : SimpleGraph (Fin n)} {S : Fin n → Fin n → Finset Var} {μ : Fin n → Fin n → Asg → ℝ}

/-- The product of the edge weights inside `A`. -/
noncomputable def edgeProd {X K : Type} [CommMonoid K] (E : SimpleGraph (Fin n)) (μ : Fin n → Fin n → X → K)
    (A : Finset (Fin n)) (x : X) : K :=
  ∏ e ∈ (A ×ˢ A).filter (fun e => e.1 < e.2 ∧ E.Adj e.1 e.2), μ e.1 e.2 x

/-- Calibrated beliefs on a graph with the running intersection property. -/
structure Calibrated (C : Var → Nat) (U : Fin n → Finset Var) (B : Fin n → Asg → ℝ)
    (E : SimpleGraph (Fin n)) (S : Fin n → Fin n → Finset Var) (μ : Fin n → Fin n → Asg → ℝ) : Prop where
  nonneg : ∀ i x, 0 ≤ B i x
  dep : ∀ i x y, (∀ v ∈ U i, x v = y v) → B i x = B i y
  supp : ∀ i x, B i x ≠ 0 → ∀ v ∈ U i, x v < C v
  symmS : ∀ i j, S i j = S j i
  symmμ : ∀ i j, μ i j = μ j i
  subS : ∀ i j, E.Adj i j → S i j ⊆ U i
  depμ : ∀ i j, E.Adj i j → ∀ x y, (∀ v ∈ S i j, x v = y v) → μ i j x = μ i j y
  cal : ∀ i j, E.Adj i j → ∃ c : ℝ, 0 < c ∧ ∀ x, sumOut C (U i \ S i j) (B i) x = c * μ i j x

theorem edgeProd_isolated {X K : Type} [CommMonoid K] {μ : Fin n → Fin n → X → K} {A : Finset (Fin n)}
    {i : Fin n} (hp : ∀ p ∈ A, ¬ E.Adj i p) (x : X) :
    edgeProd E μ A x = edgeProd E μ (A.erase i) x := by
  unfold edgeProd
  congr 1
  ext e
  simp only [mem_filter, mem_product, mem_erase]
  constructor
  · rintro ⟨⟨h1, h2⟩, h3, h4⟩
    refine ⟨⟨⟨?_, h1⟩, ?_, h2⟩, h3, h4⟩
    · intro h; exact hp _ h2 (h ▸ h4)
    · intro h; exact hp _ h1 (h ▸ h4.symm)
  · rintro ⟨⟨⟨_, h1⟩, _, h2⟩, h3⟩
    exact ⟨⟨h1, h2⟩, h3⟩

theorem edgeProd_leaf {X K : Type} [CommMonoid K] {μ : Fin n → Fin n → X → K} {A : Finset (Fin n)}
    {i p : Fin n} (hi : i ∈ A) (hpA : p ∈ A) (hip : E.Adj i p)
    (hu : ∀ p' ∈ A, E.Adj i p' → p' = p) (hsym : ∀ i j, μ i j = μ j i) (x : X) :
    edgeProd E μ A x = edgeProd E μ (A.erase i) x * μ i p x := by
  unfold edgeProd
  set e0 : Fin n × Fin n := if i < p then (i, p) else (p, i) with he0
  have hne : i ≠ p := hip.ne
  have hmem : e0 ∈ (A ×ˢ A).filter (fun e => e.1 < e.2 ∧ E.Adj e.1 e.2) := by
    rw [he0]
    split
    · simp [*]
    · rename_i h
      have : p < i := lt_of_le_of_ne (not_lt.1 h) hne.symm
      simp [hi, hpA, this, hip.symm]
  have hval : μ e0.1 e0.2 x = μ i p x := by
    rw [he0]
    split
    · rfl
    · rw [hsym]
  rw [← Finset.prod_erase_mul _ _ hmem, hval]
  congr 1
  refine Finset.prod_congr ?_ fun _ _ => rfl
  ext e
  obtain ⟨a, b⟩ := e
  simp only [mem_filter, mem_product, mem_erase]
  constructor
  · rintro ⟨h0, ⟨h1, h2⟩, h3, h4⟩
    refine ⟨⟨⟨?_, h1⟩, ?_, h2⟩, h3, h4⟩
    · rintro rfl
      have := hu b h2 h4
      subst this
      exact h0 (by rw [he0, if_pos h3])
    · rintro rfl
      have := hu a h1 h4.symm
      subst this
      exact h0 (by rw [he0, if_neg (not_lt.2 h3.le)])
  · rintro ⟨⟨⟨h0, h1⟩, h0', h2⟩, h3, h4⟩
    refine ⟨?_, ⟨h1, h2⟩, h3, h4⟩
    rw [he0]
    split <;> simp only [ne_eq, Prod.mk.injEq, not_and] <;> intro h <;> first | exact absurd h h0 | skip
    intro h'; exact h0' h'

/-- A belief vanishes where the edge weight does. -/
theorem Calibrated.zero (h : Calibrated C U B E S μ) {i j : Fin n} (hij : E.Adj i j) {x : Asg}
    (h0 : μ i j x = 0) : B i x = 0 := by
  by_contra hb
  obtain ⟨c, _, hc⟩ := h.cal i j hij
  have := hc x
  rw [h0, mul_zero] at this
  exact hb (sumOut_eq_zero (h.nonneg i) this (fun _ _ => rfl)
    fun v hv => h.supp i x hb v (mem_sdiff.1 hv).1)

/-- Eliminate the clusters of `A` other than `r` one leaf at a time. -/
theorem Calibrated.eliminate (h : Calibrated C U B E S μ) (hE : E.IsAcyclic) (r : Fin n) :
    ∀ (k : Nat) (A : Finset (Fin n)), #A = k → r ∈ A →
    (∀ v, ∀ a ∈ A, ∀ b ∈ A, v ∈ U a → v ∈ U b →
      Relation.ReflTransGen (Within A fun i j => E.Adj i j ∧ v ∈ S i j) a b) →
    ∃ c : ℝ, 0 ≤ c ∧
      ((∀ a ∈ A, ∀ b ∈ A, Relation.ReflTransGen (Within A E.Adj) a b) → 0 < c) ∧
      ∀ x, sumOut C (A.biUnion U \ U r) (fun y => (∏ i ∈ A, B i y) / edgeProd E μ A y) x = c * B r x := by
  intro k
  induction k with
  | zero => intro A hA hr; simp [card_eq_zero.1 hA] at hr
  | succ k ih =>
  intro A hA hr rip
  by_cases hone : ∃ i ∈ A, i ≠ r
  swap
  · have hAr : A = {r} := by
      push Not at hone
      exact Finset.eq_singleton_iff_unique_mem.2 ⟨hr, hone⟩
    subst hAr
    refine ⟨1, zero_le_one, fun _ => one_pos, fun x => ?_⟩
    have : edgeProd E μ {r} = fun _ => 1 := by
      funext x
      unfold edgeProd
      apply Finset.prod_eq_one
      rintro ⟨a, b⟩ he
      simp only [mem_filter, mem_product, mem_singleton] at he
      obtain ⟨⟨rfl, rfl⟩, h3, _⟩ := he
      exact absurd h3 (lt_irrefl _)
    simp [this]
  obtain ⟨i, hi, hir, hleaf⟩ := exists_leaf hE hone
  set A' := A.erase i with hA'
  have hrA' : r ∈ A' := mem_erase.2 ⟨hir.symm, hr⟩
  have hcard : #A' = k := by rw [card_erase_of_mem hi, hA]; rfl
  have rip' : ∀ v, ∀ a ∈ A', ∀ b ∈ A', v ∈ U a → v ∈ U b →
      Relation.ReflTransGen (Within A' fun i j => E.Adj i j ∧ v ∈ S i j) a b := by
    intro v a ha b hb hva hvb
    refine reach_erase (fun a b hab => ⟨hab.1.symm, h.symmS a b ▸ hab.2⟩) ?_ (mem_erase.1 ha).1
      (rip v a (mem_erase.1 ha).2 b (mem_erase.1 hb).2 hva hvb) (mem_erase.1 hb).1
    intro p hp p' hp' h1 h2
    exact hleaf p hp p' hp' h1.1 h2.1
  have conn' : (∀ a ∈ A, ∀ b ∈ A, Relation.ReflTransGen (Within A E.Adj) a b) →
      ∀ a ∈ A', ∀ b ∈ A', Relation.ReflTransGen (Within A' E.Adj) a b := by
    intro hc a ha b hb
    exact reach_erase (fun a b hab => hab.symm) hleaf (mem_erase.1 ha).1
      (hc a (mem_erase.1 ha).2 b (mem_erase.1 hb).2) (mem_erase.1 hb).1
  obtain ⟨c, hc0, hc1, hc⟩ := ih A' hcard hrA' rip'
  -- split the summation set
  have hsplit : A.biUnion U \ U r = (A'.biUnion U \ U r) ∪ (U i \ A'.biUnion U) := by
    ext v
    simp only [mem_sdiff, mem_biUnion, mem_union, hA', mem_erase]
    constructor
    · rintro ⟨⟨a, ha, hv⟩, hvr⟩
      by_cases hex : ∃ a, (a ≠ i ∧ a ∈ A) ∧ v ∈ U a
      · exact Or.inl ⟨hex, hvr⟩
      · refine Or.inr ⟨?_, hex⟩
        by_cases hai : a = i
        · exact hai ▸ hv
        · exact absurd ⟨a, ⟨hai, ha⟩, hv⟩ hex
    · rintro (⟨⟨a, ha, hv⟩, hvr⟩ | ⟨hv, hn⟩)
      · exact ⟨⟨a, ha.2, hv⟩, hvr⟩
      · exact ⟨⟨i, hi, hv⟩, fun hvr => hn ⟨r, ⟨hir.symm, hr⟩, hvr⟩⟩
  have hdisj : Disjoint (A'.biUnion U \ U r) (U i \ A'.biUnion U) := by
    rw [Finset.disjoint_left]
    intro v h1 h2
    exact (mem_sdiff.1 h2).2 (mem_sdiff.1 h1).1
  -- it suffices to eliminate `i`
  suffices hs : ∃ d : ℝ, 0 ≤ d ∧
      ((∀ a ∈ A, ∀ b ∈ A, Relation.ReflTransGen (Within A E.Adj) a b) → 0 < d) ∧
      ∀ x, sumOut C (U i \ A'.biUnion U) (fun y => (∏ i ∈ A, B i y) / edgeProd E μ A y) x =
        d * ((∏ i ∈ A', B i x) / edgeProd E μ A' x) by
    obtain ⟨d, hd0, hd1, hd⟩ := hs
    refine ⟨d * c, mul_nonneg hd0 hc0, fun hcon => mul_pos (hd1 hcon) (hc1 (conn' hcon)), fun x => ?_⟩
    rw [hsplit, sumOut_union hdisj]
    have : sumOut C (U i \ A'.biUnion U) (fun y => (∏ i ∈ A, B i y) / edgeProd E μ A y) =
        fun x => d * ((∏ i ∈ A', B i x) / edgeProd E μ A' x) := funext hd
    rw [this, sumOut_const_mul, hc, mul_assoc]
  have hdepA' : ∀ x y, (∀ v, v ∉ U i \ A'.biUnion U → x v = y v) →
      (∏ i ∈ A', B i x) / edgeProd E μ A' x = (∏ i ∈ A', B i y) / edgeProd E μ A' y := by
    intro x y hxy
    have hv : ∀ a ∈ A', ∀ v ∈ U a, x v = y v := by
      intro a ha v hv
      apply hxy
      intro hm
      exact (mem_sdiff.1 hm).2 (mem_biUnion.2 ⟨a, ha, hv⟩)
    congr 1
    · exact Finset.prod_congr rfl fun a ha => h.dep a x y (hv a ha)
    · unfold edgeProd
      refine Finset.prod_congr rfl fun e he => ?_
      simp only [mem_filter, mem_product] at he
      exact h.depμ _ _ he.2.2 x y fun v hv' => hv e.1 he.1.1 v (h.subS _ _ he.2.2 hv')
  by_cases hnb : ∃ p ∈ A, E.Adj i p
  · obtain ⟨p, hpA, hip⟩ := hnb
    have hu : ∀ p' ∈ A, E.Adj i p' → p' = p := fun p' hp' h' => hleaf p' hp' p hpA h' hip
    have hpA' : p ∈ A' := mem_erase.2 ⟨hip.ne.symm, hpA⟩
    have hset : U i \ A'.biUnion U = U i \ S i p := by
      ext v
      simp only [mem_sdiff, mem_biUnion]
      refine and_congr_right fun hv => not_congr ⟨?_, ?_⟩
      · rintro ⟨a, ha, hva⟩
        rcases Relation.ReflTransGen.cases_head (rip v i hi a (mem_erase.1 ha).2 hv hva) with he | ⟨b, hb, _⟩
        · exact absurd he.symm (mem_erase.1 ha).1
        · obtain ⟨_, hbA, hadj, hvS⟩ := hb
          rwa [hu b hbA hadj] at hvS
      · intro hvS
        exact ⟨p, hpA', h.subS p i hip.symm (h.symmS i p ▸ hvS)⟩
    obtain ⟨d, hd0, hd⟩ := h.cal i p hip
    refine ⟨d, hd0.le, fun _ => hd0, fun x => ?_⟩
    have hμdep : ∀ y : Asg, (∀ v, v ∉ U i \ A'.biUnion U → y v = x v) → μ i p y = μ i p x := by
      intro y hy
      apply h.depμ _ _ hip
      intro v hv
      apply hy
      rw [hset]
      simp [hv]
    have hfac : sumOut C (U i \ A'.biUnion U) (fun y => (∏ i ∈ A, B i y) / edgeProd E μ A y) x =
        ((∏ i ∈ A', B i x) / edgeProd E μ A' x / μ i p x) * sumOut C (U i \ A'.biUnion U) (B i) x := by
      have : sumOut C (U i \ A'.biUnion U) (fun y => (∏ i ∈ A, B i y) / edgeProd E μ A y) x =
          sumOut C (U i \ A'.biUnion U)
            (fun y => ((∏ i ∈ A', B i y) / edgeProd E μ A' y / μ i p y) * B i y) x := by
        refine sumOut_congr fun y _ => ?_
        rw [edgeProd_leaf hi hpA hip hu h.symmμ, ← Finset.prod_erase_mul _ _ hi]
        rw [← hA', div_div, div_mul_eq_mul_div]
      rw [this]
      refine sumOut_mul_left (G := fun y => (∏ i ∈ A', B i y) / edgeProd E μ A' y / μ i p y) ?_ x
      intro a b hab
      show _ / _ / _ = _ / _ / _
      rw [hdepA' a b hab]
      congr 1
      apply h.depμ _ _ hip
      intro v hv
      apply hab
      rw [hset]
      simp [hv]
    rw [hfac, hset, hd]
    by_cases h0 : μ i p x = 0
    · have hb : B p x = 0 := h.zero hip.symm (by rw [h.symmμ]; exact h0)
      rw [Finset.prod_eq_zero hpA' hb]
      simp
    · field_simp
  · push Not at hnb
    have hset : U i \ A'.biUnion U = U i := by
      rw [Finset.sdiff_eq_self_iff_disjoint, Finset.disjoint_left]
      intro v hv hm
      obtain ⟨a, ha, hva⟩ := mem_biUnion.1 hm
      rcases Relation.ReflTransGen.cases_head (rip v i hi a (mem_erase.1 ha).2 hv hva) with he | ⟨b, hb, _⟩
      · exact absurd he.symm (mem_erase.1 ha).1
      · exact hnb b hb.2.1 hb.2.2.1
    refine ⟨sumOut C (U i) (B i) (fun _ => 0), sumOut_nonneg (h.nonneg i) _, fun hcon => ?_, fun x => ?_⟩
    · exfalso
      rcases Relation.ReflTransGen.cases_head (hcon i hi r hr) with he | ⟨b, hb, _⟩
      · exact hir he
      · exact hnb b hb.2.1 hb.2.2
    · have hconst : sumOut C (U i) (B i) x = sumOut C (U i) (B i) (fun _ => 0) :=
        sumOut_dependsOn fun a b hab => h.dep i a b fun v hv => hab v (Or.inl hv)
      rw [← hconst, mul_comm]
      have : sumOut C (U i \ A'.biUnion U) (fun y => (∏ i ∈ A, B i y) / edgeProd E μ A y) x =
          sumOut C (U i \ A'.biUnion U)
            (fun y => ((∏ i ∈ A', B i y) / edgeProd E μ A' y) * B i y) x := by
        refine sumOut_congr fun y _ => ?_
        rw [edgeProd_isolated hnb, ← Finset.prod_erase_mul _ _ hi]
        rw [← hA', div_mul_eq_mul_div]
      rw [this, sumOut_mul_left hdepA', hset]

/-- Every cluster of a calibrated forest carries the marginal of the joint up to a constant; in a
connected graph the constant is positive. -/
theorem Calibrated.exact (h : Calibrated C U B E S μ) (hE : E.IsAcyclic)
    (rip : ∀ v a b, v ∈ U a → v ∈ U b →
      Relation.ReflTransGen (fun i j => E.Adj i j ∧ v ∈ S i j) a b) (r : Fin n) :
    ∃ c : ℝ, 0 ≤ c ∧ (E.Connected → 0 < c) ∧
      ∀ x, sumOut C (univ.biUnion U \ U r) (fun y => (∏ i, B i y) / edgeProd E μ univ y) x = c * B r x := by
  have hw : ∀ (R : Fin n → Fin n → Prop) a b, Relation.ReflTransGen R a b →
      Relation.ReflTransGen (Within univ R) a b := by
    intro R a b hab
    exact Relation.ReflTransGen.mono (fun a b h => ⟨mem_univ _, mem_univ _, h⟩) _ _ hab
  obtain ⟨c, h0, h1, h2⟩ := h.eliminate hE r _ univ rfl (mem_univ r)
    (fun v a _ b _ hva hvb => hw _ _ _ (rip v a b hva hvb))
  refine ⟨c, h0, fun hcon => h1 fun a _ b _ => hw _ _ _ ?_, h2⟩
  exact (SimpleGraph.reachable_iff_reflTransGen a b).1 (hcon.preconnected a b)

end

end Verif.Spec
