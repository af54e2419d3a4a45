import Verif.TreeExact
import Mathlib.MeasureTheory.Integral.Marginal
import Mathlib.MeasureTheory.Measure.Lebesgue.Basic

/-!
# Calibrated trees carry exact marginals: functions of real variables

The counterpart of `TreeExact.lean` with Lebesgue integrals in place of sums. Pure mathematics, independent
of the model. The functions take values in the extended non-negative reals, so that integrals always exist;
beliefs and edge weights are positive and finite.
-/

namespace Verif.Spec
open Classical Finset MeasureTheory
open scoped ENNReal

/-- The integral of `F` over the variables `vs`. -/
noncomputable abbrev intOut (vs : Finset Var) (F : (Var → ℝ) → ℝ≥0∞) : (Var → ℝ) → ℝ≥0∞ :=
  lmarginal (fun _ => volume) vs F

theorem intOut_mul_left {vs : Finset Var} {F G : (Var → ℝ) → ℝ≥0∞}
    (hG : ∀ x y, (∀ v, v ∉ vs → x v = y v) → G x = G y) (hF : Measurable F) (x : Var → ℝ) :
    intOut vs (fun y => G y * F y) x = G x * intOut vs F x := by
  unfold intOut lmarginal
  have hm : Measurable fun y : vs → ℝ => F (Function.updateFinset x vs y) :=
    hF.comp measurable_updateFinset
  refine Eq.trans ?_ (lintegral_const_mul _ hm)
  refine lintegral_congr fun y => ?_
  dsimp only
  rw [hG (Function.updateFinset x vs y) x fun v hv => by simp [Function.updateFinset, hv]]

/-- A function with a finite integral is finite somewhere. -/
theorem exists_ne_top {vs : Finset Var} {F : (Var → ℝ) → ℝ≥0∞} {x : Var → ℝ} (h : intOut vs F x ≠ ∞) :
    ∃ y, F y ≠ ∞ := by
  by_contra hc
  push Not at hc
  apply h
  unfold intOut lmarginal
  simp only [hc, lintegral_const]
  exact ENNReal.top_mul (NeZero.ne _)

/-- The integral of a positive function is positive. -/
theorem intOut_ne_zero {vs : Finset Var} {F : (Var → ℝ) → ℝ≥0∞} (hF : Measurable F) (hp : ∀ y, F y ≠ 0)
    (x : Var → ℝ) : intOut vs F x ≠ 0 := by
  unfold intOut lmarginal
  have hm : Measurable fun y : vs → ℝ => F (Function.updateFinset x vs y) :=
    hF.comp measurable_updateFinset
  intro h
  have h := (lintegral_eq_zero_iff hm).1 h
  have : (Measure.pi fun i : vs => (volume : Measure ℝ)) Set.univ = 0 := by
    rw [Filter.EventuallyEq, ae_iff] at h
    simpa [hp] using h
  exact NeZero.ne _ this

section
variable {n : Nat} {U : Fin n → Finset Var} {B : Fin n → (Var → ℝ) → ℝ≥0∞}
  {E : SimpleGraph (Fin n)} {S : Fin n → Fin n → Finset Var} {μ : Fin n → Fin n → (Var → ℝ) → ℝ≥0∞}

/-- Beliefs that integrate to the edge weights up to scale. -/
structure CalibratedI (U : Fin n → Finset Var) (B : Fin n → (Var → ℝ) → ℝ≥0∞) (E : SimpleGraph (Fin n))
    (S : Fin n → Fin n → Finset Var) (μ : Fin n → Fin n → (Var → ℝ) → ℝ≥0∞) : Prop where
  meas : ∀ i, Measurable (B i)
  pos : ∀ i x, B i x ≠ 0
  fin : ∀ i x, B i x ≠ ∞
  dep : ∀ i x y, (∀ v ∈ U i, x v = y v) → B i x = B i y
  symmS : ∀ i j, S i j = S j i
  symmμ : ∀ i j, μ i j = μ j i
  measμ : ∀ i j, E.Adj i j → Measurable (μ i j)
  posμ : ∀ i j, E.Adj i j → ∀ x, μ i j x ≠ 0
  finμ : ∀ i j, E.Adj i j → ∀ x, μ i j x ≠ ∞
  subS : ∀ i j, E.Adj i j → S i j ⊆ U i
  depμ : ∀ i j, E.Adj i j → ∀ x y, (∀ v ∈ S i j, x v = y v) → μ i j x = μ i j y
  cal : ∀ i j, E.Adj i j → ∃ c : ℝ≥0∞, c ≠ 0 ∧ c ≠ ∞ ∧ ∀ x, intOut (U i \ S i j) (B i) x = c * μ i j x

/-- The joint of the beliefs of `A`. -/
noncomputable def jointI (B : Fin n → (Var → ℝ) → ℝ≥0∞) (E : SimpleGraph (Fin n))
    (μ : Fin n → Fin n → (Var → ℝ) → ℝ≥0∞) (A : Finset (Fin n)) (x : Var → ℝ) : ℝ≥0∞ :=
  (∏ i ∈ A, B i x) / edgeProd E μ A x

theorem CalibratedI.edge (h : CalibratedI U B E S μ) (A : Finset (Fin n)) :
    Measurable (edgeProd E μ A) ∧ ∀ x, edgeProd E μ A x ≠ 0 ∧ edgeProd E μ A x ≠ ∞ := by
  have hm : ∀ e ∈ (A ×ˢ A).filter (fun e => e.1 < e.2 ∧ E.Adj e.1 e.2), E.Adj e.1 e.2 := fun e he =>
    (mem_filter.1 he).2.2
  refine ⟨?_, fun x => ⟨?_, ?_⟩⟩
  · unfold edgeProd
    exact Finset.measurable_prod _ fun e he => h.measμ _ _ (hm e he)
  · exact Finset.prod_ne_zero_iff.2 fun e he => h.posμ _ _ (hm e he) x
  · exact ENNReal.prod_ne_top fun e he => h.finμ _ _ (hm e he) x

theorem CalibratedI.joint (h : CalibratedI U B E S μ) (A : Finset (Fin n)) :
    Measurable (jointI B E μ A) ∧ ∀ x, jointI B E μ A x ≠ 0 ∧ jointI B E μ A x ≠ ∞ := by
  obtain ⟨h1, h2⟩ := h.edge A
  refine ⟨?_, fun x => ⟨?_, ?_⟩⟩
  · unfold jointI
    exact (Finset.measurable_prod _ fun i _ => h.meas i).div h1
  · unfold jointI
    rw [Ne, ENNReal.div_eq_zero_iff, not_or]
    exact ⟨Finset.prod_ne_zero_iff.2 fun i _ => h.pos i x, (h2 x).2⟩
  · unfold jointI
    exact ENNReal.div_ne_top (ENNReal.prod_ne_top fun i _ => h.fin i x) (h2 x).1

/-- The beliefs have finite integrals. -/
def NormI (U : Fin n → Finset Var) (B : Fin n → (Var → ℝ) → ℝ≥0∞) : Prop := ∀ i, ∃ x, intOut (U i) (B i) x ≠ ∞

/-- Eliminate the clusters of `A` other than `r` one leaf at a time. The constant is finite if all beliefs can be
normalised. -/
theorem CalibratedI.eliminate (h : CalibratedI U B E S μ) (hE : E.IsAcyclic) (r : Fin n) :
    ∀ (k : Nat) (A : Finset (Fin n)), #A = k → r ∈ A →
    (∀ v, ∀ a ∈ A, ∀ b ∈ A, v ∈ U a → v ∈ U b →
      Relation.ReflTransGen (Within A fun i j => E.Adj i j ∧ v ∈ S i j) a b) →
    ∃ c : ℝ≥0∞, c ≠ 0 ∧ (NormI U B → c ≠ ∞) ∧
      ∀ x, intOut (A.biUnion U \ U r) (jointI B E μ A) x = c * B r x := by
  intro k
  induction k with
  | zero => intro A hA hr; simp [card_eq_zero.1 hA] at hr
  | succ k ih =>
  intro A hA hr rip
  by_cases hone : ∃ i ∈ A, i ≠ r
  swap
  · have hAr : A = {r} := by
      push Not at hone
      exact Finset.eq_singleton_iff_unique_mem.2 ⟨hr, hone⟩
    subst hAr
    refine ⟨1, one_ne_zero, fun _ => ENNReal.one_ne_top, fun x => ?_⟩
    have : edgeProd E μ {r} = fun _ => 1 := by
      funext x
      unfold edgeProd
      apply Finset.prod_eq_one
      rintro ⟨a, b⟩ he
      simp only [mem_filter, mem_product, mem_singleton] at he
      obtain ⟨⟨rfl, rfl⟩, h3, _⟩ := he
      exact absurd h3 (lt_irrefl _)
    have hj : jointI B E μ {r} = B r := by
      funext x
      unfold jointI
      simp [this]
    simp [hj]
  obtain ⟨i, hi, hir, hleaf⟩ := exists_leaf hE hone
  obtain ⟨A', hA'⟩ : ∃ A', A' = A.erase i := ⟨_, rfl⟩
  have hrA' : r ∈ A' := hA' ▸ mem_erase.2 ⟨hir.symm, hr⟩
  have hcard : #A' = k := by rw [hA', card_erase_of_mem hi, hA]; rfl
  have memA' : ∀ {a}, a ∈ A' ↔ a ≠ i ∧ a ∈ A := fun {a} => by rw [hA']; exact mem_erase
  have rip' : ∀ v, ∀ a ∈ A', ∀ b ∈ A', v ∈ U a → v ∈ U b →
      Relation.ReflTransGen (Within A' fun i j => E.Adj i j ∧ v ∈ S i j) a b := by
    intro v a ha b hb hva hvb
    rw [hA']
    refine reach_erase (fun a b hab => ⟨hab.1.symm, h.symmS a b ▸ hab.2⟩) ?_ (memA'.1 ha).1
      (rip v a (memA'.1 ha).2 b (memA'.1 hb).2 hva hvb) (memA'.1 hb).1
    intro p hp p' hp' h1 h2
    exact hleaf p hp p' hp' h1.1 h2.1
  have hsub : A.biUnion U = A'.biUnion U ∪ (U i \ A'.biUnion U) := by
    ext v
    simp only [mem_sdiff, mem_biUnion, mem_union, memA']
    constructor
    · rintro ⟨a, ha, hv⟩
      by_cases hex : ∃ a, (a ≠ i ∧ a ∈ A) ∧ v ∈ U a
      · exact Or.inl hex
      · refine Or.inr ⟨?_, hex⟩
        by_cases hai : a = i
        · exact hai ▸ hv
        · exact absurd ⟨a, ⟨hai, ha⟩, hv⟩ hex
    · rintro (⟨a, ha, hv⟩ | ⟨hv, _⟩)
      · exact ⟨a, ha.2, hv⟩
      · exact ⟨i, hi, hv⟩
  have hsplit : A.biUnion U \ U r = (A'.biUnion U \ U r) ∪ (U i \ A'.biUnion U) := by
    rw [hsub, union_sdiff_distrib]
    congr 1
    rw [Finset.sdiff_eq_self_iff_disjoint, Finset.disjoint_left]
    intro v hv hvr
    exact (mem_sdiff.1 hv).2 (mem_biUnion.2 ⟨r, hrA', hvr⟩)
  have hdisj0 : Disjoint (A'.biUnion U) (U i \ A'.biUnion U) := disjoint_sdiff
  have hdisj : Disjoint (A'.biUnion U \ U r) (U i \ A'.biUnion U) :=
    hdisj0.mono_left sdiff_subset
  -- it suffices to eliminate `i`
  suffices hs : ∃ d : ℝ≥0∞, d ≠ 0 ∧ (NormI U B → d ≠ ∞) ∧
        ∀ x, intOut (U i \ A'.biUnion U) (jointI B E μ A) x = d * jointI B E μ A' x by
    obtain ⟨d, hd0, hd1, hd⟩ := hs
    have hfun : lmarginal (fun _ => volume) (U i \ A'.biUnion U) (jointI B E μ A) =
        fun x => d * jointI B E μ A' x := funext hd
    have hpull : ∀ (vs : Finset Var) x, intOut vs (fun x => d * jointI B E μ A' x) x =
        d * intOut vs (jointI B E μ A') x := fun vs x =>
      intOut_mul_left (G := fun _ => d) (fun _ _ _ => rfl) (h.joint A').1 x
    obtain ⟨c, hc0, hc1, hc⟩ := ih A' hcard hrA' rip'
    refine ⟨d * c, mul_ne_zero hd0 hc0, fun hN => ENNReal.mul_ne_top (hd1 hN) (hc1 hN), fun x => ?_⟩
    rw [intOut, hsplit, lmarginal_union _ _ (h.joint A).1 hdisj, hfun]
    exact (hpull _ x).trans (by rw [hc, mul_assoc])
  have hdepA' : ∀ x y, (∀ v, v ∉ U i \ A'.biUnion U → x v = y v) → jointI B E μ A' x = jointI B E μ A' y := by
    intro x y hxy
    have hv : ∀ a ∈ A', ∀ v ∈ U a, x v = y v := by
      intro a ha v hv
      apply hxy
      intro hm
      exact (mem_sdiff.1 hm).2 (mem_biUnion.2 ⟨a, ha, hv⟩)
    unfold jointI
    congr 1
    · exact Finset.prod_congr rfl fun a ha => h.dep a x y (hv a ha)
    · unfold edgeProd
      refine Finset.prod_congr rfl fun e he => ?_
      simp only [mem_filter, mem_product] at he
      exact h.depμ _ _ he.2.2 x y fun v hv' => hv e.1 he.1.1 v (h.subS _ _ he.2.2 hv')
  by_cases hnb : ∃ p ∈ A, E.Adj i p
  · obtain ⟨p, hpA, hip⟩ := hnb
    have hu : ∀ p' ∈ A, E.Adj i p' → p' = p := fun p' hp' h' => hleaf p' hp' p hpA h' hip
    have hpA' : p ∈ A' := memA'.2 ⟨hip.ne.symm, hpA⟩
    have hset : U i \ A'.biUnion U = U i \ S i p := by
      ext v
      simp only [mem_sdiff, mem_biUnion]
      refine and_congr_right fun hv => not_congr ⟨?_, ?_⟩
      · rintro ⟨a, ha, hva⟩
        rcases Relation.ReflTransGen.cases_head (rip v i hi a (memA'.1 ha).2 hv hva) with he | ⟨b, hb, _⟩
        · exact absurd he.symm (memA'.1 ha).1
        · obtain ⟨_, hbA, hadj, hvS⟩ := hb
          rwa [hu b hbA hadj] at hvS
      · intro hvS
        exact ⟨p, hpA', h.subS p i hip.symm (h.symmS i p ▸ hvS)⟩
    have hfac : ∀ x, intOut (U i \ A'.biUnion U) (jointI B E μ A) x =
        (jointI B E μ A' x / μ i p x) * intOut (U i \ A'.biUnion U) (B i) x := by
      intro x
      have hpt : jointI B E μ A = fun y => (jointI B E μ A' y / μ i p y) * B i y := by
        funext y
        unfold jointI
        rw [edgeProd_leaf hi hpA hip hu h.symmμ, ← Finset.prod_erase_mul _ _ hi, ← hA']
        have e1 := (h.edge A').2 y
        have e2 := h.posμ i p hip y
        have e3 := h.finμ i p hip y
        rw [div_eq_mul_inv, ENNReal.mul_inv (Or.inl e1.1) (Or.inl e1.2), div_eq_mul_inv, div_eq_mul_inv]
        ring
      rw [hpt]
      refine intOut_mul_left (G := fun y => jointI B E μ A' y / μ i p y) ?_ (h.meas i) x
      intro a b hab
      show _ / _ = _ / _
      rw [hdepA' a b hab]
      congr 1
      apply h.depμ _ _ hip
      intro v hv
      apply hab
      rw [hset]
      simp [hv]
    obtain ⟨d, hd0, hd1, hd⟩ := h.cal i p hip
    refine ⟨d, hd0, fun _ => hd1, fun x => ?_⟩
    rw [hfac, hset, hd, mul_left_comm, ENNReal.div_mul_cancel (h.posμ i p hip x) (h.finμ i p hip x)]
  · push Not at hnb
    have hset : U i \ A'.biUnion U = U i := by
      rw [Finset.sdiff_eq_self_iff_disjoint, Finset.disjoint_left]
      intro v hv hm
      obtain ⟨a, ha, hva⟩ := mem_biUnion.1 hm
      rcases Relation.ReflTransGen.cases_head (rip v i hi a (memA'.1 ha).2 hv hva) with he | ⟨b, hb, _⟩
      · exact absurd he.symm (memA'.1 ha).1
      · exact hnb b hb.2.1 hb.2.2.1
    have hfac : ∀ x, intOut (U i \ A'.biUnion U) (jointI B E μ A) x =
        jointI B E μ A' x * intOut (U i \ A'.biUnion U) (B i) x := by
      intro x
      have hpt : jointI B E μ A = fun y => jointI B E μ A' y * B i y := by
        funext y
        unfold jointI
        rw [edgeProd_isolated hnb, ← Finset.prod_erase_mul _ _ hi, ← hA', div_eq_mul_inv, div_eq_mul_inv]
        ring
      rw [hpt]
      exact intOut_mul_left hdepA' (h.meas i) x
    have hall : ∀ x x1, intOut (U i) (B i) x = intOut (U i) (B i) x1 := by
      intro x x1
      unfold intOut lmarginal
      refine lintegral_congr fun y => h.dep i _ _ fun v hv => ?_
      simp [Function.updateFinset, hv]
    refine ⟨intOut (U i) (B i) 0, intOut_ne_zero (h.meas i) (h.pos i) 0, fun hN => ?_, fun x => ?_⟩
    · obtain ⟨x1, hx1⟩ := hN i
      rw [hall 0 x1]
      exact hx1
    · rw [hfac, hset, hall x 0, mul_comm]

/-- The integral of the joint over all variables, in two steps. -/
theorem CalibratedI.total (h : CalibratedI U B E S μ) {r : Fin n} {c : ℝ≥0∞}
    (hc : ∀ x, intOut (univ.biUnion U \ U r) (jointI B E μ univ) x = c * B r x) (x : Var → ℝ) :
    intOut (univ.biUnion U) (jointI B E μ univ) x = c * intOut (U r) (B r) x := by
  have hsub : univ.biUnion U = U r ∪ (univ.biUnion U \ U r) :=
    (union_sdiff_of_subset (subset_biUnion_of_mem U (mem_univ r))).symm
  have hfun : lmarginal (fun _ => volume) (univ.biUnion U \ U r) (jointI B E μ univ) = fun x => c * B r x :=
    funext hc
  rw [intOut, hsub, lmarginal_union _ _ (h.joint univ).1 disjoint_sdiff, hfun]
  exact intOut_mul_left (vs := U r) (G := fun _ => c) (fun _ _ _ => rfl) (h.meas r) x

/-- The joint of a calibrated forest of beliefs that can be normalised can be normalised, and every cluster
carries its marginal up to a positive constant. -/
theorem CalibratedI.exact (h : CalibratedI U B E S μ) (hN : NormI U B) (hE : E.IsAcyclic)
    (rip : ∀ v a b, v ∈ U a → v ∈ U b →
      Relation.ReflTransGen (fun i j => E.Adj i j ∧ v ∈ S i j) a b) (r : Fin n) :
    (∃ x, intOut (univ.biUnion U) (jointI B E μ univ) x ≠ ∞) ∧
    ∃ c : ℝ≥0∞, c ≠ 0 ∧ c ≠ ∞ ∧ ∀ x, intOut (univ.biUnion U \ U r) (jointI B E μ univ) x = c * B r x := by
  obtain ⟨c, c0, c1, hc⟩ := h.eliminate hE r _ univ rfl (mem_univ r) fun v a _ b _ hva hvb =>
    Relation.ReflTransGen.mono (fun a b h => ⟨mem_univ _, mem_univ _, h⟩) _ _ (rip v a b hva hvb)
  refine ⟨?_, c, c0, c1 hN, hc⟩
  obtain ⟨x, hx⟩ := hN r
  refine ⟨x, ?_⟩
  rw [h.total hc]
  exact ENNReal.mul_ne_top (c1 hN) hx

/-- Conversely, if the joint of a calibrated forest can be normalised, so can every belief. -/
theorem CalibratedI.norm (h : CalibratedI U B E S μ) (hE : E.IsAcyclic)
    (rip : ∀ v a b, v ∈ U a → v ∈ U b →
      Relation.ReflTransGen (fun i j => E.Adj i j ∧ v ∈ S i j) a b)
    (hJ : ∃ x, intOut (univ.biUnion U) (jointI B E μ univ) x ≠ ∞) : NormI U B := by
  intro r
  obtain ⟨c, c0, -, hc⟩ := h.eliminate hE r _ univ rfl (mem_univ r) fun v a _ b _ hva hvb =>
    Relation.ReflTransGen.mono (fun a b h => ⟨mem_univ _, mem_univ _, h⟩) _ _ (rip v a b hva hvb)
  obtain ⟨x, hx⟩ := hJ
  refine ⟨x, fun ht => hx ?_⟩
  rw [h.total hc, ht]
  exact ENNReal.mul_top c0

end

end Verif.Spec
