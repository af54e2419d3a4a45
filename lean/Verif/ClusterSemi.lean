import Verif.ClusterDenseNew
import Verif.ClusterIntConverge

/-!
# Continuous factors that cannot be normalised on their own

Conditional distributions have an infinite integral over all of their variables. What message passing needs is
weaker: the integral of a cluster over all but one of its variables is bounded. Then every message is bounded, and
if clusters share at most one unobserved variable no operation of the cluster graph raises.
-/

namespace Verif.CG
open Spec (DependsOn override intOut)
open Classical MeasureTheory
open scoped ENNReal
variable {F V G : Type} {n m : Nat} {ops : Ops F V G}

/-- The factor is a bounded function. -/
def Bounded (L : IntLaws ops) (f : F) : Prop := ∃ B : ℝ, ∀ x, L.den f x ≤ B

/-- Integrals over some but not all of the variables `U` are bounded. -/
def BoundedInt (φ : (Var → ℝ) → ℝ) (U : Finset Var) : Prop :=
  ∀ W ⊆ U, W.Nonempty → ∃ B : ℝ≥0∞, B ≠ ∞ ∧ ∀ x, intOut (U \ W) (fun y => .ofReal (φ y)) x ≤ B

theorem BoundedInt.bdd {φ : (Var → ℝ) → ℝ} {U : Finset Var} (h : BoundedInt φ U) (hU : U.Nonempty) :
    ∃ B : ℝ, ∀ x, φ x ≤ B := by
  obtain ⟨B, hB, hx⟩ := h U subset_rfl hU
  refine ⟨B.toReal, fun x => ?_⟩
  have := hx x
  rw [Finset.sdiff_self, intOut, lmarginal_empty] at this
  by_cases h0 : 0 ≤ φ x
  · have := ENNReal.toReal_mono hB this
    rwa [ENNReal.toReal_ofReal h0] at this
  · exact (not_le.1 h0).le.trans ENNReal.toReal_nonneg

theorem BoundedInt.mul {φ ψ : (Var → ℝ) → ℝ} {U : Finset Var} (h : BoundedInt φ U) (hm : Measurable φ)
    (h0 : ∀ x, 0 ≤ φ x) {C : ℝ} (hC : ∀ x, ψ x ≤ C) : BoundedInt (fun x => φ x * ψ x) U := by
  intro W hW hne
  obtain ⟨B, hB, hx⟩ := h W hW hne
  refine ⟨.ofReal C * B, ENNReal.mul_ne_top ENNReal.ofReal_ne_top hB, fun x => ?_⟩
  have h1 : intOut (U \ W) (fun y => .ofReal (φ y * ψ y)) x ≤ intOut (U \ W) (fun y => .ofReal C * .ofReal (φ y)) x := by
    refine lmarginal_mono (fun y => ?_) x
    dsimp only
    rw [ENNReal.ofReal_mul (h0 y), mul_comm]
    exact mul_le_mul_left (ENNReal.ofReal_le_ofReal (hC y)) _
  rw [Spec.intOut_mul_left (G := fun _ => .ofReal C) (fun _ _ _ => rfl) hm.ennreal_ofReal] at h1
  exact h1.trans (mul_le_mul_right (hx x) _)

/-- The operations of a lawful class of continuous factors return: products, quotients and the distance from a
vacuous factor always, reductions that leave a variable, marginals of sharp factors where the integral exists, and
divergences of bounded factors with one variable. A function is sharp if the class does not take it for a constant;
products of sharp functions and gentle ones are sharp, and bounded factors are gentle. -/
structure SemiI (L : IntLaws ops) where
  Sharp : ((Var → ℝ) → ℝ) → Prop
  Gentle : ((Var → ℝ) → ℝ) → Prop
  mul : ∀ {f g}, L.Ok f → L.Ok g → ∃ r, ops.multiply f g = .ok r
  cancel : ∀ {f g}, L.Ok f → L.Ok g → ∃ r, ops.cancel f g = .ok r
  cancelVars : ∀ {f g r}, L.Ok f → L.Ok g → (∀ v ∈ ops.vars g, v ∈ ops.vars f) → ops.cancel f g = .ok r →
    ops.vars r = ops.vars f
  marg : ∀ {f vrs}, L.Ok f → Sharp (L.den f) → vrs.Nodup → (∀ v ∈ vrs, v ∈ ops.vars f) →
    (∃ x, intOut ((ops.vars f).toFinset \ vrs.toFinset) (fun y => .ofReal (L.den f y)) x ≠ ∞) →
    ∃ r, ops.marginalize f vrs = .ok r ∧ ops.vars r = vrs ∧ ∀ x, ENNReal.ofReal (L.den r x) =
      intOut ((ops.vars f).toFinset \ vrs.toFinset) (fun y => .ofReal (L.den f y)) x
  red : ∀ {f vs ks}, L.Ok f → vs.Nodup → (∀ v ∈ vs, v ∈ ops.vars f) → ks.length = vs.length →
    (∃ v ∈ ops.vars f, v ∉ vs) → ∃ r, ops.reduce f vs ks = .ok r
  dist : ∀ {f}, L.Ok f → ∃ d, ops.distVacuous f = .ok d
  kl : ∀ {f g}, L.Ok f → L.Ok g → ops.vars f = ops.vars g → (ops.vars f).length = 1 → Bounded L f → Bounded L g →
    ∃ d, ops.kl f g = .ok d
  sharpMul : ∀ {φ ψ}, (∀ x, 0 < φ x) → (∀ x, 0 < ψ x) → Sharp φ → Gentle ψ → Sharp fun x => φ x * ψ x
  gentle : ∀ {f}, L.Ok f → ∀ ev : Dict Var V, (∃ B : ℝ, ∀ x, L.den f (override (evPairs L.toLaws ev) x) ≤ B) →
    Gentle fun x => L.den f (override (evPairs L.toLaws ev) x)

/-! ### The constructor -/

/-- What is assumed of a factor given the special evidence. -/
structure Nice {L : IntLaws ops} (S : SemiI L) (special : Dict Var V) (f : F) : Prop where
  ok : L.Ok f
  free : ∃ v ∈ ops.vars f, v ∉ Dict.keys special
  sharp : S.Sharp fun x => L.den f (override (evPairs L.toLaws special) x)
  bdd : BoundedInt (fun x => L.den f (override (evPairs L.toLaws special) x))
    ((ops.vars f).toFinset \ (Dict.keys special).toFinset)

section
variable {L : IntLaws ops} (S : SemiI L)

theorem Nice.bounded {S : SemiI L} {special : Dict Var V} {f : F} (h : Nice S special f) :
    ∃ B : ℝ, ∀ x, L.den f (override (evPairs L.toLaws special) x) ≤ B := by
  obtain ⟨v, h1, h2⟩ := h.free
  exact h.bdd.bdd ⟨v, by simp [h1, h2]⟩

include S in
theorem SemiI.red_subset {f : F} (hf : L.Ok f) (ev : Dict Var V)
    {vars : List Var} (hn : vars.Nodup) (hv : ∀ v, v ∈ vars ↔ v ∈ ops.vars f)
    (hx : ∃ v ∈ ops.vars f, v ∉ Dict.keys ev) :
    ∃ r, ops.reduce f (Dict.keys (subsetEvidence ev vars)) (Dict.values (subsetEvidence ev vars)) = .ok r := by
  have hk := keys_subsetEvidence ev hn
  have hnd : (Dict.keys (subsetEvidence ev vars)).Nodup := by rw [hk]; exact hn.filter _
  have hsub : ∀ v ∈ Dict.keys (subsetEvidence ev vars), v ∈ ops.vars f := fun v h => by
    rw [hk] at h
    exact (hv v).1 (List.mem_filter.1 h).1
  have hlen : (Dict.values (subsetEvidence ev vars)).length = (Dict.keys (subsetEvidence ev vars)).length := by
    simp [Dict.keys, Dict.values]
  obtain ⟨v, hvf, hve⟩ := hx
  exact S.red hf hnd hsub hlen ⟨v, hvf, fun h => by
    rw [hk] at h
    have := (List.mem_filter.1 h).2
    exact hve (Dict.get?_isSome_iff.1 (Option.isSome_iff_exists.1 this))⟩

include S in
theorem SemiI.observe {f : F} (hf : L.Ok f) (ev : Dict Var V)
    (hx : ∃ v ∈ ops.vars f, v ∉ Dict.keys ev) : ∃ r, CG.observe ops ev f = .ok r := by
  unfold CG.observe
  dsimp only
  split
  · exact S.red_subset hf ev (L.nodup hf) (fun _ => Iff.rfl) hx
  · exact ⟨f, rfl⟩

/-- What is assumed of an input factor given the evidence and the special evidence. -/
structure NiceIn {L : IntLaws ops} (S : SemiI L) (evidence : Option (Dict Var V)) (special : Dict Var V) (f : F) : Prop where
  ok : L.Ok f
  free : ∃ v ∈ ops.vars f, v ∉ Dict.keys (evidence.getD []) ∧ v ∉ Dict.keys special
  sharp : S.Sharp fun x => L.den f (given L.toLaws evidence (override (evPairs L.toLaws special) x))
  bdd : BoundedInt (fun x => L.den f (given L.toLaws evidence (override (evPairs L.toLaws special) x)))
    (((ops.vars f).toFinset \ (Dict.keys (evidence.getD [])).toFinset) \ (Dict.keys special).toFinset)

theorem SemiI.evidenceReduce {factors : List F} {special : Dict Var V} (evidence : Option (Dict Var V))
    (hok : ∀ f ∈ factors, NiceIn S evidence special f) :
    ∃ r, CG.evidenceReduce ops factors evidence = .ok r ∧ ∀ f ∈ r, Nice S special f := by
  have key : ∀ f f', NiceIn S evidence special f → L.Ok f' →
      (∀ v, v ∈ ops.vars f' ↔ v ∈ ops.vars f ∧ v ∉ Dict.keys (evidence.getD [])) →
      (∀ x, L.den f' x = L.den f (given L.toLaws evidence x)) → Nice S special f' := by
    intro f f' hf ho hv hx
    refine ⟨ho, ?_, ?_, ?_⟩
    · obtain ⟨v, h1, h2, h3⟩ := hf.free
      exact ⟨v, (hv v).2 ⟨h1, h2⟩, h3⟩
    · simp only [hx]; exact hf.sharp
    · have hset : (ops.vars f').toFinset = (ops.vars f).toFinset \ (Dict.keys (evidence.getD [])).toFinset := by
        ext v; simp [hv]
      rw [hset]
      simp only [hx]
      exact hf.bdd
  unfold CG.evidenceReduce
  cases evidence with
  | none =>
    refine ⟨factors, ?_, fun f hf => key f f (hok f hf) (hok f hf).ok (fun v => by simp [Dict.keys]) fun x => rfl⟩
    dsimp only
    clear hok key
    induction factors with
    | nil => rfl
    | cons f fs ih => rw [List.mapM_cons, py_bind_ok, ih]; rfl
  | some ev =>
    dsimp only
    induction factors with
    | nil => exact ⟨[], rfl, fun f hf => by cases hf⟩
    | cons f fs ih =>
      obtain ⟨r, hr, hr'⟩ := ih (fun a ha => hok a (by simp [ha]))
      have hf := hok f (by simp)
      obtain ⟨f', h1⟩ := S.observe hf.ok ev (by
        obtain ⟨v, h1, h2, _⟩ := hf.free
        exact ⟨v, h1, h2⟩)
      refine ⟨f' :: r, ?_, fun a ha => ?_⟩
      · rw [List.mapM_cons, h1, py_bind_ok, hr]
        rfl
      · rcases List.mem_cons.1 ha with rfl | ha
        · obtain ⟨o1, o2, o3⟩ := L.toLaws.observe hf.ok ev h1
          exact key f a hf o1 o2 o3
        · exact hr' a ha

theorem SemiI.mulNice {special : Dict Var V} {f g r : F} (hf : Nice S special f) (hg : Nice S special g)
    (hsub : ∀ v ∈ ops.vars g, v ∈ ops.vars f) (h : ops.multiply f g = .ok r) : Nice S special r := by
  obtain ⟨r1, r2, r3⟩ := L.mul hf.ok hg.ok h
  obtain ⟨B, hB⟩ := hg.bounded
  have hset : (ops.vars r).toFinset = (ops.vars f).toFinset := by
    ext v
    simp only [List.mem_toFinset, r2]
    exact ⟨fun h => h.elim id (hsub v), .inl⟩
  refine ⟨r1, ?_, ?_, ?_⟩
  · obtain ⟨v, h1, h2⟩ := hf.free
    exact ⟨v, (r2 v).2 (.inl h1), h2⟩
  · simp only [r3]
    exact S.sharpMul (fun x => L.pos hf.ok _) (fun x => L.pos hg.ok _) hf.sharp (S.gentle hg.ok special ⟨B, hB⟩)
  · rw [hset]
    simp only [r3]
    exact hf.bdd.mul ((L.meas hf.ok).comp (measurable_override L.toPosLaws special)) (fun x => L.nonneg hf.ok _) hB

theorem SemiI.absorbInner {special : Dict Var V} {factors : List F} (hok : ∀ f ∈ factors, Nice S special f)
    (i : Nat) {f : F} (hf : Nice S special f) (mask : Nat → Bool) :
    ∃ s, CG.absorbInner ops factors i f mask = .ok s ∧ Nice S special s.1 := by
  unfold CG.absorbInner
  refine foldlM_total (fun _ (s : F × (Nat → Bool)) => Nice S special s.1) hf ?_
  intro l a l' s hL hs
  split
  · rename_i hc
    have ha := hok a.1 (List.fst_mem_of_mem_zipIdx (by rw [hL]; simp))
    obtain ⟨p, hp⟩ := S.mul hs.ok ha.ok
    have hsub : ∀ v ∈ ops.vars a.1, v ∈ ops.vars s.1 := by
      have := hc.2.2
      unfold strictSubset at this
      simp only [Bool.and_eq_true, decide_eq_true_eq] at this
      exact this.1
    exact ⟨_, by rw [hp]; rfl, S.mulNice hs ha hsub hp⟩
  · exact ⟨s, rfl, hs⟩

theorem SemiI.absorb {special : Dict Var V} {factors : List F} (hok : ∀ f ∈ factors, Nice S special f) :
    ∃ r, CG.absorb ops factors = .ok r ∧ ∀ f ∈ r, Nice S special f := by
  unfold CG.absorb
  obtain ⟨r, hr, hr'⟩ := foldlM_total (L := factors.zipIdx)
    (f := fun (s : List F × (Nat → Bool)) e =>
      if s.2 e.2 = false then do
        let t ← CG.absorbInner ops factors e.2 e.1 s.2
        .ok (if t.2 e.2 = true then s.1 ++ [t.1] else s.1, t.2)
      else .ok s) (b := ([], fun _ => false)) (fun _ s => ∀ f ∈ s.1, Nice S special f)
    (fun f hf => by cases hf) (by
    intro l a l' s hL hs
    split
    · have ha := hok a.1 (List.fst_mem_of_mem_zipIdx (by rw [hL]; simp))
      obtain ⟨t, ht, ht'⟩ := S.absorbInner hok a.2 ha s.2
      refine ⟨_, by rw [ht]; rfl, fun f hf => ?_⟩
      dsimp only at hf
      split at hf
      · rcases List.mem_append.1 hf with hf | hf
        · exact hs f hf
        · rw [List.mem_singleton.1 hf]; exact ht'
      · exact hs f hf
    · exact ⟨s, rfl, hs⟩)
  rw [hr, py_bind_ok]
  dsimp only
  rw [mask_all]
  refine ⟨_, rfl, ?_⟩
  have key : ∀ (l : List (F × Nat)) (s : List F × (Nat → Bool)), (∀ a ∈ l, a.1 ∈ factors) →
      (∀ f ∈ s.1, Nice S special f) →
      ∀ f ∈ (l.foldl (fun (s : List F × (Nat → Bool)) e =>
        if s.2 e.2 = false then (s.1 ++ [e.1], Function.update s.2 e.2 true) else s) s).1, Nice S special f := by
    intro l
    induction l with
    | nil => intro s _ h; exact h
    | cons a l ih =>
      intro s hl h
      rw [List.foldl_cons]
      refine ih _ (fun b hb => hl b (List.mem_cons_of_mem _ hb)) ?_
      split
      · intro f hf
        rcases List.mem_append.1 hf with hf | hf
        · exact h f hf
        · rw [List.mem_singleton.1 hf]; exact hok _ (hl a (List.mem_cons_self ..))
      · exact h
  exact key _ _ (fun a ha => List.fst_mem_of_mem_zipIdx ha) hr'

theorem SemiI.clusterFactors {special : Dict Var V} {factors : List F} (evidence : Option (Dict Var V))
    (hok : ∀ f ∈ factors, NiceIn S evidence special f) :
    ∃ fs, CG.clusterFactors ops factors evidence = .ok fs ∧ ∀ f ∈ fs, Nice S special f := by
  obtain ⟨rs, hrs, h⟩ := S.evidenceReduce evidence hok
  obtain ⟨fs, hfs, h'⟩ := S.absorb h
  refine ⟨fs, ?_, h'⟩
  unfold CG.clusterFactors
  rw [hrs]; exact hfs

include S in
/-- Making a message succeeds where the sender's belief, given the evidence, is sharp and its integral, divided by
the last message of the receiver, is bounded. -/
theorem SemiI.makeMessage {c : Cl F V} {nid : String} {sep vars : List Var}
    {special : Dict Var V} (hok : L.Ok c.factor) (hn : vars.Nodup) (hv : ∀ v, v ∈ vars ↔ v ∈ ops.vars c.factor)
    (hsp : c.special = some (subsetEvidence special vars)) (hsep : Dict.get? c.sepsets nid = some sep)
    (hsn : sep.Nodup) (hsub : ∀ v ∈ sep, v ∈ ops.vars c.factor ∧ v ∉ Dict.keys special)
    (hfree : ∃ v ∈ ops.vars c.factor, v ∉ Dict.keys special)
    (hsh : S.Sharp fun x => L.den c.factor (override (evPairs L.toLaws special) x))
    (hrec : ∀ p, Dict.get? c.received nid = some p → L.Ok p ∧ ∀ v ∈ ops.vars p, v ∈ sep)
    (hfin : ∃ B : ℝ≥0∞, B ≠ ∞ ∧ ∀ x,
      intOut (((ops.vars c.factor).toFinset \ (Dict.keys special).toFinset) \ sep.toFinset)
      (fun y => .ofReal ((recvVal L c nid y)⁻¹) *
        .ofReal (L.den c.factor (override (evPairs L.toLaws special) y))) x ≤ B) :
    ∃ msg, CG.makeMessage ops c nid = .ok msg ∧ L.Ok msg.factor ∧ ops.vars msg.factor = sep ∧
      Bounded L msg.factor ∧ ∀ x, ENNReal.ofReal (L.den msg.factor x * recvVal L c nid x) =
        intOut (((ops.vars c.factor).toFinset \ (Dict.keys special).toFinset) \ sep.toFinset)
          (fun y => .ofReal (L.den c.factor (override (evPairs L.toLaws special) y))) x := by
  obtain ⟨red, hred⟩ := S.red_subset hok special hn hv hfree
  obtain ⟨r1, r2, r3⟩ := L.toLaws.red_subset hok special hn hv hred
  have hsub' : ∀ v ∈ sep, v ∈ ops.vars red := fun v h => (r2 v).2 (hsub v h)
  have hset : (ops.vars red).toFinset = (ops.vars c.factor).toFinset \ (Dict.keys special).toFinset := by
    ext v; simp [r2]
  have rpos : ∀ x, 0 < recvVal L c nid x := by
    intro x
    unfold recvVal
    cases hp : Dict.get? c.received nid with
    | none => exact one_pos
    | some p => exact L.pos (hrec p hp).1 x
  have rdep : ∀ x y, (∀ v ∈ sep, x v = y v) → recvVal L c nid x = recvVal L c nid y := by
    intro x y h
    unfold recvVal
    cases hp : Dict.get? c.received nid with
    | none => rfl
    | some p => exact L.dep (hrec p hp).1 x y fun v hv => h v ((hrec p hp).2 v hv)
  have hB : (fun y => ENNReal.ofReal (L.den red y)) =
      fun y => .ofReal (L.den c.factor (override (evPairs L.toLaws special) y)) := by
    funext y; rw [r3]
  have hbm : Measurable fun y => ENNReal.ofReal (L.den c.factor (override (evPairs L.toLaws special) y)) :=
    ((L.meas hok).comp (measurable_override L.toPosLaws special)).ennreal_ofReal
  have hpull : ∀ x, intOut (((ops.vars c.factor).toFinset \ (Dict.keys special).toFinset) \ sep.toFinset)
      (fun y => .ofReal ((recvVal L c nid y)⁻¹) *
        .ofReal (L.den c.factor (override (evPairs L.toLaws special) y))) x =
      .ofReal ((recvVal L c nid x)⁻¹) *
        intOut (((ops.vars c.factor).toFinset \ (Dict.keys special).toFinset) \ sep.toFinset)
          (fun y => .ofReal (L.den c.factor (override (evPairs L.toLaws special) y))) x := by
    intro x
    refine Spec.intOut_mul_left (G := fun y => .ofReal ((recvVal L c nid y)⁻¹)) ?_ hbm x
    intro a b hab
    rw [rdep a b fun v hv => hab v (by simp [hv])]
  obtain ⟨B, hB1, hB2⟩ := hfin
  obtain ⟨M, hM, mv, hint⟩ := S.marg r1 (by rw [show L.den red = _ from funext r3]; exact hsh) hsn hsub' ⟨0, by
    rw [hset, hB]
    intro ht
    have := hB2 0
    rw [hpull, ht, ENNReal.mul_top (by simpa using rpos 0)] at this
    exact hB1 (top_le_iff.1 this)⟩
  rw [hset, hB] at hint
  obtain ⟨m1, m2, m3⟩ := L.marg r1 hsn hsub' hM
  have key : ∃ f, cancelReceived ops c nid M = .ok f ∧ L.Ok f ∧ ops.vars f = sep ∧
      ∀ x, L.den f x = (recvVal L c nid x)⁻¹ * L.den M x := by
    unfold cancelReceived recvVal
    cases hp : Dict.get? c.received nid with
    | none => exact ⟨M, rfl, m1, mv, fun x => by simp⟩
    | some p =>
      obtain ⟨p1, p2⟩ := hrec p hp
      have hsub2 : ∀ v ∈ ops.vars p, v ∈ ops.vars M := fun v h => (m2 v).2 (p2 v h)
      obtain ⟨f, hf⟩ := S.cancel m1 p1
      obtain ⟨f1, f2, f3⟩ := L.cancel m1 p1 hsub2 (fun x h0 => absurd h0 (L.pos p1 x).ne') hf
      exact ⟨f, hf, f1, (S.cancelVars m1 p1 hsub2 hf).trans mv, fun x => by
        rw [f3, div_eq_inv_mul]; rfl⟩
  obtain ⟨f, hf, f1, f2, f3⟩ := key
  refine ⟨⟨f, c.id, nid⟩, ?_, f1, f2, ⟨B.toReal, fun x => ?_⟩, fun x => ?_⟩
  · unfold CG.makeMessage Dict.getItem specialReduced
    rw [hsep, hsp]
    dsimp only
    rw [py_bind_ok, hred, py_bind_ok, hM, py_bind_ok, hf]
    rfl
  · have := hB2 x
    rw [hpull, ← hint, ← ENNReal.ofReal_mul (inv_nonneg.2 (rpos x).le), ← f3] at this
    have := ENNReal.toReal_mono hB1 this
    rwa [ENNReal.toReal_ofReal (L.nonneg f1 x)] at this
  · dsimp only
    rw [← hint, f3]
    congr 1
    rw [mul_right_comm, inv_mul_cancel₀ (rpos x).ne', one_mul]

/-- The constructor returns. -/
theorem SemiI.new (hs : HashSeed) {factors : List F} (evidence : Option (Dict Var V)) (special : Dict Var V)
    (hok : ∀ f ∈ factors, NiceIn S evidence special f) :
    ∃ a, CG.new hs ops factors evidence special = .ok a := by
  obtain ⟨fs, hfs, hN⟩ := S.clusterFactors evidence hok
  have hmem : ∀ c ∈ mkClusters ops special fs, c.factor ∈ fs := by
    intro c hc
    unfold mkClusters at hc
    obtain ⟨e, he, rfl⟩ := List.mem_map.1 hc
    exact List.fst_mem_of_mem_zipIdx he
  obtain ⟨b, hb⟩ := buildGraph_of (n := (mkClusters ops special fs).length) (hs := hs) (ops := ops)
    (cl := fun i => (mkClusters ops special fs)[i]) (evVars := evidenceVars evidence special)
    (fun i j hij => by
      have h1 := List.nodup_iff_injective_get.1 (C42_ids_unique ops special fs)
      have h2 := @h1 ⟨i, by simp⟩ ⟨j, by simp⟩ (by simpa using hij)
      simp only [Fin.mk.injEq] at h2
      exact Fin.ext h2) (by
    intro i c nid s c2 c3 c4 hget s1 s2 s3
    have hci := hmem _ (List.getElem_mem i.2)
    obtain ⟨hrec, hsp⟩ := mem_mkClusters (ops := ops) (special := special) (fs := fs) (List.getElem_mem i.2)
    have hnice := hN _ hci
    have hc : ∀ p, Dict.get? c.received nid ≠ some p := by
      intro p hp
      rw [c3] at hp
      rw [show (mkClusters ops special fs)[i].received = [] from hrec] at hp
      cases hp
    have hone : ∀ y, recvVal L c nid y = 1 := by
      intro y
      unfold recvVal
      cases hp : Dict.get? c.received nid with
      | none => rfl
      | some p => exact absurd hp (hc p)
    have hsub : ∀ v ∈ s, v ∈ ops.vars ((mkClusters ops special fs)[i]).factor ∧ v ∉ Dict.keys special := fun v hv =>
      ⟨(s3 v hv).1, fun h => (s3 v hv).2 (by rw [mem_evidenceVars]; exact Or.inl h)⟩
    obtain ⟨msg, m1, m2, m3, m4, -⟩ := S.makeMessage (c := c) (nid := nid) (special := special)
      (by rw [c2]; exact hnice.ok) (L.nodup hnice.ok) (fun v => by rw [c2]; rfl) (by rw [c4]; exact hsp) hget s2
      (fun v hv => by rw [c2]; exact hsub v hv)
      (by rw [c2]; exact hnice.free) (by rw [c2]; exact hnice.sharp) (fun p hp => absurd hp (hc p))
      (by
        simp only [hone, inv_one, ENNReal.ofReal_one, one_mul]
        rw [c2]
        refine hnice.bdd s.toFinset (fun v hv => ?_) ?_
        · have := hsub v (by simpa using hv)
          simp only [Finset.mem_sdiff, List.mem_toFinset]
          exact this
        · exact List.toFinset_nonempty_iff _ |>.2 s1)
    obtain ⟨d, hd⟩ := S.dist m2
    exact ⟨msg, d, m1, hd⟩)
  refine ⟨⟨_, _, b.graph special⟩, ?_⟩
  unfold CG.new
  rw [hfs, py_bind_ok]
  dsimp only
  rw [hb]
  rfl

end
end Verif.CG
