import Verif.ClusterProps7

/-!
# Information gains of lawful factor classes

The theorems of `ClusterProps5` and `ClusterProps7` for any class of discrete factors whose information gains
vanish exactly for messages without new content.
-/

namespace Verif.CG
open Spec (override Asg sumOut)
open Classical

variable {F V G : Type} {ops : Ops F V G} [LinearOrder G] [Zero G]

/-- The information gain is zero exactly for a message proportional to the last one (to 1, if there was
none). -/
structure GainLaws (L : SumLaws ops) : Prop where
  distZero : ∀ {f d}, L.Ok f → (∃ x, L.den f x ≠ 0) → ops.distVacuous f = .ok d → d ≤ 0 →
    ∃ c : ℝ, 0 < c ∧ ∀ x, (∀ v ∈ ops.vars f, x v < L.C v) → L.den f x = c
  distConst : ∀ {f d} {c : ℝ}, L.Ok f → (∃ x, L.den f x ≠ 0) → ops.distVacuous f = .ok d → 0 < c →
    (∀ x, (∀ v ∈ ops.vars f, x v < L.C v) → L.den f x = c) → d ≤ 0
  klZero : ∀ {f g d}, L.Ok f → L.Ok g → (∀ v, v ∈ ops.vars f ↔ v ∈ ops.vars g) → (∃ x, L.den f x ≠ 0) →
    (∃ x, L.den g x ≠ 0) → ops.kl f g = .ok d → d ≤ 0 →
    ∃ c : ℝ, 0 < c ∧ ∀ x, (∀ v ∈ ops.vars f, x v < L.C v) → L.den g x = c * L.den f x
  klConst : ∀ {f g d} {c : ℝ}, L.Ok f → L.Ok g → (∀ v, v ∈ ops.vars f ↔ v ∈ ops.vars g) → (∃ x, L.den f x ≠ 0) →
    (∃ x, L.den g x ≠ 0) → ops.kl f g = .ok d → 0 < c →
    (∀ x, (∀ v ∈ ops.vars f, x v < L.C v) → L.den g x = c * L.den f x) → d ≤ 0

variable {L : SumLaws ops} {n m : Nat} {evVars : List Var} {g0 g : Graph F V G n m} {tr : List (Fin m × F)}

/-- At zero gain every next message is a multiple of the last one. -/
theorem GainLaws.converged (K : GainLaws L) (w : Wired ops evVars g0)
    (inv : RunInv ops g0 tr g) (b : BelInv L.toLaws g0 tr g)
    (hgain : ∀ q, (g.path q).gain ≤ 0) {x0 : Asg}
    (hx0 : ∀ i, L.den (g0.cl i).factor (override (evPairs L.toLaws g0.special) x0) ≠ 0) :
    Converged L g0 tr g := by
  intro q
  obtain ⟨rv, hr1, hr2, hr3⟩ := w.rev q
  obtain ⟨n1, n2, _⟩ := b.next w inv hr1 hr2 hr3
  have hnz := b.next_pos w inv hx0 q
  unfold mval
  rcases inv.gain q with hg | ⟨_, hp⟩
  · cases hp : (g.path q).prev with
    | none =>
      have hl : lastMsg tr q = none := by rw [← inv.prev, hp]; rfl
      rw [hp] at hg
      obtain ⟨c, hc, hx⟩ := K.distZero n1 ⟨x0, hnz⟩ hg (hgain q)
      refine ⟨c, hc, fun x hxr => ?_⟩
      rw [hl]
      dsimp only
      rw [mul_one]
      exact hx x fun v hv => hxr v ((n2 v).1 hv)
    | some p =>
      have hl : lastMsg tr q = some p.factor := by rw [← inv.prev, hp]; rfl
      obtain ⟨o1, o2⟩ := b.msg q _ hl
      have hpz : L.den p.factor x0 ≠ 0 := by
        have := b.pos x0 hx0 q
        unfold mval at this
        rwa [hl] at this
      rw [hp] at hg
      obtain ⟨c, hc, hx⟩ := K.klZero o1 n1 (fun v => (o2 v).trans (n2 v).symm) ⟨x0, hpz⟩ ⟨x0, hnz⟩ hg (hgain q)
      refine ⟨c, hc, fun x hxr => ?_⟩
      rw [hl]
      exact hx x fun v hv => hxr v ((o2 v).1 hv)
  · have hl : lastMsg tr q = some (g.path q).next.factor := by rw [← inv.prev, hp]; rfl
    refine ⟨1, one_pos, fun x _ => ?_⟩
    rw [hl, one_mul]

/-- A next message of the same shape as the last one carries no information. -/
theorem GainLaws.clean (K : GainLaws L) (w : Wired ops evVars g0)
    (inv : RunInv ops g0 tr g) (b : BelInv L.toLaws g0 tr g) {x0 : Asg}
    (hx0 : ∀ i, L.den (g0.cl i).factor (override (evPairs L.toLaws g0.special) x0) ≠ 0)
    {q : Fin m} (hc : Clean L g0 tr g q) : (g.path q).gain ≤ 0 := by
  obtain ⟨rv, hr1, hr2, hr3⟩ := w.rev q
  obtain ⟨n1, n2, _⟩ := b.next w inv hr1 hr2 hr3
  have hnz := b.next_pos w inv hx0 q
  obtain ⟨c, c0, cx⟩ := hc
  unfold mval at cx
  rcases inv.gain q with hg | ⟨hg, hp⟩
  swap
  · exact le_of_eq hg
  cases hp : (g.path q).prev with
  | none =>
    have hl : lastMsg tr q = none := by rw [← inv.prev, hp]; rfl
    rw [hp] at hg
    rw [hl] at cx
    refine K.distConst n1 ⟨x0, hnz⟩ hg c0 fun x hx => ?_
    have := cx x fun v hv => hx v ((n2 v).2 hv)
    dsimp only at this
    rwa [mul_one] at this
  | some p =>
    have hl : lastMsg tr q = some p.factor := by rw [← inv.prev, hp]; rfl
    obtain ⟨o1, o2⟩ := b.msg q _ hl
    have hpz : L.den p.factor x0 ≠ 0 := by
      have := b.pos x0 hx0 q
      unfold mval at this
      rwa [hl] at this
    rw [hp] at hg
    rw [hl] at cx
    exact K.klConst o1 n1 (fun v => (o2 v).trans (n2 v).symm) ⟨x0, hpz⟩ ⟨x0, hnz⟩ hg c0 fun x hx =>
      cx x fun v hv => hx v ((o2 v).2 hv)

/-- Exact marginals at zero gains on a graph without cycles. -/
theorem GainLaws.exact (K : GainLaws L) (hs : HashSeed) (factors : List F) (hok : ∀ f ∈ factors, L.Ok f)
    (evidence : Option (Dict Var V)) (special : Dict Var V) (a : Any F V G)
    (h : new hs ops factors evidence special = .ok a)
    (htree : (SimpleGraph.fromRel fun i j => ∃ s, sepset a.graph i j = some s).IsAcyclic)
    (tr : List (Fin a.m × F)) (g : Graph F V G a.n a.m)
    (hr : Run ops a.graph tr g) (hgain : ∀ q, (g.path q).gain ≤ 0)
    (hpos : ∃ x, posterior L factors evidence special x ≠ 0)
    (vrs : List Var) (hn : vrs.Nodup) (hun : ∀ v ∈ vrs, v ∉ Dict.keys special) (r : F)
    (hm : getMarginal ops g vrs = .ok r) :
    ∃ c : ℝ, 0 < c ∧ ∀ x, L.den r x = c * sumOut L.C (hiddenVars ops factors evidence special \ vrs.toFinset)
      (posterior L factors evidence special) x := by
  have hx0 : ∃ x0, ∀ f ∈ factors, L.den f (given L.toLaws evidence (override (evPairs L.toLaws special) x0)) ≠ 0 := by
    obtain ⟨x0, hx0⟩ := hpos
    exact ⟨x0, fun f hf h0 => hx0 (List.prod_eq_zero (List.mem_map.2 ⟨f, hf, h0⟩))⟩
  obtain ⟨x0, hx0⟩ := hx0
  obtain ⟨w, hsp, _⟩ := wired_new h
  have inv := hr.inv w
  have b := hr.bel (L := L.toLaws) w (new_ok L.toLaws hok h)
  have hconv := K.converged w inv b hgain (new_pos L.toLaws hok h hx0)
  refine C52_exact_marginals L hs factors hok evidence special a h htree tr g hr ?_ hpos vrs hn hun r hm
  intro q s hsq
  obtain ⟨c, c0, cx⟩ := hconv q
  rw [w.sepOf_eq q, Option.some.injEq] at hsq
  refine ⟨c, c0, fun x hx => ?_⟩
  rw [cx x (by rw [hsq]; exact hx)]
  unfold mval
  cases lastMsg tr q <;> rfl

end Verif.CG
