import Verif.ClusterExact

/-!
# Passing more messages on a converged graph

At convergence every message changes the receiver's belief by a constant factor only, and the graph stays
converged.
-/

namespace Verif.CG
open Spec (override Asg sumOut)
variable {F V G : Type} {n m : Nat} {ops : Ops F V G}

/-- The sender's belief, marginalised onto the sepset. -/
noncomputable def outSum (L : SumLaws ops) (g0 g : Graph F V G n m) (q : Fin m) (x : Asg) : ℝ :=
  sumOut L.C (freeVars ops g0 (g0.path q).snd \ (sepOf g0 q).toFinset) (belief L g0 g (g0.path q).snd) x

/-- The next message in terms of the sender's belief. -/
theorem BelInv.next_sum [Zero G] (L : SumLaws ops) {evVars : List Var} {g0 g : Graph F V G n m}
    {tr : List (Fin m × F)} (w : Wired ops evVars g0) (inv : RunInv ops g0 tr g) (b : BelInv L.toLaws g0 tr g)
    {q r : Fin m} (hr1 : (g0.path r).snd = (g0.path q).rcv) (hr2 : (g0.path r).rcv = (g0.path q).snd)
    (hr3 : sepOf g0 r = sepOf g0 q) (x : Asg) :
    L.den (g.path q).next.factor x = outSum L g0 g q x / mval L.toLaws tr r x := by
  obtain ⟨_, _, red, M, h1, h2, h3, h4, h5, h6⟩ := b.next w inv hr1 hr2 hr3
  have hsum := L.sum h1 (w.sepOk _ _ _ (w.sepOf_eq q)).1
    (fun v hv => (h2 v).2 ⟨(w.sepOf_mem q hv).1, (w.sepOf_mem q hv).2.2⟩) h4
  have hset : (ops.vars red).toFinset = freeVars ops g0 (g0.path q).snd := by
    ext v; rw [List.mem_toFinset, h2, mem_freeVars]
  have hB : L.den red = CG.belief L g0 g (g0.path q).snd := funext h3
  rw [hset, hB] at hsum
  rw [h6, hsum]
  rfl

theorem Converged.pass [Zero G] {L : SumLaws ops} {evVars : List Var} {g0 g g' : Graph F V G n m}
    {tr : List (Fin m × F)} (w : Wired ops evVars g0) (inv : RunInv ops g0 tr g) (b : BelInv L.toLaws g0 tr g)
    (hc : Converged L g0 tr g) {q : Fin m} (h : pass ops g q = .ok g') :
    (∀ i, ∃ c : ℝ, 0 < c ∧ ∀ x, L.den (g'.cl i).factor x = c * L.den (g.cl i).factor x) ∧
      Converged L g0 (tr ++ [(q, (g.path q).next.factor)]) g' := by
  have inv' := inv.pass w h
  have b' := b.pass w inv h
  have hm : ∀ r, ∃ c : ℝ, 0 < c ∧ ∀ x : Asg, (∀ v ∈ sepOf g0 r, x v < L.C v) →
      mval L.toLaws (tr ++ [(q, (g.path q).next.factor)]) r x = c * mval L.toLaws tr r x := by
    intro r
    by_cases hr : q = r
    · subst hr
      obtain ⟨c, h1, h2⟩ := hc q
      exact ⟨c, h1, fun x hx => by rw [mval_snoc, if_pos rfl]; exact h2 x hx⟩
    · exact ⟨1, one_pos, fun x _ => by rw [mval_snoc, if_neg hr, one_mul]⟩
  choose k hk0 hk using hm
  have hbel : ∀ i, ∃ c : ℝ, 0 < c ∧ ∀ x, L.den (g'.cl i).factor x = c * L.den (g.cl i).factor x := by
    intro i
    refine ⟨∏ r ∈ incoming g0 i, k r, Finset.prod_pos fun r _ => hk0 r, fun x => ?_⟩
    by_cases hx : ∀ v ∈ scope ops g0 i, x v < L.C v
    · rw [b'.belief, b.belief, mul_left_comm, ← Finset.prod_mul_distrib]
      congr 1
      refine Finset.prod_congr rfl fun r hr => hk r x fun v hv => hx v ?_
      have := (w.sepOf_mem r hv).2.1
      rwa [(Finset.mem_filter.1 hr).2] at this
    · have hz : ∀ (f : F), L.Ok f → (∀ v, v ∈ ops.vars f ↔ v ∈ scope ops g0 i) → L.den f x = 0 := by
        intro f hf hv
        by_contra hne
        exact hx fun v hvs => L.supp hf x hne v ((hv v).2 hvs)
      rw [hz _ (b'.ok i) (b'.vars i), hz _ (b.ok i) (b.vars i), mul_zero]
  refine ⟨hbel, fun r => ?_⟩
  obtain ⟨s, hs1, hs2, hs3⟩ := w.rev r
  obtain ⟨c, hc0, hcx⟩ := hbel (g0.path r).snd
  obtain ⟨d, hd0, hdx⟩ := hc r
  refine ⟨c / k s * d / k r, by have := hk0 s; have := hk0 r; positivity, fun x hx => ?_⟩
  have hks := hk0 s
  have hkr := hk0 r
  have e1 : outSum L g0 g' r x = c * outSum L g0 g r x := by
    unfold outSum
    rw [← Spec.sumOut_const_mul]
    congr 1
    funext y
    exact hcx _
  have e2 : L.den (g'.path r).next.factor x = c / k s * L.den (g.path r).next.factor x := by
    rw [b'.next_sum L w inv' hs1 hs2 hs3, b.next_sum L w inv hs1 hs2 hs3, e1, hk s x (by rw [hs3]; exact hx)]
    rw [mul_div_mul_comm]
  rw [e2, hdx x hx, hk r x hx]
  field_simp

/-- Whatever is passed after convergence, every belief keeps its shape. -/
theorem Converged.run [Zero G] {L : SumLaws ops} {evVars : List Var} {g0 g g' : Graph F V G n m}
    {tr tr' : List (Fin m × F)} (w : Wired ops evVars g0) (hok : ∀ i, L.Ok (g0.cl i).factor) (hr : Run ops g0 tr g)
    (hc : Converged L g0 tr g) (hr' : Run ops g tr' g') :
    Run ops g0 (tr ++ tr') g' ∧
    (∀ i, ∃ c : ℝ, 0 < c ∧ ∀ x, L.den (g'.cl i).factor x = c * L.den (g.cl i).factor x) ∧
      Converged L g0 (tr ++ tr') g' := by
  induction hr' with
  | start => exact ⟨by simpa using hr, fun i => ⟨1, one_pos, fun x => (one_mul _).symm⟩, by simpa using hc⟩
  | @pass tr' g1 g2 q _ hp ih =>
    obtain ⟨h1, h2, h3⟩ := ih
    obtain ⟨h4, h5⟩ := h3.pass w (h1.inv w) (h1.bel w hok) hp
    rw [← List.append_assoc]
    refine ⟨Run.pass q h1 hp, fun i => ?_, h5⟩
    obtain ⟨c, c0, cx⟩ := h2 i
    obtain ⟨d, d0, dx⟩ := h4 i
    exact ⟨d * c, mul_pos d0 c0, fun x => by rw [dx, cx, mul_assoc]⟩
  | @admin tr' g1 g2 _ hs ih =>
    obtain ⟨h1, h2, h3⟩ := ih
    have hs' := hs
    obtain ⟨e1, e2, e3, _⟩ := hs
    exact ⟨Run.admin h1 hs', by rw [e1]; exact h2, by unfold Converged; rw [e3]; exact h3⟩

end Verif.CG
