import Verif.ClusterSemi

/-!
# Continuous factors that cannot be normalised on their own: message passing
-/

namespace Verif.CG
open Spec (DependsOn override intOut)
open Classical MeasureTheory
open scoped ENNReal
variable {F V G : Type} {n m : Nat} {ops : Ops F V G}

/-- What is known of a graph when message passing starts. -/
structure SemiStart {L : IntLaws ops} (S : SemiI L) (g0 : Graph F V G n m) : Prop where
  nice : ∀ i, Nice S g0.special (g0.cl i).factor
  one : ∀ q, (sepOf g0 q).length = 1

/-- What holds of all messages passed so far. -/
def MsgsBounded (L : IntLaws ops) (g0 : Graph F V G n m) (tr : List (Fin m × F)) : Prop :=
  ∀ q f, lastMsg tr q = some f → Bounded L f ∧ ops.vars f = sepOf g0 q

section
variable {L : IntLaws ops} {S : SemiI L} {evVars : List Var} {g0 g : Graph F V G n m} {tr : List (Fin m × F)}

theorem MsgsBounded.prod (b : BelInv L.toLaws g0 tr g) (hN : MsgsBounded L g0 tr) (T : Finset (Fin m)) :
    ∃ B : ℝ, ∀ y, ∏ s ∈ T, mval L.toLaws tr s y ≤ B := by
  have h1 : ∀ s, ∃ B : ℝ, ∀ y, mval L.toLaws tr s y ≤ B := by
    intro s
    unfold mval
    cases hl : lastMsg tr s with
    | none => exact ⟨1, fun _ => le_rfl⟩
    | some f => exact (hN s f hl).1
  choose B hB using h1
  exact ⟨∏ s ∈ T, B s, fun y => Finset.prod_le_prod (fun s _ => (mval_pos b s y).le) fun s _ => hB s y⟩

/-- Initial beliefs multiplied by received messages: integrals stay bounded. -/
theorem SemiStart.bounded (st : SemiStart S g0) (b : BelInv L.toLaws g0 tr g) (hN : MsgsBounded L g0 tr) (i : Fin n)
    (T : Finset (Fin m)) :
    BoundedInt (fun y => L.den (g0.cl i).factor (override (evPairs L.toLaws g0.special) y) *
      ∏ s ∈ T, mval L.toLaws tr s (override (evPairs L.toLaws g0.special) y)) (freeVars ops g0 i) := by
  obtain ⟨B, hB⟩ := hN.prod b T
  have hset : freeVars ops g0 i = (ops.vars (g0.cl i).factor).toFinset \ (Dict.keys g0.special).toFinset := by
    ext v
    simp [mem_freeVars, scope]
  rw [hset]
  exact (st.nice i).bdd.mul ((L.meas (st.nice i).ok).comp (measurable_override L.toPosLaws _)) (fun x => L.nonneg (st.nice i).ok _)
    fun x => hB _

/-- Beliefs are sharp. -/
theorem SemiStart.sharp (st : SemiStart S g0) (b : BelInv L.toLaws g0 tr g) (hN : MsgsBounded L g0 tr) (i : Fin n) :
    S.Sharp fun y => L.den (g.cl i).factor (override (evPairs L.toLaws g0.special) y) := by
  simp only [b.belief]
  generalize incoming g0 i = T
  induction T using Finset.induction_on with
  | empty => simpa using (st.nice i).sharp
  | @insert s T hs ih =>
    simp only [Finset.prod_insert hs]
    have hT : ∀ y, 0 < ∏ s ∈ T, mval L.toLaws tr s (override (evPairs L.toLaws g0.special) y) := fun y =>
      Finset.prod_pos fun s _ => mval_pos b s _
    have e : (fun y => L.den (g0.cl i).factor (override (evPairs L.toLaws g0.special) y) *
        (mval L.toLaws tr s (override (evPairs L.toLaws g0.special) y) *
          ∏ s ∈ T, mval L.toLaws tr s (override (evPairs L.toLaws g0.special) y))) =
        fun y => (L.den (g0.cl i).factor (override (evPairs L.toLaws g0.special) y) *
          ∏ s ∈ T, mval L.toLaws tr s (override (evPairs L.toLaws g0.special) y)) *
          mval L.toLaws tr s (override (evPairs L.toLaws g0.special) y) := by
      funext y; ring
    rw [e]
    unfold mval at *
    cases hl : lastMsg tr s with
    | none => simpa using ih
    | some f =>
      obtain ⟨B, hB⟩ := (hN s f hl).1
      exact S.sharpMul (fun y => mul_pos (L.pos (st.nice i).ok _) (hT y)) (fun y => L.pos (b.msg s f hl).1 _) ih
        (S.gentle (b.msg s f hl).1 g0.special ⟨B, fun x => hB _⟩)

/-- Making the next message of a path. -/
theorem SemiStart.next (st : SemiStart S g0) (w : Wired ops evVars g0) (inv : ClInv g0 tr g.cl)
    (b : BelInv L.toLaws g0 tr g) (hN : MsgsBounded L g0 tr) (q : Fin m) :
    ∃ msg, CG.makeMessage ops (g.cl (g0.path q).snd) (g0.cl (g0.path q).rcv).id = .ok msg ∧ L.Ok msg.factor ∧
      ops.vars msg.factor = sepOf g0 q ∧ Bounded L msg.factor ∧
      ∀ r, (g0.path r).snd = (g0.path q).rcv → (g0.path r).rcv = (g0.path q).snd → ∀ x,
        ENNReal.ofReal (L.den msg.factor x * mval L.toLaws tr r x) =
          intOut (freeVars ops g0 (g0.path q).snd \ (sepOf g0 q).toFinset) (beliefI L.toPosLaws g0 g (g0.path q).snd) x := by
  obtain ⟨r, hr1, hr2, hr3⟩ := w.rev q
  have hset : (ops.vars (g.cl (g0.path q).snd).factor).toFinset \ (Dict.keys g0.special).toFinset =
      freeVars ops g0 (g0.path q).snd := by
    ext v
    simp [mem_freeVars, b.vars]
  have hrec := inv.received r
  rw [hr1, hr2] at hrec
  have hmem : r ∈ incoming g0 (g0.path q).snd := by simp [incoming, hr2]
  have hrv : ∀ y, recvVal L (g.cl (g0.path q).snd) (g0.cl (g0.path q).rcv).id y = mval L.toLaws tr r y := by
    intro y
    unfold recvVal mval
    rw [hrec]
    cases lastMsg tr r <;> rfl
  have hmv : ∀ y, mval L.toLaws tr r (override (evPairs L.toLaws g0.special) y) = mval L.toLaws tr r y := by
    intro y
    refine mval_congr L.toLaws (b.msg r) fun v hv => ?_
    exact override_keep L.toLaws (w.sepOf_mem r hv).2.2 y
  have hsub : (sepOf g0 q).toFinset ⊆ freeVars ops g0 (g0.path q).snd := by
    intro v hv
    have := w.sepOf_mem q (by simpa using hv)
    exact mem_freeVars.2 ⟨this.1, this.2.2⟩
  obtain ⟨msg, m1, m2, m3, m4, m5⟩ := S.makeMessage (c := g.cl (g0.path q).snd) (nid := (g0.cl (g0.path q).rcv).id)
    (vars := scope ops g0 (g0.path q).snd) (special := g0.special) (sep := sepOf g0 q) (b.ok _)
    (L.nodup (b.ok0 _)) (fun v => (b.vars _ v).symm)
    (by rw [inv.cspecial, w.special]) (by rw [inv.sepsets]; exact w.sepOf_eq q)
    (w.sepOk _ _ _ (w.sepOf_eq q)).1
    (fun v hv => ⟨(b.vars _ v).2 (w.sepOf_mem q hv).1, (w.sepOf_mem q hv).2.2⟩)
    (by
      obtain ⟨v, h1, h2⟩ := (st.nice (g0.path q).snd).free
      exact ⟨v, (b.vars _ v).2 h1, h2⟩)
    (st.sharp b hN _)
    (by
      intro p hp
      rw [hp] at hrec
      obtain ⟨o1, o2⟩ := b.msg r p hrec.symm
      exact ⟨o1, fun v hv => hr3 ▸ (o2 v).1 hv⟩)
    (by
      rw [hset]
      obtain ⟨B, hB, hx⟩ := st.bounded b hN (g0.path q).snd ((incoming g0 (g0.path q).snd).erase r)
        (sepOf g0 q).toFinset hsub (by
          rw [List.toFinset_nonempty_iff]
          exact List.ne_nil_of_length_pos (by rw [st.one]; exact one_pos))
      refine ⟨B, hB, fun x => le_of_eq_of_le ?_ (hx x)⟩
      refine congrFun (congrArg _ (funext fun y => ?_)) x
      have hp := mval_pos b r y
      rw [hrv, b.belief, ← Finset.mul_prod_erase _ _ hmem, hmv, ← ENNReal.ofReal_mul (inv_nonneg.2 hp.le)]
      congr 1
      field_simp)
  refine ⟨msg, m1, m2, m3, m4, fun r' h1 h2 x => ?_⟩
  have e : r' = r := w.pathInj r' r (h1.trans hr1.symm) (h2.trans hr2.symm)
  subst e
  rw [← hset, ← hrv, m5]
  rfl

variable [Zero G]

theorem SemiStart.next_bounded (st : SemiStart S g0) (w : Wired ops evVars g0) (inv : RunInv ops g0 tr g)
    (b : BelInv L.toLaws g0 tr g) (hN : MsgsBounded L g0 tr) :
    (∀ q, Bounded L (g.path q).next.factor ∧ ops.vars (g.path q).next.factor = sepOf g0 q) ∧ NextI L.toPosLaws g0 tr g := by
  have key : ∀ q, _ := fun q => st.next w inv.clusters b hN q
  have e : ∀ q msg, CG.makeMessage ops (g.cl (g0.path q).snd) (g0.cl (g0.path q).rcv).id = .ok msg →
      msg = (g.path q).next := by
    intro q msg h1
    have h5 := inv.next q
    rw [h1] at h5
    exact Except.ok.inj h5
  refine ⟨fun q => ?_, fun q r h1 h2 x => ?_⟩
  · obtain ⟨msg, h1, h2, h3, h4, -⟩ := key q
    rw [← e q msg h1]
    exact ⟨h4, h3⟩
  · obtain ⟨msg, h3, -, -, -, h6⟩ := key q
    rw [← e q msg h3]
    exact h6 r h1 h2 x

/-- All messages of all executions are bounded. -/
theorem SemiStart.msgs (st : SemiStart S g0) (w : Wired ops evVars g0) (hr : Run ops g0 tr g) :
    MsgsBounded L g0 tr := by
  induction hr with
  | start => intro q f h; simp at h
  | pass q hr hp ih =>
    intro r f h
    rw [lastMsg_snoc] at h
    dsimp only at h
    split at h
    · rename_i hqr
      cases h
      subst hqr
      exact (st.next_bounded w (hr.inv w) (hr.bel w fun i => (st.nice i).ok) ih).1 q
    · exact ih r f h
  | admin _ _ ih => exact ih

/-- In all executions the next messages are integrals of beliefs. -/
theorem SemiStart.allNext (st : SemiStart S g0) (w : Wired ops evVars g0) : AllNextI L.toPosLaws g0 :=
  fun _ _ hr => (st.next_bounded w (hr.inv w) (hr.bel w fun i => (st.nice i).ok) (st.msgs w hr)).2

theorem SemiI.receive (S : SemiI L) (w : Wired ops evVars g0) (inv : RunInv ops g0 tr g)
    (b : BelInv L.toLaws g0 tr g) (q : Fin m) :
    ∃ c, CG.receive ops (g.cl (g.path q).rcv) (g.path q).next = .ok c := by
  obtain ⟨r, hr1, hr2, hr3⟩ := w.rev q
  obtain ⟨n1, n2, _⟩ := b.next w inv hr1 hr2 hr3
  have hids := makeMessage_ids (inv.next q)
  have hsend : (g.path q).next.snd = (g0.cl (g0.path q).snd).id := by rw [hids.1]; exact inv.id _
  obtain ⟨p, hp⟩ := S.mul (b.ok (g0.path q).rcv) n1
  obtain ⟨p1, -, -⟩ := L.mul (b.ok (g0.path q).rcv) n1 hp
  have hrec := inv.received q
  have key : ∃ f, cancelReceived ops (g.cl (g0.path q).rcv) (g.path q).next.snd p = .ok f := by
    unfold cancelReceived
    rw [hsend, hrec]
    cases hl : lastMsg tr q with
    | none => exact ⟨p, rfl⟩
    | some old => exact S.cancel p1 (b.msg q old hl).1
  obtain ⟨f, hf⟩ := key
  refine ⟨{ g.cl (g0.path q).rcv with
    factor := f
    received := Dict.set (g.cl (g0.path q).rcv).received (g.path q).next.snd (g.path q).next.factor }, ?_⟩
  rw [inv.rcv]
  unfold CG.receive
  have hid : ((g.path q).next.rcv == (g.cl (g0.path q).rcv).id) = true := by
    rw [hids.2, inv.id]; simp
  rw [hid]
  simp only [pyAssert, if_true, py_bind_ok]
  rw [hp, py_bind_ok, hf]
  rfl

/-- Any path can be chosen at any time: an execution can always be continued. -/
theorem SemiStart.step (st : SemiStart S g0) (w : Wired ops evVars g0) (hr : Run ops g0 tr g) (q : Fin m) :
    ∃ g', CG.pass ops g q = .ok g' := by
  have inv := hr.inv w
  have b := hr.bel w fun i => (st.nice i).ok
  have hN := st.msgs w hr
  obtain ⟨c, hc⟩ := S.receive w inv b q
  have hN' : MsgsBounded L g0 (tr ++ [(q, (g.path q).next.factor)]) := by
    intro r f h
    rw [lastMsg_snoc] at h
    dsimp only at h
    split at h
    · rename_i hqr
      cases h
      subst hqr
      exact (st.next_bounded w inv b hN).1 q
    · exact hN r f h
  refine pass_of w inv b q hc fun g1 hcl hb1 r prev hl => ?_
  obtain ⟨msg, m1, m2, m3, m4, -⟩ := st.next (g := g1) w hcl hb1 hN' r
  have hgain : ∃ d, gainOf ops prev msg = .ok d := by
    cases prev with
    | none => exact S.dist m2
    | some p =>
      obtain ⟨o1, -⟩ := hb1.msg r p.factor hl.symm
      obtain ⟨p1, p2⟩ := hN' r p.factor hl.symm
      exact S.kl o1 m2 (p2.trans m3.symm) (by rw [p2]; exact st.one r) p1 m4
  obtain ⟨d, hd⟩ := hgain
  exact ⟨msg, d, m1, hd⟩

/-- A query for at least one variable returns if some cluster has all the variables and none of them is specially
observed; the answer is the integral of the belief. -/
theorem SemiStart.answer (st : SemiStart S g0) (w : Wired ops evVars g0) (hr : Run ops g0 tr g) {vrs : List Var}
    (hn : vrs.Nodup) (hne : vrs ≠ []) (hv : ∃ i, ∀ v ∈ vrs, v ∈ scope ops g0 i) (hun : ∀ v ∈ vrs, v ∉ Dict.keys g0.special) :
    ∃ r, CG.getMarginal ops g vrs = .ok r := by
  have inv := hr.inv w
  have b := hr.bel w fun i => (st.nice i).ok
  have hN := st.msgs w hr
  unfold CG.getMarginal
  cases hf : (List.finRange n).find? fun i => decide (∀ v ∈ vrs, v ∈ ops.vars (g.cl i).factor) with
  | none =>
    obtain ⟨i, hi⟩ := hv
    have := List.find?_eq_none.1 hf i (List.mem_finRange i)
    exact absurd (decide_eq_true fun v hvv => (b.vars i v).2 (hi v hvv)) this
  | some i =>
    have hi : ∀ v ∈ vrs, v ∈ ops.vars (g.cl i).factor := by
      have := List.find?_some hf
      exact of_decide_eq_true this
    dsimp only
    rw [inv.special]
    obtain ⟨f, hf⟩ := S.observe (b.ok i) g0.special (by
      obtain ⟨v, h1, h2⟩ := (st.nice i).free
      exact ⟨v, (b.vars i v).2 h1, h2⟩)
    obtain ⟨f1, f2, f3⟩ := L.toLaws.observe (b.ok i) g0.special hf
    have hset : (ops.vars f).toFinset = freeVars ops g0 i := by
      ext v; rw [List.mem_toFinset, f2, mem_freeVars, b.vars]
    obtain ⟨B, hB, hx⟩ := st.bounded b hN i (incoming g0 i) vrs.toFinset (fun v hvv => by
      have hvv : v ∈ vrs := by simpa using hvv
      exact mem_freeVars.2 ⟨(b.vars i v).1 (hi v hvv), hun v hvv⟩) (by
        rw [List.toFinset_nonempty_iff]; exact hne)
    obtain ⟨r, hr, -⟩ := S.marg f1 (by rw [show L.den f = _ from funext f3]; exact st.sharp b hN i) hn
      (fun v hvv => (f2 v).2 ⟨hi v hvv, hun v hvv⟩) ⟨0, by
        rw [hset]
        simp only [f3, b.belief]
        exact ne_top_of_le_ne_top hB (hx 0)⟩
    exact ⟨r, by rw [hf, py_bind_ok]; exact hr⟩

end

/-! ### Graphs built by the constructor -/

section
variable {L : IntLaws ops} {S : SemiI L} {hs : HashSeed} {factors : List F} {evidence : Option (Dict Var V)}
  {special : Dict Var V} {a : Any F V G}

/-- Sepsets of a graph whose inputs have at most one unobserved variable in common. -/
theorem sepset_one {D : Type} (L : Laws ops D) (hok : ∀ f ∈ factors, L.Ok f)
    (hp : factors.Pairwise fun f g => ShareOne (evidenceVars evidence special) (ops.vars f) (ops.vars g))
    (h : CG.new hs ops factors evidence special = .ok a) {i j s} (hs' : sepset a.graph i j = some s) : s.length = 1 := by
  obtain ⟨w, _, _⟩ := wired_new h
  obtain ⟨fs, h1, h2⟩ := new_factors h
  have hsh := clusterFactors_share L hok (obs := evidenceVars evidence special) hp h1
  have hne := ((C46_sepsets hs ops factors evidence special a h).1 i j s hs').1
  have hij : i ≠ j := by
    rintro rfl
    rw [w.sepIrrefl] at hs'
    cases hs'
  obtain ⟨s2, s3⟩ := w.sepOk i j s hs'
  match s, hne, s2, s3 with
  | [], hne, _, _ => exact absurd rfl hne
  | [_], _, _, _ => rfl
  | u :: v :: t, _, s2, s3 =>
    exfalso
    have hu := s3 u (by simp)
    have hv := s3 v (by simp)
    have hshare : ShareOne (evidenceVars evidence special) (scope ops a.graph i) (scope ops a.graph j) := by
      rw [← h2] at hsh
      have hpw := List.pairwise_iff_getElem.1 hsh
      rcases lt_or_gt_of_ne (Fin.val_ne_of_ne hij) with h | h
      · have := hpw i j (by simp) (by simp) h
        simpa [scope] using this
      · have := hpw j i (by simp) (by simp) h
        simpa [scope] using this.symm
    have := hshare u v hu.1 hu.2.1 hu.2.2 hv.1 hv.2.1 hv.2.2
    subst this
    simp at s2

theorem SemiI.start (S : SemiI L) (hok : ∀ f ∈ factors, NiceIn S evidence special f)
    (hp : factors.Pairwise fun f g => ShareOne (evidenceVars evidence special) (ops.vars f) (ops.vars g))
    (h : CG.new hs ops factors evidence special = .ok a) : SemiStart S a.graph := by
  obtain ⟨w, hsp, _⟩ := wired_new h
  obtain ⟨fs, hfs, hN⟩ := S.clusterFactors evidence hok
  refine ⟨fun i => ?_, fun q => sepset_one L.toLaws (fun f hf => (hok f hf).ok) hp h (w.sepOf_eq q)⟩
  rw [hsp]
  refine hN _ ?_
  obtain ⟨fs', h1, h2⟩ := new_factors h
  rw [hfs] at h1
  cases h1
  rw [← h2]
  exact (List.mem_ofFn' _ _).2 ⟨i, rfl⟩

end
end Verif.CG
