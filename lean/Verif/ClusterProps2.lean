import Verif.ClusterRun

/-!
# Properties of message scheduling (C47, C48, C49, C53, C55)

They hold for every factor class, that is for every `ops`. `Run ops a.graph tr g` says that `g` is the
graph after any execution (any messages in any order) from the constructed graph `a.graph`; in
particular `g` may be the graph after earlier calls of `process_graph`.
-/

namespace Verif.CG
variable {F V G : Type} [LinearOrder G] [Zero G]

/-- **C47.** `process_graph` on a graph with two or more clusters passes some list of messages, at most
`max_iter` times the number of message paths, increases the counter by exactly the number of messages and
records exactly one distance for each. -/
theorem C47_budget (hs : HashSeed) (ops : Ops F V G) (factors : List F) (evidence : Option (Dict Var V))
    (special : Dict Var V) (a : Any F V G) (h : new hs ops factors evidence special = .ok a)
    (tr : List (Fin a.m × F)) (g g' : Graph F V G a.n a.m) (hr : Run ops a.graph tr g)
    (tol : G) (maxIter : Nat) (hn : a.n ≠ 1) (hp : processGraph ops tol maxIter g = .ok g') :
    ∃ tr', Run ops g tr' g' ∧ tr'.length ≤ maxIter * a.m ∧ g'.passed = g.passed + tr'.length ∧
      g'.dists.length = tr'.length := by
  obtain ⟨w, _, _⟩ := wired_new h
  obtain ⟨tr', h1, h2, h3, h4, _⟩ := Greedy.process w hn hr hp
  exact ⟨tr', by simpa using h1.run Run.start, h2, h3, h4⟩

/-- **C47** for a single cluster: no message is passed and nothing is recorded. -/
theorem C47_single (ops : Ops F V G) (m : Nat) (g g' : Graph F V G 1 m) (tol : G) (maxIter : Nat)
    (hp : processGraph ops tol maxIter g = .ok g') :
    g'.passed = g.passed ∧ g'.dists = [] ∧ g'.path = g.path := by
  unfold processGraph at hp
  rw [dif_pos rfl] at hp
  unfold processSingle at hp
  dsimp only at hp
  split at hp
  · simp only [Except.ok.injEq] at hp
    subst hp
    exact ⟨rfl, rfl, rfl⟩
  · obtain ⟨f, _, hp⟩ := py_bind_eq_ok.1 hp
    simp only [Except.ok.injEq] at hp
    subst hp
    exact ⟨rfl, rfl, rfl⟩

/-- The number of messages passed since construction, over any number of `process_graph` calls, is the
counter. -/
theorem C47_total (hs : HashSeed) (ops : Ops F V G) (factors : List F) (evidence : Option (Dict Var V))
    (special : Dict Var V) (a : Any F V G) (h : new hs ops factors evidence special = .ok a)
    (g : Graph F V G a.n a.m) (tol : G) (maxIter : Nat) (hn : a.n ≠ 1)
    (hp : processGraph ops tol maxIter a.graph = .ok g) :
    ∃ tr, Run ops a.graph tr g ∧ g.passed = tr.length := by
  obtain ⟨tr, h1, _, h3, _⟩ := C47_budget hs ops factors evidence special a h [] a.graph g .start tol maxIter hn hp
  exact ⟨tr, h1, by rw [h3, (wired_new h).2.2, Nat.zero_add]⟩

/-- **C48.** If `process_graph` returns having passed fewer messages than its budget, then for every path
the sender's *current* next message (recomputed from its current factor) is within `tol` of the message
last sent along that path: either the recomputed divergence (or, if nothing was ever sent, the distance
from a vacuous message) is at most `tol`, or the message is identical to the last one sent (whose
divergence the code records as 0, and `0 ≤ tol`). -/
theorem C48_early_stop (hs : HashSeed) (ops : Ops F V G) (factors : List F)
    (evidence : Option (Dict Var V)) (special : Dict Var V) (a : Any F V G)
    (h : new hs ops factors evidence special = .ok a)
    (tr : List (Fin a.m × F)) (g g' : Graph F V G a.n a.m) (hr : Run ops a.graph tr g)
    (tol : G) (maxIter : Nat) (hn : a.n ≠ 1) (hp : processGraph ops tol maxIter g = .ok g')
    (hstop : g'.passed < g.passed + maxIter * a.m) :
    ∃ tr', Run ops a.graph tr' g' ∧ ∀ q, ∃ msg,
      makeMessage ops (g'.cl (a.graph.path q).snd) (g'.cl (a.graph.path q).rcv).id = .ok msg ∧
      match lastMsg tr' q with
      | none => ∃ d, ops.distVacuous msg.factor = .ok d ∧ d ≤ tol
      | some old => (∃ d, ops.kl old msg.factor = .ok d ∧ d ≤ tol) ∨ (old = msg.factor ∧ 0 ≤ tol) := by
  obtain ⟨w, _, _⟩ := wired_new h
  obtain ⟨tr', h1, h2, h3, h4, h5⟩ := Greedy.process w hn hr hp
  have hrun := h1.run hr
  have inv := hrun.inv w
  refine ⟨_, hrun, fun q => ⟨(g'.path q).next, ?_, ?_⟩⟩
  · rw [inv.id]; exact inv.next q
  · have hle := h5 (by omega) q
    rw [← inv.prev q]
    have hg := inv.gain q
    cases hprev : (g'.path q).prev with
    | none =>
      rw [hprev] at hg
      rcases hg with hg | hg
      · exact ⟨_, hg, hle⟩
      · cases hg.2
    | some old =>
      rw [hprev] at hg
      rcases hg with hg | ⟨h0, hg⟩
      · exact Or.inl ⟨_, hg, hle⟩
      · simp only [Option.some.injEq] at hg
        exact Or.inr ⟨by rw [hg], h0 ▸ hle⟩

/-- **C49.** Every message that `process_graph` passes has the largest information gain among all paths at
the moment it is passed. -/
theorem C49_greedy (hs : HashSeed) (ops : Ops F V G) (factors : List F) (evidence : Option (Dict Var V))
    (special : Dict Var V) (a : Any F V G) (h : new hs ops factors evidence special = .ok a)
    (tr : List (Fin a.m × F)) (g g' : Graph F V G a.n a.m) (hr : Run ops a.graph tr g)
    (tol : G) (maxIter : Nat) (hn : a.n ≠ 1) (hp : processGraph ops tol maxIter g = .ok g') :
    ∃ tr', Greedy ops g tr' g' ∧ g'.passed = g.passed + tr'.length := by
  obtain ⟨tr', h1, _, h3, _⟩ := Greedy.process (wired_new h).1 hn hr hp
  exact ⟨tr', h1, h3⟩

omit [LinearOrder G] in
/-- **C49**, no stale gains: at any moment the recorded gain of a path is the divergence of the message its
sender would send now from the one last sent, or 0 if these are the same message. -/
theorem C49_gain_fresh (hs : HashSeed) (ops : Ops F V G) (factors : List F)
    (evidence : Option (Dict Var V)) (special : Dict Var V) (a : Any F V G)
    (h : new hs ops factors evidence special = .ok a)
    (tr : List (Fin a.m × F)) (g : Graph F V G a.n a.m) (hr : Run ops a.graph tr g) (q : Fin a.m) :
    ∃ msg, makeMessage ops (g.cl (g.path q).snd) (g.cl (g.path q).rcv).id = .ok msg ∧
      match lastMsg tr q with
      | none => ops.distVacuous msg.factor = .ok (g.path q).gain
      | some old => ops.kl old msg.factor = .ok (g.path q).gain ∨
          (old = msg.factor ∧ (g.path q).gain = 0) := by
  have inv := hr.inv (wired_new h).1
  refine ⟨(g.path q).next, ?_, ?_⟩
  · rw [inv.id, inv.snd, inv.rcv]; exact inv.next q
  · rw [← inv.prev q]
    have hg := inv.gain q
    cases hprev : (g.path q).prev with
    | none =>
      rw [hprev] at hg
      rcases hg with hg | hg
      · exact hg
      · cases hg.2
    | some old =>
      rw [hprev] at hg
      rcases hg with hg | ⟨h0, hg⟩
      · exact Or.inl hg
      · simp only [Option.some.injEq] at hg
        exact Or.inr ⟨by rw [hg], h0⟩

omit [LinearOrder G] [Zero G] in
/-- **C53.** `get_marginal` raises `ValueError` if no cluster scope contains the requested variables.
Otherwise it is answered by the first cluster whose scope does: its factor, with the special evidence
about it observed, is marginalised onto the requested variables. -/
theorem C53_get_marginal (ops : Ops F V G) (n m : Nat) (g : Graph F V G n m) (vrs : List Var) :
    ((∀ i, ∃ v ∈ vrs, v ∉ scope ops g i) ∧ getMarginal ops g vrs = .error .valueError) ∨
    ∃ i, (∀ v ∈ vrs, v ∈ scope ops g i) ∧ (∀ j < i, ∃ v ∈ vrs, v ∉ scope ops g j) ∧
      getMarginal ops g vrs = (observe ops g.special (g.cl i).factor >>= fun f => ops.marginalize f vrs) := by
  unfold getMarginal
  split
  · rename_i hf
    left
    rw [List.find?_eq_none] at hf
    refine ⟨fun i => ?_, rfl⟩
    have := hf i (List.mem_finRange i)
    simpa [scope] using this
  · rename_i i hf
    right
    rw [List.find?_eq_some_iff_getElem] at hf
    obtain ⟨hp, k, hk, hki, hlt⟩ := hf
    refine ⟨i, by simpa [scope] using hp, fun j hj => ?_, rfl⟩
    have hik : (i : Nat) = k := by rw [← hki]; simp
    have := hlt j (by omega)
    simpa [scope] using this

omit [LinearOrder G] [Zero G] in
/-- **C55.** `receive_message` rejects with `AssertionError` every message that is addressed to another
cluster. -/
theorem C55_reject (ops : Ops F V G) (c : Cl F V) (msg : Msg F) (h : msg.rcv ≠ c.id) :
    receive ops c msg = .error .assertionError := by
  unfold receive
  have : pyAssert (msg.rcv == c.id) = .error .assertionError := by
    unfold pyAssert
    simp [h]
  rw [this]; rfl

omit [LinearOrder G] [Zero G] in
/-- **C55.** A message addressed to the cluster passes that check: what happens is exactly the
multiplication and cancelling. -/
theorem C55_accept (ops : Ops F V G) (c : Cl F V) (msg : Msg F) (h : msg.rcv = c.id) :
    receive ops c msg = (do
      let p ← ops.multiply c.factor msg.factor
      let f ← cancelReceived ops c msg.snd p
      .ok { c with factor := f, received := Dict.set c.received msg.snd msg.factor }) := by
  unfold receive
  have : pyAssert (msg.rcv == c.id) = .ok () := by
    rw [pyAssert_eq_ok]
    simp [h]
  rw [this]; rfl

omit [LinearOrder G] in
/-- **C55.** At any moment the next message of every path carries the ids of the path's two clusters, so
message passing never triggers the assertion; and it is delivered to the path's receiver only. -/
theorem C55_delivery (hs : HashSeed) (ops : Ops F V G) (factors : List F)
    (evidence : Option (Dict Var V)) (special : Dict Var V) (a : Any F V G)
    (h : new hs ops factors evidence special = .ok a)
    (tr : List (Fin a.m × F)) (g : Graph F V G a.n a.m) (hr : Run ops a.graph tr g) (q : Fin a.m) :
    (g.path q).next.rcv = (g.cl (g.path q).rcv).id ∧ (g.path q).next.snd = (g.cl (g.path q).snd).id ∧
    ∀ g', pass ops g q = .ok g' → ∀ i, i ≠ (g.path q).rcv → g'.cl i = g.cl i := by
  have w := (wired_new h).1
  have inv := hr.inv w
  obtain ⟨h1, h2⟩ := makeMessage_ids (inv.next q)
  refine ⟨?_, ?_, fun g' hp i hi => ?_⟩
  · rw [h2, inv.id, inv.rcv]
  · rw [h1, inv.id, inv.id, inv.snd]
  · obtain ⟨c, _, e1, _⟩ := pass_ok (fun i => by rw [inv.out]; exact w.outNodup i) hp
    rw [e1, Function.update_of_ne hi]

end Verif.CG
