import Verif.ClusterGains

/-!
# The plotted information gains (C129): theorems
-/

namespace Verif.CG
open Spec (override Asg)
open Classical

variable {F V G : Type} {n m : Nat}

theorem new_gains {hs : HashSeed} {ops : Ops F V G} {factors : List F} {evidence : Option (Dict Var V)}
    {special : Dict Var V} {a : Any F V G} (h : new hs ops factors evidence special = .ok a) (q : Fin a.m) :
    (a.graph.path q).gains = [(a.graph.path q).gain] ∧
    ops.distVacuous (a.graph.path q).next.factor = .ok (a.graph.path q).gain := by
  obtain ⟨w, _, _⟩ := wired_new h
  refine ⟨?_, w.gain q⟩
  obtain ⟨fs, _, b, inv, hid, rfl⟩ := new_inv h
  exact (inv.path _ (List.getElem_mem _)).2.2.2

/-- **C129.** For every class of factors, every graph that can be built and every order of passing messages: there is one
curve per path, drawn in some order, with the names of the sender and the receiver of the path at the same place in the
legend. It begins with the distance from vacuous of the first message of the path, records the new information gain
at each message that is sent along the path or arrives at its sender (0 in the first case), nothing at other messages (which
leave the gain as it is), and ends with the gain that is current. -/
theorem C129_curves [Zero G] (hs : HashSeed) (ops : Ops F V G) (factors : List F) (evidence : Option (Dict Var V))
    (special : Dict Var V) (a : Any F V G) (h : new hs ops factors evidence special = .ok a)
    (tr : List (Fin a.m × F)) (g : Graph F V G a.n a.m) (hr : Run ops a.graph tr g) :
    ∃ (order : List (Fin a.m)) (curve : Fin a.m → List G), order.Perm (List.finRange a.m) ∧
      gainCurves g = order.map curve ∧
      gainLegend g = order.map (fun q =>
        (a.graph.cl (a.graph.path q).snd).id ++ "->" ++ (a.graph.cl (a.graph.path q).rcv).id) ∧
      ∀ q, Curve ops a.graph q tr g (curve q) ∧
        (∃ d, ops.distVacuous (a.graph.path q).next.factor = .ok d ∧ (curve q).head? = some d) ∧
        (curve q).getLast? = some (g.path q).gain ∧
        (curve q).length = (tr.filter fun e => Concerns a.graph q e.1).length + 1 ∧
        ∀ g', pass ops g q = .ok g' → (g'.path q).gain = 0 := by
  obtain ⟨w, _, _⟩ := wired_new h
  have inv := hr.inv w
  refine ⟨g.queue, fun q => (g.path q).gains, inv.queue, rfl, ?_, fun q => ?_⟩
  · unfold gainLegend
    refine List.map_congr_left fun q _ => ?_
    rw [inv.id, inv.id, inv.snd, inv.rcv]
  · have hc := hr.curve w (fun q => (new_gains h q).1) q
    obtain ⟨s1, s2, s3⟩ := hc.shape
    exact ⟨hc, ⟨_, (new_gains h q).2, s1⟩, s2, s3, fun g' hp => (pass_gains w inv hp q).2.2 rfl⟩

/-- In a graph of at most two clusters every message concerns every path, so that abscissa `k` is the state after `k`
messages. -/
theorem C129_two_clusters [Zero G] (hs : HashSeed) (ops : Ops F V G) (factors : List F) (evidence : Option (Dict Var V))
    (special : Dict Var V) (a : Any F V G) (h : new hs ops factors evidence special = .ok a) (hn : a.n ≤ 2)
    (tr : List (Fin a.m × F)) (g : Graph F V G a.n a.m) (hr : Run ops a.graph tr g) (l : List G)
    (hl : l ∈ gainCurves g) : l.length = tr.length + 1 := by
  obtain ⟨w, _, _⟩ := wired_new h
  obtain ⟨q, -, rfl⟩ := List.mem_map.1 hl
  have hc := hr.curve w (fun q => (new_gains h q).1) q
  rw [hc.shape.2.2]
  congr 2
  rw [List.filter_eq_self]
  intro e _
  have h1 := w.ne e.1
  have h2 := w.ne q
  simp only [decide_eq_true_eq]
  unfold Concerns
  by_cases hh : (a.graph.path e.1).rcv = (a.graph.path q).snd
  · exact .inr hh
  · refine .inl (w.pathInj _ _ ?_ ?_) <;>
      (apply Fin.ext
       have := fun h => h1 (Fin.ext h)
       have := fun h => h2 (Fin.ext h)
       have := fun h => hh (Fin.ext h)
       have := (a.graph.path e.1).rcv.2
       have := (a.graph.path e.1).snd.2
       have := (a.graph.path q).rcv.2
       have := (a.graph.path q).snd.2
       omega)

/-- **C129 violated.** With three or more connected clusters the abscissa is not the iteration: a message that does not
concern a path leaves its curve without a point for that iteration, and the next value of this path is drawn at the abscissa
that belongs to the earlier message. -/
theorem C129_axis_violated [Zero G] (hs : HashSeed) (ops : Ops F V G) (factors : List F) (evidence : Option (Dict Var V))
    (special : Dict Var V) (a : Any F V G) (h : new hs ops factors evidence special = .ok a)
    (e q : Fin a.m) (hq : ¬ Concerns a.graph q e) (g g' : Graph F V G a.n a.m) (h1 : pass ops a.graph e = .ok g)
    (h2 : pass ops g q = .ok g') :
    (g.path q).gains.length = 1 ∧ (g.path e).gains.length = 2 ∧
    (g'.path q).gains[1]? = some 0 ∧ (g'.path e).gains[1]? = some 0 ∧
    [(g'.path q).gains, (g'.path e).gains].Subperm (gainCurves g') := by
  obtain ⟨w, _, _⟩ := wired_new h
  have r1 := Run.start.pass e h1
  have i0 := (Run.start (ops := ops) (g0 := a.graph)).inv w
  have i1 := r1.inv w
  have q1 := ((pass_gains w i0 h1 q).2.1 hq).1
  have e1 := (pass_gains w i0 h1 e).1 (.inl rfl)
  have e1' := (pass_gains w i0 h1 e).2.2 rfl
  have q2 := (pass_gains w i1 h2 q).1 (.inl rfl)
  have q2' := (pass_gains w i1 h2 q).2.2 rfl
  rw [(new_gains h q).1] at q1
  rw [(new_gains h e).1, e1'] at e1
  rw [q1, q2'] at q2
  refine ⟨by rw [q1]; rfl, by rw [e1]; rfl, by rw [q2]; rfl, ?_, ?_⟩
  · by_cases hc : Concerns a.graph e q
    · rw [(pass_gains w i1 h2 e).1 hc, e1]; rfl
    · rw [((pass_gains w i1 h2 e).2.1 hc).1, e1]; rfl
  · have hqe : q ≠ e := fun h => hq (.inl h.symm)
    have hp := ((r1.pass q h2).inv w).queue
    have : [q, e].Subperm g'.queue := by
      refine (List.nodup_cons.2 ⟨by simpa using hqe, List.nodup_singleton _⟩).subperm fun x _ => ?_
      rw [hp.mem_iff]
      exact List.mem_finRange x
    obtain ⟨l, hl, hs'⟩ := this
    exact ⟨l.map fun q => (g'.path q).gains, hl.map _, hs'.map _⟩

/-- In a graph with a cycle some message does not concern some path. -/
theorem exists_not_concerns {ops : Ops F V G} {evVars : List Var} {g0 : Graph F V G n m} (w : Wired ops evVars g0)
    (hc : ¬ (SimpleGraph.fromRel fun i j => ∃ s, sepset g0 i j = some s).IsAcyclic) : ∃ e q, ¬ Concerns g0 q e := by
  unfold SimpleGraph.IsAcyclic at hc
  push Not at hc
  obtain ⟨u, c, hc⟩ := hc
  have hn := hc.not_nil
  have adj : ∀ i j, (SimpleGraph.fromRel fun i j => ∃ s, sepset g0 i j = some s).Adj i j →
      ∃ q, (g0.path q).snd = i ∧ (g0.path q).rcv = j := by
    intro i j hij
    rw [w.pathSep]
    rcases hij.2 with h | h
    · exact h
    · rw [w.sepSymm]; exact h
  obtain ⟨e, he1, he2⟩ := adj _ _ (c.adj_snd hn).symm
  obtain ⟨q, hq1, hq2⟩ := adj _ _ (c.adj_penultimate hn)
  refine ⟨e, q, ?_⟩
  rintro (rfl | h)
  · exact hc.snd_ne_penultimate (he1.symm.trans hq1)
  · rw [he2, hq1] at h
    exact (c.adj_penultimate hn).ne h.symm

/-- Three factors in a triangle: after one message along `e`, the path `q` has no point for it. -/
theorem C129_axis_witness (hs : HashSeed) : ∃ a, new hs (sparseOps hs) tri none [] = .ok a ∧
    ∃ (e q : Fin a.m) (g g' : Graph (Sparse ℝ) Nat EReal a.n a.m), ¬ Concerns a.graph q e ∧
      pass (sparseOps hs) a.graph e = .ok g ∧ pass (sparseOps hs) g q = .ok g' := by
  obtain ⟨a, ha, hc, -⟩ := tri_converged hs
  obtain ⟨w, hsp, _⟩ := wired_new ha
  obtain ⟨e, q, hq⟩ := exists_not_concerns w hc
  obtain ⟨a', ha', hall⟩ := C78_inference_never_fails hs tC tri tri_ok none [] ⟨_, tri_pos⟩
  rw [ha] at ha'
  obtain rfl : a = a' := by simpa using ha'
  obtain ⟨g, h1⟩ := (hall [] a.graph .start).1 e
  obtain ⟨g', h2⟩ := (hall _ g (Run.start.pass e h1)).1 q
  exact ⟨a, ha, e, q, g, g', hq, h1, h2⟩

/-- The hypotheses of `C129_curves` are met by an execution of two messages in this graph. -/
example (hs : HashSeed) : ∃ a, new hs (sparseOps hs) tri none [] = .ok a ∧
    ∃ tr g, Run (sparseOps hs) a.graph tr g ∧ tr.length = 2 := by
  obtain ⟨a, ha, e, q, g, g', -, h1, h2⟩ := C129_axis_witness hs
  exact ⟨a, ha, _, g', (Run.start.pass e h1).pass q h2, by simp⟩

/-- The hypotheses of `C129_two_clusters` are met by the graph of two factors of the examples. -/
example : ∃ a, new HashSeed.example (sparseOps HashSeed.example) [Sparse.exF, Sparse.exG] none [("c", 0)] = .ok a ∧ a.n ≤ 2 := by
  obtain ⟨a, ha⟩ := ex_new [("c", 0)] (.inr rfl)
  exact ⟨a, ha, by simpa using new_le ha⟩

end Verif.CG
