import Verif.ClusterLoopExample

/-!
# The plotted information gains (C129)

`plot_next_messages_info_gain` draws one curve per message path.
-/

namespace Verif.CG
open Spec (override Asg)

variable {F V G : Type} {n m : Nat}

/-- The curves of `plot_next_messages_info_gain` (cluster_graph.py 258-264): for every path, in the present order of
`graph_message_paths` (which `process_graph` sorts), its `information_gains_with_iters`. Matplotlib draws the `k`-th value at
abscissa `k`; the axis is labelled "iteration" (cluster_graph.py 266). -/
def gainCurves (g : Graph F V G n m) : List (List G) := g.queue.map fun q => (g.path q).gains

/-- The legend of `plot_next_messages_info_gain` (cluster_graph.py 268-273). -/
def gainLegend (g : Graph F V G n m) : List String :=
  g.queue.map fun q => (g.cl (g.path q).snd).id ++ "->" ++ (g.cl (g.path q).rcv).id

/-- The message along `e` concerns the path `q` if it is sent along `q` or arrives at the cluster where `q` begins. -/
def Concerns (g : Graph F V G n m) (q e : Fin m) : Prop := e = q ∨ (g.path e).rcv = (g.path q).snd

/-- `Curve g tr q l` : `l` is the list of values that the information gain of `q` took during the execution with history
`tr` from a fresh graph to `g`: the initial value, and one value for each message that concerned `q`. -/
inductive Curve [Zero G] (ops : Ops F V G) (g0 : Graph F V G n m) (q : Fin m) :
    List (Fin m × F) → Graph F V G n m → List G → Prop
  | start : Curve ops g0 q [] g0 [(g0.path q).gain]
  | hit {tr g g' l} (e : Fin m) : Curve ops g0 q tr g l → pass ops g e = .ok g' → Concerns g0 q e →
      Curve ops g0 q (tr ++ [(e, (g.path e).next.factor)]) g' (l ++ [(g'.path q).gain])
  | miss {tr g g' l} (e : Fin m) : Curve ops g0 q tr g l → pass ops g e = .ok g' → ¬ Concerns g0 q e →
      (g'.path q).gain = (g.path q).gain → Curve ops g0 q (tr ++ [(e, (g.path e).next.factor)]) g' l
  | admin {tr g g' l} : Curve ops g0 q tr g l → SameCore g g' → Curve ops g0 q tr g' l

theorem recompute_gains {ops : Ops F V G} {cl : Fin n → Cl F V} {p p' : Path n F G}
    (h : recompute ops cl p = .ok p') : p'.gains = p.gains ++ [p'.gain] := by
  unfold recompute at h
  obtain ⟨m, h1, h⟩ := py_bind_eq_ok.1 h
  obtain ⟨g, h2, h⟩ := py_bind_eq_ok.1 h
  simp only [Except.ok.injEq] at h
  subst h
  rfl

theorem pass_gains_self [Zero G] {ops : Ops F V G} {g g' : Graph F V G n m} {q : Fin m}
    (hout : ∀ i, (g.out i).Nodup) (hq : q ∉ g.out (g.path q).rcv) (h : pass ops g q = .ok g') :
    (g'.path q).gains = (g.path q).gains ++ [0] := by
  unfold pass at h
  obtain ⟨c, hc, h⟩ := py_bind_eq_ok.1 h
  obtain ⟨e1, e2, e3, e4, e5, e6, e7, e8⟩ := recomputeAll_ok (hout _) h
  dsimp only at e7
  rw [e7 q hq, Function.update_self]

/-- What one message does to the curves. -/
theorem pass_gains [Zero G] {ops : Ops F V G} {evVars : List Var} {g0 g g' : Graph F V G n m}
    {tr : List (Fin m × F)} (w : Wired ops evVars g0) (inv : RunInv ops g0 tr g) {e : Fin m}
    (h : pass ops g e = .ok g') (q : Fin m) :
    (Concerns g0 q e → (g'.path q).gains = (g.path q).gains ++ [(g'.path q).gain]) ∧
    (¬ Concerns g0 q e → (g'.path q).gains = (g.path q).gains ∧ (g'.path q).gain = (g.path q).gain) ∧
    (e = q → (g'.path q).gain = 0) := by
  have hout : ∀ i, (g.out i).Nodup := fun i => by rw [inv.out]; exact w.outNodup i
  have mem_out : ∀ i r, r ∈ g.out i ↔ (g0.path r).snd = i := fun i r => by rw [inv.out]; exact w.out i r
  have he : e ∉ g.out (g.path e).rcv := by rw [mem_out, inv.rcv]; exact w.ne e
  obtain ⟨c, hc, e1, e2, e3, e4, _, _, e7, e8, e9⟩ := pass_ok hout h
  obtain ⟨_, _, _, _, q5⟩ := e8 he
  refine ⟨?_, ?_, ?_⟩
  · intro hcon
    by_cases heq : e = q
    · subst heq
      rw [pass_gains_self hout he h, q5]
    · have hq : q ∈ g.out (g.path e).rcv := by
        rw [mem_out, inv.rcv]
        exact (hcon.resolve_left heq).symm
      exact recompute_gains (e9 q hq (Ne.symm heq))
  · intro hcon
    unfold Concerns at hcon
    push Not at hcon
    have hq : q ∉ g.out (g.path e).rcv := by
      rw [mem_out, inv.rcv]
      exact fun h => hcon.2 h.symm
    rw [e7 q hq (Ne.symm hcon.1)]
    exact ⟨rfl, rfl⟩
  · rintro rfl
    exact q5

/-- The recorded curve is the list of values taken. -/
theorem Run.curve [Zero G] {ops : Ops F V G} {evVars : List Var} {g0 g : Graph F V G n m}
    {tr : List (Fin m × F)} (w : Wired ops evVars g0) (h0 : ∀ q, (g0.path q).gains = [(g0.path q).gain])
    (hr : Run ops g0 tr g) (q : Fin m) : Curve ops g0 q tr g (g.path q).gains := by
  induction hr with
  | start => rw [h0]; exact .start
  | pass e hr h ih =>
    obtain ⟨k1, k2, _⟩ := pass_gains w (hr.inv w) h q
    by_cases hc : Concerns g0 q e
    · rw [k1 hc]; exact .hit e ih h hc
    · rw [(k2 hc).1]; exact .miss e ih h hc (k2 hc).2
  | admin hr hs ih => rw [hs.2.2.1]; exact .admin ih hs

theorem Curve.shape [Zero G] {ops : Ops F V G} {g0 g : Graph F V G n m} {q : Fin m} {tr : List (Fin m × F)} {l : List G}
    [DecidablePred fun e : Fin m × F => Concerns g0 q e.1] (h : Curve ops g0 q tr g l) :
    l.head? = some (g0.path q).gain ∧ l.getLast? = some (g.path q).gain ∧
    l.length = (tr.filter fun e => Concerns g0 q e.1).length + 1 := by
  induction h with
  | start => simp
  | hit e _ h hc ih =>
    obtain ⟨i1, i2, i3⟩ := ih
    refine ⟨?_, by simp, ?_⟩
    · rw [List.head?_append, i1]; rfl
    · rw [List.filter_append, List.length_append, List.length_append, i3]
      simp [hc]
  | miss e _ h hc hg ih =>
    obtain ⟨i1, i2, i3⟩ := ih
    refine ⟨i1, by rw [i2, hg], ?_⟩
    rw [List.filter_append, List.length_append, i3]
    simp [hc]
  | admin _ hs ih =>
    obtain ⟨i1, i2, i3⟩ := ih
    exact ⟨i1, by rw [i2, hs.2.2.1], i3⟩

end Verif.CG
