import Verif.ClusterLaws

/-! Executions of a cluster graph: any sequence of message passes, with sorting and bookkeeping in
between. -/

namespace Verif.CG
variable {F V G : Type} {n m : Nat}

/-- A correctly wired graph before any message was passed. -/
structure Wired (ops : Ops F V G) (evVars : List Var) (g : Graph F V G n m) : Prop where
  idInj : Function.Injective fun i => (g.cl i).id
  pathInj : ∀ q r, (g.path q).snd = (g.path r).snd → (g.path q).rcv = (g.path r).rcv → q = r
  pathSep : ∀ i j, (∃ q, (g.path q).snd = i ∧ (g.path q).rcv = j) ↔ ∃ s, sepset g i j = some s
  sepSymm : ∀ i j, sepset g i j = sepset g j i
  sepIrrefl : ∀ i, sepset g i i = none
  sepOk : ∀ i j s, sepset g i j = some s → s.Nodup ∧
    ∀ v ∈ s, v ∈ scope ops g i ∧ v ∈ scope ops g j ∧ v ∉ evVars
  out : ∀ i q, q ∈ g.out i ↔ (g.path q).snd = i
  outNodup : ∀ i, (g.out i).Nodup
  prev : ∀ q, (g.path q).prev = none
  next : ∀ q, makeMessage ops (g.cl (g.path q).snd) (g.cl (g.path q).rcv).id = .ok (g.path q).next
  gain : ∀ q, gainOf ops none (g.path q).next = .ok (g.path q).gain
  received : ∀ i, (g.cl i).received = []
  special : ∀ i, (g.cl i).special = some (subsetEvidence g.special (scope ops g i))
  queue : g.queue.Perm (List.finRange m)
  specialEv : ∀ v ∈ Dict.keys g.special, v ∈ evVars

theorem mem_mkClusters {ops : Ops F V G} {special : Dict Var V} {fs : List F} {c : Cl F V}
    (h : c ∈ mkClusters ops special fs) :
    c.received = [] ∧ c.special = some (subsetEvidence special (ops.vars c.factor)) := by
  unfold mkClusters at h
  obtain ⟨e, _, rfl⟩ := List.mem_map.1 h
  exact ⟨rfl, rfl⟩

theorem wired_new {hs : HashSeed} {ops : Ops F V G} {factors : List F} {evidence : Option (Dict Var V)}
    {special : Dict Var V} {a : Any F V G} (h : new hs ops factors evidence special = .ok a) :
    Wired ops (evidenceVars evidence special) a.graph ∧ a.graph.special = special ∧ a.graph.passed = 0 := by
  have h46 := C46_sepsets hs ops factors evidence special a h
  obtain ⟨fs, _, b, inv, hid, rfl⟩ := new_inv h
  obtain ⟨h1, h2, h3, h4⟩ := path_new (special := special) inv
  dsimp only at *
  refine ⟨⟨?_, h1, h2, h3, h4, ?_, ?_, ?_, ?_, ?_, ?_, ?_, ?_, List.Perm.refl _, ?_⟩, rfl, rfl⟩
  · intro i j hij
    apply hid
    have : (b.cl i).id = (b.cl j).id := hij
    rw [inv.id, inv.id] at this
    exact this
  · intro i j s hs'
    obtain ⟨_, hn, _, _, hv, _⟩ := h46.1 i j s hs'
    exact ⟨hn, fun v hvs => ⟨(hv v hvs).1, (hv v hvs).2.1, fun he => (hv v hvs).2.2 (mem_evidenceVars.1 he)⟩⟩
  · intro i q
    show q ∈ refs _ (b.out i) ↔ (b.paths[q]).snd = i
    rw [mem_refs, inv.out]
    exact ⟨fun ⟨_, h⟩ => h, fun h => ⟨q.2, h⟩⟩
  · intro i; exact nodup_refs (inv.outNodup i)
  · intro q; exact (inv.path _ (List.getElem_mem _)).1
  · intro q
    have := (inv.path _ (List.getElem_mem q.2)).2.1
    show makeMessage ops (b.cl (b.paths[q]).snd) (b.cl (b.paths[q]).rcv).id = _
    rw [inv.id]; exact this
  · intro q; exact (inv.path _ (List.getElem_mem q.2)).2.2.1
  · intro i
    show (b.cl i).received = []
    rw [inv.received]
    exact (mem_mkClusters (List.getElem_mem _)).1
  · intro i
    show (b.cl i).special = some (subsetEvidence special (ops.vars (b.cl i).factor))
    rw [inv.special, inv.factor]
    exact (mem_mkClusters (List.getElem_mem _)).2
  · intro v hv
    rw [mem_evidenceVars]; exact Or.inl hv

/-! ### Executions -/

/-- `g'` differs from `g` only in the order of the queue and the counters. -/
def SameCore (g g' : Graph F V G n m) : Prop :=
  g'.cl = g.cl ∧ g'.out = g.out ∧ g'.path = g.path ∧ g'.special = g.special ∧ g'.queue.Perm g.queue

/-- `Run ops g0 tr g`: passing the messages listed in `tr` (path and message factor, oldest first), with
any reordering of the queue in between, leads from `g0` to `g`. -/
inductive Run [Zero G] (ops : Ops F V G) (g0 : Graph F V G n m) : List (Fin m × F) → Graph F V G n m → Prop
  | start : Run ops g0 [] g0
  | pass {tr g g'} (q : Fin m) : Run ops g0 tr g → pass ops g q = .ok g' →
      Run ops g0 (tr ++ [(q, (g.path q).next.factor)]) g'
  | admin {tr g g'} : Run ops g0 tr g → SameCore g g' → Run ops g0 tr g'

/-- The last message in the history that was passed along `q`. -/
def lastMsg (tr : List (Fin m × F)) (q : Fin m) : Option F :=
  tr.foldl (fun o e => if e.1 = q then some e.2 else o) none

@[simp] theorem lastMsg_nil (q : Fin m) : lastMsg ([] : List (Fin m × F)) q = none := rfl

theorem lastMsg_snoc (tr : List (Fin m × F)) (e : Fin m × F) (q : Fin m) :
    lastMsg (tr ++ [e]) q = if e.1 = q then some e.2 else lastMsg tr q := by
  unfold lastMsg
  rw [List.foldl_append]; rfl

/-- What is true after any execution, for any factor class. -/
structure RunInv [Zero G] (ops : Ops F V G) (g0 : Graph F V G n m) (tr : List (Fin m × F))
    (g : Graph F V G n m) : Prop where
  id : ∀ i, (g.cl i).id = (g0.cl i).id
  sepsets : ∀ i, (g.cl i).sepsets = (g0.cl i).sepsets
  cspecial : ∀ i, (g.cl i).special = (g0.cl i).special
  out : g.out = g0.out
  snd : ∀ q, (g.path q).snd = (g0.path q).snd
  rcv : ∀ q, (g.path q).rcv = (g0.path q).rcv
  special : g.special = g0.special
  received : ∀ q, Dict.get? (g.cl (g0.path q).rcv).received (g0.cl (g0.path q).snd).id = lastMsg tr q
  prev : ∀ q, (g.path q).prev.map (fun msg => msg.factor) = lastMsg tr q
  next : ∀ q, makeMessage ops (g.cl (g0.path q).snd) (g0.cl (g0.path q).rcv).id = .ok (g.path q).next
  queue : g.queue.Perm (List.finRange m)
  gain : ∀ q, gainOf ops (g.path q).prev (g.path q).next = .ok (g.path q).gain ∨
    ((g.path q).gain = 0 ∧ (g.path q).prev = some (g.path q).next)

theorem receive_ok {ops : Ops F V G} {c c' : Cl F V} {msg : Msg F} (h : receive ops c msg = .ok c') :
    msg.rcv = c.id ∧ ∃ p f, ops.multiply c.factor msg.factor = .ok p ∧
      cancelReceived ops c msg.snd p = .ok f ∧
      c' = { c with factor := f, received := Dict.set c.received msg.snd msg.factor } := by
  unfold receive at h
  obtain ⟨_, h0, h⟩ := py_bind_eq_ok.1 h
  obtain ⟨p, h1, h⟩ := py_bind_eq_ok.1 h
  obtain ⟨f, h2, h⟩ := py_bind_eq_ok.1 h
  simp only [Except.ok.injEq] at h
  rw [pyAssert_eq_ok, beq_iff_eq] at h0
  exact ⟨h0, p, f, h1, h2, h.symm⟩

theorem recompute_ok {ops : Ops F V G} {cl : Fin n → Cl F V} {p p' : Path n F G}
    (h : recompute ops cl p = .ok p') : p'.snd = p.snd ∧ p'.rcv = p.rcv ∧ p'.prev = p.prev ∧
      makeMessage ops (cl p.snd) (cl p.rcv).id = .ok p'.next ∧
      gainOf ops p.prev p'.next = .ok p'.gain := by
  unfold recompute at h
  obtain ⟨m, h1, h⟩ := py_bind_eq_ok.1 h
  obtain ⟨g, h2, h⟩ := py_bind_eq_ok.1 h
  simp only [Except.ok.injEq] at h
  subst h
  exact ⟨rfl, rfl, rfl, h1, h2⟩

/-- Recomputing the outward paths changes only those paths. -/
theorem recomputeAll_ok {ops : Ops F V G} {l : List (Fin m)} (hl : l.Nodup) {g g' : Graph F V G n m}
    (h : l.foldlM (fun (h : Graph F V G n m) r => do
      let p ← recompute ops h.cl (h.path r)
      .ok { h with path := Function.update h.path r p }) g = .ok g') :
    g'.cl = g.cl ∧ g'.out = g.out ∧ g'.special = g.special ∧ g'.queue = g.queue ∧ g'.passed = g.passed ∧
    g'.dists = g.dists ∧ (∀ r, r ∉ l → g'.path r = g.path r) ∧
    (∀ r ∈ l, recompute ops g.cl (g.path r) = .ok (g'.path r)) := by
  induction l generalizing g with
  | nil =>
    have : g = g' := by simpa [pure, Except.pure] using h
    subst this
    simp
  | cons a l ih =>
    rw [List.foldlM_cons] at h
    obtain ⟨g1, h1, h⟩ := py_bind_eq_ok.1 h
    obtain ⟨p, hp, h1⟩ := py_bind_eq_ok.1 h1
    simp only [Except.ok.injEq] at h1
    rw [List.nodup_cons] at hl
    obtain ⟨e1, e2, e3, e4, e5, e6, e7, e8⟩ := ih hl.2 h
    subst h1
    refine ⟨e1, e2, e3, e4, e5, e6, fun r hr => ?_, fun r hr => ?_⟩
    · simp only [List.mem_cons, not_or] at hr
      rw [e7 r hr.2]
      exact Function.update_of_ne hr.1 p g.path
    · rcases List.mem_cons.1 hr with rfl | hr
      · rw [e7 r hl.1, hp]
        exact congrArg Except.ok (Function.update_self r p g.path).symm
      · have := e8 r hr
        have hra : r ≠ a := fun h => hl.1 (h ▸ hr)
        rw [← this]
        exact congrArg (recompute ops g.cl) (Function.update_of_ne hra p g.path).symm

/-- The effect of passing one message. -/
theorem pass_ok [Zero G] {ops : Ops F V G} {g g' : Graph F V G n m} {q : Fin m}
    (hout : ∀ i, (g.out i).Nodup) (h : pass ops g q = .ok g') :
    ∃ c, receive ops (g.cl (g.path q).rcv) (g.path q).next = .ok c ∧
      g'.cl = Function.update g.cl (g.path q).rcv c ∧ g'.out = g.out ∧ g'.special = g.special ∧
      g'.queue = g.queue ∧ g'.passed = g.passed ∧ g'.dists = g.dists ∧
      (∀ r, r ∉ g.out (g.path q).rcv → r ≠ q → g'.path r = g.path r) ∧
      (q ∉ g.out (g.path q).rcv → (g'.path q).snd = (g.path q).snd ∧ (g'.path q).rcv = (g.path q).rcv ∧
        (g'.path q).prev = some (g.path q).next ∧ (g'.path q).next = (g.path q).next ∧ (g'.path q).gain = 0) ∧
      (∀ r ∈ g.out (g.path q).rcv, r ≠ q → recompute ops g'.cl (g.path r) = .ok (g'.path r)) := by
  unfold pass at h
  obtain ⟨c, hc, h⟩ := py_bind_eq_ok.1 h
  obtain ⟨e1, e2, e3, e4, e5, e6, e7, e8⟩ := recomputeAll_ok (hout _) h
  dsimp only at e1 e2 e3 e4 e5 e6 e7 e8
  refine ⟨c, hc, e1, e2, e3, e4, e5, e6, fun r hr hrq => ?_, fun hq => ?_, fun r hr hrq => ?_⟩
  · rw [e7 r hr, Function.update_of_ne hrq]
  · rw [e7 q hq, Function.update_self]; exact ⟨rfl, rfl, rfl, rfl, rfl⟩
  · rw [e1, ← e8 r hr, Function.update_of_ne hrq]

theorem RunInv.start [Zero G] {ops : Ops F V G} {evVars : List Var} {g0 : Graph F V G n m}
    (w : Wired ops evVars g0) : RunInv ops g0 [] g0 := by
  refine ⟨fun _ => rfl, fun _ => rfl, fun _ => rfl, rfl, fun _ => rfl, fun _ => rfl, rfl, fun q => ?_,
    fun q => ?_, w.next, w.queue, fun q => ?_⟩
  · rw [w.received]; rfl
  · rw [w.prev]; rfl
  · left; rw [w.prev]; exact w.gain q

theorem Wired.ne {ops : Ops F V G} {evVars : List Var} {g0 : Graph F V G n m} (w : Wired ops evVars g0)
    (q : Fin m) : (g0.path q).snd ≠ (g0.path q).rcv := by
  intro h
  obtain ⟨s, hs⟩ := (w.pathSep _ _).1 ⟨q, rfl, rfl⟩
  rw [h, w.sepIrrefl] at hs
  cases hs

theorem RunInv.pass [Zero G] {ops : Ops F V G} {evVars : List Var} {g0 g g' : Graph F V G n m}
    {tr : List (Fin m × F)} (w : Wired ops evVars g0) (inv : RunInv ops g0 tr g) {q : Fin m}
    (h : pass ops g q = .ok g') : RunInv ops g0 (tr ++ [(q, (g.path q).next.factor)]) g' := by
  have hout : ∀ i, (g.out i).Nodup := fun i => by rw [inv.out]; exact w.outNodup i
  obtain ⟨c, hc, e1, e2, e3, e4, _, _, e7, e8, e9⟩ := pass_ok hout h
  obtain ⟨hrcv, p, f, hp, hf, hc'⟩ := receive_ok hc
  rw [inv.rcv] at *
  have hids := makeMessage_ids (inv.next q)
  have mem_out : ∀ i r, r ∈ g.out i ↔ (g0.path r).snd = i := fun i r => by rw [inv.out]; exact w.out i r
  have hqne := w.ne q
  have hq_out : q ∉ g.out (g0.path q).rcv := by rw [mem_out]; exact hqne
  obtain ⟨q1, q2, q3, q4, q5⟩ := e8 hq_out
  have cl_of_ne : ∀ i, i ≠ (g0.path q).rcv → g'.cl i = g.cl i := fun i hi => by
    rw [e1, Function.update_of_ne hi]
  have cl_rcv : g'.cl (g0.path q).rcv = c := by rw [e1, Function.update_self]
  have hid : ∀ i, (g'.cl i).id = (g0.cl i).id := by
    intro i
    by_cases hi : i = (g0.path q).rcv
    · rw [hi, cl_rcv, hc']; exact inv.id _
    · rw [cl_of_ne i hi]; exact inv.id i
  have hsend : (g.path q).next.snd = (g0.cl (g0.path q).snd).id := by rw [hids.1]; exact inv.id _
  have ends : ∀ r, (g'.path r).snd = (g0.path r).snd ∧ (g'.path r).rcv = (g0.path r).rcv ∧
      (r ≠ q → (g'.path r).prev = (g.path r).prev) := by
    intro r
    by_cases hr : r = q
    · subst hr
      exact ⟨q1.trans (inv.snd r), q2, fun h => absurd rfl h⟩
    · by_cases hro : r ∈ g.out (g0.path q).rcv
      · obtain ⟨a1, a2, a3, _⟩ := recompute_ok (e9 r hro hr)
        exact ⟨a1.trans (inv.snd r), a2.trans (inv.rcv r), fun _ => a3⟩
      · rw [e7 r hro hr]; exact ⟨inv.snd r, inv.rcv r, fun _ => rfl⟩
  refine ⟨hid, ?_, ?_, e2.trans inv.out, fun r => (ends r).1, fun r => (ends r).2.1,
    e3.trans inv.special, ?_, ?_, ?_, e4 ▸ inv.queue, ?_⟩
  · intro i
    by_cases hi : i = (g0.path q).rcv
    · rw [hi, cl_rcv, hc']; exact inv.sepsets _
    · rw [cl_of_ne i hi]; exact inv.sepsets i
  · intro i
    by_cases hi : i = (g0.path q).rcv
    · rw [hi, cl_rcv, hc']; exact inv.cspecial _
    · rw [cl_of_ne i hi]; exact inv.cspecial i
  · intro r
    rw [lastMsg_snoc]
    dsimp only
    by_cases hi : (g0.path r).rcv = (g0.path q).rcv
    · rw [hi, cl_rcv, hc']
      dsimp only
      rw [Dict.get?_set, hsend]
      by_cases hr : q = r
      · subst hr; simp
      · have : (g0.cl (g0.path q).snd).id ≠ (g0.cl (g0.path r).snd).id := by
          intro he
          exact hr (w.pathInj q r (w.idInj he) hi.symm)
        rw [if_neg this, if_neg hr, ← hi]
        exact inv.received r
    · rw [cl_of_ne _ hi, if_neg (fun h : q = r => hi (by rw [h]))]
      exact inv.received r
  · intro r
    rw [lastMsg_snoc]
    dsimp only
    by_cases hr : q = r
    · subst hr; rw [q3, if_pos rfl]; rfl
    · rw [if_neg hr, (ends r).2.2 (Ne.symm hr)]; exact inv.prev r
  · intro r
    by_cases hr : r = q
    · subst hr
      rw [q4, cl_of_ne _ hqne]; exact inv.next r
    · by_cases hro : r ∈ g.out (g0.path q).rcv
      · obtain ⟨_, _, _, a4, _⟩ := recompute_ok (e9 r hro hr)
        rw [inv.snd, inv.rcv, hid] at a4
        exact a4
      · rw [e7 r hro hr, cl_of_ne _ (fun h => hro ((mem_out _ _).2 h))]; exact inv.next r
  · intro r
    by_cases hr : r = q
    · subst hr
      exact Or.inr ⟨q5, by rw [q3, q4]⟩
    · by_cases hro : r ∈ g.out (g0.path q).rcv
      · obtain ⟨_, _, a3, _, a5⟩ := recompute_ok (e9 r hro hr)
        left; rw [a3]; exact a5
      · rw [e7 r hro hr]; exact inv.gain r

theorem RunInv.admin [Zero G] {ops : Ops F V G} {g0 g g' : Graph F V G n m}
    {tr : List (Fin m × F)} (inv : RunInv ops g0 tr g) (h : SameCore g g') : RunInv ops g0 tr g' := by
  obtain ⟨h1, h2, h3, h4, h5⟩ := h
  refine ⟨?_, ?_, ?_, ?_, ?_, ?_, ?_, ?_, ?_, ?_, h5.trans inv.queue, ?_⟩
  · rw [h1]; exact inv.id
  · rw [h1]; exact inv.sepsets
  · rw [h1]; exact inv.cspecial
  · rw [h2]; exact inv.out
  · rw [h3]; exact inv.snd
  · rw [h3]; exact inv.rcv
  · rw [h4]; exact inv.special
  · rw [h1]; exact inv.received
  · rw [h3]; exact inv.prev
  · rw [h1, h3]; exact inv.next
  · rw [h3]; exact inv.gain

theorem Run.inv [Zero G] {ops : Ops F V G} {evVars : List Var} {g0 g : Graph F V G n m}
    {tr : List (Fin m × F)} (w : Wired ops evVars g0) (h : Run ops g0 tr g) : RunInv ops g0 tr g := by
  induction h with
  | start => exact RunInv.start w
  | pass q _ hp ih => exact ih.pass w hp
  | admin _ hs ih => exact ih.admin hs

/-! ### `process_graph` is an execution -/

section
variable [LinearOrder G] [Zero G]

theorem iteration_ok {ops : Ops F V G} {tol : G} {g g' : Graph F V G n m} {stop : Bool}
    (h : iteration ops tol g = .ok (g', stop)) :
    ∃ q, g.queue[0]? = some q ∧ ∃ g1, pass ops g q = .ok g1 ∧
    ∃ q', (sortQueue { g1 with passed := g1.passed + 1 }).queue[0]? = some q' ∧
      stop = decide ((g1.path q').gain ≤ tol) ∧
      g' = { sortQueue { g1 with passed := g1.passed + 1 } with dists := g1.dists ++ [(g1.path q').gain] } := by
  unfold iteration at h
  obtain ⟨q, hq, h⟩ := py_bind_eq_ok.1 h
  obtain ⟨g1, hg1, h⟩ := py_bind_eq_ok.1 h
  obtain ⟨q', hq', h⟩ := py_bind_eq_ok.1 h
  simp only [Except.ok.injEq, Prod.mk.injEq] at h
  have hget : ∀ {l : List (Fin m)} {a}, pyGet l 0 = .ok a → l[0]? = some a := by
    intro l a ha
    unfold pyGet at ha
    split at ha
    · simp only [Except.ok.injEq] at ha; subst ha; assumption
    · cases ha
  exact ⟨q, hget hq, g1, hg1, q', hget hq', h.2.symm, h.1.symm⟩

omit [Zero G] in
theorem sortQueue_perm (g : Graph F V G n m) : (sortQueue g).queue.Perm g.queue := List.mergeSort_perm ..

/-- The queue is in order of decreasing gain. -/
def Sorted (g : Graph F V G n m) : Prop := g.queue.Pairwise fun a b => (g.path b).gain ≤ (g.path a).gain

omit [Zero G] in
theorem sorted_sortQueue (g : Graph F V G n m) : Sorted (sortQueue g) := by
  have := List.pairwise_mergeSort (le := fun a b => decide ((g.path b).gain ≤ (g.path a).gain))
    (fun a b c h1 h2 => by simp only [decide_eq_true_eq] at *; exact h2.trans h1)
    (fun a b => by simp only [Bool.or_eq_true, decide_eq_true_eq]; exact le_total _ _) g.queue
  refine List.Pairwise.imp ?_ this
  intro a b h
  exact of_decide_eq_true h

omit [Zero G] in
/-- The head of a sorted complete queue has the largest gain. -/
theorem Sorted.max {g : Graph F V G n m} (hs : Sorted g) (hq : g.queue.Perm (List.finRange m)) {q : Fin m}
    (h : g.queue[0]? = some q) (r : Fin m) : (g.path r).gain ≤ (g.path q).gain := by
  have hr : r ∈ g.queue := hq.mem_iff.2 (List.mem_finRange r)
  unfold Sorted at hs
  cases hl : g.queue with
  | nil => rw [hl] at h; simp at h
  | cons a l =>
    rw [hl] at h hr hs
    simp only [List.getElem?_cons_zero, Option.some.injEq] at h
    subst h
    rcases List.mem_cons.1 hr with rfl | hr
    · exact le_refl _
    · exact (List.pairwise_cons.1 hs).1 r hr

/-- An execution in which every message passed has the largest gain of all paths at that moment. -/
inductive Greedy (ops : Ops F V G) (g0 : Graph F V G n m) : List (Fin m × F) → Graph F V G n m → Prop
  | start : Greedy ops g0 [] g0
  | pass {tr g g'} (q : Fin m) : Greedy ops g0 tr g → (∀ r, (g.path r).gain ≤ (g.path q).gain) →
      pass ops g q = .ok g' → Greedy ops g0 (tr ++ [(q, (g.path q).next.factor)]) g'
  | admin {tr g g'} : Greedy ops g0 tr g → SameCore g g' → Greedy ops g0 tr g'

theorem Greedy.run {ops : Ops F V G} {g0 g g' : Graph F V G n m} {tr tr' : List (Fin m × F)}
    (hr : Run ops g0 tr g) (h : Greedy ops g tr' g') : Run ops g0 (tr ++ tr') g' := by
  induction h with
  | start => simpa using hr
  | pass q _ _ hp ih => rw [← List.append_assoc]; exact Run.pass q ih hp
  | admin _ hs ih => exact Run.admin ih hs

/-- The loop of `process_graph`, from a sorted queue. -/
theorem Greedy.loop {ops : Ops F V G} {tol : G} {evVars : List Var} {g0 : Graph F V G n m}
    (w : Wired ops evVars g0) {trg : List (Fin m × F)} {gs : Graph F V G n m} (hrun : Run ops g0 trg gs)
    {k : Nat} {g g' : Graph F V G n m} {tr : List (Fin m × F)} (hr : Greedy ops gs tr g) (hsort : Sorted g)
    (h : loop ops tol k g = .ok g') :
    ∃ tr', Greedy ops gs (tr ++ tr') g' ∧ tr'.length ≤ k ∧ g'.passed = g.passed + tr'.length ∧
      g'.dists.length = g.dists.length + tr'.length ∧
      (tr'.length < k → ∀ q, (g'.path q).gain ≤ tol) := by
  induction k generalizing g tr with
  | zero =>
    simp only [CG.loop, Except.ok.injEq] at h
    subst h
    exact ⟨[], by simpa using hr, by simp, by simp, by simp, by simp⟩
  | succ k ih =>
    unfold CG.loop at h
    obtain ⟨⟨g1, stop⟩, h1, h⟩ := py_bind_eq_ok.1 h
    obtain ⟨q, hq, gp, hp, q', hq', hstop, hg1⟩ := iteration_ok h1
    have inv := (hr.run hrun).inv w
    have hmax := hsort.max inv.queue hq
    have hout : ∀ i, (g.out i).Nodup := fun i => by rw [inv.out]; exact w.outNodup i
    obtain ⟨_, _, _, _, _, e4, e5, e6, _⟩ := pass_ok hout hp
    have hgp := Greedy.pass q hr hmax hp
    have hg1' : Greedy ops gs (tr ++ [(q, (g.path q).next.factor)]) g1 := by
      refine hgp.admin ?_
      rw [hg1]
      exact ⟨rfl, rfl, rfl, rfl, sortQueue_perm _⟩
    have hs1 : Sorted g1 := by
      rw [hg1]
      exact sorted_sortQueue { gp with passed := gp.passed + 1 }
    have hpassed : g1.passed = g.passed + 1 := by rw [hg1, ← e5]; rfl
    have hdists : g1.dists.length = g.dists.length + 1 := by rw [hg1, ← e6]; simp
    dsimp only at h
    split at h
    · rename_i hs
      simp only [Except.ok.injEq] at h
      subst h
      refine ⟨[(q, (g.path q).next.factor)], hg1', by simp, by simpa using hpassed, by simpa using hdists, ?_⟩
      intro _ r
      rw [hstop, decide_eq_true_eq] at hs
      have hq1 : g1.queue[0]? = some q' := by rw [hg1]; exact hq'
      have := hs1.max ((hg1'.run hrun).inv w).queue hq1 r
      refine this.trans ?_
      rw [hg1]; exact hs
    · obtain ⟨tr', a1, a2, a3, a4, a5⟩ := ih hg1' hs1 h
      refine ⟨(q, (g.path q).next.factor) :: tr', by simpa using a1, by simpa using a2, ?_, ?_, ?_⟩
      · rw [a3, hpassed]; simp only [List.length_cons]; omega
      · rw [a4, hdists]; simp only [List.length_cons]; omega
      · intro hk; exact a5 (by simpa using hk)

/-- On a graph with any number of clusters but one, `process_graph` is a greedy execution within the
budget. -/
theorem Greedy.process {ops : Ops F V G} {tol : G} {maxIter : Nat} {evVars : List Var}
    {g0 g g' : Graph F V G n m} (w : Wired ops evVars g0) {tr : List (Fin m × F)} (hn : n ≠ 1)
    (hr : Run ops g0 tr g) (h : processGraph ops tol maxIter g = .ok g') :
    ∃ tr', Greedy ops g tr' g' ∧ tr'.length ≤ maxIter * m ∧ g'.passed = g.passed + tr'.length ∧
      g'.dists.length = tr'.length ∧ (tr'.length < maxIter * m → ∀ q, (g'.path q).gain ≤ tol) := by
  unfold processGraph at h
  rw [dif_neg hn] at h
  have hlen : g.queue.length = m := by rw [(hr.inv w).queue.length_eq, List.length_finRange]
  dsimp only at h
  rw [hlen] at h
  have h0 : Greedy ops g [] (sortQueue { g with dists := [] }) :=
    Greedy.start.admin ⟨rfl, rfl, rfl, rfl, sortQueue_perm { g with dists := [] }⟩
  obtain ⟨tr', a1, a2, a3, a4, a5⟩ := Greedy.loop w hr h0 (sorted_sortQueue _) h
  exact ⟨tr', a1, a2, a3, by rw [a4]; exact Nat.zero_add _, a5⟩

end

end Verif.CG
