import Verif.ClusterDenseNew
import Verif.ClusterExamples

/-!
# Cluster graphs of dense categorical factors: exact marginals (C97), no failures (C98), convergence (C99)
-/

namespace Verif.CG
open Spec (override Asg sumOut)
open Classical

variable {hs : HashSeed} {C : Var → Nat} {N : Var → List AName}

/-- What is assumed of the input factors: built by the constructor (each well formed, with probabilities that are
finite numbers), any two in agreement about the number and the names of the values of a variable, every variable
with at least two values, and any two with at most one unobserved variable in common. -/
structure DenseInput (C : Var → Nat) (N : Var → List AName) (obs : List Var) (factors : List (Cat ℝ)) : Prop where
  two : ∀ v, 2 ≤ C v
  wf : ∀ f ∈ factors, Cat.WF f
  proper : ∀ f ∈ factors, Cat.Proper f
  card : ∀ f ∈ factors, ∀ v ∈ f.vars, f.card v = C v
  name : ∀ f ∈ factors, ∀ v ∈ f.vars, f.name v = N v
  share : factors.Pairwise fun f g =>
    ∀ u v, u ∈ f.vars → u ∈ g.vars → u ∉ obs → v ∈ f.vars → v ∈ g.vars → v ∉ obs → u = v

variable {factors : List (Cat ℝ)} {evidence : Option (Dict Var Nat)} {special : Dict Var Nat}

theorem DenseInput.ok {obs : List Var} (hi : DenseInput C N obs factors) : ∀ f ∈ factors, DenseOk C N f :=
  fun f hf => ⟨hi.wf f hf, hi.proper f hf, hi.card f hf, hi.name f hf⟩

/-- Queries for at most one variable are answered alike. -/
theorem getMarginal_same {n m : Nat} {g : Graph (Cat ℝ) Nat EReal n m} {vrs : List Var} (h : vrs.length ≤ 1) :
    getMarginal (denseOps hs) g vrs = getMarginal (idealOps hs) g vrs := by
  unfold getMarginal
  have e : (idealOps hs).marginalize = fun f vrs => idealMarginalize hs f vrs := rfl
  have e1 : ∀ f, idealMarginalize hs f vrs = (denseOps hs).marginalize f vrs := fun f => idealMarginalize_eq h
  simp only [e, e1]
  rfl

theorem possible_dense (hC : ∀ v, 2 ≤ C v) {x : Asg}
    (hx : ∀ f ∈ factors, denseDen f (override (evidence.getD []) (override special x)) ≠ 0) :
    ∀ f ∈ factors, (denseLaws hs C N hC).den f (given (denseLaws hs C N hC).toLaws evidence
      (override (evPairs (denseLaws hs C N hC).toLaws special) x)) ≠ 0 := by
  intro f hf
  have := hx f hf
  unfold given evPairs
  simp only [denseLaws, id_eq, Prod.mk.eta, List.map_id']
  exact this

theorem posterior_dense (hC : ∀ v, 2 ≤ C v) {P : Asg → ℝ}
    (hP : ∀ x, P x = (factors.map fun f => if f.InRange (override (evidence.getD []) (override special x)) then
      f.prob (override (evidence.getD []) (override special x)) else 0).prod) :
    posterior (denseLaws hs C N hC) factors evidence special = P := by
  funext x
  rw [hP]
  unfold posterior
  simp only [denseLaws, id_eq, Prod.mk.eta, List.map_id']
  rfl

/-- **C97** (part). Dense factors any two of which have at most one unobserved variable in common, possible
evidence, any schedule: if the edges of the cluster graph form no cycle and all information gains are zero, then
querying a single variable returns a positive multiple of the exact posterior marginal. Zero entries are allowed.
(Missing: queries for several variables and wider sepsets, for which the claim is false: see
`C97_joint_query_wrong`, `C97_hash_dependent`.) -/
theorem C97_dense_exact_partial (hs : HashSeed) (C : Var → Nat) (N : Var → List AName) (factors : List (Cat ℝ))
    (evidence : Option (Dict Var Nat)) (special : Dict Var Nat)
    (hi : DenseInput C N (evidenceVars evidence special) factors)
    (a : Any (Cat ℝ) Nat EReal) (h : new hs (denseOps hs) factors evidence special = .ok a)
    (htree : (SimpleGraph.fromRel fun i j => ∃ s, sepset a.graph i j = some s).IsAcyclic)
    (tr : List (Fin a.m × Cat ℝ)) (g : Graph (Cat ℝ) Nat EReal a.n a.m) (hr : Run (denseOps hs) a.graph tr g)
    (hgain : ∀ q, (g.path q).gain ≤ 0)
    (P : Asg → ℝ) (hP : ∀ x, P x = (factors.map fun f =>
      if f.InRange (override (evidence.getD []) (override special x)) then
        f.prob (override (evidence.getD []) (override special x)) else 0).prod) (hpos : ∃ x, P x ≠ 0)
    (v : Var) (hun : v ∉ Dict.keys special) (r : Cat ℝ) (hm : getMarginal (denseOps hs) g [v] = .ok r) :
    r.vars = [v] ∧ r.card v = C v ∧ r.name v = N v ∧ ∃ c : ℝ, 0 < c ∧ ∀ x, x v < C v → r.prob x = c * sumOut C
      (((factors.flatMap fun f => f.vars).toFinset.filter fun v =>
        v ∉ Dict.keys (evidence.getD []) ∧ v ∉ Dict.keys special) \ {v}) P x := by
  rw [new_same hi.two hi.ok hi.share] at h
  obtain ⟨w, hsp, _⟩ := wired_new h
  have hok0 := new_ok (denseLaws hs C N hi.two).toLaws hi.ok h
  have hsep := sepset_short hi.two hi.ok hi.share h
  have hr' : Run (idealOps hs) a.graph tr g := hr.transport fun tr g q g' hr h =>
    pass_dense hi.two w hok0 (fun i j s h => (hsep i j s h).1) (fun i j s h => (hsep i j s h).2) hr h
  rw [getMarginal_same (by simp)] at hm
  have b := hr'.bel (L := (denseLaws hs C N hi.two).toLaws) w hok0
  obtain ⟨hrok, hrv⟩ : DenseOk C N r ∧ ∀ u, u ∈ r.vars ↔ u ∈ [v] := by
    rcases C53_get_marginal (idealOps hs) a.n a.m g [v] with ⟨_, he⟩ | ⟨i, hi', _, he⟩
    · rw [he] at hm; cases hm
    · rw [he] at hm
      obtain ⟨f, h1, h2⟩ := py_bind_eq_ok.1 hm
      obtain ⟨f1, f2, f3⟩ := (denseLaws hs C N hi.two).toLaws.observe (b.ok i) g.special h1
      obtain ⟨m1, m2, _⟩ := (denseLaws hs C N hi.two).marg f1 (List.nodup_singleton v) (by
        intro u hu
        obtain rfl := List.mem_singleton.1 hu
        rw [f2]
        exact ⟨hi' u (by simp), by rw [(hr'.inv w).special, hsp]; exact hun⟩) h2
      exact ⟨m1, m2⟩
  have hrv' : r.vars = [v] := single_of hrok.wf.nodup hrv
  refine ⟨hrv', hrok.card v (by simp [hrv']), hrok.name v (by simp [hrv']), ?_⟩
  have hP' := posterior_dense (hs := hs) (N := N) hi.two hP
  obtain ⟨c, hc, hx⟩ := (denseGain hs C N hi.two).exact hs factors hi.ok evidence special a h htree tr g hr' hgain
    (by rw [hP']; exact hpos) [v] (by simp) (by simpa using hun) r hm
  refine ⟨c, hc, fun x hxv => ?_⟩
  have hin : r.InRange x := hrok.inRange.2 (by simpa [hrv'] using hxv)
  have := hx x
  rw [hP'] at this
  rw [← denseDen_of hin]
  exact this

/-! ### No failures -/

theorem override_nat (d : Dict Var Nat) (x : Asg) (v : Var) : override d x v = (Dict.get? d v).getD (x v) := by
  unfold override
  induction d with
  | nil => rfl
  | cons e d ih =>
    obtain ⟨k, w⟩ := e
    rw [List.find?_cons]
    by_cases h : k = v
    · simp [h, Dict.get?]
    · simp only [h, decide_false, Dict.get?, if_false]
      exact ih

/-- The evidence is in range, and no factor has a zero entry. -/
structure DensePos (C : Var → Nat) (factors : List (Cat ℝ)) (evidence : Option (Dict Var Nat))
    (special : Dict Var Nat) : Prop where
  range : ∀ f ∈ factors, ∀ v ∈ f.vars, ∀ k, Dict.get? (evidence.getD []) v = some k ∨ Dict.get? special v = some k →
    k < C v
  full : ∀ f ∈ factors, ∀ x : Asg, (∀ v ∈ f.vars, x v < C v) → f.prob x ≠ 0

theorem DensePos.possible {obs : List Var} (hi : DenseInput C N obs factors)
    (hp : DensePos C factors evidence special) {z : Asg} (hz : ∀ v, z v < C v) :
    ∀ f ∈ factors, denseDen f (override (evidence.getD []) (override special z)) ≠ 0 := by
  intro f hf
  have hin : ∀ v ∈ f.vars, override (evidence.getD []) (override special z) v < C v := by
    intro v hv
    rw [override_nat, override_nat]
    cases h1 : Dict.get? (evidence.getD []) v with
    | some k => exact hp.range f hf v hv k (Or.inl h1)
    | none =>
      cases h2 : Dict.get? special v with
      | some k => exact hp.range f hf v hv k (Or.inr h2)
      | none => exact hz v
  rw [denseDen_of ((hi.ok f hf).inRange.2 hin)]
  exact hp.full f hf _ hin

section
variable {a : Any (Cat ℝ) Nat EReal}

/-- Facts about a graph of positive dense factors. -/
theorem dense_start (hi : DenseInput C N (evidenceVars evidence special) factors)
    (hp : DensePos C factors evidence special) (h : new hs (idealOps hs) factors evidence special = .ok a)
    {z : Asg} (hz : ∀ v, z v < C v) : ∀ i, (denseLaws hs C N hi.two).den (a.graph.cl i).factor
      (override (evPairs (denseLaws hs C N hi.two).toLaws a.graph.special) z) ≠ 0 :=
  new_pos (denseLaws hs C N hi.two).toLaws hi.ok h (possible_dense hi.two (hp.possible hi hz))

/-- No message has a zero entry. -/
theorem dense_msg (hi : DenseInput C N (evidenceVars evidence special) factors)
    (hp : DensePos C factors evidence special) (h : new hs (idealOps hs) factors evidence special = .ok a)
    {tr : List (Fin a.m × Cat ℝ)} {g : Graph (Cat ℝ) Nat EReal a.n a.m} (hr : Run (idealOps hs) a.graph tr g)
    {q : Fin a.m} {p : Cat ℝ} (hl : lastMsg tr q = some p) : ¬ HasZero p := by
  obtain ⟨w, hsp, _⟩ := wired_new h
  have hok0 := new_ok (denseLaws hs C N hi.two).toLaws hi.ok h
  have b := hr.bel (L := (denseLaws hs C N hi.two).toLaws) w hok0
  rintro ⟨x, hx, hx0⟩
  obtain ⟨hpk, _⟩ := b.msg q p hl
  obtain ⟨y, hy⟩ : ∃ y : Asg, y = fun v => if v ∈ p.vars then x v else 0 := ⟨_, rfl⟩
  have hyr : ∀ v, y v < C v := by
    intro v
    rw [hy]
    dsimp only
    split
    · rename_i hv
      rw [← hpk.card v hv]; exact hx v hv
    · have := hi.two v; omega
  have := b.pos y (dense_start hi hp h hyr) q
  unfold mval at this
  rw [hl] at this
  refine this ?_
  show denseDen p y = 0
  rw [denseDen_dep p y x fun v hv => by rw [hy]; exact if_pos hv]
  exact (hpk.den_zero hx).2 hx0

/-- The two sets of operations agree on executions. -/
theorem dense_pass (hi : DenseInput C N (evidenceVars evidence special) factors)
    (hp : DensePos C factors evidence special) (h : new hs (idealOps hs) factors evidence special = .ok a)
    {tr : List (Fin a.m × Cat ℝ)} {g g' : Graph (Cat ℝ) Nat EReal a.n a.m} (hr : Run (idealOps hs) a.graph tr g)
    (q : Fin a.m) : pass (idealOps hs) g q = .ok g' ↔ pass (denseOps hs) g q = .ok g' := by
  obtain ⟨w, hsp, _⟩ := wired_new h
  have hok0 := new_ok (denseLaws hs C N hi.two).toLaws hi.ok h
  have hsep := sepset_short hi.two hi.ok hi.share h
  exact ⟨fun hp' => pass_ideal hi.two w hok0 (fun i j s h => (hsep i j s h).1) (fun i j s h => (hsep i j s h).2) hr
    (fun p hl hz => absurd hz (dense_msg hi hp h hr hl)) hp',
    fun hp' => pass_dense hi.two w hok0 (fun i j s h => (hsep i j s h).1) (fun i j s h => (hsep i j s h).2) hr hp'⟩

theorem dense_run (hi : DenseInput C N (evidenceVars evidence special) factors)
    (hp : DensePos C factors evidence special) (h : new hs (idealOps hs) factors evidence special = .ok a)
    {tr : List (Fin a.m × Cat ℝ)} {g : Graph (Cat ℝ) Nat EReal a.n a.m} (hr : Run (denseOps hs) a.graph tr g) :
    Run (idealOps hs) a.graph tr g :=
  hr.transport fun _ _ q _ hr h' => (dense_pass hi hp h hr q).2 h'

end

/-- **C98** (part). Dense factors without zero entries, any two with at most one unobserved variable in common, and
evidence in range: building the cluster graph returns; and after any execution - on any graph, with or without
cycles - passing any message, running `process_graph` (on a graph with more than one cluster) and querying any
unobserved variable all return. (Missing: factors with zeros, for which the claim is false:
see `C98_zero_raises`.) -/
theorem C98_dense_never_fails_partial (hs : HashSeed) (C : Var → Nat) (N : Var → List AName)
    (factors : List (Cat ℝ)) (evidence : Option (Dict Var Nat)) (special : Dict Var Nat)
    (hi : DenseInput C N (evidenceVars evidence special) factors) (hp : DensePos C factors evidence special) :
    ∃ a, new hs (denseOps hs) factors evidence special = .ok a ∧
      ∀ tr g, Run (denseOps hs) a.graph tr g →
        (∀ q, ∃ g', pass (denseOps hs) g q = .ok g') ∧
        (a.n ≠ 1 → ∀ tol maxIter, ∃ g', processGraph (denseOps hs) tol maxIter g = .ok g') ∧
        ∀ f ∈ factors, ∀ v ∈ f.vars, v ∉ Dict.keys (evidence.getD []) → v ∉ Dict.keys special →
          ∃ r, getMarginal (denseOps hs) g [v] = .ok r := by
  have T := denseTotal hs C N hi.two
  have hz : ∀ v : Var, (0 : Nat) < C v := fun v => by have := hi.two v; omega
  obtain ⟨a, ha⟩ := T.new hs hi.ok evidence special (possible_dense hi.two (hp.possible hi (z := fun _ => 0) hz))
  obtain ⟨w, hsp, _⟩ := wired_new ha
  have hx0 := dense_start hi hp ha (z := fun _ => 0) hz
  have hok0 := new_ok (denseLaws hs C N hi.two).toLaws hi.ok ha
  have hstep : ∀ tr g, Run (idealOps hs) a.graph tr g → ∀ q, ∃ g', pass (denseOps hs) g q = .ok g' := by
    intro tr g hr q
    obtain ⟨g', hg'⟩ := T.step w hok0 hr hx0 q
    exact ⟨g', (dense_pass hi hp ha hr q).1 hg'⟩
  refine ⟨a, by rw [new_same hi.two hi.ok hi.share]; exact ha, fun tr g hr => ⟨fun q =>
    hstep tr g (dense_run hi hp ha hr) q, fun hn tol k => ?_, ?_⟩⟩
  · obtain ⟨g', hg'⟩ := T.process w hok0 hx0 hn tol k (dense_run hi hp ha hr)
    exact ⟨g', process_transport (A := idealOps hs) (B := denseOps hs) (g0 := a.graph)
      (fun tr g q g' hr h => (dense_pass hi hp ha (dense_run hi hp ha hr) q).1 h) hn hr hg'⟩
  · intro f hf v hv h1 h2
    obtain ⟨i, hi'⟩ := new_covers (denseLaws hs C N hi.two).toLaws hi.ok ha hf
    obtain ⟨r, hr'⟩ := T.getMarginal w hok0 (dense_run hi hp ha hr) hx0 (vrs := [v]) (by simp)
      ⟨i, fun u hu => by rw [List.mem_singleton.1 hu]; exact hi' v hv h1⟩
      (fun u hu => by rw [List.mem_singleton.1 hu, hsp]; exact h2)
    exact ⟨r, by rw [getMarginal_same (by simp)]; exact hr'⟩

/-- **C99** (part). Same factors, on a graph without cycles: for every `tol >= 0`, `process_graph` with `max_iter`
at least the number of clusters - started after any execution - ends with every information gain at most `tol`.
(Missing: factors with zeros, where message passing may raise.) -/
theorem C99_dense_tree_converges_partial (hs : HashSeed) (C : Var → Nat) (N : Var → List AName)
    (factors : List (Cat ℝ)) (evidence : Option (Dict Var Nat)) (special : Dict Var Nat)
    (hi : DenseInput C N (evidenceVars evidence special) factors) (hp : DensePos C factors evidence special)
    (a : Any (Cat ℝ) Nat EReal) (h : new hs (denseOps hs) factors evidence special = .ok a) (hn : a.n ≠ 1)
    (htree : (SimpleGraph.fromRel fun i j => ∃ s, sepset a.graph i j = some s).IsAcyclic)
    (tol : EReal) (htol : 0 ≤ tol) (maxIter : Nat) (hbud : a.n ≤ maxIter)
    (tr : List (Fin a.m × Cat ℝ)) (g : Graph (Cat ℝ) Nat EReal a.n a.m) (hr : Run (denseOps hs) a.graph tr g) :
    ∃ g', processGraph (denseOps hs) tol maxIter g = .ok g' ∧ ∀ q, (g'.path q).gain ≤ tol := by
  obtain ⟨a', ha', hall⟩ := C98_dense_never_fails_partial hs C N factors evidence special hi hp
  rw [h] at ha'
  cases ha'
  obtain ⟨g', hg'⟩ := (hall tr g hr).2.1 hn tol maxIter
  refine ⟨g', hg', ?_⟩
  rw [new_same hi.two hi.ok hi.share] at h
  have hr' := dense_run hi hp h hr
  have hg := process_transport (A := denseOps hs) (B := idealOps hs) (g0 := a.graph)
      (fun tr g q g' hr h' => (dense_pass hi hp h hr q).2 h') hn hr' hg'
  obtain ⟨w, hsp, _⟩ := wired_new h
  have hz : ∀ v : Var, (0 : Nat) < C v := fun v => by have := hi.two v; omega
  have hx0 := dense_start hi hp h (z := fun _ => 0) hz
  have hok0 := new_ok (denseLaws hs C N hi.two).toLaws hi.ok h
  refine process_converges_pos (L := denseLaws hs C N hi.two) w hok0 htree ?_ ?_ hn hbud hr' hg
  · intro tr g q hr hq hc
    exact absurd ((denseGain hs C N hi.two).clean w (hr.inv w) (hr.bel w hok0) hx0 hc)
      (not_le.2 (lt_of_le_of_lt htol hq))
  · intro tr g q hr z hz' _
    obtain ⟨y, hy⟩ : ∃ y : Asg, y = fun v => if v ∈ sepOf a.graph q then z v else 0 := ⟨_, rfl⟩
    have hyr : ∀ v, y v < C v := by
      intro v
      rw [hy]
      dsimp only
      split
      · exact hz' v (by assumption)
      · exact hz v
    have := (hr.bel w hok0).next_pos w (hr.inv w) (dense_start hi hp h hyr) q
    obtain ⟨rv, hr1, hr2, hr3⟩ := w.rev q
    obtain ⟨n1, n2, _⟩ := (hr.bel w hok0).next w (hr.inv w) hr1 hr2 hr3
    rwa [(denseLaws hs C N hi.two).dep n1 y z fun v hv => by rw [hy]; exact if_pos ((n2 v).1 hv)] at this

/-- **C97** (part), total correctness: for the factors of C98 on a graph without cycles, building the graph,
`process_graph` with `tol = 0` and as many rounds as there are clusters, and the query for any unobserved variable all
return, and the answer is a positive multiple of the exact posterior marginal. -/
theorem C97_dense_tree_inference_partial (hs : HashSeed) (C : Var → Nat) (N : Var → List AName)
    (factors : List (Cat ℝ)) (evidence : Option (Dict Var Nat)) (special : Dict Var Nat)
    (hi : DenseInput C N (evidenceVars evidence special) factors) (hp : DensePos C factors evidence special)
    (P : Asg → ℝ) (hP : ∀ x, P x = (factors.map fun f =>
      if f.InRange (override (evidence.getD []) (override special x)) then
        f.prob (override (evidence.getD []) (override special x)) else 0).prod) :
    ∃ a, new hs (denseOps hs) factors evidence special = .ok a ∧
      (a.n ≠ 1 → (SimpleGraph.fromRel fun i j => ∃ s, sepset a.graph i j = some s).IsAcyclic →
        ∀ maxIter : Nat, a.n ≤ maxIter →
        ∃ g, processGraph (denseOps hs) 0 maxIter a.graph = .ok g ∧
          ∀ f ∈ factors, ∀ v ∈ f.vars, v ∉ Dict.keys (evidence.getD []) → v ∉ Dict.keys special →
            ∃ r, getMarginal (denseOps hs) g [v] = .ok r ∧ r.vars = [v] ∧ r.card v = C v ∧ r.name v = N v ∧
              ∃ c : ℝ, 0 < c ∧ ∀ x, x v < C v → r.prob x = c * sumOut C
              (((factors.flatMap fun f => f.vars).toFinset.filter fun v =>
                v ∉ Dict.keys (evidence.getD []) ∧ v ∉ Dict.keys special) \ {v}) P x) := by
  obtain ⟨a, ha, hall⟩ := C98_dense_never_fails_partial hs C N factors evidence special hi hp
  refine ⟨a, ha, fun hn htree maxIter hbud => ?_⟩
  obtain ⟨g, hg, hgain⟩ := C99_dense_tree_converges_partial hs C N factors evidence special hi hp a ha hn htree 0 le_rfl
    maxIter hbud [] a.graph .start
  refine ⟨g, hg, fun f hf v hv h1 h2 => ?_⟩
  have w : Wired (denseOps hs) (evidenceVars evidence special) a.graph := (wired_new ha).1
  obtain ⟨tr, hgr, _⟩ := Greedy.process w hn .start hg
  have hrun := hgr.run .start
  obtain ⟨r, hr⟩ := (hall _ g hrun).2.2 f hf v hv h1 h2
  refine ⟨r, hr, C97_dense_exact_partial hs C N factors evidence special hi a ha htree _ g hrun hgain P hP ?_ v h2 r hr⟩
  refine ⟨fun _ => 0, ?_⟩
  rw [hP]
  refine List.prod_ne_zero fun h0 => ?_
  obtain ⟨f, hf, h0⟩ := List.mem_map.1 h0
  exact hp.possible hi (z := fun _ => 0) (fun v => by have := hi.two v; omega) f hf h0

/-! ### Exactly when a message cannot be passed -/

/-- **C98**, exactly when passing a message fails (zeros allowed): for possible evidence the graph is built, and after
any execution, passing along a path returns unless the last message along it has a zero entry and the receiver has
another variable; then it raises `IndexError`. -/
theorem C98_dense_step (hs : HashSeed) (C : Var → Nat) (N : Var → List AName)
    (factors : List (Cat ℝ)) (evidence : Option (Dict Var Nat)) (special : Dict Var Nat)
    (hi : DenseInput C N (evidenceVars evidence special) factors)
    (hpos : ∃ x : Asg, ∀ f ∈ factors, f.InRange (override (evidence.getD []) (override special x)) ∧
      f.prob (override (evidence.getD []) (override special x)) ≠ 0) :
    ∃ a, new hs (denseOps hs) factors evidence special = .ok a ∧
      ∀ tr g, Run (denseOps hs) a.graph tr g → ∀ q,
        ((∃ p, lastMsg tr q = some p ∧ (∃ x, p.InRange x ∧ p.prob x = 0) ∧
          2 ≤ (scope (denseOps hs) a.graph (a.graph.path q).rcv).length) →
            pass (denseOps hs) g q = .error .indexError) ∧
        ((¬ ∃ p, lastMsg tr q = some p ∧ (∃ x, p.InRange x ∧ p.prob x = 0) ∧
          2 ≤ (scope (denseOps hs) a.graph (a.graph.path q).rcv).length) →
            ∃ g', pass (denseOps hs) g q = .ok g') := by
  have T := denseTotal hs C N hi.two
  obtain ⟨x, hx⟩ := hpos
  have hx' : ∀ f ∈ factors, denseDen f (override (evidence.getD []) (override special x)) ≠ 0 := fun f hf => by
    rw [denseDen_of (hx f hf).1]; exact (hx f hf).2
  obtain ⟨a, ha⟩ := T.new hs hi.ok evidence special (possible_dense hi.two hx')
  obtain ⟨w, hsp, _⟩ := wired_new ha
  have hx0 := new_pos (denseLaws hs C N hi.two).toLaws hi.ok ha (possible_dense hi.two hx')
  have hok0 := new_ok (denseLaws hs C N hi.two).toLaws hi.ok ha
  have hsep := sepset_short hi.two hi.ok hi.share ha
  have hsne := fun i j s h => (hsep i j s h).1
  have hlen := fun i j s h => (hsep i j s h).2
  refine ⟨a, by rw [new_same hi.two hi.ok hi.share]; exact ha, fun tr g hr q => ?_⟩
  have hr' : Run (idealOps hs) a.graph tr g := hr.transport fun tr g q g' hr h => pass_dense hi.two w hok0 hsne hlen hr h
  have b := hr'.bel (L := (denseLaws hs C N hi.two).toLaws) w hok0
  have hzero : ∀ p, lastMsg tr q = some p → ((∃ x, p.InRange x ∧ p.prob x = 0) ↔ HasZero p) := by
    intro p hp
    obtain ⟨hpk, _⟩ := b.msg q p hp
    refine exists_congr fun x => and_congr_right fun hx => ?_
    rw [← denseDen_of hx]
    exact hpk.den_zero hx
  constructor
  · rintro ⟨p, hp, hz, h2⟩
    exact pass_raises hi.two w hok0 hsne hlen hr' hp ((hzero p hp).1 hz) h2
  · intro hno
    obtain ⟨g', hg'⟩ := T.step w hok0 hr' hx0 q
    refine ⟨g', pass_ideal hi.two w hok0 hsne hlen hr' (fun p hp hz => ?_) hg'⟩
    by_contra h2
    exact hno ⟨p, hp, (hzero p hp).2 hz, by
      have : (scope (denseOps hs) a.graph (a.graph.path q).rcv) = scope (idealOps hs) a.graph (a.graph.path q).rcv := rfl
      rw [this]; omega⟩

end Verif.CG
