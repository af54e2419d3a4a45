import Verif.ClusterProps6
import Verif.ClusterConverge

/-!
# Message passing on trees converges (C79), and inference on trees is exact (C52)
-/

namespace Verif.CG
open Spec (override Asg sumOut)
open Classical

variable {hs : HashSeed} {C : Var → Nat}

/-- The divergence between functions that agree on the range is zero. -/
theorem kl_eq_zero {vs : List Var} {c : Var → Nat} (hn : vs.Nodup) {P Q : Asg → ℝ}
    (h : ∀ x, (∀ v ∈ vs, x v < c v) → P x = Q x) : Spec.kl (vs.map fun v => (v, c v)) P Q = 0 := by
  unfold Spec.kl
  rw [Spec.sumVars_congr vs c hn (G := fun _ => 0) (fun _ => 0) fun y hy => ?_, Sparse.sumVars_const, mul_zero]
  rw [h y hy]
  by_cases h0 : Q y = 0
  · rw [h0, zero_mul]
  · rw [div_self h0, Real.log_one, mul_zero]

theorem mass_const {f g : Sparse ℝ} (hf : SparseOk C f) (hg : SparseOk C g) (hv : ∀ v, v ∈ f.vars ↔ v ∈ g.vars) {c : ℝ}
    (h : ∀ x, (∀ v ∈ f.vars, x v < C v) → g.prob x = c * f.prob x) : g.mass = c * f.mass := by
  have hall : ∀ x, g.prob x = c * f.prob x := by
    intro x
    by_cases hx : ∀ v ∈ f.vars, x v < C v
    · exact h x hx
    · have h1 : f.prob x = 0 := by
        by_contra h0
        exact hx (hf.supp x h0)
      have h2 : g.prob x = 0 := by
        by_contra h0
        exact hx fun v hvf => hg.supp x h0 v ((hv v).1 hvf)
      rw [h1, h2, mul_zero]
  have hvs : g.vars.toFinset = f.vars.toFinset := by
    ext v
    simp [hv v]
  rw [mass_eq_sumOut hf, mass_eq_sumOut hg, hvs, ← Spec.sumOut_const_mul]
  congr 1
  exact funext hall

/-- A next message of the same shape as the last one carries no information. -/
theorem clean_gain {n m : Nat} {evVars : List Var}
    {g0 g : Graph (Sparse ℝ) Nat EReal n m} {tr : List (Fin m × Sparse ℝ)} (w : Wired (sparseOps hs) evVars g0)
    (inv : RunInv (sparseOps hs) g0 tr g) (b : BelInv (sparseLaws hs C).toLaws g0 tr g) {x0 : Asg}
    (hx0 : ∀ i, (g0.cl i).factor.prob (override (evPairs (sparseLaws hs C).toLaws g0.special) x0) ≠ 0)
    {q : Fin m} (hc : Clean (sparseLaws hs C) g0 tr g q) : (g.path q).gain ≤ 0 := by
  set L := sparseLaws hs C with hL
  obtain ⟨rv, hr1, hr2, hr3⟩ := w.rev q
  obtain ⟨n1, n2, _⟩ := b.next w inv hr1 hr2 hr3
  have n1' : SparseOk C (g.path q).next.factor := n1
  have hnz := b.next_pos w inv hx0 q
  have hmn : 0 < (g.path q).next.factor.mass := mass_pos n1 ⟨x0, hnz⟩
  obtain ⟨c, c0, cx⟩ := hc
  unfold mval at cx
  rcases inv.gain q with hg | ⟨hg, hp⟩
  swap
  · exact le_of_eq hg
  cases hp : (g.path q).prev with
  | none =>
    have hl : lastMsg tr q = none := by rw [← inv.prev, hp]; rfl
    rw [hp] at hg
    rw [hl] at cx
    set f := (g.path q).next.factor with hf
    obtain ⟨h1, h2, h3⟩ := Sparse.C11_distance_from_vacuous hs f n1'.1 hmn
    have hfx : ∀ x, (∀ v ∈ f.vars, x v < f.card v) → f.prob x = c := by
      intro x hx
      have := cx x fun v hv => by
        have hvf := (n2 v).2 hv
        have := hx v hvf
        rwa [n1'.2 v hvf] at this
      dsimp only at this
      rwa [mul_one] at this
    have hN := Sparse.card_prod_pos n1'.1 hmn
    have hN' : (0 : ℝ) < (f.cards.prod : ℕ) := Nat.cast_pos.2 hN
    have hm : f.mass = (f.cards.prod : ℕ) * c := by
      unfold Sparse.mass
      rw [Spec.sumVars_congr f.vars f.card n1'.1.wf.nodup (G := fun _ => c) (fun _ => 0) hfx, Sparse.sumVars_const]
      have : (f.vars.map fun v => (v, f.card v)).map Prod.snd = f.cards := by
        rw [n1'.1.wf.cards_eq, List.map_map]; rfl
      rw [this]
    have hz : Spec.kl (f.vars.map fun v => (v, f.card v)) f.dist (fun _ => 1 / (f.cards.prod : ℕ)) = 0 := by
      refine kl_eq_zero n1'.1.wf.nodup fun x hx => ?_
      unfold Sparse.dist
      rw [hfx x hx, hm]
      field_simp
    have h' : (do let d ← Sparse.distanceFromVacuous hs f; toGain d) = .ok (g.path q).gain := hg
    rw [h1, hz] at h'
    have h'' : (Except.ok ((0 : ℝ) : EReal) : Py EReal) = .ok (g.path q).gain := h'
    simp only [Except.ok.injEq] at h''
    rw [← h'']
    simp
  | some p =>
    have hl : lastMsg tr q = some p.factor := by rw [← inv.prev, hp]; rfl
    obtain ⟨o1, o2⟩ := b.msg q _ hl
    have o1' : SparseOk C p.factor := o1
    have hpz : L.den p.factor x0 ≠ 0 := by
      have := b.pos x0 hx0 q
      unfold mval at this
      rwa [hl] at this
    rw [hp] at hg
    rw [hl] at cx
    set f := p.factor with hf
    set f' := (g.path q).next.factor with hf'
    have hv : ∀ v, v ∈ f.vars ↔ v ∈ f'.vars := fun v => (o2 v).trans (n2 v).symm
    have hss : Sparse.SameScope f f' := ⟨hv, fun v h1 => by rw [o1'.2 v h1, n1'.2 v ((hv v).1 h1)]⟩
    have hx : ∀ x, (∀ v ∈ f.vars, x v < C v) → f'.prob x = c * f.prob x :=
      fun x hx => cx x fun v hvv => hx v ((o2 v).2 hvv)
    have hmf := mass_pos o1 ⟨x0, hpz⟩
    have hmm := mass_const o1' n1' hv hx
    have hx' : ∀ x, (∀ v ∈ f.vars, x v < f.card v) → f'.prob x = c * f.prob x :=
      fun x hxx => hx x fun v hvv => by have := hxx v hvv; rwa [o1'.2 v hvv] at this
    obtain ⟨h1, _⟩ := Sparse.C11_kl_divergence hs f f' o1'.1 n1'.1 hss hmf hmn
    obtain ⟨k1, _⟩ := h1 fun x hxx h0 => by
      rw [hx' x hxx] at h0
      rcases mul_eq_zero.1 h0 with h0 | h0
      · exact absurd h0 (ne_of_gt c0)
      · exact h0
    have hz : Spec.kl (f.vars.map fun v => (v, f.card v)) f.dist f'.dist = 0 := by
      refine kl_eq_zero o1'.1.wf.nodup fun x hxx => ?_
      unfold Sparse.dist
      rw [hx' x hxx, hmm]
      field_simp
    have h' : (do let d ← Sparse.klDivergence hs f f'; toGain d) = .ok (g.path q).gain := hg
    rw [k1, hz] at h'
    have h'' : (Except.ok ((0 : ℝ) : EReal) : Py EReal) = .ok (g.path q).gain := h'
    simp only [Except.ok.injEq] at h''
    rw [← h'']
    simp

/-- Possible evidence in terms of the laws of the factor operations. -/
theorem possible {factors : List (Sparse ℝ)} {evidence : Option (Dict Var Nat)} {special : Dict Var Nat} {x : Asg}
    (hx : ∀ f ∈ factors, f.prob (override (evidence.getD []) (override special x)) ≠ 0) :
    ∀ f ∈ factors, (sparseLaws hs C).den f (given (sparseLaws hs C).toLaws evidence
      (override (evPairs (sparseLaws hs C).toLaws special) x)) ≠ 0 := by
  intro f hf
  have := hx f hf
  unfold given evPairs
  simp only [sparseLaws, id_eq, Prod.mk.eta, List.map_id']
  exact this

/-- **C79.** On a cluster graph of sparse factors without cycles, and with evidence that is possible, message
passing terminates by itself: for every `tol >= 0`, once `max_iter` is large enough (`S` bounds the number of
joint values of a sepset), `process_graph` - started after any execution - ends with every information gain at
most `tol`, whatever order the queue had. -/
theorem C79_tree_converges (hs : HashSeed) (C : Var → Nat) (factors : List (Sparse ℝ))
    (hok : ∀ f ∈ factors, Sparse.Regular f ∧ ∀ v ∈ f.vars, f.card v = C v)
    (evidence : Option (Dict Var Nat)) (special : Dict Var Nat)
    (hpos : ∃ x : Asg, ∀ f ∈ factors, f.prob (override (evidence.getD []) (override special x)) ≠ 0)
    (a : Any (Sparse ℝ) Nat EReal) (h : new hs (sparseOps hs) factors evidence special = .ok a) (hn : a.n ≠ 1)
    (htree : (SimpleGraph.fromRel fun i j => ∃ s, sepset a.graph i j = some s).IsAcyclic)
    (tol : EReal) (htol : 0 ≤ tol) (S maxIter : Nat)
    (hS : ∀ i j s, sepset a.graph i j = some s → (s.map C).prod ≤ S)
    (hbud : S * (a.m * (a.n - 1) + 1) + a.n ≤ maxIter)
    (tr : List (Fin a.m × Sparse ℝ)) (g : Graph (Sparse ℝ) Nat EReal a.n a.m)
    (hr : Run (sparseOps hs) a.graph tr g) :
    ∃ g', processGraph (sparseOps hs) tol maxIter g = .ok g' ∧ ∀ q, (g'.path q).gain ≤ tol := by
  obtain ⟨a', ha', hall⟩ := C78_inference_never_fails hs C factors hok evidence special hpos
  rw [h] at ha'
  cases ha'
  obtain ⟨g', hg'⟩ := (hall tr g hr).2.1 hn tol maxIter
  refine ⟨g', hg', fun q0 => ?_⟩
  obtain ⟨w, _⟩ := wired_new h
  obtain ⟨x, hx⟩ := hpos
  have hx0 := new_pos (sparseLaws hs C).toLaws hok h (possible hx)
  have hok0 := new_ok (sparseLaws hs C).toLaws hok h
  refine process_converges (L := sparseLaws hs C) w hok0 htree ?_ hn ?_ hr hg' q0
  · intro tr g q hr hq hc
    exact absurd (clean_gain w (hr.inv w) (hr.bel w hok0) hx0 hc) (not_le.2 (lt_of_le_of_lt htol hq))
  · have hm : 0 < a.m := lt_of_le_of_lt (Nat.zero_le _) q0.2
    have hn0 : 0 < a.n := lt_of_le_of_lt (Nat.zero_le _) (a.graph.path q0).snd.2
    have hsum : ∑ q, sepSize (sparseLaws hs C) a.graph q ≤ a.m * S := by
      refine (Finset.sum_le_card_nsmul _ _ S fun q _ => ?_).trans (by simp)
      have hs1 := w.sepOf_eq q
      refine le_trans (le_of_eq ?_) (hS _ _ _ hs1)
      unfold sepSize
      rw [List.prod_toFinset _ (w.sepOk _ _ _ hs1).1]
      rfl
    calc (∑ q, sepSize (sparseLaws hs C) a.graph q) * (a.m * (a.n - 1) + 1) + a.m * (a.n - 1)
        ≤ (a.m * S) * (a.m * (a.n - 1) + 1) + a.m * (a.n - 1) :=
          Nat.add_le_add_right (Nat.mul_le_mul_right _ hsum) _
      _ = a.m * (S * (a.m * (a.n - 1) + 1) + (a.n - 1)) := by ring
      _ < a.m * maxIter := Nat.mul_lt_mul_of_pos_left (by omega) hm
      _ = maxIter * a.m := Nat.mul_comm _ _

theorem override_either (ev : List (Var × Nat)) (x y : Asg) (v : Var) :
    override ev x v = override ev y v ∨ override ev x v = x v ∧ override ev y v = y v := by
  unfold override
  cases ev.find? fun e => e.1 = v with
  | none => exact Or.inr ⟨rfl, rfl⟩
  | some e => exact Or.inl rfl

theorem override_either₂ (ev ev' : List (Var × Nat)) (x y : Asg) (v : Var) :
    override ev (override ev' x) v = override ev (override ev' y) v ∨
      override ev (override ev' x) v = x v ∧ override ev (override ev' y) v = y v := by
  rcases override_either ev (override ev' x) (override ev' y) v with h | ⟨h1, h2⟩
  · exact Or.inl h
  · rw [h1, h2]
    exact override_either ev' x y v

/-- **C79**, factors without zeros: as many rounds as there are clusters suffice. -/
theorem C79_positive_tree_converges (hs : HashSeed) (C : Var → Nat) (factors : List (Sparse ℝ))
    (hok : ∀ f ∈ factors, Sparse.Regular f ∧ ∀ v ∈ f.vars, f.card v = C v)
    (hfull : ∀ f ∈ factors, ∀ x : Asg, (∀ v ∈ f.vars, x v < C v) → f.prob x ≠ 0)
    (evidence : Option (Dict Var Nat)) (special : Dict Var Nat)
    (hpos : ∃ x : Asg, ∀ f ∈ factors, f.prob (override (evidence.getD []) (override special x)) ≠ 0)
    (a : Any (Sparse ℝ) Nat EReal) (h : new hs (sparseOps hs) factors evidence special = .ok a) (hn : a.n ≠ 1)
    (htree : (SimpleGraph.fromRel fun i j => ∃ s, sepset a.graph i j = some s).IsAcyclic)
    (tol : EReal) (htol : 0 ≤ tol) (maxIter : Nat) (hbud : a.n ≤ maxIter)
    (tr : List (Fin a.m × Sparse ℝ)) (g : Graph (Sparse ℝ) Nat EReal a.n a.m)
    (hr : Run (sparseOps hs) a.graph tr g) :
    ∃ g', processGraph (sparseOps hs) tol maxIter g = .ok g' ∧ ∀ q, (g'.path q).gain ≤ tol := by
  obtain ⟨a', ha', hall⟩ := C78_inference_never_fails hs C factors hok evidence special hpos
  rw [h] at ha'
  cases ha'
  obtain ⟨g', hg'⟩ := (hall tr g hr).2.1 hn tol maxIter
  refine ⟨g', hg', ?_⟩
  obtain ⟨w, hsp, _⟩ := wired_new h
  obtain ⟨x, hx⟩ := hpos
  have hx0 := new_pos (sparseLaws hs C).toLaws hok h (possible hx)
  have hok0 := new_ok (sparseLaws hs C).toLaws hok h
  refine process_converges_pos (L := sparseLaws hs C) w hok0 htree ?_ ?_ hn hbud hr hg'
  · intro tr g q hr hq hc
    exact absurd (clean_gain w (hr.inv w) (hr.bel w hok0) hx0 hc) (not_le.2 (lt_of_le_of_lt htol hq))
  · intro tr g q hr z hz _
    set y : Asg := fun v => if v ∈ sepOf a.graph q then z v else x v with hy
    have hypos : ∀ f ∈ factors, f.prob (override (evidence.getD []) (override special y)) ≠ 0 := by
      intro f hf
      refine hfull f hf _ fun v hv => ?_
      have hin := SparseOk.supp (hok f hf) _ (hx f hf) v hv
      rcases override_either₂ (evidence.getD []) special x y v with he | ⟨he', he⟩
      · rw [← he]; exact hin
      · rw [he, hy]
        dsimp only
        split
        · exact hz v (by assumption)
        · rw [← he']; exact hin
    have := (hr.bel w hok0).next_pos w (hr.inv w) (new_pos (sparseLaws hs C).toLaws hok h (possible hypos)) q
    obtain ⟨rv, hr1, hr2, hr3⟩ := w.rev q
    obtain ⟨n1, n2, _⟩ := (hr.bel w hok0).next w (hr.inv w) hr1 hr2 hr3
    rwa [(sparseLaws hs C).dep n1 y z fun v hv => by rw [hy]; exact if_pos ((n2 v).1 hv)] at this

/-! ### Graphs with one cluster -/

/-- **C52**, graphs with one cluster: there is nothing to pass; `process_graph` observes the special evidence in
the only cluster, and `get_marginal` returns the exact posterior marginal. -/
theorem C52_single_cluster {F V G : Type} [LinearOrder G] [Zero G] {ops : Ops F V G} (L : SumLaws ops) (hs : HashSeed) (factors : List F)
    (hok : ∀ f ∈ factors, L.Ok f) (evidence : Option (Dict Var V)) (special : Dict Var V) (a : Any F V G)
    (h : new hs ops factors evidence special = .ok a) (hn1 : a.n = 1)
    (hkeys : (Dict.keys special).Nodup) (hsc : ∀ i, ∀ v ∈ Dict.keys special, v ∈ scope ops a.graph i)
    (tol : G) (maxIter : Nat) (g : Graph F V G a.n a.m) (hg : processGraph ops tol maxIter a.graph = .ok g)
    (vrs : List Var) (hn : vrs.Nodup) (r : F) (hm : getMarginal ops g vrs = .ok r) (x : Asg) :
    L.den r x = sumOut L.C (hiddenVars ops factors evidence special \ vrs.toFinset)
      (posterior L factors evidence special) x := by
  obtain ⟨w, hsp, _⟩ := wired_new h
  have hok0 := new_ok L.toLaws hok h
  set i0 : Fin a.n := ⟨0, by omega⟩ with hi0
  have hall : ∀ i : Fin a.n, i = i0 := fun i => Fin.ext (by have := i.2; simp only [hi0]; omega)
  have hone : L.Ok (g.cl i0).factor ∧
      (∀ v, v ∈ ops.vars (g.cl i0).factor ↔ v ∈ scope ops a.graph i0 ∧ v ∉ Dict.keys special) ∧
      (∀ x, L.den (g.cl i0).factor x = L.den (a.graph.cl i0).factor (override (evPairs L.toLaws special) x)) ∧
      g.special = special := by
    unfold processGraph at hg
    dsimp only at hg
    rw [dif_pos hn1] at hg
    unfold processSingle at hg
    dsimp only at hg
    split at hg
    · rename_i h0
      simp only [Except.ok.injEq] at hg
      rw [hsp] at h0
      rw [← hg, h0]
      exact ⟨hok0 i0, fun v => by simp [Dict.keys, scope], fun x => rfl, by rw [← h0]; exact hsp⟩
    · obtain ⟨f, hf, hg⟩ := py_bind_eq_ok.1 hg
      simp only [Except.ok.injEq] at hg
      rw [hsp] at hf
      obtain ⟨k1, k2, k3⟩ := L.red (hok0 i0) hkeys (hsc i0) (by simp [Dict.keys, Dict.values]) hf
      have hcl : (g.cl i0).factor = f := by rw [← hg]; simp [hi0]
      rw [hcl]
      refine ⟨k1, k2, fun x => ?_, by rw [← hg]; exact hsp⟩
      rw [k3]
      congr 2
      unfold Dict.keys Dict.values evPairs
      rw [List.map_map, List.zip_map']
      rfl
  obtain ⟨o1, o2, o3, o4⟩ := hone
  rcases C53_get_marginal ops a.n a.m g vrs with ⟨_, he⟩ | ⟨i, hi, _, he⟩
  · rw [he] at hm; cases hm
  rw [he] at hm
  obtain rfl := hall i
  obtain ⟨f, h1, h2⟩ := py_bind_eq_ok.1 hm
  obtain ⟨f1, f2, f3⟩ := L.toLaws.observe o1 g.special h1
  rw [o4] at f2 f3
  have hvf : ∀ v, v ∈ ops.vars f ↔ v ∈ freeVars ops a.graph i0 := fun v => by
    rw [f2, o2, mem_freeVars, hsp]
    tauto
  have hvs : ∀ v ∈ vrs, v ∈ ops.vars f := fun v hv => by
    have := (o2 v).1 (hi v hv)
    rw [hvf, mem_freeVars, hsp]
    exact this
  have hden : L.den f = posterior L factors evidence special := by
    funext y
    have hpost := (C44_evidence L.toLaws hs factors hok evidence special a h).1 (override (evPairs L.toLaws special) y)
    rw [Finset.prod_eq_single i0 (fun j _ hj => absurd (hall j) hj) (by simp)] at hpost
    rw [f3, o3]
    refine Eq.trans ?_ hpost
    congr 1
    funext v
    rw [override_apply, override_apply]
    cases Dict.get? special v <;> rfl
  rw [L.sum f1 hn hvs h2, hden]
  congr 2
  rw [← biUnion_free L.toLaws hok h]
  ext v
  simp only [List.mem_toFinset, hvf, Finset.mem_biUnion, Finset.mem_univ, true_and]
  exact ⟨fun h => ⟨i0, h⟩, fun ⟨j, hj⟩ => by rwa [hall j] at hj⟩

/-- **C52**, total correctness: for sparse factors and possible evidence, building the graph, `process_graph`
with `tol = 0` and a sufficient budget, and `get_marginal` all return on a graph without cycles, and the answer
is a positive multiple of the exact posterior marginal. -/
theorem C52_tree_inference (hs : HashSeed) (C : Var → Nat) (factors : List (Sparse ℝ))
    (hok : ∀ f ∈ factors, Sparse.Regular f ∧ ∀ v ∈ f.vars, f.card v = C v)
    (evidence : Option (Dict Var Nat)) (special : Dict Var Nat)
    (P : Asg → ℝ) (hP : ∀ x, P x = (factors.map fun f => f.prob (override (evidence.getD [])
      (override special x))).prod) (hpos : ∃ x, P x ≠ 0) :
    ∃ a, new hs (sparseOps hs) factors evidence special = .ok a ∧
      (a.n ≠ 1 → (SimpleGraph.fromRel fun i j => ∃ s, sepset a.graph i j = some s).IsAcyclic →
        ∀ S maxIter : Nat, (∀ i j s, sepset a.graph i j = some s → (s.map C).prod ≤ S) →
        S * (a.m * (a.n - 1) + 1) + a.n ≤ maxIter →
        ∃ g, processGraph (sparseOps hs) 0 maxIter a.graph = .ok g ∧
          ∀ f ∈ factors, ∀ vrs : List Var, vrs.Nodup →
            (∀ v ∈ vrs, v ∈ f.vars ∧ v ∉ Dict.keys (evidence.getD []) ∧ v ∉ Dict.keys special) →
            ∃ r, getMarginal (sparseOps hs) g vrs = .ok r ∧ ∃ c : ℝ, 0 < c ∧ ∀ x, r.prob x = c * sumOut C
              (((factors.flatMap fun f => f.vars).toFinset.filter fun v =>
                v ∉ Dict.keys (evidence.getD []) ∧ v ∉ Dict.keys special) \ vrs.toFinset) P x) := by
  have hpos' : ∃ x : Asg, ∀ f ∈ factors, f.prob (override (evidence.getD []) (override special x)) ≠ 0 := by
    obtain ⟨x, hx⟩ := hpos
    refine ⟨x, fun f hf h0 => hx ?_⟩
    rw [hP]
    exact List.prod_eq_zero (List.mem_map.2 ⟨f, hf, h0⟩)
  obtain ⟨a, ha, hall⟩ := C78_inference_never_fails hs C factors hok evidence special hpos'
  refine ⟨a, ha, fun hn htree S maxIter hS hbud => ?_⟩
  obtain ⟨g, hg, hgain⟩ := C79_tree_converges hs C factors hok evidence special hpos' a ha hn htree 0 le_rfl S maxIter
    hS hbud [] a.graph .start
  refine ⟨g, hg, fun f hf vrs hnv hv => ?_⟩
  obtain ⟨tr, hgr, _⟩ := Greedy.process (wired_new ha).1 hn .start hg
  have hrun := hgr.run .start
  obtain ⟨r, hr⟩ := (hall _ g hrun).2.2 f hf vrs hnv hv
  exact ⟨r, hr, C52_sparse hs C factors hok evidence special a ha htree _ g hrun hgain P hP hpos vrs hnv
    (fun v h => (hv v h).2.2) r hr⟩

end Verif.CG
