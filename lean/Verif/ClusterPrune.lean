import Verif.ClusterLabel
import Verif.ClusterProps7

/-!
# C126: belief propagation never removes a solution

On a graph with cycles the beliefs need not be the posterior marginals. What remains true is what
`examples/sudoku.ipynb` relies on: values that occur in a solution keep a non-zero belief.
-/

namespace Verif.CG
open Spec (override Asg)

section general
variable {F V G D : Type} [LinearOrder G] [Zero G] {ops : Ops F V G}

/-- **C126**, for any lawful class of factors and any graph, with cycles or not. After any messages were passed in
any order, an answer of `get_marginal` is not zero at an assignment that all factors and all evidence allow. -/
theorem C126_support (L : Laws ops D) (hs : HashSeed) (factors : List F) (hok : ∀ f ∈ factors, L.Ok f)
    (evidence : Option (Dict Var V)) (special : Dict Var V) (a : Any F V G)
    (h : new hs ops factors evidence special = .ok a)
    (tr : List (Fin a.m × F)) (g : Graph F V G a.n a.m) (hr : Run ops a.graph tr g)
    (vrs : List Var) (hn : vrs.Nodup) (hv : ∀ v ∈ vrs, v ∉ Dict.keys special) (r : F)
    (hm : getMarginal ops g vrs = .ok r) (x : Var → D)
    (hx : ∀ f ∈ factors, L.den f (given L evidence (override (evPairs L special) x)) ≠ 0) :
    L.den r x ≠ 0 := by
  obtain ⟨w, hsp, _⟩ := wired_new h
  have b := hr.bel w (new_ok L hok h)
  have inv := hr.inv w
  rcases C53_get_marginal ops a.n a.m g vrs with ⟨_, he⟩ | ⟨i, hi, _, he⟩
  · rw [he] at hm; cases hm
  rw [he] at hm
  obtain ⟨f, h1, h2⟩ := py_bind_eq_ok.1 hm
  have hgs : g.special = special := inv.special.trans hsp
  rw [hgs] at h1
  obtain ⟨f1, f2, f3⟩ := L.observe (b.ok i) special h1
  obtain ⟨_, _, hz⟩ := L.marg f1 hn (fun v hvv => (f2 v).2 ⟨hi v hvv, hv v hvv⟩) h2
  have hpos := b.belief_pos w (new_pos L hok h hx) i
  rw [hsp] at hpos
  intro h0
  exact hpos ((f3 x).symm.trans ((hz x).1 h0 x fun _ _ => rfl))

end general

variable {C : Var → Nat} {S : Var → Finset Nat}

/-- What a caller of `process_graph` and `get_marginal` sees, for one cluster or several. -/
theorem prune_marginal (hs : HashSeed) (factors : List (Sparse ℝ)) (hok : ∀ f ∈ factors, Labelled C S f)
    (evidence : Option (Dict Var Nat)) (special : Dict Var Nat) (hkeys : (Dict.keys special).Nodup)
    (a : Any (Sparse ℝ) Nat EReal) (h : new hs (sparseOps hs) factors evidence special = .ok a)
    (tol : EReal) (maxIter : Nat) (g : Graph (Sparse ℝ) Nat EReal a.n a.m)
    (hg : processGraph (sparseOps hs) tol maxIter a.graph = .ok g)
    (vrs : List Var) (hn : vrs.Nodup) (hv : ∀ v ∈ vrs, v ∉ Dict.keys special) (r : Sparse ℝ)
    (hm : getMarginal (sparseOps hs) g vrs = .ok r) :
    LabelOk C (bound C S) S r ∧ (∀ v, v ∈ r.vars ↔ v ∈ vrs) ∧
    ∀ x : Asg, (∀ f ∈ factors, f.prob (override (evidence.getD []) (override special x)) ≠ 0) → r.prob x ≠ 0 := by
  obtain ⟨L, hL⟩ : ∃ L, L = labelLaws hs C (bound C S) S := ⟨_, rfl⟩
  have hok' : ∀ f ∈ factors, L.Ok f := fun f hf => by rw [hL]; exact (hok f hf).ok
  have hden : ∀ f, L.den f = f.prob := fun f => by rw [hL]; rfl
  have hval : ∀ d : Dict Var Nat, evPairs L.toLaws d = d := fun d => by
    unfold evPairs; rw [hL]; simp [labelLaws]
  have hOk : ∀ f, L.Ok f = LabelOk C (bound C S) S f := fun f => by rw [hL]; rfl
  have hgiv : ∀ x : Asg, given L.toLaws evidence x = override (evidence.getD []) x := fun x => by
    unfold given; rw [hval]
  obtain ⟨w, hsp, _⟩ := wired_new h
  have hok0 := new_ok L.toLaws hok' h
  rcases C53_get_marginal (sparseOps hs) a.n a.m g vrs with ⟨_, he⟩ | ⟨i, hi, _, he⟩
  · rw [he] at hm; cases hm
  have hm' := hm
  rw [he] at hm'
  obtain ⟨f, h1, h2⟩ := py_bind_eq_ok.1 hm'
  -- the factor asked, its special evidence, and its support
  have key : L.Ok (g.cl i).factor ∧ g.special = special ∧ ∀ x : Asg,
      (∀ f ∈ factors, f.prob (override (evidence.getD []) (override special x)) ≠ 0) →
      L.den (g.cl i).factor (override (evPairs L.toLaws special) x) ≠ 0 := by
    have hx' : ∀ x : Asg, (∀ f ∈ factors, f.prob (override (evidence.getD []) (override special x)) ≠ 0) →
        ∀ f ∈ factors, L.den f (given L.toLaws evidence (override (evPairs L.toLaws special) x)) ≠ 0 :=
      fun x hx f hf => by rw [hval, hgiv, hden]; exact hx f hf
    by_cases hn1 : a.n = 1
    · unfold processGraph at hg
      dsimp only at hg
      rw [dif_pos hn1] at hg
      unfold processSingle at hg
      dsimp only at hg
      split at hg
      · simp only [Except.ok.injEq] at hg
        rw [← hg]
        exact ⟨hok0 i, hsp, fun x hx => by
          have := new_pos L.toLaws hok' h (hx' x hx) i
          rwa [hsp] at this⟩
      · obtain ⟨f', hf', hg⟩ := py_bind_eq_ok.1 hg
        simp only [Except.ok.injEq] at hg
        rw [hsp] at hf'
        obtain ⟨i0, hi0⟩ : ∃ i0 : Fin a.n, i0 = ⟨0, by omega⟩ := ⟨_, rfl⟩
        have hii : i = i0 := Fin.ext (by have := i.2; rw [hi0]; simp only; omega)
        rw [← hi0] at hf'
        have hsc : ∀ v ∈ Dict.keys special, v ∈ (a.graph.cl i0).factor.vars := fun v hvk => by
          by_contra hnot
          exact Sparse.reduce_unknown _ _ _ hvk hnot f' hf'
        obtain ⟨k1, _, k3⟩ := L.red (hok0 i0) hkeys hsc (by simp [Dict.keys, Dict.values]) hf'
        have hcl : (g.cl i).factor = f' := by rw [← hg, hii]; simp [hi0]
        rw [hcl]
        refine ⟨k1, by rw [← hg]; exact hsp, fun x hx => ?_⟩
        have := new_pos L.toLaws hok' h (hx' x hx) i0
        rw [hsp] at this
        rw [k3]
        refine fun h0 => this (Eq.trans ?_ h0)
        congr 1
        have hz : (Dict.keys special).zip ((Dict.values special).map L.val) = evPairs L.toLaws special := by
          unfold Dict.keys Dict.values evPairs
          rw [List.map_map, List.zip_map']
          rfl
        rw [hz]
        funext v
        cases hd : Dict.get? special v <;> simp [override_apply, hd]
    · obtain ⟨tr', hgr, _⟩ := Greedy.process w hn1 Run.start hg
      have hr : Run (sparseOps hs) a.graph tr' g := by simpa using hgr.run .start
      have b := hr.bel w hok0
      refine ⟨b.ok i, (hr.inv w).special.trans hsp, fun x hx => ?_⟩
      have := b.belief_pos w (new_pos L.toLaws hok' h (hx' x hx)) i
      rwa [hsp] at this
  obtain ⟨k1, k2, k3⟩ := key
  rw [k2] at h1
  obtain ⟨f1, f2, f3⟩ := L.toLaws.observe k1 special h1
  obtain ⟨r1, r2, r3⟩ := L.marg f1 hn (fun v hvv => (f2 v).2 ⟨hi v hvv, hv v hvv⟩) h2
  refine ⟨by rw [← hOk]; exact r1, r2, fun x hx h0 => k3 x hx ?_⟩
  rw [← f3]
  exact (r3 x).1 (by rw [hden]; exact h0) x fun _ _ => rfl

/-- **C126.** A cluster graph of sparse factors, with cycles or not, whose assignments use any values (such as
`1 .. 9`), and for which some assignment `sol` is allowed by all factors and all evidence. Building the graph
returns; `process_graph` returns, whatever the tolerance and the number of iterations, if the graph has several
clusters or there is no special evidence; and then the marginal of any unobserved variables of one input factor is
returned, and is not zero at any assignment that all factors and all evidence allow. -/
theorem C126_sparse (hs : HashSeed) (factors : List (Sparse ℝ)) (hok : ∀ f ∈ factors, Labelled C S f)
    (hSC : ∀ v, (S v).card ≤ C v) (evidence : Option (Dict Var Nat)) (special : Dict Var Nat)
    (hkeys : (Dict.keys special).Nodup) (sol : Asg)
    (hsol : ∀ f ∈ factors, f.prob (override (evidence.getD []) (override special sol)) ≠ 0) :
    ∃ a, new hs (sparseOps hs) factors evidence special = .ok a ∧ ∀ tol maxIter,
      (a.n ≠ 1 ∨ special = [] → ∃ g, processGraph (sparseOps hs) tol maxIter a.graph = .ok g ∧
        ∀ f ∈ factors, ∀ vrs : List Var, vrs.Nodup → (∀ v ∈ vrs, v ∈ f.vars ∧
          v ∉ Dict.keys (evidence.getD []) ∧ v ∉ Dict.keys special) → ∃ r, getMarginal (sparseOps hs) g vrs = .ok r) ∧
      ∀ g, processGraph (sparseOps hs) tol maxIter a.graph = .ok g → ∀ vrs : List Var, vrs.Nodup →
        (∀ v ∈ vrs, v ∉ Dict.keys special) → ∀ r, getMarginal (sparseOps hs) g vrs = .ok r → ∀ x : Asg,
        (∀ f ∈ factors, f.prob (override (evidence.getD []) (override special x)) ≠ 0) → r.prob x ≠ 0 := by
  obtain ⟨L, hL⟩ : ∃ L, L = labelLaws hs C (bound C S) S := ⟨_, rfl⟩
  have T : Total L.toLaws := by rw [hL]; exact labelTotal hs le_bound lt_bound hSC
  have hok' : ∀ f ∈ factors, L.Ok f := fun f hf => by rw [hL]; exact (hok f hf).ok
  have hx' : ∀ f ∈ factors, L.den f (given L.toLaws evidence (override (evPairs L.toLaws special) sol)) ≠ 0 := by
    intro f hf
    have := hsol f hf
    unfold given evPairs
    simp only [hL, labelLaws, id_eq, Prod.mk.eta, List.map_id']
    exact this
  obtain ⟨a, ha⟩ := T.new hs hok' evidence special hx'
  obtain ⟨w, hsp, _⟩ := wired_new ha
  have hx0 := new_pos L.toLaws hok' ha hx'
  have hok0 := new_ok L.toLaws hok' ha
  refine ⟨a, ha, fun tol k => ⟨fun hn => ?_, fun g hg vrs hn hv r hm =>
    (prune_marginal hs factors hok evidence special hkeys a ha tol k g hg vrs hn hv r hm).2.2⟩⟩
  have hrun : ∃ g tr, processGraph (sparseOps hs) tol k a.graph = .ok g ∧ Run (sparseOps hs) a.graph tr g := by
    by_cases hn1 : a.n = 1
    · have hs0 : special = [] := hn.resolve_left (not_not.2 hn1)
      refine ⟨{ a.graph with dists := [] }, [], ?_, Run.start.admin ⟨rfl, rfl, rfl, rfl, List.Perm.refl _⟩⟩
      unfold processGraph
      dsimp only
      rw [dif_pos hn1]
      unfold processSingle
      dsimp only
      rw [if_pos (by rw [hsp, hs0])]
    · obtain ⟨g, hg⟩ := T.process w hok0 hx0 hn1 tol k .start
      obtain ⟨tr', hgr, _⟩ := Greedy.process w hn1 Run.start hg
      exact ⟨g, tr', hg, by simpa using hgr.run .start⟩
  obtain ⟨g, tr, hg, hr⟩ := hrun
  refine ⟨g, hg, fun f hf vrs hn hv => ?_⟩
  obtain ⟨i, hi⟩ := new_covers L.toLaws hok' ha hf
  refine T.getMarginal w hok0 hr hx0 hn ⟨i, fun v hvv => hi v (hv v hvv).1 (hv v hvv).2.1⟩ fun v hvv => ?_
  rw [hsp]
  exact (hv v hvv).2.2

/-- **C126**, reading off a solution (`compute_solution` of `examples/sudoku.ipynb`). If after `process_graph` the
marginal of a variable is non-zero at one value only, then `argmax` returns that value, and every assignment that
all factors and all evidence allow has it. -/
theorem C126_solved (hs : HashSeed) (factors : List (Sparse ℝ)) (hok : ∀ f ∈ factors, Labelled C S f)
    (evidence : Option (Dict Var Nat)) (special : Dict Var Nat) (hkeys : (Dict.keys special).Nodup)
    (a : Any (Sparse ℝ) Nat EReal) (h : new hs (sparseOps hs) factors evidence special = .ok a)
    (tol : EReal) (maxIter : Nat) (g : Graph (Sparse ℝ) Nat EReal a.n a.m)
    (hg : processGraph (sparseOps hs) tol maxIter a.graph = .ok g)
    (v : Var) (hv : v ∉ Dict.keys special) (r : Sparse ℝ) (hm : getMarginal (sparseOps hs) g [v] = .ok r)
    (hone : ∀ x y : Asg, r.prob x ≠ 0 → r.prob y ≠ 0 → x v = y v) (sol : Asg)
    (hsol : ∀ f ∈ factors, f.prob (override (evidence.getD []) (override special sol)) ≠ 0) :
    Sparse.argmax r = .ok [sol v] := by
  obtain ⟨ro, rv, rs⟩ := prune_marginal hs factors hok evidence special hkeys a h tol maxIter g hg [v]
    (List.nodup_singleton v) (fun u hu => by rw [List.mem_singleton.1 hu]; exact hv) r hm
  have hp := rs sol hsol
  have hreg := ro.2.1.1
  have hne : (Sparse.recard (bound C S) r).table ≠ [] := fun h0 => by
    have := mem_keys_of_prob hreg hp
    rw [h0] at this
    cases this
  obtain ⟨k, k1, k2, k3, _⟩ := (Sparse.C08_argmax_maximises _ hreg).2 hne
  have hvars : r.vars = [v] :=
    List.perm_singleton.1 ((List.perm_ext_iff_of_nodup hreg.wf.nodup (List.nodup_singleton v)).2 fun u =>
      (rv u))
  have hlen : k.length = 1 := by
    have := ro.shaped.keyLen k k2
    rw [this, hvars]; rfl
  obtain ⟨j, rfl⟩ := List.length_eq_one_iff.1 hlen
  have hj : r.prob (asgOf r.vars [j]) ≠ 0 := by
    have h3 := k3 sol
    have hpr : ∀ y, (r.val y).Proper := fun y => hreg.val_proper y
    unfold Sparse.prob at hp ⊢
    change XF.lt (r.val (asgOf r.vars [j])) (r.val sol) = false at h3
    have q1 := hpr sol
    have q2 := hpr (asgOf r.vars [j])
    generalize r.val sol = s at *
    generalize r.val (asgOf r.vars [j]) = t at *
    cases s <;> cases t <;> simp_all [XF.prob, XF.lt, XF.Proper]
  have := hone _ sol hj hp
  rw [hvars] at this
  show Sparse.argmax (Sparse.recard (bound C S) r) = _
  rw [k1, ← this]
  simp [asgOf]

end Verif.CG
