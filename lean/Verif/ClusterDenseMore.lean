import Verif.ClusterProps9
import Verif.ClusterDenseExamples
import Verif.ClusterPrune
import Verif.GainProps

/-!
# C123 and C126 for graphs of dense categorical factors

As in C97, for factors any two of which share at most one unobserved variable (the others are affected by C18), and for
executions in which no message raised (C98).
-/

namespace Verif.CG
open Spec (override Asg)
open Classical

variable {C : Var → Nat} {N : Var → List AName}

/-- **C126, dense factors (part).** After any messages, in any order, on any graph, the marginal of an unobserved variable
is not zero at a value that occurs in an assignment allowed by all factors and all evidence. Missing: factors that share more
than one unobserved variable and queries of several variables (C18, C97), and that the messages can be passed (C98). -/
theorem C126_dense_partial (hs : HashSeed) (C : Var → Nat) (N : Var → List AName) (factors : List (Cat ℝ))
    (evidence : Option (Dict Var Nat)) (special : Dict Var Nat)
    (hi : DenseInput C N (evidenceVars evidence special) factors)
    (a : Any (Cat ℝ) Nat EReal) (h : new hs (denseOps hs) factors evidence special = .ok a)
    (tr : List (Fin a.m × Cat ℝ)) (g : Graph (Cat ℝ) Nat EReal a.n a.m) (hr : Run (denseOps hs) a.graph tr g)
    (v : Var) (hun : v ∉ Dict.keys special) (r : Cat ℝ) (hm : getMarginal (denseOps hs) g [v] = .ok r) (x : Asg)
    (hx : ∀ f ∈ factors, f.InRange (override (evidence.getD []) (override special x)) ∧
      f.prob (override (evidence.getD []) (override special x)) ≠ 0) : r.InRange x ∧ r.prob x ≠ 0 := by
  rw [new_same hi.two hi.ok hi.share] at h
  obtain ⟨w, hsp, _⟩ := wired_new h
  have hok0 := new_ok (denseLaws hs C N hi.two).toLaws hi.ok h
  have hsep := sepset_short hi.two hi.ok hi.share h
  have hr' : Run (idealOps hs) a.graph tr g := hr.transport fun tr g q g' hr h =>
    pass_dense hi.two w hok0 (fun i j s h => (hsep i j s h).1) (fun i j s h => (hsep i j s h).2) hr h
  rw [getMarginal_same (by simp)] at hm
  have hx' : ∀ f ∈ factors, denseDen f (override (evidence.getD []) (override special x)) ≠ 0 := fun f hf => by
    rw [denseDen_of (hx f hf).1]; exact (hx f hf).2
  have hne := C126_support (denseLaws hs C N hi.two).toLaws hs factors hi.ok evidence special a h tr g hr' [v] (by simp)
    (by simpa using hun) r hm x (possible_dense hi.two hx')
  have hne' : denseDen r x ≠ 0 := hne
  unfold denseDen at hne'
  by_cases hin : r.InRange x
  · exact ⟨hin, by rwa [if_pos hin] at hne'⟩
  · rw [if_neg hin] at hne'; exact absurd rfl hne'

/-- The distance of a normalised message from the message sent before, or from the uniform one if there was none. -/
noncomputable def changeDense (C : Var → Nat) (f : Cat ℝ) : Option (Cat ℝ) → ℝ
  | none => Spec.l1 (f.vars.map fun v => (v, C v)) f.dist fun _ => 1 / ((f.vars.map C).prod : ℕ)
  | some p => Spec.l1 (p.vars.map fun v => (v, C v)) p.dist f.dist

/-- **C123, message passing, dense factors.** After any execution that has brought all information gains to at most `tol`, no
message that could be passed next differs by more than `√(2 tol)` from the one passed before on the same path - from the
uniform one if none was. For factors any two of which share at most one unobserved variable, as in C97. -/
theorem C123_dense_messages (hs : HashSeed) (C : Var → Nat) (N : Var → List AName) (factors : List (Cat ℝ))
    (evidence : Option (Dict Var Nat)) (special : Dict Var Nat)
    (hi : DenseInput C N (evidenceVars evidence special) factors)
    (a : Any (Cat ℝ) Nat EReal) (h : new hs (denseOps hs) factors evidence special = .ok a)
    (hpos : ∃ x : Asg, ∀ f ∈ factors, f.InRange (override (evidence.getD []) (override special x)) ∧
      f.prob (override (evidence.getD []) (override special x)) ≠ 0)
    (tr : List (Fin a.m × Cat ℝ)) (g : Graph (Cat ℝ) Nat EReal a.n a.m) (hr : Run (denseOps hs) a.graph tr g)
    (tol : ℝ) (hgain : ∀ q, (g.path q).gain ≤ (tol : EReal)) (q : Fin a.m) :
    changeDense C (g.path q).next.factor (lastMsg tr q) ≤ √(2 * tol) := by
  rw [new_same hi.two hi.ok hi.share] at h
  obtain ⟨w, hsp, _⟩ := wired_new h
  have hok0 := new_ok (denseLaws hs C N hi.two).toLaws hi.ok h
  have hsep := sepset_short hi.two hi.ok hi.share h
  have hr' : Run (idealOps hs) a.graph tr g := hr.transport fun tr g q g' hr h =>
    pass_dense hi.two w hok0 (fun i j s h => (hsep i j s h).1) (fun i j s h => (hsep i j s h).2) hr h
  obtain ⟨x0, hx0⟩ := hpos
  have hx1 : ∀ f ∈ factors, denseDen f (override (evidence.getD []) (override special x0)) ≠ 0 := fun f hf => by
    rw [denseDen_of (hx0 f hf).1]; exact (hx0 f hf).2
  have inv := hr'.inv w
  have b := hr'.bel (L := (denseLaws hs C N hi.two).toLaws) w hok0
  have hx0 := new_pos (denseLaws hs C N hi.two).toLaws hi.ok h (possible_dense hi.two hx1)
  obtain ⟨rv, hr1, hr2, hr3⟩ := w.rev q
  obtain ⟨n1, n2, _⟩ := b.next w inv hr1 hr2 hr3
  have n1 : DenseOk C N (g.path q).next.factor := n1
  have hnz := b.next_pos w inv hx0 q
  have hmn : 0 < (g.path q).next.factor.mass := n1.mass_pos ⟨x0, hnz⟩
  have hroot : ∀ {k : ℝ}, (k : EReal) ≤ (tol : EReal) → √(2 * k) ≤ √(2 * tol) := by
    intro k hk
    apply Real.sqrt_le_sqrt
    have : k ≤ tol := by exact_mod_cast hk
    linarith
  have hcards : ∀ {f : Cat ℝ}, DenseOk C N f → (f.vars.map fun v => (v, f.card v)) = f.vars.map fun v => (v, C v) :=
    fun hf => List.map_congr_left fun v hv => by rw [hf.card v hv]
  rcases inv.gain q with hg | ⟨hg0, hp⟩
  · cases hp : (g.path q).prev with
    | none =>
      have hl : lastMsg tr q = none := by rw [← inv.prev, hp]; rfl
      rw [hp] at hg
      rw [hl]
      have hN := Cat.shape_prod_pos n1.wf hmn
      have k1 := Cat.distanceFromVacuous_kl n1.wf n1.proper hmn
      have h' : (do let d ← Cat.distanceFromVacuous (g.path q).next.factor; toGain d) = .ok (g.path q).gain := hg
      rw [k1] at h'
      have h'' := Except.ok.inj h'
      have hle := hgain q
      rw [← h''] at hle
      refine le_trans ?_ (hroot hle)
      have hcd : (g.path q).next.factor.tensor.shape = (g.path q).next.factor.vars.map C := by
        rw [n1.wf.shape]
        exact List.map_congr_left fun v hv => n1.card v hv
      unfold changeDense
      rw [← hcards n1, ← hcd]
      have hN' : (0 : ℝ) < ((g.path q).next.factor.tensor.shape.prod : ℕ) := Nat.cast_pos.2 hN
      refine Spec.pinsker _ _ n1.wf.nodup (fun x => div_nonneg (XF.prob_nonneg _) hmn.le) (fun x => by positivity)
        (fun x _ h0 => absurd h0 (by positivity)) (Cat.dist_sum hmn) ?_
      rw [Sparse.sumVars_const, List.map_map, n1.wf.shape]
      have : (List.map (Prod.snd ∘ fun v => (v, (g.path q).next.factor.card v)) (g.path q).next.factor.vars) =
        List.map (g.path q).next.factor.card (g.path q).next.factor.vars := rfl
      rw [this, ← n1.wf.shape]
      field_simp
    | some p =>
      have hl : lastMsg tr q = some p.factor := by rw [← inv.prev, hp]; rfl
      obtain ⟨o1, o2⟩ := b.msg q _ hl
      have o1 : DenseOk C N p.factor := o1
      have hpz : denseDen p.factor x0 ≠ 0 := by
        have := b.pos x0 hx0 q
        unfold mval at this
        rwa [hl] at this
      have hmp := o1.mass_pos ⟨x0, hpz⟩
      rw [hp] at hg
      rw [hl]
      have hss : Cat.SameScope p.factor (g.path q).next.factor := o1.sameScope n1 fun v => (o2 v).trans (n2 v).symm
      have h' : (do let d ← Cat.klDivergence p.factor (g.path q).next.factor; toGain d) = .ok (g.path q).gain := hg
      obtain ⟨d, hd, h'⟩ := py_bind_eq_ok.1 h'
      have hle := hgain q
      have hfin : ∃ r : ℝ, d = .fin r ∧ (r : EReal) ≤ tol := by
        obtain ⟨k1, k2⟩ := Cat.C24_kl_divergence p.factor _ o1.wf n1.wf o1.proper n1.proper hss hmp hmn
        by_cases hsup : ∀ x : Asg, p.factor.InRange x → (g.path q).next.factor.prob x = 0 → p.factor.prob x = 0
        · have := (k1 hsup).1
          rw [hd] at this
          have := Except.ok.inj this
          subst this
          have h'' := Except.ok.inj h'
          rw [← h''] at hle
          exact ⟨_, rfl, hle⟩
        · push Not at hsup
          obtain ⟨x, a1, a2, a3⟩ := hsup
          have := k2 ⟨x, a1, a2, a3⟩
          rw [hd] at this
          have := Except.ok.inj this
          subst this
          have h'' : (⊤ : EReal) = (g.path q).gain := Except.ok.inj h'
          rw [← h''] at hle
          exact absurd (top_le_iff.1 hle) (EReal.coe_ne_top _)
      obtain ⟨r, rfl, hle⟩ := hfin
      refine le_trans ?_ (hroot hle)
      unfold changeDense
      dsimp only
      rw [← hcards o1]
      exact (Cat.C123_dense _ _ o1.wf n1.wf o1.proper n1.proper hss hmp hmn r hd).1
  · have hl : lastMsg tr q = some (g.path q).next.factor := by rw [← inv.prev, hp]; rfl
    rw [hl]
    unfold changeDense Spec.l1
    simp only [sub_self, abs_zero]
    rw [Sparse.sumVars_const, mul_zero]
    positivity

/-- The hypotheses of `C126_dense_partial` and `C123_dense_messages` are met after `process_graph` in the example of C97. -/
example : ∃ (a : Any (Cat ℝ) Nat EReal) (tr : List (Fin a.m × Cat ℝ)) (g : Graph (Cat ℝ) Nat EReal a.n a.m) (r : Cat ℝ),
    new HashSeed.example (denseOps HashSeed.example) [dPos, dG] none [("c", 0)] = .ok a ∧
    Run (denseOps HashSeed.example) a.graph tr g ∧ (∀ q, (g.path q).gain ≤ ((0 : ℝ) : EReal)) ∧
    getMarginal (denseOps HashSeed.example) g ["a"] = .ok r ∧ r.prob (fun _ => 0) ≠ 0 := by
  have hi : DenseInput dC dN (evidenceVars none [("c", 0)]) [dPos, dG] :=
    dense_input (fun i => .fin (2 * (i.sum : ℝ))) (fun _ => trivial) _
  have hp := dense_pos [("c", 0)] (Or.inr rfl)
  obtain ⟨a, ha, hall⟩ := C98_dense_never_fails_partial HashSeed.example dC dN [dPos, dG] none [("c", 0)] hi hp
  have ha' := ha
  rw [new_same hi.two hi.ok hi.share] at ha'
  obtain ⟨hn, _⟩ := dense_two (get := fun i => .fin (2 * (i.sum : ℝ))) (fun _ => trivial) (by decide) ha'
  obtain ⟨g, hg, hgain⟩ := C99_dense_tree_converges_partial HashSeed.example dC dN [dPos, dG] none [("c", 0)] hi hp a ha
    (by omega) (acyclic_of_two (by omega) _) 0 le_rfl 2 (by omega) [] a.graph .start
  have w : Wired (denseOps HashSeed.example) (evidenceVars none [("c", 0)]) a.graph := (wired_new ha).1
  obtain ⟨tr, hgr, _⟩ := Greedy.process w (by omega) .start hg
  have hrun := hgr.run .start
  obtain ⟨r, hr⟩ := (hall _ g hrun).2.2 dPos (by simp) "a" (by decide) (by simp [Dict.keys]) (by decide)
  refine ⟨a, _, g, r, ha, hrun, fun q => by simpa using hgain q, hr, ?_⟩
  refine (C126_dense_partial HashSeed.example dC dN [dPos, dG] none [("c", 0)] hi a ha _ g hrun "a" (by decide) r hr
    (fun _ => 0) fun f hf => ?_).2
  have h0 := hp.possible hi (z := fun _ => 0) (fun v => by have := hi.two v; omega) f hf
  unfold denseDen at h0
  by_cases hin : f.InRange (override ((none : Option (Dict Var Nat)).getD []) (override [("c", 0)] fun _ => 0))
  · rw [if_pos hin] at h0; exact ⟨hin, h0⟩
  · rw [if_neg hin] at h0; exact absurd rfl h0

end Verif.CG
