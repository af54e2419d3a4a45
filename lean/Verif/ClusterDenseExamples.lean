import Verif.ClusterProps9

/-!
# Cluster graphs of dense categorical factors: concrete cases and violations of C97 and C98
-/

namespace Verif.CG
open Spec (override Asg sumOut)
open Classical
open Cat (mk0 mk0_wf exS)

/-- Two values each. -/
def dC : Var → Nat := fun _ => 2

/-- The values 0 and 1. -/
def dN : Var → List AName := fun _ => [.int 0, .int 1]

/-- A factor over `a, b`, with the given entries. -/
def dF (get : List Nat → XF ℝ) : Cat ℝ := mk0 ["a", "b"] [2, 2] get

/-- A factor over `b, c` without zeros. -/
noncomputable def dG : Cat ℝ := mk0 ["b", "c"] [2, 2] fun i => .fin (i.sum : ℝ)

theorem dense_input (get : List Nat → XF ℝ) (hget : ∀ i, (get i).Proper) (obs : List Var) :
    DenseInput dC dN obs [dF get, dG] := by
  refine ⟨fun _ => le_rfl, ?_, ?_, ?_, ?_, ?_⟩
  · intro f hf
    simp only [List.mem_cons, List.not_mem_nil, or_false] at hf
    rcases hf with rfl | rfl <;> exact mk0_wf _ (by decide) rfl
  · intro f hf x hx
    simp only [List.mem_cons, List.not_mem_nil, or_false] at hf
    rcases hf with rfl | rfl
    · exact hget _
    · trivial
  · intro f hf v hv
    simp only [List.mem_cons, List.not_mem_nil, or_false] at hf
    rcases hf with rfl | rfl <;>
      (simp only [dF, dG, mk0, Cat.mk', List.mem_cons, List.not_mem_nil, or_false] at hv
       rcases hv with rfl | rfl <;> rfl)
  · intro f hf v hv
    simp only [List.mem_cons, List.not_mem_nil, or_false] at hf
    rcases hf with rfl | rfl <;>
      (simp only [dF, dG, mk0, Cat.mk', List.mem_cons, List.not_mem_nil, or_false] at hv
       rcases hv with rfl | rfl <;> rfl)
  · rw [List.pairwise_cons]
    refine ⟨fun g hg => ?_, by simp⟩
    simp only [List.mem_cons, List.not_mem_nil, or_false] at hg
    subst hg
    intro u v h1 h2 _ h3 h4 _
    have key : ∀ u, u ∈ ["a", "b"] → u ∈ ["b", "c"] → u = "b" := by decide
    exact (key u h1 h2).trans (key v h3 h4).symm

/-- The factor over `a, b` without zeros. -/
noncomputable def dPos : Cat ℝ := dF fun i => .fin (2 * (i.sum : ℝ))

theorem dense_pos (special : Dict Var Nat) (h : special = [] ∨ special = [("c", 0)]) :
    DensePos dC [dPos, dG] none special := by
  constructor
  · intro f _ v _ k hk
    rcases h with rfl | rfl
    · simp [Dict.get?] at hk
    · simp only [Option.getD_none, Dict.get?] at hk
      rcases hk with hk | hk
      · cases hk
      · split at hk
        · simp only [Option.some.injEq] at hk; subst hk; unfold dC; decide
        · cases hk
  · intro f hf x _
    simp only [List.mem_cons, List.not_mem_nil, or_false] at hf
    rcases hf with rfl | rfl <;> exact Real.exp_ne_zero _

/-- With any entries, the graph has two clusters and a path from `a, b` to `b, c`. -/
theorem dense_two {get : List Nat → XF ℝ} (hget : ∀ i, (get i).Proper) {hs : HashSeed} {special : Dict Var Nat}
    (hb : "b" ∉ Dict.keys special) {a : Any (Cat ℝ) Nat EReal}
    (h : new hs (idealOps hs) [dF get, dG] none special = .ok a) :
    a.n = 2 ∧ ∃ q, (scope (idealOps hs) a.graph (a.graph.path q).snd).Perm ["a", "b"] ∧
      (a.graph.cl (a.graph.path q).snd).factor = dF get ∧
      (scope (idealOps hs) a.graph (a.graph.path q).rcv).Perm ["b", "c"] ∧ sepOf a.graph q = ["b"] := by
  have hi := dense_input get hget (evidenceVars none special)
  have hok := hi.ok
  have hfs : clusterFactors (idealOps hs) [dF get, dG] none = .ok [dF get, dG] := rfl
  obtain ⟨fs, h1, h2⟩ := new_factors h
  rw [hfs] at h1
  obtain rfl : [dF get, dG] = fs := by simpa using h1
  have hn : a.n = 2 := by have := congrArg List.length h2; simpa using this
  obtain ⟨w, hsp, _⟩ := wired_new h
  refine ⟨hn, ?_⟩
  have hf0 : (a.graph.cl ⟨0, by omega⟩).factor = dF get := by
    have := congrArg (fun l => l[0]?) h2
    rw [List.getElem?_ofFn, dif_pos (show 0 < a.n by omega)] at this
    simpa using this
  have hf1 : (a.graph.cl ⟨1, by omega⟩).factor = dG := by
    have := congrArg (fun l => l[1]?) h2
    rw [List.getElem?_ofFn, dif_pos (show 1 < a.n by omega)] at this
    simpa using this
  have hs0 : scope (idealOps hs) a.graph ⟨0, by omega⟩ = ["a", "b"] := by unfold scope; rw [hf0]; rfl
  have hs1 : scope (idealOps hs) a.graph ⟨1, by omega⟩ = ["b", "c"] := by unfold scope; rw [hf1]; rfl
  have hbi : "b" ∈ freeVars (idealOps hs) a.graph ⟨0, by omega⟩ :=
    mem_freeVars.2 ⟨by rw [hs0]; decide, by rw [hsp]; exact hb⟩
  have hbj : "b" ∈ freeVars (idealOps hs) a.graph ⟨1, by omega⟩ :=
    mem_freeVars.2 ⟨by rw [hs1]; decide, by rw [hsp]; exact hb⟩
  have hrip := rip_free (denseLaws hs dC dN hi.two).toLaws hok h "b" _ _ hbi hbj
  rcases Relation.ReflTransGen.cases_head hrip with hh | ⟨k, ⟨hk, _⟩, _⟩
  · exact absurd (congrArg Fin.val hh) (by simp)
  · obtain ⟨s, hs'⟩ := w.edge_adj.1 hk
    have hk1 : k = ⟨1, by omega⟩ := by
      have hne : k ≠ ⟨0, by omega⟩ := by
        rintro rfl
        rw [w.sepIrrefl] at hs'
        cases hs'
      have := k.2
      have : (k : Nat) ≠ 0 := fun h => hne (Fin.ext h)
      exact Fin.ext (by simp; omega)
    subst hk1
    obtain ⟨q, hq1, hq2⟩ := (w.pathSep _ _).2 ⟨s, hs'⟩
    refine ⟨q, ?_, ?_, ?_, ?_⟩
    · rw [hq1, hs0]
    · rw [hq1, hf0]
    · rw [hq2, hs1]
    · have hlen := sepset_short hi.two hok hi.share h _ _ s hs'
      obtain ⟨v, rfl⟩ := length_one hlen.1 hlen.2
      have e : sepOf a.graph q = [v] := by
        have := w.sepOf_eq q
        rw [hq1, hq2, hs', Option.some.injEq] at this
        exact this.symm
      rw [e]
      have hm := w.sepOf_mem q (v := v) (by rw [e]; simp)
      rw [hq1, hq2, hs0, hs1] at hm
      have key : ∀ u, u ∈ ["a", "b"] → u ∈ ["b", "c"] → u = "b" := by decide
      rw [key v hm.1 hm.2.1]

/-- C97 and C99 apply: two rounds suffice, and the marginal of `a` given `c = 0` is exact. -/
example : ∃ a g r, new HashSeed.example (denseOps HashSeed.example) [dPos, dG] none [("c", 0)] = .ok a ∧
    processGraph (denseOps HashSeed.example) 0 2 a.graph = .ok g ∧
    getMarginal (denseOps HashSeed.example) g ["a"] = .ok r ∧ ∃ c : ℝ, 0 < c ∧ ∀ x, x "a" < 2 → r.prob x = c * sumOut dC
      ((([dPos, dG].flatMap fun f => f.vars).toFinset.filter fun v =>
        v ∉ Dict.keys ((none : Option (Dict Var Nat)).getD []) ∧ v ∉ Dict.keys [("c", 0)]) \ {"a"})
      (fun x => ([dPos, dG].map fun f =>
        if f.InRange (override ((none : Option (Dict Var Nat)).getD []) (override [("c", 0)] x)) then
          f.prob (override ((none : Option (Dict Var Nat)).getD []) (override [("c", 0)] x)) else 0).prod) x := by
  have hi : DenseInput dC dN (evidenceVars none [("c", 0)]) [dPos, dG] :=
    dense_input (fun i => .fin (2 * (i.sum : ℝ))) (fun _ => trivial) _
  obtain ⟨a, ha, h⟩ := C97_dense_tree_inference_partial HashSeed.example dC dN [dPos, dG] none [("c", 0)] hi
    (dense_pos _ (Or.inr rfl)) _ (fun _ => rfl)
  have ha' := ha
  rw [new_same hi.two hi.ok hi.share] at ha'
  obtain ⟨hn, _⟩ := dense_two (get := fun i => .fin (2 * (i.sum : ℝ))) (fun _ => trivial) (by decide) ha'
  obtain ⟨g, hg, hall⟩ := h (by omega) (acyclic_of_two (by omega) _) 2 (by omega)
  obtain ⟨r, hr, _, _, _, hc⟩ := hall dPos (by simp) "a" (by decide) (by simp [Dict.keys]) (by decide)
  exact ⟨a, g, r, ha, hg, hr, hc⟩

/-! ### Violations -/

/-- The factor over `a, b` that excludes `b = 1`. -/
noncomputable def dZero : Cat ℝ := dF fun i => if i.getD 1 0 = 1 then .ninf else .fin 0

/-- **C98 violated:** the message about `b` from the cluster with `dZero` has a zero; passing it once returns,
passing along the same path again raises `IndexError`, although the evidence (there is none) is possible. -/
theorem C98_zero_raises (hs : HashSeed) : ∃ (a : Any (Cat ℝ) Nat EReal) (q : Fin a.m) (g : Graph (Cat ℝ) Nat EReal a.n a.m),
    new hs (denseOps hs) [dZero, dG] none [] = .ok a ∧ pass (denseOps hs) a.graph q = .ok g ∧
    pass (denseOps hs) g q = .error .indexError := by
  have hprop : ∀ i : List Nat, ((fun i : List Nat => if i.getD 1 0 = 1 then XF.ninf else (.fin 0 : XF ℝ)) i).Proper := by
    intro i
    dsimp only
    split <;> trivial
  have hi : DenseInput dC dN (evidenceVars none ([] : Dict Var Nat)) [dZero, dG] := dense_input _ hprop _
  obtain ⟨a, ha, h⟩ := C98_dense_step hs dC dN [dZero, dG] none [] hi ⟨fun _ => 0, fun f hf => by
    simp only [List.mem_cons, List.not_mem_nil, or_false] at hf
    rcases hf with rfl | rfl
    · exact ⟨by unfold Cat.InRange; decide, Real.exp_ne_zero _⟩
    · exact ⟨by unfold Cat.InRange; decide, Real.exp_ne_zero _⟩⟩
  have ha' := ha
  rw [new_same hi.two hi.ok hi.share] at ha'
  obtain ⟨hn, q, hq1, hq2, hq3, hq4⟩ := dense_two hprop (by decide) ha'
  obtain ⟨w, hsp, _⟩ := wired_new ha'
  have hok0 := new_ok (denseLaws hs dC dN hi.two).toLaws hi.ok ha'
  obtain ⟨g, hg⟩ := (h [] a.graph .start q).2 (by rintro ⟨p, hp, _⟩; simp at hp)
  refine ⟨a, q, g, ha, hg, ?_⟩
  have hr0 : Run (idealOps hs) a.graph [] a.graph := .start
  have b := hr0.bel (L := (denseLaws hs dC dN hi.two).toLaws) w hok0
  have inv := hr0.inv w
  obtain ⟨r, hr1, hr2, hr3⟩ := w.rev q
  obtain ⟨n1, n2, _⟩ := b.next w inv hr1 hr2 hr3
  refine (h _ g (Run.pass q .start hg) q).1 ⟨(a.graph.path q).next.factor, by simp [lastMsg], ⟨fun _ => 1, ?_⟩, ?_⟩
  · have hin : (a.graph.path q).next.factor.InRange fun _ => 1 := DenseOk.inRange n1 |>.2 fun v _ => by unfold dC; decide
    refine ⟨hin, ?_⟩
    rw [← denseDen_of hin]
    refine (b.next_zero w inv q _).2 fun y hy => ?_
    show denseDen (a.graph.cl (a.graph.path q).snd).factor _ = 0
    rw [hq2, hsp]
    have hyb : y "b" = 1 := hy "b" (by rw [hq4]; simp)
    unfold denseDen
    split
    · show (if ([y "a", y "b"] : List Nat).getD 1 0 = 1 then XF.ninf else (.fin 0 : XF ℝ)).prob = 0
      simp [hyb, XF.prob]
    · rfl
  · have := hq3.length_eq
    show 2 ≤ (scope (idealOps hs) a.graph (a.graph.path q).rcv).length
    rw [this]; simp

/-- **C97 violated, queries for two variables:** the graph of the single factor `exS`, which is one at `a = 0, b = 1`
and zero elsewhere. The query for `["b", "a"]` returns a factor that is zero at `a = 0, b = 1`. -/
theorem C97_joint_query_wrong (hs : HashSeed) : ∃ (a : Any (Cat ℝ) Nat EReal) (g : Graph (Cat ℝ) Nat EReal a.n a.m)
    (r : Cat ℝ), new hs (denseOps hs) [exS] none [] = .ok a ∧ processGraph (denseOps hs) 0 1 a.graph = .ok g ∧
    getMarginal (denseOps hs) g ["b", "a"] = .ok r ∧ r.vars = ["b", "a"] ∧
    exS.prob (fun v => if v = "b" then 1 else 0) = 1 ∧ r.prob (fun v => if v = "b" then 1 else 0) = 0 := by
  obtain ⟨_, h2, r, h3, h4, h5⟩ := Cat.C18_marginalize_wrong_order hs
  refine ⟨_, _, r, rfl, rfl, ?_, h4, ?_, ?_⟩
  · exact h3
  · unfold Cat.prob; rw [h2]; simp [XF.prob]
  · unfold Cat.prob; rw [h5]; simp [XF.prob]

/-- **C97 violated, sepsets of two variables:** two clusters over `a, b` are joined by a sepset whose order is the
iteration order of a set. For one hash seed the message from the cluster with `exS` is `exS`, for another its
two variables are exchanged. -/
theorem C97_hash_dependent :
    (∃ s msg, Dict.get? (ripSepsets (n := 2) HashSeed.example (fun _ => ["a", "b"]) []) (0, 1) = some s ∧
      makeMessage (denseOps HashSeed.example) { id := "c0", factor := exS, sepsets := [("c1", s)], special := some [] } "c1"
        = .ok msg ∧ msg.factor.val (fun v => if v = "b" then 1 else 0) = .fin 0) ∧
    (∃ s msg, Dict.get? (ripSepsets (n := 2) Sparse.revSeed (fun _ => ["a", "b"]) []) (0, 1) = some s ∧
      makeMessage (denseOps Sparse.revSeed) { id := "c0", factor := exS, sepsets := [("c1", s)], special := some [] } "c1"
        = .ok msg ∧ msg.factor.val (fun v => if v = "b" then 1 else 0) = .ninf) := by
  refine ⟨⟨["a", "b"], _, by decide +kernel, rfl, ?_⟩, ⟨["b", "a"], _, by decide +kernel, rfl, ?_⟩⟩
  · rfl
  · rfl

end Verif.CG
