import Verif.ClusterAgain
import Verif.ClusterTotal
import Verif.TreeWeight
import Mathlib.Algebra.BigOperators.Group.Finset.Basic

/-!
# Message passing on trees converges

A potential that decreases with every message whose content changes.
-/

namespace Verif.CG
open Spec (override Asg sumOut)
open Classical
variable {F V G : Type} {n m : Nat} {ops : Ops F V G}

/-- The next message of the path has the shape of the last one. -/
def Clean (L : SumLaws ops) (g0 : Graph F V G n m) (tr : List (Fin m × F)) (g : Graph F V G n m) (q : Fin m) : Prop :=
  ∃ c : ℝ, 0 < c ∧ ∀ x : Asg, (∀ v ∈ sepOf g0 q, x v < L.C v) →
    L.den (g.path q).next.factor x = c * mval L.toLaws tr q x

/-- The next message vanishes nowhere where the last one did not. -/
def NoShrink (L : SumLaws ops) (g0 : Graph F V G n m) (tr : List (Fin m × F)) (g : Graph F V G n m) (q : Fin m) :
    Prop :=
  ∀ x : Asg, (∀ v ∈ sepOf g0 q, x v < L.C v) → mval L.toLaws tr q x ≠ 0 → L.den (g.path q).next.factor x ≠ 0

section
variable [Zero G] {L : SumLaws ops} {evVars : List Var} {g0 g g' : Graph F V G n m} {tr : List (Fin m × F)}

theorem BelInv.next_mono (w : Wired ops evVars g0) (inv : RunInv ops g0 tr g) (b : BelInv L.toLaws g0 tr g)
    {q : Fin m} {x : Asg} (h : mval L.toLaws tr q x = 0) : L.den (g.path q).next.factor x = 0 :=
  (b.next_zero w inv q x).2 (b.supp q x h)

/-- The belief of a cluster without the message along `q`. -/
noncomputable def rest (L : SumLaws ops) (g0 : Graph F V G n m) (tr : List (Fin m × F)) (q : Fin m) (y : Asg) : ℝ :=
  L.den (g0.cl (g0.path q).rcv).factor (override (evPairs L.toLaws g0.special) y) *
    ∏ s ∈ (incoming g0 (g0.path q).rcv).erase q, mval L.toLaws tr s (override (evPairs L.toLaws g0.special) y)

omit [Zero G] in
theorem belief_rest (b : BelInv L.toLaws g0 tr g) (w : Wired ops evVars g0) (q : Fin m) (y : Asg) :
    belief L g0 g (g0.path q).rcv y = mval L.toLaws tr q y * rest L g0 tr q y := by
  unfold belief rest
  rw [b.belief, ← Finset.mul_prod_erase _ _ (show q ∈ incoming g0 (g0.path q).rcv by simp [incoming])]
  rw [mval_congr L.toLaws (b.msg q) (y := y) fun v hv => override_keep L.toLaws (w.sepOf_mem q hv).2.2 y]
  ring

omit [Zero G] in
theorem outSum_rest (b : BelInv L.toLaws g0 tr g) (w : Wired ops evVars g0) {q r : Fin m}
    (hr1 : (g0.path r).snd = (g0.path q).rcv) (hr3 : sepOf g0 r = sepOf g0 q) (x : Asg) :
    outSum L g0 g r x = mval L.toLaws tr q x *
      sumOut L.C (freeVars ops g0 (g0.path q).rcv \ (sepOf g0 q).toFinset) (rest L g0 tr q) x := by
  unfold outSum
  rw [hr1, hr3, ← Spec.sumOut_const_mul]
  refine Spec.sumOut_congr fun y hy => ?_
  rw [belief_rest b w]
  congr 1
  refine mval_congr L.toLaws (b.msg q) fun v hv => hy v ?_
  simp [hv]

/-- Passing `q` leaves the next message of the reverse path alone, unless the support shrinks. -/
theorem next_rev (w : Wired ops evVars g0) (inv : RunInv ops g0 tr g) (b : BelInv L.toLaws g0 tr g) {q r : Fin m}
    (h : pass ops g q = .ok g') (hns : NoShrink L g0 tr g q)
    (hr1 : (g0.path r).snd = (g0.path q).rcv) (hr2 : (g0.path r).rcv = (g0.path q).snd)
    (hr3 : sepOf g0 r = sepOf g0 q) {x : Asg} (hx : ∀ v ∈ sepOf g0 r, x v < L.C v) :
    L.den (g'.path r).next.factor x = L.den (g.path r).next.factor x := by
  have inv' := inv.pass w h
  have b' := b.pass w inv h
  rw [b'.next_sum L w inv' hr2.symm hr1.symm hr3.symm, b.next_sum L w inv hr2.symm hr1.symm hr3.symm,
    outSum_rest b' w hr1 hr3, outSum_rest b w hr1 hr3]
  have hrest : rest L g0 (tr ++ [(q, (g.path q).next.factor)]) q = rest L g0 tr q := by
    funext y
    unfold rest
    congr 1
    refine Finset.prod_congr rfl fun s hs => ?_
    rw [mval_snoc, if_neg (Finset.ne_of_mem_erase hs).symm]
  rw [hrest, mval_snoc, if_pos rfl]
  by_cases h0 : mval L.toLaws tr q x = 0
  · rw [h0, b.next_mono w inv h0]
  · have h1 := hns x (by rw [← hr3]; exact hx) h0
    rw [mul_div_cancel_left₀ _ h0, mul_div_cancel_left₀ _ h1]

/-- The paths that start where `q` ends, without the reverse of `q`. -/
def down (g0 : Graph F V G n m) (q : Fin m) : Finset (Fin m) :=
  Finset.univ.filter fun r => (g0.path r).snd = (g0.path q).rcv ∧ (g0.path r).rcv ≠ (g0.path q).snd

/-- Passing `q` cleans `q` and can only spoil the paths in `down`, unless the support shrinks. -/
theorem clean_pass (w : Wired ops evVars g0) (inv : RunInv ops g0 tr g) (b : BelInv L.toLaws g0 tr g) {q : Fin m}
    (h : pass ops g q = .ok g') (hns : NoShrink L g0 tr g q) (r : Fin m) (hr : r ∉ down g0 q)
    (hc : r = q ∨ Clean L g0 tr g r) : Clean L g0 (tr ++ [(q, (g.path q).next.factor)]) g' r := by
  have hout : ∀ i, (g.out i).Nodup := fun i => by rw [inv.out]; exact w.outNodup i
  obtain ⟨c, _, e1, e2, e3, e4, _, _, e7, e8, e9⟩ := pass_ok hout h
  have mem_out : ∀ i r, r ∈ g.out i ↔ (g0.path r).snd = i := fun i r => by rw [inv.out]; exact w.out i r
  rw [inv.rcv] at e7 e8
  by_cases hrq : r = q
  · subst hrq
    obtain ⟨_, _, _, q4, _⟩ := e8 (by rw [mem_out]; exact w.ne r)
    refine ⟨1, one_pos, fun x _ => ?_⟩
    rw [q4, mval_snoc, if_pos rfl, one_mul]
  · obtain ⟨k, k0, kx⟩ := hc.resolve_left hrq
    refine ⟨k, k0, fun x hx => ?_⟩
    rw [mval_snoc, if_neg (Ne.symm hrq), ← kx x hx]
    by_cases hs : (g0.path r).snd = (g0.path q).rcv
    · have hrv : (g0.path r).rcv = (g0.path q).snd := by
        by_contra hne
        exact hr (by simp [down, hs, hne])
      have hsep : sepOf g0 r = sepOf g0 q := by
        unfold sepOf
        rw [hs, hrv, w.sepSymm]
      exact next_rev w inv b h hns hs hrv hsep hx
    · rw [e7 r (by rw [mem_out]; exact hs) hrq]

/-- The weight of a path: the number of clusters its messages can influence. -/
noncomputable def pathWeight (g0 : Graph F V G n m) (q : Fin m) : Nat :=
  TreeWeight.weight (edgeGraph g0) (g0.path q).snd (g0.path q).rcv

/-- The total weight of the paths with something new to say. -/
noncomputable def work (L : SumLaws ops) (g0 : Graph F V G n m) (tr : List (Fin m × F)) (g : Graph F V G n m) : Nat :=
  ∑ q with ¬ Clean L g0 tr g q, pathWeight g0 q

omit [Zero G] in
theorem down_weight (w : Wired ops evVars g0) (htree : (edgeGraph g0).IsAcyclic) (q : Fin m) :
    1 + ∑ r ∈ down g0 q, pathWeight g0 r ≤ pathWeight g0 q := by
  have hadj : ∀ r, (edgeGraph g0).Adj (g0.path r).snd (g0.path r).rcv := fun r => w.edge_adj.2 ⟨_, w.sepOf_eq r⟩
  refine le_trans ?_ (TreeWeight.weight_step htree (hadj q))
  refine Nat.add_le_add_left ?_ 1
  have hinj : Set.InjOn (fun r => (g0.path r).rcv) (down g0 q : Set (Fin m)) := by
    intro r hr s hs hrs
    simp only [down, Finset.coe_filter, Finset.mem_univ, true_and, Set.mem_ofPred_eq] at hr hs
    exact w.pathInj r s (hr.1.trans hs.1.symm) hrs
  have e : ∑ r ∈ down g0 q, pathWeight g0 r = ∑ l ∈ (down g0 q).image fun r => (g0.path r).rcv,
      TreeWeight.weight (edgeGraph g0) (g0.path q).rcv l := by
    rw [Finset.sum_image hinj]
    refine Finset.sum_congr rfl fun r hr => ?_
    simp only [down, Finset.mem_filter, Finset.mem_univ, true_and] at hr
    unfold pathWeight
    rw [hr.1]
  rw [e]
  refine Finset.sum_le_sum_of_subset fun l hl => ?_
  obtain ⟨r, hr, rfl⟩ := Finset.mem_image.1 hl
  simp only [down, Finset.mem_filter, Finset.mem_univ, true_and] at hr
  simp only [Finset.mem_filter, Finset.mem_univ, true_and]
  exact ⟨hr.1 ▸ hadj r, hr.2⟩

/-- Passing a message with new content, without loss of support, reduces the work. -/
theorem work_pass (w : Wired ops evVars g0) (htree : (edgeGraph g0).IsAcyclic) (inv : RunInv ops g0 tr g)
    (b : BelInv L.toLaws g0 tr g) {q : Fin m} (h : pass ops g q = .ok g') (hns : NoShrink L g0 tr g q)
    (hd : ¬ Clean L g0 tr g q) :
    work L g0 (tr ++ [(q, (g.path q).next.factor)]) g' < work L g0 tr g := by
  unfold work
  have hsub : (Finset.univ.filter fun r => ¬ Clean L g0 (tr ++ [(q, (g.path q).next.factor)]) g' r) ⊆
      ((Finset.univ.filter fun r => ¬ Clean L g0 tr g r).erase q) ∪ down g0 q := by
    intro r hr
    simp only [Finset.mem_filter, Finset.mem_univ, true_and] at hr
    simp only [Finset.mem_union, Finset.mem_erase, Finset.mem_filter, Finset.mem_univ, true_and]
    by_contra hno
    push Not at hno
    refine hr (clean_pass w inv b h hns r hno.2 ?_)
    by_cases hrq : r = q
    · exact Or.inl hrq
    · exact Or.inr (hno.1 hrq)
  have hq : q ∈ Finset.univ.filter fun r => ¬ Clean L g0 tr g r := by simp [hd]
  rw [← Finset.add_sum_erase _ _ hq]
  have h1 := Finset.sum_le_sum_of_subset (f := pathWeight g0) hsub
  have h2 := Finset.sum_union_inter (f := pathWeight g0) (s₁ := (Finset.univ.filter fun r => ¬ Clean L g0 tr g r).erase q)
    (s₂ := down g0 q)
  have h3 := down_weight w htree q
  omega

omit [Zero G] in
theorem pathWeight_lt (w : Wired ops evVars g0) (q : Fin m) : pathWeight g0 q ≤ n - 1 :=
  Nat.le_sub_one_of_lt (TreeWeight.weight_lt _ (w.ne q).symm)

omit [Zero G] in
theorem work_le (w : Wired ops evVars g0) : work L g0 tr g ≤ m * (n - 1) := by
  unfold work
  refine (Finset.sum_le_card_nsmul _ _ (n - 1) fun q _ => pathWeight_lt w q).trans ?_
  rw [smul_eq_mul]
  refine Nat.mul_le_mul_right _ ?_
  exact (Finset.card_filter_le _ _).trans (by simp)

omit [Zero G] in
theorem work_pos (w : Wired ops evVars g0) (htree : (edgeGraph g0).IsAcyclic) {q : Fin m}
    (hd : ¬ Clean L g0 tr g q) : 0 < work L g0 tr g := by
  unfold work
  refine Finset.sum_pos' (fun _ _ => Nat.zero_le _) ⟨q, by simp [hd], ?_⟩
  have := down_weight w htree q
  omega

/-! ### Support of the messages -/

/-- An assignment to the variables of a set, extended by zeros. -/
def extend {S : Finset Var} (p : ∀ v ∈ S, Nat) : Asg := fun v => if h : v ∈ S then p v h else 0

/-- The values of the sepset where the last message along `q` is not zero. -/
noncomputable def support (L : SumLaws ops) (g0 : Graph F V G n m) (tr : List (Fin m × F)) (q : Fin m) :
    Finset (∀ v ∈ (sepOf g0 q).toFinset, Nat) :=
  ((sepOf g0 q).toFinset.pi fun v => Finset.range (L.C v)).filter fun p => mval L.toLaws tr q (extend p) ≠ 0

/-- The number of possible values of a sepset. -/
noncomputable def sepSize (L : SumLaws ops) (g0 : Graph F V G n m) (q : Fin m) : Nat :=
  ∏ v ∈ (sepOf g0 q).toFinset, L.C v

/-- The total size of all supports. -/
noncomputable def suppSize (L : SumLaws ops) (g0 : Graph F V G n m) (tr : List (Fin m × F)) : Nat :=
  ∑ q, (support L g0 tr q).card

omit [Zero G] in
theorem suppSize_le : suppSize L g0 tr ≤ ∑ q, sepSize L g0 q := by
  refine Finset.sum_le_sum fun q _ => (Finset.card_filter_le _ _).trans ?_
  rw [Finset.card_pi]
  simp [sepSize]

theorem support_pass (w : Wired ops evVars g0) (inv : RunInv ops g0 tr g) (b : BelInv L.toLaws g0 tr g)
    (q r : Fin m) : support L g0 (tr ++ [(q, (g.path q).next.factor)]) r ⊆ support L g0 tr r := by
  intro p hp
  unfold support at hp ⊢
  rw [Finset.mem_filter] at hp ⊢
  refine ⟨hp.1, fun h0 => hp.2 ?_⟩
  rw [mval_snoc]
  split
  · rename_i h
    subst h
    exact b.next_mono w inv h0
  · exact h0

theorem suppSize_pass (w : Wired ops evVars g0) (inv : RunInv ops g0 tr g) (b : BelInv L.toLaws g0 tr g)
    (q : Fin m) : suppSize L g0 (tr ++ [(q, (g.path q).next.factor)]) ≤ suppSize L g0 tr :=
  Finset.sum_le_sum fun r _ => Finset.card_le_card (support_pass w inv b q r)

theorem suppSize_shrink (w : Wired ops evVars g0) (inv : RunInv ops g0 tr g) (b : BelInv L.toLaws g0 tr g)
    {q : Fin m} (h : ¬ NoShrink L g0 tr g q) :
    suppSize L g0 (tr ++ [(q, (g.path q).next.factor)]) < suppSize L g0 tr := by
  unfold NoShrink at h
  push Not at h
  obtain ⟨x, hx, h1, h2⟩ := h
  refine Finset.sum_lt_sum (fun r _ => Finset.card_le_card (support_pass w inv b q r)) ⟨q, Finset.mem_univ q, ?_⟩
  refine Finset.card_lt_card ⟨support_pass w inv b q q, fun hsub => ?_⟩
  set p : ∀ v ∈ (sepOf g0 q).toFinset, Nat := fun v _ => x v with hp
  have hext : ∀ v ∈ sepOf g0 q, extend p v = x v := by
    intro v hv
    unfold extend
    rw [dif_pos (by simpa using hv)]
  have hmem : p ∈ support L g0 tr q := by
    unfold support
    rw [Finset.mem_filter, Finset.mem_pi]
    refine ⟨fun v hv => Finset.mem_range.2 (hx v (by simpa using hv)), ?_⟩
    rw [mval_congr L.toLaws (b.msg q) hext]
    exact h1
  have := (Finset.mem_filter.1 (hsub hmem)).2
  rw [mval_snoc, if_pos rfl] at this
  obtain ⟨r, hr1, hr2, hr3⟩ := w.rev q
  obtain ⟨n1, n2, _⟩ := b.next w inv hr1 hr2 hr3
  exact this ((L.dep n1 _ _ fun v hv => hext v ((n2 v).1 hv)).trans h2)

/-! ### The potential -/

/-- The potential: support first, then work. -/
noncomputable def potential (L : SumLaws ops) (g0 : Graph F V G n m) (tr : List (Fin m × F)) (g : Graph F V G n m) :
    Nat := suppSize L g0 tr * (m * (n - 1) + 1) + work L g0 tr g

theorem potential_pass (w : Wired ops evVars g0) (htree : (edgeGraph g0).IsAcyclic) (inv : RunInv ops g0 tr g)
    (b : BelInv L.toLaws g0 tr g) {q : Fin m} (h : pass ops g q = .ok g') (hd : ¬ Clean L g0 tr g q) :
    potential L g0 (tr ++ [(q, (g.path q).next.factor)]) g' < potential L g0 tr g := by
  unfold potential
  by_cases hns : NoShrink L g0 tr g q
  · have h1 := work_pass w htree inv b h hns hd
    have h2 := Nat.mul_le_mul_right (m * (n - 1) + 1) (suppSize_pass w inv b q)
    omega
  · have h1 : work L g0 (tr ++ [(q, (g.path q).next.factor)]) g' ≤ m * (n - 1) := work_le w
    have h2 := Nat.mul_le_mul_right (m * (n - 1) + 1) (Nat.succ_le_of_lt (suppSize_shrink w inv b hns))
    rw [Nat.succ_mul] at h2
    omega

omit [Zero G] in
theorem potential_le (w : Wired ops evVars g0) :
    potential L g0 tr g ≤ (∑ q, sepSize L g0 q) * (m * (n - 1) + 1) + m * (n - 1) := by
  unfold potential
  exact Nat.add_le_add (Nat.mul_le_mul_right _ suppSize_le) (work_le w)

end

/-! ### The loop stops -/

section
variable [LinearOrder G] [Zero G] {L : SumLaws ops} {evVars : List Var} {g0 : Graph F V G n m}

/-- A number that decreases with every pass of a message above the tolerance bounds the loop. -/
theorem loop_stops (w : Wired ops evVars g0) {tol : G}
    (Φ : List (Fin m × F) → Graph F V G n m → Nat)
    (hΦ : ∀ tr g g' q, Run ops g0 tr g → pass ops g q = .ok g' → tol < (g.path q).gain →
      Φ (tr ++ [(q, (g.path q).next.factor)]) g' < Φ tr g)
    (hpos : ∀ tr g q, Run ops g0 tr g → tol < (g.path q).gain → 0 < Φ tr g)
    (hadm : ∀ tr g g', SameCore g g' → Φ tr g' = Φ tr g)
    {k : Nat} {g g' : Graph F V G n m} {tr : List (Fin m × F)} (hr : Run ops g0 tr g) (hsort : Sorted g)
    (hex : ∃ q, tol < (g.path q).gain) (hk : Φ tr g ≤ k) (h : loop ops tol k g = .ok g') :
    ∀ q, (g'.path q).gain ≤ tol := by
  induction k generalizing g tr with
  | zero =>
    obtain ⟨q, hq⟩ := hex
    have := hpos tr g q hr hq
    omega
  | succ k ih =>
    unfold CG.loop at h
    obtain ⟨⟨g1, stop⟩, h1, h⟩ := py_bind_eq_ok.1 h
    obtain ⟨q, hq, gp, hp, q', hq', hstop, hg1⟩ := iteration_ok h1
    have inv := hr.inv w
    have hmax := hsort.max inv.queue hq
    have hgq : tol < (g.path q).gain := by
      obtain ⟨r, hr⟩ := hex
      exact lt_of_lt_of_le hr (hmax r)
    have hdec := hΦ tr g gp q hr hp hgq
    have hrp := Run.pass q hr hp
    have hsc : SameCore gp g1 := by rw [hg1]; exact ⟨rfl, rfl, rfl, rfl, sortQueue_perm _⟩
    have hr1 := hrp.admin hsc
    have hs1 : Sorted g1 := by
      rw [hg1]
      exact sorted_sortQueue { gp with passed := gp.passed + 1 }
    have hq1 : g1.queue[0]? = some q' := by rw [hg1]; exact hq'
    have hmax1 := hs1.max (hr1.inv w).queue hq1
    have hgain : (g1.path q').gain = (gp.path q').gain := by rw [hg1]; rfl
    dsimp only at h
    split at h
    · rename_i hs
      simp only [Except.ok.injEq] at h
      subst h
      rw [hstop, decide_eq_true_eq] at hs
      exact fun r => (hmax1 r).trans (hgain ▸ hs)
    · rename_i hs
      rw [hstop, decide_eq_true_eq, not_le] at hs
      refine ih hr1 hs1 ⟨q', hgain ▸ hs⟩ ?_ h
      rw [hadm _ _ _ hsc]
      omega

/-- With a budget above the bound of the potential, `process_graph` ends with all gains within the
tolerance. -/
theorem process_stops (w : Wired ops evVars g0) {tol : G}
    (Φ : List (Fin m × F) → Graph F V G n m → Nat)
    (hΦ : ∀ tr g g' q, Run ops g0 tr g → pass ops g q = .ok g' → tol < (g.path q).gain →
      Φ (tr ++ [(q, (g.path q).next.factor)]) g' < Φ tr g)
    (hpos : ∀ tr g q, Run ops g0 tr g → tol < (g.path q).gain → 0 < Φ tr g)
    (hadm : ∀ tr g g', SameCore g g' → Φ tr g' = Φ tr g)
    {B : Nat} (hB : ∀ tr g, Φ tr g ≤ B) (hn : n ≠ 1) {maxIter : Nat} (hbud : B < maxIter * m)
    {g g' : Graph F V G n m} {tr : List (Fin m × F)} (hr : Run ops g0 tr g)
    (h : processGraph ops tol maxIter g = .ok g') : ∀ q, (g'.path q).gain ≤ tol := by
  unfold processGraph at h
  rw [dif_neg hn] at h
  have hlen : g.queue.length = m := by rw [(hr.inv w).queue.length_eq, List.length_finRange]
  dsimp only at h
  rw [hlen] at h
  have h0 : Run ops g0 tr (sortQueue { g with dists := [] }) :=
    hr.admin ⟨rfl, rfl, rfl, rfl, sortQueue_perm { g with dists := [] }⟩
  obtain ⟨k, hk⟩ : ∃ k, maxIter * m = k + 1 := ⟨maxIter * m - 1, by omega⟩
  rw [hk] at h
  unfold CG.loop at h
  obtain ⟨⟨g1, stop⟩, h1, h⟩ := py_bind_eq_ok.1 h
  obtain ⟨q, hq, gp, hp, q', hq', hstop, hg1⟩ := iteration_ok h1
  have hrp := Run.pass q h0 hp
  have hsc : SameCore gp g1 := by rw [hg1]; exact ⟨rfl, rfl, rfl, rfl, sortQueue_perm _⟩
  have hr1 := hrp.admin hsc
  have hs1 : Sorted g1 := by
    rw [hg1]
    exact sorted_sortQueue { gp with passed := gp.passed + 1 }
  have hq1 : g1.queue[0]? = some q' := by rw [hg1]; exact hq'
  have hmax1 := hs1.max (hr1.inv w).queue hq1
  have hgain : (g1.path q').gain = (gp.path q').gain := by rw [hg1]; rfl
  dsimp only at h
  split at h
  · rename_i hs
    simp only [Except.ok.injEq] at h
    subst h
    rw [hstop, decide_eq_true_eq] at hs
    exact fun r => (hmax1 r).trans (hgain ▸ hs)
  · rename_i hs
    rw [hstop, decide_eq_true_eq, not_le] at hs
    exact loop_stops w Φ hΦ hpos hadm hr1 hs1 ⟨q', hgain ▸ hs⟩ (le_trans (hB _ _) (by omega)) h

/-- On a forest, with a class where a message above the tolerance has new content, `process_graph` converges
within a budget that depends on the graph only. -/
theorem process_converges (w : Wired ops evVars g0) (hok : ∀ i, L.Ok (g0.cl i).factor)
    (htree : (edgeGraph g0).IsAcyclic) {tol : G}
    (hdirty : ∀ tr g q, Run ops g0 tr g → tol < (g.path q).gain → ¬ Clean L g0 tr g q) (hn : n ≠ 1) {maxIter : Nat}
    (hbud : (∑ q, sepSize L g0 q) * (m * (n - 1) + 1) + m * (n - 1) < maxIter * m)
    {g g' : Graph F V G n m} {tr : List (Fin m × F)} (hr : Run ops g0 tr g)
    (h : processGraph ops tol maxIter g = .ok g') : ∀ q, (g'.path q).gain ≤ tol := by
  refine process_stops w (potential L g0) ?_ ?_ ?_ (fun tr g => potential_le w) hn hbud hr h
  · intro tr g g' q hr hp hg
    exact potential_pass w htree (hr.inv w) (hr.bel w hok) hp (hdirty tr g q hr hg)
  · intro tr g q hr hg
    exact Nat.add_pos_right _ (work_pos w htree (hdirty tr g q hr hg))
  · rintro tr g g' ⟨_, _, h3, _⟩
    unfold potential work Clean
    rw [h3]

/-- If in addition the factors have no zeros, as many rounds as there are clusters suffice. -/
theorem process_converges_pos (w : Wired ops evVars g0) (hok : ∀ i, L.Ok (g0.cl i).factor)
    (htree : (edgeGraph g0).IsAcyclic) {tol : G}
    (hdirty : ∀ tr g q, Run ops g0 tr g → tol < (g.path q).gain → ¬ Clean L g0 tr g q)
    (hnz : ∀ tr g q, Run ops g0 tr g → NoShrink L g0 tr g q) (hn : n ≠ 1) {maxIter : Nat}
    (hbud : n ≤ maxIter) {g g' : Graph F V G n m} {tr : List (Fin m × F)} (hr : Run ops g0 tr g)
    (h : processGraph ops tol maxIter g = .ok g') : ∀ q, (g'.path q).gain ≤ tol := by
  intro q0
  have hm : 0 < m := lt_of_le_of_lt (Nat.zero_le _) q0.2
  have hn0 : 0 < n := lt_of_le_of_lt (Nat.zero_le _) (g0.path q0).snd.2
  have hb : m * (n - 1) < maxIter * m := by
    rw [Nat.mul_comm maxIter m]
    exact Nat.mul_lt_mul_of_pos_left (by omega) hm
  refine process_stops w (work L g0) ?_ ?_ ?_ (fun tr g => work_le w) hn hb hr h q0
  · intro tr g g' q hr hp hg
    exact work_pass w htree (hr.inv w) (hr.bel w hok) hp (hnz tr g q hr) (hdirty tr g q hr hg)
  · intro tr g q hr hg
    exact work_pos w htree (hdirty tr g q hr hg)
  · rintro tr g g' ⟨_, _, h3, _⟩
    unfold work Clean
    rw [h3]

end
end Verif.CG
