import Verif.ClusterConverge
import Verif.ClusterGaussTotal

/-!
# Message passing on trees of continuous factors converges
-/

namespace Verif.CG
open Spec (override intOut)
open Classical MeasureTheory
open scoped ENNReal
variable {F V G : Type} {n m : Nat} {ops : Ops F V G}

/-- The next message of the path has the shape of the last one. -/
def CleanI (L : PosLaws ops) (tr : List (Fin m × F)) (g : Graph F V G n m) (q : Fin m) : Prop :=
  ∃ c : ℝ, 0 < c ∧ ∀ x, L.den (g.path q).next.factor x = c * mval L.toLaws tr q x

/-- In all executions the next messages are integrals of beliefs. -/
def AllNextI (L : PosLaws ops) [Zero G] (g0 : Graph F V G n m) : Prop :=
  ∀ tr g, Run ops g0 tr g → NextI L g0 tr g

section
variable [Zero G] {L : PosLaws ops} {evVars : List Var} {g0 g g' : Graph F V G n m} {tr : List (Fin m × F)}

/-- The belief of a cluster without the message along `q`. -/
noncomputable def restI (L : PosLaws ops) (g0 : Graph F V G n m) (tr : List (Fin m × F)) (q : Fin m) (y : Var → ℝ) :
    ℝ :=
  L.den (g0.cl (g0.path q).rcv).factor (override (evPairs L.toLaws g0.special) y) *
    ∏ s ∈ (incoming g0 (g0.path q).rcv).erase q, mval L.toLaws tr s (override (evPairs L.toLaws g0.special) y)

omit [Zero G] in
theorem restI_meas (b : BelInv L.toLaws g0 tr g) (q : Fin m) : Measurable (restI L g0 tr q) := by
  unfold restI
  refine ((L.meas (b.ok0 _)).comp (measurable_override L _)).mul ?_
  exact Finset.measurable_prod _ fun s _ => (mval_meas b s).comp (measurable_override L _)

omit [Zero G] in
theorem beliefI_rest (b : BelInv L.toLaws g0 tr g) (w : Wired ops evVars g0) (q : Fin m) (y : Var → ℝ) :
    beliefI L g0 g (g0.path q).rcv y = .ofReal (mval L.toLaws tr q y) * .ofReal (restI L g0 tr q y) := by
  unfold beliefI restI
  rw [b.belief, ← Finset.mul_prod_erase _ _ (show q ∈ incoming g0 (g0.path q).rcv by simp [incoming]),
    ← ENNReal.ofReal_mul (mval_pos b q y).le]
  rw [mval_congr L.toLaws (b.msg q) (y := y) fun v hv => override_keep L.toLaws (w.sepOf_mem q hv).2.2 y]
  congr 1
  ring

omit [Zero G] in
/-- The next message of the reverse of `q` does not depend on the messages passed along `q`. -/
theorem next_restI (w : Wired ops evVars g0) (b : BelInv L.toLaws g0 tr g) (hI : NextI L g0 tr g)
    {q r : Fin m} (hr1 : (g0.path r).snd = (g0.path q).rcv) (hr2 : (g0.path r).rcv = (g0.path q).snd)
    (hr3 : sepOf g0 r = sepOf g0 q) (x : Var → ℝ) :
    ENNReal.ofReal (L.den (g.path r).next.factor x) =
      intOut (freeVars ops g0 (g0.path q).rcv \ (sepOf g0 q).toFinset) (fun y => .ofReal (restI L g0 tr q y)) x := by
  have h := hI r q hr2.symm hr1.symm x
  have hq := mval_pos b q x
  rw [hr1, hr3, show beliefI L g0 g (g0.path q).rcv = fun y => ENNReal.ofReal (mval L.toLaws tr q y) *
    ENNReal.ofReal (restI L g0 tr q y) from funext (beliefI_rest b w q),
    Spec.intOut_mul_left (G := fun y => .ofReal (mval L.toLaws tr q y)) ?_ (restI_meas b q).ennreal_ofReal,
    mul_comm, ENNReal.ofReal_mul hq.le] at h
  · exact (ENNReal.mul_right_inj (by simpa using hq) ENNReal.ofReal_ne_top).1 h
  · intro y z hyz
    congr 1
    refine mval_congr L.toLaws (b.msg q) fun v hv => hyz v ?_
    simp [hv]

/-- Passing `q` leaves the next message of the reverse path alone. -/
theorem next_revI (w : Wired ops evVars g0) (hok : ∀ i, L.Ok (g0.cl i).factor) (hN : AllNextI L g0)
    (hr : Run ops g0 tr g) {q r : Fin m} (h : pass ops g q = .ok g')
    (hr1 : (g0.path r).snd = (g0.path q).rcv) (hr2 : (g0.path r).rcv = (g0.path q).snd)
    (hr3 : sepOf g0 r = sepOf g0 q) (x : Var → ℝ) :
    L.den (g'.path r).next.factor x = L.den (g.path r).next.factor x := by
  have hr' := Run.pass q hr h
  have inv := hr.inv w
  have inv' := hr'.inv w
  have b := hr.bel w hok
  have b' := hr'.bel w hok
  have h1 := next_restI w b (hN _ _ hr) hr1 hr2 hr3 x
  have h2 := next_restI w b' (hN _ _ hr') hr1 hr2 hr3 x
  have hrest : restI L g0 (tr ++ [(q, (g.path q).next.factor)]) q = restI L g0 tr q := by
    funext y
    unfold restI
    congr 1
    refine Finset.prod_congr rfl fun s hs => ?_
    rw [mval_snoc, if_neg (Finset.ne_of_mem_erase hs).symm]
  rw [hrest, ← h1] at h2
  obtain ⟨o1, -⟩ := b.next w inv hr2.symm hr1.symm hr3.symm
  obtain ⟨o2, -⟩ := b'.next w inv' hr2.symm hr1.symm hr3.symm
  exact (ENNReal.ofReal_eq_ofReal_iff (L.nonneg o2 x) (L.nonneg o1 x)).1 h2

/-- Passing `q` cleans `q` and can only spoil the paths in `down`. -/
theorem clean_passI (w : Wired ops evVars g0) (hok : ∀ i, L.Ok (g0.cl i).factor) (hN : AllNextI L g0)
    (hr0 : Run ops g0 tr g) {q : Fin m} (h : pass ops g q = .ok g') (r : Fin m) (hr : r ∉ down g0 q)
    (hc : r = q ∨ CleanI L tr g r) : CleanI L (tr ++ [(q, (g.path q).next.factor)]) g' r := by
  have inv := hr0.inv w
  have hout : ∀ i, (g.out i).Nodup := fun i => by rw [inv.out]; exact w.outNodup i
  obtain ⟨c, _, e1, e2, e3, e4, _, _, e7, e8, e9⟩ := pass_ok hout h
  have mem_out : ∀ i r, r ∈ g.out i ↔ (g0.path r).snd = i := fun i r => by rw [inv.out]; exact w.out i r
  rw [inv.rcv] at e7 e8
  by_cases hrq : r = q
  · subst hrq
    obtain ⟨_, _, _, q4, _⟩ := e8 (by rw [mem_out]; exact w.ne r)
    refine ⟨1, one_pos, fun x => ?_⟩
    rw [q4, mval_snoc, if_pos rfl, one_mul]
  · obtain ⟨k, k0, kx⟩ := hc.resolve_left hrq
    refine ⟨k, k0, fun x => ?_⟩
    rw [mval_snoc, if_neg (Ne.symm hrq), ← kx x]
    by_cases hs : (g0.path r).snd = (g0.path q).rcv
    · have hrv : (g0.path r).rcv = (g0.path q).snd := by
        by_contra hne
        exact hr (by simp [down, hs, hne])
      have hsep : sepOf g0 r = sepOf g0 q := by
        unfold sepOf
        rw [hs, hrv, w.sepSymm]
      exact next_revI w hok hN hr0 h hs hrv hsep x
    · rw [e7 r (by rw [mem_out]; exact hs) hrq]

/-- The total weight of the paths with something new to say. -/
noncomputable def workI (L : PosLaws ops) (g0 : Graph F V G n m) (tr : List (Fin m × F)) (g : Graph F V G n m) : Nat :=
  ∑ q with ¬ CleanI L tr g q, pathWeight g0 q

/-- Passing a message with new content reduces the work. -/
theorem workI_pass (w : Wired ops evVars g0) (htree : (edgeGraph g0).IsAcyclic) (hok : ∀ i, L.Ok (g0.cl i).factor)
    (hN : AllNextI L g0) (hr : Run ops g0 tr g) {q : Fin m} (h : pass ops g q = .ok g') (hd : ¬ CleanI L tr g q) :
    workI L g0 (tr ++ [(q, (g.path q).next.factor)]) g' < workI L g0 tr g := by
  unfold workI
  have hsub : (Finset.univ.filter fun r => ¬ CleanI L (tr ++ [(q, (g.path q).next.factor)]) g' r) ⊆
      ((Finset.univ.filter fun r => ¬ CleanI L tr g r).erase q) ∪ down g0 q := by
    intro r hr'
    simp only [Finset.mem_filter, Finset.mem_univ, true_and] at hr'
    simp only [Finset.mem_union, Finset.mem_erase, Finset.mem_filter, Finset.mem_univ, true_and]
    by_contra hno
    push Not at hno
    refine hr' (clean_passI w hok hN hr h r hno.2 ?_)
    by_cases hrq : r = q
    · exact Or.inl hrq
    · exact Or.inr (hno.1 hrq)
  have hq : q ∈ Finset.univ.filter fun r => ¬ CleanI L tr g r := by simp [hd]
  rw [← Finset.add_sum_erase _ _ hq]
  have h1 := Finset.sum_le_sum_of_subset (f := pathWeight g0) hsub
  have h2 := Finset.sum_union_inter (f := pathWeight g0) (s₁ := (Finset.univ.filter fun r => ¬ CleanI L tr g r).erase q)
    (s₂ := down g0 q)
  have h3 := down_weight w htree q
  omega

omit [Zero G] in
theorem workI_le (w : Wired ops evVars g0) : workI L g0 tr g ≤ m * (n - 1) := by
  unfold workI
  refine (Finset.sum_le_card_nsmul _ _ (n - 1) fun q _ => pathWeight_lt w q).trans ?_
  rw [smul_eq_mul]
  refine Nat.mul_le_mul_right _ ?_
  exact (Finset.card_filter_le _ _).trans (by simp)

omit [Zero G] in
theorem workI_pos (w : Wired ops evVars g0) (htree : (edgeGraph g0).IsAcyclic) {q : Fin m}
    (hd : ¬ CleanI L tr g q) : 0 < workI L g0 tr g := by
  unfold workI
  refine Finset.sum_pos' (fun _ _ => Nat.zero_le _) ⟨q, by simp [hd], ?_⟩
  have := down_weight w htree q
  omega

/-- Passing messages with new content, in any order, ends after a bounded number of passes in a state where no
message has new content. -/
theorem converge_exact (w : Wired ops evVars g0) (htree : (edgeGraph g0).IsAcyclic)
    (hok : ∀ i, L.Ok (g0.cl i).factor) (hN : AllNextI L g0)
    (hstep : ∀ tr g, Run ops g0 tr g → ∀ q, ∃ g', CG.pass ops g q = .ok g') (hr : Run ops g0 tr g) :
    ∃ ext g', ext.length ≤ m * (n - 1) ∧ Run ops g0 (tr ++ ext) g' ∧ ConvergedI L (tr ++ ext) g' := by
  suffices h : ∀ k, ∀ tr g, Run ops g0 tr g → workI L g0 tr g ≤ k →
      ∃ ext g', ext.length ≤ k ∧ Run ops g0 (tr ++ ext) g' ∧ ConvergedI L (tr ++ ext) g' from
    h _ tr g hr (workI_le w)
  intro k
  induction k with
  | zero =>
    intro tr g hr hk
    refine ⟨[], g, le_rfl, by simpa using hr, ?_⟩
    rw [List.append_nil]
    intro q
    by_contra hd
    have := workI_pos w htree (L := L) (tr := tr) (g := g) hd
    omega
  | succ k ih =>
    intro tr g hr hk
    by_cases hc : ConvergedI L tr g
    · exact ⟨[], g, by simp, by simpa using hr, by simpa using hc⟩
    · unfold ConvergedI at hc
      push Not at hc
      obtain ⟨q, hq⟩ := hc
      have hd : ¬ CleanI L tr g q := by
        rintro ⟨c, c0, hx⟩
        obtain ⟨x, hne⟩ := hq c c0
        exact hne (hx x)
      obtain ⟨g1, h1⟩ := hstep tr g hr q
      have hlt := workI_pass w htree hok hN hr h1 hd
      obtain ⟨ext, g', e1, e2, e3⟩ := ih _ g1 (Run.pass q hr h1) (by omega)
      refine ⟨(q, (g.path q).next.factor) :: ext, g', by simpa using e1, ?_, ?_⟩
      · simpa using e2
      · simpa using e3

end

section
variable [LinearOrder G] [Zero G] {L : PosLaws ops} {evVars : List Var} {g0 : Graph F V G n m}

/-- On a forest, with a class where a message above the tolerance has new content, `process_graph` converges; as
many rounds as there are clusters suffice. -/
theorem process_converges_int (w : Wired ops evVars g0) (hok : ∀ i, L.Ok (g0.cl i).factor) (hN : AllNextI L g0)
    (htree : (edgeGraph g0).IsAcyclic) {tol : G}
    (hdirty : ∀ tr g q, Run ops g0 tr g → tol < (g.path q).gain → ¬ CleanI L tr g q) (hn : n ≠ 1) {maxIter : Nat}
    (hbud : n ≤ maxIter) {g g' : Graph F V G n m} {tr : List (Fin m × F)} (hr : Run ops g0 tr g)
    (h : processGraph ops tol maxIter g = .ok g') : ∀ q, (g'.path q).gain ≤ tol := by
  intro q0
  have hm : 0 < m := lt_of_le_of_lt (Nat.zero_le _) q0.2
  have hn0 : 0 < n := lt_of_le_of_lt (Nat.zero_le _) (g0.path q0).snd.2
  have hb : m * (n - 1) < maxIter * m := by
    rw [Nat.mul_comm maxIter m]
    exact Nat.mul_lt_mul_of_pos_left (by omega) hm
  refine process_stops w (workI L g0) ?_ ?_ ?_ (fun tr g => workI_le w) hn hb hr h q0
  · intro tr g g' q hr hp hg
    exact workI_pass w htree hok hN hr hp (hdirty tr g q hr hg)
  · intro tr g q hr hg
    exact workI_pos w htree (hdirty tr g q hr hg)
  · rintro tr g g' ⟨_, _, h3, _⟩
    unfold workI CleanI
    rw [h3]

end

/-! ### Graphs built by the constructor -/

section
variable {L : IntLaws ops}

/-- The clusters of a constructed graph can be normalised and have a variable left. -/
theorem TotalI.start (T : TotalI L) {hs : HashSeed} {factors : List F}
    (hok : ∀ f ∈ factors, L.Ok f ∧ Norm L f) {evidence : Option (Dict Var V)} {special : Dict Var V}
    (hx : ∀ f ∈ factors, ∃ v ∈ ops.vars f, v ∉ Dict.keys (evidence.getD []) ∧ v ∉ Dict.keys special)
    {a : Any F V G} (h : CG.new hs ops factors evidence special = .ok a) :
    (∀ i, ∃ x, intOut (freeVars ops a.graph i) (beliefI L.toPosLaws a.graph a.graph i) x ≠ ∞) ∧
      ∀ i, ∃ v ∈ scope ops a.graph i, v ∉ Dict.keys a.graph.special := by
  obtain ⟨w, hsp, _⟩ := wired_new h
  obtain ⟨fs, hfs, hN⟩ := T.clusterFactors hok evidence fun f hf => by
    obtain ⟨v, h1, h2, _⟩ := hx f hf
    exact ⟨v, h1, h2⟩
  obtain ⟨-, f2, -⟩ := L.toLaws.clusterFactors (fun f hf => (hok f hf).1) evidence hfs
  have hmem : ∀ i, (a.graph.cl i).factor ∈ fs := by
    intro i
    obtain ⟨fs', h1, h2⟩ := new_factors h
    rw [hfs] at h1
    cases h1
    rw [← h2]
    exact (List.mem_ofFn' _ _).2 ⟨i, rfl⟩
  have hfree : ∀ i, ∃ v ∈ scope ops a.graph i, v ∉ Dict.keys a.graph.special := by
    intro i
    obtain ⟨f', hf', hv⟩ := f2 _ (hmem i)
    obtain ⟨v, h1, h2, h3⟩ := hx f' hf'
    exact ⟨v, (hv v).2 ⟨h1, h2⟩, hsp ▸ h3⟩
  refine ⟨fun i => ?_, hfree⟩
  obtain ⟨o1, o2⟩ := hN _ (hmem i)
  obtain ⟨x, hx⟩ := T.redSpecial o1 o2 (hfree i)
  refine ⟨x, ?_⟩
  have hset : freeVars ops a.graph i = (ops.vars (a.graph.cl i).factor).toFinset \ (Dict.keys a.graph.special).toFinset := by
    ext v
    simp [mem_freeVars, scope]
  rw [hset]
  exact hx

end
end Verif.CG
