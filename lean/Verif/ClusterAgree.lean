import Verif.ClusterProps9
import Verif.ClusterProps8

/-!
# Converged cluster graphs are consistent, with or without cycles (C101)
-/

namespace Verif.Spec
open Classical Finset MeasureTheory
open scoped ENNReal

/-- Along edges whose sepsets contain `T`, the beliefs have the same marginal over `T`, up to scale. -/
theorem Calibrated.agree {n : Nat} {C : Var → Nat} {U : Fin n → Finset Var} {B : Fin n → Asg → ℝ}
    {E : SimpleGraph (Fin n)} {S : Fin n → Fin n → Finset Var} {μ : Fin n → Fin n → Asg → ℝ}
    (h : Calibrated C U B E S μ) {T : Finset Var} {i j : Fin n}
    (hp : Relation.ReflTransGen (fun i j => E.Adj i j ∧ T ⊆ S i j) i j) :
    ∃ c : ℝ, 0 < c ∧ ∀ x, sumOut C (U i \ T) (B i) x = c * sumOut C (U j \ T) (B j) x := by
  have side : ∀ i j, E.Adj i j → T ⊆ S i j → ∃ c : ℝ, 0 < c ∧ ∀ x,
      sumOut C (U i \ T) (B i) x = c * sumOut C (S i j \ T) (μ i j) x := by
    intro i j hij hT
    obtain ⟨c, hc, hx⟩ := h.cal i j hij
    refine ⟨c, hc, fun x => ?_⟩
    have hsplit : U i \ T = (S i j \ T) ∪ (U i \ S i j) := by
      ext v
      simp only [mem_sdiff, mem_union]
      constructor
      · rintro ⟨h1, h2⟩
        by_cases h3 : v ∈ S i j
        · exact Or.inl ⟨h3, h2⟩
        · exact Or.inr ⟨h1, h3⟩
      · rintro (⟨h1, h2⟩ | ⟨h1, h2⟩)
        · exact ⟨h.subS i j hij h1, h2⟩
        · exact ⟨h1, fun hv => h2 (hT hv)⟩
    have hdisj : Disjoint (S i j \ T) (U i \ S i j) := by
      rw [disjoint_left]
      intro v h1 h2
      exact (mem_sdiff.1 h2).2 (mem_sdiff.1 h1).1
    rw [hsplit, sumOut_union hdisj, ← sumOut_const_mul]
    exact sumOut_congr fun y _ => hx y
  induction hp with
  | refl => exact ⟨1, one_pos, fun x => (one_mul _).symm⟩
  | @tail j k _ hjk ih =>
    obtain ⟨c, hc, hx⟩ := ih
    obtain ⟨d, hd, hy⟩ := side j k hjk.1 hjk.2
    obtain ⟨e, he, hz⟩ := side k j hjk.1.symm (by rw [h.symmS]; exact hjk.2)
    refine ⟨c * d / e, by positivity, fun x => ?_⟩
    rw [hx, hy, hz, h.symmS k j, h.symmμ k j]
    field_simp

theorem CalibratedI.agree {n : Nat} {U : Fin n → Finset Var} {B : Fin n → (Var → ℝ) → ℝ≥0∞}
    {E : SimpleGraph (Fin n)} {S : Fin n → Fin n → Finset Var} {μ : Fin n → Fin n → (Var → ℝ) → ℝ≥0∞}
    (h : CalibratedI U B E S μ) {T : Finset Var} {i j : Fin n}
    (hp : Relation.ReflTransGen (fun i j => E.Adj i j ∧ T ⊆ S i j) i j) :
    ∃ c : ℝ≥0∞, c ≠ 0 ∧ c ≠ ∞ ∧ ∀ x, intOut (U i \ T) (B i) x = c * intOut (U j \ T) (B j) x := by
  have side : ∀ i j, E.Adj i j → T ⊆ S i j → ∃ c : ℝ≥0∞, c ≠ 0 ∧ c ≠ ∞ ∧ ∀ x,
      intOut (U i \ T) (B i) x = c * intOut (S i j \ T) (μ i j) x := by
    intro i j hij hT
    obtain ⟨c, hc, hc', hx⟩ := h.cal i j hij
    refine ⟨c, hc, hc', fun x => ?_⟩
    have hsplit : U i \ T = (S i j \ T) ∪ (U i \ S i j) := by
      ext v
      simp only [mem_sdiff, mem_union]
      constructor
      · rintro ⟨h1, h2⟩
        by_cases h3 : v ∈ S i j
        · exact Or.inl ⟨h3, h2⟩
        · exact Or.inr ⟨h1, h3⟩
      · rintro (⟨h1, h2⟩ | ⟨h1, h2⟩)
        · exact ⟨h.subS i j hij h1, h2⟩
        · exact ⟨h1, fun hv => h2 (hT hv)⟩
    have hdisj : Disjoint (S i j \ T) (U i \ S i j) := by
      rw [disjoint_left]
      intro v h1 h2
      exact (mem_sdiff.1 h2).2 (mem_sdiff.1 h1).1
    have hfun : lmarginal (fun _ => volume) (U i \ S i j) (B i) = fun y => c * μ i j y := funext hx
    rw [intOut, hsplit, lmarginal_union _ _ (h.meas i) hdisj, hfun]
    exact intOut_mul_left (G := fun _ => c) (fun _ _ _ => rfl) (h.measμ i j hij) x
  induction hp with
  | refl => exact ⟨1, one_ne_zero, ENNReal.one_ne_top, fun x => (one_mul _).symm⟩
  | @tail j k _ hjk ih =>
    obtain ⟨c, hc, hc', hx⟩ := ih
    obtain ⟨d, hd, hd', hy⟩ := side j k hjk.1 hjk.2
    obtain ⟨e, he, he', hz⟩ := side k j hjk.1.symm (by rw [h.symmS]; exact hjk.2)
    refine ⟨c * d / e, ENNReal.div_ne_zero.2 ⟨mul_ne_zero hc hd, he'⟩, ENNReal.div_ne_top (ENNReal.mul_ne_top hc' hd') he,
      fun x => ?_⟩
    rw [hx, hy, hz, h.symmS k j, h.symmμ k j, ← mul_assoc, ← mul_assoc, ENNReal.div_mul_cancel he he']

end Verif.Spec

namespace Verif.CG
open Spec (override Asg sumOut intOut IntegrableOut)
open Classical MeasureTheory Gauss
open scoped ENNReal

section
variable {F V G : Type} {ops : Ops F V G} {hs : HashSeed} {factors : List F} {evidence : Option (Dict Var V)}
  {special : Dict Var V} {a : Any F V G}

/-- What a cluster answers is the marginal of its belief. -/
theorem answer_sum [Zero G] (L : SumLaws ops) {n m : Nat} {g0 g : Graph F V G n m}
    {tr : List (Fin m × F)} (inv : RunInv ops g0 tr g) (b : BelInv L.toLaws g0 tr g)
    {i : Fin n} {vrs : List Var} (hn : vrs.Nodup) (hv : ∀ v ∈ vrs, v ∈ freeVars ops g0 i) {r : F}
    (hm : (observe ops g.special (g.cl i).factor >>= fun f => ops.marginalize f vrs) = .ok r) :
    L.Ok r ∧ ∀ x, L.den r x = sumOut L.C (freeVars ops g0 i \ vrs.toFinset) (belief L g0 g i) x := by
  obtain ⟨f, h1, h2⟩ := py_bind_eq_ok.1 hm
  obtain ⟨f1, f2, f3⟩ := L.toLaws.observe (b.ok i) g.special h1
  rw [inv.special] at f2 f3
  have hset : (ops.vars f).toFinset = freeVars ops g0 i := by
    ext v; rw [List.mem_toFinset, f2, mem_freeVars, b.vars]
  have hsub : ∀ v ∈ vrs, v ∈ ops.vars f := fun v h => by
    have := hv v h
    rw [← hset] at this
    simpa using this
  have hB : L.den f = belief L g0 g i := funext f3
  have hsum := L.sum f1 hn hsub h2
  rw [hset, hB] at hsum
  exact ⟨(L.marg f1 hn hsub h2).1, hsum⟩

/-- Where clusters are linked through a set of variables. -/
def Linked {n m : Nat} (g0 : Graph F V G n m) (T : Finset Var) (i j : Fin n) : Prop :=
  Relation.ReflTransGen (fun i j => (edgeGraph g0).Adj i j ∧ T ⊆ edgeSep g0 i j) i j

theorem linked_one {D : Type} (L : Laws ops D) (hok : ∀ f ∈ factors, L.Ok f)
    (h : new hs ops factors evidence special = .ok a) {v : Var} {i j : Fin a.n} (hi : v ∈ freeVars ops a.graph i)
    (hj : v ∈ freeVars ops a.graph j) : Linked a.graph [v].toFinset i j := by
  have := rip_free L hok h v i j hi hj
  unfold Linked
  simpa using this

theorem linked_sep (h : new hs ops factors evidence special = .ok a) {vrs s : List Var} {i j : Fin a.n}
    (hsep : sepset a.graph i j = some s) (hv : ∀ v ∈ vrs, v ∈ s) : Linked a.graph vrs.toFinset i j ∧
    ∀ v ∈ vrs, v ∈ freeVars ops a.graph i ∧ v ∈ freeVars ops a.graph j := by
  obtain ⟨w, hsp, _⟩ := wired_new h
  refine ⟨.single ⟨w.edge_adj.2 ⟨s, hsep⟩, fun v h => ?_⟩, fun v h => ?_⟩
  · unfold edgeSep
    rw [hsep]
    simpa using hv v (by simpa using h)
  · have := (w.sepOk _ _ _ hsep).2 v (hv v h)
    exact ⟨mem_freeVars.2 ⟨this.1, fun hk => this.2.2 (w.specialEv v hk)⟩,
      mem_freeVars.2 ⟨this.2.1, fun hk => this.2.2 (w.specialEv v hk)⟩⟩

theorem agree_sum [Zero G] {L : SumLaws ops} (hok : ∀ f ∈ factors, L.Ok f)
    (h : new hs ops factors evidence special = .ok a)
    {tr : List (Fin a.m × F)} {g : Graph F V G a.n a.m} (hr : Run ops a.graph tr g)
    (hconv : Converged L a.graph tr g) {vrs : List Var} (hn : vrs.Nodup) {i j : Fin a.n} (hl : Linked a.graph vrs.toFinset i j)
    (hi : ∀ v ∈ vrs, v ∈ freeVars ops a.graph i) (hj : ∀ v ∈ vrs, v ∈ freeVars ops a.graph j) {ri rj : F}
    (hri : (observe ops g.special (g.cl i).factor >>= fun f => ops.marginalize f vrs) = .ok ri)
    (hrj : (observe ops g.special (g.cl j).factor >>= fun f => ops.marginalize f vrs) = .ok rj) :
    ∃ c : ℝ, 0 < c ∧ ∀ x, L.den ri x = c * L.den rj x := by
  obtain ⟨w, hsp, _⟩ := wired_new h
  have inv := hr.inv w
  have b := hr.bel (L := L.toLaws) w (new_ok L.toLaws hok h)
  obtain ⟨c, hc, hx⟩ := (calibrated L w inv b hconv).agree hl
  refine ⟨c, hc, fun x => ?_⟩
  rw [(answer_sum L inv b hn hi hri).2, (answer_sum L inv b hn hj hrj).2, hx]

theorem agree_int [Zero G] (L : IntLaws ops) (hok : ∀ f ∈ factors, L.Ok f)
    (h : new hs ops factors evidence special = .ok a)
    {tr : List (Fin a.m × F)} {g : Graph F V G a.n a.m} (hr : Run ops a.graph tr g)
    (hconv : ∀ q, ∃ c : ℝ, 0 < c ∧ ∀ x,
      L.den (g.path q).next.factor x = c * ((lastMsg tr q).map fun f => L.den f x).getD 1)
    (hnorm : ∀ i, ∃ l x, l.Nodup ∧ (∀ v, v ∈ l ↔ v ∈ scope ops a.graph i ∧ v ∉ Dict.keys special) ∧
      IntegrableOut l (fun y => L.den (g.cl i).factor (override (special.map fun e => (e.1, L.val e.2)) y)) x)
    {vrs : List Var} (hn : vrs.Nodup) {i j : Fin a.n} (hl : Linked a.graph vrs.toFinset i j)
    (hi : ∀ v ∈ vrs, v ∈ freeVars ops a.graph i) (hj : ∀ v ∈ vrs, v ∈ freeVars ops a.graph j) {ri rj : F}
    (hri : (observe ops g.special (g.cl i).factor >>= fun f => ops.marginalize f vrs) = .ok ri)
    (hrj : (observe ops g.special (g.cl j).factor >>= fun f => ops.marginalize f vrs) = .ok rj) :
    ∃ c : ℝ, 0 < c ∧ ∀ x, L.den ri x = c * L.den rj x := by
  obtain ⟨w, hsp, _⟩ := wired_new h
  have inv := hr.inv w
  have b := hr.bel w (new_ok L.toLaws hok h)
  have hconv' : ConvergedI L.toPosLaws tr g := by
    intro q
    obtain ⟨c, hc, hx⟩ := hconv q
    refine ⟨c, hc, fun x => ?_⟩
    rw [hx x]
    unfold mval
    cases lastMsg tr q <;> rfl
  have hnorm' : ∀ i, ∃ x, intOut (freeVars ops a.graph i) (beliefI L.toPosLaws a.graph g i) x ≠ ∞ := by
    intro i
    obtain ⟨l, x, hl, hv, hi⟩ := hnorm i
    have hset : l.toFinset = freeVars ops a.graph i := by
      ext v; rw [List.mem_toFinset, hv, mem_freeVars, hsp]
    refine ⟨x, ?_⟩
    have hi' := (Spec.integrableOut_iff hl ((L.meas (b.ok i)).comp (measurable_override L.toPosLaws special))
      (fun y => L.nonneg (b.ok i) _) x).1 hi
    rw [hset] at hi'
    unfold beliefI
    rw [hsp]
    exact hi'
  have ans : ∀ (i : Fin a.n) (r : F), (∀ v ∈ vrs, v ∈ freeVars ops a.graph i) →
      (observe ops g.special (g.cl i).factor >>= fun f => ops.marginalize f vrs) = .ok r →
      L.Ok r ∧ ∀ x, ENNReal.ofReal (L.den r x) =
        intOut (freeVars ops a.graph i \ vrs.toFinset) (beliefI L.toPosLaws a.graph g i) x := by
    intro i r hi hm
    obtain ⟨f, h1, h2⟩ := py_bind_eq_ok.1 hm
    obtain ⟨f1, f2, f3⟩ := L.toLaws.observe (b.ok i) g.special h1
    rw [inv.special] at f2 f3
    have hset : (ops.vars f).toFinset = freeVars ops a.graph i := by
      ext v; rw [List.mem_toFinset, f2, mem_freeVars, b.vars]
    have hsub : ∀ v ∈ vrs, v ∈ ops.vars f := fun v h => by
      have := hi v h
      rw [← hset] at this
      simpa using this
    have hB : (fun y => ENNReal.ofReal (L.den f y)) = beliefI L.toPosLaws a.graph g i := by
      funext y
      rw [f3]
      rfl
    have hsum := L.int f1 hn hsub h2 (by rw [hset, hB]; exact hnorm' i)
    rw [hset, hB] at hsum
    exact ⟨(L.marg f1 hn hsub h2).1, hsum⟩
  obtain ⟨oi, si⟩ := ans i ri hi hri
  obtain ⟨oj, sj⟩ := ans j rj hj hrj
  obtain ⟨c, hc, hc', hx⟩ := (calibratedI w b hconv' (b.next_int w inv hnorm')).agree hl
  refine ⟨c.toReal, ENNReal.toReal_pos hc hc', fun x => ?_⟩
  have := hx x
  rw [← si, ← sj] at this
  have := congrArg ENNReal.toReal this
  rwa [ENNReal.toReal_mul, ENNReal.toReal_ofReal (L.nonneg oi x), ENNReal.toReal_ofReal (L.nonneg oj x)] at this

end

/-- What the cluster `i` answers to a query: `get_marginal` returns this for the first cluster whose scope contains the
queried variables (`C53_get_marginal`). -/
def Answers {F V G : Type} {n m : Nat} (ops : Ops F V G) (g : Graph F V G n m) (i : Fin n) (vrs : List Var) (r : F) : Prop :=
  (observe ops g.special (g.cl i).factor >>= fun f => ops.marginalize f vrs) = .ok r

theorem possible_sparse {hs : HashSeed} {C : Var → Nat} {factors : List (Sparse ℝ)} {evidence : Option (Dict Var Nat)}
    {special : Dict Var Nat} {x : Asg}
    (hx : ∀ f ∈ factors, f.prob (override (evidence.getD []) (override special x)) ≠ 0) :
    ∀ f ∈ factors, (sparseLaws hs C).den f (given (sparseLaws hs C).toLaws evidence
      (override (evPairs (sparseLaws hs C).toLaws special) x)) ≠ 0 := by
  intro f hf
  have := hx f hf
  unfold given evPairs
  simp only [sparseLaws, id_eq, Prod.mk.eta, List.map_id']
  exact this

theorem Total.answers {F V G D : Type} {n m : Nat} {ops : Ops F V G} [Zero G] {L : Laws ops D} (T : Total L)
    {evVars : List Var} {g0 g : Graph F V G n m} {tr : List (Fin m × F)} (w : Wired ops evVars g0)
    (hok : ∀ i, L.Ok (g0.cl i).factor) (hr : Run ops g0 tr g) {x : Var → D}
    (hx : ∀ i, L.den (g0.cl i).factor (override (evPairs L g0.special) x) ≠ 0) {vrs : List Var}
    (hn : vrs.Nodup) {i : Fin n} (hv : ∀ v ∈ vrs, v ∈ freeVars ops g0 i) : ∃ r, Answers ops g i vrs r := by
  have inv := hr.inv w
  have b := hr.bel w hok
  obtain ⟨f, hf⟩ := T.observe (b.ok i) g0.special ⟨x, b.belief_pos w hx i⟩
  obtain ⟨f1, f2, _⟩ := L.observe (b.ok i) g0.special hf
  obtain ⟨r, hr⟩ := T.marg f1 hn fun v hvv =>
    (f2 v).2 ⟨(b.vars i v).2 (mem_freeVars.1 (hv v hvv)).1, (mem_freeVars.1 (hv v hvv)).2⟩
  exact ⟨r, by unfold Answers; rw [inv.special, hf, py_bind_ok]; exact hr⟩

theorem TotalI.answers {F V G : Type} {n m : Nat} {ops : Ops F V G} [Zero G] {L : IntLaws ops} (T : TotalI L)
    {evVars : List Var} {g0 g : Graph F V G n m} {tr : List (Fin m × F)} (w : Wired ops evVars g0)
    (hok : ∀ i, L.Ok (g0.cl i).factor) (h0 : ∀ i, ∃ x, intOut (freeVars ops g0 i) (beliefI L.toPosLaws g0 g0 i) x ≠ ∞)
    (hfree : ∀ i, ∃ v ∈ scope ops g0 i, v ∉ Dict.keys g0.special) (hr : Run ops g0 tr g) {vrs : List Var}
    (hn : vrs.Nodup) {i : Fin n} (hv : ∀ v ∈ vrs, v ∈ freeVars ops g0 i) : ∃ r, Answers ops g i vrs r := by
  have inv := hr.inv w
  have b := hr.bel w hok
  obtain ⟨f, hf, -⟩ := T.observe (b.ok i) g0.special (by
    obtain ⟨v, h1, h2⟩ := hfree i
    exact ⟨v, (b.vars i v).2 h1, h2⟩)
  obtain ⟨f1, f2, f3⟩ := L.toLaws.observe (b.ok i) g0.special hf
  have hset : (ops.vars f).toFinset = freeVars ops g0 i := by
    ext v; rw [List.mem_toFinset, f2, mem_freeVars, b.vars]
  have hNf : Norm L f := by
    obtain ⟨x, hx⟩ := T.beliefs w hok h0 hfree hr i
    refine ⟨x, ?_⟩
    rw [hset]
    simp only [f3]
    exact hx
  obtain ⟨r, hr, -⟩ := T.marg f1 hNf hn fun v hvv =>
    (f2 v).2 ⟨(b.vars i v).2 (mem_freeVars.1 (hv v hvv)).1, (mem_freeVars.1 (hv v hvv)).2⟩
  exact ⟨r, by unfold Answers; rw [inv.special, hf, py_bind_ok]; exact hr⟩

/-- **C101** for sparse categorical factors, on any cluster graph (with or without cycles), after any execution that
left all information gains at zero: any two clusters whose scopes contain an unobserved variable answer a query
for it alike, up to scale; and any two neighbours so answer queries for any variables of their sepset. -/
theorem C101_sparse_consistent (hs : HashSeed) (C : Var → Nat) (factors : List (Sparse ℝ))
    (hok : ∀ f ∈ factors, Sparse.Regular f ∧ ∀ v ∈ f.vars, f.card v = C v)
    (evidence : Option (Dict Var Nat)) (special : Dict Var Nat) (a : Any (Sparse ℝ) Nat EReal)
    (h : new hs (sparseOps hs) factors evidence special = .ok a)
    (hpos : ∃ x : Asg, ∀ f ∈ factors, f.prob (override (evidence.getD []) (override special x)) ≠ 0)
    (tr : List (Fin a.m × Sparse ℝ)) (g : Graph (Sparse ℝ) Nat EReal a.n a.m)
    (hr : Run (sparseOps hs) a.graph tr g) (hgain : ∀ q, (g.path q).gain ≤ 0) (i j : Fin a.n) :
    (∀ v, v ∈ scope (sparseOps hs) a.graph i → v ∈ scope (sparseOps hs) a.graph j → v ∉ Dict.keys special →
      ∃ ri rj, Answers (sparseOps hs) g i [v] ri ∧ Answers (sparseOps hs) g j [v] rj ∧
        ∃ c : ℝ, 0 < c ∧ ∀ x, ri.prob x = c * rj.prob x) ∧
    ∀ s, sepset a.graph i j = some s → ∀ vrs : List Var, vrs.Nodup → (∀ v ∈ vrs, v ∈ s) →
      ∃ ri rj, Answers (sparseOps hs) g i vrs ri ∧ Answers (sparseOps hs) g j vrs rj ∧
        ∃ c : ℝ, 0 < c ∧ ∀ x, ri.prob x = c * rj.prob x := by
  obtain ⟨x0, hx0⟩ := hpos
  obtain ⟨w, hsp, _⟩ := wired_new h
  have inv := hr.inv w
  have hok0 := new_ok (sparseLaws hs C).toLaws hok h
  have b := hr.bel (L := (sparseLaws hs C).toLaws) w hok0
  have hx := new_pos (sparseLaws hs C).toLaws hok h (possible_sparse hx0)
  have hconv := converged_of_gains w inv b hgain hx
  have key : ∀ vrs : List Var, vrs.Nodup → Linked a.graph vrs.toFinset i j →
      (∀ v ∈ vrs, v ∈ freeVars (sparseOps hs) a.graph i) → (∀ v ∈ vrs, v ∈ freeVars (sparseOps hs) a.graph j) →
      ∃ ri rj, Answers (sparseOps hs) g i vrs ri ∧ Answers (sparseOps hs) g j vrs rj ∧
        ∃ c : ℝ, 0 < c ∧ ∀ x, ri.prob x = c * rj.prob x := by
    intro vrs hn hl hi hj
    obtain ⟨ri, hri⟩ := (sparseTotal hs C).answers w hok0 hr hx hn hi
    obtain ⟨rj, hrj⟩ := (sparseTotal hs C).answers w hok0 hr hx hn hj
    exact ⟨ri, rj, hri, hrj, agree_sum (L := sparseLaws hs C) hok h hr hconv hn hl hi hj hri hrj⟩
  refine ⟨fun v hi hj hv => ?_, fun s hs' vrs hn hv => ?_⟩
  · have hi' : v ∈ freeVars (sparseOps hs) a.graph i := mem_freeVars.2 ⟨hi, by rw [hsp]; exact hv⟩
    have hj' : v ∈ freeVars (sparseOps hs) a.graph j := mem_freeVars.2 ⟨hj, by rw [hsp]; exact hv⟩
    exact key [v] (by simp) (linked_one (sparseLaws hs C).toLaws hok h hi' hj')
      (fun u hu => by rw [List.mem_singleton.1 hu]; exact hi') (fun u hu => by rw [List.mem_singleton.1 hu]; exact hj')
  · obtain ⟨hl, hf⟩ := linked_sep h hs' hv
    exact key vrs hn hl (fun v h => (hf v h).1) (fun v h => (hf v h).2)

/-- **C101** for Gaussian factors that can be normalised, on any cluster graph (with or without cycles), after any
execution that left every next message proportional to the last one: as for sparse factors. -/
theorem C101_gaussian_consistent (hs : HashSeed) (factors : List AnyG) (D : AnyG → (Var → ℝ) → ℝ)
    (hp : ∀ f ∈ factors, Proper f D) (evidence : Option (Dict Var ℝ)) (special : Dict Var ℝ)
    (hx : ∀ f ∈ factors, ∃ v ∈ f.2.vars, v ∉ Dict.keys (evidence.getD []) ∧ v ∉ Dict.keys special)
    (a : Any AnyG ℝ EReal) (h : new hs (gaussOps hs) factors evidence special = .ok a)
    (tr : List (Fin a.m × AnyG)) (g : Graph AnyG ℝ EReal a.n a.m) (hr : Run (gaussOps hs) a.graph tr g)
    (hconv : ∀ q, ∃ c : ℝ, 0 < c ∧ ∀ x,
      gaussDen (g.path q).next.factor x = c * ((lastMsg tr q).map fun f => gaussDen f x).getD 1) (i j : Fin a.n) :
    (∀ v, v ∈ scope (gaussOps hs) a.graph i → v ∈ scope (gaussOps hs) a.graph j → v ∉ Dict.keys special →
      ∃ ri rj, Answers (gaussOps hs) g i [v] ri ∧ Answers (gaussOps hs) g j [v] rj ∧
        ∃ c : ℝ, 0 < c ∧ ∀ x, gaussDen ri x = c * gaussDen rj x) ∧
    ∀ s, sepset a.graph i j = some s → ∀ vrs : List Var, vrs.Nodup → (∀ v ∈ vrs, v ∈ s) →
      ∃ ri rj, Answers (gaussOps hs) g i vrs ri ∧ Answers (gaussOps hs) g j vrs rj ∧
        ∃ c : ℝ, 0 < c ∧ ∀ x, gaussDen ri x = c * gaussDen rj x := by
  obtain ⟨w, hsp, _⟩ := wired_new h
  have hok : ∀ f ∈ factors, (gaussLaws hs).Ok f := fun f hf => ((hp f hf).ok (hs := hs)).1
  obtain ⟨hok0, h0, hfree⟩ := gauss_start hp hx h
  obtain ⟨a', ha', hall⟩ := C88_gaussian_never_fails hs factors D hp evidence special hx
  rw [h] at ha'
  simp only [Except.ok.injEq] at ha'
  subst ha'
  obtain ⟨-, -, -, hnorm, -⟩ := hall tr g hr
  have key : ∀ vrs : List Var, vrs.Nodup → Linked a.graph vrs.toFinset i j →
      (∀ v ∈ vrs, v ∈ freeVars (gaussOps hs) a.graph i) → (∀ v ∈ vrs, v ∈ freeVars (gaussOps hs) a.graph j) →
      ∃ ri rj, Answers (gaussOps hs) g i vrs ri ∧ Answers (gaussOps hs) g j vrs rj ∧
        ∃ c : ℝ, 0 < c ∧ ∀ x, gaussDen ri x = c * gaussDen rj x := by
    intro vrs hn hl hi hj
    obtain ⟨ri, hri⟩ := (gaussTotal hs).answers w hok0 h0 hfree hr hn hi
    obtain ⟨rj, hrj⟩ := (gaussTotal hs).answers w hok0 h0 hfree hr hn hj
    refine ⟨ri, rj, hri, hrj, agree_int (gaussLaws hs) hok h hr hconv ?_ hn hl hi hj hri hrj⟩
    have e : (special.map fun e => (e.1, (gaussLaws hs).val e.2)) = special := by
      simp [gaussLaws]
    rw [e]
    exact hnorm
  refine ⟨fun v hi hj hv => ?_, fun s hs' vrs hn hv => ?_⟩
  · have hi' : v ∈ freeVars (gaussOps hs) a.graph i := mem_freeVars.2 ⟨hi, by rw [hsp]; exact hv⟩
    have hj' : v ∈ freeVars (gaussOps hs) a.graph j := mem_freeVars.2 ⟨hj, by rw [hsp]; exact hv⟩
    exact key [v] (by simp) (linked_one (gaussLaws hs).toLaws hok h hi' hj')
      (fun u hu => by rw [List.mem_singleton.1 hu]; exact hi') (fun u hu => by rw [List.mem_singleton.1 hu]; exact hj')
  · obtain ⟨hl, hf⟩ := linked_sep h hs' hv
    exact key vrs hn hl (fun v h => (hf v h).1) (fun v h => (hf v h).2)

end Verif.CG
