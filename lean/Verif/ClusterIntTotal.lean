import Verif.ClusterTotal
import Verif.ClusterInt2

/-!
# Continuous factors that can be normalised: inference cannot fail

If every factor can be normalised, every message and every belief of every execution can be normalised, and no
operation of the cluster graph raises.
-/

namespace Verif.CG
open Spec (DependsOn override intOut)
open Classical MeasureTheory
open scoped ENNReal
variable {F V G : Type} {n m : Nat} {ops : Ops F V G}

/-- The factor has a finite integral over all of its variables. -/
def Norm (L : IntLaws ops) (f : F) : Prop :=
  ∃ x, intOut (ops.vars f).toFinset (fun y => .ofReal (L.den f y)) x ≠ ∞

/-- The operations of a lawful class of continuous factors return: products and quotients always, marginals and
divergences of factors that can be normalised, reductions that leave a variable. Factors that can be normalised
are bounded and stay so when variables are observed. -/
structure TotalI (L : IntLaws ops) : Prop where
  mul : ∀ {f g}, L.Ok f → L.Ok g → ∃ r, ops.multiply f g = .ok r
  cancel : ∀ {f g}, L.Ok f → L.Ok g → ∃ r, ops.cancel f g = .ok r
  cancelVars : ∀ {f g r}, L.Ok f → L.Ok g → (∀ v ∈ ops.vars g, v ∈ ops.vars f) → ops.cancel f g = .ok r →
    ops.vars r = ops.vars f
  marg : ∀ {f vrs}, L.Ok f → Norm L f → vrs.Nodup → (∀ v ∈ vrs, v ∈ ops.vars f) →
    ∃ r, ops.marginalize f vrs = .ok r ∧ ops.vars r = vrs
  red : ∀ {f vs ks}, L.Ok f → vs.Nodup → (∀ v ∈ vs, v ∈ ops.vars f) → ks.length = vs.length →
    (∃ v ∈ ops.vars f, v ∉ vs) → ∃ r, ops.reduce f vs ks = .ok r
  dist : ∀ {f}, L.Ok f → Norm L f → ∃ d, ops.distVacuous f = .ok d
  kl : ∀ {f g}, L.Ok f → L.Ok g → ops.vars f = ops.vars g → Norm L f → Norm L g → ∃ d, ops.kl f g = .ok d
  bdd : ∀ {f}, L.Ok f → Norm L f → ∃ B : ℝ, ∀ x, L.den f x ≤ B
  redNorm : ∀ {f vs ks r}, L.Ok f → Norm L f → vs.Nodup → (∀ v ∈ vs, v ∈ ops.vars f) → ks.length = vs.length →
    ops.reduce f vs ks = .ok r → Norm L r

theorem intOut_ne_top_of_le {vs : Finset Var} {F K : (Var → ℝ) → ℝ≥0∞} (hF : Measurable F) {C : ℝ≥0∞} (hC : C ≠ ∞)
    (h : ∀ y, K y ≤ C * F y) {x : Var → ℝ} (hx : intOut vs F x ≠ ∞) : intOut vs K x ≠ ∞ := by
  have h1 : intOut vs K x ≤ intOut vs (fun y => C * F y) x := lmarginal_mono h x
  rw [Spec.intOut_mul_left (G := fun _ => C) (fun _ _ _ => rfl) hF] at h1
  exact ne_top_of_le_ne_top (ENNReal.mul_ne_top hC hx) h1

/-! ### The constructor -/

theorem TotalI.red_subset {L : IntLaws ops} (T : TotalI L) {f : F} (hf : L.Ok f) (ev : Dict Var V)
    {vars : List Var} (hn : vars.Nodup) (hv : ∀ v, v ∈ vars ↔ v ∈ ops.vars f)
    (hx : ∃ v ∈ ops.vars f, v ∉ Dict.keys ev) :
    ∃ r, ops.reduce f (Dict.keys (subsetEvidence ev vars)) (Dict.values (subsetEvidence ev vars)) = .ok r ∧
      (Norm L f → Norm L r) := by
  have hk := keys_subsetEvidence ev hn
  have hnd : (Dict.keys (subsetEvidence ev vars)).Nodup := by rw [hk]; exact hn.filter _
  have hsub : ∀ v ∈ Dict.keys (subsetEvidence ev vars), v ∈ ops.vars f := fun v h => by
    rw [hk] at h
    exact (hv v).1 (List.mem_filter.1 h).1
  have hlen : (Dict.values (subsetEvidence ev vars)).length = (Dict.keys (subsetEvidence ev vars)).length := by
    simp [Dict.keys, Dict.values]
  obtain ⟨v, hvf, hve⟩ := hx
  obtain ⟨r, hr⟩ := T.red hf hnd hsub hlen ⟨v, hvf, fun h => by
    rw [hk] at h
    have := (List.mem_filter.1 h).2
    exact hve (Dict.get?_isSome_iff.1 (Option.isSome_iff_exists.1 this))⟩
  exact ⟨r, hr, fun hN => T.redNorm hf hN hnd hsub hlen hr⟩

theorem TotalI.observe {L : IntLaws ops} (T : TotalI L) {f : F} (hf : L.Ok f) (ev : Dict Var V)
    (hx : ∃ v ∈ ops.vars f, v ∉ Dict.keys ev) : ∃ r, CG.observe ops ev f = .ok r ∧ (Norm L f → Norm L r) := by
  unfold CG.observe
  dsimp only
  split
  · exact T.red_subset hf ev (L.nodup hf) (fun _ => Iff.rfl) hx
  · exact ⟨f, rfl, id⟩

theorem TotalI.evidenceReduce {L : IntLaws ops} (T : TotalI L) {factors : List F}
    (hok : ∀ f ∈ factors, L.Ok f ∧ Norm L f) (evidence : Option (Dict Var V))
    (hx : ∀ f ∈ factors, ∃ v ∈ ops.vars f, v ∉ Dict.keys (evidence.getD [])) :
    ∃ r, CG.evidenceReduce ops factors evidence = .ok r ∧ ∀ f ∈ r, L.Ok f ∧ Norm L f := by
  unfold CG.evidenceReduce
  cases evidence with
  | none =>
    refine ⟨factors, ?_, hok⟩
    dsimp only
    clear hx hok
    induction factors with
    | nil => rfl
    | cons f fs ih => rw [List.mapM_cons, py_bind_ok, ih]; rfl
  | some ev =>
    dsimp only
    induction factors with
    | nil => exact ⟨[], rfl, fun f hf => by cases hf⟩
    | cons f fs ih =>
      obtain ⟨r, hr, hr'⟩ := ih (fun a ha => hok a (by simp [ha])) (fun a ha => hx a (by simp [ha]))
      obtain ⟨o1, o2⟩ := hok f (by simp)
      obtain ⟨f', h1, h2⟩ := T.observe o1 ev (hx f (by simp))
      refine ⟨f' :: r, ?_, fun a ha => ?_⟩
      · rw [List.mapM_cons, h1, py_bind_ok, hr]
        rfl
      · rcases List.mem_cons.1 ha with rfl | ha
        · exact ⟨(L.toLaws.observe o1 ev h1).1, h2 o2⟩
        · exact hr' a ha

theorem TotalI.mulNorm {L : IntLaws ops} (T : TotalI L) {f g r : F} (hf : L.Ok f) (hg : L.Ok g) (nf : Norm L f)
    (ng : Norm L g) (hsub : ∀ v ∈ ops.vars g, v ∈ ops.vars f) (h : ops.multiply f g = .ok r) : Norm L r := by
  obtain ⟨r1, r2, r3⟩ := L.mul hf hg h
  obtain ⟨B, hB⟩ := T.bdd hg ng
  obtain ⟨x, hx⟩ := nf
  have hset : (ops.vars r).toFinset = (ops.vars f).toFinset := by
    ext v
    simp only [List.mem_toFinset, r2]
    exact ⟨fun h => h.elim id (hsub v), .inl⟩
  refine ⟨x, ?_⟩
  rw [hset]
  refine intOut_ne_top_of_le (C := .ofReal B) (L.meas hf).ennreal_ofReal ENNReal.ofReal_ne_top (fun y => ?_) hx
  rw [r3, mul_comm, ENNReal.ofReal_mul (L.nonneg hg y)]
  exact mul_le_mul_left (ENNReal.ofReal_le_ofReal (hB y)) _

theorem TotalI.absorbInner {L : IntLaws ops} (T : TotalI L) {factors : List F}
    (hok : ∀ f ∈ factors, L.Ok f ∧ Norm L f)
    (i : Nat) {f : F} (hf : L.Ok f ∧ Norm L f) (mask : Nat → Bool) :
    ∃ s, CG.absorbInner ops factors i f mask = .ok s ∧ L.Ok s.1 ∧ Norm L s.1 := by
  unfold CG.absorbInner
  refine foldlM_total (fun _ (s : F × (Nat → Bool)) => L.Ok s.1 ∧ Norm L s.1) hf ?_
  intro l a l' s hL hs
  split
  · rename_i hc
    have ha := hok a.1 (List.fst_mem_of_mem_zipIdx (by rw [hL]; simp))
    obtain ⟨p, hp⟩ := T.mul hs.1 ha.1
    have hsub : ∀ v ∈ ops.vars a.1, v ∈ ops.vars s.1 := by
      have := hc.2.2
      unfold strictSubset at this
      simp only [Bool.and_eq_true, decide_eq_true_eq] at this
      exact this.1
    exact ⟨_, by rw [hp]; rfl, (L.mul hs.1 ha.1 hp).1, T.mulNorm hs.1 ha.1 hs.2 ha.2 hsub hp⟩
  · exact ⟨s, rfl, hs⟩

theorem TotalI.absorb {L : IntLaws ops} (T : TotalI L) {factors : List F}
    (hok : ∀ f ∈ factors, L.Ok f ∧ Norm L f) :
    ∃ r, CG.absorb ops factors = .ok r ∧ ∀ f ∈ r, L.Ok f ∧ Norm L f := by
  unfold CG.absorb
  obtain ⟨r, hr, hr'⟩ := foldlM_total (L := factors.zipIdx)
    (f := fun (s : List F × (Nat → Bool)) e =>
      if s.2 e.2 = false then do
        let t ← CG.absorbInner ops factors e.2 e.1 s.2
        .ok (if t.2 e.2 = true then s.1 ++ [t.1] else s.1, t.2)
      else .ok s) (b := ([], fun _ => false)) (fun _ s => ∀ f ∈ s.1, L.Ok f ∧ Norm L f)
    (fun f hf => by cases hf) (by
    intro l a l' s hL hs
    split
    · have ha := hok a.1 (List.fst_mem_of_mem_zipIdx (by rw [hL]; simp))
      obtain ⟨t, ht, ht'⟩ := T.absorbInner hok a.2 ha s.2
      refine ⟨_, by rw [ht]; rfl, fun f hf => ?_⟩
      dsimp only at hf
      split at hf
      · rcases List.mem_append.1 hf with hf | hf
        · exact hs f hf
        · rw [List.mem_singleton.1 hf]; exact ht'
      · exact hs f hf
    · exact ⟨s, rfl, hs⟩)
  rw [hr, py_bind_ok]
  dsimp only
  rw [mask_all]
  refine ⟨_, rfl, ?_⟩
  have key : ∀ (l : List (F × Nat)) (s : List F × (Nat → Bool)), (∀ a ∈ l, a.1 ∈ factors) →
      (∀ f ∈ s.1, L.Ok f ∧ Norm L f) →
      ∀ f ∈ (l.foldl (fun (s : List F × (Nat → Bool)) e =>
        if s.2 e.2 = false then (s.1 ++ [e.1], Function.update s.2 e.2 true) else s) s).1, L.Ok f ∧ Norm L f := by
    intro l
    induction l with
    | nil => intro s _ h; exact h
    | cons a l ih =>
      intro s hl h
      rw [List.foldl_cons]
      refine ih _ (fun b hb => hl b (List.mem_cons_of_mem _ hb)) ?_
      split
      · intro f hf
        rcases List.mem_append.1 hf with hf | hf
        · exact h f hf
        · rw [List.mem_singleton.1 hf]; exact hok _ (hl a (List.mem_cons_self ..))
      · exact h
  exact key _ _ (fun a ha => List.fst_mem_of_mem_zipIdx ha) hr'

theorem TotalI.clusterFactors {L : IntLaws ops} (T : TotalI L) {factors : List F}
    (hok : ∀ f ∈ factors, L.Ok f ∧ Norm L f) (evidence : Option (Dict Var V))
    (hx : ∀ f ∈ factors, ∃ v ∈ ops.vars f, v ∉ Dict.keys (evidence.getD [])) :
    ∃ fs, CG.clusterFactors ops factors evidence = .ok fs ∧ ∀ f ∈ fs, L.Ok f ∧ Norm L f := by
  obtain ⟨rs, hrs, h⟩ := T.evidenceReduce hok evidence hx
  obtain ⟨fs, hfs, h'⟩ := T.absorb h
  refine ⟨fs, ?_, h'⟩
  unfold CG.clusterFactors
  rw [hrs]; exact hfs

/-- A factor that can be normalised can be normalised given evidence. -/
theorem TotalI.redSpecial {L : IntLaws ops} (T : TotalI L) {f : F} {special : Dict Var V} (hf : L.Ok f)
    (nf : Norm L f) (hfree : ∃ v ∈ ops.vars f, v ∉ Dict.keys special) :
    ∃ x, intOut ((ops.vars f).toFinset \ (Dict.keys special).toFinset)
      (fun y => .ofReal (L.den f (override (evPairs L.toLaws special) y))) x ≠ ∞ := by
  obtain ⟨r, hr, h⟩ := T.red_subset hf special (L.nodup hf) (fun _ => Iff.rfl) hfree
  obtain ⟨r1, r2, r3⟩ := L.toLaws.red_subset hf special (L.nodup hf) (fun _ => Iff.rfl) hr
  obtain ⟨x, hx⟩ := h nf
  refine ⟨x, ?_⟩
  have hset : (ops.vars r).toFinset = (ops.vars f).toFinset \ (Dict.keys special).toFinset := by
    ext v; simp [r2]
  rw [hset] at hx
  simp only [r3] at hx
  exact hx

/-- What a cluster last received, as a function; 1 if nothing. -/
noncomputable def recvVal (L : IntLaws ops) (c : Cl F V) (nid : String) (x : Var → ℝ) : ℝ :=
  ((Dict.get? c.received nid).map fun p => L.den p x).getD 1

/-- Making a message succeeds where the sender's belief, given the evidence, can be normalised. The message can be
normalised if the belief without the last message of the receiver can. -/
theorem TotalI.makeMessage {L : IntLaws ops} (T : TotalI L) {c : Cl F V} {nid : String} {sep vars : List Var}
    {special : Dict Var V} (hok : L.Ok c.factor) (hn : vars.Nodup) (hv : ∀ v, v ∈ vars ↔ v ∈ ops.vars c.factor)
    (hsp : c.special = some (subsetEvidence special vars)) (hsep : Dict.get? c.sepsets nid = some sep)
    (hsn : sep.Nodup) (hsub : ∀ v ∈ sep, v ∈ ops.vars c.factor ∧ v ∉ Dict.keys special)
    (hfree : ∃ v ∈ ops.vars c.factor, v ∉ Dict.keys special)
    (hnorm : ∃ x, intOut ((ops.vars c.factor).toFinset \ (Dict.keys special).toFinset)
      (fun y => .ofReal (L.den c.factor (override (evPairs L.toLaws special) y))) x ≠ ∞)
    (hrec : ∀ p, Dict.get? c.received nid = some p → L.Ok p ∧ ∀ v ∈ ops.vars p, v ∈ sep)
    (hnorm' : ∃ x, intOut ((ops.vars c.factor).toFinset \ (Dict.keys special).toFinset)
      (fun y => .ofReal ((recvVal L c nid y)⁻¹) *
        .ofReal (L.den c.factor (override (evPairs L.toLaws special) y))) x ≠ ∞) :
    ∃ msg, CG.makeMessage ops c nid = .ok msg ∧ L.Ok msg.factor ∧ ops.vars msg.factor = sep ∧
      Norm L msg.factor := by
  obtain ⟨red, hred, -⟩ := T.red_subset hok special hn hv hfree
  obtain ⟨r1, r2, r3⟩ := L.toLaws.red_subset hok special hn hv hred
  have hsub' : ∀ v ∈ sep, v ∈ ops.vars red := fun v h => (r2 v).2 (hsub v h)
  have hset : (ops.vars red).toFinset = (ops.vars c.factor).toFinset \ (Dict.keys special).toFinset := by
    ext v; simp [r2]
  have hN : Norm L red := by
    obtain ⟨x, hx⟩ := hnorm
    refine ⟨x, ?_⟩
    rw [hset]
    simp only [r3]
    exact hx
  obtain ⟨M, hM, mv⟩ := T.marg r1 hN hsn hsub'
  obtain ⟨m1, m2, m3⟩ := L.marg r1 hsn hsub' hM
  have key : ∃ f, cancelReceived ops c nid M = .ok f ∧ L.Ok f ∧ ops.vars f = sep ∧
      ∀ x, L.den f x = (recvVal L c nid x)⁻¹ * L.den M x := by
    unfold cancelReceived recvVal
    cases hp : Dict.get? c.received nid with
    | none => exact ⟨M, rfl, m1, mv, fun x => by simp⟩
    | some p =>
      obtain ⟨p1, p2⟩ := hrec p hp
      have hsub2 : ∀ v ∈ ops.vars p, v ∈ ops.vars M := fun v h => (m2 v).2 (p2 v h)
      obtain ⟨f, hf⟩ := T.cancel m1 p1
      obtain ⟨f1, f2, f3⟩ := L.cancel m1 p1 hsub2 (fun x h0 => absurd h0 (L.pos p1 x).ne') hf
      exact ⟨f, hf, f1, (T.cancelVars m1 p1 hsub2 hf).trans mv, fun x => by
        rw [f3, div_eq_inv_mul]; rfl⟩
  obtain ⟨f, hf, f1, f2, f3⟩ := key
  have rpos : ∀ x, 0 < recvVal L c nid x := by
    intro x
    unfold recvVal
    cases hp : Dict.get? c.received nid with
    | none => exact one_pos
    | some p => exact L.pos (hrec p hp).1 x
  have rdep : ∀ x y, (∀ v ∈ sep, x v = y v) → recvVal L c nid x = recvVal L c nid y := by
    intro x y h
    unfold recvVal
    cases hp : Dict.get? c.received nid with
    | none => rfl
    | some p => exact L.dep (hrec p hp).1 x y fun v hv => h v ((hrec p hp).2 v hv)
  have rmeas : Measurable (recvVal L c nid) := by
    unfold recvVal
    cases hp : Dict.get? c.received nid with
    | none => exact measurable_const
    | some p => exact L.meas (hrec p hp).1
  refine ⟨⟨f, c.id, nid⟩, ?_, f1, f2, ?_⟩
  · unfold CG.makeMessage Dict.getItem specialReduced
    rw [hsep, hsp]
    dsimp only
    rw [py_bind_ok, hred, py_bind_ok, hM, py_bind_ok, hf]
    rfl
  · obtain ⟨x, hx⟩ := hnorm'
    refine ⟨x, ?_⟩
    have hint := L.int r1 hsn hsub' hM hN
    have hB : (fun y => ENNReal.ofReal (L.den red y)) =
        fun y => .ofReal (L.den c.factor (override (evPairs L.toLaws special) y)) := by
      funext y; rw [r3]
    rw [hset, hB] at hint
    have hbm : Measurable fun y => ENNReal.ofReal (L.den c.factor (override (evPairs L.toLaws special) y)) :=
      ((L.meas hok).comp (measurable_override L.toPosLaws special)).ennreal_ofReal
    have hfun : (fun y => ENNReal.ofReal (L.den f y)) =
        intOut (((ops.vars c.factor).toFinset \ (Dict.keys special).toFinset) \ sep.toFinset)
          (fun y => .ofReal ((recvVal L c nid y)⁻¹) *
            .ofReal (L.den c.factor (override (evPairs L.toLaws special) y))) := by
      funext y
      rw [Spec.intOut_mul_left (G := fun y => .ofReal ((recvVal L c nid y)⁻¹)) ?_ hbm, ← hint, f3,
        ENNReal.ofReal_mul (inv_nonneg.2 (rpos y).le)]
      intro a b hab
      rw [rdep a b fun v hv => hab v (by simp [hv])]
    have hss : sep.toFinset ⊆ (ops.vars c.factor).toFinset \ (Dict.keys special).toFinset := by
      intro v hv
      have := hsub v (by simpa using hv)
      simp [this]
    have hdisj : Disjoint sep.toFinset
        (((ops.vars c.factor).toFinset \ (Dict.keys special).toFinset) \ sep.toFinset) := Finset.disjoint_sdiff
    have hpm : Measurable fun y => ENNReal.ofReal ((recvVal L c nid y)⁻¹) *
        .ofReal (L.den c.factor (override (evPairs L.toLaws special) y)) := (rmeas.inv.ennreal_ofReal).mul hbm
    dsimp only
    have hu := congrFun (lmarginal_union (fun _ : Var => (volume : Measure ℝ)) _ hpm hdisj) x
    rw [Finset.union_sdiff_of_subset hss] at hu
    rw [f2, hfun]
    exact fun h => hx (hu.trans h)

/-- The constructor returns. -/
theorem TotalI.new {L : IntLaws ops} (T : TotalI L) (hs : HashSeed) {factors : List F}
    (hok : ∀ f ∈ factors, L.Ok f ∧ Norm L f) (evidence : Option (Dict Var V)) (special : Dict Var V)
    (hx : ∀ f ∈ factors, ∃ v ∈ ops.vars f, v ∉ Dict.keys (evidence.getD []) ∧ v ∉ Dict.keys special) :
    ∃ a, CG.new hs ops factors evidence special = .ok a := by
  obtain ⟨fs, hfs, hN⟩ := T.clusterFactors hok evidence fun f hf => by
    obtain ⟨v, h1, h2, _⟩ := hx f hf
    exact ⟨v, h1, h2⟩
  obtain ⟨-, f2, -⟩ := L.toLaws.clusterFactors (fun f hf => (hok f hf).1) evidence hfs
  have hfree : ∀ f ∈ fs, ∃ v ∈ ops.vars f, v ∉ Dict.keys special := by
    intro f hf
    obtain ⟨f', hf', hv⟩ := f2 f hf
    obtain ⟨v, h1, h2, h3⟩ := hx f' hf'
    exact ⟨v, (hv v).2 ⟨h1, h2⟩, h3⟩
  have hmem : ∀ c ∈ mkClusters ops special fs, c.factor ∈ fs := by
    intro c hc
    unfold mkClusters at hc
    obtain ⟨e, he, rfl⟩ := List.mem_map.1 hc
    exact List.fst_mem_of_mem_zipIdx he
  obtain ⟨b, hb⟩ := buildGraph_of (n := (mkClusters ops special fs).length) (hs := hs) (ops := ops)
    (cl := fun i => (mkClusters ops special fs)[i]) (evVars := evidenceVars evidence special)
    (fun i j hij => by
      have h1 := List.nodup_iff_injective_get.1 (C42_ids_unique ops special fs)
      have h2 := @h1 ⟨i, by simp⟩ ⟨j, by simp⟩ (by simpa using hij)
      simp only [Fin.mk.injEq] at h2
      exact Fin.ext h2) (by
    intro i c nid s c2 c3 c4 hget _ s2 s3
    have hci := hmem _ (List.getElem_mem i.2)
    obtain ⟨hrec, hsp⟩ := mem_mkClusters (ops := ops) (special := special) (fs := fs) (List.getElem_mem i.2)
    obtain ⟨o1, o2⟩ := hN _ hci
    have hc : ∀ p, Dict.get? c.received nid ≠ some p := by
      intro p hp
      rw [c3] at hp
      rw [show (mkClusters ops special fs)[i].received = [] from hrec] at hp
      cases hp
    have hnorm := T.redSpecial (special := special) o1 o2 (hfree _ hci)
    have hone : ∀ y, recvVal L c nid y = 1 := by
      intro y
      unfold recvVal
      cases hp : Dict.get? c.received nid with
      | none => rfl
      | some p => exact absurd hp (hc p)
    obtain ⟨msg, m1, m2, m3, m4⟩ := T.makeMessage (c := c) (nid := nid) (special := special)
      (by rw [c2]; exact o1) (L.nodup o1) (fun v => by rw [c2]; rfl) (by rw [c4]; exact hsp) hget s2
      (fun v hv => ⟨by rw [c2]; exact (s3 v hv).1, fun h => (s3 v hv).2 (by rw [mem_evidenceVars]; exact Or.inl h)⟩)
      (by rw [c2]; exact hfree _ hci) (by rw [c2]; exact hnorm) (fun p hp => absurd hp (hc p))
      (by simp only [hone, inv_one, ENNReal.ofReal_one, one_mul]; rw [c2]; exact hnorm)
    obtain ⟨d, hd⟩ := T.dist m2 m4
    exact ⟨msg, d, m1, hd⟩)
  refine ⟨⟨_, _, b.graph special⟩, ?_⟩
  unfold CG.new
  rw [hfs, py_bind_ok]
  dsimp only
  rw [hb]
  rfl

/-! ### Passing messages -/

/-- What holds of all messages passed so far. -/
def MsgsNorm (L : IntLaws ops) (g0 : Graph F V G n m) (tr : List (Fin m × F)) : Prop :=
  ∀ q f, lastMsg tr q = some f → Norm L f ∧ ops.vars f = sepOf g0 q

section
variable {L : IntLaws ops} {evVars : List Var} {g0 g : Graph F V G n m} {tr : List (Fin m × F)}

theorem TotalI.prod_bdd (T : TotalI L) (b : BelInv L.toLaws g0 tr g) (hN : MsgsNorm L g0 tr) (S : Finset (Fin m)) :
    ∃ B : ℝ, ∀ y, ∏ s ∈ S, mval L.toLaws tr s y ≤ B := by
  have h1 : ∀ s, ∃ B : ℝ, ∀ y, mval L.toLaws tr s y ≤ B := by
    intro s
    unfold mval
    cases hl : lastMsg tr s with
    | none => exact ⟨1, fun _ => le_rfl⟩
    | some f => exact T.bdd (b.msg s f hl).1 (hN s f hl).1
  choose B hB using h1
  exact ⟨∏ s ∈ S, B s, fun y => Finset.prod_le_prod (fun s _ => (mval_pos b s y).le) fun s _ => hB s y⟩

/-- Beliefs can be normalised, with any of the received messages left out. -/
theorem TotalI.belief_norm (T : TotalI L) (b : BelInv L.toLaws g0 tr g) (hN : MsgsNorm L g0 tr)
    (h0 : ∀ i, ∃ x, intOut (freeVars ops g0 i) (beliefI L.toPosLaws g0 g0 i) x ≠ ∞) (i : Fin n) (S : Finset (Fin m))
    (K : (Var → ℝ) → ℝ≥0∞) (hK : ∀ y, K y = beliefI L.toPosLaws g0 g0 i y *
      .ofReal (∏ s ∈ S, mval L.toLaws tr s (override (evPairs L.toLaws g0.special) y))) :
    ∃ x, intOut (freeVars ops g0 i) K x ≠ ∞ := by
  obtain ⟨B, hB⟩ := T.prod_bdd b hN S
  obtain ⟨x, hx⟩ := h0 i
  refine ⟨x, intOut_ne_top_of_le (C := .ofReal B) (beliefI_meas (BelInv.start b.ok0) i) ENNReal.ofReal_ne_top
    (fun y => ?_) hx⟩
  rw [hK, mul_comm]
  exact mul_le_mul_left (ENNReal.ofReal_le_ofReal (hB _)) _

theorem TotalI.next (T : TotalI L) (w : Wired ops evVars g0) (inv : ClInv g0 tr g.cl) (b : BelInv L.toLaws g0 tr g)
    (hN : MsgsNorm L g0 tr) (h0 : ∀ i, ∃ x, intOut (freeVars ops g0 i) (beliefI L.toPosLaws g0 g0 i) x ≠ ∞)
    (hfree : ∀ i, ∃ v ∈ scope ops g0 i, v ∉ Dict.keys g0.special) (q : Fin m) :
    ∃ msg, CG.makeMessage ops (g.cl (g0.path q).snd) (g0.cl (g0.path q).rcv).id = .ok msg ∧ L.Ok msg.factor ∧
      ops.vars msg.factor = sepOf g0 q ∧ Norm L msg.factor := by
  obtain ⟨r, hr1, hr2, hr3⟩ := w.rev q
  have hset : (ops.vars (g.cl (g0.path q).snd).factor).toFinset \ (Dict.keys g0.special).toFinset =
      freeVars ops g0 (g0.path q).snd := by
    ext v
    simp [mem_freeVars, b.vars]
  have hrec := inv.received r
  rw [hr1, hr2] at hrec
  have hmem : r ∈ incoming g0 (g0.path q).snd := by simp [incoming, hr2]
  have hrv : ∀ y, recvVal L (g.cl (g0.path q).snd) (g0.cl (g0.path q).rcv).id y = mval L.toLaws tr r y := by
    intro y
    unfold recvVal mval
    rw [hrec]
    cases lastMsg tr r <;> rfl
  have hmv : ∀ y, mval L.toLaws tr r (override (evPairs L.toLaws g0.special) y) = mval L.toLaws tr r y := by
    intro y
    refine mval_congr L.toLaws (b.msg r) fun v hv => ?_
    exact override_keep L.toLaws (w.sepOf_mem r hv).2.2 y
  refine T.makeMessage (vars := scope ops g0 (g0.path q).snd) (special := g0.special) (b.ok _)
    (L.nodup (b.ok0 _)) (fun v => (b.vars _ v).symm)
    (by rw [inv.cspecial, w.special]) (by rw [inv.sepsets]; exact w.sepOf_eq q)
    (w.sepOk _ _ _ (w.sepOf_eq q)).1
    (fun v hv => ⟨(b.vars _ v).2 (w.sepOf_mem q hv).1, (w.sepOf_mem q hv).2.2⟩) ?_ ?_ ?_ ?_
  · obtain ⟨v, h1, h2⟩ := hfree (g0.path q).snd
    exact ⟨v, (b.vars _ v).2 h1, h2⟩
  · rw [hset]
    refine T.belief_norm b hN h0 _ (incoming g0 (g0.path q).snd) _ fun y => ?_
    rw [b.belief, ENNReal.ofReal_mul (L.nonneg (b.ok0 _) _)]
    rfl
  · intro p hp
    rw [hp] at hrec
    obtain ⟨o1, o2⟩ := b.msg r p hrec.symm
    exact ⟨o1, fun v hv => hr3 ▸ (o2 v).1 hv⟩
  · rw [hset]
    refine T.belief_norm b hN h0 _ ((incoming g0 (g0.path q).snd).erase r) _ fun y => ?_
    have hp := mval_pos b r y
    rw [hrv, b.belief, ← Finset.mul_prod_erase _ _ hmem, hmv, ← ENNReal.ofReal_mul (inv_nonneg.2 hp.le)]
    unfold beliefI
    rw [← ENNReal.ofReal_mul (L.nonneg (b.ok0 _) _)]
    congr 1
    field_simp

variable [Zero G]

theorem TotalI.next_norm (T : TotalI L) (w : Wired ops evVars g0) (inv : RunInv ops g0 tr g)
    (b : BelInv L.toLaws g0 tr g) (hN : MsgsNorm L g0 tr)
    (h0 : ∀ i, ∃ x, intOut (freeVars ops g0 i) (beliefI L.toPosLaws g0 g0 i) x ≠ ∞)
    (hfree : ∀ i, ∃ v ∈ scope ops g0 i, v ∉ Dict.keys g0.special) (q : Fin m) :
    Norm L (g.path q).next.factor ∧ ops.vars (g.path q).next.factor = sepOf g0 q := by
  obtain ⟨msg, h1, h2, h3, h4⟩ := T.next w inv.clusters b hN h0 hfree q
  have h5 := inv.next q
  have e : msg = (g.path q).next := by
    rw [h1] at h5
    exact Except.ok.inj h5
  rw [← e]
  exact ⟨h4, h3⟩

/-- All messages of all executions can be normalised. -/
theorem TotalI.msgs (T : TotalI L) (w : Wired ops evVars g0) (hok : ∀ i, L.Ok (g0.cl i).factor)
    (h0 : ∀ i, ∃ x, intOut (freeVars ops g0 i) (beliefI L.toPosLaws g0 g0 i) x ≠ ∞)
    (hfree : ∀ i, ∃ v ∈ scope ops g0 i, v ∉ Dict.keys g0.special) (hr : Run ops g0 tr g) : MsgsNorm L g0 tr := by
  induction hr with
  | start => intro q f h; simp at h
  | pass q hr hp ih =>
    intro r f h
    rw [lastMsg_snoc] at h
    dsimp only at h
    split at h
    · rename_i hqr
      cases h
      subst hqr
      exact T.next_norm w (hr.inv w) (hr.bel w hok) ih h0 hfree q
    · exact ih r f h
  | admin _ _ ih => exact ih

/-- All beliefs of all executions can be normalised. -/
theorem TotalI.beliefs (T : TotalI L) (w : Wired ops evVars g0) (hok : ∀ i, L.Ok (g0.cl i).factor)
    (h0 : ∀ i, ∃ x, intOut (freeVars ops g0 i) (beliefI L.toPosLaws g0 g0 i) x ≠ ∞)
    (hfree : ∀ i, ∃ v ∈ scope ops g0 i, v ∉ Dict.keys g0.special) (hr : Run ops g0 tr g) (i : Fin n) :
    ∃ x, intOut (freeVars ops g0 i) (beliefI L.toPosLaws g0 g i) x ≠ ∞ := by
  have b := hr.bel w hok
  refine T.belief_norm b (T.msgs w hok h0 hfree hr) h0 i (incoming g0 i) _ fun y => ?_
  unfold beliefI
  rw [b.belief, ENNReal.ofReal_mul (L.nonneg (b.ok0 _) _)]

theorem TotalI.receive (T : TotalI L) (w : Wired ops evVars g0) (inv : RunInv ops g0 tr g)
    (b : BelInv L.toLaws g0 tr g) (q : Fin m) :
    ∃ c, CG.receive ops (g.cl (g.path q).rcv) (g.path q).next = .ok c := by
  obtain ⟨r, hr1, hr2, hr3⟩ := w.rev q
  obtain ⟨n1, n2, _⟩ := b.next w inv hr1 hr2 hr3
  have hids := makeMessage_ids (inv.next q)
  have hsend : (g.path q).next.snd = (g0.cl (g0.path q).snd).id := by rw [hids.1]; exact inv.id _
  obtain ⟨p, hp⟩ := T.mul (b.ok (g0.path q).rcv) n1
  obtain ⟨p1, -, -⟩ := L.mul (b.ok (g0.path q).rcv) n1 hp
  have hrec := inv.received q
  have key : ∃ f, cancelReceived ops (g.cl (g0.path q).rcv) (g.path q).next.snd p = .ok f := by
    unfold cancelReceived
    rw [hsend, hrec]
    cases hl : lastMsg tr q with
    | none => exact ⟨p, rfl⟩
    | some old => exact T.cancel p1 (b.msg q old hl).1
  obtain ⟨f, hf⟩ := key
  refine ⟨{ g.cl (g0.path q).rcv with
    factor := f
    received := Dict.set (g.cl (g0.path q).rcv).received (g.path q).next.snd (g.path q).next.factor }, ?_⟩
  rw [inv.rcv]
  unfold CG.receive
  have hid : ((g.path q).next.rcv == (g.cl (g0.path q).rcv).id) = true := by
    rw [hids.2, inv.id]; simp
  rw [hid]
  simp only [pyAssert, if_true, py_bind_ok]
  rw [hp, py_bind_ok, hf]
  rfl

/-- Any path can be chosen at any time: an execution can always be continued. -/
theorem TotalI.step (T : TotalI L) (w : Wired ops evVars g0) (hok : ∀ i, L.Ok (g0.cl i).factor)
    (h0 : ∀ i, ∃ x, intOut (freeVars ops g0 i) (beliefI L.toPosLaws g0 g0 i) x ≠ ∞)
    (hfree : ∀ i, ∃ v ∈ scope ops g0 i, v ∉ Dict.keys g0.special) (hr : Run ops g0 tr g) (q : Fin m) :
    ∃ g', CG.pass ops g q = .ok g' := by
  have inv := hr.inv w
  have b := hr.bel w hok
  have hN := T.msgs w hok h0 hfree hr
  obtain ⟨c, hc⟩ := T.receive w inv b q
  have hN' : MsgsNorm L g0 (tr ++ [(q, (g.path q).next.factor)]) := by
    intro r f h
    rw [lastMsg_snoc] at h
    dsimp only at h
    split at h
    · rename_i hqr
      cases h
      subst hqr
      exact T.next_norm w inv b hN h0 hfree q
    · exact hN r f h
  refine pass_of w inv b q hc fun g1 hcl hb1 r prev hl => ?_
  obtain ⟨msg, m1, m2, m3, m4⟩ := T.next (g := g1) w hcl hb1 hN' h0 hfree r
  have hgain : ∃ d, gainOf ops prev msg = .ok d := by
    cases prev with
    | none => exact T.dist m2 m4
    | some p =>
      obtain ⟨o1, -⟩ := hb1.msg r p.factor hl.symm
      obtain ⟨p1, p2⟩ := hN' r p.factor hl.symm
      exact T.kl o1 m2 (p2.trans m3.symm) p1 m4
  obtain ⟨d, hd⟩ := hgain
  exact ⟨msg, d, m1, hd⟩

/-- A query returns if some cluster has all the variables and none of them is specially observed. -/
theorem TotalI.getMarginal (T : TotalI L) (w : Wired ops evVars g0) (hok : ∀ i, L.Ok (g0.cl i).factor)
    (h0 : ∀ i, ∃ x, intOut (freeVars ops g0 i) (beliefI L.toPosLaws g0 g0 i) x ≠ ∞)
    (hfree : ∀ i, ∃ v ∈ scope ops g0 i, v ∉ Dict.keys g0.special) (hr : Run ops g0 tr g) {vrs : List Var}
    (hn : vrs.Nodup) (hv : ∃ i, ∀ v ∈ vrs, v ∈ scope ops g0 i) (hun : ∀ v ∈ vrs, v ∉ Dict.keys g0.special) :
    ∃ r, CG.getMarginal ops g vrs = .ok r := by
  have inv := hr.inv w
  have b := hr.bel w hok
  unfold CG.getMarginal
  cases hf : (List.finRange n).find? fun i => decide (∀ v ∈ vrs, v ∈ ops.vars (g.cl i).factor) with
  | none =>
    obtain ⟨i, hi⟩ := hv
    have := List.find?_eq_none.1 hf i (List.mem_finRange i)
    exact absurd (decide_eq_true fun v hvv => (b.vars i v).2 (hi v hvv)) this
  | some i =>
    have hi : ∀ v ∈ vrs, v ∈ ops.vars (g.cl i).factor := by
      have := List.find?_some hf
      exact of_decide_eq_true this
    dsimp only
    rw [inv.special]
    obtain ⟨f, hf, -⟩ := T.observe (b.ok i) g0.special (by
      obtain ⟨v, h1, h2⟩ := hfree i
      exact ⟨v, (b.vars i v).2 h1, h2⟩)
    obtain ⟨f1, f2, f3⟩ := L.toLaws.observe (b.ok i) g0.special hf
    have hset : (ops.vars f).toFinset = freeVars ops g0 i := by
      ext v; rw [List.mem_toFinset, f2, mem_freeVars, b.vars]
    have hNf : Norm L f := by
      obtain ⟨x, hx⟩ := T.beliefs w hok h0 hfree hr i
      refine ⟨x, ?_⟩
      rw [hset]
      simp only [f3]
      exact hx
    obtain ⟨r, hr, -⟩ := T.marg f1 hNf hn fun v hvv => (f2 v).2 ⟨hi v hvv, hun v hvv⟩
    exact ⟨r, by rw [hf, py_bind_ok]; exact hr⟩

end

end Verif.CG
