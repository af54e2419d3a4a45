import Verif.ClusterProps3
import Verif.ClusterProps2

/-!
# When inference cannot fail

For a factor class whose operations return whenever their specification makes sense (`Total`), building and
running a cluster graph never raises, as long as the posterior is not identically zero.
-/

namespace Verif.CG
open Spec (DependsOn override)
variable {F V G : Type} {n m : Nat} {D : Type} {ops : Ops F V G}

/-- The operations of a lawful class return: products always, quotients whenever `0/0` is the only division by
zero, marginals of contained variables, reductions whenever the evidence is possible, and divergences of factors
that are not identically zero. -/
structure Total (L : Laws ops D) : Prop where
  mul : ∀ {f g}, L.Ok f → L.Ok g → ∃ r, ops.multiply f g = .ok r
  cancel : ∀ {f g}, L.Ok f → L.Ok g → (∀ v ∈ ops.vars g, v ∈ ops.vars f) →
    (∀ x, L.den g x = 0 → L.den f x = 0) → ∃ r, ops.cancel f g = .ok r
  marg : ∀ {f vrs}, L.Ok f → vrs.Nodup → (∀ v ∈ vrs, v ∈ ops.vars f) → ∃ r, ops.marginalize f vrs = .ok r
  red : ∀ {f vs ks}, L.Ok f → vs.Nodup → (∀ v ∈ vs, v ∈ ops.vars f) → ks.length = vs.length →
    (∃ x, L.den f (override (vs.zip (ks.map L.val)) x) ≠ 0) → ∃ r, ops.reduce f vs ks = .ok r
  dist : ∀ {f}, L.Ok f → (∃ x, L.den f x ≠ 0) → ∃ d, ops.distVacuous f = .ok d
  kl : ∀ {f g}, L.Ok f → L.Ok g → (∀ v, v ∈ ops.vars f ↔ v ∈ ops.vars g) → (∃ x, L.den f x ≠ 0) →
    (∃ x, L.den g x ≠ 0) → ∃ d, ops.kl f g = .ok d

theorem foldlM_total {α β : Type} {f : β → α → Py β} (P : List α → β → Prop) {L : List α} {b : β}
    (h0 : P [] b)
    (hs : ∀ l a l' s, L = l ++ a :: l' → P l s → ∃ s', f s a = .ok s' ∧ P (l ++ [a]) s') :
    ∃ b', L.foldlM f b = .ok b' ∧ P L b' := by
  suffices ∀ (l' l : List α) (s : β), L = l ++ l' → P l s → ∃ b', l'.foldlM f s = .ok b' ∧ P L b' from
    this L [] b rfl h0
  intro l'
  induction l' with
  | nil =>
    intro l s hL hP
    exact ⟨s, rfl, by simpa [hL] using hP⟩
  | cons a l' ih =>
    intro l s hL hP
    obtain ⟨s', h1, h2⟩ := hs l a l' s hL hP
    obtain ⟨b', h3, h4⟩ := ih (l ++ [a]) s' (by simp [hL]) h2
    exact ⟨b', by rw [List.foldlM_cons, h1]; exact h3, h4⟩

/-- Reducing with the part of the evidence that concerns the factor, when the evidence is possible. -/
theorem Total.red_subset {L : Laws ops D} (T : Total L) {f : F} (hf : L.Ok f) (ev : Dict Var V)
    {vars : List Var} (hn : vars.Nodup) (hv : ∀ v, v ∈ vars ↔ v ∈ ops.vars f)
    (hx : ∃ x, L.den f (override (evPairs L ev) x) ≠ 0) :
    ∃ r, ops.reduce f (Dict.keys (subsetEvidence ev vars)) (Dict.values (subsetEvidence ev vars)) = .ok r := by
  have hk := keys_subsetEvidence ev hn
  obtain ⟨x, hx⟩ := hx
  refine T.red hf (by rw [hk]; exact hn.filter _) (fun v h => ?_) (by simp [Dict.keys, Dict.values]) ⟨x, ?_⟩
  · rw [hk] at h
    exact (hv v).1 (List.mem_filter.1 h).1
  · rw [zip_keys_values]
    intro h0
    refine hx (Eq.trans ?_ h0)
    apply L.dep hf
    intro v hvf
    rw [show (List.map (fun e => (e.1, L.val e.2)) (subsetEvidence ev vars)) =
      evPairs L (subsetEvidence ev vars) from rfl, override_apply, override_apply,
      get?_subsetEvidence ev hn ((hv v).2 hvf)]

theorem Total.observe {L : Laws ops D} (T : Total L) {f : F} (hf : L.Ok f) (ev : Dict Var V)
    (hx : ∃ x, L.den f (override (evPairs L ev) x) ≠ 0) : ∃ r, CG.observe ops ev f = .ok r := by
  unfold CG.observe
  dsimp only
  split
  · exact T.red_subset hf ev (L.nodup hf) (fun _ => Iff.rfl) hx
  · exact ⟨f, rfl⟩

theorem Total.evidenceReduce {L : Laws ops D} (T : Total L) {factors : List F} (hok : ∀ f ∈ factors, L.Ok f)
    (evidence : Option (Dict Var V)) (hx : ∀ f ∈ factors, ∃ x, L.den f (given L evidence x) ≠ 0) :
    ∃ r, CG.evidenceReduce ops factors evidence = .ok r := by
  unfold CG.evidenceReduce
  cases evidence with
  | none =>
    refine ⟨factors, ?_⟩
    dsimp only
    clear hx hok
    induction factors with
    | nil => rfl
    | cons f fs ih => rw [List.mapM_cons, py_bind_ok, ih]; rfl
  | some ev =>
    dsimp only
    induction factors with
    | nil => exact ⟨[], rfl⟩
    | cons f fs ih =>
      obtain ⟨r, hr⟩ := ih (fun a ha => hok a (by simp [ha])) (fun a ha => hx a (by simp [ha]))
      obtain ⟨f', h1⟩ := T.observe (hok f (by simp)) ev (hx f (by simp))
      refine ⟨f' :: r, ?_⟩
      rw [List.mapM_cons, h1, py_bind_ok, hr]
      rfl

theorem Total.absorbInner {L : Laws ops D} (T : Total L) {factors : List F} (hok : ∀ f ∈ factors, L.Ok f)
    (i : Nat) {f : F} (hf : L.Ok f) (mask : Nat → Bool) :
    ∃ s, CG.absorbInner ops factors i f mask = .ok s ∧ L.Ok s.1 := by
  unfold CG.absorbInner
  refine foldlM_total (fun _ (s : F × (Nat → Bool)) => L.Ok s.1) hf ?_
  intro l a l' s hL hs
  split
  · have ha : L.Ok a.1 := hok _ (List.fst_mem_of_mem_zipIdx (by rw [hL]; simp))
    obtain ⟨p, hp⟩ := T.mul hs ha
    exact ⟨_, by rw [hp]; rfl, (L.mul hs ha hp).1⟩
  · exact ⟨s, rfl, hs⟩

theorem mask_all (factors : List F) (r : List F × (Nat → Bool)) :
    ((List.range factors.length).all (factors.zipIdx.foldl (fun (s : List F × (Nat → Bool)) e =>
      if s.2 e.2 = false then (s.1 ++ [e.1], Function.update s.2 e.2 true) else s) r).2) = true := by
  have key : ∀ (l : List (F × Nat)) (s : List F × (Nat → Bool)) (k : Nat),
      (s.2 k = true ∨ k ∈ l.map Prod.snd) →
      (l.foldl (fun (s : List F × (Nat → Bool)) e =>
        if s.2 e.2 = false then (s.1 ++ [e.1], Function.update s.2 e.2 true) else s) s).2 k = true := by
    intro l
    induction l with
    | nil => intro s k h; simpa using h
    | cons a l ih =>
      intro s k h
      rw [List.foldl_cons]
      apply ih
      by_cases hk : k = a.2
      · subst hk
        left
        split
        · simp
        · rename_i h'; simpa using h'
      · rcases h with h | h
        · left
          split
          · dsimp only; rw [Function.update_of_ne hk]; exact h
          · exact h
        · right; simpa [hk] using h
  rw [List.all_eq_true]
  intro k hk
  apply key
  right
  rw [List.zipIdx_map_snd]
  simpa using hk

theorem Total.absorb {L : Laws ops D} (T : Total L) {factors : List F} (hok : ∀ f ∈ factors, L.Ok f) :
    ∃ r, CG.absorb ops factors = .ok r := by
  unfold CG.absorb
  obtain ⟨r, hr, _⟩ := foldlM_total (L := factors.zipIdx)
    (f := fun (s : List F × (Nat → Bool)) e =>
      if s.2 e.2 = false then do
        let t ← CG.absorbInner ops factors e.2 e.1 s.2
        .ok (if t.2 e.2 = true then s.1 ++ [t.1] else s.1, t.2)
      else .ok s) (b := ([], fun _ => false)) (fun _ _ => True) trivial (by
    intro l a l' s hL _
    split
    · have ha : L.Ok a.1 := hok _ (List.fst_mem_of_mem_zipIdx (by rw [hL]; simp))
      obtain ⟨t, ht, _⟩ := T.absorbInner hok a.2 ha s.2
      exact ⟨_, by rw [ht]; rfl, trivial⟩
    · exact ⟨s, rfl, trivial⟩)
  rw [hr, py_bind_ok]
  dsimp only
  rw [mask_all]
  exact ⟨_, rfl⟩

theorem Total.clusterFactors {L : Laws ops D} (T : Total L) {factors : List F} (hok : ∀ f ∈ factors, L.Ok f)
    (evidence : Option (Dict Var V)) (hx : ∀ f ∈ factors, ∃ x, L.den f (given L evidence x) ≠ 0) :
    ∃ fs, CG.clusterFactors ops factors evidence = .ok fs := by
  obtain ⟨rs, hrs⟩ := T.evidenceReduce hok evidence hx
  have hrok : ∀ f ∈ rs, L.Ok f := by
    cases evidence with
    | none => rw [evidenceReduce_none hrs]; exact hok
    | some ev =>
      have := L.evidenceReduce hok ev hrs
      clear hrs hx hok
      induction this with
      | nil => simp
      | cons hcc _ ih =>
        intro d hd
        rcases List.mem_cons.1 hd with rfl | hd
        · exact hcc.1
        · exact ih d hd
  obtain ⟨fs, hfs⟩ := T.absorb hrok
  refine ⟨fs, ?_⟩
  unfold CG.clusterFactors
  rw [hrs]; exact hfs

/-- Making a message succeeds where the sender's belief allows the evidence. -/
theorem Total.makeMessage {L : Laws ops D} (T : Total L) {c : Cl F V} {nid : String} {sep vars : List Var}
    {special : Dict Var V} (hok : L.Ok c.factor) (hn : vars.Nodup) (hv : ∀ v, v ∈ vars ↔ v ∈ ops.vars c.factor)
    (hsp : c.special = some (subsetEvidence special vars)) (hsep : Dict.get? c.sepsets nid = some sep)
    (hsn : sep.Nodup) (hsub : ∀ v ∈ sep, v ∈ ops.vars c.factor ∧ v ∉ Dict.keys special) {x : Var → D}
    (hx : L.den c.factor (override (evPairs L special) x) ≠ 0)
    (hrec : ∀ p, Dict.get? c.received nid = some p → L.Ok p ∧ (∀ v ∈ ops.vars p, v ∈ sep) ∧ L.den p x ≠ 0 ∧
      ∀ x, L.den p x = 0 → ∀ y, (∀ v ∈ sep, y v = x v) → L.den c.factor (override (evPairs L special) y) = 0) :
    ∃ msg, CG.makeMessage ops c nid = .ok msg ∧ L.Ok msg.factor ∧ (∀ v, v ∈ ops.vars msg.factor ↔ v ∈ sep) ∧
      L.den msg.factor x ≠ 0 := by
  obtain ⟨red, hred⟩ := T.red_subset hok special hn hv ⟨x, hx⟩
  obtain ⟨r1, r2, r3⟩ := L.red_subset hok special hn hv hred
  have hsub' : ∀ v ∈ sep, v ∈ ops.vars red := fun v h => (r2 v).2 (hsub v h)
  obtain ⟨M, hM⟩ := T.marg r1 hsn hsub'
  obtain ⟨m1, m2, m3⟩ := L.marg r1 hsn hsub' hM
  have hMx : L.den M x ≠ 0 := by
    intro h0
    exact hx (by rw [← r3]; exact (m3 x).1 h0 x fun _ _ => rfl)
  have key : ∃ f, cancelReceived ops c nid M = .ok f ∧ L.Ok f ∧ (∀ v, v ∈ ops.vars f ↔ v ∈ sep) ∧ L.den f x ≠ 0 := by
    unfold cancelReceived
    cases hp : Dict.get? c.received nid with
    | none => exact ⟨M, rfl, m1, m2, hMx⟩
    | some p =>
      obtain ⟨p1, p2, p3, p4⟩ := hrec p hp
      have hz : ∀ x, L.den p x = 0 → L.den M x = 0 := by
        intro x hpx
        rw [m3]
        intro y hy
        rw [r3]
        exact p4 x hpx y hy
      obtain ⟨f, hf⟩ := T.cancel m1 p1 (fun v h => (m2 v).2 (p2 v h)) hz
      obtain ⟨f1, f2, f3⟩ := L.cancel m1 p1 (fun v h => (m2 v).2 (p2 v h)) hz hf
      exact ⟨f, hf, f1, fun v => (f2 v).trans (m2 v), by rw [f3]; exact div_ne_zero hMx p3⟩
  obtain ⟨f, hf, f1, f2, f3⟩ := key
  refine ⟨⟨f, c.id, nid⟩, ?_, f1, f2, f3⟩
  unfold CG.makeMessage Dict.getItem specialReduced
  rw [hsep, hsp]
  dsimp only
  rw [py_bind_ok, hred, py_bind_ok, hM, py_bind_ok, hf]
  rfl

/-! ### Building the graph -/

theorem ripSepsets_ok {hs : HashSeed} {scope : Fin n → List Var} {evVars : List Var} {e : Fin n × Fin n}
    {s : List Var} (h : Dict.get? (ripSepsets hs scope evVars) e = some s) :
    s ≠ [] ∧ s.Nodup ∧ ∀ v ∈ s, v ∈ scope e.1 ∧ v ∈ scope e.2 ∧ v ∉ evVars := by
  rw [get?_ripSepsets] at h
  split at h
  · cases h
  · rename_i hne
    simp only [Option.some.injEq] at h
    rw [← h]
    refine ⟨hne, (hs.strs.nodup _).filter _, fun v hv => ?_⟩
    have := of_decide_eq_true (List.mem_filter.1 hv).2
    have := mem_varEdges.1 ((kruskal_sublist _).subset this)
    exact ⟨this.2.1, this.2.2.1, this.2.2.2⟩

theorem Total.gainNone {L : Laws ops D} (T : Total L) {msg : Msg F} (h : L.Ok msg.factor)
    (hx : ∃ x, L.den msg.factor x ≠ 0) : ∃ d, gainOf ops none msg = .ok d := T.dist h hx

/-- The graph can be built if every message along a sepset and its gain can be computed. -/
theorem buildGraph_of {hs : HashSeed} {cl : Fin n → Cl F V} {evVars : List Var}
    (hid : Function.Injective fun i => (cl i).id)
    (hmk : ∀ (i : Fin n) (c : Cl F V) nid s, c.factor = (cl i).factor → c.received = (cl i).received →
      c.special = (cl i).special → Dict.get? c.sepsets nid = some s → s ≠ [] → s.Nodup →
      (∀ v ∈ s, v ∈ ops.vars (cl i).factor ∧ v ∉ evVars) →
      ∃ msg d, CG.makeMessage ops c nid = .ok msg ∧ gainOf ops none msg = .ok d) :
    ∃ b, CG.buildGraph hs ops cl evVars = .ok b := by
  unfold CG.buildGraph
  dsimp only
  have hids : (((List.finRange n).map fun i => (cl i).id).dedup.length ==
      ((List.finRange n).map fun i => (cl i).id).length) = true := by
    rw [List.Nodup.dedup ((List.nodup_finRange n).map hid)]
    simp
  rw [hids]
  show ∃ b, buildLoop hs ops cl evVars = .ok b
  unfold buildLoop
  dsimp only
  obtain ⟨b, hb, _⟩ := foldlM_total (L := pairs n)
    (f := fun b e => match Dict.get? (ripSepsets hs (fun i => ops.vars (cl i).factor) evVars) e with
      | some sep => buildEdge ops b e.1 e.2 sep
      | none => .ok b) (b := ⟨fun i => { cl i with sepsets := [] }, fun _ => [], []⟩)
    (fun _ (b : Build F V G n) => ∀ i, (b.cl i).id = (cl i).id ∧ (b.cl i).factor = (cl i).factor ∧
      (b.cl i).received = (cl i).received ∧ (b.cl i).special = (cl i).special)
    (fun i => ⟨rfl, rfl, rfl, rfl⟩) (by
    intro l e l' b hL hb
    have he : e.1 < e.2 := by
      have : e ∈ pairs n := by rw [hL]; simp
      exact mem_pairs.1 this
    cases hg : Dict.get? (ripSepsets hs (fun i => ops.vars (cl i).factor) evVars) e with
    | none => exact ⟨b, rfl, hb⟩
    | some s =>
      obtain ⟨s1, s2, s3⟩ := ripSepsets_ok hg
      dsimp only
      have hlen : decide (0 < s.length) = true := by
        simp only [decide_eq_true_eq]
        exact List.length_pos_iff.2 s1
      have hne := he.ne
      set ci : Cl F V := { b.cl e.1 with sepsets := Dict.set (b.cl e.1).sepsets (b.cl e.2).id s } with hci
      set cj : Cl F V := { b.cl e.2 with sepsets := Dict.set (b.cl e.2).sepsets (b.cl e.1).id s } with hcj
      set cl2 := Function.update (Function.update b.cl e.1 ci) e.2 cj with hcl2
      have e_i : cl2 e.1 = ci := by rw [hcl2, Function.update_of_ne hne, Function.update_self]
      have e_j : cl2 e.2 = cj := by rw [hcl2, Function.update_self]
      have e_k : ∀ k, k ≠ e.1 → k ≠ e.2 → cl2 k = b.cl k := fun k h1 h2 => by
        rw [hcl2, Function.update_of_ne h2, Function.update_of_ne h1]
      have hb2 : ∀ i, (cl2 i).id = (cl i).id ∧ (cl2 i).factor = (cl i).factor ∧
          (cl2 i).received = (cl i).received ∧ (cl2 i).special = (cl i).special := by
        intro k
        by_cases h1 : k = e.1
        · rw [h1, e_i, hci]; exact hb _
        · by_cases h2 : k = e.2
          · rw [h2, e_j, hcj]; exact hb _
          · rw [e_k k h1 h2]; exact hb k
      have mk : ∀ i j, Dict.get? (cl2 i).sepsets (cl2 j).id = some s →
          (∀ v ∈ s, v ∈ ops.vars (cl i).factor) → ∃ p, mkPath ops cl2 i j = .ok p := by
        intro i j hget hsub
        obtain ⟨c1, c2, c3, c4⟩ := hb2 i
        obtain ⟨msg, d, m1, hd⟩ := hmk i (cl2 i) (cl2 j).id s c2 c3 c4 hget s1 s2 fun v hv =>
          ⟨hsub v hv, (s3 v hv).2.2⟩
        refine ⟨⟨i, j, none, msg, d, [d]⟩, ?_⟩
        unfold mkPath
        rw [m1, py_bind_ok, hd]
        rfl
      obtain ⟨pij, hpij⟩ := mk e.1 e.2 (by
        rw [e_i, e_j, hci, hcj]
        dsimp only
        rw [Dict.get?_set, if_pos rfl]) fun v hv => (s3 v hv).1
      obtain ⟨pji, hpji⟩ := mk e.2 e.1 (by
        rw [e_i, e_j, hci, hcj]
        dsimp only
        rw [Dict.get?_set, if_pos rfl]) fun v hv => (s3 v hv).2.1
      refine ⟨⟨cl2, Function.update (Function.update b.out e.1 (b.out e.1 ++ [b.paths.length])) e.2
        ((Function.update b.out e.1 (b.out e.1 ++ [b.paths.length])) e.2 ++ [b.paths.length + 1]),
        b.paths ++ [pij, pji]⟩, ?_, hb2⟩
      unfold buildEdge addNeighbour
      rw [hlen]
      simp only [pyAssert, if_true, py_bind_ok]
      rw [Function.update_of_ne hne.symm, Function.update_self]
      change mkPath ops cl2 e.1 e.2 >>= (fun pij => mkPath ops cl2 e.2 e.1 >>= fun pji => Except.ok
        (⟨cl2, _, b.paths ++ [pij, pji]⟩ : Build F V G n)) = _
      rw [hpij, py_bind_ok, hpji]
      rfl)
  exact ⟨b, hb⟩

theorem Total.buildGraph {L : Laws ops D} (T : Total L) {hs : HashSeed} {cl : Fin n → Cl F V} {evVars : List Var}
    {special : Dict Var V} (hid : Function.Injective fun i => (cl i).id) (hok : ∀ i, L.Ok (cl i).factor)
    (hrec : ∀ i, (cl i).received = [])
    (hsp : ∀ i, (cl i).special = some (subsetEvidence special (ops.vars (cl i).factor)))
    (hev : ∀ v ∈ Dict.keys special, v ∈ evVars) {x : Var → D}
    (hx : ∀ i, L.den (cl i).factor (override (evPairs L special) x) ≠ 0) :
    ∃ b, CG.buildGraph hs ops cl evVars = .ok b := by
  refine buildGraph_of hid fun i c nid s c2 c3 c4 hget _ s2 s3 => ?_
  obtain ⟨msg, m1, m2, m3, m4⟩ := T.makeMessage (c := c) (nid := nid) (special := special)
    (by rw [c2]; exact hok i) (L.nodup (hok i)) (fun v => by rw [c2]) (by rw [c4]; exact hsp i) hget s2
    (fun v hv => ⟨by rw [c2]; exact (s3 v hv).1, fun h => (s3 v hv).2 (hev v h)⟩)
    (x := x) (by rw [c2]; exact hx i) (fun p hp => by
      rw [c3, hrec] at hp
      cases hp)
  obtain ⟨d, hd⟩ := T.gainNone m2 ⟨x, m4⟩
  exact ⟨msg, d, m1, hd⟩

theorem mem_prod_ne_zero {l : List F} {d : F → ℝ} (h : (l.map d).prod ≠ 0) : ∀ f ∈ l, d f ≠ 0 := by
  intro f hf h0
  exact h (List.prod_eq_zero (List.mem_map.2 ⟨f, hf, h0⟩))

/-- The constructor returns whenever the evidence is possible. -/
theorem Total.new {L : Laws ops D} (T : Total L) (hs : HashSeed) {factors : List F} (hok : ∀ f ∈ factors, L.Ok f)
    (evidence : Option (Dict Var V)) (special : Dict Var V) {x : Var → D}
    (hx : ∀ f ∈ factors, L.den f (given L evidence (override (evPairs L special) x)) ≠ 0) :
    ∃ a, CG.new hs ops factors evidence special = .ok a := by
  obtain ⟨fs, hfs⟩ := T.clusterFactors hok evidence fun f hf => ⟨_, hx f hf⟩
  obtain ⟨f1, _, f3⟩ := L.clusterFactors hok evidence hfs
  have hne : ∀ f ∈ fs, L.den f (override (evPairs L special) x) ≠ 0 := by
    apply mem_prod_ne_zero (d := fun f => L.den f (override (evPairs L special) x))
    rw [f3]
    apply List.prod_ne_zero
    intro h0
    obtain ⟨f, hf, h⟩ := List.mem_map.1 h0
    exact hx f hf h
  have hmem : ∀ c ∈ mkClusters ops special fs, c.factor ∈ fs := by
    intro c hc
    unfold mkClusters at hc
    obtain ⟨e, he, rfl⟩ := List.mem_map.1 hc
    exact List.fst_mem_of_mem_zipIdx he
  obtain ⟨b, hb⟩ := T.buildGraph (n := (mkClusters ops special fs).length) (hs := hs)
    (cl := fun i => (mkClusters ops special fs)[i]) (evVars := evidenceVars evidence special) (special := special)
    (fun i j hij => by
      have h1 := List.nodup_iff_injective_get.1 (C42_ids_unique ops special fs)
      have h2 := @h1 ⟨i, by simp⟩ ⟨j, by simp⟩ (by simpa using hij)
      simp only [Fin.mk.injEq] at h2
      exact Fin.ext h2)
    (fun i => f1 _ (hmem _ (List.getElem_mem _)))
    (fun i => (mem_mkClusters (List.getElem_mem _)).1)
    (fun i => (mem_mkClusters (List.getElem_mem _)).2)
    (fun v hv => by rw [mem_evidenceVars]; exact Or.inl hv)
    (x := x) (fun i => hne _ (hmem _ (List.getElem_mem _)))
  refine ⟨⟨_, _, b.graph special⟩, ?_⟩
  unfold CG.new
  rw [hfs, py_bind_ok]
  dsimp only
  rw [hb]
  rfl

/-! ### Passing messages -/

/-- The part of `RunInv` that concerns the clusters. -/
structure ClInv (g0 : Graph F V G n m) (tr : List (Fin m × F)) (cl : Fin n → Cl F V) : Prop where
  id : ∀ i, (cl i).id = (g0.cl i).id
  sepsets : ∀ i, (cl i).sepsets = (g0.cl i).sepsets
  cspecial : ∀ i, (cl i).special = (g0.cl i).special
  received : ∀ q, Dict.get? (cl (g0.path q).rcv).received (g0.cl (g0.path q).snd).id = lastMsg tr q

theorem ClInv.deliver {evVars : List Var} {g0 : Graph F V G n m} {cl : Fin n → Cl F V} {tr : List (Fin m × F)}
    (w : Wired ops evVars g0) (inv : ClInv g0 tr cl) {q : Fin m} {msg : Msg F} {c : Cl F V}
    (hsend : msg.snd = (g0.cl (g0.path q).snd).id)
    (hc : receive ops (cl (g0.path q).rcv) msg = .ok c) :
    ClInv g0 (tr ++ [(q, msg.factor)]) (Function.update cl (g0.path q).rcv c) := by
  obtain ⟨_, p, f, hp, hf, hc'⟩ := receive_ok hc
  have cl_of_ne : ∀ i, i ≠ (g0.path q).rcv → Function.update cl (g0.path q).rcv c i = cl i := fun i hi => by
    rw [Function.update_of_ne hi]
  have cl_rcv : Function.update cl (g0.path q).rcv c (g0.path q).rcv = c := by rw [Function.update_self]
  refine ⟨?_, ?_, ?_, ?_⟩
  · intro i
    by_cases hi : i = (g0.path q).rcv
    · rw [hi, cl_rcv, hc']; exact inv.id _
    · rw [cl_of_ne i hi]; exact inv.id i
  · intro i
    by_cases hi : i = (g0.path q).rcv
    · rw [hi, cl_rcv, hc']; exact inv.sepsets _
    · rw [cl_of_ne i hi]; exact inv.sepsets i
  · intro i
    by_cases hi : i = (g0.path q).rcv
    · rw [hi, cl_rcv, hc']; exact inv.cspecial _
    · rw [cl_of_ne i hi]; exact inv.cspecial i
  · intro r
    rw [lastMsg_snoc]
    dsimp only
    by_cases hi : (g0.path r).rcv = (g0.path q).rcv
    · rw [hi, cl_rcv, hc']
      dsimp only
      rw [Dict.get?_set, hsend]
      by_cases hr : q = r
      · subst hr; simp
      · have : (g0.cl (g0.path q).snd).id ≠ (g0.cl (g0.path r).snd).id := by
          intro he
          exact hr (w.pathInj q r (w.idInj he) hi.symm)
        rw [if_neg this, if_neg hr, ← hi]
        exact inv.received r
    · rw [cl_of_ne _ hi, if_neg (fun h : q = r => hi (by rw [h]))]
      exact inv.received r

theorem RunInv.clusters [Zero G] {g0 g : Graph F V G n m} {tr : List (Fin m × F)} (inv : RunInv ops g0 tr g) :
    ClInv g0 tr g.cl := ⟨inv.id, inv.sepsets, inv.cspecial, inv.received⟩

/-- Where the initial factors allow the evidence, so do all beliefs. -/
theorem BelInv.belief_pos {L : Laws ops D} {evVars : List Var} {g0 g : Graph F V G n m}
    {tr : List (Fin m × F)} (w : Wired ops evVars g0) (b : BelInv L g0 tr g) {x : Var → D}
    (hx : ∀ i, L.den (g0.cl i).factor (override (evPairs L g0.special) x) ≠ 0) (i : Fin n) :
    L.den (g.cl i).factor (override (evPairs L g0.special) x) ≠ 0 := by
  rw [b.belief, mul_ne_zero_iff]
  refine ⟨hx i, Finset.prod_ne_zero_iff.2 fun s _ => ?_⟩
  rw [mval_congr L (b.msg s) fun v hv => override_keep L (w.sepOf_mem s hv).2.2 x]
  exact b.pos x hx s

theorem Total.next {L : Laws ops D} (T : Total L) {evVars : List Var} {g0 g : Graph F V G n m}
    {tr : List (Fin m × F)} (w : Wired ops evVars g0) (inv : ClInv g0 tr g.cl) (b : BelInv L g0 tr g) {x : Var → D}
    (hx : ∀ i, L.den (g0.cl i).factor (override (evPairs L g0.special) x) ≠ 0) (q : Fin m) :
    ∃ msg, CG.makeMessage ops (g.cl (g0.path q).snd) (g0.cl (g0.path q).rcv).id = .ok msg ∧ L.Ok msg.factor ∧
      (∀ v, v ∈ ops.vars msg.factor ↔ v ∈ sepOf g0 q) ∧ L.den msg.factor x ≠ 0 := by
  obtain ⟨r, hr1, hr2, hr3⟩ := w.rev q
  refine T.makeMessage (vars := scope ops g0 (g0.path q).snd) (special := g0.special) (b.ok _)
    (L.nodup (b.ok0 _)) (fun v => (b.vars _ v).symm)
    (by rw [inv.cspecial, w.special]) (by rw [inv.sepsets]; exact w.sepOf_eq q)
    (w.sepOk _ _ _ (w.sepOf_eq q)).1
    (fun v hv => ⟨(b.vars _ v).2 (w.sepOf_mem q hv).1, (w.sepOf_mem q hv).2.2⟩)
    (b.belief_pos w hx _) fun p hp => ?_
  have hrec := inv.received r
  rw [hr1, hr2, hp] at hrec
  obtain ⟨o1, o2⟩ := b.msg r p hrec.symm
  have hmv : ∀ x, mval L tr r x = L.den p x := fun x => by unfold mval; rw [← hrec]
  refine ⟨o1, fun v hv => hr3 ▸ (o2 v).1 hv, by rw [← hmv]; exact b.pos x hx r, fun z hz y hy => ?_⟩
  rw [b.belief]
  have hmem : r ∈ incoming g0 (g0.path q).snd := by simp [incoming, hr2]
  have : mval L tr r (override (evPairs L g0.special) y) = 0 := by
    rw [← hz, ← hmv]
    refine mval_congr L (b.msg r) fun v hv => ?_
    rw [hr3] at hv
    rw [override_keep L (w.sepOf_mem q hv).2.2, hy v hv]
  rw [Finset.prod_eq_zero hmem this, mul_zero]

theorem Total.receive [Zero G] {L : Laws ops D} (T : Total L) {evVars : List Var} {g0 g : Graph F V G n m}
    {tr : List (Fin m × F)} (w : Wired ops evVars g0) (inv : RunInv ops g0 tr g) (b : BelInv L g0 tr g)
    (q : Fin m) : ∃ c, CG.receive ops (g.cl (g.path q).rcv) (g.path q).next = .ok c := by
  obtain ⟨r, hr1, hr2, hr3⟩ := w.rev q
  obtain ⟨n1, n2, _⟩ := b.next w inv hr1 hr2 hr3
  have hids := makeMessage_ids (inv.next q)
  have hsend : (g.path q).next.snd = (g0.cl (g0.path q).snd).id := by rw [hids.1]; exact inv.id _
  obtain ⟨p, hp⟩ := T.mul (b.ok (g0.path q).rcv) n1
  obtain ⟨p1, p2, p3⟩ := L.mul (b.ok (g0.path q).rcv) n1 hp
  have hrec := inv.received q
  have key : ∃ f, cancelReceived ops (g.cl (g0.path q).rcv) (g.path q).next.snd p = .ok f := by
    unfold cancelReceived
    rw [hsend, hrec]
    cases hl : lastMsg tr q with
    | none => exact ⟨p, rfl⟩
    | some old =>
      obtain ⟨o1, o2⟩ := b.msg q old hl
      refine T.cancel p1 o1 (fun v hv => (p2 v).2 (Or.inl ((b.vars _ v).2 (w.sepOf_mem q ((o2 v).1 hv)).2.1))) ?_
      intro x hx
      rw [p3, b.belief]
      have hmem : q ∈ incoming g0 (g0.path q).rcv := by simp [incoming]
      have : mval L tr q x = 0 := by unfold mval; rw [hl]; exact hx
      rw [Finset.prod_eq_zero hmem this, mul_zero, zero_mul]
  obtain ⟨f, hf⟩ := key
  refine ⟨{ g.cl (g0.path q).rcv with
    factor := f
    received := Dict.set (g.cl (g0.path q).rcv).received (g.path q).next.snd (g.path q).next.factor }, ?_⟩
  rw [inv.rcv]
  unfold CG.receive
  have hid : ((g.path q).next.rcv == (g.cl (g0.path q).rcv).id) = true := by
    rw [hids.2, inv.id]; simp
  rw [hid]
  simp only [pyAssert, if_true, py_bind_ok]
  rw [hp, py_bind_ok, hf]
  rfl

/-- Passing a message works if the receiver can take it and all messages and gains can be computed
afterwards. -/
theorem pass_of [Zero G] {L : Laws ops D} {evVars : List Var} {g0 g : Graph F V G n m}
    {tr : List (Fin m × F)} (w : Wired ops evVars g0) (inv : RunInv ops g0 tr g) (b : BelInv L g0 tr g) (q : Fin m)
    {c : Cl F V} (hc : CG.receive ops (g.cl (g.path q).rcv) (g.path q).next = .ok c)
    (hnext : ∀ g1 : Graph F V G n m, ClInv g0 (tr ++ [(q, (g.path q).next.factor)]) g1.cl →
      BelInv L g0 (tr ++ [(q, (g.path q).next.factor)]) g1 → ∀ r prev,
      prev.map (fun msg : Msg F => msg.factor) = lastMsg (tr ++ [(q, (g.path q).next.factor)]) r →
      ∃ msg d, CG.makeMessage ops (g1.cl (g0.path r).snd) (g0.cl (g0.path r).rcv).id = .ok msg ∧
        gainOf ops prev msg = .ok d) :
    ∃ g', CG.pass ops g q = .ok g' := by
  have hids := makeMessage_ids (inv.next q)
  have hsend : (g.path q).next.snd = (g0.cl (g0.path q).snd).id := by rw [hids.1]; exact inv.id _
  have hcl := inv.clusters.deliver w (q := q) hsend (by rw [← inv.rcv]; exact hc)
  unfold CG.pass
  dsimp only
  rw [hc, py_bind_ok]
  set g1 : Graph F V G n m := { g with
    cl := Function.update g.cl (g.path q).rcv c
    path := Function.update g.path q
      { g.path q with prev := some (g.path q).next, gain := 0, gains := (g.path q).gains ++ [0] } } with hg1
  have hb1 : BelInv L g0 (tr ++ [(q, (g.path q).next.factor)]) g1 := b.deliver w inv hc rfl
  rw [← inv.rcv] at hcl
  have hprev : ∀ r, (g1.path r).prev.map (fun msg => msg.factor) = lastMsg (tr ++ [(q, (g.path q).next.factor)]) r := by
    intro r
    rw [lastMsg_snoc]
    dsimp only
    by_cases hr : q = r
    · subst hr
      rw [hg1, if_pos rfl]
      dsimp only
      rw [Function.update_self]
      rfl
    · rw [if_neg hr, hg1]
      dsimp only
      rw [Function.update_of_ne (Ne.symm hr)]
      exact inv.prev r
  have hends : ∀ r, (g1.path r).snd = (g0.path r).snd ∧ (g1.path r).rcv = (g0.path r).rcv := by
    intro r
    by_cases hr : r = q
    · subst hr
      rw [hg1]
      dsimp only
      rw [Function.update_self]
      exact ⟨inv.snd r, inv.rcv r⟩
    · rw [hg1]
      dsimp only
      rw [Function.update_of_ne hr]
      exact ⟨inv.snd r, inv.rcv r⟩
  obtain ⟨g', hg', _⟩ := foldlM_total (L := g1.out (g.path q).rcv)
    (f := fun (h : Graph F V G n m) r => do
      let p ← recompute ops h.cl (h.path r)
      .ok { h with path := Function.update h.path r p }) (b := g1)
    (fun _ h => h.cl = g1.cl ∧ ∀ r, (h.path r).snd = (g1.path r).snd ∧ (h.path r).rcv = (g1.path r).rcv ∧
      (h.path r).prev = (g1.path r).prev) ⟨rfl, fun r => ⟨rfl, rfl, rfl⟩⟩ (by
    intro l r l' h _ hh
    obtain ⟨h1, h2⟩ := hh
    obtain ⟨msg, d, m1, hd⟩ := hnext g1 hcl hb1 r (h.path r).prev (by rw [(h2 r).2.2]; exact hprev r)
    have hrec : ∃ p, recompute ops h.cl (h.path r) = .ok p := by
      unfold recompute
      rw [h1, (h2 r).1, (h2 r).2.1, (hends r).1, (hends r).2, hcl.id, m1, py_bind_ok, hd]
      exact ⟨_, rfl⟩
    obtain ⟨p, hp⟩ := hrec
    obtain ⟨p1, p2, p3, _⟩ := recompute_ok hp
    refine ⟨{ h with path := Function.update h.path r p }, by rw [hp]; rfl, h1, fun s => ?_⟩
    by_cases hsr : s = r
    · subst hsr
      dsimp only
      rw [Function.update_self, p1, p2, p3]
      exact h2 s
    · dsimp only
      rw [Function.update_of_ne hsr]
      exact h2 s)
  exact ⟨g', hg'⟩

/-- Passing a message never fails. -/
theorem Total.pass [Zero G] {L : Laws ops D} (T : Total L) {evVars : List Var} {g0 g : Graph F V G n m}
    {tr : List (Fin m × F)} (w : Wired ops evVars g0) (inv : RunInv ops g0 tr g) (b : BelInv L g0 tr g) {x : Var → D}
    (hx : ∀ i, L.den (g0.cl i).factor (override (evPairs L g0.special) x) ≠ 0) (q : Fin m) :
    ∃ g', CG.pass ops g q = .ok g' := by
  obtain ⟨c, hc⟩ := T.receive w inv b q
  refine pass_of w inv b q hc fun g1 hcl hb1 r prev hl => ?_
  obtain ⟨msg, m1, m2, m3, m4⟩ := T.next (g := g1) w hcl hb1 hx r
  have hgain : ∃ d, gainOf ops prev msg = .ok d := by
    cases prev with
    | none => exact T.dist m2 ⟨x, m4⟩
    | some p =>
      obtain ⟨o1, o2⟩ := hb1.msg r p.factor hl.symm
      have hpz : L.den p.factor x ≠ 0 := by
        have := hb1.pos x hx r
        unfold mval at this
        rwa [← hl] at this
      exact T.kl o1 m2 (fun v => (o2 v).trans (m3 v).symm) ⟨x, hpz⟩ ⟨x, m4⟩
  obtain ⟨d, hd⟩ := hgain
  exact ⟨msg, d, m1, hd⟩

/-- Any path can be chosen at any time: an execution can always be continued. -/
theorem Total.step [Zero G] {L : Laws ops D} (T : Total L) {evVars : List Var} {g0 g : Graph F V G n m}
    {tr : List (Fin m × F)} (w : Wired ops evVars g0) (hok : ∀ i, L.Ok (g0.cl i).factor) (hr : Run ops g0 tr g)
    {x : Var → D} (hx : ∀ i, L.den (g0.cl i).factor (override (evPairs L g0.special) x) ≠ 0) (q : Fin m) :
    ∃ g', CG.pass ops g q = .ok g' := T.pass w (hr.inv w) (hr.bel w hok) hx q

section
variable [LinearOrder G] [Zero G]

theorem pyGet_zero {l : List (Fin m)} (h : l.length = m) (hm : 0 < m) : ∃ q, pyGet l 0 = .ok q := by
  cases l with
  | nil => simp at h; omega
  | cons a l => exact ⟨a, rfl⟩

theorem loop_of {evVars : List Var} {g0 : Graph F V G n m} (w : Wired ops evVars g0)
    (hstep : ∀ tr g, Run ops g0 tr g → ∀ q, ∃ g', CG.pass ops g q = .ok g') (hm : 0 < m) (tol : G) (k : Nat)
    {g : Graph F V G n m} {tr : List (Fin m × F)} (hr : Run ops g0 tr g) :
    ∃ g', CG.loop ops tol k g = .ok g' := by
  induction k generalizing g tr with
  | zero => exact ⟨g, rfl⟩
  | succ k ih =>
    have hlen : ∀ {tr} {g : Graph F V G n m}, Run ops g0 tr g → g.queue.length = m := fun hr => by
      rw [(hr.inv w).queue.length_eq, List.length_finRange]
    obtain ⟨q, hq⟩ := pyGet_zero (hlen hr) hm
    obtain ⟨g1, hg1⟩ := hstep _ _ hr q
    have hr1 := Run.pass q hr hg1
    have hr2 : Run ops g0 _ (sortQueue { g1 with passed := g1.passed + 1 }) :=
      hr1.admin ⟨rfl, rfl, rfl, rfl, sortQueue_perm _⟩
    obtain ⟨q', hq'⟩ := pyGet_zero (hlen hr2) hm
    have hit : iteration ops tol g = .ok ({ sortQueue { g1 with passed := g1.passed + 1 } with
        dists := g1.dists ++ [(g1.path q').gain] }, decide ((g1.path q').gain ≤ tol)) := by
      unfold iteration
      rw [hq, py_bind_ok, hg1, py_bind_ok]
      dsimp only
      rw [hq']
      rfl
    unfold CG.loop
    rw [hit, py_bind_ok]
    dsimp only
    split
    · exact ⟨_, rfl⟩
    · exact ih (hr2.admin ⟨rfl, rfl, rfl, rfl, List.Perm.refl _⟩)

theorem process_of {evVars : List Var} {g0 : Graph F V G n m} (w : Wired ops evVars g0)
    (hstep : ∀ tr g, Run ops g0 tr g → ∀ q, ∃ g', CG.pass ops g q = .ok g') (hn : n ≠ 1) (tol : G) (maxIter : Nat)
    {g : Graph F V G n m} {tr : List (Fin m × F)} (hr : Run ops g0 tr g) :
    ∃ g', CG.processGraph ops tol maxIter g = .ok g' := by
  unfold CG.processGraph
  dsimp only
  rw [dif_neg hn]
  have hlen : g.queue.length = m := by rw [(hr.inv w).queue.length_eq, List.length_finRange]
  rw [hlen]
  by_cases hm : 0 < m
  · exact loop_of w hstep hm tol _ (hr.admin ⟨rfl, rfl, rfl, rfl, sortQueue_perm { g with dists := [] }⟩)
  · have : m = 0 := by omega
    subst this
    rw [Nat.mul_zero]
    exact ⟨_, rfl⟩

theorem Total.process {L : Laws ops D} (T : Total L) {evVars : List Var} {g0 : Graph F V G n m}
    (w : Wired ops evVars g0) (hok : ∀ i, L.Ok (g0.cl i).factor) {x : Var → D}
    (hx : ∀ i, L.den (g0.cl i).factor (override (evPairs L g0.special) x) ≠ 0) (hn : n ≠ 1) (tol : G) (maxIter : Nat)
    {g : Graph F V G n m} {tr : List (Fin m × F)} (hr : Run ops g0 tr g) :
    ∃ g', CG.processGraph ops tol maxIter g = .ok g' :=
  process_of w (fun _ _ hr q => T.step w hok hr hx q) hn tol maxIter hr

end

/-- A query returns if some cluster has all the variables and none of them is specially observed. -/
theorem Total.getMarginal [Zero G] {L : Laws ops D} (T : Total L) {evVars : List Var} {g0 g : Graph F V G n m}
    {tr : List (Fin m × F)} (w : Wired ops evVars g0) (hok : ∀ i, L.Ok (g0.cl i).factor) (hr : Run ops g0 tr g)
    {x : Var → D} (hx : ∀ i, L.den (g0.cl i).factor (override (evPairs L g0.special) x) ≠ 0) {vrs : List Var}
    (hn : vrs.Nodup) (hv : ∃ i, ∀ v ∈ vrs, v ∈ scope ops g0 i) (hun : ∀ v ∈ vrs, v ∉ Dict.keys g0.special) :
    ∃ r, CG.getMarginal ops g vrs = .ok r := by
  have inv := hr.inv w
  have b := hr.bel w hok
  unfold CG.getMarginal
  cases hf : (List.finRange n).find? fun i => decide (∀ v ∈ vrs, v ∈ ops.vars (g.cl i).factor) with
  | none =>
    obtain ⟨i, hi⟩ := hv
    have := List.find?_eq_none.1 hf i (List.mem_finRange i)
    exact absurd (decide_eq_true fun v hvv => (b.vars i v).2 (hi v hvv)) this
  | some i =>
    have hi : ∀ v ∈ vrs, v ∈ ops.vars (g.cl i).factor := by
      have := List.find?_some hf
      exact of_decide_eq_true this
    dsimp only
    rw [inv.special]
    obtain ⟨f, hf⟩ := T.observe (b.ok i) g0.special ⟨x, b.belief_pos w hx i⟩
    obtain ⟨f1, f2, _⟩ := L.observe (b.ok i) g0.special hf
    obtain ⟨r, hr⟩ := T.marg f1 hn fun v hvv => (f2 v).2 ⟨hi v hvv, hun v hvv⟩
    exact ⟨r, by rw [hf, py_bind_ok]; exact hr⟩

end Verif.CG
