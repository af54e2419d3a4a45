import Verif.ClusterRun
import Verif.ClusterBelief

/-!
# Cluster graphs with another division

While a cluster graph is built nothing is cancelled, and while messages are passed only factors of clusters that have
neighbours are. So two factor classes that differ in `cancel` alone, and there only outside of a set `Q` of factors
that the operations do not leave, behave alike if the clusters with neighbours hold factors of `Q`.
-/

namespace Verif.CG
variable {F V G : Type} {n m : Nat} {ops ops' : Ops F V G} {hs : HashSeed}

/-- The two classes differ at most in `cancel`. -/
def SameBut (ops ops' : Ops F V G) : Prop := ops' = { ops with cancel := ops'.cancel }

/-- The operations do not leave the set `Q`, and on it the two classes agree. -/
structure Closed (ops ops' : Ops F V G) (Q : F → Prop) : Prop where
  same : SameBut ops ops'
  mul : ∀ f g r, Q f → Q g → ops.multiply f g = .ok r → Q r
  cancel : ∀ f g r, Q f → Q g → ops.cancel f g = .ok r → Q r
  marg : ∀ f vrs r, Q f → ops.marginalize f vrs = .ok r → Q r
  red : ∀ f vrs ks r, Q f → ops.reduce f vrs ks = .ok r → Q r
  agree : ∀ f g, Q f → Q g → ops'.cancel f g = ops.cancel f g

/-! ### Construction -/

theorem makeMessage_fresh (h : SameBut ops ops') {c : Cl F V} (hc : c.received = []) (nid : String) :
    makeMessage ops' c nid = makeMessage ops c nid := by
  rw [h]
  unfold makeMessage cancelReceived
  rw [hc]
  rfl

theorem mkPath_fresh (h : SameBut ops ops') {cl : Fin n → Cl F V} (hc : ∀ i, (cl i).received = []) (i j : Fin n) :
    mkPath ops' cl i j = mkPath ops cl i j := by
  unfold mkPath
  rw [makeMessage_fresh h (hc i)]
  rw [h]
  rfl

theorem addNeighbour_fresh {c c' : Cl F V} {o : String} {s : List Var} (h : addNeighbour c o s = .ok c') :
    c'.received = c.received := by
  unfold addNeighbour at h
  obtain ⟨_, -, h⟩ := py_bind_eq_ok.1 h
  cases h
  rfl

theorem buildEdge_fresh (h : SameBut ops ops') {b : Build F V G n} (hc : ∀ i, (b.cl i).received = []) (i j : Fin n)
    (sep : List Var) : buildEdge ops b i j sep = buildEdge ops' b i j sep ∧
      ∀ b', buildEdge ops b i j sep = .ok b' → ∀ i, (b'.cl i).received = [] := by
  have upd : ∀ {cl : Fin n → Cl F V} {i : Fin n} {c : Cl F V}, (∀ i, (cl i).received = []) →
      c.received = (cl i).received → ∀ k, (Function.update cl i c k).received = [] := by
    intro cl i c h1 h2 k
    by_cases hk : k = i
    · subst hk
      rw [Function.update_self, h2, h1]
    · rw [Function.update_of_ne hk]
      exact h1 k
  constructor
  · unfold buildEdge
    cases pyAssert (decide (0 < sep.length)) with
    | error e => rfl
    | ok _ =>
      rw [py_bind_ok, py_bind_ok]
      cases h1 : addNeighbour (b.cl i) (b.cl j).id sep with
      | error e => rfl
      | ok ci =>
        rw [py_bind_ok, py_bind_ok]
        dsimp only
        have hc1 := upd hc (addNeighbour_fresh h1)
        cases h2 : addNeighbour (Function.update b.cl i ci j) (Function.update b.cl i ci i).id sep with
        | error e => rfl
        | ok cj =>
          rw [py_bind_ok, py_bind_ok]
          have hc2 := upd hc1 (addNeighbour_fresh h2)
          rw [mkPath_fresh h hc2, mkPath_fresh h hc2]
  · intro b' h
    unfold buildEdge at h
    obtain ⟨_, -, h⟩ := py_bind_eq_ok.1 h
    obtain ⟨ci, h1, h⟩ := py_bind_eq_ok.1 h
    dsimp only at h
    obtain ⟨cj, h2, h⟩ := py_bind_eq_ok.1 h
    obtain ⟨_, -, h⟩ := py_bind_eq_ok.1 h
    obtain ⟨_, -, h⟩ := py_bind_eq_ok.1 h
    cases h
    exact upd (upd hc (addNeighbour_fresh h1)) (addNeighbour_fresh h2)

theorem foldlM_agree {α β : Type} {f g : β → α → Py β} {I : β → Prop} (hfg : ∀ s e, I s → f s e = g s e)
    (hI : ∀ s e s', I s → f s e = .ok s' → I s') (l : List α) {s : β} (h : I s) : l.foldlM f s = l.foldlM g s := by
  induction l generalizing s with
  | nil => rfl
  | cons e l ih =>
    rw [List.foldlM_cons, List.foldlM_cons, ← hfg s e h]
    cases hs : f s e with
    | error x => rfl
    | ok s' => exact ih (hI s e s' h hs)

theorem buildLoop_fresh (h : SameBut ops ops') {cl : Fin n → Cl F V} (hc : ∀ i, (cl i).received = []) (ev : List Var) :
    buildLoop hs ops' cl ev = buildLoop hs ops cl ev := by
  have hv : ops'.vars = ops.vars := by rw [h]
  unfold buildLoop
  rw [hv]
  dsimp only
  refine (foldlM_agree (I := fun b : Build F V G n => ∀ i, (b.cl i).received = []) ?_ ?_ _ (fun i => hc i)).symm
  · intro b e hb
    split
    · exact (buildEdge_fresh h hb _ _ _).1
    · rfl
  · intro b e b' hb h'
    split at h'
    · exact (buildEdge_fresh h hb _ _ _).2 _ h'
    · cases h'
      exact hb

/-- The constructor does not divide. -/
theorem new_cancel (h : SameBut ops ops') (factors : List F) (evidence : Option (Dict Var V)) (special : Dict Var V) :
    new hs ops' factors evidence special = new hs ops factors evidence special := by
  have h1 : clusterFactors ops' factors evidence = clusterFactors ops factors evidence := by rw [h]; rfl
  have h2 : ∀ fs, mkClusters ops' special fs = mkClusters ops special fs := by rw [h]; exact fun _ => rfl
  unfold new
  rw [h1]
  cases clusterFactors ops factors evidence with
  | error e => rfl
  | ok fs =>
    rw [py_bind_ok, py_bind_ok]
    have key : ∀ cls cls' : List (Cl F V), cls' = cls → (∀ c ∈ cls, c.received = []) →
        (do
          let b ← buildGraph hs ops' (fun i : Fin cls'.length => cls'[i]) (evidenceVars evidence special)
          Except.ok (⟨cls'.length, b.paths.length, b.graph special⟩ : Any F V G)) =
        (do
          let b ← buildGraph hs ops (fun i : Fin cls.length => cls[i]) (evidenceVars evidence special)
          Except.ok (⟨cls.length, b.paths.length, b.graph special⟩ : Any F V G)) := by
      rintro _ cls rfl hcls
      have : buildGraph hs ops' (fun i : Fin cls.length => cls[i]) (evidenceVars evidence special) =
          buildGraph hs ops (fun i : Fin cls.length => cls[i]) (evidenceVars evidence special) := by
        unfold buildGraph
        dsimp only
        rw [buildLoop_fresh h (cl := fun i : Fin cls.length => cls[i]) fun i => hcls _ (List.getElem_mem i.2)]
      rw [this]
    exact key _ _ (h2 fs) fun c hc => (mem_mkClusters hc).1

/-! ### Message passing -/

variable {Q : F → Prop}

theorem cancelReceived_closed (C : Closed ops ops' Q) {c : Cl F V} (hc : ∀ k p, Dict.get? c.received k = some p → Q p)
    {f : F} (hf : Q f) (nid : String) : cancelReceived ops' c nid f = cancelReceived ops c nid f ∧
      ∀ r, cancelReceived ops c nid f = .ok r → Q r := by
  unfold cancelReceived
  cases h : Dict.get? c.received nid with
  | none => exact ⟨rfl, fun r hr => by cases hr; exact hf⟩
  | some p => exact ⟨C.agree _ _ hf (hc _ _ h), fun r hr => C.cancel _ _ _ hf (hc _ _ h) hr⟩

theorem makeMessage_closed (C : Closed ops ops' Q) {c : Cl F V} (hc : ∀ k p, Dict.get? c.received k = some p → Q p)
    (hf : Q c.factor) (nid : String) : makeMessage ops' c nid = makeMessage ops c nid ∧
      ∀ msg, makeMessage ops c nid = .ok msg → Q msg.factor := by
  have hs1 : specialReduced ops' c = specialReduced ops c := by rw [C.same]; rfl
  have hm1 : ops'.marginalize = ops.marginalize := by rw [C.same]
  have hq : ∀ f, specialReduced ops c = .ok f → Q f := by
    intro f h
    unfold specialReduced at h
    split at h
    · cases h; exact hf
    · exact C.red _ _ _ _ hf h
  constructor
  · unfold makeMessage
    rw [hs1, hm1]
    cases Dict.getItem c.sepsets nid with
    | error e => rfl
    | ok sep =>
      rw [py_bind_ok, py_bind_ok]
      cases h1 : specialReduced ops c with
      | error e => rfl
      | ok f =>
        rw [py_bind_ok, py_bind_ok]
        cases h2 : ops.marginalize f sep with
        | error e => rfl
        | ok f' =>
          rw [py_bind_ok, py_bind_ok, (cancelReceived_closed C hc (C.marg _ _ _ (hq f h1) h2) nid).1]
  · intro msg h
    unfold makeMessage at h
    obtain ⟨sep, -, h⟩ := py_bind_eq_ok.1 h
    obtain ⟨f, h1, h⟩ := py_bind_eq_ok.1 h
    obtain ⟨f1, h2, h⟩ := py_bind_eq_ok.1 h
    obtain ⟨f2, h3, h⟩ := py_bind_eq_ok.1 h
    cases h
    exact (cancelReceived_closed C hc (C.marg _ _ _ (hq f h1) h2) nid).2 _ h3

theorem pass_closed [Zero G] (C : Closed ops ops' Q) {g g' : Graph F V G n m} {q : Fin m}
    (hrec : ∀ i k p, Dict.get? (g.cl i).received k = some p → Q p) (hsnd : ∀ q, Q (g.cl (g.path q).snd).factor)
    (hrcv : Q (g.cl (g.path q).rcv).factor) (hnext : Q (g.path q).next.factor)
    (h : pass ops g q = .ok g') :
    pass ops' g q = .ok g' ∧ (∀ i k p, Dict.get? (g'.cl i).received k = some p → Q p) ∧
      ∀ i, Q (g.cl i).factor → Q (g'.cl i).factor := by
  unfold pass at h ⊢
  obtain ⟨c, hc, h⟩ := py_bind_eq_ok.1 h
  have hmul : ops'.multiply = ops.multiply := by rw [C.same]
  obtain ⟨r1, p, f, r2, r3, r4⟩ := receive_ok hc
  have hp := C.mul _ _ _ hrcv hnext r2
  have hc' : receive ops' (g.cl (g.path q).rcv) (g.path q).next = .ok c := by
    unfold receive at hc ⊢
    obtain ⟨_, h1, -⟩ := py_bind_eq_ok.1 hc
    rw [h1, py_bind_ok, hmul, r2, py_bind_ok, (cancelReceived_closed C (hrec _) hp _).1, r3, py_bind_ok, r4]
  have hcf : Q c.factor := by rw [r4]; exact (cancelReceived_closed C (hrec _) hp _).2 _ r3
  have hcr : ∀ k p, Dict.get? c.received k = some p → Q p := by
    intro k p' hp'
    rw [r4] at hp'
    dsimp only at hp'
    rw [Dict.get?_set] at hp'
    split at hp'
    · cases hp'
      exact hnext
    · exact hrec _ k p' hp'
  obtain ⟨cl', hcl'⟩ : ∃ cl', cl' = Function.update g.cl (g.path q).rcv c := ⟨_, rfl⟩
  have hrec' : ∀ i k p, Dict.get? (cl' i).received k = some p → Q p := by
    intro i
    rw [hcl']
    by_cases hi : i = (g.path q).rcv
    · subst hi
      rw [Function.update_self]
      exact hcr
    · rw [Function.update_of_ne hi]
      exact hrec i
  have hQ' : ∀ i, Q (g.cl i).factor → Q (cl' i).factor := by
    intro i hi'
    rw [hcl']
    by_cases hi : i = (g.path q).rcv
    · subst hi
      rw [Function.update_self]
      exact hcf
    · rw [Function.update_of_ne hi]
      exact hi'
  have hrcv' := hQ' _ hrcv
  dsimp only at h ⊢
  rw [hc', py_bind_ok]
  rw [← hcl'] at h ⊢
  obtain ⟨p', hp'⟩ : ∃ p' : Path n F G, p' = { g.path q with prev := some (g.path q).next, gain := 0, gains := (g.path q).gains ++ [0] } :=
    ⟨_, rfl⟩
  have hsnd' : ∀ r, (Function.update g.path q p' r).snd = (g.path r).snd := by
    intro r
    by_cases hr : r = q
    · subst hr
      rw [Function.update_self, hp']
    · rw [Function.update_of_ne hr]
  have step : ∀ (l : List (Fin m)) (s : Graph F V G n m), s.cl = cl' → (∀ r, (s.path r).snd = (g.path r).snd) →
      l.foldlM (fun (h : Graph F V G n m) r => do
        let p ← recompute ops h.cl (h.path r)
        .ok { h with path := Function.update h.path r p }) s =
      l.foldlM (fun (h : Graph F V G n m) r => do
        let p ← recompute ops' h.cl (h.path r)
        .ok { h with path := Function.update h.path r p }) s := by
    intro l s hs1 hs2
    refine foldlM_agree (I := fun s => s.cl = cl' ∧ ∀ r, (s.path r).snd = (g.path r).snd) (fun s r h1 => ?_)
      (fun s r s' h1 h2 => ?_) l ⟨hs1, hs2⟩
    · have : recompute ops' s.cl (s.path r) = recompute ops s.cl (s.path r) := by
        unfold recompute
        rw [(makeMessage_closed C (by rw [h1.1]; exact hrec' _) (by rw [h1.1, h1.2]; exact hQ' _ (hsnd r)) _).1]
        rw [C.same]
        rfl
      rw [this]
    · obtain ⟨pr, h3, h2⟩ := py_bind_eq_ok.1 h2
      cases h2
      refine ⟨h1.1, fun r' => ?_⟩
      dsimp only
      by_cases hr : r' = r
      · subst hr
        rw [Function.update_self]
        unfold recompute at h3
        obtain ⟨_, -, h3⟩ := py_bind_eq_ok.1 h3
        obtain ⟨_, -, h3⟩ := py_bind_eq_ok.1 h3
        cases h3
        exact h1.2 r'
      · rw [Function.update_of_ne hr]
        exact h1.2 r'
  have hcl : ∀ (l : List (Fin m)) (s s' : Graph F V G n m), l.foldlM (fun (h : Graph F V G n m) r => do
        let p ← recompute ops h.cl (h.path r)
        .ok { h with path := Function.update h.path r p }) s = .ok s' → s'.cl = s.cl := by
    intro l
    induction l with
    | nil => intro s s' h; cases h; rfl
    | cons r l ih =>
      intro s s' h
      rw [List.foldlM_cons] at h
      obtain ⟨s1, h1, h2⟩ := py_bind_eq_ok.1 h
      obtain ⟨_, -, h1⟩ := py_bind_eq_ok.1 h1
      cases h1
      have := ih _ _ h2
      exact this
  rw [← hp'] at h ⊢
  refine ⟨(step _ _ rfl hsnd').symm.trans h, ?_, ?_⟩
  · rw [hcl _ _ _ h]
    exact hrec'
  · rw [hcl _ _ _ h]
    exact hQ'

/-- Message passing when the clusters with neighbours hold factors of `Q`. -/
theorem run_closed [Zero G] (C : Closed ops ops' Q) {evVars : List Var} {g0 g : Graph F V G n m}
    {tr : List (Fin m × F)} (w : Wired ops evVars g0) (hQ : ∀ q, Q (g0.cl (g0.path q).snd).factor)
    (h : Run ops g0 tr g) : Run ops' g0 tr g ∧ (∀ i k p, Dict.get? (g.cl i).received k = some p → Q p) ∧
      ∀ q, Q (g.cl (g0.path q).snd).factor := by
  induction h with
  | start =>
    refine ⟨.start, fun i k p hp => ?_, hQ⟩
    rw [w.received] at hp
    cases hp
  | @pass tr g g' q hr hp ih =>
    obtain ⟨hr', hrec, hQ'⟩ := ih
    have inv := hr.inv w
    obtain ⟨r, hr1, hr2, hr3⟩ := w.rev q
    have hnext : Q (g.path q).next.factor := (makeMessage_closed C (hrec _) (hQ' q) _).2 _ (inv.next q)
    obtain ⟨h1, h2, h3⟩ := pass_closed C hrec (fun q => by rw [inv.snd]; exact hQ' q)
      (by rw [inv.rcv, ← hr1]; exact hQ' r) hnext hp
    exact ⟨.pass q hr' h1, h2, fun q => h3 _ (hQ' q)⟩
  | admin _ hs' ih =>
    obtain ⟨h1, h2, h3⟩ := ih
    exact ⟨.admin h1 hs', fun i => by rw [hs'.1]; exact h2 i, fun q => by rw [hs'.1]; exact h3 q⟩

end Verif.CG
