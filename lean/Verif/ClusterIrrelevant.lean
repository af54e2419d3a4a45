import Verif.ClusterBelief

/-!
# Evidence about variables that no factor mentions

Two pairs of evidence dictionaries that agree on the variables of the factors give the same graph, except for the
dictionary `special_evidence` kept in it, and the same message passing.
-/

namespace Verif.CG
variable {F V G : Type} {n m : Nat} {ops : Ops F V G} {hs : HashSeed}

/-- The operations introduce no variables. -/
structure ScopeLaws (ops : Ops F V G) : Prop where
  mul : ∀ f g r, ops.multiply f g = .ok r → ∀ v ∈ ops.vars r, v ∈ ops.vars f ∨ v ∈ ops.vars g
  cancel : ∀ f g r, ops.cancel f g = .ok r → ∀ v ∈ ops.vars r, v ∈ ops.vars f ∨ v ∈ ops.vars g
  marg : ∀ f vrs r, ops.marginalize f vrs = .ok r → ∀ v ∈ ops.vars r, v ∈ ops.vars f ∨ v ∈ vrs
  red : ∀ f vrs ks r, ops.reduce f vrs ks = .ok r → ∀ v ∈ ops.vars r, v ∈ ops.vars f

/-- The value of a variable in the evidence; `none` is no evidence. -/
def lookup (evidence : Option (Dict Var V)) (v : Var) : Option V := evidence.bind fun ev => Dict.get? ev v

/-! ### Construction -/

theorem subsetEvidence_agree {s s' : Dict Var V} {vars : List Var} (h : ∀ v ∈ vars, Dict.get? s v = Dict.get? s' v) :
    subsetEvidence s vars = subsetEvidence s' vars := by
  unfold subsetEvidence
  congr 1
  exact List.filterMap_congr fun v hv => by rw [h v hv]

theorem observe_agree {s s' : Dict Var V} {f : F} (h : ∀ v ∈ ops.vars f, Dict.get? s v = Dict.get? s' v) :
    observe ops s f = observe ops s' f := by
  unfold observe
  rw [subsetEvidence_agree h]

theorem observe_nil (f : F) : observe ops ([] : Dict Var V) f = .ok f := by
  have : subsetEvidence ([] : Dict Var V) (ops.vars f) = [] := by
    unfold subsetEvidence
    rw [List.filterMap_eq_nil_iff.2]
    · rfl
    · intro v _
      rfl
  unfold observe
  simp [this, Dict.keys]

theorem evidenceReduce_getD (factors : List F) (ev : Option (Dict Var V)) :
    evidenceReduce ops factors ev = factors.mapM (observe ops (ev.getD [])) := by
  unfold evidenceReduce
  cases ev with
  | some ev => rfl
  | none =>
    congr 1
    funext f
    exact (observe_nil f).symm

theorem lookup_getD (ev : Option (Dict Var V)) (v : Var) : lookup ev v = Dict.get? (ev.getD []) v := by
  cases ev <;> rfl

theorem mapM_agree {α β : Type} {f g : α → Py β} {l : List α} (h : ∀ a ∈ l, f a = g a) : l.mapM f = l.mapM g := by
  induction l with
  | nil => rfl
  | cons a l ih =>
    rw [List.mapM_cons, List.mapM_cons, h a (by simp), ih fun b hb => h b (by simp [hb])]

theorem evidenceReduce_agree {factors : List F} {ev ev' : Option (Dict Var V)}
    (h : ∀ f ∈ factors, ∀ v ∈ ops.vars f, lookup ev v = lookup ev' v) :
    evidenceReduce ops factors ev = evidenceReduce ops factors ev' := by
  rw [evidenceReduce_getD, evidenceReduce_getD]
  exact mapM_agree fun f hf => observe_agree fun v hv => by
    rw [← lookup_getD, ← lookup_getD, h f hf v hv]

theorem observe_scope (S : ScopeLaws ops) {ev : Dict Var V} {f r : F} (h : observe ops ev f = .ok r) :
    ∀ v ∈ ops.vars r, v ∈ ops.vars f := by
  unfold observe at h
  dsimp only at h
  split at h
  · exact S.red _ _ _ _ h
  · cases h
    exact fun v hv => hv

/-- A set of factors closed under products contains the factors of the clusters. -/
theorem absorb_closed {Q : F → Prop} (hQ : ∀ f g r, Q f → Q g → ops.multiply f g = .ok r → Q r) {factors r : List F}
    (hf : ∀ f ∈ factors, Q f) (h : absorb ops factors = .ok r) : ∀ f ∈ r, Q f := by
  have hz : ∀ e ∈ factors.zipIdx, Q e.1 := fun e he => hf _ (List.fst_mem_of_mem_zipIdx he)
  have inner : ∀ (l : List (F × Nat)) (i : Nat) (s s' : F × (Nat → Bool)), (∀ e ∈ l, Q e.1) → Q s.1 →
      l.foldlM (fun (s : F × (Nat → Bool)) e =>
        if i ≠ e.2 ∧ s.2 e.2 = false ∧ strictSubset (ops.vars e.1) (ops.vars s.1) = true then do
          let p ← ops.multiply s.1 e.1
          .ok (p, Function.update (Function.update s.2 e.2 true) i true)
        else .ok s) s = (.ok s' : Py _) → Q s'.1 := by
    intro l i
    induction l with
    | nil => intro s s' _ hs h; cases h; exact hs
    | cons e l ih =>
      intro s s' hl hs h
      rw [List.foldlM_cons] at h
      obtain ⟨t, h1, h2⟩ := py_bind_eq_ok.1 h
      refine ih t s' (fun e he => hl e (by simp [he])) ?_ h2
      split at h1
      · obtain ⟨p, h3, h4⟩ := py_bind_eq_ok.1 h1
        cases h4
        exact hQ _ _ _ hs (hl e (by simp)) h3
      · cases h1
        exact hs
  have outer : ∀ (l : List (F × Nat)) (s s' : List F × (Nat → Bool)), (∀ e ∈ l, Q e.1) → (∀ f ∈ s.1, Q f) →
      l.foldlM (fun (s : List F × (Nat → Bool)) e =>
        if s.2 e.2 = false then do
          let t ← absorbInner ops factors e.2 e.1 s.2
          .ok (if t.2 e.2 = true then s.1 ++ [t.1] else s.1, t.2)
        else .ok s) s = (.ok s' : Py _) → ∀ f ∈ s'.1, Q f := by
    intro l
    induction l with
    | nil => intro s s' _ hs h; cases h; exact hs
    | cons e l ih =>
      intro s s' hl hs h
      rw [List.foldlM_cons] at h
      obtain ⟨t, h1, h2⟩ := py_bind_eq_ok.1 h
      refine ih t s' (fun e he => hl e (by simp [he])) ?_ h2
      split at h1
      · obtain ⟨p, h3, h4⟩ := py_bind_eq_ok.1 h1
        cases h4
        have hp : Q p.1 := inner _ _ _ _ hz (hl e (by simp)) h3
        dsimp only
        split
        · intro f hf
          rcases List.mem_append.1 hf with hf | hf
          · exact hs f hf
          · rw [List.mem_singleton.1 hf]; exact hp
        · exact hs
      · cases h1
        exact hs
  have last : ∀ (l : List (F × Nat)) (s : List F × (Nat → Bool)), (∀ e ∈ l, Q e.1) → (∀ f ∈ s.1, Q f) →
      ∀ f ∈ (l.foldl (fun (s : List F × (Nat → Bool)) e =>
        if s.2 e.2 = false then (s.1 ++ [e.1], Function.update s.2 e.2 true) else s) s).1, Q f := by
    intro l
    induction l with
    | nil => intro s _ hs; exact hs
    | cons e l ih =>
      intro s hl hs
      rw [List.foldl_cons]
      refine ih _ (fun e he => hl e (by simp [he])) ?_
      split
      · intro f hf
        rcases List.mem_append.1 hf with hf | hf
        · exact hs f hf
        · rw [List.mem_singleton.1 hf]; exact hl e (by simp)
      · exact hs
  unfold absorb at h
  obtain ⟨s, h1, h⟩ := py_bind_eq_ok.1 h
  obtain ⟨_, -, h⟩ := py_bind_eq_ok.1 h
  cases h
  exact last _ _ hz (outer _ _ _ hz (by simp) h1)

/-- The clusters mention only variables of the factors. -/
theorem clusterFactors_scope (S : ScopeLaws ops) {factors fs : List F} {ev : Option (Dict Var V)}
    (h : clusterFactors ops factors ev = .ok fs) : ∀ f ∈ fs, ∀ v ∈ ops.vars f, ∃ f' ∈ factors, v ∈ ops.vars f' := by
  unfold clusterFactors at h
  obtain ⟨rs, h1, h2⟩ := py_bind_eq_ok.1 h
  refine absorb_closed (Q := fun f => ∀ v ∈ ops.vars f, ∃ f' ∈ factors, v ∈ ops.vars f')
    (fun f g r hf hg hr v hv => (S.mul f g r hr v hv).elim (hf v) (hg v)) ?_ h2
  rw [evidenceReduce_getD] at h1
  intro f hf v hv
  have : ∀ (l rs : List F), l.mapM (observe ops (ev.getD [])) = .ok rs → ∀ f ∈ rs, ∃ f' ∈ l,
      observe ops (ev.getD []) f' = .ok f := by
    intro l
    induction l with
    | nil => intro rs h f hf; cases h; cases hf
    | cons a l ih =>
      intro rs h f hf
      rw [List.mapM_cons] at h
      obtain ⟨b, h3, h⟩ := py_bind_eq_ok.1 h
      obtain ⟨bs, h4, h⟩ := py_bind_eq_ok.1 h
      cases h
      rcases List.mem_cons.1 hf with rfl | hf
      · exact ⟨a, by simp, h3⟩
      · obtain ⟨f', k1, k2⟩ := ih _ h4 f hf
        exact ⟨f', by simp [k1], k2⟩
  obtain ⟨f', k1, k2⟩ := this _ _ h1 f hf
  exact ⟨f', k1, observe_scope S k2 v hv⟩

theorem ripSepsets_agree {scope : Fin n → List Var} {ev ev' : List Var}
    (h : ∀ i, ∀ v ∈ scope i, (v ∈ ev ↔ v ∈ ev')) : ripSepsets hs scope ev = ripSepsets hs scope ev' := by
  have : ∀ v, varEdges scope ev v = varEdges scope ev' v := by
    intro v
    unfold varEdges
    refine List.filter_congr fun e _ => ?_
    rw [decide_eq_decide]
    unfold nonRipSepset
    simp only [List.mem_filter, decide_eq_true_eq]
    constructor
    · rintro ⟨⟨h1, h2⟩, h3⟩
      exact ⟨⟨h1, h2⟩, fun h4 => h3 ((h _ v h2).2 h4)⟩
    · rintro ⟨⟨h1, h2⟩, h3⟩
      exact ⟨⟨h1, h2⟩, fun h4 => h3 ((h _ v h2).1 h4)⟩
  unfold ripSepsets
  simp only [this]

/-- A graph with another dictionary of special evidence. -/
def Any.withSpecial (s : Dict Var V) (a : Any F V G) : Any F V G := ⟨a.n, a.m, { a.graph with special := s }⟩

/-- The graph depends only on the evidence about the variables of the factors. -/
theorem new_agree (S : ScopeLaws ops) {factors : List F} {ev ev' : Option (Dict Var V)} {sp sp' : Dict Var V}
    (hev : ∀ f ∈ factors, ∀ v ∈ ops.vars f, lookup ev v = lookup ev' v)
    (hsp : ∀ f ∈ factors, ∀ v ∈ ops.vars f, Dict.get? sp v = Dict.get? sp' v) :
    new hs ops factors ev' sp' = (new hs ops factors ev sp).map (Any.withSpecial sp') := by
  have h1 : clusterFactors ops factors ev' = clusterFactors ops factors ev := by
    unfold clusterFactors
    rw [evidenceReduce_agree hev]
  unfold new
  rw [h1]
  cases h2 : clusterFactors ops factors ev with
  | error e => rfl
  | ok fs =>
    have hsc := clusterFactors_scope S h2
    rw [py_bind_ok, py_bind_ok]
    have h3 : mkClusters ops sp' fs = mkClusters ops sp fs := by
      unfold mkClusters
      refine List.map_congr_left fun e he => ?_
      rw [subsetEvidence_agree (s := sp') (s' := sp) fun v hv => ?_]
      obtain ⟨f', k1, k2⟩ := hsc _ (List.fst_mem_of_mem_zipIdx he) v hv
      exact (hsp f' k1 v k2).symm
    have hev' : ∀ f ∈ factors, ∀ v ∈ ops.vars f, (v ∈ evidenceVars ev' sp' ↔ v ∈ evidenceVars ev sp) := by
      intro f hf v hv
      have e1 : ∀ (o : Option (Dict Var V)) (s : Dict Var V), v ∈ evidenceVars o s ↔
          (∃ x, Dict.get? s v = some x) ∨ ∃ x, lookup o v = some x := by
        intro o s
        rw [Dict.get?_isSome_iff, lookup_getD, Dict.get?_isSome_iff]
        cases o <;> simp [evidenceVars, Dict.keys]
      rw [e1, e1, hev f hf v hv, hsp f hf v hv]
    have key : ∀ cls cls' : List (Cl F V), cls' = cls →
        (∀ c ∈ cls, ∀ v ∈ ops.vars c.factor, (v ∈ evidenceVars ev' sp' ↔ v ∈ evidenceVars ev sp)) →
        (do
          let b ← buildGraph hs ops (fun i : Fin cls'.length => cls'[i]) (evidenceVars ev' sp')
          Except.ok (⟨cls'.length, b.paths.length, b.graph sp'⟩ : Any F V G)) =
        (do
          let b ← buildGraph hs ops (fun i : Fin cls.length => cls[i]) (evidenceVars ev sp)
          Except.ok (⟨cls.length, b.paths.length, b.graph sp⟩ : Any F V G)).map (Any.withSpecial sp') := by
      rintro _ cls rfl hcls
      have : buildGraph hs ops (fun i : Fin cls.length => cls[i]) (evidenceVars ev' sp') =
          buildGraph hs ops (fun i : Fin cls.length => cls[i]) (evidenceVars ev sp) := by
        unfold buildGraph buildLoop
        dsimp only
        have hr : ripSepsets hs (fun i : Fin cls.length => ops.vars cls[i].factor) (evidenceVars ev' sp') =
            ripSepsets hs (fun i : Fin cls.length => ops.vars cls[i].factor) (evidenceVars ev sp) :=
          ripSepsets_agree fun i v hv => hcls _ (List.getElem_mem i.2) v hv
        rw [hr]
      rw [this]
      cases buildGraph hs ops (fun i : Fin cls.length => cls[i]) (evidenceVars ev sp) with
      | error e => rfl
      | ok b => rfl
    refine key _ _ h3 fun c hc v hv => ?_
    unfold mkClusters at hc
    obtain ⟨e, he, rfl⟩ := List.mem_map.1 hc
    obtain ⟨f', k1, k2⟩ := hsc _ (List.fst_mem_of_mem_zipIdx he) v hv
    exact hev' f' k1 v k2

/-! ### Message passing -/

/-- The graph with another dictionary of special evidence. -/
def withSpecial (s : Dict Var V) (g : Graph F V G n m) : Graph F V G n m := { g with special := s }

theorem foldlM_commute {α β : Type} {φ : β → β} {f : β → α → Py β} (h : ∀ b a, f (φ b) a = (f b a).map φ)
    (l : List α) (b : β) : l.foldlM f (φ b) = (l.foldlM f b).map φ := by
  induction l generalizing b with
  | nil => rfl
  | cons a l ih =>
    rw [List.foldlM_cons, List.foldlM_cons, h]
    cases f b a with
    | error e => rfl
    | ok b' => exact ih b'

theorem pass_withSpecial [Zero G] (s : Dict Var V) (g : Graph F V G n m) (q : Fin m) :
    pass ops (withSpecial s g) q = (pass ops g q).map (withSpecial s) := by
  unfold pass
  dsimp only
  change (do
    let c ← receive ops (g.cl (g.path q).rcv) (g.path q).next
    _) = _
  cases receive ops (g.cl (g.path q).rcv) (g.path q).next with
  | error e => rfl
  | ok c =>
    rw [py_bind_ok, py_bind_ok]
    have := foldlM_commute (φ := withSpecial s) (f := fun (h : Graph F V G n m) r => do
        let p ← recompute ops h.cl (h.path r)
        .ok { h with path := Function.update h.path r p }) (fun b r => by
      change (do
        let p ← recompute ops b.cl (b.path r)
        _) = _
      cases recompute ops b.cl (b.path r) with
      | error e => rfl
      | ok p => rfl) (g.out (g.path q).rcv) { g with
        cl := Function.update g.cl (g.path q).rcv c
        path := Function.update g.path q { g.path q with
          prev := some (g.path q).next, gain := 0, gains := (g.path q).gains ++ [0] } }
    exact this

section
variable [LinearOrder G] [Zero G]

theorem iteration_withSpecial (s : Dict Var V) (tol : G) (g : Graph F V G n m) :
    iteration ops tol (withSpecial s g) = (iteration ops tol g).map fun r => (withSpecial s r.1, r.2) := by
  unfold iteration
  change (do
    let q ← pyGet g.queue 0
    _) = _
  cases pyGet g.queue 0 with
  | error e => rfl
  | ok q =>
    rw [py_bind_ok, py_bind_ok, pass_withSpecial]
    cases pass ops g q with
    | error e => rfl
    | ok g1 =>
      change (do
        let q ← pyGet (sortQueue { g1 with passed := g1.passed + 1 }).queue 0
        _) = Except.map _ (do
        let q ← pyGet (sortQueue { g1 with passed := g1.passed + 1 }).queue 0
        _)
      cases pyGet (sortQueue { g1 with passed := g1.passed + 1 }).queue 0 with
      | error e => rfl
      | ok q => rfl

theorem loop_withSpecial (s : Dict Var V) (tol : G) (k : Nat) (g : Graph F V G n m) :
    loop ops tol k (withSpecial s g) = (loop ops tol k g).map (withSpecial s) := by
  induction k generalizing g with
  | zero => rfl
  | succ k ih =>
    unfold loop
    rw [iteration_withSpecial]
    cases iteration ops tol g with
    | error e => rfl
    | ok r =>
      obtain ⟨g1, b⟩ := r
      cases b with
      | true => rfl
      | false => exact ih g1

theorem processGraph_withSpecial (s : Dict Var V) (tol : G) (k : Nat) (hn : n ≠ 1) (g : Graph F V G n m) :
    processGraph ops tol k (withSpecial s g) = (processGraph ops tol k g).map (withSpecial s) := by
  unfold processGraph
  rw [dif_neg hn, dif_neg hn]
  exact loop_withSpecial s tol (k * g.queue.length) (sortQueue { g with dists := [] })

end

theorem getMarginal_withSpecial {s : Dict Var V} {g : Graph F V G n m} {vrs : List Var}
    (h : ∀ i, ∀ v ∈ ops.vars (g.cl i).factor, Dict.get? g.special v = Dict.get? s v) :
    getMarginal ops (withSpecial s g) vrs = getMarginal ops g vrs := by
  unfold getMarginal
  change (match (List.finRange n).find? fun i => decide (∀ v ∈ vrs, v ∈ ops.vars (g.cl i).factor) with
    | none => _
    | some i => _) = _
  cases (List.finRange n).find? fun i => decide (∀ v ∈ vrs, v ∈ ops.vars (g.cl i).factor) with
  | none => rfl
  | some i =>
    change (do
      let f ← observe ops s (g.cl i).factor
      ops.marginalize f vrs) = (do
      let f ← observe ops g.special (g.cl i).factor
      ops.marginalize f vrs)
    rw [← observe_agree (h i)]

/-! ### Scopes during message passing -/

theorem makeMessage_scope (S : ScopeLaws ops) {Q : Var → Prop} {c : Cl F V} {nid : String} {msg : Msg F}
    (hc : ∀ v ∈ ops.vars c.factor, Q v) (hr : ∀ k p, Dict.get? c.received k = some p → ∀ v ∈ ops.vars p, Q v)
    (hsep : ∀ s, Dict.get? c.sepsets nid = some s → ∀ v ∈ s, Q v) (h : makeMessage ops c nid = .ok msg) :
    ∀ v ∈ ops.vars msg.factor, Q v := by
  unfold makeMessage at h
  obtain ⟨sep, h0, h⟩ := py_bind_eq_ok.1 h
  obtain ⟨f, h1, h⟩ := py_bind_eq_ok.1 h
  obtain ⟨f1, h2, h⟩ := py_bind_eq_ok.1 h
  obtain ⟨f2, h3, h⟩ := py_bind_eq_ok.1 h
  cases h
  have hs : ∀ v ∈ sep, Q v := by
    unfold Dict.getItem at h0
    split at h0
    · cases h0
      exact hsep _ ‹_›
    · cases h0
  have hf : ∀ v ∈ ops.vars f, Q v := by
    unfold specialReduced at h1
    split at h1
    · cases h1; exact hc
    · exact fun v hv => hc v (S.red _ _ _ _ h1 v hv)
  have hf1 : ∀ v ∈ ops.vars f1, Q v := fun v hv => (S.marg _ _ _ h2 v hv).elim (hf v) (hs v)
  unfold cancelReceived at h3
  split at h3
  · cases h3; exact hf1
  · rename_i p hp
    exact fun v hv => (S.cancel _ _ _ h3 v hv).elim (hf1 v) (hr _ p hp v)

/-- Message passing introduces no variables. -/
theorem run_scope [Zero G] (S : ScopeLaws ops) {Q : Var → Prop} {evVars : List Var} {g0 g : Graph F V G n m}
    {tr : List (Fin m × F)} (w : Wired ops evVars g0) (hQ : ∀ i, ∀ v ∈ scope ops g0 i, Q v) (h : Run ops g0 tr g) :
    (∀ i, ∀ v ∈ ops.vars (g.cl i).factor, Q v) ∧
      ∀ i k p, Dict.get? (g.cl i).received k = some p → ∀ v ∈ ops.vars p, Q v := by
  induction h with
  | start =>
    refine ⟨hQ, fun i k p hp => ?_⟩
    rw [w.received] at hp
    cases hp
  | @pass tr g g' q hr hp ih =>
    obtain ⟨i1, i2⟩ := ih
    have inv := hr.inv w
    have hnext : ∀ v ∈ ops.vars (g.path q).next.factor, Q v := by
      refine makeMessage_scope S (i1 _) (i2 _) (fun s hs v hv => ?_) (inv.next q)
      rw [inv.sepsets] at hs
      exact hQ _ v ((w.sepOk (g0.path q).snd (g0.path q).rcv s hs).2 v hv).1
    obtain ⟨c, hc, e1, -⟩ := pass_ok (fun i => by rw [inv.out]; exact w.outNodup i) hp
    obtain ⟨-, p, f, r2, r3, r4⟩ := receive_ok hc
    have hpv : ∀ v ∈ ops.vars p, Q v := fun v hv => (S.mul _ _ _ r2 v hv).elim (i1 _ v) (hnext v)
    have hcf : ∀ v ∈ ops.vars c.factor, Q v := by
      rw [r4]
      unfold cancelReceived at r3
      split at r3
      · cases r3; exact hpv
      · rename_i old ho
        exact fun v hv => (S.cancel _ _ _ r3 v hv).elim (hpv v) (i2 _ _ old ho v)
    have hcr : ∀ k p, Dict.get? c.received k = some p → ∀ v ∈ ops.vars p, Q v := by
      intro k p' hp'
      rw [r4] at hp'
      dsimp only at hp'
      rw [Dict.get?_set] at hp'
      split at hp'
      · cases hp'
        exact hnext
      · exact i2 _ k p' hp'
    rw [e1]
    refine ⟨fun i => ?_, fun i => ?_⟩
    · by_cases hi : i = (g.path q).rcv
      · subst hi; rw [Function.update_self]; exact hcf
      · rw [Function.update_of_ne hi]; exact i1 i
    · by_cases hi : i = (g.path q).rcv
      · subst hi; rw [Function.update_self]; exact hcr
      · rw [Function.update_of_ne hi]; exact i2 i
  | admin _ hs' ih =>
    exact ⟨fun i => by rw [hs'.1]; exact ih.1 i, fun i => by rw [hs'.1]; exact ih.2 i⟩

end Verif.CG
