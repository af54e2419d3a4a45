import Verif.ClusterDenseRun

/-!
# Cluster graphs of dense categorical factors: construction

Where clusters share at most one unobserved variable, the two sets of operations build the same graph.
-/

namespace Verif.CG
open Spec (override Asg sumOut)
open Classical

variable {hs : HashSeed} {C : Var → Nat} {N : Var → List AName}

/-- Two scopes have at most one variable outside `obs` in common. -/
def ShareOne (obs a b : List Var) : Prop :=
  ∀ u v, u ∈ a → u ∈ b → u ∉ obs → v ∈ a → v ∈ b → v ∉ obs → u = v

theorem ShareOne.symm {obs a b : List Var} (h : ShareOne obs a b) : ShareOne obs b a :=
  fun u v h1 h2 h3 h4 h5 h6 => h u v h2 h1 h3 h5 h4 h6

/-- No message is cancelled while the graph is built. -/
theorem makeMessage_new {c : Cl (Cat ℝ) Nat} {nid : String} (hrec : c.received = [])
    (hlen : ∀ s, Dict.get? c.sepsets nid = some s → s.length ≤ 1) :
    makeMessage (denseOps hs) c nid = makeMessage (idealOps hs) c nid := by
  unfold makeMessage Dict.getItem cancelReceived
  rw [hrec]
  cases hsep : Dict.get? c.sepsets nid with
  | none => rfl
  | some s =>
    dsimp only
    rw [py_bind_ok, py_bind_ok]
    have e : ∀ f, (idealOps hs).marginalize f s = (denseOps hs).marginalize f s := fun f =>
      idealMarginalize_eq (hlen s hsep)
    have e1 : specialReduced (denseOps hs) c = specialReduced (idealOps hs) c := rfl
    rw [e1]
    simp only [e]
    rfl

variable {n : Nat}

theorem mkPath_new {cl : Fin n → Cl (Cat ℝ) Nat} {i j : Fin n} (hrec : (cl i).received = [])
    (hlen : ∀ s, Dict.get? (cl i).sepsets (cl j).id = some s → s.length ≤ 1) :
    mkPath (denseOps hs) cl i j = mkPath (idealOps hs) cl i j := by
  unfold mkPath
  rw [makeMessage_new hrec hlen]
  rfl

theorem buildEdge_new {b : Build (Cat ℝ) Nat EReal n} {i j : Fin n} {sep : List Var} (hij : i ≠ j)
    (hrec : ∀ i, (b.cl i).received = []) (hlen : sep.length ≤ 1) :
    buildEdge (denseOps hs) b i j sep = buildEdge (idealOps hs) b i j sep := by
  unfold buildEdge addNeighbour
  by_cases hp : 0 < sep.length
  · simp only [hp, decide_true, pyAssert, if_true, py_bind_ok]
    rw [Function.update_of_ne hij.symm, Function.update_self]
    dsimp only
    rw [mkPath_new (i := i) (j := j), mkPath_new (i := j) (j := i)]
    · rw [Function.update_self]; exact hrec j
    · rw [Function.update_self, Function.update_of_ne hij, Function.update_self]
      dsimp only
      rw [Dict.get?_set, if_pos rfl]
      intro s h
      simp only [Option.some.injEq] at h
      rw [← h]; exact hlen
    · rw [Function.update_of_ne hij, Function.update_self]; exact hrec i
    · rw [Function.update_self, Function.update_of_ne hij, Function.update_self]
      dsimp only
      rw [Dict.get?_set, if_pos rfl]
      intro s h
      simp only [Option.some.injEq] at h
      rw [← h]; exact hlen
  · simp only [hp, decide_false, pyAssert]
    rfl

theorem foldlM_congr {α β : Type} {f g : β → α → Py β} {L : List α} (P : β → Prop)
    (h : ∀ b a, a ∈ L → P b → f b a = g b a) (hP : ∀ b a b', a ∈ L → P b → f b a = .ok b' → P b') {b : β} (hb : P b) :
    L.foldlM f b = L.foldlM g b := by
  induction L generalizing b with
  | nil => rfl
  | cons a L ih =>
    rw [List.foldlM_cons, List.foldlM_cons, ← h b a (by simp) hb]
    cases hfa : f b a with
    | error e => rfl
    | ok b1 =>
      rw [py_bind_ok, py_bind_ok]
      exact ih (fun b a ha => h b a (by simp [ha])) (fun b a b' ha => hP b a b' (by simp [ha])) (hP b a b1 (by simp) hb hfa)

theorem buildEdge_received {ops : Ops (Cat ℝ) Nat EReal} {b b' : Build (Cat ℝ) Nat EReal n} {i j : Fin n}
    {sep : List Var} (h : buildEdge ops b i j sep = .ok b') (hrec : ∀ i, (b.cl i).received = []) :
    ∀ i, (b'.cl i).received = [] := by
  unfold buildEdge addNeighbour at h
  obtain ⟨_, _, h⟩ := py_bind_eq_ok.1 h
  obtain ⟨ci, h1, h⟩ := py_bind_eq_ok.1 h
  obtain ⟨cj, h2, h⟩ := py_bind_eq_ok.1 h
  obtain ⟨_, _, h⟩ := py_bind_eq_ok.1 h
  obtain ⟨_, _, h⟩ := py_bind_eq_ok.1 h
  obtain ⟨_, _, h1⟩ := py_bind_eq_ok.1 h1
  obtain ⟨_, _, h2⟩ := py_bind_eq_ok.1 h2
  simp only [Except.ok.injEq] at h h1 h2
  subst h h1
  have hu : ∀ k, (Function.update b.cl i { b.cl i with sepsets := Dict.set (b.cl i).sepsets (b.cl j).id sep } k).received
      = [] := by
    intro k
    by_cases hk : k = i
    · subst hk; rw [Function.update_self]; exact hrec k
    · rw [Function.update_of_ne hk]; exact hrec k
  subst h2
  intro k
  dsimp only
  by_cases hk : k = j
  · subst hk; rw [Function.update_self]; exact hu k
  · rw [Function.update_of_ne hk]; exact hu k

theorem buildGraph_new {cl : Fin n → Cl (Cat ℝ) Nat} {evVars : List Var} (hrec : ∀ i, (cl i).received = [])
    (hshare : ∀ i j, i ≠ j → ShareOne evVars (cl i).factor.vars (cl j).factor.vars) :
    buildGraph hs (denseOps hs) cl evVars = buildGraph hs (idealOps hs) cl evVars := by
  have e : buildLoop hs (denseOps hs) cl evVars = buildLoop hs (idealOps hs) cl evVars := by
    unfold buildLoop
    refine foldlM_congr (fun b => ∀ i, (b.cl i).received = []) ?_ ?_ hrec
    · intro b e he hb
      show (match Dict.get? (ripSepsets hs (fun i => (cl i).factor.vars) evVars) e with
        | some sep => buildEdge (denseOps hs) b e.1 e.2 sep
        | none => .ok b) = match Dict.get? (ripSepsets hs (fun i => (cl i).factor.vars) evVars) e with
        | some sep => buildEdge (idealOps hs) b e.1 e.2 sep
        | none => .ok b
      have hne := (mem_pairs.1 he).ne
      cases hg : Dict.get? (ripSepsets hs (fun i => (cl i).factor.vars) evVars) e with
      | none => rfl
      | some s =>
        obtain ⟨_, s2, s3⟩ := ripSepsets_ok hg
        refine buildEdge_new hne hb ?_
        match s, s2, s3 with
        | [], _, _ => simp
        | [_], _, _ => simp
        | u :: v :: t, s2, s3 =>
          exfalso
          have hu := s3 u (by simp)
          have hv := s3 v (by simp)
          have := hshare e.1 e.2 hne u v hu.1 hu.2.1 hu.2.2 hv.1 hv.2.1 hv.2.2
          subst this
          simp at s2
    · intro b e b' he hb h
      split at h
      · exact buildEdge_received h hb
      · simp only [Except.ok.injEq] at h
        rw [← h]; exact hb
  unfold buildGraph
  rw [e]

theorem clusterFactors_same (factors : List (Cat ℝ)) (evidence : Option (Dict Var Nat)) :
    clusterFactors (denseOps hs) factors evidence = clusterFactors (idealOps hs) factors evidence := rfl

theorem mkClusters_same (special : Dict Var Nat) (fs : List (Cat ℝ)) :
    mkClusters (denseOps hs) special fs = mkClusters (idealOps hs) special fs := rfl

/-! ### Scopes of the clusters -/

theorem pairwise_forall₂ {α β : Type} {R : α → α → Prop} {S : β → β → Prop} {T : α → β → Prop}
    (h : ∀ a a' b b', T a b → T a' b' → R a a' → S b b') {l : List α} {l' : List β} (hf : List.Forall₂ T l l')
    (hp : l.Pairwise R) : l'.Pairwise S := by
  induction hf with
  | nil => exact List.Pairwise.nil
  | @cons a b l l' hab hll ih =>
    rw [List.pairwise_cons] at hp ⊢
    refine ⟨fun b' hb' => ?_, ih hp.2⟩
    obtain ⟨i, hi, rfl⟩ := List.getElem_of_mem hb'
    have := (List.forall₂_iff_get.1 hll)
    have hi' : i < l.length := by rw [this.1]; exact hi
    exact h _ _ _ _ hab (this.2 i hi' hi) (hp.1 _ (List.getElem_mem hi'))

/-- Absorbing factors keeps pairs of scopes apart. -/
theorem absorb_share {F V G D : Type} {ops : Ops F V G} (L : Laws ops D) {fs rs : List F} (hok : ∀ f ∈ fs, L.Ok f)
    {obs : List Var} (hp : fs.Pairwise fun f g => ShareOne obs (ops.vars f) (ops.vars g)) (h : absorb ops fs = .ok rs) :
    rs.Pairwise fun f g => ShareOne obs (ops.vars f) (ops.vars g) := by
  obtain ⟨groups, h1, h2⟩ := C43_absorb_partitions ops fs rs h
  have hz : fs.zipIdx.Pairwise fun a b => ShareOne obs (ops.vars a.1) (ops.vars b.1) := by
    have : (fs.zipIdx.map Prod.fst).Pairwise fun f g => ShareOne obs (ops.vars f) (ops.vars g) := by
      rw [List.zipIdx_map_fst]; exact hp
    rw [List.pairwise_map] at this
    exact this
  have hfl : groups.flatten.Pairwise fun a b => ShareOne obs (ops.vars a.1) (ops.vars b.1) :=
    (h1.pairwise_iff (fun {_ _} h => ShareOne.symm h)).2 hz
  have hgr := (List.pairwise_flatten.1 hfl).2
  have hmem : ∀ grp ∈ groups, ∀ a ∈ grp, L.Ok a.1 := by
    intro grp hg a ha
    have : a ∈ fs.zipIdx := h1.mem_iff.1 (List.mem_flatten.2 ⟨grp, hg, ha⟩)
    exact hok _ (List.fst_mem_of_mem_zipIdx this)
  have h2' : List.Forall₂ (fun grp f => ∃ e ∈ grp, ∀ v, v ∈ ops.vars f ↔ v ∈ ops.vars e.1) groups rs := by
    clear h h1 hz hfl hgr
    induction h2 with
    | nil => exact .nil
    | @cons grp f gs rs hgf _ ih =>
      refine .cons ?_ (ih fun grp hg => hmem grp (by simp [hg]))
      obtain ⟨e, t, rfl, ha⟩ := hgf
      refine ⟨e, by simp, ?_⟩
      have hm := hmem (e :: t) (by simp)
      refine (L.absorbs (hm e (by simp)) (fun g hg => ?_) ha)
      obtain ⟨a, ha, rfl⟩ := List.mem_map.1 hg
      exact hm a (by simp [ha])
  refine pairwise_forall₂ (fun a a' b b' hab hab' hR => ?_) h2' hgr
  obtain ⟨e, he, hv⟩ := hab
  obtain ⟨e', he', hv'⟩ := hab'
  intro u v u1 u2 u3 v1 v2 v3
  exact hR e he e' he' u v ((hv u).1 u1) ((hv' u).1 u2) u3 ((hv v).1 v1) ((hv' v).1 v2) v3

/-- If any two input factors have at most one unobserved variable in common, so have any two clusters. -/
theorem clusterFactors_share {F V G D : Type} {ops : Ops F V G} (L : Laws ops D) {fs rs : List F}
    (hok : ∀ f ∈ fs, L.Ok f) {evidence : Option (Dict Var V)} {obs : List Var}
    (hp : fs.Pairwise fun f g => ShareOne obs (ops.vars f) (ops.vars g))
    (h : clusterFactors ops fs evidence = .ok rs) :
    rs.Pairwise fun f g => ShareOne obs (ops.vars f) (ops.vars g) := by
  unfold clusterFactors at h
  obtain ⟨es, h1, h2⟩ := py_bind_eq_ok.1 h
  have key : List.Forall₂ (fun f f' => L.Ok f' ∧ (∀ v ∈ ops.vars f', v ∈ ops.vars f)) fs es := by
    cases evidence with
    | some ev => exact (L.evidenceReduce hok ev h1).imp fun f f' hff => ⟨hff.1, fun v hv => ((hff.2.1 v).1 hv).1⟩
    | none =>
      rw [evidenceReduce_none h1, List.forall₂_same]
      exact fun f hf => ⟨hok f hf, fun v hv => hv⟩
  refine absorb_share L ?_ (pairwise_forall₂ (fun a a' b b' hab hab' hR => ?_) key hp) h2
  · clear h2 h1 h hp hok
    induction key with
    | nil => simp
    | cons hcc _ ih =>
      intro d hd
      rcases List.mem_cons.1 hd with rfl | hd
      · exact hcc.1
      · exact ih d hd
  · intro u v u1 u2 u3 v1 v2 v3
    exact hR u v (hab.2 u u1) (hab'.2 u u2) u3 (hab.2 v v1) (hab'.2 v v2) v3

/-- The constructor does the same with both sets of operations. -/
theorem new_same (hC : ∀ v, 2 ≤ C v) {factors : List (Cat ℝ)} (hok : ∀ f ∈ factors, DenseOk C N f)
    {evidence : Option (Dict Var Nat)} {special : Dict Var Nat}
    (hp : factors.Pairwise fun f g => ShareOne (evidenceVars evidence special) f.vars g.vars) :
    new hs (denseOps hs) factors evidence special = new hs (idealOps hs) factors evidence special := by
  unfold new
  rw [clusterFactors_same]
  cases hf : clusterFactors (idealOps hs) factors evidence with
  | error e => rfl
  | ok fs =>
    rw [py_bind_ok, py_bind_ok]
    have hsh := clusterFactors_share (denseLaws hs C N hC).toLaws hok (obs := evidenceVars evidence special) hp hf
    dsimp only
    show (buildGraph hs (denseOps hs) (fun i => (mkClusters (idealOps hs) special fs)[i]) (evidenceVars evidence special) >>=
        fun b => (Except.ok (ε := PyErr) (⟨(mkClusters (idealOps hs) special fs).length, b.paths.length,
          b.graph special⟩ : Any (Cat ℝ) Nat EReal))) = _
    rw [buildGraph_new]
    · exact fun i => (mem_mkClusters (List.getElem_mem _)).1
    · intro i j hij
      have hlen : (mkClusters (idealOps hs) special fs).length = fs.length := by simp [mkClusters]
      have hfac : ∀ i : Fin (mkClusters (idealOps hs) special fs).length,
          ((mkClusters (idealOps hs) special fs)[i]).factor = fs[i.1]'(by have := i.2; omega) := by
        intro i
        show ((mkClusters (idealOps hs) special fs)[i.1]).factor = _
        simp [mkClusters, mkCluster]
      rw [hfac, hfac]
      have hpw := List.pairwise_iff_getElem.1 hsh
      rcases lt_or_gt_of_ne (Fin.val_ne_of_ne hij) with h | h
      · exact hpw i j (by have := i.2; omega) (by have := j.2; omega) h
      · exact (hpw j i (by have := j.2; omega) (by have := i.2; omega) h).symm

/-- Sepsets of a graph whose inputs have at most one unobserved variable in common. -/
theorem sepset_short (hC : ∀ v, 2 ≤ C v) {factors : List (Cat ℝ)} (hok : ∀ f ∈ factors, DenseOk C N f)
    {evidence : Option (Dict Var Nat)} {special : Dict Var Nat}
    (hp : factors.Pairwise fun f g => ShareOne (evidenceVars evidence special) f.vars g.vars)
    {a : Any (Cat ℝ) Nat EReal} (h : new hs (idealOps hs) factors evidence special = .ok a) :
    ∀ i j s, sepset a.graph i j = some s → s ≠ [] ∧ s.length ≤ 1 := by
  obtain ⟨w, _, _⟩ := wired_new h
  obtain ⟨fs, h1, h2⟩ := new_factors h
  have hsh := clusterFactors_share (denseLaws hs C N hC).toLaws hok (obs := evidenceVars evidence special) hp h1
  have h46 := C46_sepsets hs (idealOps hs) factors evidence special a h
  intro i j s hs'
  refine ⟨(h46.1 i j s hs').1, ?_⟩
  have hij : i ≠ j := by
    rintro rfl
    rw [w.sepIrrefl] at hs'
    cases hs'
  obtain ⟨s2, s3⟩ := w.sepOk i j s hs'
  match s, s2, s3 with
  | [], _, _ => simp
  | [_], _, _ => simp
  | u :: v :: t, s2, s3 =>
    exfalso
    have hu := s3 u (by simp)
    have hv := s3 v (by simp)
    have hshare : ShareOne (evidenceVars evidence special) (scope (idealOps hs) a.graph i) (scope (idealOps hs) a.graph j) := by
      rw [← h2] at hsh
      have hpw := List.pairwise_iff_getElem.1 hsh
      rcases lt_or_gt_of_ne (Fin.val_ne_of_ne hij) with h | h
      · have := hpw i j (by simp) (by simp) h
        simpa [scope] using this
      · have := hpw j i (by simp) (by simp) h
        simpa [scope] using this.symm
    have := hshare u v hu.1 hu.2.1 hu.2.2 hv.1 hv.2.1 hv.2.2
    subst this
    simp at s2

end Verif.CG
