import Verif.NlgCgModel

/-!
# Non-linear Gaussians in cluster graphs: operations that refuse to lose factors

`multiply` and `divide` of a `NonLinearGaussian` ignore Gaussians that are flagged as vacuous, and a `Gaussian`
times a `NonLinearGaussian` uses a joint that may be vacuous. The operations of this file raise in the cases in
which something could be lost. They obey the laws of `ClusterLaws.lean`; executions in which nothing can be lost are
executions with these operations.
-/

namespace Verif.CG
open Gauss (AnyG)
open Classical

/-- A copy of the Gaussian is flagged as vacuous only if the Gaussian is the constant one. -/
def Unweighted (g : AnyG) : Prop := ∀ k, g.2.copy = .ok k → k.vac = true → ∀ x, gaussDen g x = 1

/-- The second factor can be multiplied into or cancelled from the first without losing anything. -/
def Fits : GN → GN → Prop
  | .inl _, .inl _ => True
  | .inr a, .inl g => Unweighted g ∧ ∀ v ∈ g.2.vars, v ∈ nlgFree a
  | _, .inr _ => False

/-- The operations that refuse to lose factors. -/
noncomputable def strictOps (hs : HashSeed) : Ops GN ℝ EReal :=
  { gnOps hs with
    multiply := fun f g => if Fits f g then gnMultiply hs f g else .error .exception
    cancel := fun f g => if Fits f g then gnCancel hs f g else .error .exception }

variable {hs : HashSeed}

theorem strict_mul {f g : GN} (h : Fits f g) : (strictOps hs).multiply f g = (gnOps hs).multiply f g := if_pos h

theorem strict_cancel {f g : GN} (h : Fits f g) : (strictOps hs).cancel f g = (gnOps hs).cancel f g := if_pos h

theorem foldlM_strict {α β : Type} {f g : β → α → Py β} {I : β → Prop} (hfg : ∀ s e, I s → f s e = g s e)
    (hI : ∀ s e s', I s → f s e = .ok s' → I s') (l : List α) {s : β} (h : I s) : l.foldlM f s = l.foldlM g s := by
  induction l generalizing s with
  | nil => rfl
  | cons e l ih =>
    rw [List.foldlM_cons, List.foldlM_cons, ← hfg s e h]
    cases hs : f s e with
    | error x => rfl
    | ok s' => exact ih (hI s e s' h hs)

/-! ### Messages -/

/-- Every message received is a Gaussian. -/
def RecGauss (c : Cl GN ℝ) : Prop := ∀ k p, Dict.get? c.received k = some p → ∃ g, p = .inl g

theorem marginalize_gauss {f r : GN} {vrs : List Var} (h : (gnOps hs).marginalize f vrs = .ok r) : ∃ g, r = .inl g := by
  cases f with
  | inl f =>
    obtain ⟨_, -, h⟩ := py_bind_eq_ok.1 (show (do let r ← (gaussOps hs).marginalize f vrs; .ok (.inl r) : Py GN) = .ok r from h)
    cases h
    exact ⟨_, rfl⟩
  | inr a =>
    obtain ⟨_, -, h⟩ := py_bind_eq_ok.1 (show (do let r ← NLG.marginalize hs a vrs true; .ok (.inl r) : Py GN) = .ok r from h)
    cases h
    exact ⟨_, rfl⟩

theorem cancel_gauss {f g : AnyG} {r : GN} (h : (gnOps hs).cancel (.inl f) (.inl g) = .ok r) : ∃ k, r = .inl k := by
  obtain ⟨_, -, h⟩ := py_bind_eq_ok.1 (show (do let r ← (gaussOps hs).cancel f g; .ok (.inl r) : Py GN) = .ok r from h)
  cases h
  exact ⟨_, rfl⟩

theorem makeMessage_strict {c : Cl GN ℝ} (hc : RecGauss c) (nid : String) :
    makeMessage (strictOps hs) c nid = makeMessage (gnOps hs) c nid := by
  unfold makeMessage
  show (do
    let sep ← Dict.getItem c.sepsets nid
    let f ← specialReduced (gnOps hs) c
    let f ← (gnOps hs).marginalize f sep
    let f ← cancelReceived (strictOps hs) c nid f
    .ok ⟨f, c.id, nid⟩ : Py (Msg GN)) = _
  cases Dict.getItem c.sepsets nid with
  | error e => rfl
  | ok sep =>
    rw [py_bind_ok, py_bind_ok]
    cases specialReduced (gnOps hs) c with
    | error e => rfl
    | ok f =>
      rw [py_bind_ok, py_bind_ok]
      cases hm : (gnOps hs).marginalize f sep with
      | error e => rfl
      | ok f' =>
        rw [py_bind_ok, py_bind_ok]
        obtain ⟨g, rfl⟩ := marginalize_gauss hm
        have : cancelReceived (strictOps hs) c nid (.inl g) = cancelReceived (gnOps hs) c nid (.inl g) := by
          unfold cancelReceived
          cases hr : Dict.get? c.received nid with
          | none => rfl
          | some p =>
            obtain ⟨k, rfl⟩ := hc nid p hr
            exact strict_cancel trivial
        rw [this]

theorem message_gauss {c : Cl GN ℝ} (hc : RecGauss c) {nid : String} {msg : Msg GN}
    (h : makeMessage (gnOps hs) c nid = .ok msg) : ∃ g, msg.factor = .inl g := by
  unfold makeMessage at h
  obtain ⟨sep, -, h⟩ := py_bind_eq_ok.1 h
  obtain ⟨f, -, h⟩ := py_bind_eq_ok.1 h
  obtain ⟨f1, h1, h⟩ := py_bind_eq_ok.1 h
  obtain ⟨f2, h2, h⟩ := py_bind_eq_ok.1 h
  cases h
  obtain ⟨g, rfl⟩ := marginalize_gauss h1
  unfold cancelReceived at h2
  cases hr : Dict.get? c.received nid with
  | none =>
    rw [hr] at h2
    cases h2
    exact ⟨_, rfl⟩
  | some p =>
    obtain ⟨k, rfl⟩ := hc nid p hr
    rw [hr] at h2
    exact cancel_gauss h2

/-! ### Construction -/

theorem mkPath_strict {n : Nat} {cl : Fin n → Cl GN ℝ} (hc : ∀ i, RecGauss (cl i)) (i j : Fin n) :
    mkPath (strictOps hs) cl i j = mkPath (gnOps hs) cl i j := by
  unfold mkPath
  rw [makeMessage_strict (hc i)]
  rfl

theorem addNeighbour_received {c c' : Cl GN ℝ} {o : String} {s : List Var} (h : addNeighbour c o s = .ok c') :
    c'.received = c.received := by
  unfold addNeighbour at h
  obtain ⟨_, -, h⟩ := py_bind_eq_ok.1 h
  cases h
  rfl

theorem buildEdge_strict {n : Nat} {b : Build GN ℝ EReal n} (hc : ∀ i, RecGauss (b.cl i)) (i j : Fin n) (sep : List Var) :
    buildEdge (strictOps hs) b i j sep = buildEdge (gnOps hs) b i j sep ∧
      ∀ b', buildEdge (gnOps hs) b i j sep = .ok b' → ∀ i, RecGauss (b'.cl i) := by
  have upd : ∀ {cl : Fin n → Cl GN ℝ} {i : Fin n} {c : Cl GN ℝ}, (∀ i, RecGauss (cl i)) → c.received = (cl i).received →
      ∀ k, RecGauss (Function.update cl i c k) := by
    intro cl i c h1 h2 k
    by_cases hk : k = i
    · subst hk
      rw [Function.update_self]
      intro k' p hp
      rw [h2] at hp
      exact h1 _ k' p hp
    · rw [Function.update_of_ne hk]
      exact h1 k
  constructor
  · unfold buildEdge
    cases pyAssert (decide (0 < sep.length)) with
    | error e => rfl
    | ok _ =>
      rw [py_bind_ok, py_bind_ok]
      cases h1 : addNeighbour (b.cl i) (b.cl j).id sep with
      | error e => rfl
      | ok ci =>
        rw [py_bind_ok, py_bind_ok]
        dsimp only
        have hc1 := upd hc (addNeighbour_received h1)
        cases h2 : addNeighbour (Function.update b.cl i ci j) (Function.update b.cl i ci i).id sep with
        | error e => rfl
        | ok cj =>
          rw [py_bind_ok, py_bind_ok]
          have hc2 := upd hc1 (addNeighbour_received h2)
          rw [mkPath_strict hc2, mkPath_strict hc2]
  · intro b' h
    unfold buildEdge at h
    obtain ⟨_, -, h⟩ := py_bind_eq_ok.1 h
    obtain ⟨ci, h1, h⟩ := py_bind_eq_ok.1 h
    dsimp only at h
    obtain ⟨cj, h2, h⟩ := py_bind_eq_ok.1 h
    obtain ⟨_, -, h⟩ := py_bind_eq_ok.1 h
    obtain ⟨_, -, h⟩ := py_bind_eq_ok.1 h
    cases h
    exact upd (upd hc (addNeighbour_received h1)) (addNeighbour_received h2)

theorem buildLoop_strict {n : Nat} {cl : Fin n → Cl GN ℝ} (hc : ∀ i, RecGauss (cl i)) (ev : List Var) :
    buildLoop hs (strictOps hs) cl ev = buildLoop hs (gnOps hs) cl ev := by
  unfold buildLoop
  refine foldlM_strict (I := fun b : Build GN ℝ EReal n => ∀ i, RecGauss (b.cl i)) ?_ ?_ _ (fun i => hc i)
  · intro b e hb
    split
    · rename_i sep h1
      rw [show Dict.get? (ripSepsets hs (fun i => (gnOps hs).vars (cl i).factor) ev) e = some sep from h1]
      exact (buildEdge_strict hb _ _ _).1
    · rename_i h1
      rw [show Dict.get? (ripSepsets hs (fun i => (gnOps hs).vars (cl i).factor) ev) e = none from h1]
  · intro b e b' hb h
    split at h
    · rename_i sep _
      rw [(buildEdge_strict hb _ _ _).1] at h
      exact (buildEdge_strict hb _ _ _).2 _ h
    · cases h
      exact hb

theorem buildGraph_strict {n : Nat} {cl : Fin n → Cl GN ℝ} (hc : ∀ i, RecGauss (cl i)) (ev : List Var) :
    buildGraph hs (strictOps hs) cl ev = buildGraph hs (gnOps hs) cl ev := by
  unfold buildGraph
  rw [buildLoop_strict hc]

/-- The scopes of the products of `_absorb_subset_factors`. -/
theorem gauss_mul_vars {f g r : AnyG} (h : (gaussOps hs).multiply f g = .ok r) (hsub : ∀ v ∈ g.2.vars, v ∈ f.2.vars) :
    r.2.vars = f.2.vars := by
  obtain ⟨⟨f', g', r'⟩, h1, h2⟩ := py_bind_eq_ok.1
    (show (do let (_, _, r) ← f.2.multiply g.2; .ok ⟨_, r⟩ : Py AnyG) = .ok r from h)
  cases h2
  unfold Gauss.multiply Gauss.absorbOrCancel at h1
  obtain ⟨_, -, h1⟩ := py_bind_eq_ok.1 h1
  obtain ⟨_, -, h1⟩ := py_bind_eq_ok.1 h1
  obtain ⟨_, -, h1⟩ := py_bind_eq_ok.1 h1
  obtain ⟨_, -, h1⟩ := py_bind_eq_ok.1 h1
  obtain ⟨k, hk, h1⟩ := py_bind_eq_ok.1 h1
  obtain ⟨-, -, rfl⟩ := Gauss.mkCan_eq_ok hk
  cases h1
  show Gauss.opVars f.2.vars g.2.vars = f.2.vars
  unfold Gauss.opVars
  rw [if_pos hsub]

/-- No non-linear Gaussian has a scope strictly inside that of a Gaussian. -/
def NoneInside (factors : List GN) : Prop :=
  ∀ f a, Sum.inl f ∈ factors → Sum.inr a ∈ factors → ¬ ((∀ v ∈ nlgFree a, v ∈ f.2.vars) ∧ ∃ v ∈ f.2.vars, v ∉ nlgFree a)

/-- The Gaussians among the factors are flagged as vacuous only if they are the constant one. -/
def AllUnweighted (factors : List GN) : Prop := ∀ g, Sum.inl g ∈ factors → Unweighted g

/-- The product built so far is a Gaussian with the scope of a Gaussian among the factors, or non-linear. -/
def Grown (factors : List GN) : GN → Prop
  | .inl p => ∃ f, Sum.inl f ∈ factors ∧ p.2.vars = f.2.vars
  | .inr _ => True

theorem absorb_fits {factors : List GN} (hin : NoneInside factors) (hun : AllUnweighted factors) {p e : GN}
    (hp : Grown factors p) (he : e ∈ factors) (hsub : strictSubset (gnVars e) (gnVars p) = true) :
    (gnMultiply hs p e = .error .notImplementedError ∨ Fits p e) ∧ ∀ r, gnMultiply hs p e = .ok r → Grown factors r := by
  rw [strictSubset_iff] at hsub
  cases p with
  | inl p =>
    obtain ⟨f, hf, hv⟩ := hp
    cases e with
    | inl g =>
      refine ⟨.inr trivial, fun r hr => ?_⟩
      obtain ⟨r', h1, h2⟩ := py_bind_eq_ok.1
        (show (do let r ← (gaussOps hs).multiply p g; .ok (.inl r) : Py GN) = .ok r from hr)
      cases h2
      exact ⟨f, hf, (gauss_mul_vars h1 hsub.1).trans hv⟩
    | inr a => exact absurd ⟨fun v h => hv ▸ hsub.1 v h, hv ▸ hsub.2⟩ (hin f a hf he)
  | inr a =>
    cases e with
    | inl g =>
      refine ⟨.inr ⟨hun g he, hsub.1⟩, fun r hr => ?_⟩
      cases r with
      | inl r =>
        obtain ⟨k, -, hr⟩ := py_bind_eq_ok.1 (show (do
          let k ← g.2.copy
          let (_, r) ← NLG.multiply a ⟨_, k⟩
          .ok (.inr r) : Py GN) = _ from hr)
        obtain ⟨⟨_, _⟩, -, hr⟩ := py_bind_eq_ok.1 hr
        cases hr
      | inr r => trivial
    | inr b => exact ⟨.inl rfl, fun r hr => by cases hr⟩

theorem absorb_strict {factors r : List GN} (hin : NoneInside factors) (hun : AllUnweighted factors)
    (h : absorb (gnOps hs) factors = .ok r) : absorb (strictOps hs) factors = .ok r := by
  have inner : ∀ (l : List (GN × Nat)), (∀ e ∈ l, e.1 ∈ factors) → ∀ (i : Nat) (s t : GN × (Nat → Bool)),
      Grown factors s.1 →
      l.foldlM (fun (s : GN × (Nat → Bool)) e =>
        if i ≠ e.2 ∧ s.2 e.2 = false ∧ strictSubset (gnVars e.1) (gnVars s.1) = true then do
          let p ← (gnOps hs).multiply s.1 e.1
          .ok (p, Function.update (Function.update s.2 e.2 true) i true)
        else .ok s) s = .ok t →
      l.foldlM (fun (s : GN × (Nat → Bool)) e =>
        if i ≠ e.2 ∧ s.2 e.2 = false ∧ strictSubset (gnVars e.1) (gnVars s.1) = true then do
          let p ← (strictOps hs).multiply s.1 e.1
          .ok (p, Function.update (Function.update s.2 e.2 true) i true)
        else .ok s) s = .ok t := by
    intro l
    induction l with
    | nil => exact fun _ i s t _ h => h
    | cons e l ih =>
      intro hl i s t hs' h
      rw [List.foldlM_cons] at h ⊢
      obtain ⟨s1, h1, h2⟩ := py_bind_eq_ok.1 h
      by_cases hc : i ≠ e.2 ∧ s.2 e.2 = false ∧ strictSubset (gnVars e.1) (gnVars s.1) = true
      · rw [if_pos hc] at h1 ⊢
        obtain ⟨p, h3, h4⟩ := py_bind_eq_ok.1 h1
        obtain ⟨k1, k2⟩ := absorb_fits hin hun (hs := hs) hs' (hl e (List.mem_cons_self ..)) hc.2.2
        have hf : Fits s.1 e.1 := by
          rcases k1 with k1 | k1
          · rw [show (gnOps hs).multiply s.1 e.1 = _ from k1] at h3
            cases h3
          · exact k1
        rw [strict_mul hf, h3, py_bind_ok]
        cases h4
        rw [py_bind_ok]
        exact ih (fun e he => hl e (List.mem_cons_of_mem _ he)) i _ t (k2 p h3) h2
      · rw [if_neg hc] at h1 ⊢
        cases h1
        rw [py_bind_ok]
        exact ih (fun e he => hl e (List.mem_cons_of_mem _ he)) i _ t hs' h2
  have hz : ∀ e ∈ factors.zipIdx, e.1 ∈ factors := fun e he => by
    obtain ⟨x, i⟩ := e
    exact List.fst_mem_of_mem_zipIdx he
  have hgrown : ∀ e ∈ factors, Grown factors e := fun e he => by
    cases e with
    | inl f => exact ⟨f, he, rfl⟩
    | inr a => trivial
  have outer : ∀ (l : List (GN × Nat)), (∀ e ∈ l, e.1 ∈ factors) → ∀ s t,
      l.foldlM (fun (s : List GN × (Nat → Bool)) e =>
        if s.2 e.2 = false then do
          let t ← absorbInner (gnOps hs) factors e.2 e.1 s.2
          .ok (if t.2 e.2 = true then s.1 ++ [t.1] else s.1, t.2)
        else .ok s) s = .ok t →
      l.foldlM (fun (s : List GN × (Nat → Bool)) e =>
        if s.2 e.2 = false then do
          let t ← absorbInner (strictOps hs) factors e.2 e.1 s.2
          .ok (if t.2 e.2 = true then s.1 ++ [t.1] else s.1, t.2)
        else .ok s) s = .ok t := by
    intro l
    induction l with
    | nil => exact fun _ s t h => h
    | cons e l ih =>
      intro hl s t h
      rw [List.foldlM_cons] at h ⊢
      obtain ⟨s1, h1, h2⟩ := py_bind_eq_ok.1 h
      by_cases hc : s.2 e.2 = false
      · rw [if_pos hc] at h1 ⊢
        obtain ⟨p, h3, h4⟩ := py_bind_eq_ok.1 h1
        rw [show absorbInner (strictOps hs) factors e.2 e.1 s.2 = .ok p from
          inner _ hz e.2 _ p (hgrown _ (hl e (List.mem_cons_self ..))) h3, py_bind_ok]
        cases h4
        rw [py_bind_ok]
        exact ih (fun e he => hl e (List.mem_cons_of_mem _ he)) _ t h2
      · rw [if_neg hc] at h1 ⊢
        cases h1
        rw [py_bind_ok]
        exact ih (fun e he => hl e (List.mem_cons_of_mem _ he)) _ t h2
  unfold absorb at h ⊢
  obtain ⟨s, h1, h⟩ := py_bind_eq_ok.1 h
  rw [outer _ hz _ _ h1, py_bind_ok]
  exact h

/-- The constructor, when nothing can be lost. -/
theorem new_strict {factors : List GN} {special : Dict Var ℝ} {a : Any GN ℝ EReal} (hin : NoneInside factors)
    (hun : AllUnweighted factors) (h : new hs (gnOps hs) factors none special = .ok a) :
    new hs (strictOps hs) factors none special = .ok a := by
  unfold new clusterFactors at h ⊢
  obtain ⟨fs, h1, h0⟩ := py_bind_eq_ok.1 h
  obtain ⟨rs, h2, h3⟩ := py_bind_eq_ok.1 h1
  obtain rfl := evidenceReduce_none h2
  rw [show evidenceReduce (strictOps hs) rs none = .ok rs from h2, py_bind_ok, absorb_strict hin hun h3, py_bind_ok]
  have key : ∀ cls : List (Cl GN ℝ), (∀ c ∈ cls, c.received = []) →
      (do
        let b ← buildGraph hs (gnOps hs) (fun i : Fin cls.length => cls[i]) (evidenceVars none special)
        Except.ok (⟨cls.length, b.paths.length, b.graph special⟩ : Any GN ℝ EReal)) = .ok a →
      (do
        let b ← buildGraph hs (strictOps hs) (fun i : Fin cls.length => cls[i]) (evidenceVars none special)
        Except.ok (⟨cls.length, b.paths.length, b.graph special⟩ : Any GN ℝ EReal)) = .ok a := by
    intro cls hcls h
    rw [buildGraph_strict]
    · exact h
    · intro i k p hp
      rw [hcls cls[i] (List.getElem_mem i.2)] at hp
      cases hp
  exact key (mkClusters (gnOps hs) special fs) (fun c hc => (mem_mkClusters hc).1) h0

/-! ### Message passing -/

theorem pass_strict {n m : Nat} {g g' : Graph GN ℝ EReal n m} {q : Fin m} (hrec : ∀ i, RecGauss (g.cl i))
    (hnext : ∃ k, (g.path q).next.factor = .inl k)
    (hfit : Fits (g.cl (g.path q).rcv).factor (g.path q).next.factor)
    (hold : ∀ r p, (gnOps hs).multiply (g.cl (g.path q).rcv).factor (g.path q).next.factor = .ok r →
      Dict.get? (g.cl (g.path q).rcv).received (g.path q).next.snd = some p → Fits r p)
    (h : pass (gnOps hs) g q = .ok g') :
    pass (strictOps hs) g q = .ok g' ∧ ∀ i, RecGauss (g'.cl i) := by
  unfold pass at h ⊢
  obtain ⟨c, hc, h⟩ := py_bind_eq_ok.1 h
  have hc' : receive (strictOps hs) (g.cl (g.path q).rcv) (g.path q).next = .ok c := by
    unfold receive at hc ⊢
    obtain ⟨_, h1, hc⟩ := py_bind_eq_ok.1 hc
    obtain ⟨f, h2, hc⟩ := py_bind_eq_ok.1 hc
    obtain ⟨f', h3, hc⟩ := py_bind_eq_ok.1 hc
    rw [h1, py_bind_ok, strict_mul hfit, h2, py_bind_ok]
    have : cancelReceived (strictOps hs) (g.cl (g.path q).rcv) (g.path q).next.snd f = .ok f' := by
      unfold cancelReceived at h3 ⊢
      cases hr : Dict.get? (g.cl (g.path q).rcv).received (g.path q).next.snd with
      | none => rw [hr] at h3; exact h3
      | some p =>
        rw [hr] at h3
        dsimp only
        rw [strict_cancel (hold f p h2 hr)]
        exact h3
    rw [this, py_bind_ok]
    exact hc
  have hrc : RecGauss c := by
    obtain ⟨-, p, f, -, -, rfl⟩ := receive_ok hc
    intro k p hp
    dsimp only at hp
    rw [Dict.get?_set] at hp
    split at hp
    · cases hp
      exact hnext
    · exact hrec _ k p hp
  have hrec' : ∀ i, RecGauss (Function.update g.cl (g.path q).rcv c i) := by
    intro i
    by_cases hi : i = (g.path q).rcv
    · subst hi
      rw [Function.update_self]
      exact hrc
    · rw [Function.update_of_ne hi]
      exact hrec i
  dsimp only at h ⊢
  rw [hc', py_bind_ok]
  have step : ∀ (l : List (Fin m)) (s : Graph GN ℝ EReal n m), s.cl = Function.update g.cl (g.path q).rcv c →
      l.foldlM (fun (h : Graph GN ℝ EReal n m) r => do
        let p ← recompute (gnOps hs) h.cl (h.path r)
        .ok { h with path := Function.update h.path r p }) s =
      l.foldlM (fun (h : Graph GN ℝ EReal n m) r => do
        let p ← recompute (strictOps hs) h.cl (h.path r)
        .ok { h with path := Function.update h.path r p }) s := by
    intro l s hs'
    refine foldlM_strict (I := fun s => s.cl = Function.update g.cl (g.path q).rcv c) (fun s r h1 => ?_)
      (fun s r s' h1 h2 => ?_) l hs'
    · have : recompute (strictOps hs) s.cl (s.path r) = recompute (gnOps hs) s.cl (s.path r) := by
        unfold recompute
        rw [makeMessage_strict (by rw [h1]; exact hrec' _)]
        rfl
      rw [this]
    · obtain ⟨_, -, h2⟩ := py_bind_eq_ok.1 h2
      cases h2
      exact h1
  have hcl : ∀ (l : List (Fin m)) (s s' : Graph GN ℝ EReal n m), l.foldlM (fun (h : Graph GN ℝ EReal n m) r => do
        let p ← recompute (gnOps hs) h.cl (h.path r)
        .ok { h with path := Function.update h.path r p }) s = .ok s' → s'.cl = s.cl := by
    intro l
    induction l with
    | nil => intro s s' h; cases h; rfl
    | cons r l ih =>
      intro s s' h
      rw [List.foldlM_cons] at h
      obtain ⟨s1, h1, h2⟩ := py_bind_eq_ok.1 h
      obtain ⟨_, -, h1⟩ := py_bind_eq_ok.1 h1
      cases h1
      have := ih _ _ h2
      exact this
  refine ⟨(step _ _ rfl).symm.trans h, fun i => ?_⟩
  rw [hcl _ _ _ h]
  exact hrec' i

/-- Message passing in which only unweighted Gaussians are flagged as vacuous. -/
theorem run_strict (L : Laws (strictOps hs) ℝ) {n m : Nat} {evVars : List Var} {g0 g : Graph GN ℝ EReal n m}
    {tr : List (Fin m × GN)} (w : Wired (strictOps hs) evVars g0) (hok : ∀ i, L.Ok (g0.cl i).factor)
    (h : Run (gnOps hs) g0 tr g) (hun : ∀ e ∈ tr, ∀ k, e.2 = .inl k → Unweighted k) :
    Run (strictOps hs) g0 tr g ∧ ∀ i, RecGauss (g.cl i) := by
  induction h with
  | start =>
    refine ⟨.start, fun i k p hp => ?_⟩
    rw [w.received] at hp
    cases hp
  | @pass tr g g' q hr hp ih =>
    obtain ⟨hr', hrec⟩ := ih fun e he => hun e (List.mem_append_left _ he)
    have inv := hr'.inv w
    have b := hr'.bel w hok
    obtain ⟨r, hr1, hr2, hr3⟩ := w.rev q
    obtain ⟨hnok, hnv, -⟩ := b.next w inv hr1 hr2 hr3
    obtain ⟨k, hk⟩ := message_gauss (hrec _) (by
      rw [← makeMessage_strict (hrec _)]
      exact inv.next q)
    have hku : Unweighted k := hun (q, (g.path q).next.factor) (List.mem_append_right _ (List.mem_singleton.2 rfl)) k hk
    have hsep : ∀ v ∈ sepOf g0 q, v ∈ gnVars (g.cl (g.path q).rcv).factor := fun v hv => by
      rw [inv.rcv]
      exact (b.vars _ v).2 (w.sepOf_mem q hv).2.1
    have hfit : Fits (g.cl (g.path q).rcv).factor (g.path q).next.factor := by
      rw [hk]
      cases hc : (g.cl (g.path q).rcv).factor with
      | inl f => trivial
      | inr a =>
        refine ⟨hku, fun v hv => ?_⟩
        rw [hc] at hsep
        refine hsep v ((hnv v).1 ?_)
        rw [hk]
        exact hv
    have hold : ∀ r p, (gnOps hs).multiply (g.cl (g.path q).rcv).factor (g.path q).next.factor = .ok r →
        Dict.get? (g.cl (g.path q).rcv).received (g.path q).next.snd = some p → Fits r p := by
      intro f p h1 h2
      have hsnd : (g.path q).next.snd = (g0.cl (g0.path q).snd).id := by
        have := inv.next q
        unfold makeMessage at this
        obtain ⟨_, -, this⟩ := py_bind_eq_ok.1 this
        obtain ⟨_, -, this⟩ := py_bind_eq_ok.1 this
        obtain ⟨_, -, this⟩ := py_bind_eq_ok.1 this
        obtain ⟨_, -, this⟩ := py_bind_eq_ok.1 this
        injection this with this
        rw [← this]
        exact inv.id _
      obtain ⟨k', rfl⟩ := hrec _ _ _ h2
      rw [hsnd, inv.rcv, inv.received q] at h2
      have hmem : ∃ e ∈ tr, e.2 = .inl k' := by
        clear hp hr hr' ih inv b hnok hnv hk hku hfit h1 hsnd hun
        revert h2
        induction tr using List.reverseRecOn with
        | nil => intro h2; cases h2
        | append_singleton l e ih' =>
          intro h2
          rw [lastMsg_snoc] at h2
          split at h2
          · injection h2 with h2
            exact ⟨e, by simp, h2⟩
          · obtain ⟨e', he', h3⟩ := ih' h2
            exact ⟨e', List.mem_append_left _ he', h3⟩
      obtain ⟨e, he, hek⟩ := hmem
      have hv := (b.msg q _ h2).2
      cases f with
      | inl f => trivial
      | inr a =>
        refine ⟨hun e (List.mem_append_left _ he) k' hek, fun v hv' => ?_⟩
        have h3 := L.mul (b.ok _) hnok ((strict_mul hfit).trans h1)
        exact (h3.2.1 v).2 (.inl (hsep v ((hv v).1 hv')))
    obtain ⟨h1, h2⟩ := pass_strict hrec ⟨k, hk⟩ hfit hold hp
    exact ⟨.pass q hr' h1, h2⟩
  | admin _ hs' ih =>
    obtain ⟨h1, h2⟩ := ih hun
    exact ⟨.admin h1 hs', fun i => by rw [hs'.1]; exact h2 i⟩

end Verif.CG
