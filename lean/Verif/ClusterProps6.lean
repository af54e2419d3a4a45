import Verif.ClusterProps5
import Verif.ClusterTotal
import Verif.ClusterAgain
import Verif.SparseProps

/-!
# Inference never fails on possible evidence (C78), processing again (C54), graphs with one cluster (C52)
-/

namespace Verif

/-- Observing a variable the factor does not have never succeeds. -/
theorem Sparse.reduce_unknown {K : Type} (f : Sparse K) (vrs : List Var) (values : List Nat) {v : Var}
    (hv : v ∈ vrs) (hf : v ∉ f.vars) (r : Sparse K) : Sparse.reduce f vrs values ≠ .ok r := by
  intro h
  unfold Sparse.reduce at h
  dsimp only at h
  obtain ⟨nd, _, h⟩ := py_bind_eq_ok.1 h
  obtain ⟨lp, _, h⟩ := py_bind_eq_ok.1 h
  obtain ⟨vc, hvc, _⟩ := py_bind_eq_ok.1 h
  have key : ∀ (l : List Var) (d d' : Dict Var Nat), l.foldlM (fun d v => Dict.del d v) d = (.ok d' : Py _) →
      ∀ u ∈ l, u ∈ Dict.keys d := by
    intro l
    induction l with
    | nil => intro d d' _ u hu; cases hu
    | cons a l ih =>
      intro d d' hd u hu
      rw [List.foldlM_cons] at hd
      obtain ⟨d1, h1, h2⟩ := py_bind_eq_ok.1 hd
      unfold Dict.del at h1
      split at h1
      · rename_i ha
        simp only [Except.ok.injEq] at h1
        rcases List.mem_cons.1 hu with rfl | hu
        · exact ha
        · have := ih d1 d' h2 u hu
          rw [← h1] at this
          unfold Dict.keys at this ⊢
          obtain ⟨e, he, rfl⟩ := List.mem_map.1 this
          exact List.mem_map.2 ⟨e, (List.mem_filter.1 he).1, rfl⟩
      · cases h1
  have := key _ _ _ hvc v hv
  unfold Sparse.varCards Dict.keys at this
  obtain ⟨e, he, rfl⟩ := List.mem_map.1 this
  exact hf (List.of_mem_zip he).1

/-- The result of `reduce` has none of the observed variables. -/
theorem Sparse.reduce_vars {K : Type} {f r : Sparse K} {vrs : List Var} {values : List Nat}
    (h : Sparse.reduce f vrs values = .ok r) : r.vars = f.vars.filter (· ∉ vrs) := by
  unfold Sparse.reduce at h
  dsimp only at h
  obtain ⟨nd, _, h⟩ := py_bind_eq_ok.1 h
  obtain ⟨lp, _, h⟩ := py_bind_eq_ok.1 h
  obtain ⟨vc, _, h⟩ := py_bind_eq_ok.1 h
  unfold Sparse.new at h
  split at h
  · cases h
  · split at h
    · cases h
    · simp only [Except.ok.injEq] at h
      rw [← h]

namespace CG
open Spec (override Asg sumOut)
open Classical

/-- The operations of sparse factors return whenever their results make sense. -/
theorem sparseTotal (hs : HashSeed) (C : Var → Nat) : Total (sparseLaws hs C).toLaws where
  mul := by
    intro f g hf hg
    obtain ⟨r, h, _⟩ := Sparse.C01_multiply_prob hs f g hf.1 hg.1 (SparseOk.consistent hf hg)
    exact ⟨r, h⟩
  cancel := by
    intro f g hf hg hsub hz
    obtain ⟨r, h, _⟩ := Sparse.C05_cancel_supported hs f g hf.1 hg.1 (SparseOk.consistent hf hg) hsub hz
    exact ⟨r, h⟩
  marg := by
    intro f vrs hf hn hv
    obtain ⟨r, h, _⟩ := SparseOk.marg (hs := hs) hf hn hv
    exact ⟨r, h⟩
  red := by
    intro f vs ks hf hn hv hl hx
    rcases Sparse.C03_reduce_restricts f hf.1 vs ks hn hv hl with ⟨h1, _⟩ | ⟨_, r, h1, _⟩
    · exfalso
      obtain ⟨x, hx⟩ := hx
      have hk := mem_keys_of_prob hf.1 hx
      refine h1 _ hk ?_
      have hzip : ∀ (vs : List Var) (ks : List Nat), vs.Nodup → ks.length = vs.length →
          vs.map (override (vs.zip ks) x) = ks := by
        intro vs
        induction vs with
        | nil => intro ks _ h; exact (List.length_eq_zero_iff.1 (by simpa using h)).symm
        | cons v vs ih =>
          intro ks hn hl
          cases ks with
          | nil => simp at hl
          | cons k ks =>
            rw [List.nodup_cons] at hn
            rw [List.zip_cons_cons, Spec.override_cons, List.map_cons, Function.update_self]
            congr 1
            refine Eq.trans (List.map_congr_left fun u hu => ?_) (ih ks hn.2 (by simpa using hl))
            exact Function.update_of_ne (fun h : u = v => hn.1 (h ▸ hu)) _ _
      refine Eq.trans (List.map_congr_left fun v hvv => ?_) (hzip vs ks hn hl)
      have e : ks.map (sparseLaws hs C).val = ks := List.map_id ks
      rw [e]
      exact asgOf_map _ (hv v hvv)
    · exact ⟨r, h1⟩
  dist := by
    intro f hf hx
    obtain ⟨h, _⟩ := Sparse.C11_distance_from_vacuous hs f hf.1 (mass_pos hf hx)
    show ∃ d, (do let d ← Sparse.distanceFromVacuous hs f; toGain d) = .ok d
    rw [h]
    exact ⟨_, rfl⟩
  kl := by
    intro f g hf hg hv hxf hxg
    have hss : Sparse.SameScope f g := ⟨hv, fun v h1 => by rw [hf.2 v h1, hg.2 v ((hv v).1 h1)]⟩
    obtain ⟨h1, h2⟩ := Sparse.C11_kl_divergence hs f g hf.1 hg.1 hss (mass_pos hf hxf) (mass_pos hg hxg)
    show ∃ d, (do let d ← Sparse.klDivergence hs f g; toGain d) = .ok d
    by_cases hsup : ∀ x : Asg, (∀ v ∈ f.vars, x v < f.card v) → g.prob x = 0 → f.prob x = 0
    · rw [(h1 hsup).1]; exact ⟨_, rfl⟩
    · push Not at hsup
      rw [h2 (by obtain ⟨x, a, b, c⟩ := hsup; exact ⟨x, a, b, c⟩)]
      exact ⟨_, rfl⟩

/-- **C78.** If some assignment consistent with all evidence has positive probability, then building a cluster
graph of sparse factors returns; and after any execution, passing any message, running `process_graph` (on a
graph with more than one cluster) and querying any unobserved variables of one input factor all return. -/
theorem C78_inference_never_fails (hs : HashSeed) (C : Var → Nat) (factors : List (Sparse ℝ))
    (hok : ∀ f ∈ factors, Sparse.Regular f ∧ ∀ v ∈ f.vars, f.card v = C v)
    (evidence : Option (Dict Var Nat)) (special : Dict Var Nat)
    (hpos : ∃ x : Asg, ∀ f ∈ factors, f.prob (override (evidence.getD []) (override special x)) ≠ 0) :
    ∃ a, new hs (sparseOps hs) factors evidence special = .ok a ∧
      ∀ tr g, Run (sparseOps hs) a.graph tr g →
        (∀ q, ∃ g', pass (sparseOps hs) g q = .ok g') ∧
        (a.n ≠ 1 → ∀ tol maxIter, ∃ g', processGraph (sparseOps hs) tol maxIter g = .ok g') ∧
        ∀ f ∈ factors, ∀ vrs : List Var, vrs.Nodup → (∀ v ∈ vrs, v ∈ f.vars ∧
          v ∉ Dict.keys (evidence.getD []) ∧ v ∉ Dict.keys special) →
          ∃ r, getMarginal (sparseOps hs) g vrs = .ok r := by
  set L := sparseLaws hs C with hL
  have T := sparseTotal hs C
  obtain ⟨x, hx⟩ := hpos
  have hx' : ∀ f ∈ factors, L.den f (given L.toLaws evidence (override (evPairs L.toLaws special) x)) ≠ 0 := by
    intro f hf
    have := hx f hf
    unfold given evPairs
    simp only [hL, sparseLaws, id_eq, Prod.mk.eta, List.map_id']
    exact this
  obtain ⟨a, ha⟩ := T.new hs hok evidence special hx'
  obtain ⟨w, hsp, _⟩ := wired_new ha
  have hx0 := new_pos L.toLaws hok ha hx'
  have hok0 := new_ok L.toLaws hok ha
  refine ⟨a, ha, fun tr g hr => ⟨fun q => T.step w hok0 hr hx0 q, fun hn tol k => T.process w hok0 hx0 hn tol k hr, ?_⟩⟩
  intro f hf vrs hn hv
  obtain ⟨i, hi⟩ := new_covers L.toLaws hok ha hf
  refine T.getMarginal w hok0 hr hx0 hn ⟨i, fun v hvv => hi v (hv v hvv).1 (hv v hvv).2.1⟩ fun v hvv => ?_
  rw [hsp]
  exact (hv v hvv).2.2

/-- **C54**, the provable part. On a graph with more than one cluster, and evidence that is possible, running
`process_graph` again after any execution returns; if all information gains were zero, every cluster's belief
is afterwards a positive multiple of what it was. Missing: graphs with one cluster and special evidence, where
the claim is false (`C54_single_cluster_violation`). -/
theorem C54_process_again_partial (hs : HashSeed) (C : Var → Nat) (factors : List (Sparse ℝ))
    (hok : ∀ f ∈ factors, Sparse.Regular f ∧ ∀ v ∈ f.vars, f.card v = C v)
    (evidence : Option (Dict Var Nat)) (special : Dict Var Nat)
    (hpos : ∃ x : Asg, ∀ f ∈ factors, f.prob (override (evidence.getD []) (override special x)) ≠ 0)
    (a : Any (Sparse ℝ) Nat EReal) (h : new hs (sparseOps hs) factors evidence special = .ok a) (hn : a.n ≠ 1)
    (tr : List (Fin a.m × Sparse ℝ)) (g : Graph (Sparse ℝ) Nat EReal a.n a.m)
    (hr : Run (sparseOps hs) a.graph tr g) (tol : EReal) (maxIter : Nat) :
    ∃ g', processGraph (sparseOps hs) tol maxIter g = .ok g' ∧
      ((∀ q, (g.path q).gain ≤ 0) → ∀ i, ∃ c : ℝ, 0 < c ∧
        ∀ x, (g'.cl i).factor.prob x = c * (g.cl i).factor.prob x) := by
  set L := sparseLaws hs C with hL
  obtain ⟨a', ha', hall⟩ := C78_inference_never_fails hs C factors hok evidence special hpos
  rw [h] at ha'
  cases ha'
  obtain ⟨g', hg'⟩ := (hall tr g hr).2.1 hn tol maxIter
  refine ⟨g', hg', fun hgain i => ?_⟩
  obtain ⟨w, _⟩ := wired_new h
  obtain ⟨x, hx⟩ := hpos
  have hx' : ∀ f ∈ factors, L.den f (given L.toLaws evidence (override (evPairs L.toLaws special) x)) ≠ 0 := by
    intro f hf
    have := hx f hf
    unfold given evPairs
    simp only [hL, sparseLaws, id_eq, Prod.mk.eta, List.map_id']
    exact this
  have hok0 := new_ok L.toLaws hok h
  have hc := converged_of_gains w (hr.inv w) (hr.bel w hok0) hgain (new_pos L.toLaws hok h hx')
  obtain ⟨tr', hgr, _⟩ := Greedy.process w hn hr hg'
  have := (hc.run w hok0 hr (by simpa using hgr.run .start)).2.1 i
  exact this

/-- **C54** is false for a graph with one cluster and special evidence: if the first `process_graph` returns, a
second one raises. -/
theorem C54_single_cluster_violation (hs : HashSeed) (m : Nat) (g g' : Graph (Sparse ℝ) Nat EReal 1 m)
    (hsp : g.special ≠ []) (tol tol' : EReal) (k k' : Nat)
    (h : processGraph (sparseOps hs) tol k g = .ok g') :
    ∃ e, processGraph (sparseOps hs) tol' k' g' = .error e := by
  unfold processGraph at h
  dsimp only at h
  rw [dif_pos rfl] at h
  unfold processSingle at h
  rw [if_neg hsp] at h
  obtain ⟨f, hf, h⟩ := py_bind_eq_ok.1 h
  simp only [Except.ok.injEq] at h
  have hf' : Sparse.reduce (g.cl ⟨0, by omega⟩).factor (Dict.keys g.special) (Dict.values g.special) = .ok f := hf
  have hv := Sparse.reduce_vars hf'
  obtain ⟨v, hvs⟩ : ∃ v, v ∈ Dict.keys g.special := by
    cases hg : g.special with
    | nil => exact absurd hg hsp
    | cons e l => exact ⟨e.1, by simp [Dict.keys]⟩
  have hnv : v ∉ f.vars := by rw [hv]; simp [hvs]
  unfold processGraph
  dsimp only
  rw [dif_pos rfl]
  unfold processSingle
  have hspec : g'.special = g.special := by rw [← h]
  have hcl : (g'.cl ⟨0, by omega⟩).factor = f := by rw [← h]; simp
  rw [if_neg (by rw [hspec]; exact hsp)]
  dsimp only
  rw [hspec, hcl]
  have : ∀ r, (sparseOps hs).reduce f (Dict.keys g.special) (Dict.values g.special) ≠ .ok r :=
    Sparse.reduce_unknown f _ _ hvs hnv
  cases hred : (sparseOps hs).reduce f (Dict.keys g.special) (Dict.values g.special) with
  | ok r => exact absurd hred (this r)
  | error e => exact ⟨e, rfl⟩

end CG
end Verif
