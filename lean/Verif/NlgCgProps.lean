import Verif.NlgCgLaws
import Verif.ClusterInt2

/-!
# C124: cluster graphs with non-linear Gaussian factors
-/

namespace Verif.CG
open Spec (override intOut integrateOut IntegrableOut integrableOut_iff)
open Gauss (AnyG Made Denotes Good canOf)
open NLG (Covered)
open Classical
open scoped ENNReal

variable {hs : HashSeed}

theorem reduce_keeps {a r : NLG} (ha : NlgOk a) {vs : List Var} {ks : List ℝ} (h : NLG.reduce a vs ks = .ok r) :
    r.xs = a.xs ∧ NLG.condVars r.cond = NLG.condVars a.cond := by
  obtain ⟨j, u, c, e, -, sc, -⟩ := nlg_copy ha
  unfold NLG.reduce at h
  rw [e, py_bind_ok] at h
  cases h
  exact ⟨rfl, sc⟩

/-- The marginals of a factor whose joint can be computed are integrals. -/
theorem gn_intAt {f : GN} (hf : GnOk f) (hc : ∀ a, f = .inr a → Covered a)
    (hint : ∃ x, intOut (gnVars f).toFinset (fun y => .ofReal (gnDen f y)) x ≠ ⊤) : IntAt (strictLaws hs) f := by
  intro vrs r hn hv h x
  have h' : gnMarginalize hs f vrs = .ok r := h
  cases f with
  | inl f =>
    obtain ⟨r', h1, h2⟩ := py_bind_eq_ok.1
      (show (do let r ← (gaussOps hs).marginalize f vrs; .ok (.inl r) : Py GN) = .ok r from h')
    cases h2
    exact gauss_int hf hn hv h1 hint x
  | inr a =>
    obtain ⟨r', h1, h2⟩ := py_bind_eq_ok.1
      (show (do let r ← NLG.marginalize hs a vrs true; .ok (.inl r) : Py GN) = .ok r from h')
    cases h2
    exact nlg_int hf (hc a rfl) hn hv h1 hint x

/-- **C124 (graphs of Gaussians and non-linear Gaussians).** The factors are Gaussians and non-linear Gaussians with
affine transforms, `NoneInside` and `AllUnweighted`; the graph is built without `evidence`. If the edges form no cycle,
message passing has converged, no message passed was flat with a weight other than one, the belief of every
cluster can be normalised, and every cluster that holds a non-linear Gaussian knows something about each of its
conditioning variables, then `get_marginal` of unobserved variables returns a positive multiple of the integral of the product
of the factors over all other unobserved variables. -/
theorem C124_exact_partial (hs : HashSeed) (factors : List GN) (hok : ∀ f ∈ factors, GnOk f)
    (_hev : ∀ b, Sum.inr b ∈ factors → b.ev = []) (hin : NoneInside factors) (hun : AllUnweighted factors)
    (special : Dict Var ℝ) (a : Any GN ℝ EReal) (h : new hs (gnOps hs) factors none special = .ok a)
    (htree : (SimpleGraph.fromRel fun i j => ∃ s, sepset a.graph i j = some s).IsAcyclic)
    (tr : List (Fin a.m × GN)) (g : Graph GN ℝ EReal a.n a.m) (hr : Run (gnOps hs) a.graph tr g)
    (hmsg : ∀ e ∈ tr, ∀ k, e.2 = .inl k → Unweighted k)
    (hconv : ∀ q, ∃ c : ℝ, 0 < c ∧ ∀ x,
      gnDen (g.path q).next.factor x = c * ((lastMsg tr q).map fun f => gnDen f x).getD 1)
    (hnorm : ∀ i, ∃ l x, l.Nodup ∧ (∀ v, v ∈ l ↔ v ∈ scope (gnOps hs) a.graph i ∧ v ∉ Dict.keys special) ∧
      IntegrableOut l (fun y => gnDen (g.cl i).factor (override special y)) x)
    (hknown : ∀ i b, (g.cl i).factor = .inr b → ∀ v ∈ b.xs, v ∈ NLG.condVars b.cond ∨ v ∈ Dict.keys special)
    (vrs : List Var) (hn : vrs.Nodup) (hunobs : ∀ v ∈ vrs, v ∉ Dict.keys special) (r : GN)
    (hm : getMarginal (gnOps hs) g vrs = .ok r) (post : (Var → ℝ) → ℝ)
    (hpost : ∀ x, post x = (factors.map fun f => gnDen f (override special x)).prod) :
    ∃ c : ℝ, 0 < c ∧ ∀ out : List Var, out.Nodup →
      (∀ v, v ∈ out ↔ (∃ f ∈ factors, v ∈ gnVars f) ∧ v ∉ Dict.keys special ∧ v ∉ vrs) →
      ∀ x, IntegrableOut out post x ∧ gnDen r x = c * integrateOut out post x := by
  have h' := new_strict hin hun h
  obtain ⟨w, hsp, -⟩ := wired_new h'
  have hok' : ∀ f ∈ factors, (strictLaws hs).Ok f := hok
  have hr' := (run_strict (strictLaws hs).toLaws w (new_ok (strictLaws hs).toLaws hok' h') hr hmsg).1
  have b := hr'.bel w (new_ok (strictLaws hs).toLaws hok' h')
  have inv := hr'.inv w
  have hmap : special.map (fun e => (e.1, (strictLaws hs).val e.2)) = special :=
    (List.map_congr_left fun e _ => rfl).trans (List.map_id _)
  have hpost' : posteriorI (strictLaws hs) factors none special = post := by
    funext x
    unfold posteriorI
    rw [hmap, hpost]
    rfl
  obtain ⟨c, hc, hx⟩ := exact_marginals_of (strictLaws hs) hs factors hok' none special a h' htree tr g hr' hconv
    (by rw [hmap]; exact hnorm) (by
      intro i red h1 h2 h3 h4
      refine gn_intAt h1 (fun b' hb' => ?_) ?_
      · subst hb'
        have hgr : (∃ b0, (g.cl i).factor = .inr b0 ∧ b'.xs = b0.xs ∧ NLG.condVars b'.cond = NLG.condVars b0.cond) := by
          have hb0 : ∀ b0 vs ks, (g.cl i).factor = .inr b0 → gnReduce hs (.inr b0) vs ks = .ok (.inr b') →
              b'.xs = b0.xs ∧ NLG.condVars b'.cond = NLG.condVars b0.cond := by
            intro b0 vs ks hb0 he
            obtain ⟨r', k1, k2⟩ := py_bind_eq_ok.1
              (show (do let r ← NLG.reduce b0 vs ks; .ok (.inr r) : Py GN) = .ok (.inr b') from he)
            cases k2
            exact reduce_keeps (show GnOk (.inr b0) from hb0 ▸ b.ok i) k1
          have hred : ∀ vs ks, gnReduce hs (g.cl i).factor vs ks = .ok (.inr b') →
              ∃ b0, (g.cl i).factor = .inr b0 ∧ b'.xs = b0.xs ∧ NLG.condVars b'.cond = NLG.condVars b0.cond := by
            intro vs ks he
            cases hf : (g.cl i).factor with
            | inl f =>
              rw [hf] at he
              obtain ⟨r', k1, k2⟩ := py_bind_eq_ok.1
                (show (do let r ← (gaussOps hs).reduce f vs ks; .ok (.inl r) : Py GN) = .ok (.inr b') from he)
              cases k2
            | inr b0 =>
              rw [hf] at he
              exact ⟨b0, rfl, hb0 b0 vs ks hf he⟩
          rcases h4 with h4 | h4
          · unfold specialReduced at h4
            split at h4
            · injection h4 with h4
              exact ⟨b', h4, rfl, rfl⟩
            · exact hred _ _ h4
          · unfold observe at h4
            dsimp only at h4
            split at h4
            · exact hred _ _ h4
            · injection h4 with h4
              exact ⟨b', h4, rfl, rfl⟩
        obtain ⟨b0, e1, e2, e3⟩ := hgr
        intro v hv
        by_cases hve : v ∈ Dict.keys b'.ev
        · exact .inr hve
        · refine .inl ?_
          have hfree : v ∈ freeVars (strictOps hs) a.graph i := (h2 v).1 (by
            refine List.mem_filter.2 ⟨List.mem_append_left _ hv, ?_⟩
            simpa using hve)
          rw [mem_freeVars, hsp] at hfree
          rw [e3]
          exact (hknown i b0 e1 v (e2 ▸ hv)).resolve_right hfree.2
      · obtain ⟨l, x, hl, hv, hi⟩ := hnorm i
        have hset : l.toFinset = freeVars (strictOps hs) a.graph i := by
          ext v
          rw [List.mem_toFinset, hv, mem_freeVars, hsp]
          rfl
        have hset' : (gnVars red).toFinset = freeVars (strictOps hs) a.graph i := by
          ext v
          rw [List.mem_toFinset]
          exact h2 v
        refine ⟨x, ?_⟩
        have hmeas : Measurable fun y => gnDen (g.cl i).factor (override special y) := by
          have := ((strictLaws hs).meas (b.ok i)).comp (measurable_override (strictLaws hs) special)
          unfold evPairs at this
          rw [hmap] at this
          exact this
        have hi' := (integrableOut_iff hl hmeas (fun y => (gnDen_pos (b.ok i) _).le) x).1 hi
        rw [hset', show (fun y => ENNReal.ofReal (gnDen red y)) = _ from funext h3]
        rw [hset] at hi'
        unfold beliefI evPairs
        rw [hsp, hmap]
        exact hi') vrs hn hunobs r hm
  refine ⟨c, hc, fun out ho hmem x => ?_⟩
  rw [← hpost']
  refine hx out ho (fun v => ?_) x
  rw [hmem]
  unfold hiddenVars
  rw [Finset.mem_filter, List.mem_toFinset, List.mem_flatMap]
  exact ⟨fun ⟨h1, h2, h3⟩ => ⟨⟨h1, by simp [Dict.keys], h2⟩, h3⟩, fun ⟨⟨h1, _, h2⟩, h3⟩ => ⟨h1, h2, h3⟩⟩

/-! ### Graphs made from two factors, one inside the other -/

section
variable {F V G : Type} {ops : Ops F V G}

theorem strictSubset_asymm {a b : List Var} (h : strictSubset a b = true) : strictSubset b a = false := by
  unfold strictSubset at *
  simp only [Bool.and_eq_true, Bool.not_eq_true', decide_eq_true_eq, decide_eq_false_iff_not, Bool.and_eq_false_iff,
    Bool.not_eq_false'] at *
  exact .inl h.2

theorem absorb_first {f g p : F} (hs : strictSubset (ops.vars g) (ops.vars f) = true) (hm : ops.multiply f g = .ok p) :
    absorb ops [f, g] = .ok [p] := by
  simp [absorb, absorbInner, List.zipIdx, hs, hm, bind, Except.bind, pyAssert, Function.update, List.range, List.range.loop,
    pyGuard]

theorem absorb_second {f g p : F} (hs : strictSubset (ops.vars f) (ops.vars g) = true) (hm : ops.multiply g f = .ok p) :
    absorb ops [f, g] = .ok [p] := by
  have hs' := strictSubset_asymm hs
  simp [absorb, absorbInner, List.zipIdx, hs, hs', hm, bind, Except.bind, pyAssert, Function.update, List.range,
    List.range.loop, pyGuard]

/-- If one factor is left after absorption, the graph has a single cluster that holds it, and no messages. -/
theorem new_one {factors : List F} {special : Dict Var V} {f : F} {hs : HashSeed} (h : absorb ops factors = .ok [f]) :
    ∃ a : Any F V G, new hs ops factors none special = .ok a ∧ a.n = 1 ∧ a.m = 0 ∧ a.graph.special = special ∧
      ∀ i, (a.graph.cl i).factor = f := by
  have he : evidenceReduce ops factors (none : Option (Dict Var V)) = .ok factors := by
    unfold evidenceReduce
    clear h
    dsimp only
    induction factors with
    | nil => rfl
    | cons f fs ih => rw [List.mapM_cons, py_bind_ok, ih]; rfl
  unfold new clusterFactors
  rw [he, py_bind_ok, h, py_bind_ok]
  refine ⟨_, rfl, rfl, rfl, rfl, fun i => ?_⟩
  have : i = ⟨0, Nat.one_pos⟩ := Fin.ext (Nat.lt_one_iff.1 i.2)
  subst this
  rfl

end

end Verif.CG
