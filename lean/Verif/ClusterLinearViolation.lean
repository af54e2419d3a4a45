import Verif.ClusterLinearExamples
import Verif.ClusterLoopExample

/-!
# Where linear Gaussian networks fail

* A variable with two parents that are observed nowhere: its conditional distribution has to be integrated over both
  parents to make a message about the child, and the constructor raises.
* Two factors that share two variables: the divergence between two messages that are not normalisable raises.
-/

namespace Verif.CG
open Spec (override IntegrableOut integrateOut setVars)
open Gauss (AnyG Made Denotes Good canOf vacParams)
open Classical Matrix MeasureTheory

/-- The coefficients of `c - a - b`. -/
def sumU : Fin 3 → ℝ := ![1, 1, -1]

/-- The distribution of `c` given `a` and `b`, with mean `a + b` and variance one, up to a constant. -/
noncomputable def sumG : Gauss 3 := ⟨["a", "b", "c"], some ⟨vecMulVec sumU sumU, 0, 0⟩, none, vacParams (vecMulVec sumU sumU)⟩

/-- A network: `c` has the parents `a` and `b`, and `d` has the parent `c`. -/
noncomputable def sumFs : List AnyG := [⟨3, sumG⟩, ⟨2, stepG "c" "d"⟩]

theorem sum_symm : (vecMulVec sumU sumU).IsSymm := by
  ext i j
  simp [vecMulVec, mul_comm]

theorem sumG_made : Made sumG :=
  .ofCan (vars := ["a", "b", "c"]) (c := ⟨vecMulVec sumU sumU, 0, 0⟩) sum_symm (by
    rw [Gauss.mkCan_ok (by simp) rfl]
    rfl)

theorem sumG_good : Good sumG := Gauss.good_mkCan (by simp) rfl _ sum_symm

theorem sumG_den (x : Var → ℝ) : Real.log (gaussDen ⟨3, sumG⟩ x) = -(x "c" - x "a" - x "b") ^ 2 / 2 := by
  rw [gaussDen_of (f := ⟨3, sumG⟩) sumG_good.denotes, Real.log_exp]
  unfold Gauss.logOf Gauss.evalCan
  rw [Gauss.canOf_can rfl]
  have e : Gauss.vecAt sumG.vars sumG_good.len x = ![x "a", x "b", x "c"] := by
    funext i
    fin_cases i <;> rfl
  rw [e]
  simp [sumU, vecMulVec, dotProduct, mulVec, Fin.sum_univ_three]
  ring

theorem sumFs_ok (hs : HashSeed) : ∀ f ∈ sumFs, (gaussLaws hs).Ok f := by
  intro f hf
  simp only [sumFs, List.mem_cons, List.not_mem_nil, or_false] at hf
  rcases hf with rfl | rfl
  · exact ⟨sumG_made, sumG_good, by intro h; cases h⟩
  · exact ⟨stepG_made (by decide), stepG_good (by decide), by intro h; cases h⟩

theorem absorb_sum (hs : HashSeed) : absorb (gaussOps hs) sumFs = .ok sumFs := by
  have e : (gaussOps hs).vars = fun f => f.2.vars := rfl
  have h1 : sumG.vars = ["a", "b", "c"] := rfl
  have h2 : (stepG "c" "d").vars = ["c", "d"] := rfl
  simp [sumFs, absorb, absorbInner, List.zipIdx, e, h1, h2, strictSubset, pure, Except.pure, bind, Except.bind, pyAssert,
    Function.update, List.range, List.range.loop]

/-- A singular block cannot be integrated out. -/
theorem canMarginalize_rank_one {n : ℕ} (vars : List Var) (u : Fin n → ℝ) (h : Fin n → ℝ) (g : ℝ) (keep out : List Var)
    (ho : 2 ≤ out.length) (r : Gauss keep.length) :
    Gauss.canMarginalize vars ⟨vecMulVec u u, h, g⟩ keep out ≠ .ok r := by
  intro hr
  unfold Gauss.canMarginalize at hr
  obtain ⟨xx, _, hr⟩ := py_bind_eq_ok.1 hr
  obtain ⟨yy, _, hr⟩ := py_bind_eq_ok.1 hr
  dsimp only at hr
  obtain ⟨i, hi, _⟩ := py_bind_eq_ok.1 hr
  have : Nontrivial (Fin out.length) := Fin.nontrivial_iff_two_le.2 ho
  have hd : ((vecMulVec u u).submatrix yy yy).det = 0 := by
    have : (vecMulVec u u).submatrix yy yy = vecMulVec (u ∘ yy) (u ∘ yy) := rfl
    rw [this, det_vecMulVec]
  unfold npInv at hi
  rw [if_pos hd] at hi
  cases hi

/-- Making a message about `c` from the conditional distribution of `c` raises. -/
theorem sum_message (hs : HashSeed) (r : AnyG) (hr : (gaussOps hs).reduce ⟨3, sumG⟩ [] [] = .ok r) (s : AnyG) :
    (gaussOps hs).marginalize r ["c"] ≠ .ok s := by
  intro hm
  change (do let (_, r) ← sumG.reduce [] []; .ok r : Py AnyG) = .ok r at hr
  obtain ⟨⟨_, r'⟩, h1, h2⟩ := py_bind_eq_ok.1 hr
  cases h2
  unfold Gauss.reduce at h1
  obtain ⟨_, _, h1⟩ := py_bind_eq_ok.1 h1
  obtain ⟨yy, _, h1⟩ := py_bind_eq_ok.1 h1
  have hun : Gauss.unobserved sumG.vars [] = ["a", "b", "c"] := by
    show pySorted ((["a", "b", "c"] : List Var).filter (· ∉ [])).dedup = _
    have : ((["a", "b", "c"] : List Var).filter (· ∉ [])).dedup = ["a", "b", "c"] := by decide
    rw [this]
    exact List.mergeSort_of_pairwise (by simp)
  dsimp only at h1
  rw [hun] at h1
  obtain ⟨xx, hx, h1⟩ := py_bind_eq_ok.1 h1
  obtain ⟨⟨a', c⟩, hc, h1⟩ := py_bind_eq_ok.1 h1
  obtain ⟨y, _, h1⟩ := py_bind_eq_ok.1 h1
  dsimp only at h1
  rw [if_neg (by simp)] at h1
  obtain ⟨q, hq, h1⟩ := py_bind_eq_ok.1 h1
  cases h1
  have hcc : c = ⟨vecMulVec sumU sumU, 0, 0⟩ := by
    have : Gauss.getCan sumG = .ok (sumG, ⟨vecMulVec sumU sumU, 0, 0⟩) := rfl
    rw [this] at hc
    cases hc
    rfl
  subst hcc
  obtain ⟨-, -, rfl⟩ := Gauss.mkCan_eq_ok hq
  change (do let k ← Gauss.copy _; let r ← k.marginalize hs ["c"] true; .ok ⟨_, r⟩ : Py AnyG) = .ok s at hm
  obtain ⟨k, hk, hm⟩ := py_bind_eq_ok.1 hm
  obtain ⟨m, hm, _⟩ := py_bind_eq_ok.1 hm
  have hvac := copy_not_vac (i := (0 : Fin 3)) (by
    rw [Gauss.canOf_can rfl]
    show (1 : ℝ) / 100000000 < (vecMulVec sumU sumU).submatrix xx xx 0 0
    have : sumU (xx 0) * sumU (xx 0) = 1 := by
      generalize xx 0 = t
      fin_cases t <;> simp [sumU]
    simp only [submatrix_apply, vecMulVec_apply]
    rw [this]
    norm_num) hk
  unfold Gauss.copy at hk
  obtain ⟨-, -, rfl⟩ := Gauss.mkCan_eq_ok hk
  unfold Gauss.marginalize Gauss.marginalizeTo at hm
  dsimp only at hm hvac
  rw [if_neg (by rw [hvac]; simp)] at hm
  refine canMarginalize_rank_one _ (sumU ∘ xx) _ _ _ _ ?_ _ hm
  have hf : (["a", "b", "c"] : List Var).filter (· ∉ Sparse.marginalVars hs ["a", "b", "c"] ["c"] true) = ["a", "b"] := by
    show (["a", "b", "c"] : List Var).filter (· ∉ (["c"] : List Var)) = _
    decide
  rw [(hs.strs.perm _).length_eq, hf]
  decide

/-- **Violation.** The network `c = a + b + noise`, `d = c + noise`, with nothing observed: for every hash seed the
constructor of the cluster graph raises, although every factor is a conditional distribution. -/
theorem C116_two_parents_raise (hs : HashSeed) (a : Any AnyG ℝ EReal) :
    new hs (gaussOps hs) sumFs none [] ≠ .ok a := by
  intro ha
  obtain ⟨w, hsp, _⟩ := wired_new ha
  have h46 := C46_sepsets hs (gaussOps hs) sumFs none [] a ha
  have rip := rip_free (gaussLaws hs).toLaws (sumFs_ok hs) ha
  obtain ⟨fs, h1, h2⟩ := new_factors ha
  unfold clusterFactors at h1
  obtain ⟨es, h3, h4⟩ := py_bind_eq_ok.1 h1
  rw [evidenceReduce_none h3, absorb_sum] at h4
  simp only [Except.ok.injEq] at h4
  rw [← h4] at h2
  have hn : a.n = 2 := by simpa [sumFs] using congrArg List.length h2
  obtain ⟨n, m, g⟩ := a
  dsimp only at hn h2 w rip hsp h46
  subst hn
  have hf : (g.cl 0).factor = ⟨3, sumG⟩ ∧ (g.cl 1).factor = ⟨2, stepG "c" "d"⟩ := by
    simpa [sumFs, List.ofFn_succ] using h2
  obtain ⟨f0, f1⟩ := hf
  have s0 : scope (gaussOps hs) g 0 = ["a", "b", "c"] := by unfold scope; rw [f0]; rfl
  have s1 : scope (gaussOps hs) g 1 = ["c", "d"] := by unfold scope; rw [f1]; rfl
  have free : ∀ i, freeVars (gaussOps hs) g i = (scope (gaussOps hs) g i).toFinset := by
    intro i
    unfold freeVars
    rw [hsp]
    simp [Dict.keys]
  have h01 : (edgeGraph g).Adj 0 1 := by
    have := rip "c" 0 1 (by rw [free, s0]; decide) (by rw [free, s1]; decide)
    rcases Relation.ReflTransGen.cases_head this with h | ⟨k, ⟨hik, _⟩, _⟩
    · exact absurd h (by decide)
    · fin_cases k
      · exact absurd hik (edgeGraph g).irrefl
      · exact hik
  obtain ⟨s, hs'⟩ := w.edge_adj.1 h01
  obtain ⟨hne, hnd, _, _, hv, _⟩ := h46.1 0 1 s hs'
  have hsc : s = ["c"] := by
    have : ∀ v ∈ s, v = "c" := by
      intro v hvs
      obtain ⟨h5, h6, _⟩ := hv v hvs
      rw [s0] at h5
      rw [s1] at h6
      simp only [List.mem_cons, List.not_mem_nil, or_false] at h5 h6
      rcases h6 with rfl | rfl
      · rfl
      · simp at h5
    cases s with
    | nil => exact absurd rfl hne
    | cons x t =>
      cases t with
      | nil => rw [this x (by simp)]
      | cons y t =>
        have e1 := this x (by simp)
        have e2 := this y (by simp)
        subst e1
        subst e2
        simp at hnd
  subst hsc
  obtain ⟨q, hq, hq'⟩ := (w.pathSep 0 1).2 ⟨_, hs'⟩
  have hnx := w.next q
  rw [hq, hq'] at hnx
  unfold makeMessage at hnx
  obtain ⟨sp, h5, hnx⟩ := py_bind_eq_ok.1 hnx
  obtain ⟨r, h6, hnx⟩ := py_bind_eq_ok.1 hnx
  obtain ⟨t, h7, _⟩ := py_bind_eq_ok.1 hnx
  have hsp' : sp = ["c"] := by
    unfold sepset at hs'
    unfold Dict.getItem at h5
    rw [hs'] at h5
    cases h5
    rfl
  subst hsp'
  unfold specialReduced at h6
  rw [w.special, hsp, f0, s0] at h6
  have he : subsetEvidence ([] : Dict Var ℝ) ["a", "b", "c"] = [] := by
    simp [subsetEvidence, Dict.get?, Dict.ofPairs]
  rw [he] at h6
  exact sum_message hs r h6 t h7

/-- **Violation.** Two factors that share two variables exchange messages that need not be normalisable. The divergence
of such a message from any message that `equals` tells apart raises `LinAlgError`, so the message after the next one
can not be stored. -/
theorem C116_kl_raises {n : ℕ} (a b b' : Gauss n) (c : Can n) (hc : a.can = some c) (hcov : a.cov = none)
    (hv : a.vac = false) (hw : b.vac = false) (hvars : a.vars.Nodup) (hlen : a.vars.length = n)
    (hK : vacParams c.prec = false) (hd : c.prec.det = 0)
    (he : Gauss.equals (1 / 10000) (1 / 10000) a b = .ok (a, b', false)) :
    Gauss.klDivergence a b = .error .linAlgError := by
  unfold Gauss.klDivergence
  rw [dif_pos rfl, hv, hw]
  simp only [Bool.and_self, Bool.false_eq_true, if_false, Bool.or_self]
  unfold Gauss.klCore
  rw [he, py_bind_ok]
  simp only [Bool.false_eq_true, if_false]
  have hn : Gauss.normalize a = .error .linAlgError := by
    unfold Gauss.normalize Gauss.copy
    rw [hc, hcov]
    dsimp only
    rw [Gauss.mkCan_ok hvars hlen, py_bind_ok]
    unfold Gauss.updateCov Gauss.covParams npInv
    dsimp only
    rw [hK, if_pos hd]
    rfl
  rw [hn]
  rfl

/-- What the same neighbour says later, when it has learned something about `a`. -/
noncomputable def laterC : Can 2 := ⟨!![3 / 2, -1; -1, 1], 0, 0⟩

/-- The message. -/
noncomputable def laterG : Gauss 2 := ⟨["a", "b"], some laterC, none, vacParams laterC.prec⟩

theorem not_vac_of {n : ℕ} {K : Matrix (Fin n) (Fin n) ℝ} (i : Fin n) (h : 1 / 100000000 < K i i) : vacParams K = false := by
  unfold vacParams
  simp only [decide_eq_false_iff_not]
  rintro ⟨h3, -⟩
  exact absurd ((le_abs_self _).trans (h3 i i)) (not_le.2 h)

/-- Two concrete messages. -/
theorem C116_messages_raise : Gauss.klDivergence (stepG "a" "b") laterG = .error .linAlgError := by
  have h1 : vacParams stepK = false := not_vac_of 0 (by simp [stepK]; norm_num)
  have h2 : vacParams laterC.prec = false := not_vac_of 0 (by simp [laterC]; norm_num)
  refine C116_kl_raises _ _ laterG stepC rfl rfl h1 h2 (by simp [stepG]) rfl h1 (by simp [stepC, stepK]) ?_
  have hcopy : Gauss.copy laterG = .ok laterG := by
    unfold Gauss.copy laterG
    dsimp only
    rw [Gauss.mkCan_ok (by simp) rfl]
  have hss : Gauss.sameSet (stepG "a" "b").vars laterG.vars := by
    show Gauss.sameSet (["a", "b"] : List Var) ["a", "b"]
    decide
  have hM : allcloseM (1 / 10000) (1 / 10000) stepK laterC.prec = false := by
    unfold allcloseM
    simp only [decide_eq_false_iff_not]
    intro h
    have := h 0 0
    simp only [iscloseR, stepK, laterC, decide_eq_true_eq] at this
    norm_num [abs_le] at this
  have hg : iscloseR (1 / 10000) (1 / 10000) stepC.g laterC.g = true := by
    simp [iscloseR, stepC, laterC]
  have hcan : Gauss.getCan laterG = .ok (laterG, laterC) := rfl
  have hre : Gauss.reorder laterG ["a", "b"] = .ok laterG := by
    unfold Gauss.reorder
    exact if_pos rfl
  unfold Gauss.equals
  rw [if_neg (by simpa using hss)]
  have hk : Gauss.equalsCopy (stepG "a" "b").vars laterG = .ok laterG := by
    unfold Gauss.equalsCopy
    rw [hcopy, py_bind_ok, if_neg (by simp [stepG, laterG])]
  rw [hk, py_bind_ok]
  have hv : (laterG.vac && (stepG "a" "b").vac) = false := by
    show (vacParams laterC.prec && _) = false
    rw [h2]
    rfl
  rw [hv, if_neg (by simp), dif_pos rfl]
  unfold Gauss.equalsForms Gauss.canEquals
  dsimp only [stepG]
  rw [hcan, py_bind_ok]
  dsimp only
  rw [hg, if_neg (by simp), hre, py_bind_ok, hcan, py_bind_ok]
  dsimp only [stepC]
  rw [hM]
  simp [bind, Except.bind]

end Verif.CG
