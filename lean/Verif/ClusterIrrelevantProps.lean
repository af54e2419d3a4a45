import Verif.ClusterIrrelevant
import Verif.ClusterExamples
import Verif.ClusterGaussExamples
import Verif.ClusterDense

/-!
# C131: evidence about variables that no factor mentions
-/

namespace Verif.CG
open Spec (override Asg)
open Sparse (exF exG)
open Gauss (AnyG)

/-! ### No class of factors introduces variables -/

theorem ofTensor_vars {vs : List Var} {t : Tensor (XF ℝ)} {cs : Option (List Nat)} {ns : Option (List (List AName))}
    {r : Cat ℝ} (h : Cat.ofTensor vs t cs ns = .ok r) : r.vars = vs := by
  unfold Cat.ofTensor at h
  obtain ⟨_, -, h⟩ := py_bind_eq_ok.1 h
  dsimp only at h
  split at h
  · obtain ⟨_, -, h⟩ := py_bind_eq_ok.1 h
    obtain ⟨_, -, h⟩ := py_bind_eq_ok.1 h
    obtain ⟨_, -, h⟩ := py_bind_eq_ok.1 h
    cases h
    rfl
  · obtain ⟨_, -, h⟩ := py_bind_eq_ok.1 h
    obtain ⟨_, -, h⟩ := py_bind_eq_ok.1 h
    obtain ⟨_, -, h⟩ := py_bind_eq_ok.1 h
    obtain ⟨_, -, h⟩ := py_bind_eq_ok.1 h
    cases h
    rfl

theorem tensorOp_vars {a b : Tensor (XF ℝ)} {av bv : List Var} {op : XF ℝ → XF ℝ → XF ℝ}
    {r : Tensor (XF ℝ) × List Var} (h : Cat.tensorOp a b av bv op = .ok r) : ∀ v ∈ r.2, v ∈ av ∨ v ∈ bv := by
  unfold Cat.tensorOp at h
  split at h
  · obtain ⟨_, -, h⟩ := py_bind_eq_ok.1 h
    cases h
    exact fun v hv => Or.inl hv
  · dsimp only at h
    obtain ⟨_, -, h⟩ := py_bind_eq_ok.1 h
    obtain ⟨_, -, h⟩ := py_bind_eq_ok.1 h
    obtain ⟨_, -, h⟩ := py_bind_eq_ok.1 h
    obtain ⟨_, -, h⟩ := py_bind_eq_ok.1 h
    obtain ⟨_, -, h⟩ := py_bind_eq_ok.1 h
    cases h
    intro v hv
    simp only [List.mem_append, List.mem_filter] at hv
    tauto

theorem denseScope (hs : HashSeed) : ScopeLaws (denseOps hs) where
  mul := by
    intro f g r h
    change Cat.multiply f g = .ok r at h
    unfold Cat.multiply at h
    obtain ⟨_, -, h⟩ := py_bind_eq_ok.1 h
    obtain ⟨p, h1, h⟩ := py_bind_eq_ok.1 h
    obtain ⟨_, -, h⟩ := py_bind_eq_ok.1 h
    obtain ⟨_, -, h⟩ := py_bind_eq_ok.1 h
    change ∀ v ∈ r.vars, _
    rw [ofTensor_vars h]
    exact tensorOp_vars h1
  cancel := by
    intro f g r h
    change Cat.cancel f g = .ok r at h
    unfold Cat.cancel at h
    obtain ⟨_, -, h⟩ := py_bind_eq_ok.1 h
    obtain ⟨p, h1, h⟩ := py_bind_eq_ok.1 h
    obtain ⟨_, -, h⟩ := py_bind_eq_ok.1 h
    obtain ⟨_, -, h⟩ := py_bind_eq_ok.1 h
    change ∀ v ∈ r.vars, _
    rw [ofTensor_vars h]
    exact tensorOp_vars h1
  marg := by
    intro f vrs r h
    change Cat.marginalize hs f vrs true = .ok r at h
    unfold Cat.marginalize at h
    dsimp only at h
    obtain ⟨_, -, h⟩ := py_bind_eq_ok.1 h
    obtain ⟨_, -, h⟩ := py_bind_eq_ok.1 h
    obtain ⟨_, -, h⟩ := py_bind_eq_ok.1 h
    change ∀ v ∈ r.vars, _
    rw [ofTensor_vars h]
    exact fun v hv => Or.inr hv
  red := by
    intro f vrs ks r h
    change Cat.reduce f vrs _ = .ok r at h
    unfold Cat.reduce at h
    dsimp only at h
    obtain ⟨_, -, h⟩ := py_bind_eq_ok.1 h
    obtain ⟨_, -, h⟩ := py_bind_eq_ok.1 h
    change ∀ v ∈ r.vars, _
    rw [ofTensor_vars h]
    exact fun v hv => (List.mem_filter.1 hv).1

theorem sparseNew_vars {vs : List Var} {cs : List Nat} {t : Dict (List Nat) (XF ℝ)} {d : XF ℝ} {r : Sparse ℝ}
    (h : Sparse.new vs cs t d = .ok r) : r.vars = vs := by
  unfold Sparse.new at h
  split at h
  · cases h
  · split at h
    · cases h
    · cases h
      rfl

theorem applyBinary_scope {hs : HashSeed} {f g r : Sparse ℝ} {op : XF ℝ → XF ℝ → XF ℝ} {rule : Rule}
    (h : Sparse.applyBinary hs f g op rule = .ok r) : ∀ v ∈ r.vars, v ∈ f.vars ∨ v ∈ g.vars := by
  unfold Sparse.applyBinary at h
  dsimp only at h
  obtain ⟨_, -, h⟩ := py_bind_eq_ok.1 h
  obtain ⟨_, -, h⟩ := py_bind_eq_ok.1 h
  obtain ⟨_, -, h⟩ := py_bind_eq_ok.1 h
  obtain ⟨_, -, h⟩ := py_bind_eq_ok.1 h
  obtain ⟨_, -, h⟩ := py_bind_eq_ok.1 h
  obtain ⟨_, -, h⟩ := py_bind_eq_ok.1 h
  obtain ⟨_, -, h⟩ := py_bind_eq_ok.1 h
  obtain ⟨_, -, h⟩ := py_bind_eq_ok.1 h
  obtain ⟨_, -, h⟩ := py_bind_eq_ok.1 h
  rw [sparseNew_vars h]
  intro v hv
  simp only [List.mem_append, SetOrder.mem, List.mem_filter, mem_pySorted] at hv
  tauto

theorem sparseScope (hs : HashSeed) : ScopeLaws (sparseOps hs) where
  mul := fun _ _ _ h => applyBinary_scope h
  cancel := fun _ _ _ h => applyBinary_scope h
  marg := by
    intro f vrs r h
    change Sparse.marginalize hs f vrs true = .ok r at h
    unfold Sparse.marginalize at h
    dsimp only at h
    obtain ⟨_, -, h⟩ := py_bind_eq_ok.1 h
    obtain ⟨_, -, h⟩ := py_bind_eq_ok.1 h
    obtain ⟨_, -, h⟩ := py_bind_eq_ok.1 h
    obtain ⟨_, -, h⟩ := py_bind_eq_ok.1 h
    change ∀ v ∈ r.vars, _
    rw [sparseNew_vars h]
    exact fun v hv => Or.inr hv
  red := by
    intro f vrs ks r h
    change Sparse.reduce f vrs ks = .ok r at h
    unfold Sparse.reduce at h
    dsimp only at h
    obtain ⟨_, -, h⟩ := py_bind_eq_ok.1 h
    obtain ⟨_, -, h⟩ := py_bind_eq_ok.1 h
    obtain ⟨_, -, h⟩ := py_bind_eq_ok.1 h
    change ∀ v ∈ r.vars, _
    rw [sparseNew_vars h]
    exact fun v hv => (List.mem_filter.1 hv).1

theorem opVars_scope {va vb : List Var} : ∀ v ∈ Gauss.opVars va vb, v ∈ va ∨ v ∈ vb := by
  intro v hv
  unfold Gauss.opVars at hv
  split at hv
  · exact Or.inl hv
  · split at hv
    · exact Or.inr hv
    · simp only [mem_pySorted, List.mem_dedup, List.mem_append] at hv
      tauto

theorem absorbOrCancel_vars {k l : ℕ} {op : ℝ → ℝ → ℝ} {a : Gauss k} {b : Gauss l}
    {r : Gauss k × Gauss l × Gauss (Gauss.opVars a.vars b.vars).length}
    (h : Gauss.absorbOrCancel op a b = .ok r) : r.2.2.vars = Gauss.opVars a.vars b.vars := by
  unfold Gauss.absorbOrCancel at h
  obtain ⟨⟨_, _⟩, -, h⟩ := py_bind_eq_ok.1 h
  obtain ⟨⟨_, _⟩, -, h⟩ := py_bind_eq_ok.1 h
  obtain ⟨_, -, h⟩ := py_bind_eq_ok.1 h
  obtain ⟨_, -, h⟩ := py_bind_eq_ok.1 h
  obtain ⟨_, h1, h⟩ := py_bind_eq_ok.1 h
  cases h
  rw [(Gauss.mkCan_eq_ok h1).2.2]

theorem marginalizeTo_vars {hs : HashSeed} {k : ℕ} {a : Gauss k} {keep : List Var} {r : Gauss keep.length}
    (h : Gauss.marginalizeTo hs a keep = .ok r) : r.vars = keep := by
  unfold Gauss.marginalizeTo at h
  split at h
  · rw [(Gauss.mkCan_eq_ok h).2.2]
  · split at h
    · unfold Gauss.canMarginalize at h
      obtain ⟨_, -, h⟩ := py_bind_eq_ok.1 h
      obtain ⟨_, -, h⟩ := py_bind_eq_ok.1 h
      dsimp only at h
      obtain ⟨_, -, h⟩ := py_bind_eq_ok.1 h
      obtain ⟨_, -, h⟩ := py_bind_eq_ok.1 h
      rw [(Gauss.mkCan_eq_ok h).2.2]
    · split at h
      · unfold Gauss.covMarginalize at h
        obtain ⟨_, -, h⟩ := py_bind_eq_ok.1 h
        rw [(Gauss.mkCov_eq_ok h).2.2]
      · cases h

theorem gaussScope (hs : HashSeed) : ScopeLaws (gaussOps hs) where
  mul := by
    intro f g r h
    obtain ⟨p, h1, h⟩ := py_bind_eq_ok.1 h
    cases h
    change ∀ v ∈ p.2.2.vars, _
    rw [absorbOrCancel_vars h1]
    exact opVars_scope
  cancel := by
    intro f g r h
    obtain ⟨p, h1, h⟩ := py_bind_eq_ok.1 h
    cases h
    change ∀ v ∈ p.2.2.vars, _
    rw [absorbOrCancel_vars h1]
    exact opVars_scope
  marg := by
    intro f vrs r h
    obtain ⟨_, -, h⟩ := py_bind_eq_ok.1 h
    obtain ⟨p, h1, h⟩ := py_bind_eq_ok.1 h
    cases h
    change ∀ v ∈ p.vars, _
    rw [marginalizeTo_vars h1]
    exact fun v hv => Or.inr hv
  red := by
    intro f vrs ks r h
    obtain ⟨p, h1, h⟩ := py_bind_eq_ok.1 h
    cases h
    unfold Gauss.reduce at h1
    obtain ⟨_, -, h1⟩ := py_bind_eq_ok.1 h1
    obtain ⟨_, -, h1⟩ := py_bind_eq_ok.1 h1
    dsimp only at h1
    obtain ⟨_, -, h1⟩ := py_bind_eq_ok.1 h1
    obtain ⟨⟨_, _⟩, -, h1⟩ := py_bind_eq_ok.1 h1
    obtain ⟨_, -, h1⟩ := py_bind_eq_ok.1 h1
    have hun : ∀ v ∈ Gauss.unobserved f.2.vars vrs, v ∈ f.2.vars := by
      intro v hv
      simp only [Gauss.unobserved, mem_pySorted, List.mem_dedup, List.mem_filter] at hv
      exact hv.1
    dsimp only at h1
    split at h1
    · obtain ⟨_, h2, h1⟩ := py_bind_eq_ok.1 h1
      cases h1
      change ∀ v ∈ Gauss.vars _, _
      rw [(Gauss.mkCan_eq_ok h2).2.2]
      exact hun
    · obtain ⟨_, h2, h1⟩ := py_bind_eq_ok.1 h1
      cases h1
      change ∀ v ∈ Gauss.vars _, _
      rw [(Gauss.mkCan_eq_ok h2).2.2]
      exact hun

/-! ### The property -/

section
variable {F V G : Type} [LinearOrder G] [Zero G]

/-- The program of a user: build the graph, process it and ask for a marginal. -/
def answer (hs : HashSeed) (ops : Ops F V G) (factors : List F) (evidence : Option (Dict Var V))
    (special : Dict Var V) (tol : G) (maxIter : Nat) (vrs : List Var) : Py F := do
  let a ← new hs ops factors evidence special
  let g ← processGraph ops tol maxIter a.graph
  getMarginal ops g vrs

theorem answer_agree {hs : HashSeed} {ops : Ops F V G} (S : ScopeLaws ops) {factors : List F}
    {ev ev' : Option (Dict Var V)} {sp sp' : Dict Var V}
    (hev : ∀ f ∈ factors, ∀ v ∈ ops.vars f, lookup ev v = lookup ev' v)
    (hsp : ∀ f ∈ factors, ∀ v ∈ ops.vars f, Dict.get? sp v = Dict.get? sp' v)
    (hn : sp = sp' ∨ ∀ a, new hs ops factors ev sp = .ok a → a.n ≠ 1) (tol : G) (maxIter : Nat) (vrs : List Var) :
    answer hs ops factors ev' sp' tol maxIter vrs = answer hs ops factors ev sp tol maxIter vrs := by
  have h1 := new_agree (hs := hs) S hev hsp
  unfold answer
  cases h2 : new hs ops factors ev sp with
  | error e =>
    rw [h1, h2]
    rfl
  | ok a =>
    have hspec := (wired_new h2).2.1
    rw [h1, h2]
    change (do
      let g ← processGraph ops tol maxIter (withSpecial sp' a.graph)
      getMarginal ops g vrs) = (do
      let g ← processGraph ops tol maxIter a.graph
      getMarginal ops g vrs)
    rcases hn with rfl | hn
    · have : withSpecial sp a.graph = a.graph := by
        unfold withSpecial
        rw [← hspec]
      rw [this]
    · rw [processGraph_withSpecial sp' tol maxIter (hn a h2)]
      cases h3 : processGraph ops tol maxIter a.graph with
      | error e => rfl
      | ok g =>
        change getMarginal ops (withSpecial sp' g) vrs = getMarginal ops g vrs
        obtain ⟨tr, hr, -⟩ := C47_total hs ops factors ev sp a h2 g tol maxIter (hn a h2) h3
        obtain ⟨fs, h4, h5⟩ := new_factors h2
        have hQ := (run_scope S (Q := fun v => ∃ f ∈ factors, v ∈ ops.vars f) (wired_new h2).1 (fun i v hv =>
          clusterFactors_scope S h4 _ (by rw [← h5]; exact List.mem_ofFn.2 ⟨i, rfl⟩) v hv) hr).1
        refine getMarginal_withSpecial fun i v hv => ?_
        obtain ⟨f, k1, k2⟩ := hQ i v hv
        rw [(hr.inv (wired_new h2).1).special, hspec]
        exact hsp f k1 v k2

end

/-- **C131, sparse factors.** Two programs whose evidence and special evidence agree on every variable of a factor
give the same answer, or raise the same exception. The special evidence may differ on other variables only if the
graph does not consist of one cluster. -/
theorem C131_sparse_partial (hs : HashSeed) (factors : List (Sparse ℝ)) (ev ev' : Option (Dict Var Nat))
    (sp sp' : Dict Var Nat)
    (hev : ∀ f ∈ factors, ∀ v ∈ f.vars, (ev.bind fun d => Dict.get? d v) = ev'.bind fun d => Dict.get? d v)
    (hsp : ∀ f ∈ factors, ∀ v ∈ f.vars, Dict.get? sp v = Dict.get? sp' v)
    (hn : sp = sp' ∨ ∀ a, new hs (sparseOps hs) factors ev sp = .ok a → a.n ≠ 1) (tol : EReal) (maxIter : Nat)
    (vrs : List Var) : answer hs (sparseOps hs) factors ev' sp' tol maxIter vrs =
      answer hs (sparseOps hs) factors ev sp tol maxIter vrs :=
  answer_agree (sparseScope hs) hev hsp hn tol maxIter vrs

/-- **C131, dense factors.** As for sparse factors. -/
theorem C131_dense_partial (hs : HashSeed) (factors : List (Cat ℝ)) (ev ev' : Option (Dict Var Nat))
    (sp sp' : Dict Var Nat)
    (hev : ∀ f ∈ factors, ∀ v ∈ f.vars, (ev.bind fun d => Dict.get? d v) = ev'.bind fun d => Dict.get? d v)
    (hsp : ∀ f ∈ factors, ∀ v ∈ f.vars, Dict.get? sp v = Dict.get? sp' v)
    (hn : sp = sp' ∨ ∀ a, new hs (denseOps hs) factors ev sp = .ok a → a.n ≠ 1) (tol : EReal) (maxIter : Nat)
    (vrs : List Var) : answer hs (denseOps hs) factors ev' sp' tol maxIter vrs =
      answer hs (denseOps hs) factors ev sp tol maxIter vrs :=
  answer_agree (denseScope hs) hev hsp hn tol maxIter vrs

/-- **C131, Gaussian factors.** As for sparse factors. -/
theorem C131_gaussian_partial (hs : HashSeed) (factors : List AnyG) (ev ev' : Option (Dict Var ℝ))
    (sp sp' : Dict Var ℝ)
    (hev : ∀ f ∈ factors, ∀ v ∈ f.2.vars, (ev.bind fun d => Dict.get? d v) = ev'.bind fun d => Dict.get? d v)
    (hsp : ∀ f ∈ factors, ∀ v ∈ f.2.vars, Dict.get? sp v = Dict.get? sp' v)
    (hn : sp = sp' ∨ ∀ a, new hs (gaussOps hs) factors ev sp = .ok a → a.n ≠ 1) (tol : EReal) (maxIter : Nat)
    (vrs : List Var) : answer hs (gaussOps hs) factors ev' sp' tol maxIter vrs =
      answer hs (gaussOps hs) factors ev sp tol maxIter vrs :=
  answer_agree (gaussScope hs) hev hsp hn tol maxIter vrs

/-- The factor of the only cluster mentions no new variables. -/
theorem single_scope {F V G : Type} {hs : HashSeed} {ops : Ops F V G} (S : ScopeLaws ops) {factors : List F}
    {ev : Option (Dict Var V)} {sp : Dict Var V} {a : Any F V G} (h : new hs ops factors ev sp = .ok a) {v : Var}
    (hv : ∀ f ∈ factors, v ∉ ops.vars f) (i : Fin a.n) : v ∉ ops.vars (a.graph.cl i).factor := by
  intro hi
  obtain ⟨fs, h4, h5⟩ := new_factors h
  obtain ⟨f, k1, k2⟩ := clusterFactors_scope S h4 _ (by rw [← h5]; exact List.mem_ofFn.2 ⟨i, rfl⟩) v hi
  exact hv f k1 k2

theorem ne_nil_of_key {V : Type} {sp : Dict Var V} {v : Var} (h : v ∈ Dict.keys sp) : sp ≠ [] := by
  rintro rfl
  cases h

/-- **C131 fails, sparse factors.** If the graph has one cluster and the special evidence names a variable that no
factor has, no marginal is ever returned. -/
theorem C131_sparse_single_raises (hs : HashSeed) (factors : List (Sparse ℝ)) (ev : Option (Dict Var Nat))
    (sp : Dict Var Nat) (a : Any (Sparse ℝ) Nat EReal) (h : new hs (sparseOps hs) factors ev sp = .ok a)
    (hn : a.n = 1) (v : Var) (hv : ∀ f ∈ factors, v ∉ f.vars) (hsp : v ∈ Dict.keys sp) (tol : EReal) (maxIter : Nat)
    (vrs : List Var) : ∃ e, answer hs (sparseOps hs) factors ev sp tol maxIter vrs = .error e := by
  cases ha : answer hs (sparseOps hs) factors ev sp tol maxIter vrs with
  | error e => exact ⟨e, rfl⟩
  | ok r =>
    exfalso
    unfold answer at ha
    rw [h, py_bind_ok] at ha
    obtain ⟨g, hg, -⟩ := py_bind_eq_ok.1 ha
    unfold processGraph processSingle at hg
    rw [dif_pos hn] at hg
    dsimp only at hg
    rw [(wired_new h).2.1, if_neg (ne_nil_of_key hsp)] at hg
    obtain ⟨f, hf, -⟩ := py_bind_eq_ok.1 hg
    exact Sparse.reduce_unknown _ _ _ hsp (single_scope (sparseScope hs) h hv _) _ hf

/-- **C131 fails, Gaussian factors.** If the graph has one cluster and the special evidence names a variable that no
factor has, the program raises an `AssertionError`. -/
theorem C131_gaussian_single_raises (hs : HashSeed) (factors : List AnyG) (ev : Option (Dict Var ℝ))
    (sp : Dict Var ℝ) (a : Any AnyG ℝ EReal) (h : new hs (gaussOps hs) factors ev sp = .ok a)
    (hn : a.n = 1) (v : Var) (hv : ∀ f ∈ factors, v ∉ f.2.vars) (hsp : v ∈ Dict.keys sp) (tol : EReal) (maxIter : Nat)
    (vrs : List Var) : answer hs (gaussOps hs) factors ev sp tol maxIter vrs = .error .assertionError := by
  unfold answer
  rw [h, py_bind_ok]
  have hs' := single_scope (gaussScope hs) h hv ⟨0, by omega⟩
  have : processGraph (gaussOps hs) tol maxIter a.graph = .error .assertionError := by
    unfold processGraph processSingle
    rw [dif_pos hn]
    dsimp only
    rw [(wired_new h).2.1, if_neg (ne_nil_of_key hsp)]
    have hr : (gaussOps hs).reduce (a.graph.cl ⟨0, by omega⟩).factor (Dict.keys sp) (Dict.values sp) =
        .error .assertionError := by
      change (do
        let p ← Gauss.reduce _ _ _
        _) = _
      unfold Gauss.reduce
      rw [show decide (∀ w ∈ Dict.keys sp, w ∈ (a.graph.cl ⟨0, by omega⟩).factor.2.vars) = false from
        decide_eq_false fun hall => hs' (hall v hsp)]
      rfl
    rw [hr]
    rfl
  rw [this]
  rfl

/-- A graph of one factor has one cluster. -/
theorem ex_one {sp : Dict Var Nat} {a : Any (Sparse ℝ) Nat EReal}
    (h : new HashSeed.example (sparseOps HashSeed.example) [exF] none sp = .ok a) : a.n = 1 := by
  have h1 : a.n ≤ 1 := new_le h
  obtain ⟨i, -⟩ := new_covers (sparseLaws HashSeed.example exC).toLaws (fun f hf => ex_ok f (by simp_all)) h
    (f := exF) (by simp)
  have := i.2
  omega

theorem exF_new : ∃ a, new HashSeed.example (sparseOps HashSeed.example) [exF] none [] = .ok a ∧
    ∃ r, answer HashSeed.example (sparseOps HashSeed.example) [exF] none [] 0 10 ["a"] = .ok r := by
  obtain ⟨a, ha, hrun⟩ := C78_inference_never_fails HashSeed.example exC [exF] (fun f hf => ex_ok f (by simp_all)) none []
    ⟨exX, fun f hf => ex_pos [] (Or.inl rfl) f (by simp_all)⟩
  refine ⟨a, ha, ?_⟩
  have hp : processGraph (sparseOps HashSeed.example) 0 10 a.graph = .ok { a.graph with dists := [] } := by
    unfold processGraph processSingle
    rw [dif_pos (ex_one ha)]
    dsimp only
    rw [(wired_new ha).2.1, if_pos rfl]
  obtain ⟨r, hr⟩ := (hrun [] { a.graph with dists := [] } (.admin .start
    (by unfold SameCore; simp))).2.2 exF (by simp) ["a"] (by simp)
    (by simp [exF, Dict.keys])
  refine ⟨r, ?_⟩
  unfold answer
  rw [ha, py_bind_ok, hp, py_bind_ok, hr]

/-- **C131 fails.** A factor over `a` and `b` and special evidence about `z`: without the special evidence the marginal
of `a` is returned, with it an exception is raised. -/
theorem C131_violated : (∀ f ∈ [exF], "z" ∉ f.vars) ∧
    (∃ r, answer HashSeed.example (sparseOps HashSeed.example) [exF] none [] 0 10 ["a"] = .ok r) ∧
    ∃ e, answer HashSeed.example (sparseOps HashSeed.example) [exF] none [("z", 0)] 0 10 ["a"] = .error e := by
  have hz : ∀ f ∈ [exF], "z" ∉ f.vars := by simp [exF]
  obtain ⟨a, ha, hr⟩ := exF_new
  refine ⟨hz, hr, ?_⟩
  have h2 := new_agree (hs := HashSeed.example) (sparseScope HashSeed.example) (factors := [exF]) (ev := none)
    (ev' := none) (sp := []) (sp' := [("z", 0)]) (fun _ _ _ _ => rfl) (by
      intro f hf v hv
      have : v ≠ "z" := fun e => hz f hf (e ▸ hv)
      simp [Dict.get?, Ne.symm this])
  rw [ha] at h2
  exact C131_sparse_single_raises _ _ _ _ _ h2 (show a.n = 1 from ex_one ha) "z" hz (by simp [Dict.keys]) _ _ _

/-- The hypotheses of C131 are met by two factors over `a, b` and `b, c`, with evidence about `y` and special evidence
about `z`. -/
example : answer HashSeed.example (sparseOps HashSeed.example) [exF, exG] (some [("y", 1)]) [("c", 0), ("z", 5)] 0 10
    ["a"] = answer HashSeed.example (sparseOps HashSeed.example) [exF, exG] none [("c", 0)] 0 10 ["a"] := by
  refine C131_sparse_partial _ _ _ _ _ _ ?_ ?_ (Or.inr fun a ha => by rw [ex_two ha]; decide) _ _ _
  · intro f hf v hv
    have : v ≠ "y" := by
      rintro rfl
      simp only [List.mem_cons, List.not_mem_nil, or_false] at hf
      rcases hf with rfl | rfl <;> simp [exF, exG] at hv
    simp [Dict.get?, Ne.symm this]
  · intro f hf v hv
    have : v ≠ "z" := by
      rintro rfl
      simp only [List.mem_cons, List.not_mem_nil, or_false] at hf
      rcases hf with rfl | rfl <;> simp [exF, exG] at hv
    by_cases hc : v = "c"
    · simp [Dict.get?, hc]
    · simp [Dict.get?, Ne.symm this]

/-- As above, for two Gaussian factors. -/
example (hs : HashSeed) : answer hs (gaussOps hs) exFs (some [("y", 1)]) [("c", 1), ("z", 5)] 0 10
    ["a"] = answer hs (gaussOps hs) exFs none [("c", 1)] 0 10 ["a"] := by
  refine C131_gaussian_partial _ _ _ _ _ _ ?_ ?_ (Or.inr fun a ha => by rw [exFs_two ha]; decide) _ _ _
  · intro f hf v hv
    have : v ≠ "y" := by
      rintro rfl
      simp only [exFs, List.mem_cons, List.not_mem_nil, or_false] at hf
      rcases hf with rfl | rfl <;> simp [Gauss.exA, exA2] at hv
    simp [Dict.get?, Ne.symm this]
  · intro f hf v hv
    have : v ≠ "z" := by
      rintro rfl
      simp only [exFs, List.mem_cons, List.not_mem_nil, or_false] at hf
      rcases hf with rfl | rfl <;> simp [Gauss.exA, exA2] at hv
    by_cases hc : v = "c"
    · simp [Dict.get?, hc]
    · simp [Dict.get?, Ne.symm this]

/-- A graph of one Gaussian factor over `a`, `b` meets the hypotheses of `C131_gaussian_single_raises`. -/
example (hs : HashSeed) : answer hs (gaussOps hs) [⟨2, Gauss.exA⟩] none [("z", 1)] 0 10 ["a"] =
    .error .assertionError := by
  have hp : ∀ f ∈ [(⟨2, Gauss.exA⟩ : AnyG)], Proper f exD := fun f hf => exFs_proper f (by
    simp only [List.mem_cons, List.not_mem_nil, or_false] at hf
    simp [exFs, hf])
  obtain ⟨a, ha, -⟩ := C88_gaussian_never_fails hs [⟨2, Gauss.exA⟩] exD hp none [("z", 1)] (by
    intro f hf
    simp only [List.mem_cons, List.not_mem_nil, or_false] at hf
    subst hf
    exact ⟨"a", by simp [Gauss.exA], by simp [Dict.keys], by simp [Dict.keys]⟩)
  have h1 : a.n ≤ 1 := new_le ha
  obtain ⟨i, -⟩ := new_covers (gaussLaws hs).toLaws (fun f hf => ((hp f hf).ok (hs := hs)).1) ha (f := ⟨2, Gauss.exA⟩)
    (by simp)
  refine C131_gaussian_single_raises hs _ _ _ a ha (by have := i.2; omega) "z" ?_ (by simp [Dict.keys]) _ _ _
  intro f hf
  simp only [List.mem_cons, List.not_mem_nil, or_false] at hf
  subst hf
  simp [Gauss.exA]

end Verif.CG
