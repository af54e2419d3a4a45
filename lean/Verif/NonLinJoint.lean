import Verif.NonLinLemmas

/-!
# Helper lemmas for non-linear Gaussians: the joint
-/

namespace Verif.NLG
open Matrix Gauss Spec _root_.Verif.Fact _root_.Verif.Sigma

/-! ### Evidence -/

/-- The value of an observed variable. -/
noncomputable def val (ev : Dict Var ℝ) (v : Var) : ℝ := (Dict.get? ev v).getD 0

theorem override_key {ev : Dict Var ℝ} {v : Var} (h : v ∈ Dict.keys ev) (x : Var → ℝ) : override ev x v = val ev v := by
  rw [override_get?]
  obtain ⟨r, hr⟩ := Dict.get?_isSome_iff.2 h
  unfold val
  rw [hr]
  rfl

theorem override_free {ev : Dict Var ℝ} {v : Var} (h : v ∉ Dict.keys ev) (x : Var → ℝ) : override ev x v = x v := by
  rw [override_get?, Dict.get?_eq_none_iff.2 h]
  rfl

theorem mapM_val {ev : Dict Var ℝ} {obs : List Var} (h : ∀ v ∈ obs, v ∈ Dict.keys ev) :
    obs.mapM (Dict.getItem ev) = .ok (obs.map (val ev)) := by
  refine mapM_ok fun v hv => ?_
  obtain ⟨r, hr⟩ := Dict.get?_isSome_iff.2 (h v hv)
  unfold val
  rw [getItem_ok hr, hr]
  rfl

theorem override_zip_val {ev : Dict Var ℝ} {obs : List Var} (hn : obs.Nodup) (x : Var → ℝ) (v : Var) :
    override (obs.zip (obs.map (val ev))) x v = if v ∈ obs then val ev v else x v := by
  split
  · rename_i h
    obtain ⟨i, hi, rfl⟩ := List.getElem_of_mem h
    rw [override_get hn (by simp) x i hi]
    simp
  · rename_i h
    exact override_not_mem h x

theorem mem_observedIn {ev : Dict Var ℝ} {vs : List Var} {v : Var} : v ∈ observedIn ev vs ↔ v ∈ vs ∧ v ∈ Dict.keys ev := by
  unfold observedIn
  rw [List.mem_filter]
  simp [and_comm]

theorem nodup_observedIn {ev : Dict Var ℝ} (h : (Dict.keys ev).Nodup) (vs : List Var) : (observedIn ev vs).Nodup :=
  h.filter _

/-! ### The conditioning factor at the evidence -/

theorem reduce_den {g : AnyG} {i : Item} (h : Den g i) {ev : Dict Var ℝ} {obs : List Var} (hn : obs.Nodup)
    (hsub : ∀ v ∈ obs, v ∈ g.2.vars) (hk : ∀ v ∈ obs, v ∈ Dict.keys ev) (hex : ∃ v ∈ g.2.vars, v ∉ obs)
    (hall : ∀ v ∈ g.2.vars, v ∈ Dict.keys ev → v ∈ obs) :
    ∃ g' r, g.2.reduce obs (obs.map (val ev)) = .ok (g', r) ∧ Honest r ∧
      Den r (i.1.filter (· ∉ Dict.keys ev), fun x => i.2 (override ev x)) := by
  obtain ⟨g', r, hr, hv, hd, -, -⟩ := (C33_reduce_partial h.made h.den hn (vals := obs.map (val ev)) (by simp)).1 hsub hex
  refine ⟨g', r, hr, ?_, .reduce h.made hr, ?_, fun v => ?_⟩
  · unfold Gauss.reduce at hr
    obtain ⟨-, -, hr⟩ := py_bind_eq_ok.1 hr
    obtain ⟨_, -, hr⟩ := py_bind_eq_ok.1 hr
    obtain ⟨_, -, hr⟩ := py_bind_eq_ok.1 hr
    obtain ⟨_, -, hr⟩ := py_bind_eq_ok.1 hr
    obtain ⟨_, -, hr⟩ := py_bind_eq_ok.1 hr
    dsimp only at hr
    split at hr
    · obtain ⟨_, hm, hr⟩ := py_bind_eq_ok.1 hr
      obtain ⟨_, _, rfl⟩ := mkCan_eq_ok hm
      cases hr
      exact fun h => h
    · obtain ⟨_, hm, hr⟩ := py_bind_eq_ok.1 hr
      obtain ⟨_, _, rfl⟩ := mkCan_eq_ok hm
      cases hr
      exact fun h => h
  · refine hd.congr fun x => ?_
    refine den_local h fun v hv => ?_
    rw [override_zip_val hn]
    by_cases hk' : v ∈ Dict.keys ev
    · rw [if_pos (hall v hv hk'), override_key hk']
    · rw [if_neg fun hm => hk' (hk v hm), override_free hk']
  · rw [hv, List.mem_filter, h.vars v]
    have : v ∈ i.1 → (v ∉ obs ↔ v ∉ Dict.keys ev) := fun hi =>
      not_congr ⟨hk v, hall v ((h.vars v).2 hi)⟩
    simp only [decide_eq_true_eq]
    exact and_congr_right this

theorem reducedCond_den (hs : HashSeed) {g : AnyG} {C : (Var → ℝ) → ℝ} (h : Den g (g.2.vars, C)) {ev : Dict Var ℝ}
    (hex : ∃ v ∈ g.2.vars, v ∉ Dict.keys ev) :
    ∃ k, reducedCond hs ev g = .ok k ∧ Honest k ∧
      Den k (g.2.vars.filter (· ∉ Dict.keys ev), fun x => C (override ev x)) := by
  obtain ⟨k, hk, dk, hkv⟩ := copyG_den h
  have hmem : ∀ v, v ∈ hs.strs.toList ((Dict.keys ev).filter (· ∈ k.2.vars)) ↔ v ∈ Dict.keys ev ∧ v ∈ k.2.vars := by
    intro v
    rw [SetOrder.mem, List.mem_filter, decide_eq_true_eq]
  unfold reducedCond
  rw [hk]
  dsimp only [bind, Except.bind]
  obtain ⟨obs, ho⟩ : ∃ obs, obs = hs.strs.toList ((Dict.keys ev).filter (· ∈ k.2.vars)) := ⟨_, rfl⟩
  have hn : obs.Nodup := ho ▸ SetOrder.nodup _ _
  rw [← ho] at hmem ⊢
  rw [mapM_val fun v hv => ((hmem v).1 hv).1]
  dsimp only
  by_cases he : obs = []
  · rw [if_pos he]
    refine ⟨k, rfl, copyG_honest hk, dk.congr (fun v => ?_) fun x => ?_⟩
    · dsimp only
      rw [List.mem_filter, decide_eq_true_eq, iff_self_and]
      intro hv hk'
      have := (hmem v).2 ⟨hk', hkv ▸ hv⟩
      rw [he] at this
      simp at this
    · refine den_local dk fun v hv => (override_free (fun hk' => ?_) x).symm
      have := (hmem v).2 ⟨hk', hv⟩
      rw [he] at this
      simp at this
  · rw [if_neg he]
    obtain ⟨u, hu1, hu2⟩ := hex
    obtain ⟨g', r, hr, hh, hd⟩ := reduce_den dk hn (fun v hv => ((hmem v).1 hv).2) (fun v hv => ((hmem v).1 hv).1)
      ⟨u, hkv ▸ hu1, fun hm => hu2 ((hmem u).1 hm).1⟩ fun v hv hk' => (hmem v).2 ⟨hk', hv⟩
    rw [hr]
    exact ⟨r, rfl, hh, hd⟩

/-- If every variable of the conditioning factor is observed, reducing it raises. -/
theorem reducedCond_all (hs : HashSeed) {g : AnyG} {C : (Var → ℝ) → ℝ} (h : Den g (g.2.vars, C)) {ev : Dict Var ℝ}
    (hne : g.2.vars ≠ []) (hall : ∀ v ∈ g.2.vars, v ∈ Dict.keys ev) :
    reducedCond hs ev g = .error .assertionError := by
  obtain ⟨k, hk, dk, hkv⟩ := copyG_den h
  have hmem : ∀ v, v ∈ hs.strs.toList ((Dict.keys ev).filter (· ∈ k.2.vars)) ↔ v ∈ Dict.keys ev ∧ v ∈ k.2.vars := by
    intro v
    rw [SetOrder.mem, List.mem_filter, decide_eq_true_eq]
  unfold reducedCond
  rw [hk]
  dsimp only [bind, Except.bind]
  obtain ⟨obs, ho⟩ : ∃ obs, obs = hs.strs.toList ((Dict.keys ev).filter (· ∈ k.2.vars)) := ⟨_, rfl⟩
  rw [← ho] at hmem ⊢
  rw [mapM_val fun v hv => ((hmem v).1 hv).1]
  dsimp only
  have he : obs ≠ [] := by
    obtain ⟨v, hv⟩ := List.exists_mem_of_ne_nil _ hne
    intro he
    have := (hmem v).2 ⟨hall v hv, hkv ▸ hv⟩
    rw [he] at this
    simp at this
  rw [if_neg he]
  rw [C33_all_observed dk.made dk.den (vrs := obs) (vals := obs.map (val ev)) (by simp) fun v => by
    rw [hmem]
    exact ⟨fun h => h.2, fun h => ⟨hall v (hkv ▸ h), h⟩⟩]

/-! ### Points -/

theorem pts_ext {a b : Pts} (h : a.dim = b.dim) (hc : b.cols = a.cols.map fun y i => y (Fin.cast h.symm i)) : a = b := by
  obtain ⟨n, c⟩ := a
  obtain ⟨m, c'⟩ := b
  dsimp only at h
  subst h
  dsimp only [Fin.cast_eq_self] at hc
  rw [hc]
  simp

/-- The points of the unobserved variables together with the observed values, as assignments. -/
noncomputable def asgOf (ev : Dict Var ℝ) (vars : List Var) (p : Fin vars.length → ℝ) : Var → ℝ :=
  override ev (entryV p vars rfl)

theorem extended_eq {ev : Dict Var ℝ} {obs vars : List Var} (ho : ∀ v ∈ obs, v ∈ Dict.keys ev)
    (hv : ∀ v ∈ vars, v ∉ Dict.keys ev) (hn : vars.Nodup) (pts : List (Fin vars.length → ℝ)) :
    extended (obs.map (val ev)) ⟨vars.length, pts⟩ =
      ⟨(obs ++ vars).length, (pts.map (asgOf ev vars)).map fun x i => x (obs ++ vars)[i]⟩ := by
  have key : ∀ (p : Fin vars.length → ℝ) (j : Fin vars.length), asgOf ev vars p vars[j] = p j := by
    intro p j
    unfold asgOf
    exact (override_free (hv _ (List.getElem_mem _)) _).trans (entryV_get hn rfl p j)
  unfold extended
  by_cases he : obs.map (val ev) = []
  · have : obs = [] := by simpa using he
    subst this
    rw [if_pos he]
    refine pts_ext rfl ?_
    dsimp only
    rw [List.map_map]
    refine List.map_congr_left fun p _ => ?_
    funext i
    exact key p i
  · rw [if_neg he]
    refine pts_ext (by simp [extendPoints]) ?_
    unfold extendPoints
    dsimp only
    rw [List.map_map, List.map_map]
    refine List.map_congr_left fun p _ => ?_
    funext i
    dsimp only [Function.comp_apply]
    by_cases hi : i.1 < obs.length
    · have e1 : (Fin.cast (by simp) i : Fin ((obs.map (val ev)).length + vars.length)) =
          Fin.castAdd vars.length ⟨i.1, by simpa using hi⟩ := rfl
      rw [e1, Fin.append_left]
      have e2 : (obs ++ vars)[i] = obs[i.1] := List.getElem_append_left hi
      rw [e2]
      unfold asgOf
      rw [override_key (ho _ (List.getElem_mem _))]
      simp
    · have hi' : i.1 < obs.length + vars.length := i.2.trans_eq List.length_append
      have e1 : (Fin.cast (by simp) i : Fin ((obs.map (val ev)).length + vars.length)) =
          Fin.natAdd (obs.map (val ev)).length ⟨i.1 - obs.length, by omega⟩ := by
        rw [Fin.ext_iff]
        simp
        omega
      rw [e1, Fin.append_right]
      have e2 : (obs ++ vars)[i] = vars[i.1 - obs.length] := List.getElem_append_right (by omega)
      rw [e2]
      exact key p ⟨i.1 - obs.length, by omega⟩

/-- The joint parameters without the rows in front. -/
theorem joint_drop {e : Pts} {nov d q : ℕ} (h : nov + d = e.dim) {pts : List (Fin d → ℝ)} {outs : List (Fin q → ℝ)}
    {T : Transform} {names : List Var}
    (hcol : pts = e.cols.map fun y i => y (Fin.cast h (Fin.natAdd nov i))) (hT : T names e = .ok ⟨q, outs⟩)
    (hlen : outs.length = pts.length) (hne : pts ≠ []) :
    ∃ J μ, jointParams e T names = .ok ⟨e.dim + q, ((J, covShape (e.dim + q)), μ)⟩ ∧
      ∀ k (hk : k = d + q), dropObserved J μ nov k =
        .ok ((covOf (List.zipWith Fin.append pts outs)).submatrix (Fin.cast hk) (Fin.cast hk),
          meanOf (List.zipWith Fin.append pts outs) ∘ Fin.cast hk) := by
  have hlen' : e.cols.length = outs.length := by rw [hlen, hcol, List.length_map]
  have hne' : List.zipWith Fin.append e.cols outs ≠ [] := by
    intro h0
    apply hne
    have := congrArg List.length h0
    rw [List.length_zipWith, ← hlen', min_self] at this
    rw [hcol]
    simpa using this
  refine ⟨covOf (List.zipWith Fin.append e.cols outs), meanOf (List.zipWith Fin.append e.cols outs), ?_, ?_⟩
  · unfold jointParams
    rw [hT]
    dsimp only [bind, Except.bind]
    unfold vcat
    rw [if_pos hlen']
    dsimp only
    unfold gaussianParams
    dsimp only
    rw [if_neg hne']
  · rintro k rfl
    have hd : nov + (d + q) = e.dim + q := by omega
    have hz : List.zipWith Fin.append pts outs =
        (List.zipWith Fin.append e.cols outs).map (· ∘ fun i => Fin.cast hd (Fin.natAdd nov i)) := by
      rw [hcol, List.zipWith_map_left, List.map_zipWith]
      congr 1
      funext y o i
      dsimp only [Function.comp_apply]
      refine Fin.addCases (fun j => ?_) (fun j => ?_) i
      · have : Fin.cast hd (Fin.natAdd nov (Fin.castAdd q j)) = Fin.castAdd q (Fin.cast h (Fin.natAdd nov j)) := rfl
        rw [this, Fin.append_left, Fin.append_left]
      · have : Fin.cast hd (Fin.natAdd nov (Fin.natAdd d j)) = Fin.natAdd e.dim j := by
          rw [Fin.ext_iff]
          simp
          omega
        rw [this, Fin.append_right, Fin.append_right]
    unfold dropObserved
    rw [dif_pos hd, hz, covOf_comp, meanOf_comp]
    rfl

/-! ### Mean and covariance of the joint -/

theorem withNoise_ok {names ys : List Var} {q : ℕ} (hr : ∀ v ∈ ys, v ∈ names) (hnd : names.Nodup) (hq : ys.length = q)
    (C : Matrix (Fin names.length) (Fin names.length) ℝ) (m : Fin names.length → ℝ) (N : Matrix (Fin q) (Fin q) ℝ) (w : ℝ) :
    withNoise names ys C m N w = .ok ⟨names.length, ⟨names, none,
      some ⟨fun i j => C i j + entryM N ys hq names[i] names[j], m, w⟩, false⟩⟩ := by
  have ho : opVars names ys = names := by
    unfold opVars
    rw [if_pos hr]
  unfold withNoise
  rw [indexedMat_ok rfl hq]
  have key : ∀ r, r = names →
      (do
        let m' ← toVec r.length (List.ofFn m)
        let j ← mkCov r ⟨fun i j => entryM C names rfl r[i] r[j] + entryM N ys hq r[i] r[j], m', w⟩
        .ok (⟨_, j⟩ : AnyG)) =
      (.ok ⟨names.length, ⟨names, none,
        some ⟨fun i j => C i j + entryM N ys hq names[i] names[j], m, w⟩, false⟩⟩ : Py AnyG) := by
    rintro r rfl
    have hv : toVec r.length (List.ofFn m) = .ok m := by
      unfold toVec
      rw [dif_pos (by simp)]
      congr 1
      funext i
      simp
    rw [hv, py_bind_ok, mkCov_ok hnd rfl, py_bind_ok]
    congr 4
    congr 1
    funext i j
    rw [show entryM C r rfl r[i] r[j] = C i j from entryM_get hnd rfl C i j]
  exact key _ ho

/-- The transform returns, for points whose rows belong to the conditioning variables, in any order, one column of the
right height for every point. -/
def Total (T : Transform) (xs : List Var) (q : ℕ) : Prop :=
  ∀ names : List Var, names.Perm xs → ∀ pts : List (Fin names.length → ℝ),
    ∃ outs : List (Fin q → ℝ), T names ⟨names.length, pts⟩ = .ok ⟨q, outs⟩ ∧ outs.length = pts.length

/-- The transform computes `f`: for points whose rows belong to the conditioning variables, in any order, it returns
the values of `f`. -/
def Computes (T : Transform) (xs : List Var) (q : ℕ) (f : (Var → ℝ) → Fin q → ℝ) : Prop :=
  ∀ names : List Var, names.Perm xs → ∀ asgs : List (Var → ℝ),
    T names ⟨names.length, asgs.map fun x (i : Fin names.length) => x names[i]⟩ = .ok ⟨q, asgs.map f⟩

/-- The covariance of the joint: that of the points, with the noise added. -/
noncomputable def jCov {d q : ℕ} {names ys : List Var} (Z : List (Fin (d + q) → ℝ)) (N : Matrix (Fin q) (Fin q) ℝ)
    (hq : ys.length = q) (hd : names.length = d + q) : Matrix (Fin names.length) (Fin names.length) ℝ :=
  fun i j => covOf Z (Fin.cast hd i) (Fin.cast hd j) + entryM N ys hq names[i] names[j]

theorem transformed_eq {a : NLG} (hnd : (a.xs ++ a.ys).Nodup) (hq : a.ys.length = a.q) (hys : a.ys ≠ []) {vars : List Var}
    {g : Gauss vars.length} (hgv : g.vars = vars) (hg : Good g) (hh : Honest ⟨_, g⟩) (hp : (canOf g).prec.PosDef)
    {obs : List Var} (ho : ∀ v ∈ obs, v ∈ Dict.keys a.ev) (hv : ∀ v ∈ vars, v ∉ Dict.keys a.ev)
    (hperm : (obs ++ vars).Perm a.xs) (hne : vars ≠ []) :
    ∃ L, IsChol L (toCov (canOf g)).cov ∧ ∀ outs : List (Fin a.q → ℝ),
      a.transform (obs ++ vars) ⟨(obs ++ vars).length,
        ((pointsOf (toCov (canOf g)).mean L).map (asgOf a.ev vars)).map fun x i => x (obs ++ vars)[i]⟩ = .ok ⟨a.q, outs⟩ →
      outs.length = (pointsOf (toCov (canOf g)).mean L).length →
      transformed a ⟨_, g⟩ obs (obs.map (val a.ev)) = .ok ⟨(vars ++ a.ys).length, ⟨vars ++ a.ys, none,
        some ⟨jCov (List.zipWith Fin.append (pointsOf (toCov (canOf g)).mean L) outs) a.noise hq (by simp [hq]),
          meanOf (List.zipWith Fin.append (pointsOf (toCov (canOf g)).mean L) outs) ∘ Fin.cast (by simp [hq]),
          a.lw + (toCov (canOf g)).lw⟩, false⟩⟩ := by
  have hvac : g.vac = false := by
    cases h : g.vac with
    | false => rfl
    | true => exact absurd (hh h) (by rw [vacParams_posDef hp]; simp)
  have hcov := getCov_valid hg.toValid hvac hp.det_pos
  have hS : (toCov (canOf g)).cov.PosDef := hp.inv
  obtain ⟨L, hL, hpts⟩ := sigmaPoints_eq hcov hS
  refine ⟨L, hL, fun outs hT hlen => ?_⟩
  obtain ⟨pts, hpe⟩ : ∃ pts, pts = pointsOf (toCov (canOf g)).mean L := ⟨_, rfl⟩
  have hpne : pts ≠ [] := hpe ▸ pointsOf_ne _ _
  rw [← hpe] at hT hlen hpts ⊢
  have hndv : vars.Nodup := (List.nodup_append.1 (hperm.nodup_iff.2 (List.nodup_append.1 hnd).1)).2.1
  have hlenx : obs.length + vars.length = a.xs.length := by rw [← hperm.length_eq, List.length_append]
  have hdim : obs.length + vars.length = (obs ++ vars).length := by simp
  have hcol : pts = ((pts.map (asgOf a.ev vars)).map fun x (i : Fin (obs ++ vars).length) => x (obs ++ vars)[i]).map
      fun y i => y (Fin.cast hdim (Fin.natAdd obs.length i)) := by
    rw [List.map_map, List.map_map]
    refine ((List.map_congr_left fun p _ => ?_).trans (List.map_id _)).symm
    funext j
    dsimp only [Function.comp_apply]
    have e2 : (obs ++ vars)[(Fin.cast hdim (Fin.natAdd obs.length j) : Fin (obs ++ vars).length)] = vars[j] := by
      simp
    rw [e2]
    exact (override_free (hv _ (List.getElem_mem _)) _).trans (entryV_get hndv rfl p j)
  obtain ⟨J, μ, hJ, hdrop⟩ := joint_drop hdim hcol hT hlen hpne
  have hk := hdrop (vars ++ a.ys).length (by simp [hq])
  unfold transformed
  dsimp only
  rw [hpts]
  dsimp only [bind, Except.bind]
  rw [hgv, extended_eq ho hv hndv, hJ]
  dsimp only
  have hcs : checkShape ((obs ++ vars).length + a.q) (covShape ((obs ++ vars).length + a.q)) a.vars.length = .ok () := by
    have h1 : (obs ++ vars).length + a.q = a.vars.length := by
      unfold NLG.vars
      rw [List.length_append, List.length_append, hlenx, hq]
    have h2 : a.vars.length ≠ 1 := by
      have := List.length_pos_of_ne_nil hne
      have := List.length_pos_of_ne_nil hys
      unfold NLG.vars
      rw [List.length_append]
      omega
    rw [h1]
    unfold checkShape covShape
    rw [if_neg (by simp), if_neg h2]
    simp
  rw [hcs]
  dsimp only
  rw [hk]
  dsimp only [storedWeight]
  rw [withNoise_ok (fun v hv => List.mem_append_right _ hv) ?_ hq]
  · rfl
  · refine List.nodup_append.2 ⟨hndv, (List.nodup_append.1 hnd).2.1, fun v h1 w h2 => ?_⟩
    exact (List.nodup_append.1 hnd).2.2 v (hperm.mem_iff.1 (List.mem_append_right _ h1)) w h2

end Verif.NLG
