import Verif.NlgReadProps

/-!
# C113: comparing a non-linear Gaussian
-/

namespace Verif.NLG
open Matrix Gauss Spec _root_.Verif.Fact _root_.Verif.Sigma

theorem close_refl {rtol atol : ℝ} (h1 : 0 ≤ rtol) (h2 : 0 ≤ atol) (x : ℝ) : Close rtol atol x x := by
  unfold Close
  rw [sub_self, abs_zero]
  positivity

/-- A Gaussian with the canonical form at hand is found equal to a Gaussian with the same variables and the same
function. -/
theorem equals_same {n : ℕ} {rtol atol : ℝ} (h1 : 0 ≤ rtol) (h2 : 0 ≤ atol) {a b : Gauss n} {L : (Var → ℝ) → ℝ} (ha : Made a)
    (hb : Made b) (da : Denotes a L) (db : Denotes b L) (hv : b.vars = a.vars) (hc : a.can.isSome) :
    ∃ a' b', Gauss.equals rtol atol a b = .ok (a', b', true) := by
  have ga := da.good ha.inv
  have gb := db.good hb.inv
  obtain ⟨a', b', r, hr⟩ := equals_answers (rtol := rtol) (atol := atol) ga gb fun _ => .inl hc
  have hcan := canOf_unique ga gb hv da db
  have hidx : ∀ i j : Fin n, a.vars[i.1]? = b.vars[j.1]? → i = j := fun i j h => by
    rw [hv] at h
    have hi : i.1 < a.vars.length := ga.len.symm ▸ i.2
    exact Fin.ext (List.getElem?_inj hi ga.nodup |>.1 h)
  have hr' : r = true := (C80_equals ha hb da db hr).2 (fun v => by rw [hv])
    ⟨_, _, _, _, getCan_valid ga.toValid, getCan_valid gb.toValid, by
      rw [hcan]
      exact close_refl h1 h2 _, fun i j h => by
      rw [hcan, hidx i j h]
      exact close_refl h1 h2 _, fun i k j l hij hkl => by
      rw [hcan, hidx i j hij, hidx k l hkl]
      exact close_refl h1 h2 _⟩
    fun a1 b1 v w e1 e2 => by
      obtain ⟨-, -, rfl, -⟩ := getCov_eq_ok ga.toValid e1
      obtain ⟨-, -, rfl, -⟩ := getCov_eq_ok gb.toValid e2
      rw [hcan]
      exact ⟨close_refl h1 h2 _, fun i j h => by
        rw [hidx i j h]
        exact close_refl h1 h2 _, fun i k j l hij hkl => by
        rw [hidx i j hij, hidx k l hkl]
        exact close_refl h1 h2 _⟩
  exact ⟨a', b', hr' ▸ hr⟩

/-- A Gaussian with the canonical form at hand is compared by its canonical parameters. -/
theorem equals_can {n m : ℕ} {rtol atol : ℝ} {a a' : Gauss n} {b b' : Gauss m} (ga : Good a) (gb : Good b) (hc : a.can.isSome)
    (h : Gauss.equals rtol atol a b = .ok (a', b', true)) :
    (∀ v, v ∈ a.vars ↔ v ∈ b.vars) ∧ (a.vac = true ∧ b.isVacuous = true ∨ NearCan rtol atol a b) := by
  unfold Gauss.equals at h
  split at h
  · cases h
  · rename_i hset
    have hset := not_not.1 hset
    have hp := perm_of_sameSet ga.nodup gb.nodup hset
    obtain ⟨k, hk, h⟩ := py_bind_eq_ok.1 h
    dsimp only at h
    refine ⟨sameSet_iff.1 hset, ?_⟩
    split at h
    · rename_i hvac
      rw [Bool.and_eq_true] at hvac
      exact .inl ⟨hvac.2, equalsCopy_isVacuous hk hvac.1⟩
    · split at h
      · rename_i hmn
        subst hmn
        obtain ⟨⟨x, y, z⟩, hx, h⟩ := py_bind_eq_ok.1 h
        cases h
        unfold equalsForms at hx
        split at hx
        · rename_i c hc
          obtain ⟨⟨b1, r1⟩, h1, h⟩ := py_bind_eq_ok.1 hx
          cases h
          have hca : canOf a = c := canOf_can hc
          subst hca
          exact .inr ⟨_, _, _, _, getCan_valid ga.toValid, getCan_valid gb.toValid, (canEquals_iff gb hp h1).1 rfl⟩
        · rename_i hn
          rw [hn] at hc
          cases hc
      · cases h

theorem equals_of {rtol atol : ℝ} {a : NLG} {g : AnyG} {j : Gauss a.joint.1} {k : Gauss g.1} {r : Bool}
    (h : Gauss.equals rtol atol a.joint.2 g.2 = .ok (j, k, r)) : ∃ x y, equals rtol atol a (.gaussian g) = .ok (x, y, r) := by
  refine ⟨{ a with joint := ⟨_, j⟩ }, .gaussian ⟨_, k⟩, ?_⟩
  unfold equals
  dsimp only
  rw [h, py_bind_ok]

/-- **C113, comparison (part that holds).** Once canonical parameters of the factor have been read, it is found equal to
its own joint distribution, and an answer yes to the comparison with any Gaussian means that the parameters of the joint
agree with those of the Gaussian within the tolerances, or that the Gaussian is vacuous and all entries of the precision of
the joint are at most `1e-8`.
What is missing for the full claim: `C113_fresh`, `C113_equals_violated` (nothing has been read yet),
`C113_nonlinear` (the argument is not a Gaussian). -/
theorem C113_equals_partial (hs : HashSeed) {rtol atol : ℝ} (h1 : 0 ≤ rtol) (h2 : 0 ≤ atol) {a : NLG} {U C : (Var → ℝ) → ℝ}
    (h : IsNLG a U C) (hys : a.ys ≠ []) (hN : a.noise.PosDef) (hT : Total a.transform a.xs a.q) {p : AnyG} (hp : Proper a p C) :
    ∃ j a' c, jointDistribution hs a = .ok j ∧ getCan hs a = .ok (a', c) ∧
      (∃ x y, equals rtol atol a' (.gaussian j) = .ok (x, y, true)) ∧
      ∀ (g : AnyG) (G : (Var → ℝ) → ℝ) x y, Made g.2 → Denotes g.2 G → equals rtol atol a' (.gaussian g) = .ok (x, y, true) →
        (∀ v, v ∈ j.2.vars ↔ v ∈ g.2.vars) ∧ ((∃ j' c, j.2.getCan = .ok (j', c) ∧ ∀ i k, |c.prec i k| ≤ 1 / 100000000) ∧
          g.2.isVacuous = true ∨ NearCan rtol atol j.2 g.2) := by
  obtain ⟨j, L, u, r, hj, mj, dj, hr, hh, hv, mr, dr, key⟩ := read_all hs h hys hN hT hp
  have hg := dr.good mr.inv
  have hgj := dj.good mj.inv
  obtain ⟨n, r⟩ := r
  obtain ⟨m, j⟩ := j
  have hmn : m = n := hgj.len.symm.trans ((congrArg List.length hv.symm).trans hg.len)
  subst hmn
  dsimp only at hv mr dr hg hgj mj dj
  have hc := getCan_valid hg.toValid
  have mr' := Made.getCan mr hc
  have dr' := kept_can hg |>.den L dr
  have hcan := canOf_unique hg hgj hv.symm dr dj
  refine ⟨⟨m, j⟩, { a with joint := ⟨m, ⟨r.vars, some (canOf r), r.cov, r.vac⟩⟩, upd := u }, ⟨m, canOf r⟩, hj, ?_, ?_, ?_⟩
  · unfold getCan
    rw [hr, py_bind_ok]
    dsimp only
    rw [hc, py_bind_ok]
  · obtain ⟨x, y, he⟩ := equals_same h1 h2 mr' mj dr' dj hv.symm rfl
    exact equals_of he
  · intro g G x y mg dg he
    unfold equals at he
    obtain ⟨⟨x', y', r'⟩, he', hx⟩ := py_bind_eq_ok.1 he
    cases hx
    have hG := dg.good mg.inv
    obtain ⟨e1, e2⟩ := equals_can (dr'.good mr'.inv) hG rfl he'
    refine ⟨fun v => ?_, ?_⟩
    · dsimp only
      rw [← hv]
      exact e1 v
    · rcases e2 with ⟨e2, e3⟩ | e2
      · refine .inl ⟨⟨_, _, getCan_valid hgj.toValid, fun i k => ?_⟩, e3⟩
        have hz := hh e2
        unfold vacParams at hz
        simp only [decide_eq_true_eq] at hz
        rw [hcan]
        exact hz.1 i k
      · exact .inr (nearCan_congr (dr'.good mr'.inv) hgj hG hG (by
          dsimp only
          rw [hv]) (List.Perm.refl _) dr' dj dg dg e2)

/-- **C113 is violated: another non-linear Gaussian.** Comparing with a non-linear Gaussian, even the factor itself, raises
`ValueError`. -/
theorem C113_nonlinear (rtol atol : ℝ) (a b : NLG) : equals rtol atol a (.nonLinear b) = .error .valueError := rfl

/-- **C113 is violated: nothing has been read yet.** A factor that has just been constructed without a joint is found equal to
the vacuous Gaussian over its variables, whatever its parts are; and it is found equal to a Gaussian that is not vacuous only
if the precision of that Gaussian is within the tolerances of zero. -/
theorem C113_fresh {rtol atol : ℝ} {xs ys : List Var} {T : Transform} {q q' : ℕ} {N : Matrix (Fin q) (Fin q') ℝ} {lw : ℝ}
    {upd cond : Option AnyG} {ev : Dict Var ℝ} {a : NLG} (h : make xs ys T N lw none upd cond ev = .ok a) (hne : xs ++ ys ≠ []) :
    (∃ z x y, makeVacuous (xs ++ ys) = .ok z ∧ equals rtol atol a (.gaussian ⟨_, z⟩) = .ok (x, y, true)) ∧
    ∀ (g : AnyG) (G : (Var → ℝ) → ℝ), Made g.2 → Denotes g.2 G → g.2.isVacuous = false →
      ∃ x y r, equals rtol atol a (.gaussian g) = .ok (x, y, r) ∧ (r = true → ∃ g' c, g.2.getCan = .ok (g', c) ∧
        ∀ i k, |c.prec i k| ≤ atol + rtol * |c.prec i k|) := by
  have hj : a.joint = ⟨(xs ++ ys).length, ⟨xs ++ ys, some ⟨0, 0, 0⟩, none, true⟩⟩ ∧ (xs ++ ys).Nodup := by
    unfold make at h
    obtain ⟨-, -, h⟩ := py_bind_eq_ok.1 h
    obtain ⟨_, hnd, h⟩ := py_bind_eq_ok.1 h
    obtain ⟨-, -, h⟩ := py_bind_eq_ok.1 h
    have hnd' : (xs ++ ys).Nodup := by
      by_contra hc
      unfold pyGuard at hnd
      rw [if_neg (by simpa using hc)] at hnd
      cases hnd
    split at h
    · obtain ⟨c, -, h⟩ := py_bind_eq_ok.1 h
      obtain ⟨u, -, h⟩ := py_bind_eq_ok.1 h
      obtain ⟨j, hj, h⟩ := py_bind_eq_ok.1 h
      cases h
      refine ⟨?_, hnd'⟩
      unfold initJoint makeVacuous at hj
      rw [mkCan_ok hnd' rfl, vacParams_zero (List.length_pos_of_ne_nil hne), py_bind_ok] at hj
      cases hj
      rfl
    · cases h
  obtain ⟨hj, hnd⟩ := hj
  have hz : makeVacuous (xs ++ ys) = .ok ⟨xs ++ ys, some ⟨0, 0, 0⟩, none, true⟩ := by
    unfold makeVacuous
    rw [mkCan_ok hnd rfl, vacParams_zero (List.length_pos_of_ne_nil hne)]
  have mz : Made (⟨xs ++ ys, some ⟨0, 0, 0⟩, none, true⟩ : Gauss (xs ++ ys).length) :=
    .ofCan (c := ⟨0, 0, 0⟩) (by simp [IsSymm]) hz
  have gz : Good (⟨xs ++ ys, some ⟨0, 0, 0⟩, none, true⟩ : Gauss (xs ++ ys).length) := by
    refine ⟨⟨hnd, rfl, .inl rfl, fun v hv => ?_, fun v c hv => ?_⟩, ?_⟩
    · cases hv
    · cases hv
    · rw [canOf_can rfl]
      simp [IsSymm]
  refine ⟨?_, fun g G mg dg hpos => ?_⟩
  · have he : Gauss.equals rtol atol a.joint.2 (⟨xs ++ ys, some ⟨0, 0, 0⟩, none, true⟩ : Gauss (xs ++ ys).length) =
        .ok (a.joint.2, ⟨xs ++ ys, some ⟨0, 0, 0⟩, none, true⟩, true) := by
      rw [hj]
      unfold Gauss.equals
      rw [if_neg (not_not.2 (sameSet_iff.2 fun _ => Iff.rfl))]
      unfold equalsCopy Gauss.copy
      dsimp only
      rw [mkCan_ok hnd rfl, py_bind_ok, if_neg (by simp), py_bind_ok]
      dsimp only
      rw [vacParams_zero (List.length_pos_of_ne_nil hne)]
      rfl
    obtain ⟨x, y, h'⟩ := equals_of (a := a) (g := ⟨_, ⟨xs ++ ys, some ⟨0, 0, 0⟩, none, true⟩⟩) he
    exact ⟨_, x, y, hz, h'⟩
  · have hg := dg.good mg.inv
    have hgj : Good a.joint.2 := hj ▸ gz
    have hcj : a.joint.2.can.isSome := by
      rw [hj]
      rfl
    obtain ⟨x, y, r, he⟩ := equals_answers (rtol := rtol) (atol := atol) hgj hg fun _ => .inl hcj
    obtain ⟨x', y', he'⟩ := equals_of he
    refine ⟨x', y', r, he', ?_⟩
    rintro rfl
    obtain ⟨e1, e2 | e2⟩ := equals_can hgj hg hcj he
    · rw [hpos] at e2
      cases e2.2
    · obtain ⟨a1, b1, c, d, h1, h2, -, -, hM⟩ := e2
      refine ⟨b1, d, h2, fun i k => ?_⟩
      have hc : c.prec = 0 := by
        have := getCan_inv hgj.inv h1
        rw [this.2.2]
        have key : ∀ J : AnyG, J = ⟨(xs ++ ys).length, ⟨xs ++ ys, some ⟨0, 0, 0⟩, none, true⟩⟩ → (canOf J.2).prec = 0 := by
          rintro _ rfl
          rw [canOf_can rfl]
        exact key _ hj
      have hidx : ∀ i : Fin g.1, ∃ i' : Fin a.joint.1, a.joint.2.vars[i'.1]? = g.2.vars[i.1]? := fun i => by
        have hi : i.1 < g.2.vars.length := hg.len.symm ▸ i.2
        have hm := (e1 _).2 (List.getElem_mem hi)
        obtain ⟨n, hn, hn'⟩ := List.getElem_of_mem hm
        exact ⟨⟨n, hgj.len ▸ hn⟩, by rw [List.getElem?_eq_getElem hn, List.getElem?_eq_getElem hi, hn']⟩
      obtain ⟨i', hi'⟩ := hidx i
      obtain ⟨k', hk'⟩ := hidx k
      have := hM i' k' i k hi' hk'
      unfold Close at this
      rwa [hc, Matrix.zero_apply, zero_sub, abs_neg] at this

/-! ### A concrete case -/

/-- The transform `y = x`. -/
def exId : Transform := fun names p => .ok ⟨1, p.cols.map fun x _ => rowOf names x "x"⟩

/-- `y = x` plus standard noise, with a standard conditioning factor, as the constructor makes it. -/
noncomputable def exC : NLG where
  xs := ["x"]
  ys := ["y"]
  transform := exId
  q := 1
  noise := 1
  lw := 0
  joint := ⟨2, ⟨["x", "y"], some ⟨0, 0, 0⟩, none, true⟩⟩
  upd := none
  cond := some ⟨_, std ["x"]⟩
  ev := []

theorem exId_computes : Computes exId ["x"] 1
    fun z i => ((["x"] : List Var).map fun v => (fun _ _ => 1 : Fin 1 → Var → ℝ) i v * z v).sum + (fun _ => 0 : Fin 1 → ℝ) i := by
  intro names hp asgs
  unfold exId
  dsimp only
  rw [List.map_map]
  congr 2
  refine List.map_congr_left fun x _ => ?_
  funext i
  have ha : "x" ∈ names := hp.mem_iff.2 (by simp)
  simp only [Function.comp_apply]
  rw [rowOf_eq ha]
  simp

theorem exC_make : make ["x"] ["y"] exId (1 : Matrix (Fin 1) (Fin 1) ℝ) 0 none none (some ⟨_, std ["x"]⟩) [] = .ok exC := by
  have hz : makeVacuous (["x"] ++ ["y"]) = .ok ⟨["x", "y"], some ⟨0, 0, 0⟩, none, true⟩ := by
    unfold makeVacuous
    rw [mkCan_ok (by decide) rfl, vacParams_zero (by decide)]
    rfl
  have hc : Mix.copyG ⟨_, std ["x"]⟩ = .ok ⟨_, std ["x"]⟩ := by
    unfold Mix.copyG Gauss.copy
    dsimp only [std]
    rw [mkCan_ok (by decide) rfl, py_bind_ok, vacParams_posDef PosDef.one]
  unfold make
  rw [pyGuard, if_pos (by decide), py_bind_ok, pyGuard, if_pos (by decide), py_bind_ok, pyGuard, if_pos (by decide), py_bind_ok,
    dif_pos rfl]
  unfold copyOpt initJoint
  dsimp only
  rw [hc, py_bind_ok, hz, py_bind_ok, py_bind_ok, py_bind_ok, py_bind_ok]
  rfl

theorem exC_isNLG : IsNLG exC (fun _ => 0) (stdItem ["x"]).2 where
  nodup := by
    show (["x", "y"] : List Var).Nodup
    decide
  q := rfl
  upd := fun _ => rfl
  cond := ⟨(std_den (by simp)).1, fun v hv => hv⟩
  joint := ⟨by show (["x", "y"] : List Var).Nodup; decide, rfl, .inl rfl⟩
  ev := by
    show ([] : List Var).Nodup
    simp

theorem exC_proper : Proper exC ⟨_, std ["x"]⟩ (stdItem ["x"]).2 where
  cond := rfl
  covered := fun v hv => .inl hv
  free := ⟨"x", by show "x" ∈ (["x"] : List Var); decide, by show "x" ∉ ([] : List Var); decide⟩
  pos := by
    intro z hz hS
    obtain ⟨v, hv⟩ := Function.ne_iff.1 hz
    have hm : v = "x" := by
      by_contra hne
      refine hv (hS v ?_)
      rintro ⟨h1, h2⟩
      have h1' : v ∈ (["x"] : List Var) := h1
      simp_all
    subst hm
    have hpos := sq_pos_of_ne_zero hv
    simp [exC, stdItem, override]
    nlinarith

theorem exId_total : Total exId ["x"] 1 := fun names _ pts => ⟨_, rfl, by simp⟩

/-- The log potential of the joint of `exC`. -/
noncomputable def exL (x : Var → ℝ) : ℝ :=
  Real.log (normalDensity (1 : Matrix (Fin 1) (Fin 1) ℝ) 0 0) - 1 / 2 * x "x" ^ 2 - 1 / 2 * (x "y" - x "x") ^ 2

theorem exL_pos : PosOn exL fun v => (v ∈ (["x"] : List Var) ∨ v ∈ (["y"] : List Var)) ∧ v ∉ ([] : List Var) := by
  intro z hz hS
  obtain ⟨v, hv⟩ := Function.ne_iff.1 hz
  have hm : v = "x" ∨ v = "y" := by
    by_contra hne
    refine hv (hS v ?_)
    rintro ⟨h1, h2⟩
    simp_all
  have hpos : 0 < z "x" ^ 2 + (z "y" - z "x") ^ 2 := by
    by_cases h0 : z "x" = 0
    · rcases hm with rfl | rfl
      · exact absurd h0 hv
      · have := sq_pos_of_ne_zero hv
        rw [h0]
        simpa using this
    · have := sq_pos_of_ne_zero h0
      positivity
  simp [exL]
  nlinarith

/-- **C113 is violated, a concrete case.** `y = x` plus standard noise with a standard conditioning factor: the factor is
not found equal to its own joint distribution, until a parameter is read. -/
theorem C113_equals_violated (hs : HashSeed) : ∃ a j x y a' c x' y',
    make ["x"] ["y"] exId (1 : Matrix (Fin 1) (Fin 1) ℝ) 0 none none (some ⟨_, std ["x"]⟩) [] = .ok a ∧
    jointDistribution hs a = .ok j ∧ equals (1 / 10000) (1 / 10000) a (.gaussian j) = .ok (x, y, false) ∧
    getCan hs a = .ok (a', c) ∧ equals (1 / 10000) (1 / 10000) a' (.gaussian j) = .ok (x', y', true) := by
  obtain ⟨j, a', c, hj, hc, ⟨x', y', he'⟩, -⟩ := C113_equals_partial hs (rtol := 1 / 10000) (atol := 1 / 10000) (by norm_num)
    (by norm_num) exC_isNLG (by simp [exC]) PosDef.one exId_total exC_proper
  have hJ : exL = fun x =>
        let z := override exC.ev x
        exC.lw + (stdItem ["x"]).2 z + (fun _ => (0 : ℝ)) z + Real.log (normalDensity exC.noise
          (fun i => (exC.xs.map fun v => (fun _ _ => 1 : Fin 1 → Var → ℝ) i v * z v).sum + (fun _ => 0 : Fin 1 → ℝ) i)
          fun i => z (exC.ys[i.1]'(exC_isNLG.q.symm ▸ i.2))) := by
    funext x
    dsimp only
    have := log_normalDensity_one (fun i => (exC.xs.map fun v => (fun _ _ => 1 : Fin 1 → Var → ℝ) i v * override exC.ev x v).sum +
      (fun _ => 0 : Fin 1 → ℝ) i) fun i => override exC.ev x (exC.ys[i.1]'(exC_isNLG.q.symm ▸ i.2))
    refine Eq.trans ?_ (congrArg (fun t => exC.lw + (stdItem ["x"]).2 (override exC.ev x) + 0 + t) this.symm)
    simp [exL, exC, stdItem, override]
    ring
  obtain ⟨k, k2, hk, hk2, hvac, mj, dj, hvj, hpd⟩ := joint_unflagged hs exC_isNLG (by simp [exC]) PosDef.one exId_computes
    exC_proper hJ exL_pos
  have hjk : j = k2.joint := by
    have hj' := hj
    unfold jointDistribution at hj'
    rw [hk, py_bind_ok, hk2, py_bind_ok] at hj'
    cases hj'
    rfl
  subst hjk
  have hg := dj.good mj.inv
  have hvf : k2.joint.2.isVacuous = false := by
    unfold Gauss.isVacuous
    rw [hvac, Bool.false_or]
    cases hcan : k2.joint.2.can with
    | none => rfl
    | some c =>
      dsimp only
      rw [← canOf_can hcan]
      exact vacParams_posDef hpd
  obtain ⟨x, y, r, he, hr⟩ := (C113_fresh (rtol := 1 / 10000) (atol := 1 / 10000) exC_make (by simp)).2 k2.joint exL mj dj hvf
  have hrf : r = false := by
    by_contra hne
    obtain ⟨g', c', hc', hall⟩ := hr (by simpa using hne)
    obtain ⟨-, -, rfl⟩ := getCan_inv hg.inv hc'
    have hy : "y" ∈ k2.joint.2.vars := (hvj _).2 (by
      show ("y" ∈ (["x"] : List Var) ∨ "y" ∈ (["y"] : List Var)) ∧ "y" ∉ ([] : List Var)
      simp)
    have hi : k2.joint.2.vars.idxOf "y" < k2.joint.1 := (List.idxOf_lt_length_of_mem hy).trans_eq hg.len
    have hs1 : vecAt k2.joint.2.vars hg.len (Pi.single "y" (1 : ℝ)) = Pi.single ⟨_, hi⟩ 1 := by
      funext i
      unfold vecAt
      rw [Pi.single_apply, Pi.single_apply]
      refine if_congr ?_ rfl rfl
      rw [Fin.ext_iff]
      constructor
      · rintro e
        have := hg.nodup.idxOf_getElem i.1 (hg.len.symm ▸ i.2)
        rw [e] at this
        exact this.symm
      · intro e
        simp [e]
    have hcurv := curv_logOf hg (Pi.single "y" 1) (Pi.single "y" 1)
    rw [← dj.eq hg, hs1] at hcurv
    have hval : curv exL (Pi.single "y" 1) (Pi.single "y" 1) = -1 := by
      simp [curv, exL]
      ring
    rw [hval] at hcurv
    simp at hcurv
    have := hall ⟨_, hi⟩ ⟨_, hi⟩
    rw [← hcurv] at this
    norm_num at this
  subst hrf
  exact ⟨exC, k2.joint, x, y, a', c, x', y', exC_make, hj, he, hc, he'⟩

/-- The hypotheses of `C113_parameters` and `C113_equals_partial` can be met. -/
example (hs : HashSeed) : ∃ j L, jointDistribution hs exC = .ok j ∧ Denotes j.2 L := by
  obtain ⟨j, L, h1, h2, -⟩ := C113_parameters hs exC_isNLG (by simp [exC]) PosDef.one exId_total exC_proper
  exact ⟨j, L, h1, h2⟩

end Verif.NLG
