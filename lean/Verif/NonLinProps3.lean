import Verif.NonLinProps2

/-!
# Properties of non-linear Gaussians (C85, C86): evidence and marginals
-/

namespace Verif.NLG
open Matrix Gauss Spec _root_.Verif.Fact _root_.Verif.Sigma

/-! ### C85 -/

theorem proper_reduced {a : NLG} {U C : (Var → ℝ) → ℝ} (h : IsNLG a U C) {p : AnyG} (hp : Proper a p C) {j : AnyG}
    {u c : Option AnyG} {e : Dict Var ℝ} (hc : condVars c = condVars a.cond) (hn : c = none ↔ a.cond = none)
    (hfree : ∃ v ∈ p.2.vars, v ∉ Dict.keys (a.ev ++ e)) :
    ∃ p', Proper { a with joint := j, upd := u, cond := c, ev := a.ev ++ e } p' C := by
  obtain ⟨p', hp'⟩ := proper_copy (j := j) (u := u) hp hc hn
  have hcc : c = some p' := hp'.cond
  subst hcc
  have hv : p'.2.vars = p.2.vars := by
    rw [hp.cond] at hc
    exact hc
  have hpc := h.cond
  rw [hp.cond] at hpc
  refine ⟨p', rfl, fun v hv' => ?_, hv ▸ hfree, ?_⟩
  · refine (hp'.covered v hv').imp id fun h1 => ?_
    dsimp only at h1 ⊢
    rw [keys_append]
    exact List.mem_append_left _ h1
  · dsimp only
    rw [hv]
    refine posOn_evidence hpc.1 hp.pos (fun v h1 => ⟨h1.1, fun h2 => h1.2 ?_⟩) (fun v h1 => h1.2) fun v h1 => h1.2
    rw [keys_append]
    exact List.mem_append_left _ h2

/-- **C85.** For affine transforms, observing further variables and then reading the joint distribution gives the joint
distribution at the observed values, over the variables that remain, as long as a variable of the conditioning factor
is left. (Observing all of them is the violation of C72.) -/
theorem C85_reduce (hs : HashSeed) {a : NLG} {U C : (Var → ℝ) → ℝ} (h : IsNLG a U C) (hys : a.ys ≠ [])
    (hN : a.noise.PosDef) {A : Fin a.q → Var → ℝ} {b : Fin a.q → ℝ}
    (hT : Computes a.transform a.xs a.q fun z i => (a.xs.map fun v => A i v * z v).sum + b i) {p : AnyG}
    (hp : Proper a p C) {vrs : List Var} {vals : List ℝ} (hn : vrs.Nodup) (hl : vals.length = vrs.length)
    (hd : ∀ v ∈ vrs, v ∉ Dict.keys a.ev) (hfree : ∃ v ∈ p.2.vars, v ∉ Dict.keys a.ev ∧ v ∉ vrs) :
    ∃ j L r j', jointDistribution hs a = .ok j ∧ Denotes j.2 L ∧ reduce a vrs vals = .ok r ∧
      jointDistribution hs r = .ok j' ∧ (∀ v, v ∈ j'.2.vars ↔ v ∈ j.2.vars ∧ v ∉ vrs) ∧
      Denotes j'.2 fun x => L (override (vrs.zip vals) x) := by
  obtain ⟨j, hj, -, hv, dj⟩ := C84_affine hs h hys hN hT hp
  obtain ⟨k, u, c, e, hi, sc, nc⟩ := reduce_ok h hn hl hd
  have hk : Dict.keys (a.ev ++ vrs.zip vals) = Dict.keys a.ev ++ vrs := by
    rw [keys_append]
    congr 1
    exact List.map_fst_zip hl.ge
  obtain ⟨p', hp'⟩ := proper_reduced (j := k) (u := u) (e := vrs.zip vals) h hp sc nc (by
    obtain ⟨v, h1, h2, h3⟩ := hfree
    refine ⟨v, h1, ?_⟩
    rw [hk, List.mem_append]
    rintro (h4 | h4)
    · exact h2 h4
    · exact h3 h4)
  obtain ⟨j', hj', -, hv', dj'⟩ := C84_affine hs hi hys hN hT hp'
  refine ⟨j, _, _, j', hj, dj, e, hj', fun v => ?_, dj'.congr fun x => ?_⟩
  · rw [hv, hv']
    dsimp only
    rw [hk, List.mem_append, not_or, and_assoc]
  · dsimp only
    rw [override_append]

/-! ### C86 -/

theorem joint_unflagged (hs : HashSeed) {a : NLG} {U C : (Var → ℝ) → ℝ} (h : IsNLG a U C) (hys : a.ys ≠ [])
    (hN : a.noise.PosDef) {A : Fin a.q → Var → ℝ} {b : Fin a.q → ℝ}
    (hT : Computes a.transform a.xs a.q fun z i => (a.xs.map fun v => A i v * z v).sum + b i) {p : AnyG}
    (hp : Proper a p C) {J : (Var → ℝ) → ℝ}
    (hJ : J = fun x =>
        let z := override a.ev x
        a.lw + C z + U z + Real.log (normalDensity a.noise (fun i => (a.xs.map fun v => A i v * z v).sum + b i)
          fun i => z (a.ys[i.1]'(h.q.symm ▸ i.2))))
    (hpos : PosOn J fun v => (v ∈ a.xs ∨ v ∈ a.ys) ∧ v ∉ Dict.keys a.ev) :
    ∃ k k2, copy a = .ok k ∧ recompute hs k = .ok k2 ∧ k2.joint.2.vac = false ∧ Made k2.joint.2 ∧ Denotes k2.joint.2 J ∧
      (∀ v, v ∈ k2.joint.2.vars ↔ (v ∈ a.xs ∨ v ∈ a.ys) ∧ v ∉ Dict.keys a.ev) ∧ (canOf k2.joint.2).prec.PosDef := by
  obtain ⟨j, hj, mj, hvj, dj⟩ := C84_affine hs h hys hN hT hp
  unfold jointDistribution at hj
  obtain ⟨k, hk, hj⟩ := py_bind_eq_ok.1 hj
  obtain ⟨k2, hk2, hj⟩ := py_bind_eq_ok.1 hj
  cases hj
  obtain ⟨j0, u, c, e, hi, sc, -, nc, -⟩ := copy_ok h
  rw [e] at hk
  injection hk with hk
  obtain ⟨p', hp'⟩ := proper_copy (j := j0) (u := u) hp sc nc
  have hh : Honest k2.joint := recompute_honest (hk ▸ hi) (hk ▸ hp'.covered) hk2
  rw [← hJ] at dj
  have hg := dj.good mj.inv
  have hpd : (canOf k2.joint.2).prec.PosDef := by
    refine posDef_logOf hg ?_
    rw [← dj.eq hg]
    exact fun z hz hS => hpos z hz fun v hv' => hS v fun hm => hv' ((hvj v).1 hm)
  have hvac : k2.joint.2.vac = false := by
    by_contra hc
    have := hh (by simpa using hc)
    rw [vacParams_posDef hpd] at this
    cases this
  exact ⟨k, k2, hk ▸ e, hk2, hvac, mj, dj, hvj, hpd⟩

/-- **C86.** For affine transforms, the marginal over unobserved variables is the integral of the exact joint over the
other unobserved variables, if the exact joint is strictly concave in the unobserved variables. -/
theorem C86_marginalize (hs : HashSeed) {a : NLG} {U C : (Var → ℝ) → ℝ} (h : IsNLG a U C) (hys : a.ys ≠ [])
    (hN : a.noise.PosDef) {A : Fin a.q → Var → ℝ} {b : Fin a.q → ℝ}
    (hT : Computes a.transform a.xs a.q fun z i => (a.xs.map fun v => A i v * z v).sum + b i) {p : AnyG}
    (hp : Proper a p C) {J : (Var → ℝ) → ℝ}
    (hJ : J = fun x =>
        let z := override a.ev x
        a.lw + C z + U z + Real.log (normalDensity a.noise (fun i => (a.xs.map fun v => A i v * z v).sum + b i)
          fun i => z (a.ys[i.1]'(h.q.symm ▸ i.2))))
    (hpos : PosOn J fun v => (v ∈ a.xs ∨ v ∈ a.ys) ∧ v ∉ Dict.keys a.ev) {vrs : List Var} (hn : vrs.Nodup)
    (hv : ∀ v ∈ vrs, (v ∈ a.xs ∨ v ∈ a.ys) ∧ v ∉ Dict.keys a.ev) :
    ∃ r M, marginalize hs a vrs = .ok r ∧ r.2.vars = vrs ∧ Denotes r.2 M ∧
      ∀ out : List Var, out.Nodup → (∀ v, v ∈ out ↔ ((v ∈ a.xs ∨ v ∈ a.ys) ∧ v ∉ Dict.keys a.ev) ∧ v ∉ vrs) → ∀ x,
        IntegrableOut out (fun z => Real.exp (J z)) x ∧
        integrateOut out (fun z => Real.exp (J z)) x = Real.exp (M x) := by
  obtain ⟨k, k2, hk, hk2, hvac, mj, dj, hvj, hpd⟩ := joint_unflagged hs h hys hN hT hp hJ hpos
  have hg := dj.good mj.inv
  obtain ⟨r, M, hr, hrv, -, hrm, dr, hint⟩ := C32_marginalize_partial hs mj dj (getCan_valid hg.toValid) hvac true hn
    (fun v hv' => (hvj v).2 (hv v hv')) fun y hy _ => by
      have := hpd.dotProduct_mulVec_pos hy
      simpa using this
  refine ⟨⟨_, r⟩, M, ?_, hrv rfl, dr, fun out ho hmo => hint out ho fun v => ?_⟩
  · unfold marginalize
    have ha : pyAssert (decide (∀ v ∈ Sparse.marginalVars hs a.vars vrs true, v ∈ a.vars)) = .ok () := by
      rw [pyAssert, if_pos]
      refine decide_eq_true fun v hv' => ?_
      exact List.mem_append.2 (hv v hv').1
    dsimp only
    rw [ha, py_bind_ok, hk, py_bind_ok, hk2, py_bind_ok, if_neg (by simp [hvac])]
    show jointMarginal hs k2 vrs = _
    unfold jointMarginal
    rw [hr, py_bind_ok]
  · rw [hmo, hvj, hrv rfl]

/-- **C86 is violated: summing out after an observation.** Whenever the joint is computed and is not vacuous, asking to
sum out variables while another variable is observed raises `ValueError`, since the observed variable is among those to
be kept. -/
theorem C86_drop_raises (hs : HashSeed) {a : NLG} {U C : (Var → ℝ) → ℝ} (h : IsNLG a U C) {j : AnyG}
    (hj : jointDistribution hs a = .ok j) (hvac : j.2.vac = false)
    (hjv : ∀ v ∈ j.2.vars, v ∉ Dict.keys a.ev) {vrs : List Var} {v : Var}
    (hv : v ∈ a.xs ∨ v ∈ a.ys) (hk : v ∈ Dict.keys a.ev) (hn : v ∉ vrs) :
    marginalize hs a vrs false = .error .valueError := by
  unfold jointDistribution at hj
  obtain ⟨k, hk1, hj⟩ := py_bind_eq_ok.1 hj
  obtain ⟨k2, hk2, hj⟩ := py_bind_eq_ok.1 hj
  cases hj
  obtain ⟨j0, u, c, e, hi, -⟩ := copy_ok h
  rw [e] at hk1
  injection hk1 with hk1
  obtain ⟨j3, u3, he3, hi3, -⟩ := recompute_inv (hk1 ▸ hi) hk2
  have hsh : Shape k2.joint := by
    rw [he3]
    exact hi3.joint
  obtain ⟨kv, hkv⟩ : ∃ kv, kv = Sparse.marginalVars hs a.vars vrs false := ⟨_, rfl⟩
  have hmem : ∀ w, w ∈ kv ↔ w ∈ a.vars ∧ w ∉ vrs := by
    intro w
    rw [hkv, Sparse.marginalVars, if_neg (by simp), hs.strs.mem, List.mem_filter, decide_eq_true_eq]
  have ha : pyAssert (decide (∀ v ∈ kv, v ∈ a.vars)) = .ok () := by
    rw [pyAssert, if_pos (decide_eq_true fun w hw => ((hmem w).1 hw).1)]
  unfold marginalize
  dsimp only
  rw [← hkv, ha, py_bind_ok, e, hk1, py_bind_ok, hk2, py_bind_ok, if_neg (by simp [hvac])]
  unfold jointMarginal
  have hpos : ∀ n, positions k2.joint.2.vars n kv = .error .valueError := by
    intro n
    unfold positions
    rw [if_pos]
    exact fun hall => hjv v (hall v ((hmem v).2 ⟨List.mem_append.2 hv, hn⟩)) hk
  unfold Gauss.marginalize marginalizeTo
  have hkt : Sparse.marginalVars hs k2.joint.2.vars kv true = kv := rfl
  rw [if_neg (by simp [hvac])]
  rcases hsh.form with hf | hf
  · obtain ⟨cc, hcc⟩ := Option.isSome_iff_exists.1 hf
    rw [hcc]
    dsimp only
    unfold canMarginalize
    rw [hkt, hpos]
    rfl
  · cases hcan : k2.joint.2.can with
    | some cc =>
      dsimp only
      unfold canMarginalize
      rw [hkt, hpos]
      rfl
    | none =>
      obtain ⟨cc, hcc⟩ := Option.isSome_iff_exists.1 hf
      rw [hcc]
      dsimp only
      unfold covMarginalize
      rw [hkt, hpos]
      rfl

theorem marginalize_uncovered (hs : HashSeed) {a : NLG} {U C : (Var → ℝ) → ℝ} (hc : ¬ Covered a)
    {vrs : List Var} (hv : ∀ v ∈ vrs, v ∈ a.vars) {j : AnyG} {u c : Option AnyG}
    (e : copy a = .ok { a with joint := j, upd := u, cond := c }) (sc : condVars c = condVars a.cond)
    (hi : IsNLG { a with joint := j, upd := u, cond := c } U C) :
    marginalize hs a vrs = vacMarginal hs { a with
      joint := ⟨a.vars.length, ⟨a.vars, some ⟨0, 0, 0⟩, none, true⟩⟩, upd := u, cond := c } a.lw vrs := by
  have hc' : ¬ Covered { a with joint := j, upd := u, cond := c } := fun h' => hc fun v hv' => by
    have := h' v hv'
    dsimp only at this
    rwa [sc] at this
  have ha : pyAssert (decide (∀ v ∈ Sparse.marginalVars hs a.vars vrs true, v ∈ a.vars)) = .ok () := by
    rw [pyAssert, if_pos]
    exact decide_eq_true fun v hv' => hv v hv'
  unfold marginalize
  dsimp only
  rw [ha, py_bind_ok, e, py_bind_ok, recompute_uncovered hs hi hc', py_bind_ok, if_pos rfl]
  rfl

/-- **C86 is violated: evidence and weight are ignored.** While the joint is vacuous, the marginal over variables of the
conditioning factor is the marginal of the conditioning factor alone: it is the same for all evidence, even about other
variables of the conditioning factor, and for all weights of the non-linear Gaussian. -/
theorem C86_ignores_evidence (hs : HashSeed) {a : NLG} {U C : (Var → ℝ) → ℝ} (h : IsNLG a U C) {g : AnyG}
    (hg : a.cond = some g) {vrs : List Var} (hv : ∀ v ∈ vrs, v ∈ g.2.vars) :
    ∃ k, Mix.copyG g = .ok k ∧ ∀ (w : ℝ) (ev : Dict Var ℝ), (Dict.keys ev).Nodup →
      (∃ v ∈ a.xs, v ∉ g.2.vars ∧ v ∉ Dict.keys ev) →
      marginalize hs { a with lw := w, ev := ev } vrs = (do
        let r ← k.2.marginalize hs vrs true
        .ok ⟨_, r⟩) := by
  have hpc := h.cond
  rw [hg] at hpc
  obtain ⟨k, hk, -, hkv⟩ := copyG_den hpc.1
  refine ⟨k, hk, fun w ev hn hc => ?_⟩
  have hi : IsNLG { a with lw := w, ev := ev } U C := ⟨h.nodup, h.q, h.upd, h.cond, h.joint, hn⟩
  have hnc : ¬ Covered { a with lw := w, ev := ev } := by
    obtain ⟨v, h1, h2, h3⟩ := hc
    intro h'
    rcases h' v h1 with h4 | h4
    · dsimp only at h4
      rw [hg] at h4
      exact h2 h4
    · exact h3 h4
  obtain ⟨j, u, c, e, hi2, sc, -⟩ := copy_ok hi
  have hcc : c = some k := by
    have e' := e
    unfold copy make at e'
    obtain ⟨-, -, e'⟩ := py_bind_eq_ok.1 e'
    obtain ⟨-, -, e'⟩ := py_bind_eq_ok.1 e'
    obtain ⟨-, -, e'⟩ := py_bind_eq_ok.1 e'
    rw [dif_pos rfl] at e'
    obtain ⟨c', hc', e'⟩ := py_bind_eq_ok.1 e'
    obtain ⟨u', -, e'⟩ := py_bind_eq_ok.1 e'
    obtain ⟨j', -, e'⟩ := py_bind_eq_ok.1 e'
    rw [show ({ a with lw := w, ev := ev } : NLG).cond = some g from hg] at hc'
    unfold copyOpt at hc'
    dsimp only at hc'
    rw [hk, py_bind_ok] at hc'
    cases hc'
    injection e' with e'
    exact (congrArg NLG.cond e').symm
  subst hcc
  rw [marginalize_uncovered hs hnc (fun v hv' => List.mem_append_left _ (hpc.2 v (hv v hv'))) e sc hi2]
  unfold vacMarginal
  dsimp only
  rw [if_pos fun v hv' => hpc.2 v (hv v hv')]
  unfold partMarginal
  dsimp only
  rw [if_pos fun v hv' => hkv ▸ hv v hv']

/-! ### Concrete cases -/

/-- `c` is observed as well. -/
example (hs : HashSeed) : ∃ j L r j', jointDistribution hs (exN (some ⟨_, std ["a", "b"]⟩) [("b", 2)]) = .ok j ∧
    Denotes j.2 L ∧ reduce (exN (some ⟨_, std ["a", "b"]⟩) [("b", 2)]) ["c"] [5] = .ok r ∧
    jointDistribution hs r = .ok j' ∧ (∀ v, v ∈ j'.2.vars ↔ v ∈ j.2.vars ∧ v ∉ ["c"]) ∧
    Denotes j'.2 fun x => L (override ((["c"] : List Var).zip [5]) x) :=
  C85_reduce hs exN_full (by simp [exN]) PosDef.one exNT_computes exN_proper (by decide) rfl
    (by
      show ∀ v ∈ (["c"] : List Var), v ∉ (["b"] : List Var)
      decide)
    ⟨"a", by show "a" ∈ (["a", "b"] : List Var); decide, by show "a" ∉ (["b"] : List Var); decide, by decide⟩

theorem log_normalDensity_one (m y : Fin 1 → ℝ) :
    Real.log (normalDensity (1 : Matrix (Fin 1) (Fin 1) ℝ) m y) =
      Real.log (normalDensity (1 : Matrix (Fin 1) (Fin 1) ℝ) 0 0) - 1 / 2 * (y 0 - m 0) ^ 2 := by
  unfold normalDensity
  have hs : Real.sqrt ((2 * Real.pi) ^ Fintype.card (Fin 1) * (1 : Matrix (Fin 1) (Fin 1) ℝ).det) ≠ 0 := by
    simp [Real.sqrt_ne_zero', Real.pi_pos]
  rw [Real.log_div (Real.exp_ne_zero _) hs, Real.log_div (Real.exp_ne_zero _) hs, Real.log_exp, Real.log_exp]
  simp [dotProduct]
  ring

/-- The marginal over `c`, and the failing ways to ask for it. -/
example (hs : HashSeed) : (∃ r, marginalize hs (exN (some ⟨_, std ["a", "b"]⟩) [("b", 2)]) ["c"] = .ok r ∧ r.2.vars = ["c"]) ∧
    marginalize hs (exN (some ⟨_, std ["a", "b"]⟩) [("b", 2)]) ["a"] false = .error .valueError := by
  have hposJ : PosOn (fun x =>
        let z := override ([("b", 2)] : Dict Var ℝ) x
        (0 : ℝ) + (stdItem ["a", "b"]).2 z + (stdItem ["c"]).2 z + Real.log (normalDensity (1 : Matrix (Fin 1) (Fin 1) ℝ)
          (fun i => ((["a", "b"] : List Var).map fun v =>
            (fun _ w => if w = "a" then 1 else 2 : Fin 1 → Var → ℝ) i v * z v).sum + (fun _ => 3 : Fin 1 → ℝ) i)
          fun i => z ((["c"] : List Var)[i.1]))) fun v => (v ∈ (["a", "b"] : List Var) ∨ v ∈ (["c"] : List Var)) ∧
            v ∉ (["b"] : List Var) := by
    intro z hz hS
    obtain ⟨v, hv⟩ := Function.ne_iff.1 hz
    have hm : v = "a" ∨ v = "c" := by
      by_contra hne
      refine hv (hS v ?_)
      rintro ⟨h1, h2⟩
      simp_all
    have hpos : 0 < z "a" ^ 2 + z "c" ^ 2 := by
      rcases hm with rfl | rfl
      · have := sq_pos_of_ne_zero hv
        positivity
      · have := sq_pos_of_ne_zero hv
        positivity
    dsimp only
    obtain ⟨K, hK⟩ : ∃ K, ∀ m y : Fin 1 → ℝ, Real.log (normalDensity (1 : Matrix (Fin 1) (Fin 1) ℝ) m y) =
      K - 1 / 2 * (y 0 - m 0) ^ 2 := ⟨_, log_normalDensity_one⟩
    simp only [hK]
    simp [stdItem, override]
    nlinarith [sq_nonneg (z "c" - z "a")]
  have hv : ∀ v ∈ (["c"] : List Var), (v ∈ (["a", "b"] : List Var) ∨ v ∈ (["c"] : List Var)) ∧ v ∉ (["b"] : List Var) := by decide
  obtain ⟨r, M, hr, hrv, -⟩ := C86_marginalize hs exN_full (by simp [exN]) PosDef.one exNT_computes exN_proper rfl hposJ
    (vrs := ["c"]) (by decide) hv
  obtain ⟨k, k2, hk, hk2, hvac, -, -, hvj, -⟩ := joint_unflagged hs exN_full (by simp [exN]) PosDef.one exNT_computes
    exN_proper rfl hposJ
  refine ⟨⟨r, hr, hrv⟩, C86_drop_raises hs exN_full (j := k2.joint) ?_ hvac (fun v hv' => ((hvj v).1 hv').2) (v := "b")
    (.inl (by simp [exN])) (by show "b" ∈ (["b"] : List Var); decide) (by decide)⟩
  unfold jointDistribution
  rw [hk, py_bind_ok, hk2, py_bind_ok]

/-- Nothing is known about `b`: observing `a` does not change the marginal over `a`. -/
example (hs : HashSeed) : marginalize hs (exN (some ⟨_, std ["a"]⟩) []) ["a"] =
    marginalize hs (exN (some ⟨_, std ["a"]⟩) [("a", 7)]) ["a"] := by
  have h := exN_isNLG (part_std (vs := ["a"]) (scope := ["a", "b"]) (by decide) (by simp)) (ev := []) (by simp [Dict.keys])
  obtain ⟨k, -, hk⟩ := C86_ignores_evidence hs h rfl (vrs := ["a"]) fun v hv => hv
  have hb : "b" ∉ (["a"] : List Var) := by decide
  exact (hk 0 [] (by simp [Dict.keys]) ⟨"b", by simp [exN], hb, by simp [Dict.keys]⟩).trans
    (hk 0 [("a", 7)] (by show (["a"] : List Var).Nodup; decide) ⟨"b", by simp [exN], hb, hb⟩).symm

end Verif.NLG
