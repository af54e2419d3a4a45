import Verif.MixDivProps
import Verif.NlgMixProps

/-!
# C111: division of mixtures by Laplace approximations (cancel method 1), C112: `argmax`
-/

namespace Verif.Mix
open Matrix Gauss Spec Fact

/-- The optimiser returns points with as many coordinates as the starting point. -/
def KeepsDim (min : Minimizer) : Prop := ∀ f x0 x s, min f x0 = .ok (x, s) → x.length = x0.length

/-! ### Method 1 never returns for two or more variables -/

theorem argminLoop_length {min : Minimizer} (hmin : KeepsDim min) {a : Mix} {d : ℕ} :
    ∀ {l : List AnyG} {best r : Option (ℝ × List ℝ)}, (∀ g ∈ l, g.1 = d) → (∀ p ∈ best, p.2.length = d) →
      argminLoop min a l best = .ok r → ∀ p ∈ r, p.2.length = d
  | [], best, r, _, hb, h => by
    cases h
    exact hb
  | c :: rest, best, r, hl, hb, h => by
    have hrest : ∀ g ∈ rest, g.1 = d := fun g hg => hl g (List.mem_cons_of_mem _ hg)
    unfold argminLoop at h
    obtain ⟨x0, hx0, h⟩ := py_bind_eq_ok.1 h
    obtain ⟨⟨x, s⟩, hx, h⟩ := py_bind_eq_ok.1 h
    dsimp only at h
    have hd0 : x0.length = d := by
      rw [← hl c List.mem_cons_self]
      unfold meanOf at hx0
      split at hx0
      · cases hx0
      · split at hx0
        · cases hx0; simp
        · obtain ⟨_, _, hx0⟩ := py_bind_eq_ok.1 hx0
          cases hx0; simp
        · cases hx0
    have hdx : x.length = d := (hmin _ _ _ _ hx).trans hd0
    split at h
    · obtain ⟨p, hp, h⟩ := py_bind_eq_ok.1 h
      split at h
      · refine argminLoop_length hmin hrest ?_ h
        rintro _ ⟨⟩
        exact hdx
      · rename_i q y
        split at h
        · refine argminLoop_length hmin hrest ?_ h
          rintro _ ⟨⟩
          exact hdx
        · refine argminLoop_length hmin hrest ?_ h
          rintro _ ⟨⟩
          exact hb _ rfl
    · exact argminLoop_length hmin hrest hb h

theorem argmin_length {min : Minimizer} (hmin : KeepsDim min) {a : Mix} {d : ℕ} {x : List ℝ} (ha : ∀ g ∈ a.comps, g.1 = d)
    (h : argmin min a = .ok x) : x.length = d := by
  unfold argmin at h
  obtain ⟨r, hr, h⟩ := py_bind_eq_ok.1 h
  split at h
  · rename_i q y
    cases h
    exact argminLoop_length hmin ha (by simp) hr _ rfl
  · cases h

theorem isMix_dim {M : Mix} {Ls : List ((Var → ℝ) → ℝ)} (h : IsMix M Ls) : ∀ g ∈ M.comps, g.1 = M.vars.length := by
  intro g hg
  obtain ⟨i, hi, rfl⟩ := List.mem_iff_getElem.1 hg
  have hc : Comp M.vars M.comps[i] (Ls[i]'(h.comps.length_eq ▸ hi)) :=
    (List.forall₂_iff_get.1 h.comps).2 i hi (h.comps.length_eq ▸ hi)
  rw [← hc.good.len, hc.vars]

theorem inverseLoop_length {min : Minimizer} (hmin : KeepsDim min) {va vb : List Var} {as bs : List AnyG}
    {Ls Ks : List ((Var → ℝ) → ℝ)} (ha : List.Forall₂ (Comp va) as Ls) (hb : List.Forall₂ (Comp vb) bs Ks) (hne : bs ≠ [])
    {r} (h : inverseLoop min as bs = .ok r) : ∀ x ∈ r.2.2.2, x.length = (opVars vb va).length := by
  induction ha generalizing bs r with
  | nil =>
    cases h
    simp
  | @cons a L as Ls h1 _ ih =>
    obtain ⟨bs', a', rs, e1, k1, k2, k3⟩ := opEach_ok (.inr ⟨rfl, rfl⟩) hb h1
    have hrs : rs ≠ [] := by
      rintro rfl
      cases Ks with
      | nil => cases hb; exact hne rfl
      | cons K Ks => cases k3
    have hne' : bs' ≠ [] := by
      rintro rfl
      cases k1
      cases hb
      exact hne rfl
    obtain ⟨inv, e2, hM, hv, -⟩ := make_ok hrs k3
    unfold inverseLoop at h
    rw [e1] at h
    dsimp only [bind, Except.bind] at h
    rw [e2] at h
    dsimp only at h
    change (argmin min inv >>= fun x => inverseLoop min as bs' >>= fun p => _) = _ at h
    obtain ⟨x, hx, h⟩ := py_bind_eq_ok.1 h
    obtain ⟨r', hr', h⟩ := py_bind_eq_ok.1 h
    cases h
    intro y hy
    rcases List.mem_cons.1 hy with rfl | hy
    · rw [← hv]
      exact argmin_length hmin (isMix_dim hM) hx
    · exact ih k1 hne' hr' y hy

theorem modes_length {min : Minimizer} (hmin : KeepsDim min) {a b : Mix} {d : ℕ} :
    ∀ {xs ms : List (List ℝ)}, (∀ x ∈ xs, x.length = d) → modes min a b xs = .ok ms → ∀ x ∈ ms, x.length = d
  | [], ms, _, h => by
    cases h
    simp
  | x0 :: xs, ms, hx, h => by
    unfold modes at h
    obtain ⟨⟨x, s⟩, h1, h⟩ := py_bind_eq_ok.1 h
    obtain ⟨ms', h2, h⟩ := py_bind_eq_ok.1 h
    have ih := modes_length hmin (fun y hy => hx y (List.mem_cons_of_mem _ hy)) h2
    cases h
    have hd := (hmin _ _ _ _ h1).trans (hx x0 List.mem_cons_self)
    split
    · intro y hy
      rcases List.mem_cons.1 hy with rfl | hy
      · exact hd
      · exact ih y hy
    · exact ih

theorem removeDup_raises {tol : ℝ} {l : List (List ℝ)} (h : ∀ x ∈ l, 2 ≤ x.length) : ∀ r, removeDupArrays tol l ≠ .ok r := by
  intro r hr
  cases l with
  | nil => cases hr
  | cons a l =>
    have ha := h a List.mem_cons_self
    match a, ha with
    | x :: y :: t, _ =>
      unfold removeDupArrays at hr
      dsimp only at hr
      rw [List.foldlM_cons] at hr
      unfold isDupArray at hr
      rw [List.mapM_cons] at hr
      cases hr

/-- **C111 violated.** With cancel method 1 a mixture over two or more variables can never be divided by a mixture with
several components, whatever points the optimiser finds: the comparison of the modes raises. -/
theorem C111_raises {M N : Mix} {Ls Ks : List ((Var → ℝ) → ℝ)} {min1 : Minimizer} (hess : Hessian) (hmin : KeepsDim min1)
    (hM : IsMix M Ls) (hN : IsMix N Ks) (hlen : N.comps.length ≠ 1) (hcm : M.cancelMethod = 1) {u v : Var} (huv : u ≠ v)
    (hu : u ∈ M.vars ∨ u ∈ N.vars) (hv : v ∈ M.vars ∨ v ∈ N.vars) :
    ∀ r, M.divide (approxDiv min1 hess) N ≠ .ok r := by
  intro r hr
  have hd : 2 ≤ (opVars N.vars M.vars).length := by
    have h1 : u ∈ opVars N.vars M.vars := mem_opVars.2 hu.symm
    have h2 : v ∈ opVars N.vars M.vars := mem_opVars.2 hv.symm
    cases h : opVars N.vars M.vars with
    | nil => rw [h] at h1; cases h1
    | cons w l =>
      cases l with
      | nil =>
        rw [h] at h1 h2
        exact absurd ((List.mem_singleton.1 h1).trans (List.mem_singleton.1 h2).symm) huv
      | cons w' l => simp
  have h1 : divM1 min1 hess M N = .ok r := by
    unfold Mix.divide at hr
    cases hc : N.comps with
    | nil => exact absurd hc hN.ne
    | cons b l =>
      cases l with
      | nil => rw [hc] at hlen; exact absurd rfl hlen
      | cons b' l =>
        rw [hc] at hr
        dsimp only at hr
        rwa [if_neg (by rw [hcm]; decide), if_pos (.inl hcm), approxDiv, if_pos hcm] at hr
  unfold divM1 inverseGaussians at h1
  obtain ⟨r1, h2, -⟩ := py_bind_eq_ok.1 h1
  obtain ⟨r2, h3, h2⟩ := py_bind_eq_ok.1 h2
  obtain ⟨ms, h4, h2⟩ := py_bind_eq_ok.1 h2
  obtain ⟨us, h5, -⟩ := py_bind_eq_ok.1 h2
  refine removeDup_raises (fun x hx => ?_) _ h5
  rw [modes_length hmin (inverseLoop_length hmin hM.comps hN.comps hN.ne h3) h4 x hx]
  exact hd

/-! ### Potentials as functions of lists -/

theorem exists_map_eq {vars : List Var} (hn : vars.Nodup) {x : List ℝ} (hx : x.length = vars.length) :
    ∃ y : Var → ℝ, vars.map y = x := by
  obtain ⟨y, hy⟩ := vecAt_surj hn rfl fun i : Fin vars.length => x[i.1]'(by rw [hx]; exact i.2)
  refine ⟨y, List.ext_getElem (by simp [hx]) fun i h1 h2 => ?_⟩
  rw [List.getElem_map]
  exact congrFun hy ⟨i, by simpa using h1⟩

theorem logPotential_short {k : ℕ} {a : Gauss k} {x : List ℝ} (hx : x.length ≠ k) : a.logPotential x = .error .valueError := by
  unfold Gauss.logPotential alignValues toVec
  dsimp only [bind, Except.bind]
  rw [dif_neg hx]

/-- Lists of the wrong length raise. -/
theorem pot_short {M : Mix} {Ls : List ((Var → ℝ) → ℝ)} (h : IsMix M Ls) {x : List ℝ} (hx : x.length ≠ M.vars.length) :
    M.logPotential x = .error .valueError ∧ M.potential x = .error .valueError := by
  cases hc : M.comps with
  | nil => exact absurd hc h.ne
  | cons g l =>
    have hg : g.1 = M.vars.length := isMix_dim h g (by rw [hc]; exact List.mem_cons_self)
    have e := logPotential_short (a := g.2) (x := x) (by rw [hg]; exact hx)
    constructor
    · unfold Mix.logPotential
      rw [hc, List.mapM_cons, e]
      rfl
    · unfold Mix.potential Gauss.potential
      rw [hc, List.foldlM_cons, e]
      rfl

/-- Mixtures over the same variables with the same components have the same potentials. -/
theorem pot_ext {A B : Mix} {Ls : List ((Var → ℝ) → ℝ)} (hA : IsMix A Ls) (hB : IsMix B Ls) (hv : A.vars = B.vars) (x : List ℝ) :
    A.logPotential x = B.logPotential x ∧ A.potential x = B.potential x := by
  by_cases hx : x.length = A.vars.length
  · obtain ⟨y, rfl⟩ := exists_map_eq hA.nodup hx
    have h1 := hA.pot y
    have h2 := hB.pot y
    rw [← hv] at h2
    exact ⟨h1.2.1.trans h2.2.1.symm, h1.1.trans h2.1.symm⟩
  · rw [(pot_short hA hx).1, (pot_short hA hx).2, (pot_short hB (hv ▸ hx)).1, (pot_short hB (hv ▸ hx)).2]
    exact ⟨rfl, rfl⟩

/-! ### C112 -/

/-- The function that `argmax` minimises. -/
noncomputable def negLog (M : Mix) : List ℝ → Py ℝ := fun x => do
  let l ← M.logPotential x
  .ok (-1 * l)

/-- The results of the optimiser, started from the mean of each component. -/
def Runs (min : Minimizer) (M : Mix) (cs : List AnyG) (rs : List (List ℝ × Bool)) : Prop :=
  List.Forall₂ (fun c r => ∃ c' v, c.2.getCov = .ok (c', v) ∧ min (negLog M) (List.ofFn v.mean) = .ok r ∧
    r.1.length = M.vars.length) cs rs

theorem getCov_comp {vars : List Var} {c : AnyG} {L : (Var → ℝ) → ℝ} (h : Comp vars c L) {c' : Gauss c.1} {v : CovF c.1}
    (hc : c.2.getCov = .ok (c', v)) : Comp vars ⟨c.1, c'⟩ L := by
  have hm := Made.getCov h.made hc
  obtain ⟨h1, h2, -, e⟩ := getCov_eq_ok h.good.toValid hc
  refine ⟨hm, ?_, by rw [e]; exact h.vars⟩
  have hg := h.good
  have hI := hm.inv
  refine denotes_of_canOf hg ?_ (by rw [e]) ?_ h.den
  · refine ⟨?_, ?_⟩
    · rw [e]
      exact valid_cov hg.toValid hg.symm h2
    · rw [e]
      have := canOf_cov (valid_cov hg.toValid hg.symm h2) (v := toCov (canOf c.2)) rfl
      rw [this, toCan_toCov h2]
      exact hg.symm
  · rw [e]
    have := canOf_cov (valid_cov hg.toValid hg.symm h2) (v := toCov (canOf c.2)) rfl
    rw [this, toCan_toCov h2]

/-- The better of two points, the first one on a tie. -/
noncomputable def better (M : Mix) (best : Option (ℝ × List ℝ)) (rs : List (List ℝ × Bool)) (res : Option (ℝ × List ℝ)) : Prop :=
  match res with
  | none => best = none ∧ ∀ r ∈ rs, r.2 = false
  | some (p, x) => M.potential x = .ok p ∧ (best = some (p, x) ∨ (x, true) ∈ rs) ∧ (∀ b ∈ best, b.1 ≤ p) ∧
      ∀ r ∈ rs, r.2 = true → ∃ q, M.potential r.1 = .ok q ∧ q ≤ p

theorem argmaxLoop_ok {min : Minimizer} {M : Mix} {Ls : List ((Var → ℝ) → ℝ)} (hM : IsMix M Ls) :
    ∀ {done rest : List AnyG} {Ds Rs : List ((Var → ℝ) → ℝ)} {rs : List (List ℝ × Bool)} {best : Option (ℝ × List ℝ)},
      List.Forall₂ (Comp M.vars) done Ds → List.Forall₂ (Comp M.vars) rest Rs → Ds ++ Rs = Ls → Runs min M rest rs →
      (∀ b ∈ best, M.potential b.2 = .ok b.1) →
      ∃ cs res, argmaxLoop min M.vars M.cancelMethod done rest best = .ok (cs, res) ∧
        List.Forall₂ (Comp M.vars) cs Ls ∧ better M best rs res
  | done, [], Ds, Rs, rs, best, hd, hr, hL, hrs, hb => by
    cases hr
    cases hrs
    rw [List.append_nil] at hL
    refine ⟨done, best, rfl, hL ▸ hd, ?_⟩
    cases best with
    | none => exact ⟨rfl, by simp⟩
    | some b => exact ⟨hb _ rfl, .inl rfl, by rintro _ ⟨⟩; exact le_rfl, by simp⟩
  | done, c :: rest, Ds, Rs, rs, best, hd, hr, hL, hrs, hb => by
    cases hr with
    | @cons _ L _ Rs h1 h2 =>
    cases hrs with
    | @cons _ r _ rs h3 h4 =>
    obtain ⟨c', v, e1, e2, e3⟩ := h3
    obtain ⟨x, s⟩ := r
    dsimp only at e3
    have hc' := getCov_comp h1 e1
    have hnow : IsMix ⟨M.vars, done ++ ⟨c.1, c'⟩ :: rest, M.cancelMethod⟩ Ls :=
      ⟨by simp, hL ▸ List.rel_append hd (.cons hc' h2)⟩
    have hneg : (fun x => do
        let l ← Mix.logPotential ⟨M.vars, done ++ ⟨c.1, c'⟩ :: rest, M.cancelMethod⟩ x
        Except.ok (-1 * l)) = negLog M := by
      funext x
      unfold negLog
      rw [(pot_ext hnow hM rfl x).1]
    have hpx := (pot_ext hnow hM rfl x).2
    have hd' : List.Forall₂ (Comp M.vars) (done ++ [⟨c.1, c'⟩]) (Ds ++ [L]) := List.rel_append hd (.cons hc' .nil)
    have hL' : (Ds ++ [L]) ++ Rs = Ls := by rw [← hL]; simp
    have step : argmaxLoop min M.vars M.cancelMethod done (c :: rest) best = (if s then do
        let p ← M.potential x
        match best with
        | none => argmaxLoop min M.vars M.cancelMethod (done ++ [⟨c.1, c'⟩]) rest (some (p, x))
        | some (q, y) =>
          if q < p then argmaxLoop min M.vars M.cancelMethod (done ++ [⟨c.1, c'⟩]) rest (some (p, x))
          else argmaxLoop min M.vars M.cancelMethod (done ++ [⟨c.1, c'⟩]) rest (some (q, y))
        else argmaxLoop min M.vars M.cancelMethod (done ++ [⟨c.1, c'⟩]) rest best) := by
      rw [argmaxLoop, e1]
      dsimp only [bind, Except.bind]
      have h5 := hneg
      dsimp only [bind, Except.bind] at h5
      rw [h5, e2]
      dsimp only
      rw [hpx]
      rfl
    rw [step]
    cases s with
    | false =>
      rw [if_neg (by simp)]
      obtain ⟨cs, res, k1, k2, k3⟩ := argmaxLoop_ok hM hd' h2 hL' h4 hb
      refine ⟨cs, res, k1, k2, ?_⟩
      cases res with
      | none => exact ⟨k3.1, by simpa using k3.2⟩
      | some b =>
        refine ⟨k3.1, k3.2.1.imp id (List.mem_cons_of_mem _), k3.2.2.1, ?_⟩
        intro r hr hs
        rcases List.mem_cons.1 hr with rfl | hr
        · cases hs
        · exact k3.2.2.2 r hr hs
    | true =>
      rw [if_pos rfl]
      obtain ⟨y, hy⟩ := exists_map_eq hM.nodup e3
      have hp := (hM.pot y).1
      rw [hy] at hp
      rw [hp]
      dsimp only [bind, Except.bind]
      obtain ⟨p, hpp⟩ : ∃ p, p = mixFn Ls y := ⟨_, rfl⟩
      rw [← hpp] at hp ⊢
      -- the new point becomes the best one
      have new : (∀ b ∈ best, b.1 ≤ p) → ∃ cs res,
          argmaxLoop min M.vars M.cancelMethod (done ++ [⟨c.1, c'⟩]) rest (some (p, x)) = .ok (cs, res) ∧
          List.Forall₂ (Comp M.vars) cs Ls ∧ better M best ((x, true) :: rs) res := by
        intro hbp
        obtain ⟨cs, res, k1, k2, k3⟩ := argmaxLoop_ok hM (best := some (p, x)) hd' h2 hL' h4 (by rintro _ ⟨⟩; exact hp)
        refine ⟨cs, res, k1, k2, ?_⟩
        cases res with
        | none => exact absurd k3.1 (by simp)
        | some b =>
          obtain ⟨m1, m2, m3, m4⟩ := k3
          have hle := m3 _ rfl
          refine ⟨m1, .inr ?_, fun b' hb' => (hbp b' hb').trans hle, ?_⟩
          · rcases m2 with m2 | m2
            · cases m2
              exact List.mem_cons_self
            · exact List.mem_cons_of_mem _ m2
          · intro r hr hs
            rcases List.mem_cons.1 hr with rfl | hr
            · exact ⟨p, hp, hle⟩
            · exact m4 r hr hs
      cases best with
      | none => exact new (by simp)
      | some b =>
        obtain ⟨q, z⟩ := b
        dsimp only
        split
        · rename_i hqp
          exact new (by rintro _ ⟨⟩; exact hqp.le)
        · rename_i hqp
          obtain ⟨cs, res, k1, k2, k3⟩ := argmaxLoop_ok hM (best := some (q, z)) hd' h2 hL' h4 hb
          refine ⟨cs, res, k1, k2, ?_⟩
          cases res with
          | none => exact absurd k3.1 (by simp)
          | some b =>
            obtain ⟨m1, m2, m3, m4⟩ := k3
            refine ⟨m1, m2.imp id (List.mem_cons_of_mem _), m3, ?_⟩
            intro r hr hs
            rcases List.mem_cons.1 hr with rfl | hr
            · exact ⟨p, hp, (not_lt.1 hqp).trans (m3 _ rfl)⟩
            · exact m4 r hr hs

/-- **C112.** If the optimiser succeeds from the mean of some component, `argmax` returns one of the points found, and
no point found has a greater potential. The mixture keeps its potential. -/
theorem C112_best {min : Minimizer} {M : Mix} {Ls : List ((Var → ℝ) → ℝ)} (hM : IsMix M Ls) {rs : List (List ℝ × Bool)}
    (hr : Runs min M M.comps rs) (hs : ∃ r ∈ rs, r.2 = true) :
    ∃ M' x p, argmax min M = .ok (M', x) ∧ M.potential x = .ok p ∧ (x, true) ∈ rs ∧
      (∀ r ∈ rs, r.2 = true → ∃ q, M.potential r.1 = .ok q ∧ q ≤ p) ∧ IsMix M' Ls ∧ M'.vars = M.vars := by
  obtain ⟨cs, res, k1, k2, k3⟩ := argmaxLoop_ok (best := none) hM .nil hM.comps rfl hr (by simp)
  obtain ⟨r, hr1, hr2⟩ := hs
  cases res with
  | none =>
    have := k3.2 r hr1
    rw [hr2] at this
    cases this
  | some b =>
    obtain ⟨p, x⟩ := b
    obtain ⟨m1, m2, m3, m4⟩ := k3
    refine ⟨{ M with comps := cs }, x, p, ?_, m1, m2.resolve_left (by simp), m4, ⟨?_, k2⟩, rfl⟩
    · unfold argmax
      rw [k1]
      rfl
    · intro e
      dsimp only at e
      subst e
      cases k2
      exact hM.ls_ne rfl

/-- **C112, failure.** If the optimiser does not succeed from any mean, `argmax` raises. -/
theorem C112_fails {min : Minimizer} {M : Mix} {Ls : List ((Var → ℝ) → ℝ)} (hM : IsMix M Ls) {rs : List (List ℝ × Bool)}
    (hr : Runs min M M.comps rs) (hs : ∀ r ∈ rs, r.2 = false) : argmax min M = .error .exception := by
  obtain ⟨cs, res, k1, k2, k3⟩ := argmaxLoop_ok (best := none) hM .nil hM.comps rfl hr (by simp)
  cases res with
  | none =>
    unfold argmax
    rw [k1]
    rfl
  | some b =>
    rcases k3.2.1 with h | h
    · cases h
    · have := hs _ h
      cases this

/-- **C112, global maximum.** If one of the successful runs ends in a global maximum, `argmax` returns a global maximum. -/
theorem C112_global {min : Minimizer} {M : Mix} {Ls : List ((Var → ℝ) → ℝ)} (hM : IsMix M Ls) {rs : List (List ℝ × Bool)}
    (hr : Runs min M M.comps rs) {r : List ℝ × Bool} (hr1 : r ∈ rs) (hr2 : r.2 = true) {q : ℝ} (hq : M.potential r.1 = .ok q)
    (hmax : ∀ y, mixFn Ls y ≤ q) :
    ∃ M' x, argmax min M = .ok (M', x) ∧ M.potential x = .ok q ∧ x.length = M.vars.length ∧ ∀ y, mixFn Ls y ≤ q := by
  obtain ⟨M', x, p, h1, h2, h3, h4, -⟩ := C112_best hM hr ⟨r, hr1, hr2⟩
  obtain ⟨q', hq', hle⟩ := h4 r hr1 hr2
  rw [hq] at hq'
  cases hq'
  have hx : x.length = M.vars.length := by
    by_contra hne
    rw [(pot_short hM hne).2] at h2
    cases h2
  obtain ⟨y, hy⟩ := exists_map_eq hM.nodup hx
  have hp := (hM.pot y).1
  rw [hy, h2] at hp
  injection hp with hp
  exact ⟨M', x, h1, by rw [h2, le_antisymm (hp ▸ hmax y) hle], hx, hmax⟩

/-- **C112, means.** If a successful run never ends above its start (in the function to be minimised), the point
returned is at least as good as the mean of every component with a successful run. -/
theorem C112_means {min : Minimizer} {M : Mix} {Ls : List ((Var → ℝ) → ℝ)} (hM : IsMix M Ls) {rs : List (List ℝ × Bool)}
    (hr : Runs min M M.comps rs) (hs : ∀ r ∈ rs, r.2 = true)
    (hdesc : ∀ x0 x s t u, min (negLog M) x0 = .ok (x, s) → negLog M x0 = .ok t → negLog M x = .ok u → u ≤ t) :
    ∃ M' x p, argmax min M = .ok (M', x) ∧ M.potential x = .ok p ∧
      ∀ c ∈ M.comps, ∃ c' v q, c.2.getCov = .ok (c', v) ∧ M.potential (List.ofFn v.mean) = .ok q ∧ q ≤ p := by
  have hne : ∃ r ∈ rs, r.2 = true := by
    cases hc : M.comps with
    | nil => exact absurd hc hM.ne
    | cons c l =>
      rw [hc] at hr
      cases hr with
      | @cons _ r _ rs _ _ => exact ⟨r, List.mem_cons_self, hs r List.mem_cons_self⟩
  obtain ⟨M', x, p, h1, h2, -, h4, -⟩ := C112_best hM hr hne
  refine ⟨M', x, p, h1, h2, fun c hc => ?_⟩
  obtain ⟨i, hi, rfl⟩ := List.mem_iff_getElem.1 hc
  have hlen := hr.length_eq
  obtain ⟨c', v, e1, e2, e3⟩ := (List.forall₂_iff_get.1 hr).2 i hi (hlen ▸ hi)
  have hmem : rs[i]'(hlen ▸ hi) ∈ rs := List.getElem_mem _
  obtain ⟨q', hq', hle⟩ := h4 _ hmem (hs _ hmem)
  have hd := isMix_dim hM _ hc
  obtain ⟨y, hy⟩ := exists_map_eq hM.nodup (x := List.ofFn v.mean) (by rw [List.length_ofFn]; exact hd)
  obtain ⟨z, hz⟩ := exists_map_eq hM.nodup e3
  have py := hM.pot y
  have pz := hM.pot z
  rw [hy] at py
  rw [hz] at pz
  refine ⟨c', v, _, e1, py.1, le_trans ?_ hle⟩
  have hq'' : q' = mixFn Ls z := by
    have := hq'.symm.trans pz.1
    injection this
  rw [hq'']
  have hneg := hdesc _ _ _ (-1 * Real.log (mixFn Ls y)) (-1 * Real.log (mixFn Ls z)) (show min (negLog M) (List.ofFn v.mean) =
      .ok ((rs[i]'(hlen ▸ hi)).1, (rs[i]'(hlen ▸ hi)).2) from e2) (by
        unfold negLog
        rw [py.2.1]
        rfl) (by
        unfold negLog
        have h6 := pz.2.1
        rw [List.get_eq_getElem] at h6
        rw [h6]
        rfl)
  have := mixFn_pos hM.ls_ne y
  exact (Real.log_le_log_iff this (mixFn_pos hM.ls_ne z)).1 (by linarith)

end Verif.Mix
