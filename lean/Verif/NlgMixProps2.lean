import Verif.NlgMixJoint
import Verif.NlgMixProps

/-!
# Properties of mixtures of non-linear Gaussians (C91, C92)

The joint distribution and evidence.
-/

namespace Verif.NlgMix
open Matrix Gauss Spec _root_.Verif.Fact _root_.Verif.NLG

/-- The transform of the factor is affine, its noise is positive definite, the conditioning factor and the evidence
determine the conditioning variables and leave one unobserved, and the logarithm of the exact joint density at the
evidence is `J`. -/
structure Affine (f : NLG) (p : Parts) (J : (Var → ℝ) → ℝ) : Prop where
  nlg : IsNLG f p.1 p.2
  ys : f.ys ≠ []
  noise : f.noise.PosDef
  data : ∃ (A : Fin f.q → Var → ℝ) (b : Fin f.q → ℝ) (g : AnyG),
    Computes f.transform f.xs f.q (fun z i => (f.xs.map fun v => A i v * z v).sum + b i) ∧ NLG.Proper f g p.2 ∧
    J = fun x =>
      let z := override f.ev x
      f.lw + p.2 z + p.1 z + Real.log (normalDensity f.noise (fun i => (f.xs.map fun v => A i v * z v).sum + b i)
        fun i => z (f.ys[i.1]'(nlg.q.symm ▸ i.2)))

/-- The order of the variables in which the joint of a component is returned. -/
def order (f : NLG) : List Var := jointOrder (condVars f.cond) f.ys (Dict.keys f.ev)

theorem Affine.covered {f : NLG} {p : Parts} {J : (Var → ℝ) → ℝ} (h : Affine f p J) : Covered f := by
  obtain ⟨A, b, g, -, hp, -⟩ := h.data
  exact hp.covered

theorem Affine.joint (hs : HashSeed) {f : NLG} {p : Parts} {J : (Var → ℝ) → ℝ} (h : Affine f p J) :
    ∃ j, NLG.jointDistribution hs f = .ok j ∧ Mix.Comp (order f) j J ∧
      ∀ v, v ∈ order f ↔ v ∈ f.vars ∧ v ∉ Dict.keys f.ev := by
  have hc := h.covered
  obtain ⟨hn, hy, hN, A, b, g, hT, hp, rfl⟩ := h
  obtain ⟨j, e, mj, hv, dj⟩ := C84_affine hs hn hy hN hT hp
  have ho := joint_vars hn hc e
  refine ⟨j, e, ⟨mj, dj, ho⟩, fun v => ?_⟩
  unfold order
  rw [← ho, hv, NLG.vars, List.mem_append]

/-- A copy has the same joint. -/
theorem Affine.copy {f : NLG} {p : Parts} {J : (Var → ℝ) → ℝ} (h : Affine f p J) :
    ∃ k, f.copy = .ok k ∧ Affine k p J ∧ Keeps k f ∧ order k = order f := by
  obtain ⟨hn, hy, hN, A, b, g, hT, hp, hJ⟩ := h
  obtain ⟨j, u, c, e, hi, sc, -, nc, -⟩ := copy_ok hn
  obtain ⟨g', hp'⟩ := proper_copy (j := j) (u := u) hp sc nc
  refine ⟨_, e, ⟨hi, hy, hN, A, b, g', hT, hp', hJ⟩, keeps_parts .., ?_⟩
  unfold order
  dsimp only
  rw [sc]

/-- Evidence about a component. -/
theorem Affine.reduce {f : NLG} {p : Parts} {J : (Var → ℝ) → ℝ} (h : Affine f p J) {vrs : List Var} {vals : List ℝ}
    (hn : vrs.Nodup) (hl : vals.length = vrs.length) (hd : ∀ v ∈ vrs, v ∉ Dict.keys f.ev)
    (hfree : ∃ v ∈ condVars f.cond, v ∉ Dict.keys f.ev ∧ v ∉ vrs) :
    ∃ r, f.reduce vrs vals = .ok r ∧ Affine r p (fun x => J (override (vrs.zip vals) x)) ∧ r.vars = f.vars ∧
      condVars r.cond = condVars f.cond ∧ r.ys = f.ys ∧ Dict.keys r.ev = Dict.keys f.ev ++ vrs := by
  obtain ⟨hi0, hy, hN, A, b, g, hT, hp, hJ⟩ := h
  obtain ⟨j, u, c, e, hi, sc, nc⟩ := reduce_ok hi0 hn hl hd
  have hk : Dict.keys (f.ev ++ vrs.zip vals) = Dict.keys f.ev ++ vrs := by
    rw [keys_append]
    congr 1
    exact List.map_fst_zip hl.ge
  obtain ⟨p', hp'⟩ := proper_reduced (j := j) (u := u) (e := vrs.zip vals) hi0 hp sc nc (by
    obtain ⟨v, h1, h2, h3⟩ := hfree
    rw [hp.cond] at h1
    refine ⟨v, h1, ?_⟩
    rw [hk, List.mem_append]
    rintro (h4 | h4)
    · exact h2 h4
    · exact h3 h4)
  refine ⟨_, e, ⟨hi, hy, hN, A, b, p', hT, hp', ?_⟩, rfl, sc, rfl, hk⟩
  rw [hJ]
  funext x
  dsimp only
  rw [override_append]

/-! ### C91 the joint distribution -/

/-- What is known about each component: its parts and its exact joint. -/
def AllAffine (a : NlgMix) (Ds : List (Parts × ((Var → ℝ) → ℝ))) : Prop :=
  List.Forall₂ (fun f d => Affine f d.1 d.2) a.nlgs Ds

theorem joints_ok (hs : HashSeed) {fs : List NLG} {Ds : List (Parts × ((Var → ℝ) → ℝ))}
    (h : List.Forall₂ (fun f d => Affine f d.1 d.2) fs Ds) :
    ∃ js, fs.mapM (NLG.jointDistribution hs) = .ok js ∧
      List.Forall₂ (fun j d => ∃ vars, Mix.Comp vars j d) js (Ds.map Prod.snd) ∧
      List.Forall₂ (fun j f => j.2.vars = order f) js fs := by
  induction h with
  | nil => exact ⟨[], rfl, .nil, .nil⟩
  | @cons f d fs Ds h1 h2 ih =>
    obtain ⟨js, e, h3, h4⟩ := ih
    obtain ⟨j, e1, hj, -⟩ := h1.joint hs
    refine ⟨j :: js, ?_, .cons ⟨_, hj⟩ h3, .cons hj.vars h4⟩
    rw [List.mapM_cons, e1]
    dsimp only [bind, Except.bind]
    rw [e]
    rfl

theorem forall₂_mem {α β : Type} {R : α → β → Prop} {l : List α} {l' : List β} (h : List.Forall₂ R l l') {b : β} (hb : b ∈ l') :
    ∃ a ∈ l, R a b := by
  obtain ⟨i, hi, rfl⟩ := List.mem_iff_getElem.1 hb
  have := List.forall₂_iff_get.1 h
  exact ⟨l[i]'(this.1.symm ▸ hi), List.getElem_mem _, this.2 i (this.1.symm ▸ hi) hi⟩

theorem forall₂_mem' {α β : Type} {R : α → β → Prop} {l : List α} {l' : List β} (h : List.Forall₂ R l l') {a : α} (ha : a ∈ l) :
    ∃ b ∈ l', R a b := by
  obtain ⟨i, hi, rfl⟩ := List.mem_iff_getElem.1 ha
  have := List.forall₂_iff_get.1 h
  exact ⟨l'[i]'(this.1 ▸ hi), List.getElem_mem _, this.2 i hi (this.1 ▸ hi)⟩

/-- **C91 (part that holds).** For affine transforms, if the components list the variables of their conditioning factors
and their conditional variables in the same order, and the same variables are observed, the joint distribution is a
Gaussian mixture whose potential is the sum of the exact joint densities of the components. It is a mixture over the
variables that are not observed. What is missing for the full claim: `C91_order`. -/
theorem C91_joint_partial (hs : HashSeed) {a : NlgMix} (hne : a.nlgs ≠ []) {Ds : List (Parts × ((Var → ℝ) → ℝ))}
    (h : AllAffine a Ds) (ho : ∀ f ∈ a.nlgs, ∀ f' ∈ a.nlgs, condVars f.cond = condVars f'.cond ∧ f.ys = f'.ys ∧
      ∀ v, v ∈ Dict.keys f.ev ↔ v ∈ Dict.keys f'.ev) :
    ∃ M, jointDistribution hs a = .ok M ∧ Mix.IsMix M (Ds.map Prod.snd) ∧ Mix.Pot M (Mix.mixFn (Ds.map Prod.snd)) ∧
      ∀ f ∈ a.nlgs, M.vars = order f ∧ ∀ v, v ∈ M.vars ↔ v ∈ f.vars ∧ v ∉ Dict.keys f.ev := by
  obtain ⟨js, e, h1, h2⟩ := joints_ok hs h
  have hord : ∀ f ∈ a.nlgs, ∀ f' ∈ a.nlgs, order f = order f' := by
    intro f hf f' hf'
    obtain ⟨e1, e2, e3⟩ := ho f hf f' hf'
    unfold order
    rw [e1, e2]
    exact jointOrder_congr e3
  obtain ⟨f0, hf0⟩ := List.exists_mem_of_ne_nil _ hne
  have hall : ∀ j ∈ js, j.2.vars = order f0 := by
    intro j hj
    obtain ⟨f, hf, e⟩ := forall₂_mem' h2 hj
    rw [e]
    exact hord f hf f0 hf0
  have h3 : List.Forall₂ (Mix.Comp (order f0)) js (Ds.map Prod.snd) := by
    refine List.forall₂_iff_get.2 ⟨h1.length_eq, fun i hi hi' => ?_⟩
    obtain ⟨vars, hc⟩ := (List.forall₂_iff_get.1 h1).2 i hi hi'
    exact ⟨hc.made, hc.den, hall _ (List.getElem_mem _)⟩
  have hne' : js ≠ [] := by
    rw [← List.length_pos_iff_ne_nil, h2.length_eq]
    exact List.length_pos_iff_ne_nil.2 hne
  obtain ⟨M, e2, hM, hMv, -⟩ := Mix.make_ok hne' h3
  refine ⟨M, ?_, hM, hM.pot, fun f hf => ?_⟩
  · unfold jointDistribution
    rw [e]
    exact e2
  · have hf' : M.vars = order f := hMv.trans (hord f0 hf0 f hf)
    obtain ⟨d, -, hd⟩ := forall₂_mem' h hf
    obtain ⟨-, -, -, hv⟩ := hd.joint hs
    exact ⟨hf', fun v => by rw [hf', hv v]⟩

/-- **C91 is violated.** If two components return their joints in different orders, `ValueError` is raised, although every
component has an exact joint over the same variables. -/
theorem C91_order (hs : HashSeed) {f0 : NLG} {fs : List NLG} {vars : List Var} {s : Bool}
    {Ds : List (Parts × ((Var → ℝ) → ℝ))} (h : AllAffine ⟨vars, f0 :: fs, s⟩ Ds) (ho : ∃ f ∈ fs, order f ≠ order f0) :
    jointDistribution hs ⟨vars, f0 :: fs, s⟩ = .error .valueError := by
  obtain ⟨js, e, h1, h2⟩ := joints_ok hs h
  unfold jointDistribution
  dsimp only at e ⊢
  rw [e]
  dsimp only [bind, Except.bind]
  obtain ⟨f, hf, hne⟩ := ho
  dsimp only at h2
  cases h2 with
  | @cons j0 _ js _ e0 h3 =>
    obtain ⟨cs, hc, hs'⟩ := Mix.mapM_forall₂ (f := Mix.copyG) (S := fun c (j : AnyG) => c.2.vars = j.2.vars)
      (l := j0 :: js) (l' := j0 :: js) (R := Eq) (List.forall₂_refl _) fun j hj j' hjj => by
        subst hjj
        obtain ⟨d, -, vs, hd⟩ := forall₂_mem' h1 hj
        obtain ⟨k, hk, hkc⟩ := Mix.copyG_ok hd
        exact ⟨k, hk, hkc.vars.trans hd.vars.symm⟩
    unfold Mix.make
    dsimp only
    rw [hc]
    dsimp only [bind, Except.bind]
    rw [if_pos]
    obtain ⟨j, hj, hjo⟩ := forall₂_mem h3 hf
    obtain ⟨c, hcm, hcv⟩ := forall₂_mem hs' (List.mem_cons_of_mem _ hj)
    exact ⟨c, hcm, by rw [hcv, hjo, e0]; exact hne⟩

/-! ### C92 evidence -/

theorem copies_affine {v0 : List Var} {fs : List NLG} {Ds : List (Parts × ((Var → ℝ) → ℝ))}
    (h : List.Forall₂ (fun f d => Affine f d.1 d.2) fs Ds) (hv : ∀ f ∈ fs, ∀ v, v ∈ v0 ↔ v ∈ f.vars) :
    ∃ cs, (fs.mapM fun f => do
        pyGuard .valueError (sameSet v0 f.vars)
        f.copy) = .ok cs ∧ List.Forall₂ (fun f d => Affine f d.1 d.2) cs Ds ∧
      List.Forall₂ (fun c f => Keeps c f ∧ condVars c.cond = condVars f.cond) cs fs := by
  induction h with
  | nil => exact ⟨[], rfl, .nil, .nil⟩
  | @cons f d fs Ds h1 h2 ih =>
    obtain ⟨cs, e, hc, hk⟩ := ih fun f hf => hv f (List.mem_cons_of_mem _ hf)
    obtain ⟨hn, hy, hN, A, b, g, hT, hp, hJ⟩ := h1
    obtain ⟨j, u, c, e1, hi, sc, -, nc, -⟩ := copy_ok hn
    obtain ⟨g', hp'⟩ := proper_copy (j := j) (u := u) hp sc nc
    refine ⟨_ :: cs, ?_, .cons ⟨hi, hy, hN, A, b, g', hT, hp', hJ⟩ hc, .cons ⟨keeps_parts .., sc⟩ hk⟩
    have hss : sameSet v0 f.vars = true := sameSet_iff.2 fun v => hv f (by simp) v
    rw [List.mapM_cons, hss, e1]
    dsimp only [bind, Except.bind, pyGuard]
    rw [if_pos rfl]
    dsimp only
    have e' := e
    dsimp only [bind, Except.bind, pyGuard] at e'
    rw [e']
    rfl

theorem make_affine {f0 : NLG} {fs : List NLG} {Ds : List (Parts × ((Var → ℝ) → ℝ))}
    (h : List.Forall₂ (fun f d => Affine f d.1 d.2) (f0 :: fs) Ds) (hv : ∀ f ∈ fs, ∀ v, v ∈ f0.vars ↔ v ∈ f.vars)
    (s : Bool := true) :
    ∃ r, make (f0 :: fs) s = .ok r ∧ AllAffine r Ds ∧ r.vars = f0.vars ∧ r.split = s ∧
      List.Forall₂ (fun c f => Keeps c f ∧ condVars c.cond = condVars f.cond) r.nlgs (f0 :: fs) := by
  obtain ⟨cs, e, hc, hk⟩ := copies_affine (v0 := f0.vars) h fun f hf v => by
    rcases List.mem_cons.1 hf with rfl | hf
    · rfl
    · exact hv f hf v
  refine ⟨⟨f0.vars, cs, s⟩, ?_, hc, rfl, rfl, hk⟩
  have hnd : f0.vars.Nodup := by
    cases h with
    | cons h1 _ => exact h1.nlg.nodup
  unfold make
  dsimp only
  rw [pyGuard, if_pos (decide_eq_true hnd), e]
  rfl

theorem reduces_ok {fs : List NLG} {Ds : List (Parts × ((Var → ℝ) → ℝ))}
    (h : List.Forall₂ (fun f d => Affine f d.1 d.2) fs Ds) {vrs : List Var} {vals : List ℝ} (hn : vrs.Nodup)
    (hl : vals.length = vrs.length) (hd : ∀ f ∈ fs, ∀ v ∈ vrs, v ∉ Dict.keys f.ev)
    (hfree : ∀ f ∈ fs, ∃ v ∈ condVars f.cond, v ∉ Dict.keys f.ev ∧ v ∉ vrs) :
    ∃ rs, (fs.mapM fun f => f.reduce vrs vals) = .ok rs ∧
      List.Forall₂ (fun f (d : Parts × ((Var → ℝ) → ℝ)) => Affine f d.1 d.2) rs
        (Ds.map fun d => (d.1, fun x => d.2 (override (vrs.zip vals) x))) ∧
      List.Forall₂ (fun r f => r.vars = f.vars ∧ condVars r.cond = condVars f.cond ∧ r.ys = f.ys ∧
        Dict.keys r.ev = Dict.keys f.ev ++ vrs) rs fs := by
  induction h with
  | nil => exact ⟨[], rfl, .nil, .nil⟩
  | @cons f d fs Ds h1 h2 ih =>
    obtain ⟨rs, e, h3, h4⟩ := ih (fun f hf => hd f (List.mem_cons_of_mem _ hf)) fun f hf => hfree f (List.mem_cons_of_mem _ hf)
    obtain ⟨r, e1, h5, h6⟩ := h1.reduce hn hl (hd f (by simp)) (hfree f (by simp))
    refine ⟨r :: rs, ?_, .cons h5 h3, .cons h6 h4⟩
    rw [List.mapM_cons, e1]
    dsimp only [bind, Except.bind]
    rw [e]
    rfl

/-- **C92.** For affine transforms, observing further variables and then reading the joint distribution gives the joint
distribution at the observed values, over the variables that remain, as long as a variable of the conditioning factors
is left. -/
theorem C92_reduce (hs : HashSeed) {a : NlgMix} (hne : a.nlgs ≠ []) {Ds : List (Parts × ((Var → ℝ) → ℝ))}
    (h : AllAffine a Ds) (ho : ∀ f ∈ a.nlgs, ∀ f' ∈ a.nlgs, condVars f.cond = condVars f'.cond ∧ f.ys = f'.ys ∧
      ∀ v, v ∈ Dict.keys f.ev ↔ v ∈ Dict.keys f'.ev) (hvs : ∀ f ∈ a.nlgs, ∀ v, v ∈ f.vars ↔ v ∈ a.vars)
    {vrs : List Var} {vals : List ℝ} (hn : vrs.Nodup) (hl : vals.length = vrs.length)
    (hd : ∀ f ∈ a.nlgs, ∀ v ∈ vrs, v ∉ Dict.keys f.ev)
    (hfree : ∀ f ∈ a.nlgs, ∃ v ∈ condVars f.cond, v ∉ Dict.keys f.ev ∧ v ∉ vrs) :
    ∃ M r R, jointDistribution hs a = .ok M ∧ Mix.Pot M (Mix.mixFn (Ds.map Prod.snd)) ∧ reduce a vrs vals = .ok r ∧
      jointDistribution hs r = .ok R ∧ (∀ v, v ∈ R.vars ↔ v ∈ M.vars ∧ v ∉ vrs) ∧
      Mix.Pot R fun x => Mix.mixFn (Ds.map Prod.snd) (override (vrs.zip vals) x) := by
  obtain ⟨M, e, -, hP, hMv⟩ := C91_joint_partial hs hne h ho
  obtain ⟨rs, e1, h1, h2⟩ := reduces_ok h hn hl hd hfree
  cases rs with
  | nil =>
    have := h2.length_eq
    exact absurd (List.length_eq_zero_iff.1 this.symm) hne
  | cons r0 rs =>
    have hback : ∀ r ∈ r0 :: rs, ∃ f ∈ a.nlgs, r.vars = f.vars ∧ condVars r.cond = condVars f.cond ∧ r.ys = f.ys ∧
        Dict.keys r.ev = Dict.keys f.ev ++ vrs := fun r hr => forall₂_mem' h2 hr
    obtain ⟨r, e2, hr, -, -, hk⟩ := make_affine h1 (fun q hq v => by
      obtain ⟨f, hf, ef, -⟩ := hback q (by simp [hq])
      obtain ⟨f', hf', ef', -⟩ := hback r0 (by simp)
      rw [ef, ef', hvs f hf, hvs f' hf'])
    have hback2 : ∀ c ∈ r.nlgs, ∃ f ∈ a.nlgs, c.vars = f.vars ∧ condVars c.cond = condVars f.cond ∧ c.ys = f.ys ∧
        Dict.keys c.ev = Dict.keys f.ev ++ vrs := by
      intro c hc
      obtain ⟨q, hq, hk1, hk2⟩ := forall₂_mem' hk hc
      obtain ⟨f, hf, e3, e4, e5, e6⟩ := hback q hq
      exact ⟨f, hf, (keeps_vars hk1).trans e3, hk2.trans e4, hk1.ys.trans e5, by rw [hk1.ev]; exact e6⟩
    have hne' : r.nlgs ≠ [] := by
      rw [← List.length_pos_iff_ne_nil, hk.length_eq]
      simp
    obtain ⟨R, e7, -, hP', hRv⟩ := C91_joint_partial hs hne' hr fun c hc c' hc' => by
      obtain ⟨f, hf, -, e4, e5, e6⟩ := hback2 c hc
      obtain ⟨f', hf', -, e4', e5', e6'⟩ := hback2 c' hc'
      obtain ⟨k1, k2, k3⟩ := ho f hf f' hf'
      refine ⟨by rw [e4, e4', k1], by rw [e5, e5', k2], fun v => ?_⟩
      rw [e6, e6', List.mem_append, List.mem_append, k3 v]
    refine ⟨M, r, R, e, hP, ?_, e7, fun v => ?_, ?_⟩
    · unfold reduce
      rw [e1]
      exact e2
    · obtain ⟨c, hc⟩ := List.exists_mem_of_ne_nil _ hne'
      obtain ⟨f, hf, e3, -, -, e6⟩ := hback2 c hc
      rw [(hRv c hc).2 v, (hMv f hf).2 v, e3, e6, List.mem_append, not_or, and_assoc]
    · have : Mix.mixFn ((Ds.map fun d => (d.1, fun x => d.2 (override (vrs.zip vals) x))).map Prod.snd) =
          fun x => Mix.mixFn (Ds.map Prod.snd) (override (vrs.zip vals) x) := by
        funext x
        unfold Mix.mixFn
        simp only [List.map_map]
        rfl
      rw [← this]
      exact hP'

end Verif.NlgMix
