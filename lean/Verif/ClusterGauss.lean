import Verif.ClusterInt2
import Verif.ClusterSparse
import Verif.GaussFinite
import Verif.GaussProps2

/-!
# Gaussian factors obey the laws

`Gaussian` is an instance of `IntLaws`, so the theorems about lawful factor classes hold for cluster graphs
over Gaussian factors.
-/

namespace Verif.CG
open Spec (override intOut IntegrableOut integrateOut)
open Gauss (AnyG Made Denotes Good canOf)
open MeasureTheory Classical
open scoped ENNReal

/-- The operations of `Gaussian` used by the cluster graph (gaussian.py 506-760). `Cluster.make_message` and the
accessors of `Cluster` and `Message` copy the factor first (_cluster.py 87, 164, 248); for Gaussians the copy
matters, because it sets the vacuous flag again. The parameters an operation caches in its operands are
dropped. -/
noncomputable def gaussOps (hs : HashSeed) : Ops AnyG ℝ EReal where
  vars := fun f => f.2.vars
  multiply := fun f g => do
    let (_, _, r) ← f.2.multiply g.2
    .ok ⟨_, r⟩
  cancel := fun f g => do
    let (_, _, r) ← f.2.divide g.2
    .ok ⟨_, r⟩
  marginalize := fun f vrs => do
    let k ← f.2.copy
    let r ← k.marginalize hs vrs true
    .ok ⟨_, r⟩
  reduce := fun f vrs vals => do
    let (_, r) ← f.2.reduce vrs vals
    .ok r
  distVacuous := fun f => do
    let k ← f.2.copy
    toGain k.distanceFromVacuous
  kl := fun f g => do
    let k ← f.2.copy
    let l ← g.2.copy
    let (_, _, d) ← k.klDivergence l
    toGain d

/-- The value of `potential` at a named point (zero if the call raises). -/
noncomputable def gaussDen (f : AnyG) (x : Var → ℝ) : ℝ :=
  match f.2.potential (f.2.vars.map x) with
  | .ok r => r
  | .error _ => 0

/-- A Gaussian built by some sequence of calls that can be evaluated; if it holds only a covariance matrix,
that matrix is positive definite. -/
structure GaussOk (f : AnyG) : Prop where
  made : Made f.2
  good : Good f.2
  cov : f.2.can = none → ∀ v, f.2.cov = some v → v.cov.PosDef

theorem gaussDen_of {f : AnyG} {L : (Var → ℝ) → ℝ} (h : Denotes f.2 L) (x : Var → ℝ) :
    gaussDen f x = Real.exp (L x) := by
  unfold gaussDen
  rw [(h x).2.1]

theorem GaussOk.den {f : AnyG} (hf : GaussOk f) (x : Var → ℝ) :
    gaussDen f x = Real.exp (Gauss.evalCan (canOf f.2) (Gauss.vecAt f.2.vars hf.good.len x)) :=
  gaussDen_of hf.good.denotes x

variable {hs : HashSeed}

theorem gauss_mul {f g r : AnyG} (hf : GaussOk f) (hg : GaussOk g) (h : (gaussOps hs).multiply f g = .ok r) :
    GaussOk r ∧ (∀ v, v ∈ r.2.vars ↔ v ∈ f.2.vars ∨ v ∈ g.2.vars) ∧
      ∀ x, gaussDen r x = gaussDen f x * gaussDen g x := by
  obtain ⟨f', g', r', h1, h2, h3, -⟩ := Gauss.C30_multiply hf.made hg.made hf.good.denotes hg.good.denotes
  have h' : (do let (_, _, r) ← f.2.multiply g.2; .ok ⟨_, r⟩ : Py AnyG) = .ok r := h
  rw [h1] at h'
  cases h'
  have hm := Made.multiply hf.made hg.made h1
  have hc : r'.can ≠ none := by
    have e := Gauss.absorbOrCancel_valid (· + ·) hf.good.toValid hg.good.toValid
    rw [show Gauss.multiply f.2 g.2 = _ from e] at h1
    cases h1
    simp
  refine ⟨⟨hm, h2.good hm.inv, fun h => absurd h hc⟩, h3, fun x => ?_⟩
  rw [gaussDen_of (f := ⟨_, r'⟩) h2, gaussDen_of hf.good.denotes, gaussDen_of hg.good.denotes, Real.exp_add]

theorem gauss_cancel {f g r : AnyG} (hf : GaussOk f) (hg : GaussOk g) (h : (gaussOps hs).cancel f g = .ok r) :
    GaussOk r ∧ (∀ v, v ∈ r.2.vars ↔ v ∈ f.2.vars ∨ v ∈ g.2.vars) ∧
      ∀ x, gaussDen r x = gaussDen f x / gaussDen g x := by
  obtain ⟨f', g', r', h1, h2, h3, -⟩ := Gauss.C31_divide hf.made hg.made hf.good.denotes hg.good.denotes
  have h' : (do let (_, _, r) ← f.2.divide g.2; .ok ⟨_, r⟩ : Py AnyG) = .ok r := h
  rw [h1] at h'
  cases h'
  have hm := Made.divide hf.made hg.made h1
  have hc : r'.can ≠ none := by
    have e := Gauss.absorbOrCancel_valid (· - ·) hf.good.toValid hg.good.toValid
    rw [show Gauss.divide f.2 g.2 = _ from e] at h1
    cases h1
    simp
  refine ⟨⟨hm, h2.good hm.inv, fun h => absurd h hc⟩, h3, fun x => ?_⟩
  rw [gaussDen_of (f := ⟨_, r'⟩) h2, gaussDen_of hf.good.denotes, gaussDen_of hg.good.denotes, Real.exp_sub]

theorem gauss_red {f r : AnyG} {vs : List Var} {ks : List ℝ} (hf : GaussOk f) (hn : vs.Nodup)
    (hv : ∀ v ∈ vs, v ∈ f.2.vars) (hl : ks.length = vs.length) (h : (gaussOps hs).reduce f vs ks = .ok r) :
    GaussOk r ∧ (∀ v, v ∈ r.2.vars ↔ v ∈ f.2.vars ∧ v ∉ vs) ∧
      ∀ x, gaussDen r x = gaussDen f (override (vs.zip ks) x) := by
  have h' : (do let (_, r) ← f.2.reduce vs ks; .ok r : Py AnyG) = .ok r := h
  by_cases hex : ∃ v ∈ f.2.vars, v ∉ vs
  · obtain ⟨f', r', h1, h2, h3, -⟩ := (Gauss.C33_reduce_partial hf.made hf.good.denotes hn hl).1 hv hex
    rw [h1] at h'
    cases h'
    have hm := Made.reduce hf.made h1
    have hc : r.2.can ≠ none := by
      unfold Gauss.reduce at h1
      obtain ⟨_, _, h1⟩ := py_bind_eq_ok.1 h1
      obtain ⟨yy, _, h1⟩ := py_bind_eq_ok.1 h1
      dsimp only at h1
      obtain ⟨xx, _, h1⟩ := py_bind_eq_ok.1 h1
      obtain ⟨⟨a', c⟩, _, h1⟩ := py_bind_eq_ok.1 h1
      obtain ⟨y, _, h1⟩ := py_bind_eq_ok.1 h1
      dsimp only at h1
      split at h1
      · obtain ⟨k, hk, h1⟩ := py_bind_eq_ok.1 h1
        obtain ⟨-, -, rfl⟩ := Gauss.mkCan_eq_ok hk
        cases h1
        simp
      · obtain ⟨k, hk, h1⟩ := py_bind_eq_ok.1 h1
        obtain ⟨-, -, rfl⟩ := Gauss.mkCan_eq_ok hk
        cases h1
        simp
    refine ⟨⟨hm, h3.good hm.inv, fun h => absurd h hc⟩, h2, fun x => ?_⟩
    rw [gaussDen_of h3, gaussDen_of hf.good.denotes]
  · push Not at hex
    rw [Gauss.C33_all_observed hf.made hf.good.denotes hl fun v => ⟨hv v, hex v⟩] at h'
    cases h'

/-- What a copy keeps. -/
theorem gauss_copy {f : AnyG} (hf : GaussOk f) : ∃ k, f.2.copy = .ok k ∧ GaussOk ⟨f.1, k⟩ ∧ k.vars = f.2.vars ∧
    canOf k = canOf f.2 ∧ (∀ x, gaussDen ⟨f.1, k⟩ x = gaussDen f x) ∧
    ((canOf f.2).prec.PosDef → k.vac = false) := by
  obtain ⟨k, hk⟩ : ∃ k, f.2.copy = .ok k := by
    unfold Gauss.copy
    have hform := hf.good.form
    cases hcov : f.2.cov with
    | some v =>
      cases hcan : f.2.can with
      | some c =>
        dsimp only
        rw [Gauss.mkCov_ok hf.good.nodup hf.good.len]
        exact ⟨_, rfl⟩
      | none => exact ⟨_, Gauss.mkCov_ok hf.good.nodup hf.good.len⟩
    | none =>
      cases hcan : f.2.can with
      | some c => exact ⟨_, Gauss.mkCan_ok hf.good.nodup hf.good.len⟩
      | none => simp [hcov, hcan] at hform
  have hm := Made.copy hf.made hk
  obtain ⟨hinv, hv, hcan, hcov⟩ := Gauss.copy_inv hf.good.inv hk
  have hgood : Good k := hinv.good fun h v hv' => (hf.good.cov v (hcov ▸ hv')).2
  have hcc : canOf k = canOf f.2 := by unfold canOf; rw [hcan, hcov]
  refine ⟨k, hk, ⟨hm, hgood, fun h v hv' => hf.cov (hcan ▸ h) v (hcov ▸ hv')⟩, hv, hcc, fun x => ?_, fun hpd => ?_⟩
  · rw [gaussDen_of (f := ⟨f.1, k⟩) (Gauss.denotes_of_canOf hf.good hgood hv hcc hf.good.denotes),
      gaussDen_of hf.good.denotes]
  · unfold Gauss.copy at hk
    split at hk
    · obtain ⟨k', h1, h2⟩ := py_bind_eq_ok.1 hk
      obtain ⟨-, -, rfl⟩ := Gauss.mkCov_eq_ok h1
      cases h2
      rfl
    · obtain ⟨-, -, rfl⟩ := Gauss.mkCov_eq_ok hk
      rfl
    · rename_i c h1 h2
      obtain ⟨-, -, rfl⟩ := Gauss.mkCan_eq_ok hk
      rw [Gauss.canOf_can h2] at hpd
      exact Gauss.vacParams_posDef hpd
    · cases hk

theorem gauss_marginalize {n : ℕ} {k : Gauss n} {vrs : List Var} {r' : Gauss (Sparse.marginalVars hs k.vars vrs true).length}
    (hok : GaussOk ⟨n, k⟩) (hn : vrs.Nodup) (hv : ∀ v ∈ vrs, v ∈ k.vars) (h1 : k.marginalize hs vrs true = .ok r') :
    GaussOk ⟨_, r'⟩ ∧ r'.vars = vrs := by
  have hm := Made.marginalize hok.made h1
  have hk2 : Sparse.marginalVars hs k.vars vrs true = vrs := rfl
  suffices hgoal : r'.vars = vrs ∧ Good r' ∧ (r'.can = none → ∀ v, r'.cov = some v → v.cov.PosDef) from
    ⟨⟨hm, hgoal.2.1, hgoal.2.2⟩, hgoal.1⟩
  have hi := hm.inv
  have h1' : k.marginalizeTo hs vrs = .ok r' := h1
  unfold Gauss.marginalizeTo at h1'
  split at h1'
  · obtain ⟨-, -, rfl⟩ := Gauss.mkCan_eq_ok h1'
    exact ⟨rfl, hi.good (fun h => by cases h), fun h => by cases h⟩
  · split at h1'
    · unfold Gauss.canMarginalize at h1'
      obtain ⟨_, _, h1'⟩ := py_bind_eq_ok.1 h1'
      obtain ⟨_, _, h1'⟩ := py_bind_eq_ok.1 h1'
      obtain ⟨_, _, h1'⟩ := py_bind_eq_ok.1 h1'
      dsimp only at h1'
      obtain ⟨_, _, h1'⟩ := py_bind_eq_ok.1 h1'
      obtain ⟨-, -, rfl⟩ := Gauss.mkCan_eq_ok h1'
      exact ⟨rfl, hi.good (fun h => by cases h), fun h => by cases h⟩
    · rename_i hcan
      split at h1'
      · rename_i v hcov
        unfold Gauss.covMarginalize at h1'
        obtain ⟨xx, hx, h1'⟩ := py_bind_eq_ok.1 h1'
        obtain ⟨-, -, rfl⟩ := Gauss.mkCov_eq_ok h1'
        have hinj : Function.Injective xx := by
          intro i j hij
          obtain ⟨p, hp, hp'⟩ := Gauss.positions_ok (vs := vrs) hok.good.len hv
          rw [hp] at hx
          cases hx
          have h2 := congrArg Fin.val hij
          rw [hp', hp'] at h2
          have h3 : vrs[i] = vrs[j] := (List.idxOf_inj (hv _ (List.getElem_mem _))).1 h2
          exact Fin.ext ((List.Nodup.getElem_inj_iff hn).1 h3)
        have hpd : (v.cov.submatrix xx xx).PosDef := (hok.cov hcan v hcov).submatrix hinj
        exact ⟨rfl, hi.good (fun _ w hw => by cases hw; exact hpd.det_pos), fun _ w hw => by cases hw; exact hpd⟩
      · cases h1'

theorem gauss_marg {f r : AnyG} {vrs : List Var} (hf : GaussOk f) (hn : vrs.Nodup) (hv : ∀ v ∈ vrs, v ∈ f.2.vars)
    (h : (gaussOps hs).marginalize f vrs = .ok r) : GaussOk r ∧ r.2.vars = vrs := by
  obtain ⟨k, hk, hok, hkv, -⟩ := gauss_copy hf
  have h' : (do let k ← f.2.copy; let r ← k.marginalize hs vrs true; .ok ⟨_, r⟩ : Py AnyG) = .ok r := h
  rw [hk] at h'
  obtain ⟨r', h1, h2⟩ := py_bind_eq_ok.1 (show (do let r ← k.marginalize hs vrs true; .ok ⟨_, r⟩ : Py AnyG) = .ok r from h')
  cases h2
  exact gauss_marginalize hok hn (fun v h => by rw [hkv]; exact hv v h) h1

theorem gaussDen_pos {f : AnyG} (hf : GaussOk f) (x : Var → ℝ) : 0 < gaussDen f x := by
  rw [hf.den]
  exact Real.exp_pos _

theorem gaussDen_meas {f : AnyG} (hf : GaussOk f) : Measurable (gaussDen f) := by
  rw [show gaussDen f = _ from funext hf.den]
  refine Real.measurable_exp.comp ?_
  unfold Gauss.evalCan Gauss.vecAt Matrix.mulVec dotProduct
  fun_prop

theorem good_posDef {f : AnyG} (hg : Good f.2) {x : Var → ℝ}
    (h : intOut f.2.vars.toFinset (fun y => .ofReal (gaussDen f y)) x ≠ ∞) : (canOf f.2).prec.PosDef := by
  rw [Spec.intOut_list hg.nodup] at h
  obtain ⟨n, vars, can, cov, vac⟩ := f
  have hl := hg.len
  dsimp only at hl h
  subst hl
  refine GaussInt.posDef_of_lintegral hg.symm (canOf (⟨vars, can, cov, vac⟩ : Gauss vars.length)).h
    (canOf (⟨vars, can, cov, vac⟩ : Gauss vars.length)).g ?_
  unfold GaussInt.expQuad
  refine ne_of_eq_of_ne (lintegral_congr fun y => ?_) h
  rw [gaussDen_of hg.denotes]
  unfold Gauss.logOf
  dsimp only
  rw [Gauss.setVars_mem hg.nodup]
  rfl

theorem gauss_posDef {f : AnyG} (hf : GaussOk f) {x : Var → ℝ}
    (h : intOut f.2.vars.toFinset (fun y => .ofReal (gaussDen f y)) x ≠ ∞) : (canOf f.2).prec.PosDef :=
  good_posDef hf.good h

/-- A factor built by some sequence of calls, that can be evaluated and has a finite integral. -/
theorem gaussOk_of_int {f : AnyG} {L : (Var → ℝ) → ℝ} (hm : Made f.2) (hL : Denotes f.2 L) {x : Var → ℝ}
    (hx : IntegrableOut f.2.vars (fun z => Real.exp (L z)) x) : GaussOk f ∧ (canOf f.2).prec.PosDef := by
  have hg := hL.good hm.inv
  have hfun : (fun z => Real.exp (L z)) = gaussDen f := funext fun z => (gaussDen_of hL z).symm
  have hmeas : Measurable (gaussDen f) := by
    rw [show gaussDen f = _ from funext (gaussDen_of hg.denotes)]
    refine Real.measurable_exp.comp ?_
    unfold Gauss.logOf Gauss.evalCan Gauss.vecAt Matrix.mulVec dotProduct
    fun_prop
  rw [hfun] at hx
  have hpd := good_posDef hg ((Spec.integrableOut_iff hg.nodup hmeas (fun y => by
    rw [gaussDen_of hL]; exact (Real.exp_pos _).le) x).1 hx)
  refine ⟨⟨hm, hg, fun hc v hv => ?_⟩, hpd⟩
  rw [Gauss.canOf_cov hg.toValid hv] at hpd
  have h2 := hpd.inv
  have h3 : (v.cov⁻¹)⁻¹ = v.cov := Matrix.nonsing_inv_nonsing_inv _ (by
    have := (hg.cov v hv).2
    exact this.ne'.isUnit)
  rw [← h3]
  exact h2

theorem gauss_int {f r : AnyG} {vrs : List Var} (hf : GaussOk f) (hn : vrs.Nodup) (hv : ∀ v ∈ vrs, v ∈ f.2.vars)
    (h : (gaussOps hs).marginalize f vrs = .ok r)
    (hint : ∃ x, intOut f.2.vars.toFinset (fun y => .ofReal (gaussDen f y)) x ≠ ∞) (x : Var → ℝ) :
    ENNReal.ofReal (gaussDen r x) =
      intOut (f.2.vars.toFinset \ vrs.toFinset) (fun y => .ofReal (gaussDen f y)) x := by
  obtain ⟨_, hx⟩ := hint
  have hpd := gauss_posDef hf hx
  obtain ⟨k, hk, hok, hkv, hkc, hkd, hvac⟩ := gauss_copy hf
  have h' : (do let k ← f.2.copy; let r ← k.marginalize hs vrs true; .ok ⟨_, r⟩ : Py AnyG) = .ok r := h
  rw [hk] at h'
  have h'' : (do let r ← k.marginalize hs vrs true; .ok ⟨_, r⟩ : Py AnyG) = .ok r := h'
  have hgk : Good k := hok.good
  obtain ⟨r', M, h1, h2, h3, h4, h5, h6⟩ := Gauss.C32_marginalize_partial hs hok.made hgk.denotes
    (Gauss.getCan_valid hgk.toValid) (hvac hpd) true hn (by rw [hkv]; exact hv) (fun y hy _ => by
      have := hpd.dotProduct_mulVec_pos hy
      rw [hkc]
      simpa using this)
  rw [h1] at h''
  cases h''
  have hr : r'.vars = vrs := h2 rfl
  obtain ⟨i1, i2⟩ := h6 (f.2.vars.filter (· ∉ vrs)) (hf.good.nodup.filter _) (by
    intro v; rw [hr, hkv]; simp) x
  have hset : (f.2.vars.filter (· ∉ vrs)).toFinset = f.2.vars.toFinset \ vrs.toFinset := by
    ext v; simp
  have hfun : (fun z => Real.exp (Gauss.logOf k hgk.len z)) = gaussDen f := by
    funext z
    rw [← hkd z, gaussDen_of (f := ⟨f.1, k⟩) hgk.denotes]
  rw [hfun] at i1 i2
  have hm := gaussDen_meas hf
  have h0 := fun y => (gaussDen_pos hf y).le
  rw [Spec.integrableOut_iff (hf.good.nodup.filter _) hm h0, hset] at i1
  rw [Spec.integrateOut_eq_intOut (hf.good.nodup.filter _) hm h0, hset] at i2
  rw [gaussDen_of (f := ⟨_, r'⟩) h5, ← i2, ENNReal.ofReal_toReal i1]

/-- The operations of Gaussian factors do what their names say. -/
noncomputable def gaussLaws (hs : HashSeed) : IntLaws (gaussOps hs) where
  Ok := GaussOk
  den := gaussDen
  val := id
  nonneg := fun hf x => (gaussDen_pos hf x).le
  dep := by
    intro f hf x y h
    rw [hf.den, hf.den]
    congr 2
    funext i
    exact h _ (List.getElem_mem _)
  nodup := fun hf => hf.good.nodup
  mul := gauss_mul
  cancel := by
    intro f g r hf hg hsub _ h
    obtain ⟨h1, h2, h3⟩ := gauss_cancel hf hg h
    exact ⟨h1, fun v => (h2 v).trans ⟨fun h => h.elim id (hsub v), .inl⟩, h3⟩
  marg := by
    intro f vrs r hf hn hv h
    obtain ⟨h1, h2⟩ := gauss_marg hf hn hv h
    refine ⟨h1, fun v => by show v ∈ r.2.vars ↔ _; rw [h2], fun x => ?_⟩
    exact ⟨fun h0 => absurd h0 (gaussDen_pos h1 x).ne', fun h0 => absurd (h0 x fun _ _ => rfl) (gaussDen_pos hf x).ne'⟩
  red := by
    intro f vs ks r hf hn hv hl h
    obtain ⟨h1, h2, h3⟩ := gauss_red hf hn hv hl h
    exact ⟨h1, h2, fun x => by rw [h3, List.map_id]⟩
  pos := gaussDen_pos
  meas := gaussDen_meas
  int := fun hf hn hv h hx x => gauss_int hf hn hv h hx x

end Verif.CG
