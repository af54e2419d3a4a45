import Verif.ClusterGauss
import Verif.ClusterIntTotal
import Verif.GaussProps3

/-!
# Operations on Gaussian factors that can be normalised do not fail
-/

namespace Verif.CG
open Spec (override intOut IntegrableOut integrateOut)
open Gauss (AnyG Made Denotes Good canOf)
open MeasureTheory Classical
open scoped ENNReal

variable {hs : HashSeed}

/-- A Gaussian can be normalised if and only if its precision is positive definite. -/
theorem gauss_norm {f : AnyG} (hf : GaussOk f) : Norm (gaussLaws hs) f ↔ (canOf f.2).prec.PosDef := by
  constructor
  · rintro ⟨x, hx⟩
    exact gauss_posDef hf hx
  · intro hpd
    refine ⟨0, ?_⟩
    have h := (Gauss.integrate_good hf.good hpd 0).1
    have hfun : (fun z => Real.exp (Gauss.logOf f.2 hf.good.len z)) = gaussDen f := by
      funext z
      rw [gaussDen_of hf.good.denotes]
    rw [hfun] at h
    exact (Spec.integrableOut_iff hf.good.nodup (gaussDen_meas hf) (fun y => (gaussDen_pos hf y).le) 0).1 h

theorem positions_inj {n : ℕ} {vars vs : List Var} (hl : vars.length = n) (hn : vs.Nodup) (hv : ∀ v ∈ vs, v ∈ vars)
    {xx : Fin vs.length → Fin n} (hx : Gauss.positions vars n vs = .ok xx) : Function.Injective xx := by
  intro i j hij
  obtain ⟨p, hp, hp'⟩ := Gauss.positions_ok (vs := vs) hl hv
  rw [hp] at hx
  cases hx
  have h2 := congrArg Fin.val hij
  rw [hp', hp'] at h2
  have h3 : vs[i] = vs[j] := (List.idxOf_inj (hv _ (List.getElem_mem _))).1 h2
  exact Fin.ext ((List.Nodup.getElem_inj_iff hn).1 h3)

/-- Observing variables keeps the precision positive definite. -/
theorem gauss_red_posDef {f r : AnyG} {vs : List Var} {ks : List ℝ} (hf : GaussOk f)
    (hpd : (canOf f.2).prec.PosDef) (hok : GaussOk r) (h : (gaussOps hs).reduce f vs ks = .ok r) :
    (canOf r.2).prec.PosDef := by
  have h' : (do let (_, r) ← f.2.reduce vs ks; .ok r : Py AnyG) = .ok r := h
  obtain ⟨⟨a', r'⟩, h1, h2⟩ := py_bind_eq_ok.1 h'
  cases h2
  unfold Gauss.reduce at h1
  obtain ⟨_, _, h1⟩ := py_bind_eq_ok.1 h1
  obtain ⟨yy, _, h1⟩ := py_bind_eq_ok.1 h1
  dsimp only at h1
  obtain ⟨xx, hx, h1⟩ := py_bind_eq_ok.1 h1
  obtain ⟨⟨a', c⟩, hc, h1⟩ := py_bind_eq_ok.1 h1
  obtain ⟨y, _, h1⟩ := py_bind_eq_ok.1 h1
  dsimp only at h1
  obtain ⟨-, -, hcc⟩ := Gauss.getCan_inv hf.made.inv hc
  subst hcc
  split at h1
  · rename_i hun
    obtain ⟨k, hk, h1⟩ := py_bind_eq_ok.1 h1
    obtain ⟨-, hlen, rfl⟩ := Gauss.mkCan_eq_ok hk
    rw [hun] at hlen
    simp at hlen
  · obtain ⟨k, hk, h1⟩ := py_bind_eq_ok.1 h1
    obtain ⟨-, -, rfl⟩ := Gauss.mkCan_eq_ok hk
    cases h1
    show (canOf f.2).prec.submatrix xx xx |>.PosDef
    exact hpd.submatrix (positions_inj hf.good.len (nodup_pySorted.2 (List.nodup_dedup _))
      (fun v hv => (Gauss.mem_unobserved.1 hv).1) hx)

/-- The divergence of two Gaussians that can be normalised and list their variables in the same order. -/
theorem gauss_kl {f g : AnyG} (hf : GaussOk f) (hg : GaussOk g) (hv : f.2.vars = g.2.vars)
    (pf : (canOf f.2).prec.PosDef) (pg : (canOf g.2).prec.PosDef) :
    ∃ r : ℝ, 0 ≤ r ∧ (gaussOps hs).kl f g = .ok (r : EReal) ∧
      ((∃ c : ℝ, 0 < c ∧ ∀ x, gaussDen g x = c * gaussDen f x) → r = 0) := by
  obtain ⟨k, hk, ok, kv, kc, kd, kvac⟩ := gauss_copy hf
  obtain ⟨l, hl, ol, lv, lc, ld, lvac⟩ := gauss_copy hg
  obtain ⟨n, f⟩ := f
  obtain ⟨m, g⟩ := g
  have hnm : m = n := (hg.good.len.symm.trans (congrArg List.length hv.symm)).trans hf.good.len
  subst hnm
  have hgk : Good k := ok.good
  have hgl : Good l := ol.good
  have pk : (canOf k).prec.PosDef := by rw [kc]; exact pf
  have pl : (canOf l).prec.PosDef := by rw [lc]; exact pg
  have vk : k.isVacuous = false := by
    unfold Gauss.isVacuous
    rw [kvac pf, Bool.false_or]
    cases hc : k.can with
    | none => rfl
    | some c => rw [Gauss.canOf_can hc] at pk; exact Gauss.vacParams_posDef pk
  have vl : l.isVacuous = false := by
    unfold Gauss.isVacuous
    rw [lvac pg, Bool.false_or]
    cases hc : l.can with
    | none => rfl
    | some c => rw [Gauss.canOf_can hc] at pl; exact Gauss.vacParams_posDef pl
  have hvv : l.vars = k.vars := by rw [kv, lv]; exact hv.symm
  obtain ⟨a', b', r, h1, h2, -, -, h5⟩ := Gauss.C36_kl_partial ok.made ol.made hgk.denotes hgl.denotes
    (Gauss.getCan_valid hgk.toValid) (Gauss.getCan_valid hgl.toValid) pk pl vk vl hvv
  refine ⟨r, h2, ?_, ?_⟩
  · show (do let k ← f.copy; let l ← g.copy; let (_, _, d) ← k.klDivergence l; toGain d : Py EReal) = _
    rw [show f.copy = .ok k from hk, py_bind_ok, show g.copy = .ok l from hl, py_bind_ok, h1]
    rfl
  · rintro ⟨c, hc, hx⟩
    rcases h5 with h5 | h5
    · exact h5.1
    · rw [← (h5 0).2]
      have hQ : (Spec.normalised k.vars fun z => Real.exp (Gauss.logOf l hgl.len z)) =
          Spec.normalised k.vars fun z => Real.exp (Gauss.logOf k hgk.len z) := by
        have e : (fun z => Real.exp (Gauss.logOf l hgl.len z)) = fun z => c * Real.exp (Gauss.logOf k hgk.len z) := by
          funext z
          rw [← gaussDen_of (f := ⟨_, l⟩) hgl.denotes, ← gaussDen_of (f := ⟨_, k⟩) hgk.denotes]
          exact ((ld z).trans (hx z)).trans (by rw [← kd z])
        rw [e]
        funext z
        unfold Spec.normalised Spec.integrateOut
        rw [integral_const_mul, mul_div_mul_left _ _ hc.ne']
      rw [hQ]
      unfold Spec.integrateOut Spec.klIntegrand
      simp

theorem gauss_bdd {f : AnyG} (hf : GaussOk f) (hpd : (canOf f.2).prec.PosDef) : ∃ B : ℝ, ∀ x, gaussDen f x ≤ B := by
  refine ⟨Real.exp ((canOf f.2).g + 1 / 2 * ((canOf f.2).h ⬝ᵥ (canOf f.2).prec⁻¹.mulVec (canOf f.2).h)), fun x => ?_⟩
  rw [hf.den]
  unfold Gauss.evalCan
  rw [GaussInt.quad_eq hpd]
  refine mul_le_of_le_one_right (Real.exp_pos _).le ?_
  unfold GaussInt.bell
  rw [Real.exp_le_one_iff]
  have := hpd.posSemidef.dotProduct_mulVec_nonneg (Gauss.vecAt f.2.vars hf.good.len x -
    (canOf f.2).prec⁻¹.mulVec (canOf f.2).h)
  simp only [star_trivial] at this
  linarith

/-- No operation on Gaussian factors that can be normalised raises. -/
theorem gaussTotal (hs : HashSeed) : TotalI (gaussLaws hs) where
  mul := by
    intro f g hf hg
    obtain ⟨_, _, r, h, -⟩ := Gauss.C30_multiply hf.made hg.made hf.good.denotes hg.good.denotes
    refine ⟨⟨_, r⟩, ?_⟩
    show (do let (_, _, r) ← f.2.multiply g.2; .ok ⟨_, r⟩ : Py AnyG) = _
    rw [h]
    rfl
  cancel := by
    intro f g hf hg
    obtain ⟨_, _, r, h, -⟩ := Gauss.C31_divide hf.made hg.made hf.good.denotes hg.good.denotes
    refine ⟨⟨_, r⟩, ?_⟩
    show (do let (_, _, r) ← f.2.divide g.2; .ok ⟨_, r⟩ : Py AnyG) = _
    rw [h]
    rfl
  cancelVars := by
    intro f g r hf hg hsub h
    have h' : (do let (_, _, r) ← f.2.divide g.2; .ok ⟨_, r⟩ : Py AnyG) = .ok r := h
    rw [show Gauss.divide f.2 g.2 = _ from
      Gauss.absorbOrCancel_valid (· - ·) hf.good.toValid hg.good.toValid] at h'
    cases h'
    exact if_pos hsub
  marg := by
    intro f vrs hf hN hn hv
    have hpd := (gauss_norm hf).1 hN
    obtain ⟨k, hk, hok, hkv, hkc, hkd, hvac⟩ := gauss_copy hf
    have hgk : Good k := hok.good
    obtain ⟨r', M, h1, h2, -⟩ := Gauss.C32_marginalize_partial hs hok.made hgk.denotes
      (Gauss.getCan_valid hgk.toValid) (hvac hpd) true hn (by rw [hkv]; exact hv) (fun y hy _ => by
        have := hpd.dotProduct_mulVec_pos hy
        rw [hkc]
        simpa using this)
    refine ⟨⟨_, r'⟩, ?_, h2 rfl⟩
    show (do let k ← f.2.copy; let r ← k.marginalize hs vrs true; .ok ⟨_, r⟩ : Py AnyG) = _
    rw [hk, py_bind_ok, h1]
    rfl
  red := by
    intro f vs ks hf hn hv hl hex
    obtain ⟨f', r, h, -⟩ := (Gauss.C33_reduce_partial hf.made hf.good.denotes hn hl).1 hv hex
    refine ⟨r, ?_⟩
    show (do let (_, r) ← f.2.reduce vs ks; .ok r : Py AnyG) = _
    rw [h]
    rfl
  dist := by
    intro f hf _
    obtain ⟨k, hk, -⟩ := gauss_copy hf
    show ∃ d, (do let k ← f.2.copy; toGain k.distanceFromVacuous : Py EReal) = .ok d
    rw [hk, py_bind_ok]
    unfold Gauss.distanceFromVacuous
    split <;> exact ⟨_, rfl⟩
  kl := by
    intro f g hf hg hv nf ng
    obtain ⟨r, -, h, -⟩ := gauss_kl (hs := hs) hf hg hv ((gauss_norm hf).1 nf) ((gauss_norm hg).1 ng)
    exact ⟨_, h⟩
  bdd := fun hf hN => gauss_bdd hf ((gauss_norm hf).1 hN)
  redNorm := by
    intro f vs ks r hf hN hn hv hl h
    have hr := (gauss_red hf hn hv hl h).1
    exact (gauss_norm hr).2 (gauss_red_posDef hf ((gauss_norm hf).1 hN) hr h)

end Verif.CG
