import Verif.NlgMixModel
import Verif.NonLinProps3
import Verif.MixProps

/-!
# Helper lemmas for mixtures of non-linear Gaussians
-/

namespace Verif.NlgMix
open Matrix Gauss Spec _root_.Verif.Fact _root_.Verif.NLG

/-- The log potentials of the conditional update factor and of the conditioning factor. -/
abbrev Parts := ((Var → ℝ) → ℝ) × ((Var → ℝ) → ℝ)

/-- The factor has the parts `p` and the variables `vars`. -/
structure Comp (vars : List Var) (f : NLG) (p : Parts) : Prop where
  nlg : IsNLG f p.1 p.2
  vars : ∀ v, v ∈ f.vars ↔ v ∈ vars

/-- A mixture of non-linear Gaussians over the variables of the mixture with the parts `Ps`. -/
structure IsNlgMix (a : NlgMix) (Ps : List Parts) : Prop where
  ne : a.nlgs ≠ []
  nodup : a.vars.Nodup
  comps : List.Forall₂ (Comp a.vars) a.nlgs Ps

/-- A function of a non-linear Gaussian that depends only on what is not a part of it: on the variables, the transform,
the noise, the weight and the evidence. -/
def Respects (K : NLG → (Var → ℝ) → ℝ) : Prop := ∀ r a, Keeps r a → K r = K a

/-- The sum over the components of `K` times the potentials of the parts. -/
noncomputable def value (K : NLG → (Var → ℝ) → ℝ) (fs : List NLG) (Ps : List Parts) (x : Var → ℝ) : ℝ :=
  (List.zipWith (fun f p => K f x * Real.exp (p.1 x + p.2 x)) fs Ps).sum

theorem value_cons (K : NLG → (Var → ℝ) → ℝ) (f : NLG) (fs : List NLG) (p : Parts) (Ps : List Parts) (x : Var → ℝ) :
    value K (f :: fs) (p :: Ps) x = K f x * Real.exp (p.1 x + p.2 x) + value K fs Ps x := by
  simp [value]

theorem value_append (K : NLG → (Var → ℝ) → ℝ) {fs : List NLG} {Ps : List Parts} (h : fs.length = Ps.length) (gs : List NLG)
    (Qs : List Parts) (x : Var → ℝ) : value K (fs ++ gs) (Ps ++ Qs) x = value K fs Ps x + value K gs Qs x := by
  unfold value
  rw [List.zipWith_append h, List.sum_append]

theorem keeps_vars {r a : NLG} (h : Keeps r a) : r.vars = a.vars := by
  unfold NLG.vars
  rw [h.xs, h.ys]

theorem Comp.mono {vars vars' : List Var} {f : NLG} {p : Parts} (h : Comp vars f p) (hv : ∀ v, v ∈ vars ↔ v ∈ vars') :
    Comp vars' f p := ⟨h.nlg, fun v => (h.vars v).trans (hv v)⟩

/-! ### The constructor -/

theorem copies_ok {v0 vars : List Var} (h0 : ∀ v, v ∈ v0 ↔ v ∈ vars) {fs : List NLG} {Ps : List Parts}
    (h : List.Forall₂ (Comp vars) fs Ps) :
    ∃ cs, (fs.mapM fun f => do
        pyGuard .valueError (sameSet v0 f.vars)
        f.copy) = .ok cs ∧ List.Forall₂ (Comp vars) cs Ps ∧ List.Forall₂ Keeps cs fs ∧
      ∀ K, Respects K → ∀ x, value K cs Ps x = value K fs Ps x := by
  induction h with
  | nil => exact ⟨[], rfl, .nil, .nil, fun _ _ _ => rfl⟩
  | @cons f p fs Ps h1 h2 ih =>
    obtain ⟨cs, e, hc, hk, hK⟩ := ih
    obtain ⟨j, u, c, e1, hi, -⟩ := copy_ok h1.nlg
    refine ⟨{ f with joint := j, upd := u, cond := c } :: cs, ?_, .cons ⟨hi, h1.vars⟩ hc, .cons (keeps_parts ..) hk,
      fun K hr x => ?_⟩
    · have hss : sameSet v0 f.vars = true := (sameSet_iff).2 fun v => (h0 v).trans (h1.vars v).symm
      rw [List.mapM_cons, hss, e1]
      dsimp only [bind, Except.bind, pyGuard]
      rw [if_pos rfl]
      dsimp only
      have e' := e
      dsimp only [bind, Except.bind, pyGuard] at e'
      rw [e']
      rfl
    · rw [value_cons, value_cons, hK K hr x, hr _ _ (keeps_parts f j u c)]

theorem make_ok {vars : List Var} {fs : List NLG} {Ps : List Parts} (hne : fs ≠ []) (h : List.Forall₂ (Comp vars) fs Ps)
    (s : Bool := true) :
    ∃ r, make fs s = .ok r ∧ IsNlgMix r Ps ∧ r.split = s ∧ (∀ v, v ∈ r.vars ↔ v ∈ vars) ∧ List.Forall₂ Keeps r.nlgs fs ∧
      ∀ K, Respects K → ∀ x, value K r.nlgs Ps x = value K fs Ps x := by
  cases h with
  | nil => exact absurd rfl hne
  | @cons f p fs Ps h1 h2 =>
    obtain ⟨cs, e, hc, hk, hK⟩ := copies_ok (v0 := f.vars) h1.vars (.cons h1 h2)
    refine ⟨⟨f.vars, cs, s⟩, ?_, ⟨?_, h1.nlg.nodup, ?_⟩, rfl, h1.vars, hk, hK⟩
    · unfold make
      dsimp only
      rw [pyGuard, if_pos (decide_eq_true (show f.vars.Nodup from h1.nlg.nodup)), e]
      rfl
    · rintro (rfl : cs = [])
      cases hc
    · exact hc.imp fun _ _ h => h.mono fun v => (h1.vars v).symm

/-! ### Multiplication -/

theorem mulOne {vars : List Var} {f : NLG} {p : Parts} (h : Comp vars f p) {gv : List Var} {g : AnyG} {G : (Var → ℝ) → ℝ}
    (hg : Mix.Comp gv g G) (hv : g.2.vac = false) (hsc : (∀ v ∈ gv, v ∈ f.ys) ∨ ∀ v ∈ gv, v ∈ f.xs) :
    ∃ g' r q, f.multiply g = .ok (g', r) ∧ Mix.Comp gv g' G ∧ g'.2.vac = false ∧ Comp vars r q ∧ Keeps r f ∧
      ∀ x, q.1 x + q.2 x = p.1 x + p.2 x + G x := by
  have hd : Den g (g.2.vars, G) := ⟨hg.made, hg.den, fun _ => Iff.rfl⟩
  by_cases hy : ∀ v ∈ gv, v ∈ f.ys
  · obtain ⟨g', j, u, c, e, hi, dg, hgv, hgc, -⟩ := multiply_ys h.nlg hd hv (by rw [hg.vars]; exact hy)
    exact ⟨g', _, (fun x => p.1 x + G x, p.2), e, ⟨dg.made, dg.den, hgv.trans hg.vars⟩, hgc, ⟨hi, h.vars⟩, keeps_parts ..,
      fun x => by ring⟩
  · obtain ⟨g', j, u, c, e, hi, dg, hgv, hgc, -⟩ := multiply_xs h.nlg hd hv (by rw [hg.vars]; exact hy)
      (by rw [hg.vars]; exact hsc.resolve_left hy)
    exact ⟨g', _, (p.1, fun x => p.2 x + G x), e, ⟨dg.made, dg.den, hgv.trans hg.vars⟩, hgc, ⟨hi, h.vars⟩, keeps_parts ..,
      fun x => by ring⟩

theorem mulRow_ok {vars : List Var} {fs : List NLG} {Ps : List Parts} (h : List.Forall₂ (Comp vars) fs Ps) {gv : List Var}
    {G : (Var → ℝ) → ℝ} (hsc : ∀ f ∈ fs, (∀ v ∈ gv, v ∈ f.ys) ∨ ∀ v ∈ gv, v ∈ f.xs) :
    ∀ {g : AnyG}, Mix.Comp gv g G → g.2.vac = false →
    ∃ g' rs Qs, mulRow fs g = .ok (g', rs) ∧ Mix.Comp gv g' G ∧ g'.2.vac = false ∧ List.Forall₂ (Comp vars) rs Qs ∧
      List.Forall₂ Keeps rs fs ∧
      ∀ K, Respects K → ∀ x, value K rs Qs x = value K fs Ps x * Real.exp (G x) := by
  induction h with
  | nil => exact fun {g} hg hv => ⟨g, [], [], rfl, hg, hv, .nil, .nil, fun K _ x => by simp [value]⟩
  | @cons f p fs Ps h1 h2 ih =>
    intro g hg hv
    obtain ⟨g', r, q, e1, hg', hv', hr, kr, hq⟩ := mulOne h1 hg hv (hsc f (by simp))
    obtain ⟨g'', rs, Qs, e2, hg'', hv'', hrs, hk, hK⟩ := ih (fun f hf => hsc f (by simp [hf])) hg' hv'
    refine ⟨g'', r :: rs, q :: Qs, ?_, hg'', hv'', .cons hr hrs, .cons kr hk, fun K hR x => ?_⟩
    · unfold mulRow
      rw [e1]
      dsimp only [bind, Except.bind]
      rw [e2]
    · rw [value_cons, value_cons, hK K hR x, hR _ _ kr, hq, Real.exp_add (p.1 x + p.2 x)]
      ring

theorem mulAll_ok {vars : List Var} {fs : List NLG} {Ps : List Parts} (h : List.Forall₂ (Comp vars) fs Ps) {gv : List Var}
    (hsc : ∀ f ∈ fs, (∀ v ∈ gv, v ∈ f.ys) ∨ ∀ v ∈ gv, v ∈ f.xs) {gs : List AnyG} {Gs : List ((Var → ℝ) → ℝ)}
    (hg : List.Forall₂ (Mix.Comp gv) gs Gs) (hv : ∀ g ∈ gs, g.2.vac = false) :
    ∃ gs' rs Qs, mulAll fs gs = .ok (gs', rs) ∧ List.Forall₂ (Mix.Comp gv) gs' Gs ∧ List.Forall₂ (Comp vars) rs Qs ∧
      rs.length = gs.length * fs.length ∧ (∀ r ∈ rs, ∃ f ∈ fs, Keeps r f) ∧
      ∀ K, Respects K → ∀ x, value K rs Qs x = value K fs Ps x * Mix.mixFn Gs x := by
  induction hg with
  | nil => exact ⟨[], [], [], rfl, .nil, .nil, by simp, by simp, fun K _ x => by simp [value, Mix.mixFn]⟩
  | @cons g G gs Gs h1 h2 ih =>
    obtain ⟨g', rs, Qs, e1, hg', -, hr, hk, hK⟩ := mulRow_ok h hsc h1 (hv g (by simp))
    obtain ⟨gs', rs', Qs', e2, hgs, hrs, hl, hk', hK'⟩ := ih fun g hg => hv g (by simp [hg])
    refine ⟨g' :: gs', rs ++ rs', Qs ++ Qs', ?_, .cons hg' hgs, List.rel_append hr hrs, ?_, ?_, fun K hR x => ?_⟩
    · unfold mulAll
      rw [e1]
      dsimp only [bind, Except.bind]
      rw [e2]
    · rw [List.length_append, hl, hk.length_eq, List.length_cons]
      ring
    · intro r hr'
      rcases List.mem_append.1 hr' with h | h
      · obtain ⟨i, hi, rfl⟩ := List.mem_iff_getElem.1 h
        have := List.forall₂_iff_get.1 hk
        exact ⟨fs[i]'(this.1 ▸ hi), List.getElem_mem _, this.2 i hi (this.1 ▸ hi)⟩
      · exact hk' r h
    · rw [value_append K hr.length_eq, hK K hR x, hK' K hR x]
      simp only [Mix.mixFn, List.map_cons, List.sum_cons]
      ring

end Verif.NlgMix
