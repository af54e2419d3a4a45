import Verif.MixCgModel
import Verif.MixProps
import Verif.CatProps4

/-!
# Gaussian mixtures in cluster graphs: the laws
-/

namespace Verif.CG
open Spec (override intOut)
open Gauss (AnyG Made Denotes Good canOf)
open Mix (copyG make Comp IsMix mixFn)
open MeasureTheory Classical
open scoped ENNReal

variable {hs : HashSeed} {approx : ℕ → Mix → Mix → Py (Mix × Mix × Mix)}

/-- A mixture of Gaussians that can be evaluated. -/
structure MixOk (a : Mix) : Prop where
  ne : a.comps ≠ []
  comp : ∀ c ∈ a.comps, GaussOk c ∧ c.2.vars = a.vars

theorem gauss_comp {c : AnyG} {vars : List Var} (hc : GaussOk c) (hv : c.2.vars = vars) :
    Comp vars c fun z => Real.log (gaussDen c z) :=
  ⟨hc.made, hc.good.denotes.congr fun x => by rw [gaussDen_of hc.good.denotes, Real.log_exp], hv⟩

/-- The logarithms of the components. -/
noncomputable def mixLogs (a : Mix) : List ((Var → ℝ) → ℝ) := a.comps.map fun c z => Real.log (gaussDen c z)

theorem MixOk.isMix {a : Mix} (h : MixOk a) : IsMix a (mixLogs a) := by
  refine ⟨h.ne, ?_⟩
  unfold mixLogs
  have := h.comp
  generalize a.comps = l at this
  induction l with
  | nil => exact .nil
  | cons c l ih =>
    exact .cons (gauss_comp (this c (by simp)).1 (this c (by simp)).2) (ih fun c hc => this c (by simp [hc]))

theorem mixFn_logs {a : Mix} (h : MixOk a) (x : Var → ℝ) : mixFn (mixLogs a) x = (a.comps.map fun c => gaussDen c x).sum := by
  unfold mixFn mixLogs
  rw [List.map_map]
  congr 1
  refine List.map_congr_left fun c hc => ?_
  exact Real.exp_log (gaussDen_pos (h.comp c hc).1 x)

theorem mixDen_pot {a : Mix} {F : (Var → ℝ) → ℝ} (h : Mix.Pot a F) (x : Var → ℝ) : mixDen a x = F x := by
  unfold mixDen
  rw [(h x).1]

theorem mixDen_fn {a : Mix} (h : MixOk a) (x : Var → ℝ) : mixDen a x = mixFn (mixLogs a) x := mixDen_pot h.isMix.pot x

theorem mixDen_eq {a : Mix} (h : MixOk a) (x : Var → ℝ) : mixDen a x = (a.comps.map fun c => gaussDen c x).sum := by
  rw [mixDen_fn h, mixFn_logs h]

theorem MixOk.nodup {a : Mix} (h : MixOk a) : a.vars.Nodup := h.isMix.nodup

theorem MixOk.of {a : Mix} {Ls : List ((Var → ℝ) → ℝ)} (h : IsMix a Ls) (hc : ∀ c ∈ a.comps, c.2.can ≠ none) : MixOk a := by
  refine ⟨h.ne, fun c hm => ?_⟩
  obtain ⟨L, hL⟩ : ∃ L, Comp a.vars c L := by
    have h2 := h.comps
    clear hc h
    generalize a.comps = l at h2 hm
    induction h2 with
    | nil => cases hm
    | cons h1 _ ih =>
      rcases List.mem_cons.1 hm with rfl | hm
      · exact ⟨_, h1⟩
      · exact ih hm
  exact ⟨⟨hL.made, hL.good, fun h => absurd h (hc c hm)⟩, hL.vars⟩

/-! ### The constructor -/

theorem make_inv {gs : List AnyG} {cm : ℕ} {M : Mix} (h : make gs cm = .ok M) :
    gs ≠ [] ∧ List.Forall₂ (fun g c => copyG g = .ok c) gs M.comps ∧ ∀ g0 ∈ gs.head?, M.vars = g0.2.vars := by
  cases gs with
  | nil => cases h
  | cons g0 gs =>
    unfold make at h
    obtain ⟨cs, h1, h⟩ := py_bind_eq_ok.1 h
    split at h
    · cases h
    · split at h
      · cases h
      · cases h
        refine ⟨by simp, Cat.mapM_inv h1, ?_⟩
        intro g hg
        cases hg
        rfl

theorem copyG_inv {g c : AnyG} (hg : GaussOk g) (h : copyG g = .ok c) :
    GaussOk c ∧ c.2.vars = g.2.vars ∧ (∀ x, gaussDen c x = gaussDen g x) ∧ (g.2.can ≠ none → c.2.can ≠ none) := by
  obtain ⟨k, h1, h2, h3, -, h5, -⟩ := gauss_copy hg
  unfold copyG at h
  rw [h1, py_bind_ok] at h
  cases h
  refine ⟨h2, h3, h5, fun hc => ?_⟩
  obtain ⟨-, -, hcan, -⟩ := Gauss.copy_inv hg.good.inv h1
  rw [hcan]
  exact hc

theorem make_mix {gs : List AnyG} {vs : List Var} {M : Mix} (hg : ∀ g ∈ gs, GaussOk g ∧ g.2.vars = vs)
    (h : make gs = .ok M) : MixOk M ∧ M.vars = vs ∧ ∀ x, mixDen M x = (gs.map fun g => gaussDen g x).sum := by
  obtain ⟨h1, h2, h3⟩ := make_inv h
  have hv : M.vars = vs := by
    cases gs with
    | nil => exact absurd rfl h1
    | cons g gs => rw [h3 g rfl]; exact (hg g (by simp)).2
  have key : (∀ c ∈ M.comps, GaussOk c ∧ c.2.vars = vs) ∧
      ∀ x, (M.comps.map fun c => gaussDen c x).sum = (gs.map fun g => gaussDen g x).sum := by
    clear h3 h h1
    generalize M.comps = cs at h2
    induction h2 with
    | nil => exact ⟨fun c hc => (by cases hc), fun x => rfl⟩
    | @cons g c gs cs hgc _ ih =>
      obtain ⟨i1, i2⟩ := ih fun g h => hg g (by simp [h])
      obtain ⟨k1, k2, k3, -⟩ := copyG_inv (hg g (by simp)).1 hgc
      refine ⟨fun c' hc' => ?_, fun x => ?_⟩
      · rcases List.mem_cons.1 hc' with rfl | hc'
        · exact ⟨k1, k2.trans (hg g (by simp)).2⟩
        · exact i1 c' hc'
      · rw [List.map_cons, List.map_cons, List.sum_cons, List.sum_cons, k3, i2]
  have hM : MixOk M := by
    refine ⟨?_, fun c hc => ?_⟩
    · intro he
      rw [he] at h2
      cases h2
      exact h1 rfl
    · rw [hv]
      exact key.1 c hc
  exact ⟨hM, hv, fun x => by rw [mixDen_eq hM, key.2]⟩

/-! ### Products -/

theorem op_can {op : ℝ → ℝ → ℝ} {m n : ℕ} {a : Gauss m} {b : Gauss n} {t} (h : Gauss.absorbOrCancel op a b = .ok t) :
    t.2.2.can ≠ none := by
  unfold Gauss.absorbOrCancel at h
  obtain ⟨_, -, h⟩ := py_bind_eq_ok.1 h
  obtain ⟨_, -, h⟩ := py_bind_eq_ok.1 h
  obtain ⟨_, -, h⟩ := py_bind_eq_ok.1 h
  obtain ⟨_, -, h⟩ := py_bind_eq_ok.1 h
  obtain ⟨k, hk, h⟩ := py_bind_eq_ok.1 h
  obtain ⟨-, -, rfl⟩ := Gauss.mkCan_eq_ok hk
  cases h
  simp

theorem opEach_can {op : ℝ → ℝ → ℝ} {as : List AnyG} {g : AnyG} {t} (h : Mix.opEach op as g = .ok t) :
    ∀ r ∈ t.2.2, r.2.can ≠ none := by
  induction as generalizing g t with
  | nil => cases h; intro r hr; cases hr
  | cons a as ih =>
    unfold Mix.opEach at h
    obtain ⟨⟨c', g', r⟩, h1, h⟩ := py_bind_eq_ok.1 h
    obtain ⟨⟨cs', g'', rs⟩, h2, h⟩ := py_bind_eq_ok.1 h
    cases h
    intro r' hr'
    rcases List.mem_cons.1 hr' with rfl | hr'
    · exact op_can h1
    · exact ih h2 r' hr'

theorem mulRow_can {g : AnyG} {bs : List AnyG} {t} (h : Mix.mulRow g bs = .ok t) : ∀ r ∈ t.2.2, r.2.can ≠ none := by
  induction bs generalizing g t with
  | nil => cases h; intro r hr; cases hr
  | cons a as ih =>
    unfold Mix.mulRow at h
    obtain ⟨⟨c', g', r⟩, h1, h⟩ := py_bind_eq_ok.1 h
    obtain ⟨⟨cs', g'', rs⟩, h2, h⟩ := py_bind_eq_ok.1 h
    cases h
    intro r' hr'
    rcases List.mem_cons.1 hr' with rfl | hr'
    · exact op_can h1
    · exact ih h2 r' hr'

theorem mulAll_can {as bs : List AnyG} {t} (h : Mix.mulAll as bs = .ok t) : ∀ r ∈ t.2.2, r.2.can ≠ none := by
  induction as generalizing bs t with
  | nil => cases h; intro r hr; cases hr
  | cons a as ih =>
    unfold Mix.mulAll at h
    obtain ⟨⟨c', g', r⟩, h1, h⟩ := py_bind_eq_ok.1 h
    obtain ⟨⟨cs', g'', rs⟩, h2, h⟩ := py_bind_eq_ok.1 h
    cases h
    intro r' hr'
    rcases List.mem_append.1 hr' with hr' | hr'
    · exact mulRow_can h1 r' hr'
    · exact ih h2 r' hr'

/-- Copies have canonical parameters if the originals have. -/
theorem make_can {gs : List AnyG} {M : Mix} (hg : ∀ g ∈ gs, g.2.can ≠ none) (h : make gs = .ok M) :
    ∀ c ∈ M.comps, c.2.can ≠ none := by
  obtain ⟨-, h2, -⟩ := make_inv h
  clear h
  generalize M.comps = cs at h2
  induction h2 with
  | nil => intro c hc; cases hc
  | @cons g c gs cs hgc _ ih =>
    intro c' hc'
    rcases List.mem_cons.1 hc' with rfl | hc'
    · have h1 := hg g (by simp)
      unfold copyG at hgc
      obtain ⟨k, hk, hgc⟩ := py_bind_eq_ok.1 hgc
      cases hgc
      unfold Gauss.copy at hk
      split at hk
      · obtain ⟨k', h3, h4⟩ := py_bind_eq_ok.1 hk
        cases h4
        simp
      · rename_i h0
        exact absurd h0 h1
      · obtain ⟨-, -, rfl⟩ := Gauss.mkCan_eq_ok hk
        simp
      · cases hk
    · exact ih (fun g h => hg g (by simp [h])) c' hc'

theorem mix_mulG {a r a' : Mix} {g g' : AnyG} (ha : MixOk a) (hg : GaussOk g) (h : a.multiplyG g = .ok (a', g', r)) :
    MixOk r ∧ (∀ v, v ∈ r.vars ↔ v ∈ a.vars ∨ v ∈ g.2.vars) ∧ ∀ x, mixDen r x = mixDen a x * gaussDen g x := by
  obtain ⟨M', g'', R, Rs, h1, h2, h3, h4, -⟩ := Mix.C56_multiply_gaussian ha.isMix hg.made hg.good.denotes
  rw [show a.multiplyG ⟨g.1, g.2⟩ = _ from h] at h1
  cases h1
  refine ⟨.of h2 ?_, h4, fun x => ?_⟩
  · unfold Mix.multiplyG at h
    obtain ⟨⟨cs, g', rs⟩, k1, h⟩ := py_bind_eq_ok.1 h
    obtain ⟨R, k2, h⟩ := py_bind_eq_ok.1 h
    cases h
    exact make_can (opEach_can k1) k2
  · rw [mixDen_pot h3, mixDen_fn ha, gaussDen_of hg.good.denotes]

theorem mix_mul {a b r a' b' : Mix} (ha : MixOk a) (hb : MixOk b) (h : a.multiply b = .ok (a', b', r)) :
    MixOk r ∧ (∀ v, v ∈ r.vars ↔ v ∈ a.vars ∨ v ∈ b.vars) ∧ ∀ x, mixDen r x = mixDen a x * mixDen b x := by
  obtain ⟨M', g'', R, Rs, h1, h2, h3, h4, -⟩ := Mix.C56_multiply ha.isMix hb.isMix
  rw [h] at h1
  cases h1
  refine ⟨.of h2 ?_, h4, fun x => ?_⟩
  · unfold Mix.multiply at h
    obtain ⟨⟨cs, g', rs⟩, k1, h⟩ := py_bind_eq_ok.1 h
    obtain ⟨R, k2, h⟩ := py_bind_eq_ok.1 h
    cases h
    exact make_can (mulAll_can k1) k2
  · rw [mixDen_pot h3, mixDen_fn ha, mixDen_fn hb]

/-! ### Evidence and marginals -/

theorem mix_red (hs : HashSeed) {a r a' : Mix} {vs : List Var} {ks : List ℝ} (ha : MixOk a) (hn : vs.Nodup) (hv : ∀ v ∈ vs, v ∈ a.vars)
    (hl : ks.length = vs.length) (h : a.reduce vs ks = .ok (a', r)) :
    MixOk r ∧ (∀ v, v ∈ r.vars ↔ v ∈ a.vars ∧ v ∉ vs) ∧ ∀ x, mixDen r x = mixDen a (override (vs.zip ks) x) := by
  unfold Mix.reduce at h
  obtain ⟨l, h1, h⟩ := py_bind_eq_ok.1 h
  obtain ⟨r', h2, h⟩ := py_bind_eq_ok.1 h
  have h3 := Cat.mapM_inv h1
  injection h with h
  injection h with _ h
  subst h
  have key : (∀ g ∈ l.map Prod.snd, GaussOk g ∧ g.2.vars = Gauss.unobserved a.vars vs) ∧
      ∀ x, ((l.map Prod.snd).map fun g => gaussDen g x).sum =
        (a.comps.map fun c => gaussDen c (override (vs.zip ks) x)).sum := by
    have hc := ha.comp
    clear * - hn hv hl h3 hc hs
    generalize a.comps = cs at h3 hc
    induction h3 with
    | nil => exact ⟨fun c hc => (by cases hc), fun x => rfl⟩
    | @cons c p cs ps hcp _ ih =>
      obtain ⟨i1, i2⟩ := ih fun c h => hc c (by simp [h])
      obtain ⟨hok, hcv⟩ := hc c (by simp)
      unfold Mix.reduceG at hcp
      obtain ⟨⟨g', r⟩, k1, hcp⟩ := py_bind_eq_ok.1 hcp
      cases hcp
      obtain ⟨e1, -, e3⟩ := gauss_red (hs := hs) (r := r) hok hn (by rw [hcv]; exact hv) hl (by
        show (do let (_, r) ← c.2.reduce vs ks; .ok r : Py AnyG) = _
        rw [k1]
        rfl)
      have e4 := Mix.reduce_vars k1
      refine ⟨fun g hg => ?_, fun x => ?_⟩
      · rcases List.mem_cons.1 hg with rfl | hg
        · exact ⟨e1, by rw [e4, hcv]⟩
        · exact i1 g hg
      · rw [List.map_cons, List.map_cons, List.map_cons, List.sum_cons, List.sum_cons, i2, e3]
  obtain ⟨m1, m2, m3⟩ := make_mix key.1 h2
  refine ⟨m1, fun v => ?_, fun x => ?_⟩
  · rw [m2]
    unfold Gauss.unobserved
    simp
  · rw [m3, key.2, mixDen_eq ha]

theorem sum_intOut {S : Finset Var} {l : List AnyG} (hl : ∀ c ∈ l, GaussOk c) (x : Var → ℝ) :
    intOut S (fun y => .ofReal (l.map fun c => gaussDen c y).sum) x =
      (l.map fun c => intOut S (fun y => .ofReal (gaussDen c y)) x).sum := by
  induction l with
  | nil =>
    unfold intOut lmarginal
    simp
  | cons c l ih =>
    rw [List.map_cons, List.sum_cons, ← ih fun c hc => hl c (by simp [hc])]
    unfold intOut lmarginal
    rw [← lintegral_add_left]
    · refine lintegral_congr fun y => ?_
      dsimp only
      rw [List.map_cons, List.sum_cons, ENNReal.ofReal_add (gaussDen_pos (hl c (by simp)) _).le]
      refine List.sum_nonneg fun t ht => ?_
      obtain ⟨c', hc', rfl⟩ := List.mem_map.1 ht
      exact (gaussDen_pos (hl c' (by simp [hc'])) _).le
    · exact ((gaussDen_meas (hl c (by simp))).comp measurable_updateFinset).ennreal_ofReal

/-- A marginal of a copy of a mixture, component by component. -/
theorem mix_marginalize {a r : Mix} {vrs : List Var} (h : gmMarginalize hs (.inr a) vrs = .ok (.inr r)) :
    ∃ cs rs, List.Forall₂ (fun c c' => copyG c = .ok c') a.comps cs ∧
      List.Forall₂ (fun c r => (gaussOps hs).marginalize c vrs = .ok r) cs rs ∧ make rs = .ok r := by
  obtain ⟨k, h1, h⟩ := py_bind_eq_ok.1 (show (do
    let k ← a.copy
    let r ← k.marginalize hs vrs true
    .ok (.inr r) : Py GM) = _ from h)
  obtain ⟨r', h2, h⟩ := py_bind_eq_ok.1 h
  cases h
  unfold Mix.copy at h1
  obtain ⟨cs, h3, h1⟩ := py_bind_eq_ok.1 h1
  obtain ⟨-, h4, -⟩ := make_inv h1
  unfold Mix.marginalize at h2
  obtain ⟨rs, h5, h2⟩ := py_bind_eq_ok.1 h2
  refine ⟨cs, rs, Cat.mapM_inv h3, ?_, h2⟩
  have h6 := Cat.mapM_inv h5
  clear h5 h3 h1 h2
  generalize k.comps = ks at h4 h6
  induction h4 generalizing rs with
  | nil => cases h6; exact .nil
  | @cons c k' cs ks hck _ ih =>
    cases h6 with
    | cons h7 h8 =>
      refine .cons ?_ (ih _ h8)
      unfold copyG at hck
      obtain ⟨k'', e1, e2⟩ := py_bind_eq_ok.1 hck
      cases e2
      show (do let k ← c.2.copy; let r ← k.marginalize hs vrs true; .ok ⟨_, r⟩ : Py AnyG) = _
      rw [e1, py_bind_ok]
      exact h7

theorem mix_marg {a r : Mix} {vrs : List Var} (ha : MixOk a) (hn : vrs.Nodup) (hv : ∀ v ∈ vrs, v ∈ a.vars)
    (h : gmMarginalize hs (.inr a) vrs = .ok (.inr r)) : MixOk r ∧ r.vars = vrs ∧
      ((∃ x, intOut a.vars.toFinset (fun y => .ofReal (mixDen a y)) x ≠ ∞) → ∀ x, ENNReal.ofReal (mixDen r x) =
        intOut (a.vars.toFinset \ vrs.toFinset) (fun y => .ofReal (mixDen a y)) x) := by
  obtain ⟨cs, rs, h1, h2, h3⟩ := mix_marginalize h
  have hfun : mixDen a = fun y => (a.comps.map fun c => gaussDen c y).sum := funext (mixDen_eq ha)
  rw [hfun]
  have hc := ha.comp
  have key : (∀ g ∈ rs, GaussOk g ∧ g.2.vars = vrs) ∧
      ((∃ x, intOut a.vars.toFinset (fun y => .ofReal (a.comps.map fun c => gaussDen c y).sum) x ≠ ∞) → ∀ x,
        ENNReal.ofReal (rs.map fun g => gaussDen g x).sum =
          intOut (a.vars.toFinset \ vrs.toFinset) (fun y => .ofReal (a.comps.map fun c => gaussDen c y).sum) x) := by
    clear h3 h ha hfun
    generalize a.comps = l at h1 hc
    induction h1 generalizing rs with
    | nil =>
      cases h2
      refine ⟨fun g hg => (by cases hg), fun _ x => ?_⟩
      unfold intOut lmarginal
      simp
    | @cons c c' l cs hcc _ ih =>
      cases h2 with
      | @cons _ r _ rs h4 h5 =>
      obtain ⟨i1, i2⟩ := ih rs h5 fun c h => hc c (by simp [h])
      obtain ⟨hok, hcv⟩ := hc c (by simp)
      obtain ⟨k1, k2, k3, -⟩ := copyG_inv hok hcc
      have hv' : ∀ v ∈ vrs, v ∈ c'.2.vars := by rw [k2, hcv]; exact hv
      obtain ⟨m1, m2⟩ := gauss_marg k1 hn hv' h4
      refine ⟨fun g hg => ?_, fun hfin x => ?_⟩
      · rcases List.mem_cons.1 hg with rfl | hg
        · exact ⟨m1, m2⟩
        · exact i1 g hg
      · have hall : ∀ d ∈ c :: l, GaussOk d := fun d h => (hc d h).1
        have hall' : ∀ c ∈ l, GaussOk c := fun c h => (hc c (by simp [h])).1
        obtain ⟨x0, hx0⟩ := hfin
        rw [sum_intOut hall, List.map_cons, List.sum_cons] at hx0
        have hx1 := (ENNReal.add_ne_top.1 hx0).1
        have hx2 := (ENNReal.add_ne_top.1 hx0).2
        rw [sum_intOut hall, List.map_cons, List.sum_cons, List.map_cons, List.sum_cons, ENNReal.ofReal_add (gaussDen_pos m1 _).le]
        · congr 1
          · have := gauss_int k1 hn hv' h4 ⟨x0, by
              rw [k2, hcv, show (fun y => ENNReal.ofReal (gaussDen c' y)) = fun y => .ofReal (gaussDen c y) from
                funext fun y => by rw [k3]]
              exact hx1⟩ x
            rw [this, k2, hcv, show (fun y => ENNReal.ofReal (gaussDen c' y)) = fun y => .ofReal (gaussDen c y) from
                funext fun y => by rw [k3]]
          · rw [← sum_intOut hall']
            exact i2 ⟨x0, by rw [sum_intOut hall']; exact hx2⟩ x
        · refine List.sum_nonneg fun t ht => ?_
          obtain ⟨g, hg, rfl⟩ := List.mem_map.1 ht
          exact (gaussDen_pos (i1 g hg).1 _).le
  obtain ⟨m1, m2, m3⟩ := make_mix key.1 h3
  exact ⟨m1, m2, fun hx x => by rw [m3]; exact key.2 hx x⟩

theorem mixDen_pos {a : Mix} (ha : MixOk a) (x : Var → ℝ) : 0 < mixDen a x := by
  rw [mixDen_fn ha]
  exact Mix.mixFn_pos ha.isMix.ls_ne x

theorem mixDen_meas {a : Mix} (ha : MixOk a) : Measurable (mixDen a) := by
  rw [show mixDen a = _ from funext (mixDen_eq ha)]
  have := ha.comp
  generalize a.comps = l at this
  induction l with
  | nil => simp
  | cons c l ih =>
    simp only [List.map_cons, List.sum_cons]
    exact (gaussDen_meas (this c (by simp)).1).add (ih fun c h => this c (by simp [h]))

end Verif.CG
