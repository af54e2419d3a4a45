import Verif.FactLemmas
import Verif.GaussPerm

/-!
# Comparing the Gaussians in factorised factors

Helper lemmas: when `equals` of Gaussians with the default tolerances answers yes, in terms that do not depend on
the cached forms and the order of variables.
-/

namespace Verif.Fact
open Matrix Gauss Spec MeasureTheory

/-- Flagged vacuous, or with a precision that is zero up to `1e-8` and not positive definite. -/
def Flat (f : AnyG) : Prop :=
  f.2.vac = true ∨ ∃ a c, f.2.getCan = .ok (a, c) ∧ (∀ i j, |c.prec i j| ≤ 1 / 100000000) ∧ ¬ c.prec.PosDef

/-- Two Gaussians that `equals` may take for the same with the default tolerances (see C80): both are vacuous,
or their canonical or their covariance parameters can be read and agree up to the tolerance. -/
def Agree (f g : AnyG) : Prop :=
  Flat f ∧ Flat g ∨ NearCan (1 / 10000) (1 / 10000) f.2 g.2 ∨
    (Readable f.2 ∧ Readable g.2 ∧ NearCov (1 / 10000) (1 / 10000) f.2 g.2)

theorem flat_of_isVacuous {f : AnyG} (h : f.2.isVacuous = true) : Flat f := by
  obtain ⟨n, vars, can, cov, vac⟩ := f
  unfold Gauss.isVacuous at h
  dsimp only at h
  rw [Bool.or_eq_true] at h
  rcases h with h | h
  · exact .inl h
  · cases can with
    | none => simp at h
    | some c =>
      right
      refine ⟨_, c, rfl, ?_⟩
      unfold vacParams at h
      simp only [decide_eq_true_eq] at h
      exact ⟨h.1, fun hp => h.2 (isPosDef_of_posDef hp)⟩

/-- Another state of the same object: the same function over the same variables, and the same flag. -/
structure Same (f f' : AnyG) (i : Item) : Prop where
  den : Den f' i
  vac : f'.2.vac = f.2.vac

theorem Same.perm {f f' : AnyG} {i : Item} (hf : Den f i) (h : Same f f' i) : f'.2.vars.Perm f.2.vars :=
  (List.perm_ext_iff_of_nodup h.den.good.nodup hf.good.nodup).2 fun v => by rw [h.den.vars, hf.vars]

theorem Same.dim {f f' : AnyG} {i : Item} (hf : Den f i) (h : Same f f' i) : f'.1 = f.1 :=
  dim_eq hf.good h.den.good fun v => by rw [h.den.vars, hf.vars]

theorem Same.refl {f : AnyG} {i : Item} (hf : Den f i) : Same f f i := ⟨hf, rfl⟩

theorem Same.symm {f f' : AnyG} {i : Item} (hf : Den f i) (h : Same f f' i) : Same f' f i := ⟨hf, h.vac.symm⟩

theorem Same.trans {f f' f'' : AnyG} {i : Item} (h : Same f f' i) (h' : Same f' f'' i) : Same f f'' i :=
  ⟨h'.den, h'.vac.trans h.vac⟩

theorem Same.readable {f f' : AnyG} {i : Item} (hf : Den f i) (h : Same f f' i) : Readable f'.2 ↔ Readable f.2 := by
  have hp := h.perm hf
  have hd := h.dim hf
  obtain ⟨n, a⟩ := f
  obtain ⟨n', a'⟩ := f'
  dsimp only at hd
  subst hd
  exact readable_congr hf.good h.den.good hp hf.den h.den.den h.vac

theorem Same.flat {f f' : AnyG} {i : Item} (hf : Den f i) (h : Same f f' i) (hk : Flat f) : Flat f' := by
  rcases hk with hk | ⟨a, c, h1, h2, h3⟩
  · exact .inl (h.vac.trans hk)
  · right
    have hp := h.perm hf
    have hd := h.dim hf
    obtain ⟨n, g⟩ := f
    obtain ⟨n', g'⟩ := f'
    dsimp only at hd
    subst hd
    obtain ⟨-, -, rfl⟩ := getCan_inv hf.good.inv h1
    obtain ⟨e, -, he⟩ := den_perm hf.good h.den.good hp hf.den h.den.den
    refine ⟨_, _, getCan_valid h.den.good.toValid, fun i j => ?_, fun hpd => h3 ?_⟩
    · rw [he]
      exact h2 _ _
    · have hpd : (canOf g').prec.PosDef := hpd
      rw [he] at hpd
      have := hpd.submatrix e.injective
      simpa [permCan, submatrix_submatrix] using this

theorem Same.nearCan {f f' g g' : AnyG} {i j : Item} (hf : Den f i) (hg : Den g j) (h : Same f f' i) (h' : Same g g' j)
    {rtol atol : ℝ} (hn : NearCan rtol atol f.2 g.2) : NearCan rtol atol f'.2 g'.2 := by
  have hp := h.perm hf
  have hd := h.dim hf
  have hp' := h'.perm hg
  have hd' := h'.dim hg
  obtain ⟨n, f⟩ := f
  obtain ⟨n', f'⟩ := f'
  obtain ⟨m, g⟩ := g
  obtain ⟨m', g'⟩ := g'
  dsimp only at hd hd'
  subst hd hd'
  exact nearCan_congr hf.good h.den.good hg.good h'.den.good hp hp' hf.den h.den.den hg.den h'.den.den hn

theorem Same.nearCov {f f' g g' : AnyG} {i j : Item} (hf : Den f i) (hg : Den g j) (h : Same f f' i) (h' : Same g g' j)
    {rtol atol : ℝ} (hn : NearCov rtol atol f.2 g.2) : NearCov rtol atol f'.2 g'.2 := by
  have hp := h.perm hf
  have hd := h.dim hf
  have hp' := h'.perm hg
  have hd' := h'.dim hg
  obtain ⟨n, f⟩ := f
  obtain ⟨n', f'⟩ := f'
  obtain ⟨m, g⟩ := g
  obtain ⟨m', g'⟩ := g'
  dsimp only at hd hd'
  subst hd hd'
  exact nearCov_congr hf.good h.den.good hg.good h'.den.good hp hp' hf.den h.den.den hg.den h'.den.den h.vac h'.vac hn

theorem Same.agree {f f' g g' : AnyG} {i j : Item} (hf : Den f i) (hg : Den g j) (h : Same f f' i) (h' : Same g g' j)
    (ha : Agree f g) : Agree f' g' := by
  rcases ha with ⟨h1, h2⟩ | h1 | ⟨h1, h2, h3⟩
  · exact .inl ⟨h.flat hf h1, h'.flat hg h2⟩
  · exact .inr (.inl (h.nearCan hf hg h' h1))
  · exact .inr (.inr ⟨(h.readable hf).2 h1, (h'.readable hg).2 h2, h.nearCov hf hg h' h3⟩)

/-- What the answer `b` of `equals` says about two Gaussians. -/
structure Verdict (f g : AnyG) (b : Bool) : Prop where
  sound : b = true → (∀ v, v ∈ f.2.vars ↔ v ∈ g.2.vars) ∧ Agree f g
  complete : (∀ v, v ∈ f.2.vars ↔ v ∈ g.2.vars) → NearCan (1 / 10000) (1 / 10000) f.2 g.2 →
    NearCov (1 / 10000) (1 / 10000) f.2 g.2 → b = true

theorem Same.verdict {f f' g g' : AnyG} {i j : Item} (hf : Den f i) (hg : Den g j) (h : Same f f' i) (h' : Same g g' j)
    {b : Bool} (hv : Verdict f g b) : Verdict f' g' b := by
  have hs : (∀ v, v ∈ f'.2.vars ↔ v ∈ g'.2.vars) ↔ ∀ v, v ∈ f.2.vars ↔ v ∈ g.2.vars := by
    simp only [h.den.vars, h'.den.vars, hf.vars, hg.vars]
  refine ⟨fun hb => ?_, fun h1 h2 h3 => ?_⟩
  · obtain ⟨h1, h2⟩ := hv.sound hb
    exact ⟨hs.2 h1, h.agree hf hg h' h2⟩
  · exact hv.complete (hs.1 h1) ((h.symm hf).nearCan h.den h'.den (h'.symm hg) h2)
      ((h.symm hf).nearCov h.den h'.den (h'.symm hg) h3)

theorem equals_can {n m : ℕ} {rtol atol : ℝ} {f f' : Gauss n} {g g' : Gauss m} {r : Bool}
    (e : Gauss.equals rtol atol f g = .ok (f', g', r)) (hc : f.can.isSome) : f'.can.isSome := by
  unfold Gauss.equals at e
  split at e
  · cases e; exact hc
  · obtain ⟨k, -, e⟩ := py_bind_eq_ok.1 e
    dsimp only at e
    split at e
    · cases e; exact hc
    · split at e
      · obtain ⟨⟨x, y, z⟩, hx, e⟩ := py_bind_eq_ok.1 e
        cases e
        unfold equalsForms at hx
        obtain ⟨c, hc'⟩ := Option.isSome_iff_exists.1 hc
        rw [hc'] at hx
        obtain ⟨⟨b1, r1⟩, -, h⟩ := py_bind_eq_ok.1 hx
        cases h
        exact hc
      · cases e

/-- If `equals` answers, the operands are as before, and the answer is about them. -/
theorem equals_den {f g : AnyG} {i j : Item} (hf : Den f i) (hg : Den g j) {f' : Gauss f.1} {g' : Gauss g.1} {r : Bool}
    (e : Gauss.equals (1 / 10000) (1 / 10000) f.2 g.2 = .ok (f', g', r)) :
    Same f ⟨_, f'⟩ i ∧ Same g ⟨_, g'⟩ j ∧ Verdict f g r := by
  obtain ⟨⟨k1, q1⟩, k2, q2⟩ := kept_equals hf.good hg.good e
  obtain ⟨t1, t2⟩ := C80_equals hf.made hg.made hf.den hg.den e
  refine ⟨⟨⟨.equals_left hf.made hg.made e, k1.den _ hf.den, fun v => ?_⟩, k1.vac⟩,
    ⟨⟨.equals_right hf.made hg.made e, k2.den _ hg.den, fun v => ?_⟩, k2.vac⟩, fun hr => ?_, t2⟩
  · rw [q1]; exact hf.vars v
  · rcases q2 with q | q
    · rw [q]; exact hg.vars v
    · dsimp only
      rw [q]
      by_cases hset : sameSet f.2.vars g.2.vars
      · rw [sameSet_iff.1 hset v]; exact hg.vars v
      · unfold Gauss.equals at e
        rw [if_pos hset] at e
        cases e
        rw [← q]; exact hg.vars v
  · obtain ⟨s1, s2⟩ := t1 hr
    refine ⟨s1, ?_⟩
    rcases s2 with s | s | s
    · exact .inl ⟨flat_of_isVacuous s.1, flat_of_isVacuous s.2⟩
    · exact .inr (.inl s)
    · exact .inr (.inr s)

/-- `equals` can answer: the scopes are different, or the first factor has its canonical form at hand, or both
covariance forms can be read. -/
def CanCompare (f g : AnyG) : Prop :=
  (∀ v, v ∈ f.2.vars ↔ v ∈ g.2.vars) → f.2.can.isSome ∨ Readable f.2 ∧ Readable g.2

theorem equals_ok {f g : AnyG} {i j : Item} (hf : Den f i) (hg : Den g j) (h : CanCompare f g) :
    ∃ f' g' r, Gauss.equals (1 / 10000) (1 / 10000) f.2 g.2 = .ok (f', g', r) ∧ Same f ⟨_, f'⟩ i ∧ Same g ⟨_, g'⟩ j ∧
      Verdict f g r ∧ (f.2.can.isSome → f'.can.isSome) := by
  obtain ⟨f', g', r, e⟩ := equals_answers (rtol := 1 / 10000) (atol := 1 / 10000) hf.good hg.good h
  obtain ⟨h1, h2, h3⟩ := equals_den hf hg e
  exact ⟨f', g', r, e, h1, h2, h3, equals_can e⟩

theorem CanCompare.same {f f' g g' : AnyG} {i j : Item} (hf : Den f i) (hg : Den g j) (h : Same f f' i) (h' : Same g g' j)
    (hc : f.2.can.isSome → f'.2.can.isSome) (hk : CanCompare f g) : CanCompare f' g' := by
  intro hs
  have : ∀ v, v ∈ f.2.vars ↔ v ∈ g.2.vars := by
    simp only [h.den.vars, h'.den.vars] at hs
    simp only [hf.vars, hg.vars]
    exact hs
  exact (hk this).imp hc fun hh => ⟨(h.readable hf).2 hh.1, (h'.readable hg).2 hh.2⟩

/-! ### Objects that denote the same -/

theorem near_refl {n : ℕ} {a : Gauss n} (ga : Good a) : NearCan (1 / 10000) (1 / 10000) a a ∧
    NearCov (1 / 10000) (1 / 10000) a a := by
  have hc : ∀ x : ℝ, Close (1 / 10000) (1 / 10000) x x := by
    intro x
    unfold Close
    rw [sub_self, abs_zero]
    positivity
  have hi : ∀ i j : Fin n, a.vars[i.1]? = a.vars[j.1]? → i = j := by
    intro i j h
    have h1 : i.1 < a.vars.length := ga.len.symm ▸ i.2
    have h2 : j.1 < a.vars.length := ga.len.symm ▸ j.2
    rw [List.getElem?_eq_getElem h1, List.getElem?_eq_getElem h2, Option.some.injEq,
      List.Nodup.getElem_inj_iff ga.nodup] at h
    exact Fin.ext h
  have hV : ∀ x : Fin n → ℝ, NearV (1 / 10000) (1 / 10000) a.vars a.vars x x := by
    intro x i j h
    rw [hi i j h]
    exact hc _
  have hM : ∀ x : Matrix (Fin n) (Fin n) ℝ, NearM (1 / 10000) (1 / 10000) a.vars a.vars x x := by
    intro x i k j l h h'
    rw [hi i j h, hi k l h']
    exact hc _
  refine ⟨⟨_, _, _, _, getCan_valid ga.toValid, getCan_valid ga.toValid, hc _, hV _, hM _⟩, fun x y v w h1 h2 => ?_⟩
  rw [h1] at h2
  cases h2
  exact ⟨hc _, hV _, hM _⟩

theorem near_same {f g : AnyG} {i : Item} (hf : Den f i) (hg : Den g i) : NearCan (1 / 10000) (1 / 10000) f.2 g.2 ∧
    NearCov (1 / 10000) (1 / 10000) f.2 g.2 := by
  have hp : g.2.vars.Perm f.2.vars := (List.perm_ext_iff_of_nodup hg.good.nodup hf.good.nodup).2 fun v => by
    rw [hg.vars, hf.vars]
  have hd : g.1 = f.1 := dim_eq hf.good hg.good fun v => by rw [hg.vars, hf.vars]
  obtain ⟨n, f⟩ := f
  obtain ⟨m, g⟩ := g
  dsimp only at hd
  subst hd
  obtain ⟨h1, -⟩ := near_refl hf.good
  refine ⟨nearCan_congr hf.good hf.good hf.good hg.good (.refl _) hp hf.den hf.den hf.den hg.den h1, ?_⟩
  intro x y v w e1 e2
  obtain ⟨r1, r2, rfl, -⟩ := getCov_eq_ok hf.good.toValid e1
  obtain ⟨s1, s2, rfl, -⟩ := getCov_eq_ok hg.good.toValid e2
  obtain ⟨e, he, ce⟩ := den_perm hf.good hg.good hp hf.den hg.den
  have hc : NearCov (1 / 10000) (1 / 10000) f f := (near_refl hf.good).2
  obtain ⟨h3, h4, h5⟩ := hc _ _ _ _ e1 e1
  have hid : ∀ i : Fin m, f.vars[i.1]? = f.vars[((Equiv.refl (Fin m)).symm i).1]? := fun _ => rfl
  refine ⟨?_, nearV_congr (Equiv.refl _) e hid he rfl ?_ h4, nearM_congr (Equiv.refl _) e hid he rfl ?_ h5⟩
  · rw [show toCov (canOf g) = permCov e (toCov (canOf f)) by rw [ce, toCov_permCan]]
    exact h3
  · rw [ce, toCov_permCan]; rfl
  · rw [ce, toCov_permCan]; rfl

end Verif.Fact
