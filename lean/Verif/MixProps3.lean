import Verif.MixProps2

/-!
# Properties of Gaussian mixtures, continued (C60, C81, C82)

What `equals` compares, its side effect, and what `copy` keeps.
-/

namespace Verif.Mix
open Matrix Gauss Spec

/-! ### C82 copies -/

/-- **C82 (part that holds).** A copy has the variables, the number of components and the potential of the
original. What is missing for the full claim: the cancel method, see `C82_copy_cancel_method`. -/
theorem C82_copy_partial {M : Mix} {Ls : List ((Var → ℝ) → ℝ)} (hM : IsMix M Ls) :
    ∃ K, M.copy = .ok K ∧ IsMix K Ls ∧ Pot K (mixFn Ls) ∧ K.vars = M.vars ∧ K.comps.length = M.comps.length := by
  obtain ⟨l, h1, h2⟩ := mapM_forall₂ (f := copyG) (S := Comp M.vars) hM.comps fun c _ L h => copyG_ok h
  obtain ⟨K, h3, h4, h5, -, h7⟩ := make_ok (ne_of_forall₂ hM h2 rfl) h2
  refine ⟨K, ?_, h4, h4.pot, h5, ?_⟩
  · unfold Mix.copy
    rw [h1]
    exact h3
  · rw [h7, h2.length_eq, hM.comps.length_eq]

/-- **C82 fails** for the cancel method: a copy always has cancel method 0. A mixture made with cancel method 1
divides by the approximation of that method, its copy divides by a moment matched Gaussian. -/
theorem C82_copy_cancel_method {gs : List AnyG} {Ls : List ((Var → ℝ) → ℝ)} {vars : List Var} (hne : gs ≠ [])
    (h : List.Forall₂ (Comp vars) gs Ls) :
    ∃ M K, make gs 1 = .ok M ∧ M.copy = .ok K ∧ M.cancelMethod = 1 ∧ K.cancelMethod = 0 ∧
      ∀ (approx : ℕ → Mix → Mix → Py (Mix × Mix × Mix)) (N : Mix), N.comps.length ≠ 1 →
        M.divide approx N = approx 1 M N ∧ K.divide approx N = (do
          let (N', g) ← N.momentMatch
          let (K', _, r) ← K.divideLoop ⟨_, g⟩
          .ok (K', N', r)) := by
  obtain ⟨M, h1, h2, -, h4, -⟩ := make_ok hne h 1
  obtain ⟨l, k1, k2⟩ := mapM_forall₂ (f := copyG) (S := Comp M.vars) h2.comps fun c _ L h => copyG_ok h
  obtain ⟨K, k3, -, -, k6, -⟩ := make_ok (ne_of_forall₂ h2 k2 rfl) k2
  refine ⟨M, K, h1, ?_, h4, k6, fun approx N hN => ?_⟩
  · unfold Mix.copy
    rw [k1]
    exact k3
  · constructor
    · unfold Mix.divide
      split
      · rename_i e
        rw [e] at hN
        exact absurd rfl hN
      · rw [h4, if_neg (by decide), if_pos (by decide)]
    · unfold Mix.divide
      split
      · rename_i e
        rw [e] at hN
        exact absurd rfl hN
      · rw [k6, if_pos rfl]

/-! ### C60 what `equals` compares -/

/-- The two components, compared by name with the default tolerances, agree in their canonical or in their
covariance parameters. -/
def NearSome (c d : AnyG) : Prop :=
  NearCan (1 / 10000) (1 / 10000) c.2 d.2 ∨ NearCov (1 / 10000) (1 / 10000) c.2 d.2

/-- The two components agree in their canonical and in their covariance parameters. -/
def NearBoth (c d : AnyG) : Prop :=
  NearCan (1 / 10000) (1 / 10000) c.2 d.2 ∧ NearCov (1 / 10000) (1 / 10000) c.2 d.2

/-- A component of the kind considered here. -/
structure PComp (vars : List Var) (c : AnyG) (L : (Var → ℝ) → ℝ) : Prop extends Comp vars c L where
  proper : Proper c

theorem proper_of {n : ℕ} {a : Gauss n} (hg : Good a) (hv : a.vac = false) (hK : (canOf a).prec.PosDef) :
    Proper ⟨n, a⟩ := by
  constructor
  · unfold Gauss.isVacuous
    rw [hv, Bool.false_or]
    split
    · rename_i c hc
      rw [canOf_can hc] at hK
      exact vacParams_posDef hK
    · rfl
  · intro a' k h
    obtain ⟨-, -, rfl⟩ := getCan_inv hg.inv h
    exact hK

theorem near_congr {vars : List Var} {c c' d d' : AnyG} {L K : (Var → ℝ) → ℝ} (hc : PComp vars c L)
    (hc' : PComp vars c' L) (hd : PComp vars d K) (hd' : PComp vars d' K) :
    (NearCan (1 / 10000) (1 / 10000) c.2 d.2 → NearCan (1 / 10000) (1 / 10000) c'.2 d'.2) ∧
    (NearCov (1 / 10000) (1 / 10000) c.2 d.2 → NearCov (1 / 10000) (1 / 10000) c'.2 d'.2) := by
  have e1 : c.1 = c'.1 := by rw [← hc.good.len, ← hc'.good.len, hc.vars, hc'.vars]
  have e2 : d.1 = d'.1 := by rw [← hd.good.len, ← hd'.good.len, hd.vars, hd'.vars]
  obtain ⟨n, a⟩ := c
  obtain ⟨n', a'⟩ := c'
  obtain ⟨m, b⟩ := d
  obtain ⟨m', b'⟩ := d'
  dsimp only at e1 e2
  subst e1 e2
  have ga := hc.good
  have ga' := hc'.good
  have gb := hd.good
  have gb' := hd'.good
  have u1 : canOf a' = canOf a := canOf_unique ga ga' (hc'.vars.trans hc.vars.symm) hc.den hc'.den
  have u2 : canOf b' = canOf b := canOf_unique gb gb' (hd'.vars.trans hd.vars.symm) hd.den hd'.den
  have v1 : a'.vars = a.vars := hc'.vars.trans hc.vars.symm
  have v2 : b'.vars = b.vars := hd'.vars.trans hd.vars.symm
  obtain ⟨w1, p1⟩ := proper_good hc.toComp hc.proper
  obtain ⟨w1', p1'⟩ := proper_good hc'.toComp hc'.proper
  obtain ⟨w2, p2⟩ := proper_good hd.toComp hd.proper
  obtain ⟨w2', p2'⟩ := proper_good hd'.toComp hd'.proper
  constructor
  · rintro ⟨x, y, p, q, h1, h2, h3⟩
    obtain ⟨-, -, rfl⟩ := getCan_inv ga.inv h1
    obtain ⟨-, -, rfl⟩ := getCan_inv gb.inv h2
    refine ⟨_, _, _, _, getCan_valid ga'.toValid, getCan_valid gb'.toValid, ?_⟩
    dsimp only
    rw [u1, u2, v1, v2]
    exact h3
  · intro h x y v w h1 h2
    obtain ⟨-, -, rfl, -⟩ := getCov_eq_ok ga'.toValid h1
    obtain ⟨-, -, rfl, -⟩ := getCov_eq_ok gb'.toValid h2
    have := h _ _ _ _ (getCov_valid ga.toValid w1 p1.det_pos) (getCov_valid gb.toValid w2 p2.det_pos)
    dsimp only
    rw [u1, u2, v1, v2]
    exact this

/-- One comparison of components. -/
theorem equals_comp {vars : List Var} {c d : AnyG} {L K : (Var → ℝ) → ℝ} (hc : PComp vars c L) (hd : PComp vars d K) :
    ∃ c' d' r, Gauss.equals (1 / 10000) (1 / 10000) c.2 d.2 = .ok (c', d', r) ∧ PComp vars ⟨_, c'⟩ L ∧
      PComp vars ⟨_, d'⟩ K ∧ (r = true → NearSome c d) ∧ (NearBoth c d → r = true) := by
  have e1 : c.1 = d.1 := by rw [← hc.good.len, ← hd.good.len, hc.vars, hd.vars]
  obtain ⟨n, a⟩ := c
  obtain ⟨n', b⟩ := d
  dsimp only at e1
  subst e1
  have ga := hc.good
  have gb := hd.good
  obtain ⟨w1, p1⟩ := proper_good hc.toComp hc.proper
  obtain ⟨w2, p2⟩ := proper_good hd.toComp hd.proper
  have hv : b.vars = a.vars := hd.vars.trans hc.vars.symm
  obtain ⟨a', b', r, h⟩ := equals_total (rtol := 1 / 10000) (atol := 1 / 10000) ga gb p1 p2 w1 w2 hv
  obtain ⟨⟨k1, q1⟩, k2, q2⟩ := kept_equals ga gb h
  have q2' : b'.vars = b.vars := q2.elim id fun q => q.trans hv.symm
  obtain ⟨t1, t2⟩ := C80_equals hc.made hd.made hc.den hd.den h
  have u1 : canOf a' = canOf a := canOf_unique ga k1.good q1 hc.den (k1.den _ hc.den)
  have u2 : canOf b' = canOf b := canOf_unique gb k2.good q2' hd.den (k2.den _ hd.den)
  refine ⟨a', b', r, h, ⟨⟨.equals_left hc.made hd.made h, k1.den _ hc.den, q1.trans hc.vars⟩, ?_⟩,
    ⟨⟨.equals_right hc.made hd.made h, k2.den _ hd.den, q2'.trans hd.vars⟩, ?_⟩, fun hr => ?_, fun hn => ?_⟩
  · exact proper_of k1.good (k1.vac.trans w1) (by rw [u1]; exact p1)
  · exact proper_of k2.good (k2.vac.trans w2) (by rw [u2]; exact p2)
  · obtain ⟨-, h1 | h1 | h1⟩ := t1 hr
    · have := hc.proper.1
      dsimp only at this
      rw [this] at h1
      exact absurd h1.1 (by simp)
    · exact .inl h1
    · exact .inr h1.2.2
  · refine t2 (fun v => ?_) hn.1 hn.2
    rw [hv]

theorem equalsRow_ok {vars : List Var} {a : AnyG} {L : (Var → ℝ) → ℝ} (ha : PComp vars a L) {bs : List AnyG}
    {Ks : List ((Var → ℝ) → ℝ)} (hb : List.Forall₂ (PComp vars) bs Ks) :
    ∃ a' bs' f, equalsRow a bs = .ok (a', bs', f) ∧ PComp vars a' L ∧ List.Forall₂ (PComp vars) bs' Ks ∧
      (f = true → ∃ (j : ℕ) (d : AnyG), bs[j]? = some d ∧ NearSome a d) ∧
      ((∃ (j : ℕ) (d : AnyG), bs[j]? = some d ∧ NearBoth a d) → f = true) := by
  induction hb generalizing a with
  | nil => exact ⟨_, _, _, rfl, ha, .nil, by simp, by simp⟩
  | @cons b K bs Ks h1 hbs ih =>
    obtain ⟨a', b', r, e1, k1, k2, k3, k4⟩ := equals_comp ha h1
    obtain ⟨a'', bs', f, e2, k5, k6, k7, k8⟩ := ih k1
    refine ⟨a'', _, r || f, ?_, k5, .cons k2 k6, fun h => ?_, ?_⟩
    rotate_left 1
    · rcases Bool.or_eq_true_iff.1 h with h | h
      · exact ⟨0, b, rfl, k3 h⟩
      · obtain ⟨j, d, hj, hn⟩ := k7 h
        refine ⟨j + 1, d, by simpa using hj, ?_⟩
        obtain ⟨hlt, rfl⟩ := List.getElem?_eq_some_iff.1 hj
        have hd := List.forall₂_iff_get.1 hbs
        have hd := hd.2 j hlt (hd.1 ▸ hlt)
        have := near_congr k1 ha hd hd
        exact hn.imp this.1 this.2
    · rintro ⟨j, d, hj, hn⟩
      rw [Bool.or_eq_true_iff]
      cases j with
      | zero =>
        simp only [List.getElem?_cons_zero, Option.some.injEq] at hj
        subst hj
        exact .inl (k4 hn)
      | succ j =>
        have hj : bs[j]? = some d := by simpa using hj
        refine .inr (k8 ⟨j, d, hj, ?_⟩)
        obtain ⟨hlt, rfl⟩ := List.getElem?_eq_some_iff.1 hj
        have hd := List.forall₂_iff_get.1 hbs
        have hd := hd.2 j hlt (hd.1 ▸ hlt)
        have := near_congr ha k1 hd hd
        exact ⟨this.1 hn.1, this.2 hn.2⟩
    · rw [equalsRow, e1]
      dsimp only [bind, Except.bind]
      rw [e2]

theorem pcomp_get {vars : List Var} {as : List AnyG} {Ls : List ((Var → ℝ) → ℝ)} (h : List.Forall₂ (PComp vars) as Ls)
    {i : ℕ} {c : AnyG} (hc : as[i]? = some c) : ∃ L, Ls[i]? = some L ∧ PComp vars c L := by
  obtain ⟨hlt, rfl⟩ := List.getElem?_eq_some_iff.1 hc
  have hd := List.forall₂_iff_get.1 h
  exact ⟨_, List.getElem?_eq_getElem (hd.1 ▸ hlt), hd.2 i hlt (hd.1 ▸ hlt)⟩

theorem near_transfer {vars : List Var} {bs bs' : List AnyG} {Ks : List ((Var → ℝ) → ℝ)}
    (h : List.Forall₂ (PComp vars) bs Ks) (h' : List.Forall₂ (PComp vars) bs' Ks) {c d : AnyG} {L : (Var → ℝ) → ℝ}
    (hc : PComp vars c L) {j : ℕ} (hd : bs[j]? = some d) : ∃ d', bs'[j]? = some d' ∧
      (NearSome c d → NearSome c d') ∧ (NearBoth c d → NearBoth c d') := by
  obtain ⟨K, hK, pd⟩ := pcomp_get h hd
  have hj : j < bs'.length := by
    rw [h'.length_eq]
    exact (List.getElem?_eq_some_iff.1 hK).1
  obtain ⟨K', hK', pd'⟩ := pcomp_get h' (List.getElem?_eq_getElem hj)
  rw [hK] at hK'
  cases hK'
  have := near_congr hc hc pd pd'
  exact ⟨_, List.getElem?_eq_getElem hj, Or.imp this.1 this.2, And.imp this.1 this.2⟩

theorem equalsLoop_ok {vars : List Var} {as bs : List AnyG} {Ls Ks : List ((Var → ℝ) → ℝ)}
    (ha : List.Forall₂ (PComp vars) as Ls) (hb : List.Forall₂ (PComp vars) bs Ks) (hl : as.length = bs.length) :
    ∃ as' bs' r, equalsLoop as bs = .ok (as', bs', r) ∧ List.Forall₂ (PComp vars) as' Ls ∧
      List.Forall₂ (PComp vars) bs' Ks ∧
      (r = true → ∀ (i : ℕ) (c : AnyG), as[i]? = some c → ∃ (j : ℕ) (d : AnyG), i ≤ j ∧ bs[j]? = some d ∧ NearSome c d) ∧
      ((∀ (i : ℕ) (c : AnyG), as[i]? = some c → ∃ (j : ℕ) (d : AnyG), i ≤ j ∧ bs[j]? = some d ∧ NearBoth c d) →
        r = true) := by
  induction ha generalizing bs Ks with
  | nil => exact ⟨[], bs, true, rfl, .nil, hb, by simp, by simp⟩
  | @cons a L as Ls h1 has ih =>
    obtain ⟨a', bs1, f, e1, k1, k2, k3, k4⟩ := equalsRow_ok h1 hb
    cases hb with
    | nil => simp at hl
    | @cons b K bs Ks hb1 hbs =>
      cases k2 with
      | @cons b' _ bs0 _ hb1' hbs0 =>
        cases f with
        | false =>
          refine ⟨a' :: as, b' :: bs0, false, ?_, .cons k1 has, .cons hb1' hbs0, by simp, fun h => ?_⟩
          · rw [equalsLoop, e1]
            rfl
          · obtain ⟨j, d, -, hj, hn⟩ := h 0 a rfl
            exact k4 ⟨j, d, hj, hn⟩
        | true =>
          obtain ⟨as', bs2, r, e2, m1, m2, m3, m4⟩ := ih hbs0 (by
            have := hbs0.length_eq.trans hbs.length_eq.symm
            simp only [List.length_cons] at hl
            omega)
          refine ⟨a' :: as', b' :: bs2, r, ?_, .cons k1 m1, .cons hb1' m2, fun hr i c hc => ?_, fun h => m4 fun i c hc => ?_⟩
          · rw [equalsLoop, e1]
            dsimp only [bind, Except.bind, List.tail_cons]
            simp only [Bool.not_true, Bool.false_eq_true, if_false, e2]
            rfl
          · cases i with
            | zero =>
              simp only [List.getElem?_cons_zero, Option.some.injEq] at hc
              subst hc
              obtain ⟨j, d, hj, hn⟩ := k3 rfl
              exact ⟨j, d, Nat.zero_le _, hj, hn⟩
            | succ i =>
              have hc : as[i]? = some c := by simpa using hc
              obtain ⟨j, d, hij, hj, hn⟩ := m3 hr i c hc
              obtain ⟨L', -, pc⟩ := pcomp_get has hc
              obtain ⟨d', hd', t, -⟩ := near_transfer hbs0 hbs pc hj
              exact ⟨j + 1, d', by omega, by simpa using hd', t hn⟩
          · obtain ⟨j, d, hij, hj, hn⟩ := h (i + 1) c (by simpa using hc)
            obtain ⟨j, rfl⟩ : ∃ k, j = k + 1 := ⟨j - 1, by omega⟩
            have hj : bs[j]? = some d := by simpa using hj
            obtain ⟨L', -, pc⟩ := pcomp_get has hc
            obtain ⟨d', hd', -, t⟩ := near_transfer hbs hbs0 pc hj
            exact ⟨j, d', by omega, hd', t hn⟩

theorem pcomps {M : Mix} {Ls : List ((Var → ℝ) → ℝ)} (hM : IsMix M Ls) (hp : ∀ c ∈ M.comps, Proper c) :
    List.Forall₂ (PComp M.vars) M.comps Ls := by
  have h := hM.comps
  generalize M.comps = cs at *
  clear hM
  induction h with
  | nil => exact .nil
  | cons h1 _ ih => exact .cons ⟨h1, hp _ (List.mem_cons_self ..)⟩ (ih fun c hc => hp c (List.mem_cons_of_mem _ hc))

/-- **C60 (part that holds).** For mixtures over the same variables in the same order, with positive definite
precisions, `equals` returns an answer and leaves both potentials as they are. If the answer is true then the
mixtures have the same number of components and the component `i` agrees with a component `j ≥ i` of the argument.
Conversely the answer is true if each component `i` agrees with some component `j ≥ i` in both forms; in particular
the answer is true if the components agree in the given order. What is missing for the full claim: agreement for
components in another order (`C60_order`), and that a true answer matches every component of the argument
(`C60_asymmetric`). -/
theorem C60_equals_partial {A B : Mix} {Ls Ks : List ((Var → ℝ) → ℝ)} (hA : IsMix A Ls) (hB : IsMix B Ks)
    (pA : ∀ c ∈ A.comps, Proper c) (pB : ∀ c ∈ B.comps, Proper c) (hv : B.vars = A.vars) :
    ∃ A' B' r, A.equals B = .ok (A', B', r) ∧ (IsMix A' Ls ∧ A'.vars = A.vars) ∧ (IsMix B' Ks ∧ B'.vars = B.vars) ∧
      (r = true → A.comps.length = B.comps.length ∧ ∀ (i : ℕ) (c : AnyG), A.comps[i]? = some c →
        ∃ (j : ℕ) (d : AnyG), i ≤ j ∧ B.comps[j]? = some d ∧ NearSome c d) ∧
      (A.comps.length = B.comps.length → (∀ (i : ℕ) (c : AnyG), A.comps[i]? = some c →
        ∃ (j : ℕ) (d : AnyG), i ≤ j ∧ B.comps[j]? = some d ∧ NearBoth c d) → r = true) := by
  unfold Mix.equals
  split
  · rename_i hl
    exact ⟨A, B, false, rfl, ⟨hA, rfl⟩, ⟨hB, rfl⟩, by simp, fun h => absurd h.symm hl⟩
  · rename_i hl
    rw [not_not] at hl
    have hb := pcomps hB pB
    rw [hv] at hb
    obtain ⟨as, bs, r, h1, h2, h3, h4, h5⟩ := equalsLoop_ok (pcomps hA pA) hb hl.symm
    have h2' := h2.imp fun _ _ h => h.toComp
    have h3' := h3.imp fun _ _ h => h.toComp
    refine ⟨{ A with comps := as }, { B with comps := bs }, r, ?_, ⟨⟨ne_of_forall₂ hA h2' rfl, h2'⟩, rfl⟩,
      ⟨⟨ne_of_forall₂ hB h3' rfl, by rw [← hv] at h3'; exact h3'⟩, rfl⟩, fun hr => ⟨hl.symm, h4 hr⟩, fun _ => h5⟩
    rw [h1]
    rfl

/-- The hypotheses of `C60_equals_partial` can be met. -/
example : (∃ Ls, IsMix exM Ls) ∧ (∀ c ∈ exM.comps, Proper c) ∧ exM.vars = exM.vars :=
  ⟨⟨_, exM_isMix⟩, exM_proper, rfl⟩

/-! ### C60 counterexamples -/

/-- The standard normal distribution over `x`, moved by `m`. -/
def stdNormal (m : ℝ) : Gauss 1 := ⟨["x"], none, some ⟨1, ![m], 0⟩, false⟩

theorem stdNormal_mk (m : ℝ) : mkCov ["x"] ⟨1, ![m], 0⟩ = .ok (stdNormal m) := mkCov_ok (by decide) rfl

theorem stdNormal_good (m : ℝ) : Good (stdNormal m) := good_mkCov (by decide) rfl _ (by simp) (by simp)

theorem stdNormal_comp (m : ℝ) : PComp ["x"] ⟨1, stdNormal m⟩ (logOf (stdNormal m) (stdNormal_good m).len) where
  made := .ofCov (vars := ["x"]) PosDef.one (stdNormal_mk m)
  den := (stdNormal_good m).denotes
  vars := rfl
  proper := proper_of (stdNormal_good m) rfl PosDef.one.inv

theorem stdNormal_can (m : ℝ) : canOf (stdNormal m) = toCan ⟨1, ![m], 0⟩ := rfl

theorem stdNormal_h (m : ℝ) : (canOf (stdNormal m)).h 0 = m := by
  rw [stdNormal_can]
  simp [toCan]

theorem stdNormal_mean (m : ℝ) : (toCov (canOf (stdNormal m))).mean 0 = m := by
  rw [stdNormal_can, toCov_toCan (by simp)]
  rfl

theorem stdNormal_near {m k : ℝ} (h : NearSome ⟨1, stdNormal m⟩ ⟨1, stdNormal k⟩) : Close (1 / 10000) (1 / 10000) m k := by
  rcases h with ⟨_, _, c, d, h1, h2, -, h3, -⟩ | h
  · obtain ⟨-, -, rfl⟩ := getCan_inv (stdNormal_good m).inv h1
    obtain ⟨-, -, rfl⟩ := getCan_inv (stdNormal_good k).inv h2
    have := h3 0 0 rfl
    rw [stdNormal_h, stdNormal_h] at this
    exact this
  · have pm : (canOf (stdNormal m)).prec.PosDef := PosDef.one.inv
    have pk : (canOf (stdNormal k)).prec.PosDef := PosDef.one.inv
    obtain ⟨-, h2, -⟩ := h _ _ _ _ (getCov_valid (stdNormal_good m).toValid rfl pm.det_pos)
      (getCov_valid (stdNormal_good k).toValid rfl pk.det_pos)
    have := h2 0 0 rfl
    rw [stdNormal_mean, stdNormal_mean] at this
    exact this

theorem close_self (x : ℝ) : Close (1 / 10000) (1 / 10000) x x := by
  unfold Close
  rw [sub_self, abs_zero]
  positivity

theorem not_close : ¬ Close (1 / 10000) (1 / 10000) (1 : ℝ) 0 := by
  unfold Close
  norm_num

theorem near_self (m : ℝ) : NearBoth ⟨1, stdNormal m⟩ ⟨1, stdNormal m⟩ := by
  constructor
  · refine ⟨_, _, _, _, getCan_valid (stdNormal_good m).toValid, getCan_valid (stdNormal_good m).toValid,
      close_self _, fun i j _ => ?_, fun i k j l _ _ => ?_⟩
    · rw [Subsingleton.elim i j]
      exact close_self _
    · rw [Subsingleton.elim i j, Subsingleton.elim k l]
      exact close_self _
  · intro a' b' v w h1 h2
    rw [h1] at h2
    cases h2
    refine ⟨close_self _, fun i j _ => ?_, fun i k j l _ _ => ?_⟩
    · rw [Subsingleton.elim i j]
      exact close_self _
    · rw [Subsingleton.elim i j, Subsingleton.elim k l]
      exact close_self _

/-- A mixture of moved standard normal distributions over `x`. -/
def normals (ms : List ℝ) : Mix := ⟨["x"], ms.map fun m => ⟨1, stdNormal m⟩, 0⟩

theorem normals_pcomps (ms : List ℝ) : List.Forall₂ (PComp ["x"]) (normals ms).comps
    (ms.map fun m => logOf (stdNormal m) (stdNormal_good m).len) :=
  List.forall₂_map_left_iff.2 (List.forall₂_map_right_iff.2 (List.forall₂_same.2 fun m _ => stdNormal_comp m))

theorem normals_isMix {ms : List ℝ} (h : ms ≠ []) :
    IsMix (normals ms) (ms.map fun m => logOf (stdNormal m) (stdNormal_good m).len) :=
  ⟨by simpa [normals] using h, (normals_pcomps ms).imp fun _ _ h => h.toComp⟩

theorem normals_proper (ms : List ℝ) : ∀ c ∈ (normals ms).comps, Proper c := by
  intro c hc
  obtain ⟨m, -, rfl⟩ := List.mem_map.1 hc
  exact (stdNormal_comp m).proper

theorem normals_make {ms : List ℝ} (h : ms ≠ []) : make ((normals ms).comps) = .ok (normals ms) := by
  have hcopy : ∀ m, copyG ⟨1, stdNormal m⟩ = .ok ⟨1, stdNormal m⟩ := by
    intro m
    unfold copyG Gauss.copy stdNormal
    dsimp only
    rw [mkCov_ok (by decide) rfl]
    rfl
  have hm : (normals ms).comps.mapM copyG = .ok (normals ms).comps := by
    unfold normals
    dsimp only
    clear h
    induction ms with
    | nil => rfl
    | cons m ms ih =>
      rw [List.map_cons, List.mapM_cons, hcopy]
      dsimp only [bind, Except.bind]
      rw [ih]
      rfl
  cases ms with
  | nil => exact absurd rfl h
  | cons m ms =>
    unfold make
    change (do
      let comps ← (normals (m :: ms)).comps.mapM copyG
      if ∃ c ∈ comps, c.2.vars ≠ (stdNormal m).vars then .error .valueError
      else if ¬ (stdNormal m).vars.Nodup then .error .valueError
      else .ok ⟨(stdNormal m).vars, comps, 0⟩ : Py Mix) = _
    rw [hm]
    dsimp only [bind, Except.bind]
    rw [if_neg, if_neg]
    · rfl
    · rw [not_not]
      change ["x"].Nodup
      decide
    · rintro ⟨c, hc, hne⟩
      obtain ⟨k, -, rfl⟩ := List.mem_map.1 hc
      exact hne rfl

/-- The potential of a mixture of moved normal distributions. -/
theorem normals_pot {ms : List ℝ} (h : ms ≠ []) :
    Pot (normals ms) fun x => (ms.map fun m => Real.exp (-(x "x" - m) ^ 2 / 2) / Real.sqrt (2 * Real.pi)).sum := by
  refine (normals_isMix h).pot.congr fun x => ?_
  unfold mixFn
  rw [List.map_map]
  congr 1
  refine List.map_congr_left fun m _ => ?_
  have e1 := (C28_forms PosDef.one (stdNormal_mk m)).1 (fun _ => x "x")
  have e2 := ((stdNormal_good m).denotes x).2.1
  have e3 : List.ofFn (fun _ : Fin 1 => x "x") = (stdNormal m).vars.map x := rfl
  rw [e3] at e1
  have := e2.symm.trans e1
  injection this with this
  simp only [Function.comp]
  rw [this]
  simp [normalDensity, dotProduct, sq]

/-- **C60 fails** for components in another order: two mixtures constructed from the same two Gaussians in
opposite orders have the same potential and are reported to be different. -/
theorem C60_order : ∃ A B A' B', make [⟨1, stdNormal 0⟩, ⟨1, stdNormal 1⟩] = .ok A ∧
    make [⟨1, stdNormal 1⟩, ⟨1, stdNormal 0⟩] = .ok B ∧ (∃ F, Pot A F ∧ Pot B F) ∧
    A.equals B = .ok (A', B', false) := by
  have n1 : [(0 : ℝ), 1] ≠ [] := by simp
  have n2 : [(1 : ℝ), 0] ≠ [] := by simp
  obtain ⟨A', B', r, h1, -, -, h2, -⟩ := C60_equals_partial (normals_isMix n1) (normals_isMix n2) (normals_proper _)
    (normals_proper _) rfl
  have hr : r = false := by
    cases r with
    | false => rfl
    | true =>
      obtain ⟨-, h3⟩ := h2 rfl
      obtain ⟨j, d, hj, hd, hn⟩ := h3 1 ⟨1, stdNormal 1⟩ rfl
      have : j < (normals [1, 0]).comps.length := (List.getElem?_eq_some_iff.1 hd).1
      have hj1 : j = 1 := by
        simp only [normals, List.map_cons, List.map_nil, List.length_cons, List.length_nil] at this
        omega
      subst hj1
      cases hd
      exact absurd (stdNormal_near hn) not_close
  subst hr
  refine ⟨_, _, A', B', normals_make n1, normals_make n2, ⟨_, normals_pot n1, (normals_pot n2).congr fun x => ?_⟩, h1⟩
  simp only [List.map_cons, List.map_nil, List.sum_cons, List.sum_nil]
  ring

/-- **C60 fails** for symmetry and for different mixtures: a mixture of two equal components is reported equal to a
mixture in which one of them is replaced by another Gaussian, although the potentials differ; with the
operands exchanged the answer is false. -/
theorem C60_asymmetric : ∃ A B A' B' A'' B'', make [⟨1, stdNormal 0⟩, ⟨1, stdNormal 0⟩] = .ok A ∧
    make [⟨1, stdNormal 1⟩, ⟨1, stdNormal 0⟩] = .ok B ∧ (∀ F, ¬ (Pot A F ∧ Pot B F)) ∧
    A.equals B = .ok (A', B', true) ∧ B.equals A = .ok (B'', A'', false) := by
  have n1 : [(0 : ℝ), 0] ≠ [] := by simp
  have n2 : [(1 : ℝ), 0] ≠ [] := by simp
  obtain ⟨A', B', r, h1, -, -, -, h2⟩ := C60_equals_partial (normals_isMix n1) (normals_isMix n2) (normals_proper _)
    (normals_proper _) rfl
  obtain ⟨B'', A'', s, k1, -, -, k2, -⟩ := C60_equals_partial (normals_isMix n2) (normals_isMix n1) (normals_proper _)
    (normals_proper _) rfl
  have hr : r = true := by
    refine h2 rfl fun i c hc => ⟨1, ⟨1, stdNormal 0⟩, ?_, rfl, ?_⟩
    · have : i < (normals [0, 0]).comps.length := (List.getElem?_eq_some_iff.1 hc).1
      simp only [normals, List.map_cons, List.map_nil, List.length_cons, List.length_nil] at this
      omega
    · have : c ∈ (normals [0, 0]).comps := List.mem_of_getElem? hc
      simp only [normals, List.map_cons, List.map_nil, List.mem_cons, List.not_mem_nil, or_false, or_self] at this
      subst this
      exact near_self 0
  have hs : s = false := by
    cases s with
    | false => rfl
    | true =>
      obtain ⟨-, h3⟩ := k2 rfl
      obtain ⟨j, d, -, hd, hn⟩ := h3 0 ⟨1, stdNormal 1⟩ rfl
      have : d ∈ (normals [0, 0]).comps := List.mem_of_getElem? hd
      simp only [normals, List.map_cons, List.map_nil, List.mem_cons, List.not_mem_nil, or_false, or_self] at this
      subst this
      exact absurd (stdNormal_near hn) not_close
  subst hr hs
  refine ⟨_, _, A', B', A'', B'', normals_make n1, normals_make n2, fun F hF => ?_, h1, k1⟩
  have e := congrFun ((normals_pot n1).unique hF.1) (fun _ => 0)
  have e' := congrFun ((normals_pot n2).unique hF.2) (fun _ => 0)
  rw [← e'] at e
  have hpi : 0 < Real.sqrt (2 * Real.pi) := by positivity
  simp only [List.map_cons, List.map_nil, List.sum_cons, List.sum_nil, sub_self, sub_zero, zero_sub, add_zero,
    add_left_inj] at e
  rw [div_left_inj' hpi.ne', Real.exp_eq_exp] at e
  norm_num at e

/-! ### C81 the side effect of `equals` -/

theorem make_single {vars : List Var} {n : ℕ} {v : CovF n} {g : Gauss n} (h : mkCov vars v = .ok g) :
    make [⟨n, g⟩] = .ok ⟨vars, [⟨n, g⟩], 0⟩ := by
  obtain ⟨hnd, hl, rfl⟩ := mkCov_eq_ok h
  have hcopy : copyG ⟨n, ⟨vars, none, some v, false⟩⟩ = .ok ⟨n, ⟨vars, none, some v, false⟩⟩ := by
    unfold copyG Gauss.copy
    dsimp only
    rw [mkCov_ok hnd hl]
    rfl
  unfold make
  dsimp only
  rw [List.mapM_cons, hcopy]
  dsimp only [bind, Except.bind, List.mapM_nil, pure, Except.pure]
  rw [if_neg (by simp), if_neg (not_not.2 hnd)]

theorem exD_density (p q : ℝ) : normalDensity exD.cov exD.mean ![p, q] =
    Real.exp (-(p ^ 2 + q ^ 2 / 2) / 2) / Real.sqrt ((2 * Real.pi) ^ 2 * 2) := by
  have hinv : exD.cov⁻¹ = diagonal ![1, 1 / 2] := by
    refine inv_eq_right_inv ?_
    rw [exD, diagonal_mul_diagonal, ← diagonal_one]
    congr 1
    funext i
    fin_cases i <;> simp
  have hdet : exD.cov.det = 2 := by
    rw [exD, det_diagonal, Fin.prod_univ_two]
    simp
  unfold normalDensity
  rw [hinv, hdet, Fintype.card_fin]
  congr 3
  simp [exD, mulVec_diagonal, dotProduct, Fin.sum_univ_two]
  ring

/-- **C81 (part that holds).** Comparing mixtures over the same variables in the same order keeps both potentials.
What is missing for the full claim: variables in different orders, for which it is false
(`C81_equals_changes_argument`). -/
theorem C81_equals_partial {A B : Mix} {F G : (Var → ℝ) → ℝ} {Ls Ks : List ((Var → ℝ) → ℝ)} (hA : IsMix A Ls)
    (hB : IsMix B Ks) (pA : ∀ c ∈ A.comps, Proper c) (pB : ∀ c ∈ B.comps, Proper c) (hv : B.vars = A.vars)
    (hF : Pot A F) (hG : Pot B G) :
    ∃ A' B' r, A.equals B = .ok (A', B', r) ∧ (Pot A' F ∧ A'.vars = A.vars) ∧ Pot B' G ∧ B'.vars = B.vars := by
  obtain ⟨A', B', r, h1, h2, h3, -⟩ := C60_equals_partial hA hB pA pB hv
  refine ⟨A', B', r, h1, ⟨?_, h2.2⟩, ?_, h3.2⟩
  · rw [← hA.pot.unique hF]
    exact h2.1.pot
  · rw [← hB.pot.unique hG]
    exact h3.1.pot

/-- The hypotheses of `C81_equals_partial` can be met. -/
example : ∃ Ls, IsMix exM Ls ∧ Pot exM (mixFn Ls) ∧ ∀ c ∈ exM.comps, Proper c :=
  ⟨_, exM_isMix, exM_isMix.pot, exM_proper⟩

/-- **C81 fails.** Comparing a mixture over `x`, `y` with a mixture over `y`, `x` changes the second one: its
component gets the order `x`, `y` while the mixture keeps the order `y`, `x`. At `y = 1`, `x = 0` its potential is
afterwards what it was at `y = 0`, `x = 1`, which is different. -/
theorem C81_equals_changes_argument : ∃ a b A B A' B' r p q, mkCov ["x", "y"] exD = .ok a ∧ mkCov ["y", "x"] exD = .ok b ∧
    make [⟨2, a⟩] = .ok A ∧ make [⟨2, b⟩] = .ok B ∧ A.equals B = .ok (A', B', r) ∧
    B.vars = ["y", "x"] ∧ B'.vars = ["y", "x"] ∧
    B.potential [1, 0] = .ok p ∧ B'.potential [1, 0] = .ok q ∧ B.potential [0, 1] = .ok q ∧ p ≠ q := by
  obtain ⟨a, b, a', b', r, h1, h2, h3, h4, h5⟩ := C37_reorders
  have ha : Made a := .ofCov exD_posDef h1
  have hb : Made b := .ofCov exD_posDef h2
  have dens := (C28_forms exD_posDef h2).1
  have gb : Good b := by
    obtain ⟨-, -, rfl⟩ := mkCov_eq_ok h2
    exact good_mkCov (by decide) rfl _ (posDef_symm exD_posDef) exD_posDef.det_pos
  have ga : Good a := by
    obtain ⟨-, -, rfl⟩ := mkCov_eq_ok h1
    exact good_mkCov (by decide) rfl _ (posDef_symm exD_posDef) exD_posDef.det_pos
  have db := gb.denotes
  have db' := ((kept_equals ga gb h3).2.1).den _ db
  generalize logOf b gb.len = L at *
  have hL : ∀ s t : ℝ, Real.exp (L fun v => if v = "y" then s else t) =
      Real.exp (-(s ^ 2 + t ^ 2 / 2) / 2) / Real.sqrt ((2 * Real.pi) ^ 2 * 2) := by
    intro s t
    have e1 := (db fun v => if v = "y" then s else t).2.1
    have e2 := dens ![s, t]
    have e3 : List.ofFn ![s, t] = b.vars.map fun v => if v = "y" then s else t := by
      rw [h4]
      simp
    rw [e3, e1] at e2
    injection e2 with e2
    rw [e2, exD_density]
    simp [exD]
  have hB : ∀ s t : ℝ, (⟨["y", "x"], [⟨2, b⟩], 0⟩ : Mix).potential [s, t] =
      .ok (Real.exp (L fun v => if v = "y" then s else t)) := by
    intro s t
    have e1 := (db fun v => if v = "y" then s else t).2.1
    rw [h4] at e1
    have e3 : ["y", "x"].map (fun v => if v = "y" then s else t) = [s, t] := by simp
    rw [e3] at e1
    unfold Mix.potential
    rw [List.foldlM_cons]
    dsimp only
    rw [e1]
    dsimp only [bind, Except.bind, List.foldlM_nil, pure, Except.pure]
    rw [zero_add]
  have hB' : ∀ s t : ℝ, (⟨["y", "x"], [⟨2, b'⟩], 0⟩ : Mix).potential [s, t] =
      .ok (Real.exp (L fun v => if v = "y" then t else s)) := by
    intro s t
    have e1 := (db' fun v => if v = "y" then t else s).2.1
    rw [h5] at e1
    have e3 : ["x", "y"].map (fun v => if v = "y" then t else s) = [s, t] := by simp
    rw [e3] at e1
    unfold Mix.potential
    rw [List.foldlM_cons]
    dsimp only
    rw [e1]
    dsimp only [bind, Except.bind, List.foldlM_nil, pure, Except.pure]
    rw [zero_add]
  refine ⟨a, b, _, _, ⟨["x", "y"], [⟨2, a'⟩], 0⟩, ⟨["y", "x"], [⟨2, b'⟩], 0⟩, r, _, _, h1, h2, make_single h1,
    make_single h2, ?_, rfl, rfl, hB 1 0, hB' 1 0, hB 0 1, ?_⟩
  · unfold Mix.equals
    rw [if_neg (by simp)]
    dsimp only
    rw [equalsLoop, equalsRow, h3]
    dsimp only [bind, Except.bind, equalsRow]
    cases r with
    | false => rfl
    | true => rfl
  · rw [hL, hL]
    have hpi : 0 < Real.sqrt ((2 * Real.pi) ^ 2 * 2) := by positivity
    rw [Ne, div_left_inj' hpi.ne', Real.exp_eq_exp]
    norm_num

end Verif.Mix
