import Verif.SparseProps

/-!
# Properties of sparse categorical factors, continued (C10 - C13)
-/

namespace Verif.Sparse
open Spec (Asg)
variable {K : Type}

/-! ### C10 equals -/

/-- Two log values agree within tolerance: both zero probability, or finite and close in both
directions of numpy's asymmetric test. -/
def Close (rtol atol : ℝ) : XF ℝ → XF ℝ → Prop
  | .ninf, .ninf => True
  | .fin a, .fin b => |a - b| ≤ atol + rtol * |b| ∧ |b - a| ≤ atol + rtol * |a|
  | _, _ => False

theorem Close.symm {rtol atol : ℝ} {a b : XF ℝ} (h : Close rtol atol a b) : Close rtol atol b a := by
  cases a <;> cases b <;> simp_all [Close]

theorem Close.refl {rtol atol : ℝ} (hr : 0 ≤ rtol) (ha : 0 ≤ atol) {a : XF ℝ} (h : a.Proper) :
    Close rtol atol a a := by
  cases a <;> simp_all [Close, XF.Proper]
  positivity

/-- What `equals` compares at one assignment: explicit entries must be close, an explicit entry
without a partner must be exactly the default. -/
def Match (rtol atol : ℝ) : Option (XF ℝ) → Option (XF ℝ) → Prop
  | none, none => True
  | some a, none => a = .ninf
  | none, some b => b = .ninf
  | some a, some b => Close rtol atol a b

theorem Match.symm {rtol atol : ℝ} {a b : Option (XF ℝ)} (h : Match rtol atol a b) :
    Match rtol atol b a := by
  cases a <;> cases b <;> simp_all [Match, Close.symm]

theorem close_iff {rtol atol : ℝ} {a b : XF ℝ} (ha : a.Proper) (hb : b.Proper) :
    (XF.isclose rtol atol a b = true ∧ XF.isclose rtol atol b a = true) ↔ Close rtol atol a b := by
  cases a <;> cases b <;> simp_all [Close, XF.isclose, XF.Proper]

theorem allNonDefaultEqual_iff {rtol atol : ℝ} {f g : Sparse ℝ} (hf : WF f) (hd : g.dflt = .ninf) :
    allNonDefaultEqual rtol atol f g = true ↔ ∀ k a, Dict.get? f.table k = some a →
      match Dict.get? g.table k with
      | none => a = .ninf
      | some w => XF.isclose rtol atol w a = true := by
  unfold allNonDefaultEqual
  rw [List.all_eq_true]
  constructor
  · intro h k a hk
    have hm := Dict.mem_of_get? hk
    have := h _ hm
    revert this
    cases Dict.get? g.table k with
    | none =>
      simp only [hd, Bool.not_eq_true']
      exact XF.eq_of_not_ne
    | some w => exact id
  · intro h e he
    have := h e.1 e.2 (Dict.get?_of_mem hf.keys he)
    revert this
    cases Dict.get? g.table e.1 with
    | none =>
      simp only [hd]
      intro h; rw [h, XF.ne_self (by simp)]; rfl
    | some w => exact id

theorem equals_iff {rtol atol : ℝ} {f g : Sparse ℝ} (hf : Regular f) (hg : Regular g) :
    ∃ b, equals rtol atol f g = .ok b ∧ (b = true ↔
      (∀ v, v ∈ f.vars ↔ v ∈ g.vars) ∧ ∀ x : Asg,
        Match rtol atol (Dict.get? f.table (f.vars.map x)) (Dict.get? g.table (g.vars.map x))) := by
  unfold equals
  by_cases hs : (∀ v ∈ f.vars, v ∈ g.vars) ∧ (∀ v ∈ g.vars, v ∈ f.vars)
  · rw [if_neg (not_not.2 hs)]
    have hs' : ∀ v, v ∈ f.vars ↔ v ∈ g.vars := fun v => ⟨hs.1 v, hs.2 v⟩
    have hperm : f.vars.Perm g.vars := (List.perm_ext_iff_of_nodup hf.wf.nodup hg.wf.nodup).2 hs'
    obtain ⟨g', h1, hw, hv, hd, hpr, hget⟩ : ∃ g', (∀ k : Sparse ℝ → Py Bool,
        (if f.vars ≠ g.vars then g.reorder f.vars >>= k else Except.ok g >>= k) = k g') ∧ WF g' ∧ g'.vars = f.vars ∧ g'.dflt = .ninf ∧ (∀ e ∈ g'.table, e.2.Proper) ∧
        ∀ x : Asg, Dict.get? g'.table (f.vars.map x) = Dict.get? g.table (g.vars.map x) := by
      by_cases he : f.vars = g.vars
      · exact ⟨g, fun k => by rw [if_neg (by simpa using he)]; rfl, hg.wf, he.symm, hg.dflt, hg.proper, by simp [he]⟩
      · refine ⟨_, fun k => by rw [if_pos he, reorder_eq hg.wf hperm, py_bind_ok], reorderResult_wf hg.wf hperm, rfl, rfl, ?_,
          fun x => reorderResult_get? hg.wf hperm x⟩
        have := regular_of_val (reorderResult_wf hg.wf hperm) rfl fun x => by
          rw [reorderResult_val hg.wf hg.dflt hperm]; exact hg.val_proper x
        exact this.proper
    dsimp only
    rw [h1]
    have hdd : XF.ne f.dflt g.dflt = false := by rw [hf.dflt, hg.dflt, XF.ne_self]; simp
    simp only [hdd, Bool.and_false, Bool.false_eq_true, if_false, Bool.not_eq_true']
    have key : (allNonDefaultEqual rtol atol f g' = true ∧ allNonDefaultEqual rtol atol g' f = true) ↔
        ∀ x : Asg, Match rtol atol (Dict.get? f.table (f.vars.map x)) (Dict.get? g.table (g.vars.map x)) := by
      rw [allNonDefaultEqual_iff hf.wf hd, allNonDefaultEqual_iff hw hf.dflt]
      constructor
      · rintro ⟨ha, hb⟩ x
        have ha := ha (f.vars.map x)
        have hb := hb (f.vars.map x)
        rw [hget] at ha hb
        cases hfx : Dict.get? f.table (f.vars.map x) with
        | none =>
          cases hgx : Dict.get? g.table (g.vars.map x) with
          | none => trivial
          | some b => rw [hfx, hgx] at hb; exact hb b rfl
        | some a =>
          cases hgx : Dict.get? g.table (g.vars.map x) with
          | none => rw [hfx, hgx] at ha; exact ha a rfl
          | some b =>
            rw [hfx, hgx] at ha hb
            exact (close_iff (hf.proper _ (Dict.mem_of_get? hfx)) (hg.proper _ (Dict.mem_of_get? hgx))).1
              ⟨hb b rfl, ha a rfl⟩
      · intro h
        constructor
        · intro k a hk
          have hkm : k = f.vars.map (asgOf f.vars k) :=
            (hf.wf.mem_key (List.mem_map.2 ⟨_, Dict.mem_of_get? hk, rfl⟩)).symm
          have := h (asgOf f.vars k)
          rw [← hget, ← hkm, hk] at this
          revert this
          cases hgk : Dict.get? g'.table k with
          | none => exact id
          | some b =>
            intro hm
            exact ((close_iff (hf.proper _ (Dict.mem_of_get? hk)) (hpr _ (Dict.mem_of_get? hgk))).2 hm).2
        · intro k a hk
          have hkm : k = f.vars.map (asgOf f.vars k) := by
            rw [← hv]; exact (hw.mem_key (List.mem_map.2 ⟨_, Dict.mem_of_get? hk, rfl⟩)).symm
          have := h (asgOf f.vars k)
          rw [← hget, ← hkm, hk] at this
          revert this
          cases hfk : Dict.get? f.table k with
          | none => exact id
          | some b =>
            intro hm
            exact ((close_iff (hf.proper _ (Dict.mem_of_get? hfk)) (hpr _ (Dict.mem_of_get? hk))).2 hm).1
    by_cases hA : allNonDefaultEqual rtol atol f g' = true
    · by_cases hB : allNonDefaultEqual rtol atol g' f = true
      · refine ⟨true, by simp [hA, hB], ?_⟩
        simp only [true_iff]
        exact ⟨hs', key.1 ⟨hA, hB⟩⟩
      · refine ⟨false, by simp [hA, hB], ?_⟩
        simp only [Bool.false_eq_true, false_iff]
        exact fun h => hB (key.2 h.2).2
    · refine ⟨false, by simp [hA], ?_⟩
      simp only [Bool.false_eq_true, false_iff]
      exact fun h => hA (key.2 h.2).1
  · rw [if_pos hs]
    refine ⟨false, rfl, ?_⟩
    simp only [Bool.false_eq_true, false_iff]
    exact fun h => hs ⟨fun v => (h.1 v).1, fun v => (h.1 v).2⟩

/-- **C10**, symmetry (for any tolerances). -/
theorem C10_equals_symm (rtol atol : ℝ) (f g : Sparse ℝ) (hf : Regular f) (hg : Regular g) :
    equals rtol atol f g = equals rtol atol g f := by
  obtain ⟨b, h1, hb⟩ := equals_iff (rtol := rtol) (atol := atol) hf hg
  obtain ⟨c, h2, hc⟩ := equals_iff (rtol := rtol) (atol := atol) hg hf
  rw [h1, h2]
  congr 1
  rw [Bool.eq_iff_iff, hb, hc]
  exact ⟨fun h => ⟨fun v => (h.1 v).symm, fun x => (h.2 x).symm⟩,
    fun h => ⟨fun v => (h.1 v).symm, fun x => (h.2 x).symm⟩⟩

/-- **C10**, soundness: if `equals` says yes, the scopes coincide and the log values agree within
tolerance at every assignment. -/
theorem C10_equals_sound (rtol atol : ℝ) (f g : Sparse ℝ) (hf : Regular f) (hg : Regular g)
    (h : equals rtol atol f g = .ok true) :
    (∀ v, v ∈ f.vars ↔ v ∈ g.vars) ∧ ∀ x, Close rtol atol (f.val x) (g.val x) := by
  obtain ⟨b, h1, hb⟩ := equals_iff (rtol := rtol) (atol := atol) hf hg
  rw [h] at h1
  obtain rfl : true = b := by simpa using h1
  have := hb.1 rfl
  refine ⟨this.1, fun x => ?_⟩
  have hm := this.2 x
  unfold val
  revert hm
  cases Dict.get? f.table (f.vars.map x) <;> cases Dict.get? g.table (g.vars.map x) <;>
    simp only [Match, Option.getD_some, Option.getD_none, hf.dflt, hg.dflt]
  · exact fun _ => trivial
  · rintro rfl; trivial
  · rintro rfl; trivial
  · exact id

/-- **C10**, completeness: a factor equals any reordering of itself, in particular its copy. -/
theorem C10_equals_reorder (rtol atol : ℝ) (hr : 0 ≤ rtol) (ha : 0 ≤ atol) (f : Sparse ℝ)
    (hf : Regular f) (newVars : List Var) (hp : newVars.Perm f.vars) :
    ∃ g, reorder f newVars = .ok g ∧ equals rtol atol f g = .ok true ∧
      equals rtol atol f f = .ok true := by
  have hg : Regular (reorderResult f newVars) := regular_of_val (reorderResult_wf hf.wf hp) rfl fun x => by
    rw [reorderResult_val hf.wf hf.dflt hp]; exact hf.val_proper x
  have hm : ∀ x : Asg, Match rtol atol (Dict.get? f.table (f.vars.map x))
      (Dict.get? f.table (f.vars.map x)) := by
    intro x
    cases hx : Dict.get? f.table (f.vars.map x) with
    | none => trivial
    | some a => exact Close.refl hr ha (hf.proper _ (Dict.mem_of_get? hx))
  refine ⟨_, reorder_eq hf.wf hp, ?_, ?_⟩
  · obtain ⟨b, h1, hb⟩ := equals_iff (rtol := rtol) (atol := atol) hf hg
    rw [h1, hb.2]
    refine ⟨fun v => hp.mem_iff.symm, fun x => ?_⟩
    rw [show (reorderResult f newVars).vars = newVars from rfl, reorderResult_get? hf.wf hp]
    exact hm x
  · obtain ⟨b, h1, hb⟩ := equals_iff (rtol := rtol) (atol := atol) hf hf
    rw [h1, hb.2 ⟨fun v => Iff.rfl, hm⟩]

example : ∃ g, reorder exF ["b", "a"] = .ok g ∧ equals (1/1000) (1/1000) exF g = .ok true := by
  obtain ⟨g, h1, h2, _⟩ := C10_equals_reorder (1/1000) (1/1000) (by norm_num) (by norm_num) exF exF_regular
    ["b", "a"] (List.Perm.swap _ _ _)
  exact ⟨g, h1, h2⟩

/-! ### C11 KL divergence -/

theorem SameScope.norm {f g : Sparse ℝ} (h : SameScope f g) : SameScope (normResult f) (normResult g) :=
  ⟨h.scope, h.cards⟩

theorem mass_congr {f g : Sparse ℝ} (hf : WF f) (hg : WF g) (h : SameScope f g) :
    Spec.sumVars (f.vars.map fun v => (v, f.card v)) g.prob (fun _ => 0) = g.mass := by
  unfold mass
  have hp : f.vars.Perm g.vars := (List.perm_ext_iff_of_nodup hf.nodup hg.nodup).2 h.scope
  have e : (f.vars.map fun v => (v, f.card v)) = f.vars.map fun v => (v, g.card v) :=
    List.map_congr_left fun v hv => by rw [h.cards v hv]
  rw [e]
  refine congrFun (Spec.sumVars_perm (hp.map _) ?_ _) _
  rw [List.map_map]
  simpa [Function.comp_def] using hf.nodup

/-- The normalised potential of a factor. -/
noncomputable def dist (f : Sparse ℝ) (x : Asg) : ℝ := f.prob x / f.mass

/-- **C11.** For factors of positive mass over the same variables (in any order): if the second is
positive wherever the first is, `kl_divergence` returns `∑ p log (p/q)` of the normalised factors over
all joint assignments; this is not negative, and zero only if the normalised factors coincide.
Otherwise it returns `+inf`. No case raises. -/
theorem C11_kl_divergence (hs : HashSeed) (f g : Sparse ℝ) (hf : Regular f) (hg : Regular g)
    (h : SameScope f g) (hmf : 0 < f.mass) (hmg : 0 < g.mass) :
    ((∀ x, (∀ v ∈ f.vars, x v < f.card v) → g.prob x = 0 → f.prob x = 0) →
      klDivergence hs f g =
        .ok (.fin (Spec.kl (f.vars.map fun v => (v, f.card v)) f.dist g.dist)) ∧
      0 ≤ Spec.kl (f.vars.map fun v => (v, f.card v)) f.dist g.dist ∧
      (Spec.kl (f.vars.map fun v => (v, f.card v)) f.dist g.dist = 0 →
        ∀ x, (∀ v ∈ f.vars, x v < f.card v) → f.dist x = g.dist x)) ∧
    ((∃ x, (∀ v ∈ f.vars, x v < f.card v) ∧ g.prob x = 0 ∧ f.prob x ≠ 0) →
      klDivergence hs f g = .ok .pinf) := by
  have hP : (normResult f).prob = f.dist := funext (normResult_prob hf hmf)
  have hQ : (normResult g).prob = g.dist := funext (normResult_prob hg hmg)
  have hrf := normResult_regular hf hmf
  have hrg := normResult_regular hg hmg
  have hnf : normalize f = .ok (normResult f) := by
    rw [normalize_eq hf, if_neg (table_ne_nil_of_mass hf hmf)]
  have hng : normalize g = .ok (normResult g) := by
    rw [normalize_eq hg, if_neg (table_ne_nil_of_mass hg hmg)]
  constructor
  · intro hsup
    have hsup' : ∀ x, (∀ v ∈ (normResult f).vars, x v < (normResult f).card v) →
        (normResult g).prob x = 0 → (normResult f).prob x = 0 := by
      intro x hx
      rw [hP, hQ]
      unfold dist
      rw [div_eq_zero_iff, div_eq_zero_iff]
      rintro (h0 | h0)
      · exact Or.inl (hsup x hx h0)
      · exact absurd h0 hmg.ne'
    have hraw := rawKld_fin (hs := hs) hrf hrg h.norm hsup'
    have hvc : ((normResult f).vars.map fun v => (v, (normResult f).card v))
      = f.vars.map fun v => (v, f.card v) := rfl
    rw [hP, hQ, hvc] at hraw
    have hgibbs := Spec.gibbs_kl f.vars f.card f.dist g.dist hf.wf.nodup
      (fun x => div_nonneg (prob_nonneg f x) hmf.le) (fun x => div_nonneg (prob_nonneg g x) hmg.le)
      (by rw [← hP, ← hQ]; exact hsup') (by
        have h1 := normResult_mass hf hmf
        have h2 := normResult_mass hg hmg
        unfold mass at h1
        rw [hvc, hP] at h1
        rw [← mass_congr hrf.wf hrg.wf h.norm, hQ, hvc] at h2
        rw [h1, h2])
    refine ⟨?_, hgibbs.1, fun h0 => hgibbs.2 h0 ?_ ?_⟩
    · unfold klDivergence
      rw [hnf, py_bind_ok]
      simp only [if_true]
      rw [hng, py_bind_ok, hraw, py_bind_ok, if_neg]
      simp [XF.lt, hgibbs.1]
    · intro x y hxy
      unfold dist; rw [prob_dependsOn f x y hxy]
    · intro x y hxy
      unfold dist; rw [prob_dependsOn g x y fun v hv => hxy v ((h.scope v).2 hv)]
  · rintro ⟨x, hx, h1, h2⟩
    have hraw := rawKld_pinf (hs := hs) hrf hrg h.norm ⟨x, hx, by rw [hQ]; unfold dist; rw [h1, zero_div],
      by rw [hP]; exact div_ne_zero h2 hmf.ne'⟩
    unfold klDivergence
    rw [hnf, py_bind_ok]
    simp only [if_true]
    rw [hng, py_bind_ok, hraw, py_bind_ok, if_neg]
    simp [XF.lt]

theorem sumVars_const (vc : List (Var × Nat)) (c : ℝ) (x : Asg) :
    Spec.sumVars vc (fun _ => c) x = ((vc.map Prod.snd).prod : ℕ) * c := by
  induction vc generalizing x with
  | nil => simp [Spec.sumVars]
  | cons e l ih =>
    rw [Spec.sumVars, Spec.sumVar]
    simp only [ih]
    simp [mul_assoc]

theorem card_prod_pos {f : Sparse ℝ} (hf : Regular f) (hm : 0 < f.mass) : 0 < f.cards.prod := by
  obtain ⟨e, he⟩ := List.exists_mem_of_ne_nil _ (table_ne_nil_of_mass hf hm)
  rw [hf.wf.cards_eq]
  apply List.prod_pos
  intro c hc
  obtain ⟨v, hv, rfl⟩ := List.mem_map.1 hc
  exact lt_of_le_of_lt (Nat.zero_le _) (hf.wf.key_range (List.mem_map.2 ⟨e, he, rfl⟩) hv)

/-- **C11**, `distance_from_vacuous`: the divergence from the uniform distribution over all `N` joint
assignments, which is never negative and zero only for a uniform factor. -/
theorem C11_distance_from_vacuous (hs : HashSeed) (f : Sparse ℝ) (hf : Regular f) (hm : 0 < f.mass) :
    distanceFromVacuous hs f = .ok (.fin
      (Spec.kl (f.vars.map fun v => (v, f.card v)) f.dist (fun _ => 1 / (f.cards.prod : ℕ)))) ∧
    0 ≤ Spec.kl (f.vars.map fun v => (v, f.card v)) f.dist (fun _ => 1 / (f.cards.prod : ℕ)) ∧
    (Spec.kl (f.vars.map fun v => (v, f.card v)) f.dist (fun _ => 1 / (f.cards.prod : ℕ)) = 0 →
      ∀ x, (∀ v ∈ f.vars, x v < f.card v) → f.dist x = 1 / (f.cards.prod : ℕ)) := by
  have hN := card_prod_pos hf hm
  have hN' : (0 : ℝ) < (f.cards.prod : ℕ) := Nat.cast_pos.2 hN
  have hP : (normResult f).prob = f.dist := funext (normResult_prob hf hm)
  have hrf := normResult_regular hf hm
  have hvc : ((normResult f).vars.map fun v => (v, (normResult f).card v))
      = f.vars.map fun v => (v, f.card v) := rfl
  have h1 := normResult_mass hf hm
  unfold mass at h1
  rw [hvc, hP] at h1
  have hgibbs := Spec.gibbs_kl f.vars f.card f.dist (fun _ => 1 / (f.cards.prod : ℕ)) hf.wf.nodup
    (fun x => div_nonneg (prob_nonneg f x) hm.le) (fun x => by positivity)
    (fun x _ h0 => absurd h0 (by positivity)) (by
      rw [h1, sumVars_const]
      apply le_of_eq
      rw [show ((f.vars.map fun v => (v, f.card v)).map Prod.snd) = f.cards by
        rw [hf.wf.cards_eq]; simp [Function.comp_def]]
      field_simp)
  refine ⟨?_, hgibbs.1, fun h0 => hgibbs.2 h0 ?_ (fun _ _ _ => rfl)⟩
  · let u : Sparse ℝ := { f with table := f.table.map fun e => (e.1, .fin (-Real.log (f.cards.prod : ℕ))) }
    have hku : Dict.keys u.table = Dict.keys f.table := by
      simp [u, Dict.keys, Function.comp_def]
    have hu : Regular u := by
      refine ⟨⟨hf.wf.nodup, hf.wf.cardsLen, ?_, ?_⟩, ?_, hf.dflt⟩
      · rw [hku]; exact hf.wf.keys
      · rw [hku]; exact hf.wf.range
      · intro e he
        obtain ⟨e', _, rfl⟩ := List.mem_map.1 he
        trivial
    have hss : SameScope (normResult f) u := ⟨fun _ => Iff.rfl, fun _ _ => rfl⟩
    have hgu : ∀ x, u.prob x = if Dict.get? f.table (f.vars.map x) = none then (0 : ℝ)
        else (1 : ℝ) / (f.cards.prod : ℕ) := by
      intro x
      unfold prob val
      show XF.prob (Option.getD (Dict.get? (f.table.map _) _) f.dflt) = _
      rw [Dict.get?_map_val (g := fun _ => XF.fin (-Real.log (f.cards.prod : ℕ)))]
      show XF.prob (Option.getD (Option.map _ (Dict.get? f.table (f.vars.map x))) f.dflt) = _
      cases Dict.get? f.table (f.vars.map x) with
      | none => simp [hf.dflt, XF.prob]
      | some a => simp only [Option.map_some, Option.getD_some, XF.prob, reduceCtorEq, if_false, Real.exp_neg, Real.exp_log hN', one_div]
    have hP0 : ∀ x, Dict.get? f.table (f.vars.map x) = none → f.prob x = 0 := by
      intro x hx
      rw [prob_eq_elim hf.dflt, hx]; rfl
    have hraw := rawKld_fin (hs := hs) hrf hu hss (by
      intro x _ h0
      rw [hgu] at h0
      rw [hP]
      unfold dist
      by_cases hx : Dict.get? f.table (f.vars.map x) = none
      · rw [hP0 x hx, zero_div]
      · rw [if_neg hx] at h0
        exact absurd h0 (by positivity))
    have hkl : Spec.kl (f.vars.map fun v => (v, f.card v)) f.dist u.prob
        = Spec.kl (f.vars.map fun v => (v, f.card v)) f.dist (fun _ => 1 / (f.cards.prod : ℕ)) := by
      unfold Spec.kl
      congr 1
      funext x
      rw [hgu]
      by_cases hx : Dict.get? f.table (f.vars.map x) = none
      · unfold dist; rw [hP0 x hx]; simp
      · rw [if_neg hx]
    rw [hP, hvc, hkl] at hraw
    unfold distanceFromVacuous
    rw [copy_eq hf.wf, py_bind_ok]
    have hlog : XF.neg (XF.log (.fin ((Dict.values f.varCards).prod : ℕ)))
        = .fin (-Real.log (f.cards.prod : ℕ)) := by
      unfold varCards
      rw [values_zip hf.wf.cardsLen, XF.log_fin hN'.le, XF.ofProb, if_neg hN'.ne']
      rfl
    unfold klDivergence
    dsimp only
    rw [hlog, normalize_eq hf, if_neg (table_ne_nil_of_mass hf hm), py_bind_ok]
    simp only [Bool.false_eq_true, if_false, py_bind_ok]
    rw [show ({ f with table := f.table.map fun e => (e.1, .fin (-Real.log (f.cards.prod : ℕ))) } : Sparse ℝ)
      = u from rfl, hraw, py_bind_ok, if_neg]
    simp only [XF.lt, decide_eq_true_eq, not_lt]
    exact hgibbs.1
  · intro x y hxy
    unfold dist; rw [prob_dependsOn f x y hxy]

/-- A second factor with the scope of `exF` in the other order. -/
def exF' : Sparse ℝ := ⟨["b", "a"], [3, 2], [([1, 0], .fin 2), ([2, 1], .fin 0), ([0, 0], .fin 1)], .ninf⟩

theorem exF'_regular : Regular exF' :=
  ⟨⟨by decide, by decide, by decide, by simp [exF', Dict.keys]⟩, by simp [exF', XF.Proper], rfl⟩

example : ∃ d : ℝ, 0 ≤ d ∧ klDivergence HashSeed.example exF exF' = .ok (.fin d) := by
  have hss : SameScope exF exF' := ⟨by simp [exF, exF', or_comm], by decide⟩
  have hm : 0 < exF'.mass := by
    rw [mass_eq exF'_regular]; simp only [exF', Dict.values, XF.prob, List.map_cons, List.map_nil,
      List.sum_cons, List.sum_nil]; positivity
  obtain ⟨h, _⟩ := C11_kl_divergence HashSeed.example exF exF' exF_regular exF'_regular hss
    (by rw [exF_mass]; positivity) hm
  obtain ⟨h1, h2, _⟩ := h (by
    intro x _ h0
    by_contra hne
    unfold prob val at h0 hne
    simp only [exF, exF', Dict.get?, List.map_cons, List.map_nil, Option.getD] at h0 hne
    revert h0 hne
    by_cases ha0 : 0 = x "a" <;> by_cases ha1 : 1 = x "a" <;> by_cases hb1 : 1 = x "b" <;>
      by_cases hb2 : 2 = x "b" <;> simp [ha0, ha1, hb1, hb2, XF.prob, (Real.exp_pos _).ne'] <;> omega)
  exact ⟨_, h2, h1⟩

example : ∃ d : ℝ, 0 ≤ d ∧ distanceFromVacuous HashSeed.example exF = .ok (.fin d) := by
  obtain ⟨h1, h2, _⟩ := C11_distance_from_vacuous HashSeed.example exF exF_regular
    (by rw [exF_mass]; positivity)
  exact ⟨_, h2, h1⟩

/-! ### C12 hash seed independence -/

/-- **C12.** Whatever orders the interpreter uses to iterate over its sets, `multiply` and `cancel`
succeed or fail alike (same exception) and the results denote the same function over the same
variables. No assumption on the common default. -/
theorem C12_hash_any [DecidableEq K] (op : XF K → XF K → XF K) (hs hs' : HashSeed)
    (f g : Sparse K) (hf : WF f) (hg : WF g) :
    (∃ e, applyBinary hs f g op .any = .error e ∧ applyBinary hs' f g op .any = .error e) ∨
    ∃ r r', applyBinary hs f g op .any = .ok r ∧ applyBinary hs' f g op .any = .ok r' ∧
      (∀ v, v ∈ r.vars ↔ v ∈ r'.vars) ∧ (∀ v ∈ r.vars, r.card v = r'.card v) ∧ ∀ x, r.val x = r'.val x := by
  rw [applyBinary_eq hf hg, applyBinary_eq hf hg]
  by_cases hc : consistentCards f g = true
  · rw [if_pos hc, if_pos hc]
    by_cases hd : XF.ne f.dflt g.dflt = true
    · rw [if_pos hd, if_pos hd]; exact Or.inl ⟨_, rfl, rfl⟩
    · rw [if_neg hd, if_neg hd]
      have hd' : f.dflt = g.dflt := XF.eq_of_not_ne (by simpa using hd)
      refine Or.inr ⟨_, _, rfl, rfl, fun v => mem_result.trans mem_result.symm, ?_, fun x => ?_⟩
      · intro v hv
        rw [binResult_card v (mem_result.1 hv), binResult_card v (mem_result.1 hv)]
      · rw [binResult_val_any hf hg hd', binResult_val_any hf hg hd']
        have e : ∀ h : HashSeed, (HasOuter f (remA h f g) x ∧ HasOuter g (remB h f g) x) ↔
            (∃ k ∈ Dict.keys f.table, ∀ v ∈ f.vars, v ∉ g.vars → asgOf f.vars k v = x v) ∧
            (∃ k ∈ Dict.keys g.table, ∀ v ∈ g.vars, v ∉ f.vars → asgOf g.vars k v = x v) := by
          intro h
          unfold HasOuter
          simp only [mem_remA, mem_remB, and_imp]
        simp only [e]
  · rw [if_neg hc, if_neg hc]; exact Or.inl ⟨_, rfl, rfl⟩

/-- **C12** for `divide`, on in-range assignments. -/
theorem C12_hash_divide [DecidableEq K] [Sub K] (hs hs' : HashSeed)
    (f g : Sparse K) (hf : WF f) (hg : WF g) :
    (∃ e, divide hs f g = .error e ∧ divide hs' f g = .error e) ∨
    ∃ r r', divide hs f g = .ok r ∧ divide hs' f g = .ok r' ∧
      (∀ v, v ∈ r.vars ↔ v ∈ r'.vars) ∧ (∀ v ∈ r.vars, r.card v = r'.card v) ∧
      ∀ x, (∀ v ∈ f.vars, x v < f.card v) → (∀ v ∈ g.vars, x v < g.card v) → r.val x = r'.val x := by
  unfold divide
  rw [applyBinary_eq hf hg, applyBinary_eq hf hg]
  by_cases hc : consistentCards f g = true
  · rw [if_pos hc, if_pos hc]
    by_cases hd : XF.ne f.dflt g.dflt = true
    · rw [if_pos hd, if_pos hd]; exact Or.inl ⟨_, rfl, rfl⟩
    · rw [if_neg hd, if_neg hd]
      have hd' : f.dflt = g.dflt := XF.eq_of_not_ne (by simpa using hd)
      refine Or.inr ⟨_, _, rfl, rfl, fun v => mem_result.trans mem_result.symm, ?_, fun x h1 h2 => ?_⟩
      · intro v hv
        rw [binResult_card v (mem_result.1 hv), binResult_card v (mem_result.1 hv)]
      · rw [binResult_val_none hf hg hd' _ x h1 h2, binResult_val_none hf hg hd' _ x h1 h2]
  · rw [if_neg hc, if_neg hc]; exact Or.inl ⟨_, rfl, rfl⟩

/-- **C12** for `marginalize`. -/
theorem C12_hash_marginalize (hs hs' : HashSeed) (f : Sparse ℝ) (hf : Regular f) (vrs : List Var)
    (hn : vrs.Nodup) (hv : ∀ v ∈ vrs, v ∈ f.vars) (keep : Bool) :
    ∃ r r', marginalize hs f vrs keep = .ok r ∧ marginalize hs' f vrs keep = .ok r' ∧
      (∀ v, v ∈ r.vars ↔ v ∈ r'.vars) ∧ (∀ v ∈ r.vars, r.card v = r'.card v) ∧ ∀ x, r.val x = r'.val x := by
  obtain ⟨r, h1, h2, h3, _, h4, h5⟩ := C02_marginalize_sums hs f hf vrs hn hv keep
  obtain ⟨r', h1', h2', h3', _, h4', h5'⟩ := C02_marginalize_sums hs' f hf vrs hn hv keep
  refine ⟨r, r', h1, h1', fun v => (h3 v).trans (h3' v).symm, fun v hv => ?_, fun x => ?_⟩
  · rw [h4 v hv, h4' v ((h3' v).2 ((h3 v).1 hv))]
  · apply XF.prob_inj (h2.val_proper x) (h2'.val_proper x)
    exact (h5 x).trans (h5' x).symm

/-- Two different set orders really give differently laid out results, so C12 is not about equal
outputs: with the reversed order the variables of the product come out in another order. -/
def revSeed : HashSeed where
  strs := ⟨fun l => (l.dedup).reverse, fun _ => (List.reverse_perm _)⟩
  tups := ⟨fun l => (l.dedup).reverse, fun _ => (List.reverse_perm _)⟩

example :
    ((multiply HashSeed.example (⟨["a", "b"], [2, 2], [([0, 0], .fin 1)], .ninf⟩ : Sparse ℤ)
      ⟨["c"], [2], [([0], .fin 1)], .ninf⟩).map (·.vars)) = .ok ["a", "b", "c"] ∧
    ((multiply revSeed (⟨["a", "b"], [2, 2], [([0, 0], .fin 1)], .ninf⟩ : Sparse ℤ)
      ⟨["c"], [2], [([0], .fin 1)], .ninf⟩).map (·.vars)) = .ok ["b", "a", "c"] := by
  constructor <;> decide +kernel

/-! ### C13 user chosen defaults -/

/-- One entry, default log value 0. -/
def exD1 : Sparse ℤ := ⟨["a"], [2], [([0], .fin 1)], .fin 0⟩
/-- No entries, default log value 0. -/
def exD2 : Sparse ℤ := ⟨["b"], [2], [], .fin 0⟩
/-- One entry over two variables, default log value 0. -/
def exD3 : Sparse ℤ := ⟨["a", "b"], [2, 2], [([0, 0], .fin 1)], .fin 0⟩

/-- **C13**, the claim is false for `multiply`: with a common default of log value 0 the product at
a=0, b=0 should be 1 but comes out as 0, as the entry of the first operand is dropped when the second
has none. -/
theorem C13_multiply_loses_entries : exD1.WF ∧ exD2.WF ∧
    ∃ r, multiply HashSeed.example exD1 exD2 = .ok r ∧
      XF.add (exD1.val fun _ => 0) (exD2.val fun _ => 0) = .fin 1 ∧ r.val (fun _ => 0) = .fin 0 := by
  refine ⟨⟨by decide, by decide, by decide, by simp [exD1, Dict.keys]⟩,
    ⟨by decide, by decide, by decide, by simp [exD2, Dict.keys]⟩,
    ⟨["a", "b"], [2, 2], [], .fin 0⟩, ?_, ?_, ?_⟩ <;> decide +kernel

/-- **C13**, the claim is false for `reorder` and `reduce`: the default of the result is probability
zero. -/
theorem C13_reorder_reduce_lose_default : exD3.WF ∧ exD3.val (fun _ => 1) = .fin 0 ∧
    (∃ r, reorder exD3 ["b", "a"] = .ok r ∧ r.val (fun _ => 1) = .ninf) ∧
    (exD3.val (fun v => if v = "a" then 1 else 0) = .fin 0 ∧
      ∃ r, reduce exD3 ["b"] [0] = .ok r ∧ r.val (fun v => if v = "a" then 1 else 0) = .ninf) := by
  refine ⟨⟨by decide, by decide, by decide, by simp [exD3, Dict.keys]⟩, by decide +kernel,
    ⟨⟨["b", "a"], [2, 2], [([0, 0], .fin 1)], .ninf⟩, by decide +kernel, by decide +kernel⟩,
    by decide +kernel, ⟨["a"], [2], [([0], .fin 1)], .ninf⟩, by decide +kernel, by decide +kernel⟩

/-- **C13** (partial): what does hold for any common default of `multiply`: the value is right at every
assignment whose private parts both occur in the tables; elsewhere it is the sum of the defaults. The
full claim (right everywhere) is refuted above; `divide` satisfies it (C04). -/
theorem C13_multiply_partial [DecidableEq K] [Add K] (hs : HashSeed) (f g : Sparse K) (hf : WF f) (hg : WF g)
    (hc : Consistent f g) (hd : f.dflt = g.dflt) (hnan : f.dflt ≠ .nan) :
    ∃ r, multiply hs f g = .ok r ∧ r.dflt = XF.add f.dflt g.dflt ∧ ∀ x,
      ((∃ k ∈ Dict.keys f.table, ∀ v ∈ f.vars, v ∉ g.vars → asgOf f.vars k v = x v) →
        (∃ k ∈ Dict.keys g.table, ∀ v ∈ g.vars, v ∉ f.vars → asgOf g.vars k v = x v) →
        r.val x = XF.add (f.val x) (g.val x)) := by
  refine ⟨binResult hs f g XF.add .any, ?_, by rw [← hd]; rfl, fun x h1 h2 => ?_⟩
  · unfold multiply
    rw [applyBinary_eq hf hg, if_pos ((consistentCards_iff hf hg).2 hc), if_neg]
    rw [← hd, XF.ne_self hnan]; simp
  · rw [binResult_val_any hf hg hd, if_pos]
    unfold HasOuter
    simp only [mem_remA, mem_remB, and_imp]
    exact ⟨h1, h2⟩

example : ∃ r, multiply HashSeed.example exD3 exD1 = .ok r ∧
    r.val (fun _ => 0) = XF.add (exD3.val fun _ => 0) (exD1.val fun _ => 0) := by
  have h3 : exD3.WF := ⟨by decide, by decide, by decide, by simp [exD3, Dict.keys]⟩
  have h1 : exD1.WF := ⟨by decide, by decide, by decide, by simp [exD1, Dict.keys]⟩
  obtain ⟨r, h, _, hx⟩ := C13_multiply_partial HashSeed.example exD3 exD1 h3 h1
    (by rw [← consistentCards_iff h3 h1]; decide) rfl (by simp [exD3])
  exact ⟨r, h, hx _ ⟨[0, 0], by decide, by decide⟩ ⟨[0], by decide, by decide⟩⟩

end Verif.Sparse
