import Verif.FactProps

/-!
# Properties of factorised factors (C64 violation, C66, C68)
-/

namespace Verif.Fact
open Matrix Gauss Spec MeasureTheory

/-! ### C64 violation -/

/-- The vacuous Gaussian over `v` with log value `c`. -/
noncomputable def flat (v : Var) (c : ℝ) : Gauss 1 := ⟨[v], some ⟨0, 0, c⟩, none, vacParams (0 : Matrix (Fin 1) (Fin 1) ℝ)⟩

theorem flat_mk (v : Var) (c : ℝ) : makeVacuous [v] c = .ok (flat v c) := mkCan_ok (by simp) rfl

theorem flat_vac (v : Var) (c : ℝ) : (flat v c).vac = true := vacParams_zero (by decide)

theorem flat_den (v : Var) (c : ℝ) : Den ⟨1, flat v c⟩ ([v], fun _ => c) :=
  ⟨.ofCan isSymm_zero (flat_mk v c), denotes_const (vars := [v]) (by simp) c _, fun _ => Iff.rfl⟩

theorem flat_copy (v : Var) (c : ℝ) : Mix.copyG ⟨1, flat v c⟩ = .ok ⟨1, flat v c⟩ := by
  unfold Mix.copyG
  dsimp only
  rw [show (flat v c).copy = .ok (flat v c) from flat_mk v c]
  rfl

theorem unit_copy (v : Var) (m : ℝ) : Mix.copyG ⟨1, unit v m⟩ = .ok ⟨1, unit v m⟩ := by
  unfold Mix.copyG
  dsimp only
  rw [show (unit v m).copy = .ok (unit v m) from unit_mk v m]
  rfl

theorem flat_equals (v : Var) (c d : ℝ) : Gauss.equals (1 / 10000) (1 / 10000) (flat v c) (flat v d) =
    .ok (flat v c, flat v d, true) := by
  have hk : equalsCopy (flat v c).vars (flat v d) = .ok (flat v d) := by
    unfold equalsCopy
    rw [show (flat v d).copy = .ok (flat v d) from flat_mk v d]
    dsimp only [bind, Except.bind]
    rw [if_neg (by simp [flat])]
  unfold Gauss.equals
  rw [if_neg (by simp [flat, sameSet_iff]), hk]
  dsimp only [bind, Except.bind]
  rw [if_pos (by simp [flat_vac])]

/-- **C64 (violation).** The constant `exp c` over `x` times a normal density over `y`, divided by the constant
`exp d` over `x`, is the density over `y` for all `c` and `d`; the result still lists `x` as its variable. -/
theorem C64_not_exact (hs : HashSeed) (c d : ℝ) : ∃ a a' g' r L, make hs [⟨1, flat "x" c⟩, ⟨1, unit "y" 0⟩] = .ok a ∧
    HasJoint a (fun x => c + L x) ∧ Denotes (flat "x" d) (fun _ => d) ∧
    divide hs a ⟨1, flat "x" d⟩ = .ok (a', g', r) ∧ HasJoint r L ∧ "x" ∈ r.vars ∧ ∀ f ∈ r.factors, "x" ∉ f.2.vars := by
  have h3 : [(⟨1, flat "x" c⟩ : AnyG), ⟨1, unit "y" 0⟩].mapM Mix.copyG = .ok [⟨1, flat "x" c⟩, ⟨1, unit "y" 0⟩] := by
    rw [List.mapM_cons, flat_copy]
    dsimp only [bind, Except.bind]
    rw [List.mapM_cons, unit_copy]
    rfl
  have hm : make hs [⟨1, flat "x" c⟩, ⟨1, unit "y" 0⟩] =
      .ok ⟨hs.strs.toList ["x", "y"], [⟨1, flat "x" c⟩, ⟨1, unit "y" 0⟩]⟩ := by
    unfold make
    rw [h3]
    rfl
  have hk : ∀ vs, copy hs ⟨vs, [⟨1, flat "x" c⟩, ⟨1, unit "y" 0⟩]⟩ =
      .ok ⟨hs.strs.toList ["x", "y"], [⟨1, flat "x" c⟩, ⟨1, unit "y" 0⟩]⟩ := by
    intro vs
    unfold copy
    dsimp only
    rw [h3]
    exact hm
  have f1 : IsFact ⟨hs.strs.toList ["x", "y"], [⟨1, flat "x" c⟩, ⟨1, unit "y" 0⟩]⟩ _ :=
    .cons (flat_den "x" c) (.cons (unit_den "y" 0) .nil)
  have f2 : IsFact ⟨hs.strs.toList ["x", "y"], [⟨1, unit "y" 0⟩]⟩ _ := .cons (unit_den "y" 0) .nil
  refine ⟨_, ⟨hs.strs.toList ["x", "y"], [⟨1, flat "x" c⟩, ⟨1, unit "y" 0⟩]⟩, ⟨1, flat "x" d⟩,
    ⟨hs.strs.toList ["x", "y"], [⟨1, unit "y" 0⟩]⟩, logOf (unit "y" 0) (unit_good "y" 0).len, hm, ?_, (flat_den "x" d).den,
    ?_, ?_, ?_, ?_⟩
  · refine (f1.joint (by simp)).congr fun x => ?_
    simp [total]
  · unfold divide
    rw [hk]
    dsimp only [bind, Except.bind]
    rw [findEqual, flat_equals]
    rfl
  · refine (f2.joint (by simp)).congr fun x => ?_
    simp [total]
  · dsimp only
    rw [SetOrder.mem]
    simp
  · simp [unit]

/-! ### C66 evidence -/

theorem den_local {f : AnyG} {i : Item} (hf : Den f i) {x y : Var → ℝ} (h : ∀ v ∈ f.2.vars, x v = y v) : i.2 x = i.2 y := by
  have h1 := (hf.den x).1
  rw [List.map_congr_left h, (hf.den y).1] at h1
  injection h1 with h1
  exact h1.symm

theorem override_get? (d : Dict Var ℝ) (x : Var → ℝ) (v : Var) :
    override d x v = (Dict.get? d v).getD (x v) := by
  unfold override
  induction d with
  | nil => rfl
  | cons e d ih =>
    by_cases h : e.1 = v
    · simp [h, Dict.get?]
    · simpa [h, Dict.get?] using ih

theorem keys_zip {vrs : List Var} {vals : List ℝ} (hl : vals.length = vrs.length) : Dict.keys (vrs.zip vals) = vrs := by
  unfold Dict.keys
  rw [List.map_fst_zip]
  omega

/-- The factor has the observed variables as its scope, or a variable that is not observed. -/
def Fits (vrs : List Var) (f : AnyG) : Prop := (∀ v, v ∈ vrs ↔ v ∈ f.2.vars) ∨ ∃ v ∈ f.2.vars, v ∉ vrs

theorem reduceLoop_den {vrs : List Var} {vals : List ℝ} (hn : vrs.Nodup) (hl : vals.length = vrs.length) {fs : List AnyG}
    {is : List Item} (h : List.Forall₂ Den fs is) (hfit : ∀ f ∈ fs, Fits vrs f) :
    ∃ fs' w rs js, reduceLoop vrs vals fs = .ok (fs', w, rs) ∧ List.Forall₂ Den fs' is ∧ List.Forall₂ Den rs js ∧
      (∀ x, w + total js x = total is (override (vrs.zip vals) x)) ∧
      (∀ v, (∃ j ∈ js, v ∈ j.1) ↔ (∃ i ∈ is, v ∈ i.1) ∧ v ∉ vrs) ∧
      (rs = [] ↔ ∀ f ∈ fs, ∀ v, v ∈ vrs ↔ v ∈ f.2.vars) := by
  have hev : Dict.ofPairs (vrs.zip vals) = vrs.zip vals := Dict.ofPairs_eq (by rw [← Dict.keys, keys_zip hl]; exact hn)
  induction h with
  | nil => exact ⟨[], 0, [], [], rfl, .nil, .nil, by simp [total], by simp, by simp⟩
  | @cons f i fs is h1 _ ih =>
    obtain ⟨fs', w, rs, js, e, k1, k2, k3, k4, k5⟩ := ih fun f hf => hfit f (List.mem_cons_of_mem _ hf)
    rw [reduceLoop]
    by_cases hsame : sameSet vrs f.2.vars
    · have hiff := sameSet_iff.1 hsame
      have hp := perm_of_sameSet hn h1.good.nodup hsame
      have hval : ∀ x, vrs.map (override (vrs.zip vals) x) = vals := by
        intro x
        refine List.ext_getElem (by simpa using hl.symm) fun j hj hj' => ?_
        rw [List.getElem_map]
        exact override_get hn hl x j (by simpa using hj)
      have hlp : ∀ x, f.2.logPotential vals (some vrs) = .ok (i.2 (override (vrs.zip vals) x)) := by
        intro x
        have := (h1.den (override (vrs.zip vals) x)).2.2 vrs hp
        rwa [hval x] at this
      rw [if_pos hsame, hlp fun _ => 0]
      dsimp only [bind, Except.bind]
      rw [e]
      refine ⟨f :: fs', _, rs, js, rfl, .cons h1 k1, k2, fun x => ?_, fun v => ?_, ?_⟩
      · have : i.2 (override (vrs.zip vals) x) = i.2 (override (vrs.zip vals) fun _ => 0) := by
          have := (hlp x).symm.trans (hlp fun _ => 0)
          injection this
        simp only [total, List.map_cons, List.sum_cons] at k3 ⊢
        rw [← k3, this]
        ring
      · rw [k4]
        have := (hiff v).trans (h1.vars v)
        simp only [List.exists_mem_cons_iff, ← this]
        tauto
      · simp only [List.forall_mem_cons, k5]
        exact ⟨fun hh => ⟨hiff, hh⟩, fun hh => hh.2⟩
    · have hun := (hfit f (List.mem_cons_self ..)).resolve_left fun hh => hsame (sameSet_iff.2 hh)
      rw [if_neg hsame]
      have key : ∃ f' r, (∀ v, v ∈ r.2.vars ↔ v ∈ f.2.vars ∧ v ∉ vrs) ∧ Den f' i ∧
          Den r (i.1.filter (· ∉ vrs), fun x => i.2 (override (vrs.zip vals) x)) ∧
          (if ∃ v ∈ vrs, v ∈ f.2.vars then do
            let ev := CG.subsetEvidence (Dict.ofPairs (vrs.zip vals)) f.2.vars
            let (f', r) ← f.2.reduce (Dict.keys ev) (Dict.values ev)
            let (fs', w, rs) ← reduceLoop vrs vals fs
            .ok (⟨_, f'⟩ :: fs', w, r :: rs)
          else do
            let r ← Mix.copyG f
            let (fs', w, rs) ← reduceLoop vrs vals fs
            .ok (f :: fs', w, r :: rs) : Py (List AnyG × ℝ × List AnyG)) = .ok (f' :: fs', w, r :: rs) := by
        by_cases hint : ∃ v ∈ vrs, v ∈ f.2.vars
        · rw [if_pos hint, hev]
          have hkeys := CG.keys_subsetEvidence (vrs.zip vals) h1.good.nodup
          have hmem : ∀ v, v ∈ Dict.keys (CG.subsetEvidence (vrs.zip vals) f.2.vars) ↔ v ∈ f.2.vars ∧ v ∈ vrs := by
            intro v
            rw [hkeys, List.mem_filter, Option.isSome_iff_exists, Dict.get?_isSome_iff, keys_zip hl]
          obtain ⟨u, hu1, hu2⟩ := hun
          obtain ⟨f', r, hr, hv, hd, hd', hvf⟩ := (C33_reduce_partial h1.made h1.den
            (vrs := Dict.keys (CG.subsetEvidence (vrs.zip vals) f.2.vars))
            (vals := Dict.values (CG.subsetEvidence (vrs.zip vals) f.2.vars)) (by rw [hkeys]; exact h1.good.nodup.filter _)
            (by simp [Dict.keys, Dict.values])).1 (fun v hv => ((hmem v).1 hv).1) ⟨u, hu1, fun hh => hu2 ((hmem u).1 hh).2⟩
          have hv' : ∀ v, v ∈ r.2.vars ↔ v ∈ f.2.vars ∧ v ∉ vrs := fun v => by
            rw [hv v, hmem v]
            tauto
          refine ⟨⟨_, f'⟩, r, hv', ⟨.reduce_self h1.made hr, hd', fun v => ?_⟩, ⟨.reduce h1.made hr, ?_, fun v => ?_⟩, ?_⟩
          · dsimp only
            rw [hvf]
            exact h1.vars v
          · refine hd.congr fun x => ?_
            refine den_local h1 fun v hvf => ?_
            have hz := CG.zip_keys_values (CG.subsetEvidence (vrs.zip vals) f.2.vars) (id : ℝ → ℝ)
            rw [List.map_id] at hz
            rw [hz, override_get?, override_get?, ← CG.get?_subsetEvidence (vrs.zip vals) h1.good.nodup hvf]
            simp
          · rw [hv', h1.vars]
            simp
          · dsimp only [bind, Except.bind]
            rw [hr]
            dsimp only
            rw [e]
        · rw [if_neg hint]
          obtain ⟨r, hr, hd, hvr⟩ := copyG_den h1
          have hno : ∀ v ∈ f.2.vars, v ∉ vrs := fun v h3 h4 => hint ⟨v, h4, h3⟩
          refine ⟨f, r, fun v => ?_, h1, ⟨hd.made, hd.den.congr fun x => ?_, fun v => ?_⟩, ?_⟩
          · rw [hvr]
            exact ⟨fun h3 => ⟨h3, hno v h3⟩, fun h3 => h3.1⟩
          · exact den_local h1 fun v h3 => (override_not_mem (hno v h3) x).symm
          · rw [hvr]
            simp only [List.mem_filter, ← h1.vars v, decide_eq_true_eq]
            exact ⟨fun h3 => ⟨h3, hno v h3⟩, fun h3 => h3.1⟩
          · rw [hr]
            dsimp only [bind, Except.bind]
            rw [e]
      obtain ⟨f', r, -, d1, d2, hres⟩ := key
      rw [hres]
      refine ⟨f' :: fs', w, r :: rs, _ :: js, rfl, .cons d1 k1, .cons d2 k2, fun x => ?_, fun v => ?_, ?_⟩
      · simp only [total, List.map_cons, List.sum_cons] at k3 ⊢
        rw [← k3]
        ring
      · simp only [List.exists_mem_cons_iff, k4, List.mem_filter, decide_eq_true_eq]
        tauto
      · simp only [List.forall_mem_cons, reduceCtorEq, false_iff, not_and]
        intro hh
        exact absurd (sameSet_iff.2 hh) hsame

/-- **C66 (part that holds).** Let the evidence be a list of distinct names with one value each. If every factor has
exactly the observed variables or some variable that is not observed, and if some factor has a variable that is not
observed, then `reduce` gives the joint distribution with the evidence substituted, over the remaining variables, and
changes no factor. What is missing for the full claim: all other evidence, for which `reduce` raises, see `C66_raises`. -/
theorem C66_reduce_partial (hs : HashSeed) {a : Fact} {is : List Item} (ha : IsFact a is) {vrs : List Var} {vals : List ℝ}
    (hn : vrs.Nodup) (hl : vals.length = vrs.length)
    (hfit : ∀ f ∈ a.factors, (∀ v, v ∈ vrs ↔ v ∈ f.2.vars) ∨ ∃ v ∈ f.2.vars, v ∉ vrs)
    (hex : ∃ f ∈ a.factors, ∃ v ∈ f.2.vars, v ∉ vrs) :
    ∃ a' r js, reduce hs a vrs vals = .ok (a', r) ∧ (IsFact a' is ∧ a'.vars = a.vars) ∧ IsFact r js ∧
      HasJoint r (fun x => total is (override (vrs.zip vals) x)) ∧
      ∀ v, v ∈ r.vars ↔ (∃ f ∈ a.factors, v ∈ f.2.vars) ∧ v ∉ vrs := by
  obtain ⟨fs', w, rs, js, e, k1, k2, k3, k4, k5⟩ := reduceLoop_den hn hl ha hfit
  have hne : rs ≠ [] := by
    intro h
    obtain ⟨f, hf, v, hv, hv'⟩ := hex
    exact hv' ((k5.1 h f hf v).2 hv)
  cases k2 with
  | nil => exact absurd rfl hne
  | @cons r j rs js d1 d2 =>
    have d3 : Den ⟨r.1, r.2.addLogWeight w⟩ (j.1, fun x => j.2 x + w) :=
      ⟨.addLogWeight w d1.made, (C38_copy_weight d1.made d1.den).2 w, d1.vars⟩
    obtain ⟨b, hb, b1, b2, -, b4⟩ := make_den hs (.cons d3 d2)
    refine ⟨{ a with factors := fs' }, b, _, ?_, ⟨k1, rfl⟩, b1, (b1.joint ?_).congr fun x => ?_, fun v => ?_⟩
    · unfold reduce
      rw [e]
      dsimp only [bind, Except.bind]
      rw [hb]
    · intro h
      rw [h] at b4
      simp at b4
    · rw [← k3 x]
      simp only [total, List.map_cons, List.sum_cons]
      ring
    · rw [b2 v, mem_scope b1, mem_scope ha, ← k4 v]
      simp only [List.exists_mem_cons_iff]

/-- The hypotheses of `C66_reduce_partial` can be met, with a factor that is observed completely and one that is
observed in part. -/
example : (∃ is, IsFact exF is) ∧ ["b", "a"].Nodup ∧
    (∀ f ∈ exF.factors, (∀ v, v ∈ ["b", "a"] ↔ v ∈ f.2.vars) ∨ ∃ v ∈ f.2.vars, v ∉ ["b", "a"]) ∧
    ∃ f ∈ exF.factors, ∃ v ∈ f.2.vars, v ∉ ["b", "a"] := by
  refine ⟨⟨_, exF_isFact⟩, by decide, ?_, gB, by simp [exF], "c", by simp [gB, exB], by decide⟩
  intro f hf
  simp only [exF, List.mem_cons, List.not_mem_nil, or_false] at hf
  rcases hf with rfl | rfl
  · exact .inl (by simp [gA, exA, or_comm])
  · exact .inr ⟨"c", by simp [gB, exB], by decide⟩

theorem reduceLoop_raises {vrs : List Var} {vals : List ℝ} (hn : vrs.Nodup) (hl : vals.length = vrs.length) {fs : List AnyG}
    {is : List Item} (h : List.Forall₂ Den fs is)
    (hex : ∃ f ∈ fs, f.2.vars ≠ [] ∧ (∀ v ∈ f.2.vars, v ∈ vrs) ∧ ∃ v ∈ vrs, v ∉ f.2.vars) :
    reduceLoop vrs vals fs = .error .assertionError := by
  have hev : Dict.ofPairs (vrs.zip vals) = vrs.zip vals := Dict.ofPairs_eq (by rw [← Dict.keys, keys_zip hl]; exact hn)
  induction h with
  | nil => simp at hex
  | @cons f i fs is h1 h2 ih =>
    rw [reduceLoop, hev]
    have hkeys := CG.keys_subsetEvidence (vrs.zip vals) h1.good.nodup
    have hmem : ∀ v, v ∈ Dict.keys (CG.subsetEvidence (vrs.zip vals) f.2.vars) ↔ v ∈ f.2.vars ∧ v ∈ vrs := by
      intro v
      rw [hkeys, List.mem_filter, Option.isSome_iff_exists, Dict.get?_isSome_iff, keys_zip hl]
    have hlen : (Dict.values (CG.subsetEvidence (vrs.zip vals) f.2.vars)).length =
        (Dict.keys (CG.subsetEvidence (vrs.zip vals) f.2.vars)).length := by simp [Dict.keys, Dict.values]
    have hnd : (Dict.keys (CG.subsetEvidence (vrs.zip vals) f.2.vars)).Nodup := by
      rw [hkeys]; exact h1.good.nodup.filter _
    by_cases hsame : sameSet vrs f.2.vars
    · have hiff := sameSet_iff.1 hsame
      have hp := perm_of_sameSet hn h1.good.nodup hsame
      have hval : vrs.map (override (vrs.zip vals) fun _ => 0) = vals := by
        refine List.ext_getElem (by simpa using hl.symm) fun j hj hj' => ?_
        rw [List.getElem_map]
        exact override_get hn hl _ j (by simpa using hj)
      have := (h1.den (override (vrs.zip vals) fun _ => 0)).2.2 vrs hp
      rw [hval] at this
      rw [if_pos hsame, this]
      dsimp only [bind, Except.bind]
      obtain ⟨g, hg, q1, q2, v, q3, q4⟩ := hex
      rcases List.mem_cons.1 hg with rfl | hg
      · exact absurd ((hiff v).1 q3) q4
      · rw [ih ⟨g, hg, q1, q2, v, q3, q4⟩]
    · rw [if_neg hsame]
      by_cases hint : ∃ v ∈ vrs, v ∈ f.2.vars
      · rw [if_pos hint]
        by_cases hun : ∃ v ∈ f.2.vars, v ∉ vrs
        · obtain ⟨u, hu1, hu2⟩ := hun
          obtain ⟨f', r, hr, -⟩ := (C33_reduce_partial h1.made h1.den hnd hlen).1 (fun v hv => ((hmem v).1 hv).1)
            ⟨u, hu1, fun hh => hu2 ((hmem u).1 hh).2⟩
          dsimp only [bind, Except.bind]
          rw [hr]
          dsimp only
          obtain ⟨g, hg, q1, q2, q3⟩ := hex
          rcases List.mem_cons.1 hg with rfl | hg
          · exact absurd (q2 u hu1) hu2
          · rw [ih ⟨g, hg, q1, q2, q3⟩]
        · have := C33_all_observed h1.made h1.den hlen fun v => by
            rw [hmem v]
            exact ⟨fun hh => hh.1, fun hh => ⟨hh, by_contra fun h' => hun ⟨v, hh, h'⟩⟩⟩
          dsimp only [bind, Except.bind]
          rw [this]
      · rw [if_neg hint]
        obtain ⟨r, hr, -⟩ := copyG_den h1
        rw [hr]
        dsimp only [bind, Except.bind]
        obtain ⟨g, hg, q1, q2, q3⟩ := hex
        rcases List.mem_cons.1 hg with rfl | hg
        · obtain ⟨u, hu⟩ := List.exists_mem_of_ne_nil _ q1
          exact absurd ⟨u, q2 u hu, hu⟩ hint
        · rw [ih ⟨g, hg, q1, q2, q3⟩]

/-- **C66 (violation).** Evidence that covers a factor and has a variable outside of it raises `AssertionError`;
evidence on exactly the variables of every factor raises `IndexError`. This holds for all factorised factors,
also when all observed variables are in the scope. -/
theorem C66_raises (hs : HashSeed) {a : Fact} {is : List Item} (ha : IsFact a is) {vrs : List Var} {vals : List ℝ}
    (hn : vrs.Nodup) (hl : vals.length = vrs.length) :
    ((∃ f ∈ a.factors, f.2.vars ≠ [] ∧ (∀ v ∈ f.2.vars, v ∈ vrs) ∧ ∃ v ∈ vrs, v ∉ f.2.vars) →
      reduce hs a vrs vals = .error .assertionError) ∧
    ((∀ f ∈ a.factors, ∀ v, v ∈ vrs ↔ v ∈ f.2.vars) → reduce hs a vrs vals = .error .indexError) := by
  constructor
  · intro h
    unfold reduce
    rw [reduceLoop_raises hn hl ha h]
    rfl
  · intro h
    obtain ⟨fs', w, rs, js, e, k1, k2, k3, k4, k5⟩ := reduceLoop_den hn hl ha fun f hf => .inl (h f hf)
    unfold reduce
    rw [e, k5.2 h]
    rfl

/-- The hypotheses of `C66_raises` can be met: `exF` has the factors over `a`, `b` and over `b`, `c`; all variables
are observed. -/
example : (∃ is, IsFact exF is) ∧ ["a", "b", "c"].Nodup ∧ (∀ v ∈ ["a", "b", "c"], v ∈ exF.vars) ∧
    ∃ f ∈ exF.factors, f.2.vars ≠ [] ∧ (∀ v ∈ f.2.vars, v ∈ ["a", "b", "c"]) ∧ ∃ v ∈ ["a", "b", "c"], v ∉ f.2.vars :=
  ⟨⟨_, exF_isFact⟩, by decide, by simp [exF], gA, by simp [exF], by simp [gA, exA], by simp [gA, exA], "c", by simp,
    by simp [gA, exA]⟩

/-! ### C68 normalize -/

/-- **C68 (part that holds).** With a single factor whose precision is positive definite, `normalize` gives a multiple
of the joint distribution that integrates to one. What is missing for the full claim: more than one factor, for which
`normalize` always raises (`C68_raises`). -/
theorem C68_normalize_partial (hs : HashSeed) {a : Fact} {i : Item} (ha : IsFact a [i]) {f : AnyG} {f' : Gauss f.1}
    {c : Can f.1} (hf : a.factors = [f]) (hc : f.2.getCan = .ok (f', c)) (hK : c.prec.PosDef) :
    ∃ r j, normalize hs a = .ok r ∧ IsFact r [j] ∧ HasJoint r j.2 ∧ (∃ t, ∀ x, j.2 x = i.2 x + t) ∧
      (∀ v, v ∈ r.vars ↔ v ∈ f.2.vars) ∧ ∀ g ∈ r.factors, ∀ x, integrateOut g.2.vars (fun z => Real.exp (j.2 z)) x = 1 := by
  obtain ⟨⟨kv, kf⟩, h1, h2, h3, -, h5⟩ := copy_den hs ha
  have hden : Den f i := by
    have := ha
    unfold IsFact at this
    rw [hf] at this
    cases this with
    | cons h _ => exact h
  unfold IsFact at h2
  dsimp only at h2
  cases h2 with
  | @cons k _ _ _ d1 d2 =>
    cases d2
    rw [hf] at h5
    simp only [List.map_cons, List.map_nil, List.cons.injEq, and_true] at h5
    obtain ⟨n, f⟩ := f
    obtain ⟨m, k⟩ := k
    dsimp only at *
    have hmn : m = n := dim_eq hden.good d1.good fun v => by rw [h5]
    subst hmn
    obtain ⟨-, -, rfl⟩ := getCan_inv hden.good.inv hc
    rw [canOf_unique d1.good hden.good h5.symm d1.den hden.den] at hK
    obtain ⟨r, N, e1, e2, e3, ⟨t, e4⟩, e5⟩ := C35_normalize d1.made d1.den (getCan_valid d1.good.toValid) hK
    obtain ⟨k1, g1, d3, -⟩ := copyG_den d1
    obtain ⟨k2, g2, -⟩ := copyG_den d3
    have hres : IsFact ⟨kv, [⟨_, r⟩]⟩ [(i.1, N)] := .cons ⟨.normalize d1.made e1, e3, fun v => by
      dsimp only
      rw [e2]
      exact d1.vars v⟩ .nil
    refine ⟨⟨kv, [⟨_, r⟩]⟩, (i.1, N), ?_, hres, (hres.joint (by simp)).congr fun x => by simp [total], ⟨t, e4⟩,
      fun v => ?_, fun g hg => ?_⟩
    · unfold normalize
      rw [h1]
      dsimp only [bind, Except.bind]
      have : mergeDependent ⟨kv, [⟨_, k⟩]⟩ = .ok () := by
        unfold mergeDependent
        dsimp only
        rw [g1]
        dsimp only [bind, Except.bind]
        rw [g2]
      rw [this]
      dsimp only
      rw [List.mapM_cons, e1]
      rfl
    · rw [← h5]
      have := h3 v
      simpa using this
    · rw [List.mem_singleton] at hg
      subst hg
      exact e5

theorem exA_can : ∃ a' c, exA.getCan = .ok (a', c) ∧ c.prec.PosDef :=
  ⟨_, _, getCan_valid exA_good.toValid, exS_posDef.inv⟩

/-- The hypotheses of `C68_normalize_partial` can be met. -/
example : IsFact ⟨["a", "b"], [gA]⟩ [(["a", "b"], logOf exA exA_good.len)] ∧
    ∃ a' c, gA.2.getCan = .ok (a', c) ∧ c.prec.PosDef := ⟨.cons gA_den .nil, exA_can⟩

/-- **C68 (violation).** `normalize` raises `AttributeError` for every factorised factor with two or more factors. -/
theorem C68_raises (hs : HashSeed) {a : Fact} {is : List Item} (ha : IsFact a is) (h : 2 ≤ a.factors.length) :
    normalize hs a = .error .attributeError := by
  obtain ⟨⟨kv, kf⟩, h1, h2, -⟩ := copy_den hs ha
  unfold normalize
  rw [h1]
  dsimp only [bind, Except.bind]
  have hlen : kf.length = a.factors.length := h2.length_eq.trans ha.length_eq.symm
  unfold IsFact at h2
  dsimp only at h2
  rw [← hlen] at h
  match kf, h2, h with
  | f :: g :: fs, .cons d1 _, _ =>
    obtain ⟨k1, g1, -⟩ := copyG_den d1
    unfold mergeDependent
    dsimp only
    rw [g1]
    rfl

/-- The hypotheses of `C68_raises` can be met. -/
example : (∃ is, IsFact exF is) ∧ 2 ≤ exF.factors.length := ⟨⟨_, exF_isFact⟩, by simp [exF]⟩

end Verif.Fact
