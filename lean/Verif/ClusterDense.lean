import Verif.ClusterGain
import Verif.CatProps4

/-!
# Cluster graphs of dense categorical factors

`denseOps` are the operations of `Categorical` as they are; they are not lawful: `marginalize` mislabels axes
unless the variables are requested in stored order (C18), and `cancel` raises on 0/0 unless both operands have the
same variables (C17). `idealOps` are operations without these defects, built from the same parts. They are lawful,
and `ClusterDenseRun` shows that on graphs whose clusters share at most one variable the two agree.
-/

namespace Verif.CG
open Spec (override Asg sumOut)
open Classical
open Cat (WF Proper InRange)

/-- The operations of `Categorical` used by the cluster graph (categorical.py 267-499). Evidence values are
non-negative ints. -/
noncomputable def denseOps (hs : HashSeed) : Ops (Cat ℝ) Nat EReal where
  vars := fun f => f.vars
  multiply := Cat.multiply
  cancel := Cat.cancel
  marginalize := fun f vrs => Cat.marginalize hs f vrs true
  reduce := fun f vrs ks => Cat.reduce f vrs (ks.map Int.ofNat)
  distVacuous := fun f => do
    let d ← Cat.distanceFromVacuous f
    toGain d
  kl := fun f g => do
    let d ← Cat.klDivergence f g
    toGain d

/-- Some entry is `-inf`. -/
def HasZero (g : Cat ℝ) : Prop := ∃ x : Asg, g.InRange x ∧ g.val x = .ninf

/-- The factor with ones in place of the zeros. -/
noncomputable def unzero (g : Cat ℝ) : Cat ℝ :=
  { g with tensor := g.tensor.map fun a => if a = .ninf then .fin 0 else a }

/-- `cancel` without the defect of C17: zeros of the divisor are replaced by ones after alignment. -/
noncomputable def idealCancel (f g : Cat ℝ) : Py (Cat ℝ) :=
  if f.vars = g.vars ∧ f.vars ≠ [] then Cat.cancel f g
  else if HasZero g then Cat.divide f (unzero g) else Cat.divide f g

/-- `marginalize` without the defect of C18: the result is brought into the requested order. -/
noncomputable def idealMarginalize (hs : HashSeed) (f : Cat ℝ) (vrs : List Var) : Py (Cat ℝ) :=
  if vrs.length ≤ 1 then Cat.marginalize hs f vrs true
  else do
    let m ← Cat.marginalize hs f (f.vars.filter (· ∈ vrs)) true
    m.reorder vrs

/-- The corrected operations. (Not part of the code: a device for the proofs.) -/
noncomputable def idealOps (hs : HashSeed) : Ops (Cat ℝ) Nat EReal :=
  { denseOps hs with cancel := idealCancel, marginalize := idealMarginalize hs }

/-- Well formed, log-probabilities of finite numbers, with the cardinalities `C` and value names `N`. -/
structure DenseOk (C : Var → Nat) (N : Var → List AName) (f : Cat ℝ) : Prop where
  wf : WF f
  proper : Proper f
  card : ∀ v ∈ f.vars, f.card v = C v
  name : ∀ v ∈ f.vars, f.name v = N v

/-- The probability, zero outside the range. -/
noncomputable def denseDen (f : Cat ℝ) (x : Asg) : ℝ := if f.InRange x then f.prob x else 0

variable {hs : HashSeed} {C : Var → Nat} {N : Var → List AName} {f g r : Cat ℝ}

theorem DenseOk.inRange (hf : DenseOk C N f) {x : Asg} : f.InRange x ↔ ∀ v ∈ f.vars, x v < C v :=
  forall₂_congr fun v hv => by rw [hf.card v hv]

theorem DenseOk.consistent (hf : DenseOk C N f) (hg : DenseOk C N g) : Cat.Consistent f g :=
  fun v h1 h2 => (hf.card v h1).trans (hg.card v h2).symm

theorem DenseOk.sameNames (hf : DenseOk C N f) (hg : DenseOk C N g) : Cat.SameNames f g :=
  fun v h1 h2 => (hf.name v h1).trans (hg.name v h2).symm

theorem denseDen_of {x : Asg} (h : f.InRange x) : denseDen f x = f.prob x := if_pos h

theorem denseDen_nonneg (f : Cat ℝ) (x : Asg) : 0 ≤ denseDen f x := by
  unfold denseDen Cat.prob
  split
  · cases f.val x <;> simp [XF.prob, Real.exp_nonneg]
  · exact le_rfl

theorem denseDen_dep (f : Cat ℝ) : Spec.DependsOn (denseDen f) f.vars := by
  intro x y h
  have h1 : f.InRange x ↔ f.InRange y := forall₂_congr fun v hv => by rw [h v hv]
  unfold denseDen
  by_cases hx : f.InRange x
  · rw [if_pos hx, if_pos (h1.1 hx)]
    exact Cat.prob_dependsOn f x y h
  · rw [if_neg hx, if_neg (mt h1.2 hx)]

theorem DenseOk.supp (hf : DenseOk C N f) (x : Asg) (h : denseDen f x ≠ 0) : ∀ v ∈ f.vars, x v < C v := by
  unfold denseDen at h
  split at h
  · rwa [← hf.inRange]
  · exact absurd rfl h

theorem prob_eq_zero {a : XF ℝ} (h : a.Proper) : a.prob = 0 ↔ a = .ninf := by
  cases a <;> simp_all [XF.Proper, XF.prob, Real.exp_ne_zero]

/-- A zero denotation in the range is an entry `-inf`. -/
theorem DenseOk.den_zero (hf : DenseOk C N f) {x : Asg} (hx : f.InRange x) : denseDen f x = 0 ↔ f.val x = .ninf := by
  rw [denseDen_of hx]
  exact prob_eq_zero (hf.proper x hx)

/-! ### multiply -/

theorem DenseOk.mul (hf : DenseOk C N f) (hg : DenseOk C N g) :
    ∃ r, Cat.multiply f g = .ok r ∧ DenseOk C N r ∧ (∀ v, v ∈ r.vars ↔ v ∈ f.vars ∨ v ∈ g.vars) ∧
      ∀ x, denseDen r x = denseDen f x * denseDen g x := by
  obtain ⟨r, h, s⟩ := Cat.multiply_ok hf.wf hg.wf (hf.consistent hg) (hf.sameNames hg)
  have hin : ∀ x, r.InRange x ↔ f.InRange x ∧ g.InRange x := by
    intro x
    constructor
    · intro hx
      refine ⟨fun v hv => ?_, fun v hv => ?_⟩
      · rw [← s.cardL v hv]; exact hx v ((s.scope v).2 (Or.inl hv))
      · rw [← s.cardR v hv]; exact hx v ((s.scope v).2 (Or.inr hv))
    · rintro ⟨h1, h2⟩ v hv
      rcases (s.scope v).1 hv with hv | hv
      · rw [s.cardL v hv]; exact h1 v hv
      · rw [s.cardR v hv]; exact h2 v hv
  refine ⟨r, h, ⟨s.wf, fun x hx => ?_, fun v hv => ?_, fun v hv => ?_⟩, s.scope, fun x => ?_⟩
  · obtain ⟨h1, h2⟩ := (hin x).1 hx
    rw [s.val x h1 h2]
    have a1 := hf.proper x h1
    have a2 := hg.proper x h2
    revert a1 a2
    generalize f.val x = a
    generalize g.val x = b
    cases a <;> cases b <;> simp [XF.Proper, XF.add]
  · rcases (s.scope v).1 hv with hv | hv
    · rw [s.cardL v hv, hf.card v hv]
    · rw [s.cardR v hv, hg.card v hv]
  · rcases (s.scope v).1 hv with hv | hv
    · rw [s.nameL v hv, hf.name v hv]
    · rw [s.nameR v hv, hg.name v hv]
  · by_cases hx : r.InRange x
    · obtain ⟨h1, h2⟩ := (hin x).1 hx
      rw [denseDen_of hx, denseDen_of h1, denseDen_of h2]
      unfold Cat.prob
      rw [s.val x h1 h2, XF.prob_add (hf.proper x h1) (hg.proper x h2)]
    · unfold denseDen
      rw [if_neg hx]
      by_cases h1 : f.InRange x
      · rw [if_neg fun h2 => hx ((hin x).2 ⟨h1, h2⟩), mul_zero]
      · rw [if_neg h1, zero_mul]

/-! ### cancel -/

/-- A quotient by a factor without zeros. -/
theorem DenseOk.div (hf : DenseOk C N f) (hg : DenseOk C N g) (hsub : ∀ v ∈ g.vars, v ∈ f.vars)
    (hz : ∀ x, g.InRange x → g.val x ≠ .ninf) :
    ∃ r, Cat.divide f g = .ok r ∧ DenseOk C N r ∧ (∀ v, v ∈ r.vars ↔ v ∈ f.vars) ∧
      ∀ x, denseDen r x = denseDen f x / denseDen g x := by
  obtain ⟨r, h, s⟩ := Cat.divide_ok hf.wf hg.wf (hf.consistent hg) (hf.sameNames hg) hsub
  have hsc : ∀ v, v ∈ r.vars ↔ v ∈ f.vars := fun v => by
    rw [s.scope]; exact ⟨fun h => h.elim id (hsub v), Or.inl⟩
  have hin : ∀ x, r.InRange x ↔ f.InRange x := fun x =>
    ⟨fun hx v hv => by rw [← s.cardL v hv]; exact hx v ((hsc v).2 hv),
      fun hx v hv => by rw [s.cardL v ((hsc v).1 hv)]; exact hx v ((hsc v).1 hv)⟩
  have hgin : ∀ x, f.InRange x → g.InRange x := fun x hx v hv => by
    rw [hg.card v hv, ← hf.card v (hsub v hv)]; exact hx v (hsub v hv)
  have key : ∀ a b : XF ℝ, a.Proper → b.Proper → b ≠ .ninf →
      (XF.sub a b).Proper ∧ (XF.sub a b).prob = a.prob / b.prob := by
    intro a b
    cases a <;> cases b <;> simp [XF.Proper, XF.sub, XF.prob, Real.exp_sub]
  refine ⟨r, h, ⟨s.wf, fun x hx => ?_, fun v hv => ?_, fun v hv => ?_⟩, hsc, fun x => ?_⟩
  · have h1 := (hin x).1 hx
    rw [s.val x h1 (hgin x h1)]
    exact (key _ _ (hf.proper x h1) (hg.proper x (hgin x h1)) (hz x (hgin x h1))).1
  · rw [s.cardL v ((hsc v).1 hv), hf.card v ((hsc v).1 hv)]
  · rw [s.nameL v ((hsc v).1 hv), hf.name v ((hsc v).1 hv)]
  · by_cases hx : r.InRange x
    · have h1 := (hin x).1 hx
      rw [denseDen_of hx, denseDen_of h1, denseDen_of (hgin x h1)]
      unfold Cat.prob
      rw [s.val x h1 (hgin x h1)]
      exact (key _ _ (hf.proper x h1) (hg.proper x (hgin x h1)) (hz x (hgin x h1))).2
    · unfold denseDen
      rw [if_neg hx, if_neg (mt (hin x).2 hx), zero_div]

theorem unzero_val (g : Cat ℝ) (x : Asg) : (unzero g).val x = if g.val x = .ninf then .fin 0 else g.val x := rfl

theorem unzero_ok (hg : DenseOk C N g) : DenseOk C N (unzero g) := by
  refine ⟨⟨hg.wf.nodup, hg.wf.ndim, hg.wf.cards, hg.wf.names, hg.wf.namesCard⟩, fun x hx => ?_, hg.card, hg.name⟩
  rw [unzero_val]
  split
  · trivial
  · exact hg.proper x hx

/-- The corrected `cancel` returns and is the quotient with 0/0 = 0. -/
theorem DenseOk.cancel (hf : DenseOk C N f) (hg : DenseOk C N g) (hsub : ∀ v ∈ g.vars, v ∈ f.vars)
    (hsup : ∀ x, denseDen g x = 0 → denseDen f x = 0) :
    ∃ r, idealCancel f g = .ok r ∧ DenseOk C N r ∧ (∀ v, v ∈ r.vars ↔ v ∈ f.vars) ∧
      ∀ x, denseDen r x = denseDen f x / denseDen g x := by
  have hgin : ∀ x, f.InRange x → g.InRange x := fun x hx v hv => by
    rw [hg.card v hv, ← hf.card v (hsub v hv)]; exact hx v (hsub v hv)
  unfold idealCancel
  split
  · rename_i hv
    obtain ⟨r, h1, h2, h3, h4, h5⟩ := Cat.C17_cancel_partial f g hf.wf hg.wf hv.2 hv.1 (hf.consistent hg)
      (hf.sameNames hg)
    have hnm : ∀ v ∈ r.vars, r.name v = f.name v := by
      intro v hvr
      unfold Cat.cancel at h1
      obtain ⟨gt, k1, h1⟩ := py_bind_eq_ok.1 h1
      obtain ⟨t, k2, h1⟩ := py_bind_eq_ok.1 h1
      obtain ⟨_, _, h1⟩ := py_bind_eq_ok.1 h1
      obtain ⟨ns, k4, h1⟩ := py_bind_eq_ok.1 h1
      have k5 := Cat.names_follow k4 h1
      exact (Cat.get?_name hf.wf rfl (k5.2 v (k5.1 ▸ hvr))).2
    have hin : ∀ x, r.InRange x ↔ f.InRange x := fun x =>
      ⟨fun hx v hv => by rw [← h4 v hv]; exact hx v (by rw [h3]; exact hv),
        fun hx v hv => by rw [h3] at hv; rw [h4 v hv]; exact hx v hv⟩
    have key : ∀ a b : XF ℝ, a.Proper → b.Proper → (b = .ninf → a = .ninf) →
        (Cat.quot0 a b).Proper ∧ (Cat.quot0 a b).prob = a.prob / b.prob := by
      intro a b
      cases a <;> cases b <;> simp [XF.Proper, Cat.quot0, XF.sub, XF.prob, Real.exp_sub]
    have hz : ∀ x, f.InRange x → g.val x = .ninf → f.val x = .ninf := fun x hx h0 =>
      (hf.den_zero hx).1 (hsup x ((hg.den_zero (hgin x hx)).2 h0))
    refine ⟨r, h1, ⟨h2, fun x hx => ?_, fun v hv => ?_, fun v hv => ?_⟩, fun v => by rw [h3], fun x => ?_⟩
    · have hx' := (hin x).1 hx
      rw [h5 x hx']
      exact (key _ _ (hf.proper x hx') (hg.proper x (hgin x hx')) (hz x hx')).1
    · rw [h4 v (h3 ▸ hv), hf.card v (h3 ▸ hv)]
    · rw [hnm v hv, hf.name v (h3 ▸ hv)]
    · by_cases hx : r.InRange x
      · have hx' := (hin x).1 hx
        rw [denseDen_of hx, denseDen_of hx', denseDen_of (hgin x hx')]
        unfold Cat.prob
        rw [h5 x hx']
        exact (key _ _ (hf.proper x hx') (hg.proper x (hgin x hx')) (hz x hx')).2
      · unfold denseDen
        rw [if_neg hx, if_neg (mt (hin x).2 hx), zero_div]
  · split
    · obtain ⟨r, h1, h2, h3, h4⟩ := hf.div (unzero_ok hg) hsub (fun x _ h0 => by
        rw [unzero_val] at h0
        split at h0
        · cases h0
        · contradiction)
      refine ⟨r, h1, h2, h3, fun x => ?_⟩
      rw [h4]
      by_cases hx : g.InRange x
      · by_cases h0 : g.val x = .ninf
        · rw [(hg.den_zero hx).2 h0, hsup x ((hg.den_zero hx).2 h0), zero_div, zero_div]
        · congr 1
          rw [denseDen_of hx, denseDen_of (f := unzero g) hx]
          unfold Cat.prob
          rw [unzero_val, if_neg h0]
      · have : ¬ (unzero g).InRange x := hx
        unfold denseDen
        rw [if_neg hx, if_neg this]
    · rename_i hz
      exact hf.div hg hsub fun x hx h0 => hz ⟨x, hx, h0⟩

/-! ### marginalize -/

theorem filter_single {l : List Var} (hn : l.Nodup) {v : Var} (hv : v ∈ l) : l.filter (· ∈ [v]) = [v] := by
  induction l with
  | nil => cases hv
  | cons a l ih =>
    rw [List.nodup_cons] at hn
    rcases List.mem_cons.1 hv with rfl | h
    · rw [List.filter_cons_of_pos (by simp)]
      congr 1
      rw [List.filter_eq_nil_iff]
      intro a ha
      simp only [List.mem_singleton, decide_eq_true_eq]
      rintro rfl
      exact hn.1 ha
    · have : a ≠ v := by rintro rfl; exact hn.1 h
      rw [List.filter_cons_of_neg (by simp [this])]
      exact ih hn.2 h

theorem filter_short {l vrs : List Var} (hn : l.Nodup) (hv : ∀ v ∈ vrs, v ∈ l) (h : vrs.length ≤ 1) :
    l.filter (· ∈ vrs) = vrs := by
  match vrs, h with
  | [], _ => simp
  | [v], _ => exact filter_single hn (hv v (by simp))

/-- Marginals in stored order. -/
theorem DenseOk.margStored (hC : ∀ v, 2 ≤ C v) (hf : DenseOk C N f) {kept : List Var}
    (hord : f.vars.filter (· ∈ kept) = kept) :
    ∃ r, Cat.marginalize hs f kept true = .ok r ∧ DenseOk C N r ∧ r.vars = kept ∧
      ∀ x, denseDen r x = sumOut C (f.vars.toFinset \ kept.toFinset) (denseDen f) x := by
  have hsub : ∀ v ∈ kept, v ∈ f.vars := by
    intro v hv
    rw [← hord] at hv
    exact (List.mem_filter.1 hv).1
  obtain ⟨r, h1, h2, h3, h4, h5, h6, h7⟩ := Cat.C18_marginalize_partial hs f hf.wf hf.proper kept true kept rfl hord.symm
    (fun v hv => by have := hC v; rw [hf.card v (hsub v hv)]; omega)
    (fun v hv _ => by have := hC v; rw [hf.card v hv]; omega)
  have hr : DenseOk C N r := ⟨h2, h3, fun v hv => by rw [h4] at hv; rw [h5 v hv, hf.card v (hsub v hv)],
    fun v hv => by rw [h4] at hv; rw [h6 v hv, hf.name v (hsub v hv)]⟩
  refine ⟨r, h1, hr, h4, fun x => ?_⟩
  have hnd : (f.vars.filter (· ∉ kept)).Nodup := hf.wf.nodup.filter _
  rw [← Spec.sumOut_eq_sumVars (l := f.vars.filter (· ∉ kept)) hnd (by simp)]
  by_cases hx : r.InRange x
  · rw [denseDen_of hx, h7 x hx]
    have e : (f.vars.filter (· ∉ kept)).map (fun v => (v, f.card v)) = (f.vars.filter (· ∉ kept)).map fun v => (v, C v) :=
      List.map_congr_left fun v hv => by rw [hf.card v (List.mem_filter.1 hv).1]
    rw [e]
    refine Spec.sumVars_congr' _ C hnd x fun y hy1 hy2 => ?_
    rw [denseDen_of]
    rw [hf.inRange]
    intro v hv
    by_cases hk : v ∈ kept
    · rw [hy2 v (by simp [hk])]
      exact hr.inRange.1 hx v (h4 ▸ hk)
    · exact hy1 v (by simp [hv, hk])
  · have hz : denseDen r x = 0 := if_neg hx
    rw [hz]
    have : ∀ y : Asg, (∀ v, v ∉ f.vars.filter (· ∉ kept) → y v = x v) → denseDen f y = (fun _ : Asg => (0:ℝ)) y := by
      intro y hy
      by_contra h0
      refine hx (hr.inRange.2 fun v hv => ?_)
      rw [h4] at hv
      rw [← hy v (by simp [hv])]
      exact hf.supp y h0 v (hsub v hv)
    rw [Spec.sumVars_congr' _ C hnd x fun y _ hy => this y hy, Sparse.sumVars_const, mul_zero]

theorem DenseOk.reorder (hf : DenseOk C N f) {nv : List Var} (hp : nv.Perm f.vars) :
    ∃ r, Cat.reorder f nv = .ok r ∧ DenseOk C N r ∧ r.vars = nv ∧ ∀ x, denseDen r x = denseDen f x := by
  obtain ⟨r, h1, h2, h3, h4, h5, h6⟩ := Cat.reorder_ok hf.wf hp
  have hin : ∀ x, r.InRange x ↔ f.InRange x := fun x =>
    ⟨fun hx v hv => by rw [← h4 v (hp.mem_iff.2 hv)]; exact hx v (by rw [h3]; exact hp.mem_iff.2 hv),
      fun hx v hv => by rw [h3] at hv; rw [h4 v hv]; exact hx v (hp.mem_iff.1 hv)⟩
  refine ⟨r, h1, ⟨h2, fun x hx => ?_, fun v hv => ?_, fun v hv => ?_⟩, h3, fun x => ?_⟩
  · rw [h6]; exact hf.proper x ((hin x).1 hx)
  · rw [h3] at hv; rw [h4 v hv, hf.card v (hp.mem_iff.1 hv)]
  · rw [h3] at hv; rw [h5 v hv, hf.name v (hp.mem_iff.1 hv)]
  · unfold denseDen Cat.prob
    rw [h6]
    by_cases hx : f.InRange x
    · rw [if_pos hx, if_pos ((hin x).2 hx)]
    · rw [if_neg hx, if_neg (mt (hin x).1 hx)]

/-- The corrected `marginalize` sums, for any order of the kept variables. -/
theorem DenseOk.marg (hC : ∀ v, 2 ≤ C v) (hf : DenseOk C N f) {vrs : List Var} (hn : vrs.Nodup)
    (hv : ∀ v ∈ vrs, v ∈ f.vars) :
    ∃ r, idealMarginalize hs f vrs = .ok r ∧ DenseOk C N r ∧ r.vars = vrs ∧
      ∀ x, denseDen r x = sumOut C (f.vars.toFinset \ vrs.toFinset) (denseDen f) x := by
  unfold idealMarginalize
  split
  · rename_i hl
    exact hf.margStored hC (filter_short hf.wf.nodup hv hl)
  · have hmem : ∀ v, v ∈ f.vars.filter (· ∈ vrs) ↔ v ∈ vrs := fun v => by
      simp only [List.mem_filter, decide_eq_true_eq]
      exact ⟨fun h => h.2, fun h => ⟨hv v h, h⟩⟩
    obtain ⟨m, h1, h2, h3, h4⟩ := hf.margStored (hs := hs) hC (kept := f.vars.filter (· ∈ vrs)) (by
      apply List.filter_congr
      intro v _
      rw [decide_eq_decide]
      exact hmem v)
    have hp : vrs.Perm m.vars := by
      rw [h3]
      exact (List.perm_ext_iff_of_nodup hn (hf.wf.nodup.filter _)).2 fun v => (hmem v).symm
    obtain ⟨r, k1, k2, k3, k4⟩ := h2.reorder hp
    refine ⟨r, ?_, k2, k3, fun x => ?_⟩
    · rw [h1, py_bind_ok, k1]
    · rw [k4, h4]
      congr 2
      ext v
      simp only [List.mem_toFinset]
      exact hmem v

/-! ### reduce -/

theorem override_mem {vs : List Var} {ks : List Nat} (hl : ks.length = vs.length) (x : Asg) {v : Var} :
    (v ∉ vs → override (vs.zip ks) x v = x v) ∧
    (v ∈ vs → ∃ k, (v, k) ∈ vs.zip ks ∧ override (vs.zip ks) x v = k) := by
  unfold override
  cases hfd : (vs.zip ks).find? fun e => e.1 = v with
  | none =>
    refine ⟨fun _ => rfl, fun hv => ?_⟩
    obtain ⟨i, hi, rfl⟩ := List.getElem_of_mem hv
    have : (vs[i], ks[i]'(by omega)) ∈ vs.zip ks := by
      rw [List.mem_iff_getElem]
      exact ⟨i, by simp; omega, by simp⟩
    have := List.find?_eq_none.1 hfd _ this
    simp at this
  | some e =>
    have h1 := List.mem_of_find?_eq_some hfd
    have h2 := List.find?_some hfd
    simp only [decide_eq_true_eq] at h2
    obtain ⟨w, k⟩ := e
    dsimp only at h2
    subst h2
    exact ⟨fun hv => absurd (List.of_mem_zip h1).1 hv, fun _ => ⟨k, h1, rfl⟩⟩

theorem evOk_nat {vs : List Var} {ks : List Nat} :
    f.EvOk vs (ks.map Int.ofNat) ↔ ∀ e ∈ vs.zip ks, e.1 ∈ f.vars → e.2 < f.card e.1 := by
  have hz : vs.zip (ks.map Int.ofNat) = (vs.zip ks).map fun e => (e.1, Int.ofNat e.2) := by
    rw [List.zip_map_right]; rfl
  unfold Cat.EvOk
  rw [hz]
  constructor
  · intro h e he hv
    have := (h (e.1, Int.ofNat e.2) (List.mem_map.2 ⟨e, he, rfl⟩) hv).2
    simp only [Int.ofNat_eq_natCast] at this
    exact_mod_cast this
  · intro h e he hv
    obtain ⟨e', he', rfl⟩ := List.mem_map.1 he
    simp only [Int.ofNat_eq_natCast] at hv ⊢
    have := h e' he' hv
    omega

/-- `reduce` substitutes evidence in the range; otherwise it raises. -/
theorem DenseOk.red (hf : DenseOk C N f) {vs : List Var} {ks : List Nat} (hn : vs.Nodup)
    (hl : ks.length = vs.length) :
    ((∃ x, denseDen f (override (vs.zip ks) x) ≠ 0) → ∃ r, Cat.reduce f vs (ks.map Int.ofNat) = .ok r) ∧
    ∀ r, Cat.reduce f vs (ks.map Int.ofNat) = .ok r → DenseOk C N r ∧
      (∀ v, v ∈ r.vars ↔ v ∈ f.vars ∧ v ∉ vs) ∧ ∀ x, denseDen r x = denseDen f (override (vs.zip ks) x) := by
  have hl' : (ks.map Int.ofNat).length = vs.length := by simpa using hl
  constructor
  · rintro ⟨x, hx⟩
    obtain ⟨r, h, _⟩ := Cat.reduce_ok (f := f) hf.wf hn hl' (evOk_nat.2 fun e he hev => by
      have := hf.supp _ hx e.1 hev
      obtain ⟨k, hk, hk'⟩ := (override_mem hl x (v := e.1)).2 (List.of_mem_zip he).1
      rw [hk'] at this
      have : e.2 = k := by
        have hnz : ((vs.zip ks).map Prod.fst).Nodup := by rw [List.map_fst_zip (by omega)]; exact hn
        have := List.inj_on_of_nodup_map hnz he hk rfl
        rw [this]
      rw [this, hf.card e.1 hev]
      assumption)
    exact ⟨r, h⟩
  · intro r hr
    have he : f.EvOk vs (ks.map Int.ofNat) := by
      by_contra hne
      rw [(Cat.C19_reduce_range f hf.wf vs _ hn hl').2 hne] at hr
      cases hr
    obtain ⟨r', h1, h2, h3, h4, h5, _⟩ := Cat.reduce_ok (f := f) hf.wf hn hl' he
    obtain ⟨r'', h1', _, _, _, h6⟩ := Cat.C19_reduce_nat f hf.wf vs ks hn hl (evOk_nat.1 he)
    rw [hr] at h1 h1'
    cases h1; cases h1'
    have hm : ∀ v, v ∈ r.vars ↔ v ∈ f.vars ∧ v ∉ vs := fun v => by rw [h3]; simp
    have hin : ∀ x, r.InRange x ↔ f.InRange (override (vs.zip ks) x) := by
      intro x
      constructor
      · intro hx v hvf
        by_cases hvs : v ∈ vs
        · obtain ⟨k, hk, hk'⟩ := (override_mem hl x (v := v)).2 hvs
          rw [hk']
          exact evOk_nat.1 he _ hk hvf
        · rw [(override_mem hl x).1 hvs, ← h4 v ((hm v).2 ⟨hvf, hvs⟩)]
          exact hx v ((hm v).2 ⟨hvf, hvs⟩)
      · intro hx v hvr
        have := hx v ((hm v).1 hvr).1
        rw [(override_mem hl x).1 ((hm v).1 hvr).2] at this
        rw [h4 v hvr]
        exact this
    refine ⟨⟨h2, fun x hx => ?_, fun v hvr => ?_, fun v hvr => ?_⟩, hm, fun x => ?_⟩
    · rw [h6]; exact hf.proper _ ((hin x).1 hx)
    · rw [h4 v hvr, hf.card v ((hm v).1 hvr).1]
    · rw [h5 v hvr, hf.name v ((hm v).1 hvr).1]
    · unfold denseDen Cat.prob
      rw [h6]
      by_cases hx : r.InRange x
      · rw [if_pos hx, if_pos ((hin x).1 hx)]
      · rw [if_neg hx, if_neg (mt (hin x).2 hx)]

/-! ### The laws -/

/-- The corrected operations do what their names say. -/
noncomputable def denseLaws (hs : HashSeed) (C : Var → Nat) (N : Var → List AName) (hC : ∀ v, 2 ≤ C v) :
    SumLaws (idealOps hs) where
  Ok := DenseOk C N
  den := denseDen
  val := id
  C := C
  nonneg := fun _ x => denseDen_nonneg _ x
  dep := fun _ => denseDen_dep _
  nodup := fun hf => hf.wf.nodup
  supp := fun hf => hf.supp
  mul := by
    intro f g r hf hg h
    obtain ⟨r', h1, h2, h3, h4⟩ := hf.mul hg
    have h' : Cat.multiply f g = .ok r := h
    rw [h'] at h1
    cases h1
    exact ⟨h2, h3, h4⟩
  cancel := by
    intro f g r hf hg hsub hsup h
    obtain ⟨r', h1, h2, h3, h4⟩ := hf.cancel hg hsub hsup
    have h' : idealCancel f g = .ok r := h
    rw [h'] at h1
    cases h1
    exact ⟨h2, h3, h4⟩
  marg := by
    intro f vrs r hf hn hv h
    obtain ⟨r', h1, h2, h3, h4⟩ := hf.marg (hs := hs) hC hn hv
    have h' : idealMarginalize hs f vrs = .ok r := h
    rw [h'] at h1
    cases h1
    refine ⟨h2, fun v => by show v ∈ r.vars ↔ _; rw [h3], fun x => ?_⟩
    rw [h4]
    exact sumOut_zero_iff (denseDen_nonneg f) (denseDen_dep f) hf.supp vrs x
  sum := by
    intro f vrs r hf hn hv h x
    obtain ⟨r', h1, h2, h3, h4⟩ := hf.marg (hs := hs) hC hn hv
    have h' : idealMarginalize hs f vrs = .ok r := h
    rw [h'] at h1
    cases h1
    exact h4 x
  red := by
    intro f vs ks r hf hn hv hl h
    have h' : Cat.reduce f vs (ks.map Int.ofNat) = .ok r := h
    rw [List.map_id]
    exact (hf.red hn hl).2 r h'

end Verif.CG
