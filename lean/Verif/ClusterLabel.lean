import Verif.SparseLabelLaws

/-!
# Cluster graphs of sparse factors with arbitrary assignment values
-/

namespace Verif.CG
open Spec (override Asg sumOut)
open Verif.Sparse (recard Shaped)

/-- The table of the factor is a table over the variables' value sets `S`; the cardinalities are `C`. -/
def LabelOk (C B : Var → Nat) (S : Var → Finset Nat) (f : Sparse ℝ) : Prop :=
  f.cards = f.vars.map C ∧ SparseOk B (recard B f) ∧ ∀ x, f.prob x ≠ 0 → ∀ v ∈ f.vars, x v ∈ S v

variable {hs : HashSeed} {C B : Var → Nat} {S : Var → Finset Nat} {f g : Sparse ℝ}

theorem LabelOk.shaped (h : LabelOk C B S f) : Shaped C f := by
  refine ⟨h.2.1.1.wf.nodup, h.1, fun k hk => ?_⟩
  have := (h.2.1.1.wf.range k hk).length_eq
  simpa [recard] using this

theorem LabelOk.dflt (h : LabelOk C B S f) : f.dflt = .ninf := h.2.1.1.dflt

theorem LabelOk.binary (hf : LabelOk C B S f) (hg : LabelOk C B S g) (op : XF ℝ → XF ℝ → XF ℝ) :
    ∃ r, Sparse.applyBinary hs f g op .any = .ok r ∧
      Sparse.applyBinary hs (recard B f) (recard B g) op .any = .ok (recard B r) ∧ r.cards = r.vars.map C :=
  Sparse.applyBinary_any hf.shaped hg.shaped hf.dflt hg.dflt op

/-- The operations of sparse factors with arbitrary values do what their names say. -/
noncomputable def labelLaws (hs : HashSeed) (C B : Var → Nat) (S : Var → Finset Nat) : SumLaws (sparseOps hs) where
  Ok := LabelOk C B S
  den := fun f => f.prob
  val := id
  C := B
  nonneg := fun _ x => Sparse.prob_nonneg _ x
  dep := fun _ => Sparse.prob_dependsOn _
  nodup := fun hf => hf.2.1.1.wf.nodup
  supp := fun hf => hf.2.1.supp
  mul := by
    intro f g r hf hg h
    obtain ⟨r', h1, h2, h3⟩ := hf.binary (hs := hs) hg XF.add
    have h' : Sparse.applyBinary hs f g XF.add .any = .ok r := h
    rw [h'] at h1
    cases h1
    obtain ⟨a, b, c⟩ := (sparseLaws hs B).mul hf.2.1 hg.2.1 h2
    refine ⟨⟨h3, a, fun x hx v hv => ?_⟩, b, c⟩
    have hc : r.prob x = f.prob x * g.prob x := c x
    rw [hc] at hx
    rcases (b v).1 hv with hv | hv
    · exact hf.2.2 x (left_ne_zero_of_mul hx) v hv
    · exact hg.2.2 x (right_ne_zero_of_mul hx) v hv
  cancel := by
    intro f g r hf hg hsub hsup h
    have h' : Sparse.cancel hs f g = .ok r := h
    unfold Sparse.cancel at h'
    obtain ⟨r', h1, h2, h3⟩ := hf.binary (hs := hs) hg Sparse.specialDivide
    rw [h'] at h1
    cases h1
    obtain ⟨a, b, c⟩ := (sparseLaws hs B).cancel hf.2.1 hg.2.1 hsub hsup h2
    refine ⟨⟨h3, a, fun x hx v hv => ?_⟩, b, c⟩
    have hc : r.prob x = f.prob x / g.prob x := c x
    refine hf.2.2 x (fun h0 => hx ?_) v ((b v).1 hv)
    rw [hc, h0, zero_div]
  marg := by
    intro f vrs r hf hn hv h
    obtain ⟨r', h1, _⟩ := SparseOk.marg (hs := hs) hf.2.1 hn hv
    obtain ⟨r'', h2, rfl, h4⟩ := Sparse.marginalize_lab hf.shaped hn hv h1
    have h' : Sparse.marginalize hs f vrs true = .ok r := h
    rw [h'] at h2
    cases h2
    obtain ⟨a, b, c⟩ := (sparseLaws hs B).marg hf.2.1 hn hv h1
    refine ⟨⟨h4, a, fun x hx v hvr => ?_⟩, b, c⟩
    have hne := mt (c x).2 hx
    push Not at hne
    obtain ⟨y, hy, hy0⟩ := hne
    have hvv := (b v).1 hvr
    rw [← hy v hvv]
    exact hf.2.2 y hy0 v (hv v hvv)
  sum := by
    intro f vrs r hf hn hv h x
    obtain ⟨r', h1, _⟩ := SparseOk.marg (hs := hs) hf.2.1 hn hv
    obtain ⟨r'', h2, rfl, h4⟩ := Sparse.marginalize_lab hf.shaped hn hv h1
    have h' : Sparse.marginalize hs f vrs true = .ok r := h
    rw [h'] at h2
    cases h2
    exact (sparseLaws hs B).sum hf.2.1 hn hv h1 x
  red := by
    intro f vs ks r hf hn hv hl h
    have h' : Sparse.reduce f vs ks = .ok r := h
    rcases Sparse.reduce_lab (B := B) hf.shaped hn hv ks with ⟨e, h1, _⟩ | ⟨r', h1, h2, h3⟩
    · rw [h'] at h1; cases h1
    · rw [h'] at h1
      cases h1
      obtain ⟨a, b, c⟩ := (sparseLaws hs B).red hf.2.1 hn hv hl h2
      refine ⟨⟨h3, a, fun x hx v hvr => ?_⟩, b, c⟩
      obtain ⟨hvf, hvs⟩ := (b v).1 hvr
      have hc : r.prob x = f.prob (override (vs.zip (ks.map id)) x) := c x
      rw [hc] at hx
      have := hf.2.2 _ hx v hvf
      rwa [Spec.override_of_not_mem hvs] at this

theorem LabelOk.mass_pos (hf : LabelOk C B S f) (h : ∃ x, f.prob x ≠ 0) : 0 < (recard B f).mass :=
  CG.mass_pos hf.2.1 h

/-- The operations return whenever their results make sense, if no variable has more values than its cardinality
says. -/
theorem labelTotal (hs : HashSeed) (hCB : ∀ v, C v ≤ B v) (hSB : ∀ v, ∀ k ∈ S v, k < B v)
    (hSC : ∀ v, (S v).card ≤ C v) : Total (labelLaws hs C B S).toLaws where
  mul := fun {f g} hf hg => by
    obtain ⟨r, h, _⟩ := LabelOk.binary (hs := hs) hf hg XF.add
    exact ⟨r, h⟩
  cancel := fun {f g} hf hg _ _ => by
    obtain ⟨r, h, _⟩ := LabelOk.binary (hs := hs) hf hg Sparse.specialDivide
    exact ⟨r, h⟩
  marg := fun {f vrs} hf hn hv => by
    obtain ⟨r', h1, _⟩ := SparseOk.marg (hs := hs) hf.2.1 hn hv
    obtain ⟨r, h2, _⟩ := Sparse.marginalize_lab (LabelOk.shaped hf) hn hv h1
    exact ⟨r, h2⟩
  red := fun {f vs ks} hf hn hv hl hx => by
    obtain ⟨r, hr⟩ := (sparseTotal hs B).red hf.2.1 hn hv hl hx
    rcases Sparse.reduce_lab (B := B) (LabelOk.shaped hf) hn hv ks with ⟨e, _, h1⟩ | ⟨r', h1, _⟩
    · have hr' : Sparse.reduce (recard B f) vs ks = .ok r := hr
      rw [h1] at hr'; cases hr'
    · exact ⟨r', h1⟩
  dist := fun {f} hf hx => by
    obtain ⟨x, hx'⟩ := hx
    obtain ⟨d, _, h⟩ := Sparse.distanceFromVacuous_lab (hs := hs) hSB hSC
      (fun v hv => lt_of_lt_of_le (Finset.card_pos.2 ⟨_, hf.2.2 x hx' v hv⟩) (hSC v)) hf.2.1.1
      (LabelOk.shaped hf) hCB (LabelOk.mass_pos hf ⟨x, hx'⟩) hf.2.2
    show ∃ d, (do let d ← Sparse.distanceFromVacuous hs f; toGain d) = .ok d
    rw [h]
    exact ⟨_, rfl⟩
  kl := fun {f g} hf hg hv hxf hxg => by
    obtain ⟨d, hd⟩ := (sparseTotal hs B).kl hf.2.1 hg.2.1 hv hxf hxg
    refine ⟨d, ?_⟩
    have e := Sparse.klDivergence_lab (hs := hs) hf.2.1.1 hg.2.1.1 hv (LabelOk.shaped hf) (LabelOk.shaped hg) hCB
      (LabelOk.mass_pos hf hxf) (LabelOk.mass_pos hg hxg) true
    have hd' : (do let d ← Sparse.klDivergence hs (recard B f) (recard B g); toGain d) = .ok d := hd
    show (do let d ← Sparse.klDivergence hs f g; toGain d) = .ok d
    rw [e]
    exact hd'

/-- What the user gives: a table over the values `S`, under the cardinalities `C`, with default `-inf` (as the
constructor sets it) and values that are numbers or `-inf`. -/
structure Labelled (C : Var → Nat) (S : Var → Finset Nat) (f : Sparse ℝ) : Prop where
  nodup : f.vars.Nodup
  cards : f.cards = f.vars.map C
  keys : (Dict.keys f.table).Nodup
  vals : ∀ k ∈ Dict.keys f.table, List.Forall₂ (fun i v => i ∈ S v) k f.vars
  proper : ∀ e ∈ f.table, e.2.Proper
  dflt : f.dflt = .ninf

/-- A bound above all values and all cardinalities. -/
def bound (C : Var → Nat) (S : Var → Finset Nat) (v : Var) : Nat := max (C v) ((S v).sup id + 1)

theorem le_bound (v : Var) : C v ≤ bound C S v := le_max_left _ _

theorem lt_bound (v : Var) (k : Nat) (hk : k ∈ S v) : k < bound C S v :=
  lt_of_lt_of_le (Nat.lt_succ_of_le (Finset.le_sup (f := id) hk)) (le_max_right _ _)

theorem Labelled.ok (h : Labelled C S f) : LabelOk C (bound C S) S f := by
  have hreg : Sparse.Regular (recard (bound C S) f) := by
    refine ⟨⟨h.nodup, by simp [recard], h.keys, fun k hk => ?_⟩, h.proper, h.dflt⟩
    show List.Forall₂ _ k (f.vars.map (bound C S))
    rw [List.forall₂_map_right_iff]
    exact (h.vals k hk).imp fun i v hi => lt_bound v i hi
  refine ⟨h.cards, ⟨hreg, fun v hv => Sparse.recard_card hv⟩, fun x hx v hv => ?_⟩
  have hk := h.vals _ (mem_keys_of_prob hreg hx)
  rw [List.forall₂_map_left_iff] at hk
  exact (List.forall₂_same.1 hk) v hv

end Verif.CG
