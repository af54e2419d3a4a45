import Verif.ClusterDense

/-!
# Cluster graphs of dense categorical factors: the corrected operations return, and their gains
-/

namespace Verif.CG
open Spec (override Asg sumOut)
open Classical
open Cat (WF Proper InRange)

variable {hs : HashSeed} {C : Var → Nat} {N : Var → List AName} {f g r : Cat ℝ}

theorem DenseOk.mass_pos (hf : DenseOk C N f) (h : ∃ x, denseDen f x ≠ 0) : 0 < f.mass := by
  obtain ⟨x, hx⟩ := h
  have hin : f.InRange x := hf.inRange.2 (hf.supp x hx)
  rw [denseDen_of hin] at hx
  have hle : f.prob x ≤ f.mass := by
    rw [← Cat.entries_prob hf.wf]
    apply List.single_le_sum
    · intro a ha
      obtain ⟨b, _, rfl⟩ := List.mem_map.1 ha
      exact XF.prob_nonneg _
    · refine List.mem_map.2 ⟨f.val x, Tensor.mem_entries.2 ⟨_, ?_, rfl⟩, rfl⟩
      rw [hf.wf.shape]; exact Tensor.inShape_map.2 hin
  exact lt_of_lt_of_le (lt_of_le_of_ne (XF.prob_nonneg _) (Ne.symm hx)) hle

theorem DenseOk.sameScope (hf : DenseOk C N f) (hg : DenseOk C N g) (hv : ∀ v, v ∈ f.vars ↔ v ∈ g.vars) :
    Cat.SameScope f g :=
  ⟨hv, fun v h => by rw [hf.card v h, hg.card v ((hv v).1 h)], fun v h => by rw [hf.name v h, hg.name v ((hv v).1 h)]⟩

/-- The corrected operations return whenever their results make sense. -/
theorem denseTotal (hs : HashSeed) (C : Var → Nat) (N : Var → List AName) (hC : ∀ v, 2 ≤ C v) :
    Total (denseLaws hs C N hC).toLaws where
  mul := by
    intro f g hf hg
    obtain ⟨r, h, _⟩ := DenseOk.mul hf hg
    exact ⟨r, h⟩
  cancel := by
    intro f g hf hg hsub hz
    obtain ⟨r, h, _⟩ := DenseOk.cancel hf hg hsub hz
    exact ⟨r, h⟩
  marg := by
    intro f vrs hf hn hv
    obtain ⟨r, h, _⟩ := DenseOk.marg (hs := hs) hC hf hn hv
    exact ⟨r, h⟩
  red := by
    intro f vs ks hf hn hv hl hx
    refine (DenseOk.red hf hn hl).1 ?_
    rw [show ks.map (denseLaws hs C N hC).val = ks from List.map_id ks] at hx
    exact hx
  dist := by
    intro f hf hx
    obtain ⟨d, h, _⟩ := Cat.C24_distance_from_vacuous f hf.wf hf.proper (hf.mass_pos hx)
    show ∃ d, (do let d ← Cat.distanceFromVacuous f; toGain d) = .ok d
    rw [h]
    exact ⟨_, rfl⟩
  kl := by
    intro f g hf hg hv hxf hxg
    obtain ⟨h1, h2⟩ := Cat.C24_kl_divergence f g hf.wf hg.wf hf.proper hg.proper (DenseOk.sameScope hf hg hv)
      (hf.mass_pos hxf) (hg.mass_pos hxg)
    show ∃ d, (do let d ← Cat.klDivergence f g; toGain d) = .ok d
    by_cases hsup : ∀ x, f.InRange x → g.prob x = 0 → f.prob x = 0
    · rw [(h1 hsup).1]
      exact ⟨_, rfl⟩
    · push Not at hsup
      rw [h2 hsup]
      exact ⟨_, rfl⟩

theorem dense_prod_pos (hC : ∀ v, 2 ≤ C v) (hf : DenseOk C N f) : (0 : ℝ) < (f.tensor.shape.prod : ℕ) := by
  rw [Nat.cast_pos, hf.wf.shape]
  apply List.prod_pos
  intro a ha
  obtain ⟨v, hv, rfl⟩ := List.mem_map.1 ha
  have := hC v
  rw [hf.card v hv]
  omega

theorem DenseOk.mass_const (hf : DenseOk C N f) {c : ℝ} (h : ∀ x, f.InRange x → f.prob x = c) :
    f.mass = (f.tensor.shape.prod : ℕ) * c := by
  unfold Cat.mass
  rw [Spec.sumVars_congr f.vars f.card hf.wf.nodup (G := fun _ => c) (fun _ => 0) h, Sparse.sumVars_const]
  congr 2
  rw [List.map_map, hf.wf.shape]
  rfl

theorem DenseOk.mass_mul (hf : DenseOk C N f) (hg : DenseOk C N g) (hv : ∀ v, v ∈ f.vars ↔ v ∈ g.vars) {c : ℝ}
    (h : ∀ x, f.InRange x → g.prob x = c * f.prob x) : g.mass = c * f.mass := by
  unfold Cat.mass
  rw [Cat.sumVars_swap hf.wf hg.wf (hf.sameScope hg hv),
    Spec.sumVars_congr f.vars f.card hf.wf.nodup (G := fun y => f.prob y * c) (fun _ => 0)
      (fun x hx => by rw [h x hx, mul_comm]), Cat.sumVars_mul_const, mul_comm]

/-- The gains of dense factors vanish exactly for messages without new content. -/
theorem denseGain (hs : HashSeed) (C : Var → Nat) (N : Var → List AName) (hC : ∀ v, 2 ≤ C v) :
    GainLaws (denseLaws hs C N hC) where
  distZero := by
    intro f d hf hx h hd
    have hf : DenseOk C N f := hf
    have hm := hf.mass_pos hx
    obtain ⟨d', h1, h2, h3, h4, h5⟩ := Cat.C24_distance_from_vacuous f hf.wf hf.proper hm
    have h' : (do let d ← Cat.distanceFromVacuous f; toGain d) = .ok d := h
    rw [h1] at h'
    have h'' : (Except.ok ((d' : ℝ) : EReal) : Py EReal) = .ok d := h'
    simp only [Except.ok.injEq] at h''
    rw [← h''] at hd
    have hz := h5 (le_antisymm (by exact_mod_cast hd) h3)
    have hN := dense_prod_pos hC hf
    refine ⟨f.mass * (1 / (f.tensor.shape.prod : ℕ)), by positivity, fun x hx => ?_⟩
    have hin : f.InRange x := hf.inRange.2 hx
    show denseDen f x = _
    rw [← hz x hin, denseDen_of hin]
    unfold Cat.dist
    field_simp
  distConst := by
    intro f d c hf hx h hc hconst
    have hf : DenseOk C N f := hf
    have hm := hf.mass_pos hx
    obtain ⟨d', h1, h2, h3, h4, h5⟩ := Cat.C24_distance_from_vacuous f hf.wf hf.proper hm
    have h' : (do let d ← Cat.distanceFromVacuous f; toGain d) = .ok d := h
    rw [h1] at h'
    have h'' : (Except.ok ((d' : ℝ) : EReal) : Py EReal) = .ok d := h'
    simp only [Except.ok.injEq] at h''
    have hN := dense_prod_pos hC hf
    have hp : ∀ x, f.InRange x → f.prob x = c := fun x hin => by
      rw [← denseDen_of hin]; exact hconst x (hf.inRange.1 hin)
    have hms := hf.mass_const hp
    have hd0 : d' = 0 := by
      rw [h2, Spec.sumVars_congr f.vars f.card hf.wf.nodup
        (G := fun _ => -(1 / (f.tensor.shape.prod : ℕ) * Real.log (1 / (f.tensor.shape.prod : ℕ)))) (fun _ => 0)
        (fun x hin => ?_), Sparse.sumVars_const]
      · have e : ((f.vars.map fun v => (v, f.card v)).map Prod.snd).prod = f.tensor.shape.prod := by
          rw [List.map_map, hf.wf.shape]; rfl
        rw [e, one_div, Real.log_inv]
        field_simp
        ring
      · have : f.dist x = 1 / (f.tensor.shape.prod : ℕ) := by
          unfold Cat.dist
          rw [hp x hin, hms]
          field_simp
        rw [this]
    rw [← h'', hd0]
    simp
  klZero := by
    intro f g d hf hg hv hxf hxg h hd
    have hf : DenseOk C N f := hf
    have hg : DenseOk C N g := hg
    have hmf := hf.mass_pos hxf
    have hmg := hg.mass_pos hxg
    have hgin : ∀ x, f.InRange x → g.InRange x := fun x hx => hg.inRange.2 fun v hvg =>
      hf.inRange.1 hx v ((hv v).2 hvg)
    obtain ⟨h1, h2⟩ := Cat.C24_kl_divergence f g hf.wf hg.wf hf.proper hg.proper (hf.sameScope hg hv) hmf hmg
    have h' : (do let d ← Cat.klDivergence f g; toGain d) = .ok d := h
    by_cases hsup : ∀ x, f.InRange x → g.prob x = 0 → f.prob x = 0
    · obtain ⟨k1, k2, k3⟩ := h1 hsup
      rw [k1] at h'
      have h'' : (Except.ok ((Spec.kl (f.vars.map fun v => (v, f.card v)) f.dist g.dist : ℝ) : EReal) : Py EReal)
        = .ok d := h'
      simp only [Except.ok.injEq] at h''
      rw [← h''] at hd
      have hz := k3 (le_antisymm (by exact_mod_cast hd) k2)
      refine ⟨g.mass / f.mass, by positivity, fun x hx => ?_⟩
      have hin : f.InRange x := hf.inRange.2 hx
      have := hz x hin
      show denseDen g x = _ * denseDen f x
      rw [denseDen_of hin, denseDen_of (hgin x hin)]
      unfold Cat.dist at this
      field_simp at this ⊢
      linarith
    · push Not at hsup
      rw [h2 hsup] at h'
      have h'' : (Except.ok (⊤ : EReal) : Py EReal) = .ok d := h'
      simp only [Except.ok.injEq] at h''
      rw [← h''] at hd
      simp at hd
  klConst := by
    intro f g d c hf hg hv hxf hxg h hc hmul
    have hf : DenseOk C N f := hf
    have hg : DenseOk C N g := hg
    have hmf := hf.mass_pos hxf
    have hmg := hg.mass_pos hxg
    have hgin : ∀ x, f.InRange x → g.InRange x := fun x hx => hg.inRange.2 fun v hvg =>
      hf.inRange.1 hx v ((hv v).2 hvg)
    have hp : ∀ x, f.InRange x → g.prob x = c * f.prob x := fun x hin => by
      rw [← denseDen_of hin, ← denseDen_of (hgin x hin)]
      exact hmul x (hf.inRange.1 hin)
    have hms := hf.mass_mul hg hv hp
    obtain ⟨h1, _⟩ := Cat.C24_kl_divergence f g hf.wf hg.wf hf.proper hg.proper (hf.sameScope hg hv) hmf hmg
    obtain ⟨k1, _⟩ := h1 fun x hin h0 => by
      rw [hp x hin] at h0
      exact (mul_eq_zero.1 h0).resolve_left (ne_of_gt hc)
    have hz : Spec.kl (f.vars.map fun v => (v, f.card v)) f.dist g.dist = 0 := by
      refine kl_eq_zero hf.wf.nodup fun x hx => ?_
      unfold Cat.dist
      rw [hp x hx, hms]
      field_simp
    have h' : (do let d ← Cat.klDivergence f g; toGain d) = .ok d := h
    rw [k1, hz] at h'
    have h'' : (Except.ok ((0 : ℝ) : EReal) : Py EReal) = .ok d := h'
    simp only [Except.ok.injEq] at h''
    rw [← h'']
    simp

end Verif.CG
