import Verif.GainModel
import Verif.Pinsker
import Verif.CatProps3
import Verif.SparseProps2
import Verif.GaussProps3
import Verif.ClusterExamples

/-!
# C123: a small divergence means close factors

The divergence that decides whether a factor is vacuous and whether message passing may stop bounds the distance of the
normalised factors: the sum (integral) of the absolute differences is at most `√(2 d)` (Pinsker's inequality).
-/

namespace Verif.Spec

/-- The sum of the absolute differences over all values of the listed variables. -/
noncomputable def l1 (vc : List (Var × Nat)) (P Q : Asg → ℝ) : ℝ := sumVars vc (fun x => |P x - Q x|) (fun _ => 0)

theorem sumVars_add (vc : List (Var × Nat)) (F G : Asg → ℝ) (x : Asg) :
    sumVars vc (fun y => F y + G y) x = sumVars vc F x + sumVars vc G x := by
  induction vc generalizing x with
  | nil => rfl
  | cons e l ih => simp only [sumVars, sumVar, ih, Finset.sum_add_distrib]

theorem pinsker (vs : List Var) (c : Var → Nat) {P Q : Asg → ℝ} (hn : vs.Nodup) (hP : ∀ x, 0 ≤ P x) (hQ : ∀ x, 0 ≤ Q x)
    (h : ∀ x, (∀ v ∈ vs, x v < c v) → Q x = 0 → P x = 0)
    (h1 : sumVars (vs.map fun v => (v, c v)) P (fun _ => 0) = 1)
    (h2 : sumVars (vs.map fun v => (v, c v)) Q (fun _ => 0) = 1) :
    l1 (vs.map fun v => (v, c v)) P Q ≤ √(2 * kl (vs.map fun v => (v, c v)) P Q) := by
  apply Pinsker.le_sqrt (gibbs_kl vs c P Q hn hP hQ h (by rw [h1, h2])).1
  intro t ht
  unfold l1
  refine (Cat.sumVars_mono vs c hn (fun _ => 0) fun y hy => Pinsker.abs_le (hP y) (hQ y) (h y hy) ht).trans (le_of_eq ?_)
  have e : (fun y => (t * ((2 * P y + 4 * Q y) / 3) + (P y * Real.log (P y / Q y) - P y + Q y) / t) / 2) =
      fun y => (P y * (t / 3 - 1 / (2 * t)) + Q y * (2 * t / 3 + 1 / (2 * t))) + P y * Real.log (P y / Q y) * (1 / (2 * t)) := by
    funext y
    field_simp
    ring
  rw [e, sumVars_add, sumVars_add, Cat.sumVars_mul_const, Cat.sumVars_mul_const, Cat.sumVars_mul_const, h1, h2]
  unfold kl
  field_simp
  ring

theorem entry_le_l1 (vs : List Var) (c : Var → Nat) {P Q : Asg → ℝ} (hn : vs.Nodup) (hP : DependsOn P vs) (hQ : DependsOn Q vs)
    {x : Asg} (hx : ∀ v ∈ vs, x v < c v) : |P x - Q x| ≤ l1 (vs.map fun v => (v, c v)) P Q := by
  unfold l1
  rw [← zip_map_self, sumVars_eq _ _ (by simp)]
  have hm : vs.map x ∈ productRange (vs.map c) := by
    rw [mem_productRange, List.forall₂_map_left_iff, List.forall₂_map_right_iff, List.forall₂_same]
    exact hx
  have he : ∀ v ∈ vs, updates (fun _ => 0) vs (vs.map x) v = x v := by
    have := map_updates (x := fun _ => 0) hn (t := vs.map x) (by simp)
    exact List.map_inj_left.1 this
  have := List.single_le_sum (l := (productRange (vs.map c)).map fun t => |P (updates (fun _ => 0) vs t) -
    Q (updates (fun _ => 0) vs t)|) (by
      intro y hy
      obtain ⟨t, -, rfl⟩ := List.mem_map.1 hy
      exact abs_nonneg _) _ (List.mem_map.2 ⟨vs.map x, hm, rfl⟩)
  rwa [hP _ _ he, hQ _ _ he] at this

end Verif.Spec

namespace Verif.Cat

/-- **C123, dense factors.** If `kl_divergence` returns the number `d`, the normalised factors differ by at most `√(2 d)`, in
sum over all assignments and so at every one. -/
theorem C123_dense (f g : Cat ℝ) (hf : WF f) (hg : WF g) (pf : Proper f) (pg : Proper g) (h : SameScope f g)
    (hmf : 0 < f.mass) (hmg : 0 < g.mass) (d : ℝ) (hd : klDivergence f g = .ok (.fin d)) :
    Spec.l1 (f.vars.map fun v => (v, f.card v)) f.dist g.dist ≤ √(2 * d) ∧
    ∀ x, f.InRange x → |f.prob x / f.mass - g.prob x / g.mass| ≤ √(2 * d) := by
  obtain ⟨h1, h2⟩ := C24_kl_divergence f g hf hg pf pg h hmf hmg
  by_cases hsup : ∀ x, f.InRange x → g.prob x = 0 → f.prob x = 0
  · obtain ⟨k1, -, -⟩ := h1 hsup
    rw [k1] at hd
    have hd' := XF.fin.inj (Except.ok.inj hd)
    rw [← hd']
    have hdg : Spec.sumVars (f.vars.map fun v => (v, f.card v)) g.dist (fun _ => 0) = 1 := by
      rw [← sumVars_swap hf hg h, dist_sum hmg]
    have key := Spec.pinsker f.vars f.card (P := f.dist) (Q := g.dist) hf.nodup
      (fun x => div_nonneg (XF.prob_nonneg _) hmf.le) (fun x => div_nonneg (XF.prob_nonneg _) hmg.le)
      (fun x hx h0 => by
        unfold dist at h0 ⊢
        rw [hsup x hx (by rcases div_eq_zero_iff.1 h0 with h | h; exacts [h, absurd h hmg.ne']), zero_div])
      (dist_sum hmf) hdg
    refine ⟨key, fun x hx => (Spec.entry_le_l1 f.vars f.card hf.nodup ?_ ?_ hx).trans key⟩
    · intro x y hxy
      unfold dist; rw [prob_dependsOn f x y hxy]
    · intro x y hxy
      unfold dist; rw [prob_dependsOn g x y fun v hv => hxy v ((h.scope v).2 hv)]
  · push Not at hsup
    obtain ⟨x, a, b, c⟩ := hsup
    rw [h2 ⟨x, a, b, c⟩] at hd
    cases hd

/-- The hypotheses can be met by two different factors. -/
example : ∃ d, klDivergence exR exR' = .ok (.fin d) ∧ ∀ x, exR.InRange x →
    |exR.prob x / exR.mass - exR'.prob x / exR'.mass| ≤ √(2 * d) := by
  have hp : Proper exR' := fun x _ => by obtain ⟨r, h⟩ := exR'_val x; rw [h]; trivial
  have hm : 0 < exR'.mass := by
    rw [← entries_prob exR'_wf]
    have : exR'.tensor.entries.map XF.prob = [Real.exp 1, 1, 1, 1, 1, 1, 1, 1] := by
      simp [Tensor.entries, exR', mk0, mk', productRange, XF.prob, List.range_succ]
    rw [this]
    simp
    positivity
  obtain ⟨h1, -, -⟩ := (C24_kl_divergence exR exR' exR_wf exR'_wf exR_proper hp exR_same exR_mass_pos hm).1 fun x _ h => by
    obtain ⟨r, h'⟩ := exR'_val x
    unfold prob at h
    rw [h'] at h
    exact absurd h (Real.exp_pos r).ne'
  exact ⟨_, h1, (C123_dense exR exR' exR_wf exR'_wf exR_proper hp exR_same exR_mass_pos hm _ h1).2⟩

theorem shape_prod_pos {f : Cat ℝ} (hf : WF f) (hm : 0 < f.mass) : 0 < f.tensor.shape.prod := by
  rcases Nat.eq_zero_or_pos f.tensor.shape.prod with h0 | h
  · exfalso
    have : f.tensor.entries = [] := by
      apply List.eq_nil_of_length_eq_zero
      simp only [Tensor.entries, List.length_map, productRange_length, h0]
    rw [← entries_prob hf, this] at hm
    simp at hm
  · exact h

theorem distanceFromVacuous_kl {f : Cat ℝ} (hf : WF f) (pf : Proper f) (hm : 0 < f.mass) :
    distanceFromVacuous f = .ok (.fin (Spec.kl (f.vars.map fun v => (v, f.card v)) f.dist
      (fun _ => 1 / (f.tensor.shape.prod : ℕ)))) := by
  obtain ⟨d, h1, h2, -⟩ := C24_distance_from_vacuous f hf pf hm
  have hN' : (0 : ℝ) < (f.tensor.shape.prod : ℕ) := Nat.cast_pos.2 (shape_prod_pos hf hm)
  obtain ⟨N, hN⟩ : ∃ N : ℝ, N = (f.tensor.shape.prod : ℕ) := ⟨_, rfl⟩
  rw [← hN] at h2 hN'
  have e : ∀ x, f.dist x * Real.log (f.dist x / (1 / N))
      = f.dist x * Real.log N - -(f.dist x * Real.log (f.dist x)) := by
    intro x
    by_cases hz : f.dist x = 0
    · simp [hz]
    · rw [div_div_eq_mul_div, div_one, Real.log_mul hz hN'.ne']; ring
  unfold Spec.kl
  rw [← hN]
  simp only [e]
  rw [sumVars_sub, sumVars_mul_const, dist_sum hm, one_mul, ← h2, h1]

end Verif.Cat

namespace Verif

/-- `is_vacuous` from the divergence from the uniform distribution. -/
theorem vacuous_of_kl (vs : List Var) (c : Var → Nat) {P : Spec.Asg → ℝ} {N : ℝ} (hN : 0 < N) (hn : vs.Nodup)
    (hP : ∀ x, 0 ≤ P x) (hdep : Spec.DependsOn P vs)
    (h1 : Spec.sumVars (vs.map fun v => (v, c v)) P (fun _ => 0) = 1)
    (h2 : Spec.sumVars (vs.map fun v => (v, c v)) (fun _ => 1) (fun _ => 0) = N) {m : Py (XF ℝ)}
    (hm : m = .ok (.fin (Spec.kl (vs.map fun v => (v, c v)) P fun _ => 1 / N))) :
    (∃ b, factorIsVacuous m = .ok b) ∧
    ((∃ k, ∀ x, (∀ v ∈ vs, x v < c v) → P x = k) → factorIsVacuous m = .ok true) ∧
    (factorIsVacuous m = .ok true → ∀ x, (∀ v ∈ vs, x v < c v) → |P x - 1 / N| ≤ 2 / 10 ^ 5) := by
  have hun : Spec.sumVars (vs.map fun v => (v, c v)) (fun _ => 1 / N) (fun _ => 0) = 1 := by
    have := Cat.sumVars_mul_const (vs.map fun v => (v, c v)) (fun _ => 1) (1 / N) (fun _ => 0)
    simp only [one_mul] at this
    rw [this, h2]
    field_simp
  have hpos : ∀ x : Spec.Asg, (0 : ℝ) ≤ (fun _ => 1 / N) x := fun _ => by positivity
  have hz : ∀ x : Spec.Asg, (∀ v ∈ vs, x v < c v) → (fun _ => 1 / N) x = (0 : ℝ) → P x = 0 :=
    fun x _ h0 => absurd h0 (by positivity)
  have hpin := Spec.pinsker vs c hn hP hpos hz h1 hun
  subst hm
  unfold factorIsVacuous
  rw [py_bind_ok]
  refine ⟨?_, ?_, ?_⟩
  · split <;> exact ⟨_, rfl⟩
  · rintro ⟨k, hk⟩
    have hk' : k = 1 / N := by
      have h3 := Spec.sumVars_congr vs c hn (F := P) (G := fun _ => 1 * k) (fun _ => 0) fun y hy => by rw [hk y hy, one_mul]
      rw [Cat.sumVars_mul_const, h1, h2] at h3
      field_simp
      linarith
    have : Spec.kl (vs.map fun v => (v, c v)) P (fun _ => 1 / N) = 0 := by
      unfold Spec.kl
      have h3 := Spec.sumVars_congr vs c hn (F := fun x => P x * Real.log (P x / (1 / N))) (G := fun _ => 1 * 0)
        (fun _ => 0) fun y hy => by
          rw [hk y hy, hk', div_self (by positivity), Real.log_one]
          ring
      rw [h3, Cat.sumVars_mul_const, mul_zero]
    rw [this, if_pos]
    simp [XF.lt]
  · intro h x hx
    have hlt : Spec.kl (vs.map fun v => (v, c v)) P (fun _ => 1 / N) < 1 / 10 ^ 10 := by
      by_contra hc
      rw [if_neg (by simpa [XF.lt] using hc)] at h
      cases h
    refine (Spec.entry_le_l1 vs c hn hdep (Q := fun _ => 1 / N) (fun _ _ _ => rfl) hx).trans (hpin.trans ?_)
    rw [Real.sqrt_le_left (by positivity)]
    have : (2 / 10 ^ 5 : ℝ) ^ 2 = 4 * (1 / 10 ^ 10) := by norm_num
    rw [this]
    have : (0 : ℝ) < 1 / 10 ^ 10 := by positivity
    linarith

namespace Cat

/-- **C123, dense factors and `is_vacuous`.** For a factor that is not zero `is_vacuous` returns; it is true for a constant
factor, and if it is true, every normalised value is within `2e-5` of the uniform one. -/
theorem C123_dense_vacuous (f : Cat ℝ) (hf : WF f) (pf : Proper f) (hm : 0 < f.mass) :
    (∃ b, isVacuous f = .ok b) ∧
    ((∃ c, ∀ x, f.InRange x → f.prob x = c) → isVacuous f = .ok true) ∧
    (isVacuous f = .ok true → ∀ x, f.InRange x →
      |f.prob x / f.mass - 1 / (f.tensor.shape.prod : ℕ)| ≤ 2 / 10 ^ 5) := by
  obtain ⟨h1, h2, h3⟩ := vacuous_of_kl f.vars f.card (P := f.dist) (Nat.cast_pos.2 (shape_prod_pos hf hm)) hf.nodup
    (fun x => div_nonneg (XF.prob_nonneg _) hm.le) (fun x y hxy => by unfold dist; rw [prob_dependsOn f x y hxy])
    (dist_sum hm) (by
      rw [Sparse.sumVars_const, mul_one, List.map_map, hf.shape]
      rfl) (distanceFromVacuous_kl hf pf hm)
  exact ⟨h1, fun ⟨c, hc⟩ => h2 ⟨c / f.mass, fun x hx => by unfold dist; rw [hc x hx]⟩, h3⟩

end Cat

namespace Sparse

theorem dist_sum {f : Sparse ℝ} (hm : 0 < f.mass) :
    Spec.sumVars (f.vars.map fun v => (v, f.card v)) f.dist (fun _ => 0) = 1 := by
  have : f.dist = fun y => f.prob y / f.mass := rfl
  rw [this, Cat.sumVars_div]
  exact div_self hm.ne'

/-- **C123, sparse factors.** -/
theorem C123_sparse (hs : HashSeed) (f g : Sparse ℝ) (hf : Regular f) (hg : Regular g) (h : SameScope f g)
    (hmf : 0 < f.mass) (hmg : 0 < g.mass) (d : ℝ) (hd : klDivergence hs f g = .ok (.fin d)) :
    Spec.l1 (f.vars.map fun v => (v, f.card v)) f.dist g.dist ≤ √(2 * d) ∧
    ∀ x : Spec.Asg, (∀ v ∈ f.vars, x v < f.card v) → |f.prob x / f.mass - g.prob x / g.mass| ≤ √(2 * d) := by
  obtain ⟨h1, h2⟩ := C11_kl_divergence hs f g hf hg h hmf hmg
  by_cases hsup : ∀ x : Spec.Asg, (∀ v ∈ f.vars, x v < f.card v) → g.prob x = 0 → f.prob x = 0
  · obtain ⟨k1, -, -⟩ := h1 hsup
    rw [k1] at hd
    have hd' := XF.fin.inj (Except.ok.inj hd)
    rw [← hd']
    have hdg : Spec.sumVars (f.vars.map fun v => (v, f.card v)) g.dist (fun _ => 0) = 1 := by
      rw [← dist_sum hmg]
      have hp : f.vars.Perm g.vars := (List.perm_ext_iff_of_nodup hf.wf.nodup hg.wf.nodup).2 h.scope
      have e : (g.vars.map fun v => (v, g.card v)) = g.vars.map fun v => (v, f.card v) :=
        List.map_congr_left fun v hv => by rw [h.cards v ((h.scope v).2 hv)]
      rw [e]
      rw [Spec.sumVars_perm (hp.map fun v => (v, f.card v)) (by
        rw [List.map_map]; simpa [Function.comp_def] using hf.wf.nodup)]
    have key := Spec.pinsker f.vars f.card (P := f.dist) (Q := g.dist) hf.wf.nodup
      (fun x => div_nonneg (XF.prob_nonneg _) hmf.le) (fun x => div_nonneg (XF.prob_nonneg _) hmg.le)
      (fun x hx h0 => by
        unfold dist at h0 ⊢
        rw [hsup x hx (by rcases div_eq_zero_iff.1 h0 with h | h; exacts [h, absurd h hmg.ne']), zero_div])
      (dist_sum hmf) hdg
    refine ⟨key, fun x hx => (Spec.entry_le_l1 f.vars f.card hf.wf.nodup ?_ ?_ hx).trans key⟩
    · intro x y hxy
      unfold dist; rw [prob_dependsOn f x y hxy]
    · intro x y hxy
      unfold dist; rw [prob_dependsOn g x y fun v hv => hxy v ((h.scope v).2 hv)]
  · push Not at hsup
    obtain ⟨x, a, b, c⟩ := hsup
    rw [h2 ⟨x, a, b, c⟩] at hd
    cases hd

/-- **C123, sparse factors and `is_vacuous`.** -/
theorem C123_sparse_vacuous (hs : HashSeed) (f : Sparse ℝ) (hf : Regular f) (hm : 0 < f.mass) :
    (∃ b, isVacuous hs f = .ok b) ∧
    ((∃ c, ∀ x : Spec.Asg, (∀ v ∈ f.vars, x v < f.card v) → f.prob x = c) → isVacuous hs f = .ok true) ∧
    (isVacuous hs f = .ok true → ∀ x : Spec.Asg, (∀ v ∈ f.vars, x v < f.card v) →
      |f.prob x / f.mass - 1 / (f.cards.prod : ℕ)| ≤ 2 / 10 ^ 5) := by
  obtain ⟨h1, h2, h3⟩ := vacuous_of_kl f.vars f.card (P := f.dist) (Nat.cast_pos.2 (card_prod_pos hf hm)) hf.wf.nodup
    (fun x => div_nonneg (XF.prob_nonneg _) hm.le) (fun x y hxy => by unfold dist; rw [prob_dependsOn f x y hxy])
    (dist_sum hm) (by
      rw [Sparse.sumVars_const, mul_one, List.map_map, hf.wf.cards_eq]
      rfl) (C11_distance_from_vacuous hs f hf hm).1
  exact ⟨h1, fun ⟨c, hc⟩ => h2 ⟨c / f.mass, fun x hx => by unfold dist; rw [hc x hx]⟩, h3⟩

example : (∃ b, isVacuous HashSeed.example exF = .ok b) ∧ Regular exF ∧ 0 < exF.mass :=
  ⟨(C123_sparse_vacuous _ exF exF_regular (by rw [exF_mass]; positivity)).1, exF_regular, by rw [exF_mass]; positivity⟩

end Sparse

namespace CG
open Spec (override Asg)

/-- The distance of a normalised message from the message sent before, or from the uniform one if there was none. -/
noncomputable def change (C : Var → Nat) (f : Sparse ℝ) : Option (Sparse ℝ) → ℝ
  | none => Spec.l1 (f.vars.map fun v => (v, C v)) f.dist fun _ => 1 / ((f.vars.map C).prod : ℕ)
  | some p => Spec.l1 (p.vars.map fun v => (v, C v)) p.dist f.dist

/-- **C123, message passing.** Sparse factors with a possible posterior, any graph: after any execution that has brought
all information gains to at most `tol` (as `process_graph` does when it stops by itself), no message that could be passed
next differs by more than `√(2 tol)` from the one passed before on the same path - from the uniform one if none was. -/
theorem C123_messages (hs : HashSeed) (C : Var → Nat) (factors : List (Sparse ℝ))
    (hok : ∀ f ∈ factors, Sparse.Regular f ∧ ∀ v ∈ f.vars, f.card v = C v)
    (evidence : Option (Dict Var Nat)) (special : Dict Var Nat) (a : Any (Sparse ℝ) Nat EReal)
    (h : new hs (sparseOps hs) factors evidence special = .ok a)
    (P : Asg → ℝ) (hP : ∀ x, P x = (factors.map fun f => f.prob (override (evidence.getD [])
      (override special x))).prod) (hpos : ∃ x, P x ≠ 0)
    (tr : List (Fin a.m × Sparse ℝ)) (g : Graph (Sparse ℝ) Nat EReal a.n a.m)
    (hr : Run (sparseOps hs) a.graph tr g) (tol : ℝ) (hgain : ∀ q, (g.path q).gain ≤ (tol : EReal)) (q : Fin a.m) :
    change C (g.path q).next.factor (lastMsg tr q) ≤ √(2 * tol) := by
  set L := sparseLaws hs C with hL
  have hPp : P = posterior L factors evidence special := by
    funext x
    rw [hP]
    unfold posterior
    simp only [hL, sparseLaws, id_eq, Prod.mk.eta, List.map_id']
  have hx0 : ∃ x0, ∀ f ∈ factors, L.den f (given L.toLaws evidence (override (evPairs L.toLaws special) x0)) ≠ 0 := by
    obtain ⟨x0, hx0⟩ := hpos
    refine ⟨x0, fun f hf h0 => ?_⟩
    rw [hPp] at hx0
    exact hx0 (List.prod_eq_zero (List.mem_map.2 ⟨f, hf, h0⟩))
  obtain ⟨x0, hx0⟩ := hx0
  obtain ⟨w, hsp, _⟩ := wired_new h
  have inv := hr.inv w
  have b := hr.bel (L := L.toLaws) w (new_ok L.toLaws hok h)
  have hx0 := new_pos L.toLaws hok h hx0
  obtain ⟨rv, hr1, hr2, hr3⟩ := w.rev q
  obtain ⟨n1, n2, _⟩ := b.next w inv hr1 hr2 hr3
  have hnz := b.next_pos w inv hx0 q
  have hmn : 0 < (g.path q).next.factor.mass := mass_pos n1 ⟨x0, hnz⟩
  have hroot : ∀ {k : ℝ}, (k : EReal) ≤ (tol : EReal) → √(2 * k) ≤ √(2 * tol) := by
    intro k hk
    apply Real.sqrt_le_sqrt
    have : k ≤ tol := by exact_mod_cast hk
    linarith
  have hcards : ∀ {f : Sparse ℝ}, SparseOk C f → (f.vars.map fun v => (v, f.card v)) = f.vars.map fun v => (v, C v) :=
    fun hf => List.map_congr_left fun v hv => by rw [hf.2 v hv]
  rcases inv.gain q with hg | ⟨hg0, hp⟩
  · cases hp : (g.path q).prev with
    | none =>
      have hl : lastMsg tr q = none := by rw [← inv.prev, hp]; rfl
      rw [hp] at hg
      rw [hl]
      have hN := Sparse.card_prod_pos n1.1 hmn
      obtain ⟨k1, k2, -⟩ := Sparse.C11_distance_from_vacuous hs _ n1.1 hmn
      have h' : (do let d ← Sparse.distanceFromVacuous hs (g.path q).next.factor; toGain d) = .ok (g.path q).gain := hg
      rw [k1] at h'
      have h'' := Except.ok.inj h'
      have hle := hgain q
      rw [← h''] at hle
      refine le_trans ?_ (hroot hle)
      have hcd : (g.path q).next.factor.cards = (g.path q).next.factor.vars.map C := by
        rw [n1.1.wf.cards_eq]
        exact List.map_congr_left fun v hv => n1.2 v hv
      unfold change
      rw [← hcards n1, ← hcd]
      have hN' : (0 : ℝ) < ((g.path q).next.factor.cards.prod : ℕ) := Nat.cast_pos.2 hN
      refine Spec.pinsker _ _ n1.1.wf.nodup (fun x => div_nonneg (XF.prob_nonneg _) hmn.le) (fun x => by positivity)
        (fun x _ h0 => absurd h0 (by positivity)) (Sparse.dist_sum hmn) ?_
      rw [Sparse.sumVars_const, List.map_map, n1.1.wf.cards_eq]
      have : (List.map (Prod.snd ∘ fun v => (v, (g.path q).next.factor.card v)) (g.path q).next.factor.vars) =
        List.map (g.path q).next.factor.card (g.path q).next.factor.vars := rfl
      rw [this, ← n1.1.wf.cards_eq]
      field_simp
    | some p =>
      have hl : lastMsg tr q = some p.factor := by rw [← inv.prev, hp]; rfl
      obtain ⟨o1, o2⟩ := b.msg q _ hl
      have hpz : L.den p.factor x0 ≠ 0 := by
        have := b.pos x0 hx0 q
        unfold mval at this
        rwa [hl] at this
      have hmp := mass_pos o1 ⟨x0, hpz⟩
      rw [hp] at hg
      rw [hl]
      have hss : Sparse.SameScope p.factor (g.path q).next.factor := ⟨fun v => (o2 v).trans (n2 v).symm, fun v h1 => by
        rw [o1.2 v h1, n1.2 v ((n2 v).2 ((o2 v).1 h1))]⟩
      have h' : (do let d ← Sparse.klDivergence hs p.factor (g.path q).next.factor; toGain d) = .ok (g.path q).gain := hg
      obtain ⟨d, hd, h'⟩ := py_bind_eq_ok.1 h'
      have hle := hgain q
      have hfin : ∃ r : ℝ, d = .fin r ∧ (r : EReal) ≤ tol := by
        obtain ⟨k1, k2⟩ := Sparse.C11_kl_divergence hs p.factor _ o1.1 n1.1 hss hmp hmn
        by_cases hsup : ∀ x : Asg, (∀ v ∈ p.factor.vars, x v < p.factor.card v) → (g.path q).next.factor.prob x = 0 →
            p.factor.prob x = 0
        · have := (k1 hsup).1
          rw [hd] at this
          have := Except.ok.inj this
          subst this
          have h'' := Except.ok.inj h'
          rw [← h''] at hle
          exact ⟨_, rfl, hle⟩
        · push Not at hsup
          obtain ⟨x, a1, a2, a3⟩ := hsup
          have := k2 ⟨x, a1, a2, a3⟩
          rw [hd] at this
          have := Except.ok.inj this
          subst this
          have h'' : (⊤ : EReal) = (g.path q).gain := Except.ok.inj h'
          rw [← h''] at hle
          exact absurd (top_le_iff.1 hle) (EReal.coe_ne_top _)
      obtain ⟨r, rfl, hle⟩ := hfin
      refine le_trans ?_ (hroot hle)
      unfold change
      dsimp only
      rw [← hcards o1]
      exact (Sparse.C123_sparse hs _ _ o1.1 n1.1 hss hmp hmn r hd).1
  · have hl : lastMsg tr q = some (g.path q).next.factor := by rw [← inv.prev, hp]; rfl
    rw [hl]
    unfold change Spec.l1
    simp only [sub_self, abs_zero]
    rw [Sparse.sumVars_const, mul_zero]
    positivity

/-- **C123, `process_graph`.** If it stops before its budget of messages is used up, no next message differs by more than
`√(2 tol)` from the last one on its path. -/
theorem C123_process (hs : HashSeed) (C : Var → Nat) (factors : List (Sparse ℝ))
    (hok : ∀ f ∈ factors, Sparse.Regular f ∧ ∀ v ∈ f.vars, f.card v = C v)
    (evidence : Option (Dict Var Nat)) (special : Dict Var Nat) (a : Any (Sparse ℝ) Nat EReal)
    (h : new hs (sparseOps hs) factors evidence special = .ok a) (hn1 : a.n ≠ 1)
    (P : Asg → ℝ) (hP : ∀ x, P x = (factors.map fun f => f.prob (override (evidence.getD [])
      (override special x))).prod) (hpos : ∃ x, P x ≠ 0) (tol : ℝ) (maxIter : Nat)
    (g : Graph (Sparse ℝ) Nat EReal a.n a.m) (hg : processGraph (sparseOps hs) tol maxIter a.graph = .ok g)
    (hstop : g.passed < maxIter * a.m) :
    ∃ tr, Run (sparseOps hs) a.graph tr g ∧ tr.length = g.passed ∧
      ∀ q, change C (g.path q).next.factor (lastMsg tr q) ≤ √(2 * tol) := by
  obtain ⟨w, _, hp0⟩ := wired_new h
  obtain ⟨tr, hgr, _, h2, _, h4⟩ := Greedy.process w hn1 .start hg
  have hrun := hgr.run .start
  refine ⟨_, hrun, ?_, C123_messages hs C factors hok evidence special a h P hP hpos _ g hrun tol fun q => h4 (by omega) q⟩
  simp only [List.nil_append, List.append_nil, List.length_append, List.length_reverse]
  omega

/-- The hypotheses of `C123_messages` can be met by a graph of two clusters. -/
example : ∃ (a : Any (Sparse ℝ) Nat EReal) (tr : List (Fin a.m × Sparse ℝ)) (g : Graph (Sparse ℝ) Nat EReal a.n a.m),
    new HashSeed.example (sparseOps HashSeed.example) [Sparse.exF, Sparse.exG] none [("c", 0)] = .ok a ∧ 0 < a.m ∧
    Run (sparseOps HashSeed.example) a.graph tr g ∧ ∀ q, (g.path q).gain ≤ ((0 : ℝ) : EReal) := by
  have hpos : ∃ x : Asg, ∀ f ∈ [Sparse.exF, Sparse.exG], f.prob (override ((none : Option (Dict Var Nat)).getD [])
      (override [("c", 0)] x)) ≠ 0 := ⟨exX, ex_pos _ (Or.inr rfl)⟩
  obtain ⟨a, ha, -⟩ := C78_inference_never_fails HashSeed.example exC [Sparse.exF, Sparse.exG] ex_ok none [("c", 0)] hpos
  have hn := ex_two ha
  have hS : ∃ S, ∀ i j s, sepset a.graph i j = some s → (s.map exC).prod ≤ S := by
    refine ⟨∑ p : Fin a.n × Fin a.n, (((sepset a.graph p.1 p.2).getD []).map exC).prod, fun i j s hs => ?_⟩
    have := Finset.single_le_sum (f := fun p : Fin a.n × Fin a.n => (((sepset a.graph p.1 p.2).getD []).map exC).prod)
      (fun _ _ => Nat.zero_le _) (Finset.mem_univ (i, j))
    simpa [hs] using this
  obtain ⟨S, hS⟩ := hS
  obtain ⟨g, hg, hgain⟩ := C79_tree_converges HashSeed.example exC _ ex_ok none _ hpos a ha (by omega)
    (acyclic_of_two (by omega) _) 0 le_rfl S _ hS le_rfl [] a.graph .start
  obtain ⟨tr, hgr, _⟩ := Greedy.process (wired_new ha).1 (by omega) .start hg
  exact ⟨a, _, g, ha, ex_paths (by simp [Dict.keys]) ha, hgr.run .start, hgain⟩

end CG

namespace Gauss
open Spec MeasureTheory GaussInt

/-- The integral of the absolute difference of two densities is bounded by their divergence. -/
theorem pinsker_integral {ι : Type} [Fintype ι] {P Q : (ι → ℝ) → ℝ} (hP : ∀ y, 0 < P y) (hQ : ∀ y, 0 < Q y)
    (iP : Integrable P) (iQ : Integrable Q) (h1 : ∫ y, P y = 1) (h2 : ∫ y, Q y = 1)
    (iK : Integrable fun y => P y * (Real.log (P y) - Real.log (Q y)))
    (hd : 0 ≤ ∫ y, P y * (Real.log (P y) - Real.log (Q y))) :
    ∫ y, |P y - Q y| ≤ √(2 * ∫ y, P y * (Real.log (P y) - Real.log (Q y))) := by
  apply Pinsker.le_sqrt hd
  intro t ht
  have e : ∀ y, |P y - Q y| ≤ (P y * (t / 3 - 1 / (2 * t)) + Q y * (2 * t / 3 + 1 / (2 * t))) +
      P y * (Real.log (P y) - Real.log (Q y)) * (1 / (2 * t)) := by
    intro y
    refine (Pinsker.abs_le (hP y).le (hQ y).le (fun h => absurd h (hQ y).ne') ht).trans (le_of_eq ?_)
    rw [Real.log_div (hP y).ne' (hQ y).ne']
    field_simp
    ring
  have i1 := (iP.mul_const (t / 3 - 1 / (2 * t))).add (iQ.mul_const (2 * t / 3 + 1 / (2 * t)))
  have i2 := iK.mul_const (1 / (2 * t))
  refine (integral_mono (iP.sub iQ).abs (i1.add i2) e).trans (le_of_eq ?_)
  rw [integral_add' i1 i2, integral_add' (iP.mul_const _) (iQ.mul_const _), integral_mul_const, integral_mul_const, integral_mul_const, h1, h2]
  field_simp
  ring

/-- **C123, Gaussian factors (part).** If `kl_divergence` returns `r`, the integral of the absolute difference of the
normalised factors is at most `√(2 r)`. Missing: operands in different orders, and factors whose parameters agree up to
1/10000, which get a divergence of zero although they differ. -/
theorem C123_gauss_partial {n : ℕ} {a b a0 b0 a' b' : Gauss n} {ca cb : Can n} {La Lb : (Var → ℝ) → ℝ} (ha : Made a)
    (hb : Made b) (da : Denotes a La) (db : Denotes b Lb) (hca : a.getCan = .ok (a0, ca)) (hcb : b.getCan = .ok (b0, cb))
    (ka : ca.prec.PosDef) (kb : cb.prec.PosDef) (va : a.isVacuous = false) (vb : b.isVacuous = false)
    (hv : b.vars = a.vars) (r : ℝ) (hr : a.klDivergence b = .ok (a', b', .fin r)) :
    (r = 0 ∧ (NearCan (1 / 10000) (1 / 10000) a b ∨ NearCov (1 / 10000) (1 / 10000) a b)) ∨
    ∀ x, IntegrableOut a.vars (fun z => |normalised a.vars (fun z => Real.exp (La z)) z -
        normalised a.vars (fun z => Real.exp (Lb z)) z|) x ∧
      integrateOut a.vars (fun z => |normalised a.vars (fun z => Real.exp (La z)) z -
        normalised a.vars (fun z => Real.exp (Lb z)) z|) x ≤ √(2 * r) := by
  obtain ⟨a1, b1, r1, k1, k2, -, -, k5⟩ := C36_kl_partial ha hb da db hca hcb ka kb va vb hv
  rw [k1] at hr
  simp only [Except.ok.injEq, Prod.mk.injEq, XF.fin.injEq] at hr
  obtain ⟨-, -, rfl⟩ := hr
  rcases k5 with k5 | k5
  · exact .inl k5
  right
  obtain ⟨ga, -, rfl⟩ := getCan_inv ha.inv hca
  obtain ⟨gb, -, rfl⟩ := getCan_inv hb.inv hcb
  intro x
  obtain ⟨k6, k7⟩ := k5 x
  rw [da.eq ga, db.eq gb] at k6 k7 ⊢
  have hbv : (normalised a.vars fun z => Real.exp (logOf b gb.len z)) = fun z =>
      dens (canOf b).prec ((canOf b).prec⁻¹.mulVec (canOf b).h) (vecAt a.vars ga.len z) := by
    funext z
    have hb := normalised_good gb kb z
    have : vecAt b.vars gb.len z = vecAt a.vars ga.len z := by
      unfold vecAt
      funext i
      simp only [hv]
    rwa [this, hv] at hb
  have hav : (normalised a.vars fun z => Real.exp (logOf a ga.len z)) = fun z =>
      dens (canOf a).prec ((canOf a).prec⁻¹.mulVec (canOf a).h) (vecAt a.vars ga.len z) :=
    funext fun z => normalised_good ga ka z
  rw [hav, hbv] at k6 k7 ⊢
  have iP := dens_integrable ka ((canOf a).prec⁻¹.mulVec (canOf a).h)
  have iQ := dens_integrable kb ((canOf b).prec⁻¹.mulVec (canOf b).h)
  unfold klIntegrand at k6 k7
  have m6 := (integrateOut_all ga.nodup ga.len (fun y =>
    dens (canOf a).prec ((canOf a).prec⁻¹.mulVec (canOf a).h) y *
      (Real.log (dens (canOf a).prec ((canOf a).prec⁻¹.mulVec (canOf a).h) y) -
        Real.log (dens (canOf b).prec ((canOf b).prec⁻¹.mulVec (canOf b).h) y))) x)
  have k6' := m6.2.1 k6
  have k7' := m6.1.symm.trans k7
  obtain ⟨j1, j2⟩ := integrateOut_all ga.nodup ga.len (fun y =>
    |dens (canOf a).prec ((canOf a).prec⁻¹.mulVec (canOf a).h) y - dens (canOf b).prec ((canOf b).prec⁻¹.mulVec (canOf b).h) y|) x
  refine ⟨j2.2 (iP.sub iQ).abs, j1.le.trans ?_⟩
  rw [← k7'] at k2 ⊢
  exact pinsker_integral (dens_pos ka _) (dens_pos kb _) iP iQ (dens_integral ka _) (dens_integral kb _) k6' k2

/-- The hypotheses can be met by two different factors. -/
example : ∃ (b : Gauss 2), Made exA ∧ Made b ∧ (∃ L, Denotes exA L) ∧ (∃ L, Denotes b L) ∧ b.vars = exA.vars ∧
    exA.isVacuous = false ∧ b.isVacuous = false ∧ (∃ b0 cb, b.getCan = .ok (b0, cb) ∧ cb.prec.PosDef) ∧ b ≠ exA ∧
    ∃ a' b' r, exA.klDivergence b = .ok (a', b', .fin r) := by
  have g : Good (⟨["a", "b"], none, some ⟨exS, ![5, 1], 3⟩, false⟩ : Gauss 2) :=
    good_mkCov (by decide) rfl _ (posDef_symm exS_posDef) exS_posDef.det_pos
  have hb : Made (⟨["a", "b"], none, some ⟨exS, ![5, 1], 3⟩, false⟩ : Gauss 2) :=
    .ofCov (vars := ["a", "b"]) (v := ⟨exS, ![5, 1], 3⟩) exS_posDef (mkCov_ok (by decide) rfl)
  refine ⟨_, exA_made, hb, ⟨_, exA_good.denotes⟩, ⟨_, g.denotes⟩, rfl, rfl, rfl,
    ⟨_, _, getCan_valid g.toValid, exS_posDef.inv⟩, ?_, ?_⟩
  · intro h
    simp only [exA, exV, Gauss.mk.injEq, Option.some.injEq, CovF.mk.injEq] at h
    have := congrFun h.2.2.1.2.1 0
    simp at this
  · obtain ⟨a', b', r, h, -⟩ := C36_kl_partial exA_made hb exA_good.denotes g.denotes (getCan_valid exA_good.toValid)
      (getCan_valid g.toValid) exS_posDef.inv exS_posDef.inv rfl rfl rfl
    exact ⟨a', b', r, h⟩

theorem wide_posDef {K : ℝ} (hK : 0 < K) : (Matrix.diagonal fun _ => K : Matrix (Fin 1) (Fin 1) ℝ).PosDef :=
  Matrix.posDef_diagonal_iff.2 fun _ => hK

theorem wide_dens {K : ℝ} (hK : 0 < K) {L : (Var → ℝ) → ℝ}
    (d : Denotes (⟨["x"], some ⟨Matrix.diagonal fun _ => K, 0, 0⟩, none, false⟩ : Gauss 1) L) :
    normalised ["x"] (fun z => Real.exp (L z)) (fun _ => 0) = √(K / (2 * Real.pi)) := by
  have g : Good (⟨["x"], some ⟨Matrix.diagonal fun _ => K, 0, 0⟩, none, false⟩ : Gauss 1) :=
    good_mkCan (by decide) rfl _ (Matrix.isSymm_diagonal _)
  rw [d.eq g]
  refine (normalised_good g (wide_posDef hK) (fun _ => 0)).trans ?_
  have e1 : vecAt (⟨["x"], some ⟨Matrix.diagonal fun _ => K, 0, 0⟩, none, false⟩ : Gauss 1).vars g.len (fun _ => 0) = 0 := rfl
  have e2 : (canOf (⟨["x"], some ⟨Matrix.diagonal fun _ => K, 0, 0⟩, none, false⟩ : Gauss 1)) =
    ⟨Matrix.diagonal fun _ => K, 0, 0⟩ := rfl
  rw [e1, e2]
  simp only [Matrix.mulVec_zero, dens, bell, Z, sub_zero, dotProduct_zero, neg_zero, zero_div, Real.exp_zero,
    Matrix.det_diagonal, Finset.univ_unique, Finset.prod_const, Finset.card_singleton, pow_one, Fintype.card_fin]
  rw [← Real.sqrt_one, ← Real.sqrt_div zero_le_one, one_div_div]

/-- **C123 (violation), C36.** No bound holds for all Gaussians: two factors with divergence zero can have normalised
densities whose values at the common mode differ by any factor. -/
theorem C123_gauss_violated (M : ℝ) (hM : 1 ≤ M) : ∃ a b : Gauss 1,
    mkCan ["x"] ⟨Matrix.diagonal fun _ => 1 / 10000, 0, 0⟩ = .ok a ∧
    mkCan ["x"] ⟨Matrix.diagonal fun _ => 1 / 10000 / M ^ 2, 0, 0⟩ = .ok b ∧ (∃ a' b', a.klDivergence b = .ok (a', b', .fin 0)) ∧
    ∀ La Lb, Denotes a La → Denotes b Lb → 0 < normalised ["x"] (fun z => Real.exp (Lb z)) (fun _ => 0) ∧
      normalised ["x"] (fun z => Real.exp (La z)) (fun _ => 0) = M * normalised ["x"] (fun z => Real.exp (Lb z)) (fun _ => 0) := by
  have h1 : (0 : ℝ) < 1 / 10000 := by norm_num
  have h2 : (0 : ℝ) < 1 / 10000 / M ^ 2 := by positivity
  have h3 : (1 : ℝ) / 10000 / M ^ 2 ≤ 1 / 10000 := div_le_self h1.le (one_le_pow₀ hM)
  have v1 := vacParams_posDef (wide_posDef h1)
  have v2 := vacParams_posDef (wide_posDef h2)
  have c1 := mkCan_ok (vars := ["x"]) (c := (⟨Matrix.diagonal fun _ => 1 / 10000, 0, 0⟩ : Can 1)) (by decide) rfl
  have c2 := mkCan_ok (vars := ["x"]) (c := (⟨Matrix.diagonal fun _ => 1 / 10000 / M ^ 2, 0, 0⟩ : Can 1)) (by decide) rfl
  dsimp only at c1 c2
  rw [v1] at c1
  rw [v2] at c2
  refine ⟨_, _, c1, c2, ?_, fun La Lb da db => ?_⟩
  rotate_left 1
  · rw [wide_dens h1 da, wide_dens h2 db]
    have hp : (0 : ℝ) < 1 / 10000 / M ^ 2 / (2 * Real.pi) := by positivity
    refine ⟨Real.sqrt_pos.2 hp, ?_⟩
    rw [show (1 : ℝ) / 10000 / (2 * Real.pi) = M ^ 2 * (1 / 10000 / M ^ 2 / (2 * Real.pi)) by field_simp,
      Real.sqrt_mul (by positivity), Real.sqrt_sq (by linarith)]
  · have e : equals (1 / 10000) (1 / 10000) (⟨["x"], some ⟨Matrix.diagonal fun _ => 1 / 10000, 0, 0⟩, none, false⟩ : Gauss 1)
        (⟨["x"], some ⟨Matrix.diagonal fun _ => 1 / 10000 / M ^ 2, 0, 0⟩, none, false⟩ : Gauss 1) =
        .ok (⟨["x"], some ⟨Matrix.diagonal fun _ => 1 / 10000, 0, 0⟩, none, false⟩,
          ⟨["x"], some ⟨Matrix.diagonal fun _ => 1 / 10000 / M ^ 2, 0, 0⟩, none, false⟩, true) := by
      have hk : equalsCopy ["x"] (⟨["x"], some ⟨Matrix.diagonal fun _ => 1 / 10000 / M ^ 2, 0, 0⟩, none, false⟩ : Gauss 1) =
          .ok ⟨["x"], some ⟨Matrix.diagonal fun _ => 1 / 10000 / M ^ 2, 0, 0⟩, none, false⟩ := by
        unfold equalsCopy copy
        dsimp only
        rw [c2, py_bind_ok]
        rfl
      unfold equals
      rw [if_neg (show ¬ ¬ sameSet ["x"] ["x"] = true by decide), hk, py_bind_ok]
      have hgc : getCan (⟨["x"], some ⟨Matrix.diagonal fun _ => 1 / 10000 / M ^ 2, 0, 0⟩, none, false⟩ : Gauss 1) =
          .ok (⟨["x"], some ⟨Matrix.diagonal fun _ => 1 / 10000 / M ^ 2, 0, 0⟩, none, false⟩,
            ⟨Matrix.diagonal fun _ => 1 / 10000 / M ^ 2, 0, 0⟩) :=
        getCan_valid (good_mkCan (by decide) rfl _ (Matrix.isSymm_diagonal _)).toValid
      have hm : allcloseM (1 / 10000) (1 / 10000) (Matrix.diagonal fun _ => 1 / 10000 : Matrix (Fin 1) (Fin 1) ℝ)
          (Matrix.diagonal fun _ => 1 / 10000 / M ^ 2) = true := by
        unfold allcloseM iscloseR
        simp only [decide_eq_true_eq]
        intro i j
        obtain rfl : i = j := Subsingleton.elim _ _
        rw [Matrix.diagonal_apply_eq, Matrix.diagonal_apply_eq, abs_of_nonneg (by linarith), abs_of_pos h2]
        nlinarith
      have hv : allcloseV (1 / 10000) (1 / 10000) (0 : Fin 1 → ℝ) 0 = true := by
        unfold allcloseV iscloseR; simp
      have hg : iscloseR (1 / 10000) (1 / 10000) 0 0 = true := by unfold iscloseR; simp
      simp only [Bool.and_false, Bool.false_eq_true, if_false, dite_true, equalsForms, canEquals, hgc, bind, Except.bind,
        hg, reorder, hv, hm, Bool.not_true, if_true, Bool.and_self]
    unfold klDivergence
    rw [dif_pos rfl]
    simp only [Bool.and_false, Bool.or_false, Bool.false_eq_true, if_false]
    unfold klCore
    dsimp only
    rw [e]
    exact ⟨_, _, rfl⟩

end Gauss
end Verif
