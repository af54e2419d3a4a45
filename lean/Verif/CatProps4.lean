import Verif.CatProps3
import Verif.SparseProps2
import Mathlib.Tactic.IntervalCases

/-!
# Properties of dense categorical factors, continued (C25 - C27)
-/

namespace Verif.Cat
open Spec (Asg)
variable {K : Type}

/-! ### C25 equals -/

/-- `a` is within tolerance of the reference value `b`. -/
def Near (rtol atol : ℝ) : XF ℝ → XF ℝ → Prop
  | .fin a, .fin b => |a - b| ≤ atol + rtol * |b|
  | .ninf, .ninf => True
  | .pinf, .pinf => True
  | _, _ => False

theorem isclose_iff {rtol atol : ℝ} {a b : XF ℝ} : XF.isclose rtol atol a b = true ↔ Near rtol atol a b := by
  cases a <;> cases b <;> simp [XF.isclose, Near]

/-- **C25 (part that holds).** For factors that agree on the cardinalities of shared variables, `equals`
returns `False` for different scopes, and otherwise `True` exactly when at every assignment the log
value of the first is within tolerance of the log value of the second; it is `True` for every
reordering. What is missing for the full claim: symmetry and operands that disagree on a cardinality;
there the claim is false, see the witnesses below. -/
theorem C25_equals_partial (rtol atol : ℝ) (f g : Cat ℝ) (hf : WF f) (hg : WF g) (hc : Consistent f g) :
    ((¬ ∀ v, v ∈ f.vars ↔ v ∈ g.vars) → equals rtol atol f g = .ok false) ∧
    ((∀ v, v ∈ f.vars ↔ v ∈ g.vars) → ∃ b, equals rtol atol f g = .ok b ∧
      (b = true ↔ ∀ x, f.InRange x → Near rtol atol (f.val x) (g.val x))) := by
  constructor
  · intro h
    unfold equals
    rw [if_pos]
    intro h'
    exact h fun v => ⟨h'.1 v, h'.2 v⟩
  · intro h
    have hp : f.vars.Perm g.vars := (List.perm_ext_iff_of_nodup hf.nodup hg.nodup).2 h
    obtain ⟨r, h1, h2, h3, h4, _, h5⟩ := reorder_ok hg hp
    have hs : r.tensor.shape = f.tensor.shape := by
      rw [h2.shape, hf.shape, h3]
      apply List.map_congr_left
      intro v hv
      rw [h4 v hv, hc v hv ((h v).1 hv)]
    unfold equals
    rw [if_neg (by rw [not_not]; exact ⟨fun v => (h v).1, fun v => (h v).2⟩), h1, py_bind_ok]
    unfold Tensor.zipOp
    rw [hs, Tensor.bshape_eq rfl (Tensor.bshapeEq_self _), py_bind_ok]
    refine ⟨_, rfl, ?_⟩
    rw [List.all_eq_true]
    simp only [Tensor.mem_entries, id_eq, forall_exists_index, and_imp]
    constructor
    · intro H x hx
      have hi : Tensor.InShape f.tensor.shape (f.vars.map x) := by
        rw [hf.shape]; exact Tensor.inShape_map.2 hx
      have := H _ _ hi rfl
      rw [Tensor.bidx_self hi, isclose_iff] at this
      rw [← h5]
      unfold val
      rwa [h3]
    · rintro H b i hi rfl
      rw [Tensor.bidx_self hi, isclose_iff]
      have hi' := hi
      rw [hf.shape] at hi'
      obtain ⟨e1, e2⟩ := Tensor.inShape_asg hf.nodup hi'
      have := H _ e2
      rw [← h5] at this
      unfold val at this
      rwa [h3, e1] at this

theorem Near.refl {rtol atol : ℝ} (hr : 0 ≤ rtol) (ha : 0 ≤ atol) {a : XF ℝ} (h : a.Proper) :
    Near rtol atol a a := by
  cases a <;> simp_all [Near, XF.Proper]
  positivity

/-- **C25**, reorderings: both ways round, `equals` is true between a factor and any reordering. -/
theorem C25_equals_reorder (rtol atol : ℝ) (hr : 0 ≤ rtol) (ha : 0 ≤ atol) (f : Cat ℝ) (hf : WF f) (pf : Proper f)
    (nv : List Var) (hp : nv.Perm f.vars) :
    ∃ g, reorder f nv = .ok g ∧ equals rtol atol f g = .ok true ∧ equals rtol atol g f = .ok true := by
  obtain ⟨g, h1, h2, h3, h4, _, h5⟩ := reorder_ok hf hp
  have hm : ∀ v, v ∈ f.vars ↔ v ∈ g.vars := fun v => by rw [h3]; exact hp.mem_iff.symm
  have hc : ∀ v ∈ f.vars, f.card v = g.card v := fun v hv => (h4 v (hp.mem_iff.2 hv)).symm
  obtain ⟨b, e1, e2⟩ := (C25_equals_partial rtol atol f g hf h2 fun v hv _ => hc v hv).2 hm
  obtain ⟨b', e1', e2'⟩ := (C25_equals_partial rtol atol g f h2 hf fun v _ hv => (hc v hv).symm).2 fun v => (hm v).symm
  refine ⟨g, h1, ?_, ?_⟩
  · rw [e1, e2.2]
    intro x hx
    rw [h5]; exact Near.refl hr ha (pf x hx)
  · rw [e1', e2'.2]
    intro x hx
    have hx' : f.InRange x := fun v hv => by rw [hc v hv]; exact hx v ((hm v).1 hv)
    rw [h5]; exact Near.refl hr ha (pf x hx')

example : ∃ g, reorder exR ["c", "a", "b"] = .ok g ∧ equals (1/100) (1/100) exR g = .ok true := by
  obtain ⟨g, h1, h2, _⟩ := C25_equals_reorder (1/100) (1/100) (by norm_num) (by norm_num) exR exR_wf exR_proper
    ["c", "a", "b"] (by decide)
  exact ⟨g, h1, h2⟩

/-- A factor over one binary variable with constant log value. -/
def exK (r : ℝ) : Cat ℝ := mk0 ["a"] [2] fun _ => .fin r

theorem exK_wf (r : ℝ) : WF (exK r) := mk0_wf _ (by decide) rfl

theorem exK_equals (rtol atol r s : ℝ) :
    ∃ b, equals rtol atol (exK r) (exK s) = .ok b ∧ (b = true ↔ |r - s| ≤ atol + rtol * |s|) := by
  obtain ⟨b, h1, h2⟩ := (C25_equals_partial rtol atol (exK r) (exK s) (exK_wf r) (exK_wf s)
    (fun _ _ _ => rfl)).2 fun _ => Iff.rfl
  refine ⟨b, h1, h2.trans ⟨fun h => h (fun _ => 0) ?_, fun h x _ => h⟩⟩
  intro v hv
  have : v = "a" := by simpa [exK, mk0, mk'] using hv
  subst this
  exact Nat.zero_lt_two

/-- **C25 violated:** for every non-trivial relative tolerance `equals` is not symmetric. -/
theorem C25_equals_not_symmetric (rtol atol : ℝ) (hr : 0 < rtol) (hr1 : rtol < 1) (ha : 0 ≤ atol) :
    ∃ f g : Cat ℝ, WF f ∧ WF g ∧ SameScope f g ∧ equals rtol atol f g = .ok true ∧
      equals rtol atol g f = .ok false := by
  set b : ℝ := (atol + 1) / (1 - rtol) with hb
  have hd : 0 < 1 - rtol := by linarith
  have hb1 : b * (1 - rtol) = atol + 1 := by rw [hb]; field_simp
  have hb0 : 0 < b := by rw [hb]; positivity
  obtain ⟨c1, e1, i1⟩ := exK_equals rtol atol 1 b
  obtain ⟨c2, e2, i2⟩ := exK_equals rtol atol b 1
  have hlt : 1 < b := by nlinarith
  have hab : |1 - b| = atol + rtol * b := by
    rw [abs_of_neg (by linarith)]; nlinarith
  refine ⟨exK 1, exK b, exK_wf _, exK_wf _, ⟨fun _ => Iff.rfl, fun _ _ => rfl, fun _ _ => rfl⟩, ?_, ?_⟩
  · rw [e1, i1.2]
    rw [hab, abs_of_pos hb0]
  · rw [e2]
    congr 1
    rw [Bool.eq_false_iff]
    intro h
    have := i2.1 h
    rw [abs_sub_comm, hab, abs_one] at this
    nlinarith

/-- **C25 violated:** numpy broadcasting makes a factor over a one-valued variable equal to one over a
three-valued variable. -/
theorem C25_equals_broadcasts (rtol atol : ℝ) (ha : 0 ≤ atol) :
    equals rtol atol (mk0 ["a"] [1] fun _ => .fin 0) (mk0 ["a"] [3] fun _ => .fin 0) = .ok true := by
  have h : XF.isclose rtol atol (.fin 0) (.fin 0) = true := by simp [XF.isclose, ha]
  have e : equals rtol atol (mk0 ["a"] [1] fun _ => .fin 0) (mk0 ["a"] [3] fun _ => .fin 0)
    = .ok ([XF.isclose rtol atol (.fin 0) (.fin 0), XF.isclose rtol atol (.fin 0) (.fin 0),
      XF.isclose rtol atol (.fin 0) (.fin 0)].all id) := rfl
  rw [e, h]; rfl

/-! ### C26 dense and sparse factors agree -/

/-- A dense and a sparse factor denote the same function. -/
structure Agree (f : Cat ℝ) (s : Sparse ℝ) : Prop where
  scope : ∀ v, v ∈ f.vars ↔ v ∈ s.vars
  cards : ∀ v ∈ f.vars, f.card v = s.card v
  vals : ∀ x, f.InRange x → f.val x = s.val x

theorem Agree.consistent {f g : Cat ℝ} {s t : Sparse ℝ} (h : Agree f s) (h' : Agree g t) (hc : Consistent f g) :
    Sparse.Consistent s t := fun v hv hv' => by
  rw [← h.cards v ((h.scope v).2 hv), ← h'.cards v ((h'.scope v).2 hv'),
    hc v ((h.scope v).2 hv) ((h'.scope v).2 hv')]

/-- **C26**, multiply. -/
theorem C26_multiply (hs : HashSeed) (f g : Cat ℝ) (s t : Sparse ℝ) (hf : WF f) (hg : WF g) (rs : Sparse.Regular s)
    (rt : Sparse.Regular t) (hfs : Agree f s) (hgt : Agree g t) (hc : Consistent f g) (hn : SameNames f g) :
    ∃ r u, multiply f g = .ok r ∧ Sparse.multiply hs s t = .ok u ∧ Agree r u := by
  obtain ⟨r, h1, b⟩ := multiply_ok hf hg hc hn
  obtain ⟨u, h2, _, h4, h5, h6, h7⟩ := Sparse.C01_multiply_pointwise hs s t rs rt (hfs.consistent hgt hc)
  refine ⟨r, u, h1, h2, fun v => ?_, fun v hv => ?_, fun x hx => ?_⟩
  · rw [b.scope, h4, hfs.scope, hgt.scope]
  · rcases (b.scope v).1 hv with h | h
    · rw [b.cardL v h, h5 v ((hfs.scope v).1 h), hfs.cards v h]
    · rw [b.cardR v h, h6 v ((hgt.scope v).1 h), hgt.cards v h]
  · have hxf : f.InRange x := fun v hv => by rw [← b.cardL v hv]; exact hx v ((b.scope v).2 (Or.inl hv))
    have hxg : g.InRange x := fun v hv => by rw [← b.cardR v hv]; exact hx v ((b.scope v).2 (Or.inr hv))
    rw [h7, ← hfs.vals x hxf, ← hgt.vals x hxg]
    exact b.val x hxf hxg

/-- **C26**, divide. -/
theorem C26_divide (hs : HashSeed) (f g : Cat ℝ) (s t : Sparse ℝ) (hf : WF f) (hg : WF g) (rs : Sparse.Regular s)
    (rt : Sparse.Regular t) (hfs : Agree f s) (hgt : Agree g t) (hc : Consistent f g) (hn : SameNames f g)
    (hsub : ∀ v ∈ g.vars, v ∈ f.vars) :
    ∃ r u, divide f g = .ok r ∧ Sparse.divide hs s t = .ok u ∧ Agree r u := by
  obtain ⟨r, h1, b⟩ := divide_ok hf hg hc hn hsub
  have hcs := hfs.consistent hgt hc
  obtain ⟨u, h2, _, h4, hu, _, h7⟩ := Sparse.C04_divide_pointwise hs s t rs.wf rt.wf hcs (rs.dflt.trans rt.dflt.symm)
    (by rw [rs.dflt]; simp)
  refine ⟨r, u, h1, h2, fun v => ?_, fun v hv => ?_, fun x hx => ?_⟩
  · rw [b.scope, h4, hfs.scope, hgt.scope]
  · have h : v ∈ f.vars := ((b.scope v).1 hv).elim id (hsub v)
    rw [b.cardL v h, hu v ((hfs.scope v).1 h), hfs.cards v h]
  · have hxf : f.InRange x := fun v hv => by rw [← b.cardL v hv]; exact hx v ((b.scope v).2 (Or.inl hv))
    have hxg : g.InRange x := fun v hv => by rw [← b.cardR v hv]; exact hx v ((b.scope v).2 (Or.inr hv))
    rw [h7, ← hfs.vals x hxf, ← hgt.vals x hxg]
    · exact b.val x hxf hxg
    · intro v hv
      rw [← hfs.cards v ((hfs.scope v).2 hv)]; exact hxf v ((hfs.scope v).2 hv)
    · intro v hv
      rw [← hgt.cards v ((hgt.scope v).2 hv)]; exact hxg v ((hgt.scope v).2 hv)

/-- **C26**, reorder. -/
theorem C26_reorder (f : Cat ℝ) (s : Sparse ℝ) (hf : WF f) (rs : Sparse.Regular s) (hfs : Agree f s)
    (nv : List Var) (hp : nv.Perm f.vars) :
    ∃ r u, reorder f nv = .ok r ∧ Sparse.reorder s nv = .ok u ∧ Agree r u ∧ r.vars = nv ∧ u.vars = nv := by
  obtain ⟨r, h1, _, h3, h4, _, h5⟩ := reorder_ok hf hp
  have hp' : nv.Perm s.vars := hp.trans ((List.perm_ext_iff_of_nodup hf.nodup rs.wf.nodup).2 hfs.scope)
  obtain ⟨u, e1, _, e3, _, e4, e5⟩ := Sparse.C06_reorder_preserves s rs.wf rs.dflt nv hp'
  refine ⟨r, u, h1, e1, ⟨fun v => by rw [h3, e3], fun v hv => ?_, fun x hx => ?_⟩, h3, e3⟩
  · rw [h3] at hv
    rw [h4 v hv, e4 v hv, hfs.cards v (hp.mem_iff.1 hv)]
  · rw [h5, e5]
    apply hfs.vals
    intro v hv
    rw [← h4 v (hp.mem_iff.2 hv)]
    exact hx v (by rw [h3]; exact hp.mem_iff.2 hv)

/-- **C26**, reduce (part that holds): the two results agree, except that when no listed assignment of
the sparse factor is compatible with the evidence the sparse factor raises `KeyError` while the dense one
returns the zero factor. -/
theorem C26_reduce_partial (f : Cat ℝ) (s : Sparse ℝ) (hf : WF f) (rs : Sparse.Regular s) (hfs : Agree f s)
    (vrs : List Var) (values : List Nat) (hn : vrs.Nodup) (hl : values.length = vrs.length)
    (hv : ∀ v ∈ vrs, v ∈ f.vars) (he : ∀ e ∈ vrs.zip values, e.2 < f.card e.1) :
    ∃ r, reduce f vrs (values.map Int.ofNat) = .ok r ∧ r.vars = f.vars.filter (· ∉ vrs) ∧
      ((Sparse.reduce s vrs values = .error .keyError ∧ ∀ x, r.InRange x → r.val x = .ninf) ∨
       (∃ u, Sparse.reduce s vrs values = .ok u ∧ Agree r u)) := by
  obtain ⟨r, h1, _, h3, hcard, h4⟩ := C19_reduce_nat f hf vrs values hn hl fun e hm _ => he e hm
  have hin : ∀ x, r.InRange x → f.InRange (Spec.override (vrs.zip values) x) := by
    intro x hx v hv'
    by_cases hm : v ∈ vrs
    · have h5 : List.Forall₂ (fun v k => k < f.card v) vrs values := by
        rw [List.forall₂_iff_zip]
        exact ⟨hl.symm, fun {a b} hab => he (a, b) hab⟩
      conv at h5 => rw [← Spec.map_override (x := x) hn hl]
      rw [List.forall₂_map_right_iff, List.forall₂_same] at h5
      exact h5 v hm
    · rw [Spec.override_of_not_mem hm]
      have : v ∈ r.vars := by rw [h3]; simp [hv', hm]
      rw [← hcard v this]; exact hx v this
  have hval : ∀ x, r.InRange x → r.val x = s.val (Spec.override (vrs.zip values) x) := fun x hx => by
    rw [h4, hfs.vals _ (hin x hx)]
  refine ⟨r, h1, h3, ?_⟩
  rcases Sparse.C03_reduce_restricts s rs vrs values hn (fun v h => (hfs.scope v).1 (hv v h)) hl with h | h
  · refine Or.inl ⟨h.2, fun x hx => ?_⟩
    rw [hval x hx]
    unfold Sparse.val
    cases hg : Dict.get? s.table (s.vars.map (Spec.override (vrs.zip values) x)) with
    | none => exact rs.dflt
    | some a =>
      exfalso
      refine h.1 _ (Dict.get?_isSome_iff.1 ⟨a, hg⟩) ?_
      rw [List.map_congr_left fun v hm => asgOf_map _ ((hfs.scope v).1 (hv v hm))]
      exact Spec.map_override hn hl
  · obtain ⟨_, u, e1, _, e3, e4, e5⟩ := h
    have hm : ∀ v, v ∈ r.vars ↔ v ∈ u.vars := fun v => by
      rw [h3, e3]; simp [hfs.scope v]
    refine Or.inr ⟨u, e1, hm, fun v hv' => ?_, fun x hx => by rw [hval x hx, e5]⟩
    rw [hcard v hv', e4 v ((hm v).1 hv'), hfs.cards v]
    rw [h3] at hv'
    exact (List.mem_filter.1 hv').1

/-- **C26**, normalize. -/
theorem C26_normalize (f : Cat ℝ) (s : Sparse ℝ) (hf : WF f) (pf : Proper f) (rs : Sparse.Regular s)
    (hfs : Agree f s) (hm : 0 < f.mass) :
    ∃ r u, normalize f = .ok r ∧ Sparse.normalize s = .ok u ∧ Agree r u := by
  have hmass : s.mass = f.mass := by
    unfold mass Sparse.mass
    have e : (s.vars.map fun v => (v, s.card v)) = s.vars.map fun v => (v, f.card v) :=
      List.map_congr_left fun v hv => by rw [hfs.cards v ((hfs.scope v).2 hv)]
    have hp : s.vars.Perm f.vars :=
      (List.perm_ext_iff_of_nodup rs.wf.nodup hf.nodup).2 fun v => (hfs.scope v).symm
    rw [e, Spec.sumVars_perm (hp.map _) (by rw [List.map_map]; simpa [Function.comp_def] using rs.wf.nodup)]
    apply Spec.sumVars_congr _ _ hf.nodup
    intro y hy
    unfold prob Sparse.prob
    rw [hfs.vals y hy]
  have hm' : 0 < s.mass := by rw [hmass]; exact hm
  refine ⟨_, Sparse.normResult s, normalize_eq hf pf hm, ?_, hfs.scope, hfs.cards, fun x hx => ?_⟩
  · rw [Sparse.normalize_eq rs, if_neg (Sparse.table_ne_nil_of_mass rs hm')]
  · have e1 : (normResult f).val x = XF.sub (f.val x) (.fin (Real.log f.mass)) := rfl
    rw [e1, hfs.vals x hx]
    unfold Sparse.val Sparse.normResult
    dsimp only
    rw [Dict.get?_map_val (fun a => XF.sub a (XF.ofProb s.mass)), XF.ofProb, if_neg hm'.ne', hmass]
    cases Dict.get? s.table (s.vars.map x) with
    | none => simp [rs.dflt, XF.sub]
    | some a => rfl

/-- The sparse counterpart of `exR`. -/
def exRs : Sparse ℝ := ⟨["a", "b", "c"], [2, 2, 2], [([0, 1, 0], .fin 0), ([0, 1, 1], .fin 0)], .ninf⟩

theorem exRs_regular : Sparse.Regular exRs := by
  refine ⟨⟨by decide, rfl, by decide +kernel, ?_⟩, ?_, rfl⟩
  · intro k hk
    have : k = [0, 1, 0] ∨ k = [0, 1, 1] := by simpa [exRs, Dict.keys] using hk
    rcases this with rfl | rfl <;> simp [exRs]
  · intro e he
    have : e = ([0, 1, 0], .fin 0) ∨ e = ([0, 1, 1], .fin 0) := by simpa [exRs] using he
    rcases this with rfl | rfl <;> trivial

theorem exR_agree : Agree exR exRs := by
  refine ⟨fun _ => Iff.rfl, fun v hv => ?_, fun x hx => ?_⟩
  · have h1 : v = "a" ∨ v = "b" ∨ v = "c" := by simpa [exR, mk0, mk'] using hv
    rcases h1 with rfl | rfl | rfl <;> rfl
  · have ha : x "a" < 2 := hx "a" (by simp [exR, mk0, mk'])
    have hb : x "b" < 2 := hx "b" (by simp [exR, mk0, mk'])
    have hc : x "c" < 2 := hx "c" (by simp [exR, mk0, mk'])
    show exR.tensor.get [x "a", x "b", x "c"] = Option.getD (Dict.get? exRs.table [x "a", x "b", x "c"]) .ninf
    generalize x "a" = i at ha ⊢
    generalize x "b" = j at hb ⊢
    generalize x "c" = k at hc ⊢
    interval_cases i <;> interval_cases j <;> interval_cases k <;> rfl

example : ∃ r u, multiply exR exR = .ok r ∧ Sparse.multiply HashSeed.example exRs exRs = .ok u ∧ Agree r u :=
  C26_multiply _ _ _ _ _ exR_wf exR_wf exRs_regular exRs_regular exR_agree exR_agree (fun _ _ _ => rfl) fun _ _ _ => rfl

example : ∃ r u, divide exR exR = .ok r ∧ Sparse.divide HashSeed.example exRs exRs = .ok u ∧ Agree r u :=
  C26_divide _ _ _ _ _ exR_wf exR_wf exRs_regular exRs_regular exR_agree exR_agree (fun _ _ _ => rfl) (fun _ _ _ => rfl)
    fun _ h => h

example : ∃ r u, normalize exR = .ok r ∧ Sparse.normalize exRs = .ok u ∧ Agree r u :=
  C26_normalize _ _ exR_wf exR_proper exRs_regular exR_agree exR_mass_pos

/-- **C26 violated for reduce:** evidence `a = 1` has probability zero; the sparse factor raises. -/
theorem C26_reduce_raises : Agree exR exRs ∧ Sparse.reduce exRs ["a"] [1] = .error .keyError ∧
    ∃ r, reduce exR ["a"] [1] = .ok r := ⟨exR_agree, rfl, _, rfl⟩

/-! ### C27 names -/

theorem mapM_inv {α β : Type} {f : α → Py β} {l : List α} {r : List β} (h : l.mapM f = .ok r) :
    List.Forall₂ (fun a b => f a = .ok b) l r := by
  induction l generalizing r with
  | nil =>
    have : r = [] := by
      have h' : (Except.ok [] : Py (List β)) = .ok r := h
      injection h' with h'; exact h'.symm
    subst this; exact .nil
  | cons a l ih =>
    rw [List.mapM_cons, py_bind_eq_ok] at h
    obtain ⟨b, h1, h2⟩ := h
    rw [py_bind_eq_ok] at h2
    obtain ⟨bs, h3, h4⟩ := h2
    have h5 : b :: bs = r := by injection h4
    subst h5
    exact .cons h1 (ih h3)

theorem mkNames_some {vs : List Var} {cs : List Nat} {ns : List (List AName)} {d : Dict Var (List AName)}
    (h : mkNames vs cs (some ns) = .ok d) (hl : cs.length = vs.length) :
    ns.length = vs.length ∧ d = Dict.ofPairs (vs.zip ns) := by
  unfold mkNames at h
  simp only at h
  obtain ⟨_, h1, h⟩ := py_bind_eq_ok.1 h
  obtain ⟨l, h2, h⟩ := py_bind_eq_ok.1 h
  have hlen : ns.length = vs.length := by
    unfold pyAssert at h1
    split at h1
    · rename_i hh; exact beq_iff_eq.1 hh
    · simp at h1
  refine ⟨hlen, ?_⟩
  have hd : Dict.ofPairs l = d := by injection h
  rw [← hd]
  congr 1
  have h3 := mapM_inv h2
  have h4 : l = (vs.zip (ns.zip cs)).map fun e => (e.1, e.2.1) := by
    have : List.Forall₂ (fun a b => b = (a.1, a.2.1)) (vs.zip (ns.zip cs)) l := by
      refine h3.imp ?_
      intro a b hab
      obtain ⟨_, _, hab⟩ := py_bind_eq_ok.1 hab
      injection hab with hab; exact hab.symm
    clear h2 h3 hd h
    generalize vs.zip (ns.zip cs) = z at this ⊢
    induction this with
    | nil => rfl
    | cons h _ ih => rw [List.map_cons, ← ih, h]
  rw [h4]
  apply List.ext_getElem
  · simp; omega
  · intro i _ _; simp

theorem namesOf_eq {d : Dict Var (List AName)} {vs : List Var} {ns : List (List AName)}
    (hF : List.Forall₂ (fun v n => Dict.getItem d v = .ok n) vs ns) : ns = vs.map fun v => (Dict.get? d v).getD [] := by
  induction hF with
  | nil => rfl
  | cons h _ ih =>
    rw [getItem_eq_ok] at h
    rw [List.map_cons, ← ih, h]; rfl

/-- A factor built with the names of the dictionary `d` has, for each of its variables, the names of `d`. -/
theorem names_follow {vs : List Var} {t : Tensor (XF K)} {d : Dict Var (List AName)} {ns : List (List AName)}
    {r : Cat K} (h : namesOf d vs = .ok ns) (hr : ofTensor vs t none (some ns) = .ok r) :
    r.vars = vs ∧ ∀ v ∈ vs, Dict.get? d v = some (r.name v) := by
  unfold ofTensor at hr
  obtain ⟨_, h1, hr⟩ := py_bind_eq_ok.1 hr
  obtain ⟨cs, h2, hr⟩ := py_bind_eq_ok.1 hr
  obtain ⟨_, h3, hr⟩ := py_bind_eq_ok.1 hr
  obtain ⟨nd, h4, hr⟩ := py_bind_eq_ok.1 hr
  have hcs : t.shape = cs := by injection h2
  have hnd : vs.Nodup := by
    unfold pyGuard at h1
    split at h1
    · rename_i hh
      have := beq_iff_eq.1 hh
      exact List.dedup_eq_self.1 ((List.dedup_sublist vs).eq_of_length this)
    · simp at h1
  have hdim : cs.length = vs.length := by
    unfold pyGuard at h3
    split at h3
    · rename_i hh
      rw [← hcs]; exact beq_iff_eq.1 hh
    · simp at h3
  obtain ⟨hlen, rfl⟩ := mkNames_some h4 hdim
  have hr' : (⟨vs, t, Dict.ofPairs (vs.zip cs), Dict.ofPairs (vs.zip ns)⟩ : Cat K) = r := by injection hr
  subst hr'
  refine ⟨rfl, fun v hv => ?_⟩
  unfold name
  dsimp only
  rw [Dict.ofPairs_eq (by rw [List.map_fst_zip (by omega)]; exact hnd)]
  have hF := mapM_inv h
  have key := namesOf_eq hF
  rw [key, Dict.get?_zip_map _ _ _ hv]
  have : ∃ n, Dict.get? d v = some n := by
    obtain ⟨i, hi, rfl⟩ := List.getElem_of_mem hv
    have := List.forall₂_iff_get.1 hF
    exact ⟨_, getItem_eq_ok.1 (this.2 i hi (by omega))⟩
  obtain ⟨n, hn⟩ := this
  rw [hn]; rfl

theorem get?_name {d : Dict Var (List AName)} {f : Cat K} (hf : WF f) (hd : d = f.names) {v : Var} {n : List AName}
    (h : Dict.get? d v = some n) : v ∈ f.vars ∧ n = f.name v := by
  subst hd
  by_cases hv : v ∈ f.vars
  · rw [hf.get?_names hv] at h
    injection h with h
    exact ⟨hv, h.symm⟩
  · rw [hf.get?_names_none hv] at h; simp at h

/-- **C27.** Whatever `copy`, `reorder`, `reduce`, `marginalize`, `divide` and `cancel` return, each
variable of the result belongs to the first operand and has the value names it had there. -/
theorem C27_names_kept (f : Cat ℝ) (hf : WF f) (r : Cat ℝ)
    (h : copy f = .ok r ∨ (∃ nv, reorder f nv = .ok r) ∨ (∃ vrs values, reduce f vrs values = .ok r) ∨
      (∃ hs vrs keep, marginalize hs f vrs keep = .ok r) ∨ (∃ g, divide f g = .ok r) ∨
      (∃ g, cancel f g = .ok r) ∨ normalize f = .ok r) :
    ∀ v ∈ r.vars, v ∈ f.vars ∧ r.name v = f.name v := by
  have key : ∀ {vs : List Var} {t : Tensor (XF ℝ)} {ns : List (List AName)}, namesOf f.names vs = .ok ns →
      ofTensor vs t none (some ns) = .ok r → ∀ v ∈ r.vars, v ∈ f.vars ∧ r.name v = f.name v := by
    intro vs t ns h1 h2 v hv
    obtain ⟨h3, h4⟩ := names_follow h1 h2
    rw [h3] at hv
    exact get?_name hf rfl (h4 v hv)
  have hcopy : copy f = .ok r → ∀ v ∈ r.vars, v ∈ f.vars ∧ r.name v = f.name v := by
    intro h
    obtain ⟨ns, h1, h⟩ := py_bind_eq_ok.1 h
    exact key h1 h
  rcases h with h | ⟨nv, h⟩ | ⟨vrs, values, h⟩ | ⟨hs, vrs, keep, h⟩ | ⟨g, h⟩ | ⟨g, h⟩ | h
  · exact hcopy h
  · unfold reorder at h
    split at h
    · exact hcopy h
    · obtain ⟨_, _, h⟩ := py_bind_eq_ok.1 h
      obtain ⟨_, _, h⟩ := py_bind_eq_ok.1 h
      obtain ⟨_, _, h⟩ := py_bind_eq_ok.1 h
      obtain ⟨ns, h1, h⟩ := py_bind_eq_ok.1 h
      exact key h1 h
  · unfold reduce at h
    obtain ⟨_, _, h⟩ := py_bind_eq_ok.1 h
    obtain ⟨ns, h1, h⟩ := py_bind_eq_ok.1 h
    exact key h1 h
  · unfold marginalize at h
    obtain ⟨_, _, h⟩ := py_bind_eq_ok.1 h
    obtain ⟨_, _, h⟩ := py_bind_eq_ok.1 h
    obtain ⟨ns, h1, h⟩ := py_bind_eq_ok.1 h
    exact key h1 h
  · unfold divide at h
    obtain ⟨_, _, h⟩ := py_bind_eq_ok.1 h
    obtain ⟨_, _, h⟩ := py_bind_eq_ok.1 h
    obtain ⟨_, _, h⟩ := py_bind_eq_ok.1 h
    obtain ⟨ns, h1, h⟩ := py_bind_eq_ok.1 h
    exact key h1 h
  · unfold cancel at h
    obtain ⟨_, _, h⟩ := py_bind_eq_ok.1 h
    obtain ⟨_, _, h⟩ := py_bind_eq_ok.1 h
    obtain ⟨_, _, h⟩ := py_bind_eq_ok.1 h
    obtain ⟨ns, h1, h⟩ := py_bind_eq_ok.1 h
    exact key h1 h
  · unfold normalize at h
    rw [copy_eq hf, py_bind_ok] at h
    obtain ⟨_, _, h⟩ := py_bind_eq_ok.1 h
    injection h with h
    subst h
    exact fun v hv => ⟨hv, rfl⟩

/-- **C27.** Whatever `multiply` returns, each variable has the names of the operand it comes from. -/
theorem C27_names_multiply [Add K] (f g : Cat K) (hf : WF f) (hg : WF g) (r : Cat K) (h : multiply f g = .ok r) :
    ∀ v ∈ r.vars, (v ∈ f.vars ∨ v ∈ g.vars) ∧ (v ∈ f.vars → r.name v = f.name v) ∧
      (v ∈ g.vars → r.name v = g.name v) := by
  classical
  have hc : Consistent f g := by
    by_contra hc
    rw [(C15_multiply_errors f g hf hg).1 hc] at h; simp at h
  have hn : SameNames f g := by
    by_contra hn
    rw [(C15_multiply_errors f g hf hg).2 hc hn] at h; simp at h
  obtain ⟨r', h1, b⟩ := multiply_ok hf hg hc hn
  rw [h1] at h
  injection h with h
  subst h
  exact fun v hv => ⟨(b.scope v).1 hv, b.nameL v, b.nameR v⟩

/-- **C27.** Operands that name a shared variable's values differently: `multiply` and `divide` (with
consistent cardinalities) and `kl_divergence` raise `InconsistentAssignmentNamesError`; `cancel` never
returns a factor. -/
theorem C27_names_inconsistent (f g : Cat ℝ) (hf : WF f) (hg : WF g) (hn : ¬ SameNames f g) :
    (Consistent f g → multiply f g = .error .inconsistentNames ∧ divide f g = .error .inconsistentNames) ∧
    (∀ b, klDivergence f g b = .error .inconsistentNames) ∧ ∀ r, cancel f g ≠ .ok r := by
  classical
  refine ⟨fun hc => ⟨(C15_multiply_errors f g hf hg).2 hc hn, ?_⟩, fun b => ?_, fun r h => ?_⟩
  · obtain ⟨r, vs, h1, _⟩ := tensorOp_ok hf.nodup hg.nodup hf.shape hg.shape hc XF.sub
    unfold divide
    rw [assertCards_eq hf hg, if_pos hc, py_bind_ok, h1, py_bind_ok, checkNames_eq hf hg, if_neg hn]; rfl
  · unfold klDivergence
    rw [checkNames_eq hf hg, if_neg hn]; rfl
  · unfold cancel at h
    obtain ⟨_, _, h⟩ := py_bind_eq_ok.1 h
    obtain ⟨_, _, h⟩ := py_bind_eq_ok.1 h
    obtain ⟨_, h1, h⟩ := py_bind_eq_ok.1 h
    rw [checkNames_eq hf hg, if_neg hn] at h1
    simp at h1

/-- The factor of `exR'` with other names for the values of `a`. -/
noncomputable def exN : Cat ℝ := mk' ["a"] ⟨[2], fun _ => .fin 0⟩ fun _ => [.str "low", .str "high"]

example : WF exR ∧ WF exN ∧ Consistent exR exN ∧ ¬ SameNames exR exN := by
  refine ⟨exR_wf, mk'_wf (c := fun _ => 2) (by decide) rfl (by decide), ?_, ?_⟩
  · intro v _ h
    have : v = "a" := by simpa [exN, mk'] using h
    subst this; rfl
  · intro h
    exact absurd (h "a" (by simp [exR, mk0, mk']) (by simp [exN, mk'])) (by decide)

end Verif.Cat
