import Verif.NonLinOps
import Verif.NonLinProps

/-!
# Properties of non-linear Gaussians (C71): multiplication and division

`IsNLG a U C` says that the conditional update factor has the log potential `U` and the conditioning factor has the log
potential `C` (zero if there is no such factor).
-/

namespace Verif.NLG
open Matrix Gauss Spec _root_.Verif.Fact _root_.Verif.Sigma

/-- Everything but the two parts and the stored joint is the same. -/
structure Keeps (r a : NLG) : Prop where
  xs : r.xs = a.xs
  ys : r.ys = a.ys
  transform : r.transform = a.transform
  noise : (⟨r.q, r.noise⟩ : Σ q, Matrix (Fin q) (Fin q) ℝ) = ⟨a.q, a.noise⟩
  lw : r.lw = a.lw
  ev : r.ev = a.ev

theorem keeps_parts (a : NLG) (j : AnyG) (u c : Option AnyG) : Keeps { a with joint := j, upd := u, cond := c } a :=
  ⟨rfl, rfl, rfl, rfl, rfl, rfl⟩

theorem IsNLG.congr {a : NLG} {U C U' C' : (Var → ℝ) → ℝ} (h : IsNLG a U C) (hU : ∀ x, U x = U' x) (hC : ∀ x, C x = C' x) :
    IsNLG a U' C' := by
  rw [← funext hU, ← funext hC]
  exact h

/-! ### Multiplication -/

theorem multiply_ys {a : NLG} {U C G : (Var → ℝ) → ℝ} (h : IsNLG a U C) {g : AnyG} (hg : Den g (g.2.vars, G))
    (hv : g.2.vac = false) (hsub : ∀ v ∈ g.2.vars, v ∈ a.ys) :
    ∃ g' j u c, multiply a g = .ok (g', { a with joint := j, upd := some u, cond := c }) ∧
      IsNLG { a with joint := j, upd := some u, cond := c } (fun x => U x + G x) C ∧ Den g' (g.2.vars, G) ∧
      g'.2.vars = g.2.vars ∧ g'.2.vac = false ∧ condVars c = condVars a.cond ∧ (c = none ↔ a.cond = none) := by
  obtain ⟨j, u, c, e, hi, sc, -, nc, -⟩ := copy_ok h
  obtain ⟨g', r, hr, pr, dg, hgv, hgc, -⟩ := mulPart_ok hi.upd hg hsub
  refine ⟨g', j, r, c, ?_, ⟨h.nodup, h.q, pr, hi.cond, hi.joint, h.ev⟩, dg, hgv, hgc.trans hv, sc, nc⟩
  unfold multiply
  rw [e]
  dsimp only [bind, Except.bind]
  rw [if_neg (by simp [hv]), if_pos hsub, hr]

theorem multiply_xs {a : NLG} {U C G : (Var → ℝ) → ℝ} (h : IsNLG a U C) {g : AnyG} (hg : Den g (g.2.vars, G))
    (hv : g.2.vac = false) (hn : ¬ ∀ v ∈ g.2.vars, v ∈ a.ys) (hsub : ∀ v ∈ g.2.vars, v ∈ a.xs) :
    ∃ g' j u c, multiply a g = .ok (g', { a with joint := j, upd := u, cond := some c }) ∧
      IsNLG { a with joint := j, upd := u, cond := some c } U (fun x => C x + G x) ∧ Den g' (g.2.vars, G) ∧
      g'.2.vars = g.2.vars ∧ g'.2.vac = false ∧ ∀ v, v ∈ c.2.vars ↔ v ∈ condVars a.cond ∨ v ∈ g.2.vars := by
  obtain ⟨j, u, c, e, hi, sc, -, nc, -⟩ := copy_ok h
  obtain ⟨g', r, hr, pr, dg, hgv, hgc, hm⟩ := mulPart_ok hi.cond hg hsub
  refine ⟨g', j, u, r, ?_, ⟨h.nodup, h.q, hi.upd, pr, hi.joint, h.ev⟩, dg, hgv, hgc.trans hv, fun v => ?_⟩
  · unfold multiply
    rw [e]
    dsimp only [bind, Except.bind]
    rw [if_neg (by simp [hv]), if_neg hn, if_pos hsub, hr]
  · rw [hm, ← sc]

/-- **C71, multiplication.** A factor that is not flagged vacuous is multiplied into the conditional update factor if
all its variables are conditional variables, else into the conditioning factor if all its variables are conditioning
variables, and else `ValueError` is raised. The other part and everything else stays, and so does what the operand
denotes. -/
theorem C71_multiply {a : NLG} {U C G : (Var → ℝ) → ℝ} (h : IsNLG a U C) {g : AnyG} (hg : Den g (g.2.vars, G))
    (hv : g.2.vac = false) :
    ((∀ v ∈ g.2.vars, v ∈ a.ys) → ∃ g' r, multiply a g = .ok (g', r) ∧ Keeps r a ∧ IsNLG r (fun x => U x + G x) C ∧
      Den g' (g.2.vars, G)) ∧
    ((¬ ∀ v ∈ g.2.vars, v ∈ a.ys) → (∀ v ∈ g.2.vars, v ∈ a.xs) → ∃ g' r, multiply a g = .ok (g', r) ∧ Keeps r a ∧
      IsNLG r U (fun x => C x + G x) ∧ Den g' (g.2.vars, G)) ∧
    ((¬ ∀ v ∈ g.2.vars, v ∈ a.ys) → (¬ ∀ v ∈ g.2.vars, v ∈ a.xs) → multiply a g = .error .valueError) := by
  refine ⟨fun hs => ?_, fun hn hs => ?_, fun hn hs => ?_⟩
  · obtain ⟨g', j, u, c, e, hi, dg, -⟩ := multiply_ys h hg hv hs
    exact ⟨g', _, e, keeps_parts .., hi, dg⟩
  · obtain ⟨g', j, u, c, e, hi, dg, -⟩ := multiply_xs h hg hv hn hs
    exact ⟨g', _, e, keeps_parts .., hi, dg⟩
  · obtain ⟨j, u, c, e, -⟩ := copy_ok h
    unfold multiply
    rw [e]
    dsimp only [bind, Except.bind]
    rw [if_neg (by simp [hv]), if_neg hn, if_neg hs]

/-- **C71 is violated by vacuous factors.** A factor that is flagged vacuous is dropped by both operations, whatever its
variables: no `ValueError` for variables the factor does not have, and its constant is lost. -/
theorem C71_vacuous (hs : HashSeed) {a : NLG} {U C : (Var → ℝ) → ℝ} (h : IsNLG a U C) {g : AnyG} (hv : g.2.vac = true) :
    ∃ r, multiply a g = .ok (g, r) ∧ divide hs a g = .ok (g, r) ∧ Keeps r a ∧ IsNLG r U C := by
  obtain ⟨j, u, c, e, hi, -⟩ := copy_ok h
  refine ⟨{ a with joint := j, upd := u, cond := c }, ?_, ?_, keeps_parts .., hi⟩
  · unfold multiply
    rw [e]
    dsimp only [bind, Except.bind]
    rw [if_pos hv]
  · unfold divide
    rw [e]
    dsimp only [bind, Except.bind]
    rw [if_pos hv]

/-! ### Division -/

theorem divide_ys (hs : HashSeed) {a : NLG} {U C G : (Var → ℝ) → ℝ} (h : IsNLG a U C) {p g : AnyG} (ha : a.upd = some p)
    (hg : Den g (g.2.vars, G)) (hv : g.2.vac = false) (hsub : ∀ v ∈ g.2.vars, v ∈ a.ys) :
    ∃ g' j u c, (divide hs a g = do
        let r ← recompute hs { a with joint := j, upd := some u, cond := c }
        .ok (g', r)) ∧
      IsNLG { a with joint := j, upd := some u, cond := c } (fun x => U x - G x) C ∧ Den g' (g.2.vars, G) ∧
      condVars c = condVars a.cond ∧ (c = none ↔ a.cond = none) := by
  obtain ⟨j, u, c, e, hi, sc, -, nc, nu⟩ := copy_ok h
  cases u with
  | none =>
    have := nu.1 rfl
    rw [ha] at this
    cases this
  | some p' =>
    obtain ⟨g', r, hr, pr, dg, hgv, hgc, -⟩ := divPart_ok .attributeError hi.upd hg hsub
    refine ⟨g', j, r, c, ?_, ⟨h.nodup, h.q, pr, hi.cond, hi.joint, h.ev⟩, dg, sc, nc⟩
    unfold divide
    rw [e, py_bind_ok, if_neg (by simp [hv]), if_pos hsub]
    dsimp only
    rw [hr, py_bind_ok]

theorem divide_xs (hs : HashSeed) {a : NLG} {U C G : (Var → ℝ) → ℝ} (h : IsNLG a U C) {p g : AnyG} (ha : a.cond = some p)
    (hg : Den g (g.2.vars, G)) (hv : g.2.vac = false) (hn : ¬ ∀ v ∈ g.2.vars, v ∈ a.ys) (hsub : ∀ v ∈ g.2.vars, v ∈ a.xs) :
    ∃ g' j u c, (divide hs a g = do
        let r ← recompute hs { a with joint := j, upd := u, cond := some c }
        .ok (g', r)) ∧
      IsNLG { a with joint := j, upd := u, cond := some c } U (fun x => C x - G x) ∧ Den g' (g.2.vars, G) ∧
      (∀ v, v ∈ c.2.vars ↔ v ∈ p.2.vars ∨ v ∈ g.2.vars) ∧ c.2.cov = none := by
  obtain ⟨j, u, c, e, hi, sc, -, nc, nu⟩ := copy_ok h
  cases c with
  | none =>
    have := nc.1 rfl
    rw [ha] at this
    cases this
  | some p' =>
    obtain ⟨g', r, hr, pr, dg, hgv, hgc, hm, hcv⟩ := divPart_ok .notImplementedError hi.cond hg hsub
    refine ⟨g', j, u, r, ?_, ⟨h.nodup, h.q, hi.upd, pr, hi.joint, h.ev⟩, dg, fun v => ?_, hcv⟩
    · unfold divide
      rw [e, py_bind_ok, if_neg (by simp [hv]), if_neg hn, if_pos hsub]
      dsimp only
      rw [hr, py_bind_ok]
    · rw [hm]
      rw [ha] at sc
      have : p'.2.vars = p.2.vars := sc
      rw [this]

/-- **C71, division.** Whenever dividing by a factor that is not flagged vacuous returns, the factor has been divided
out of the part it belongs to; everything else stays. A scope that belongs to neither part raises `ValueError`; if the
part is missing, an exception is raised. -/
theorem C71_divide (hs : HashSeed) {a : NLG} {U C G : (Var → ℝ) → ℝ} (h : IsNLG a U C) {g : AnyG} (hg : Den g (g.2.vars, G))
    (hv : g.2.vac = false) :
    (∀ g' r, divide hs a g = .ok (g', r) → Keeps r a ∧ Den g' (g.2.vars, G) ∧
      (((∀ v ∈ g.2.vars, v ∈ a.ys) ∧ IsNLG r (fun x => U x - G x) C) ∨
       ((¬ ∀ v ∈ g.2.vars, v ∈ a.ys) ∧ (∀ v ∈ g.2.vars, v ∈ a.xs) ∧ IsNLG r U (fun x => C x - G x)))) ∧
    ((¬ ∀ v ∈ g.2.vars, v ∈ a.ys) → (¬ ∀ v ∈ g.2.vars, v ∈ a.xs) → divide hs a g = .error .valueError) ∧
    ((∀ v ∈ g.2.vars, v ∈ a.ys) → a.upd = none → divide hs a g = .error .attributeError) ∧
    ((¬ ∀ v ∈ g.2.vars, v ∈ a.ys) → (∀ v ∈ g.2.vars, v ∈ a.xs) → a.cond = none →
      divide hs a g = .error .notImplementedError) := by
  obtain ⟨j, u, c, e, hi, sc, -, nc, nu⟩ := copy_ok h
  have hE : (¬ ∀ v ∈ g.2.vars, v ∈ a.ys) → (¬ ∀ v ∈ g.2.vars, v ∈ a.xs) → divide hs a g = .error .valueError := by
    intro hn hx
    unfold divide
    rw [e, py_bind_ok, if_neg (by simp [hv]), if_neg hn, if_neg hx]
  have hU : (∀ v ∈ g.2.vars, v ∈ a.ys) → a.upd = none → divide hs a g = .error .attributeError := by
    intro hy hno
    unfold divide
    rw [e, py_bind_ok, if_neg (by simp [hv]), if_pos hy, nu.2 hno]
    rfl
  have hC : (¬ ∀ v ∈ g.2.vars, v ∈ a.ys) → (∀ v ∈ g.2.vars, v ∈ a.xs) → a.cond = none →
      divide hs a g = .error .notImplementedError := by
    intro hy hx hno
    unfold divide
    rw [e, py_bind_ok, if_neg (by simp [hv]), if_neg hy, if_pos hx, nc.2 hno]
    rfl
  refine ⟨fun g' r hr => ?_, hE, hU, hC⟩
  by_cases hy : ∀ v ∈ g.2.vars, v ∈ a.ys
  · cases hp : a.upd with
    | none =>
      rw [hU hy hp] at hr
      cases hr
    | some p =>
      obtain ⟨g2, j2, u2, c2, e2, hi2, dg, -⟩ := divide_ys hs h hp hg hv hy
      rw [e2] at hr
      obtain ⟨r2, hr2, hr⟩ := py_bind_eq_ok.1 hr
      cases hr
      obtain ⟨j3, u3, rfl, hi3, -⟩ := recompute_inv hi2 hr2
      exact ⟨⟨rfl, rfl, rfl, rfl, rfl, rfl⟩, dg, .inl ⟨hy, hi3⟩⟩
  · by_cases hx : ∀ v ∈ g.2.vars, v ∈ a.xs
    · cases hp : a.cond with
      | none =>
        rw [hC hy hx hp] at hr
        cases hr
      | some p =>
        obtain ⟨g2, j2, u2, c2, e2, hi2, dg, -⟩ := divide_xs hs h hp hg hv hy hx
        rw [e2] at hr
        obtain ⟨r2, hr2, hr⟩ := py_bind_eq_ok.1 hr
        cases hr
        obtain ⟨j3, u3, rfl, hi3, -⟩ := recompute_inv hi2 hr2
        exact ⟨⟨rfl, rfl, rfl, rfl, rfl, rfl⟩, dg, .inr ⟨hy, hx, hi3⟩⟩
    · rw [hE hy hx] at hr
      cases hr

/-! ### Division undoes multiplication -/

/-- Recomputing returns if the joint is vacuous, or if it can be computed. -/
theorem recompute_returns (hs : HashSeed) {a : NLG} {U C : (Var → ℝ) → ℝ} (h : IsNLG a U C)
    (hok : ¬ Covered a ∨ a.ys ≠ [] ∧ a.noise.PosDef ∧ Total a.transform a.xs a.q ∧ ∃ p, Proper a p C) :
    ∃ r, recompute hs a = .ok r := by
  rcases hok with hc | ⟨hys, hN, hT, p, hp⟩
  · exact ⟨_, recompute_uncovered hs h hc⟩
  · obtain ⟨vars, k, h1, h2, h3, h4, h5, h6, h7, h8, h9⟩ := proper_cond hs h hp
    obtain ⟨j', M, hj, dj, hjv⟩ := transformed_den h hys hN h2 h3 h4 h5 (fun v hv => (mem_observedIn.1 hv).2)
      (fun v hv => ((h6 v).1 hv).2) h7 h8 hT
    obtain ⟨u', r, hr, -⟩ := recompute_proper hs h hp h1 h6 hj dj
    exact ⟨_, hr⟩

/-- **C71, division undoes multiplication: conditional variables.** After multiplying with and dividing by a factor over
conditional variables, both parts denote what they did before. It returns if the joint is vacuous or can be
computed. -/
theorem C71_undo_conditional (hs : HashSeed) {a : NLG} {U C G : (Var → ℝ) → ℝ} (h : IsNLG a U C) {g : AnyG}
    (hg : Den g (g.2.vars, G)) (hv : g.2.vac = false) (hsub : ∀ v ∈ g.2.vars, v ∈ a.ys)
    (hok : ¬ Covered a ∨ a.ys ≠ [] ∧ a.noise.PosDef ∧ Total a.transform a.xs a.q ∧ ∃ p, Proper a p C) :
    ∃ g' r g'' s, multiply a g = .ok (g', r) ∧ divide hs r g' = .ok (g'', s) ∧ Keeps s a ∧ IsNLG s U C := by
  obtain ⟨g', j, u, c, e, hi, dg, hgv, hgc, sc, nc⟩ := multiply_ys h hg hv hsub
  rw [← hgv] at dg
  obtain ⟨g2, j2, u2, c2, e2, hi2, -, sc2, nc2⟩ := divide_ys hs hi rfl dg hgc (hgv ▸ hsub)
  have hcv : condVars c2 = condVars a.cond := sc2.trans sc
  have hcn : c2 = none ↔ a.cond = none := nc2.trans nc
  obtain ⟨r, hr⟩ := recompute_returns hs hi2 (by
    rcases hok with hc | ⟨h1, h2, h3, p, hp⟩
    · refine .inl fun hc' => hc fun v hv' => ?_
      have := hc' v hv'
      dsimp only at this
      rwa [hcv] at this
    · refine .inr ?_
      obtain ⟨p', hp'⟩ := proper_copy (j := j2) (u := some u2) hp hcv hcn
      exact ⟨h1, h2, h3, p', hp'⟩)
  obtain ⟨j3, u3, he, hi3, -⟩ := recompute_inv hi2 hr
  refine ⟨g', _, g2, r, e, ?_, he ▸ ⟨rfl, rfl, rfl, rfl, rfl, rfl⟩, he ▸ hi3.congr (fun x => by ring) fun x => rfl⟩
  rw [e2, hr]
  rfl

/-- **C71, division undoes multiplication: conditioning variables (part that holds).** After multiplying with and
dividing by a factor over conditioning variables that are in the conditioning factor or observed, both parts denote what
they did before, if the joint could be computed before. What is missing: `C71_undo_raises`. -/
theorem C71_undo_conditioning_partial (hs : HashSeed) {a : NLG} {U C G : (Var → ℝ) → ℝ} (h : IsNLG a U C) {g : AnyG}
    (hg : Den g (g.2.vars, G)) (hv : g.2.vac = false) (hn : ¬ ∀ v ∈ g.2.vars, v ∈ a.ys) (hsub : ∀ v ∈ g.2.vars, v ∈ a.xs)
    (hys : a.ys ≠ []) (hN : a.noise.PosDef) (hT : Total a.transform a.xs a.q) {p : AnyG} (hp : Proper a p C)
    (hgp : ∀ v ∈ g.2.vars, v ∈ p.2.vars ∨ v ∈ Dict.keys a.ev) :
    ∃ g' r g'' s, multiply a g = .ok (g', r) ∧ divide hs r g' = .ok (g'', s) ∧ Keeps s a ∧ IsNLG s U C := by
  obtain ⟨g', j, u, c, e, hi, dg, hgv, hgc, hm⟩ := multiply_xs h hg hv hn hsub
  rw [← hgv] at dg
  obtain ⟨g2, j2, u2, c2, e2, hi2, -, hm2, -⟩ := divide_xs hs hi rfl dg hgc (hgv ▸ hn) (hgv ▸ hsub)
  have hi2' := hi2.congr (U' := U) (C' := C) (fun x => rfl) fun x => by ring
  have hmem : ∀ v, v ∈ c2.2.vars ∧ v ∉ Dict.keys a.ev ↔ v ∈ p.2.vars ∧ v ∉ Dict.keys a.ev := by
    intro v
    rw [hm2, hm, hp.cond, hgv]
    show ((v ∈ p.2.vars ∨ v ∈ g.2.vars) ∨ v ∈ g.2.vars) ∧ _ ↔ _
    constructor
    · rintro ⟨(h1 | h1) | h1, h2⟩
      · exact ⟨h1, h2⟩
      · exact ⟨(hgp v h1).resolve_right h2, h2⟩
      · exact ⟨(hgp v h1).resolve_right h2, h2⟩
    · rintro ⟨h1, h2⟩
      exact ⟨.inl (.inl h1), h2⟩
  have hp2 : Proper { a with joint := j2, upd := u2, cond := some c2 } c2 C := by
    refine ⟨rfl, fun v hv' => ?_, ?_, ?_⟩
    · have := hp.covered v hv'
      rw [hp.cond] at this
      refine this.imp (fun h1 => ?_) id
      show v ∈ c2.2.vars
      rw [hm2, hm, hp.cond]
      exact .inl (.inl h1)
    · obtain ⟨v, h1, h2⟩ := hp.free
      exact ⟨v, (hmem v).2 ⟨h1, h2⟩⟩
    · have : (fun v => v ∈ c2.2.vars ∧ v ∉ Dict.keys a.ev) = fun v => v ∈ p.2.vars ∧ v ∉ Dict.keys a.ev :=
        funext fun v => propext (hmem v)
      dsimp only
      rw [this]
      exact hp.pos
  obtain ⟨r, hr⟩ := recompute_returns hs hi2' (.inr ⟨hys, hN, hT, c2, hp2⟩)
  obtain ⟨j3, u3, he, hi3, -⟩ := recompute_inv hi2' hr
  refine ⟨g', _, g2, r, e, ?_, he ▸ ⟨rfl, rfl, rfl, rfl, rfl, rfl⟩, he ▸ hi3⟩
  rw [e2]
  dsimp only at hr ⊢
  rw [hr]
  rfl

/-- **C71 is violated: dividing out the whole conditioning factor.** A factor over exactly the conditioning variables
that was multiplied into a non-linear Gaussian without conditioning factor and evidence cannot be divided out again:
`Exception` is raised. -/
theorem C71_undo_raises (hs : HashSeed) {a : NLG} {U C G : (Var → ℝ) → ℝ} (h : IsNLG a U C) {g : AnyG}
    (hg : Den g (g.2.vars, G)) (hv : g.2.vac = false) (hsub : ∀ v, v ∈ g.2.vars ↔ v ∈ a.xs) (hne : a.xs ≠ [])
    (hc : a.cond = none) (hev : a.ev = []) :
    ∃ g' r, multiply a g = .ok (g', r) ∧ divide hs r g' = .error .exception := by
  have hn : ¬ ∀ v ∈ g.2.vars, v ∈ a.ys := by
    obtain ⟨v, hv'⟩ := List.exists_mem_of_ne_nil _ hne
    exact fun h' => (List.nodup_append.1 h.nodup).2.2 v hv' v (h' v ((hsub v).2 hv')) rfl
  obtain ⟨g', j, u, c, e, hi, dg, hgv, hgc, hm⟩ := multiply_xs h hg hv hn fun v => (hsub v).1
  rw [← hgv] at dg
  obtain ⟨g2, j2, u2, c2, e2, hi2, -, hm2, hcov⟩ := divide_xs hs hi rfl dg hgc (hgv ▸ hn) (hgv ▸ fun v => (hsub v).1)
  refine ⟨g', _, e, ?_⟩
  have hC : ∀ x, C x = 0 := by
    have := h.cond
    rw [hc] at this
    exact this
  have hi2' := hi2.congr (U' := U) (C' := fun _ => 0) (fun x => rfl) fun x => by rw [hC]; ring
  have dc := hi2'.cond.1
  have hmx : ∀ v, v ∈ c2.2.vars ↔ v ∈ a.xs := fun v => by
    rw [hm2, hm, hgv, hc, hsub]
    simp [condVars]
  rw [e2, recompute_eq, if_neg (not_not.2 ((covered_iff hi2').2 fun v hv' => .inl ((hmx v).2 hv')))]
  dsimp only
  have hk : ∃ k : AnyG, Mix.copyG c2 = .ok k ∧ k.2.vac = true := by
    obtain ⟨n, ⟨vars, can, cov, vac⟩⟩ := c2
    dsimp only at hcov
    subst hcov
    cases can with
    | none =>
      have := dc.good.form
      simp at this
    | some cc =>
      have hnd : vars.Nodup := dc.good.nodup
      have hl : vars.length = n := dc.good.len
      have hz := good_mkCan (n := n) (vars := vars) (c := ⟨0, 0, 0⟩) hnd hl true (by simp)
      have hz0 : Denotes (⟨vars, some ⟨0, 0, 0⟩, none, true⟩ : Gauss n) fun _ => 0 := by
        refine hz.denotes.congr fun x => ?_
        unfold logOf evalCan
        rw [canOf_mk]
        simp
      have hcc : cc = ⟨0, 0, 0⟩ := canOf_unique hz dc.good rfl hz0 dc.den
      subst hcc
      refine ⟨⟨n, ⟨vars, some ⟨0, 0, 0⟩, none, vacParams (0 : Matrix (Fin n) (Fin n) ℝ)⟩⟩, ?_, ?_⟩
      · unfold Mix.copyG Gauss.copy
        dsimp only
        rw [mkCan_ok hnd hl]
        rfl
      · refine vacParams_zero (hl ▸ List.length_pos_of_ne_nil ?_)
        rintro rfl
        obtain ⟨v, hv'⟩ := List.exists_mem_of_ne_nil _ hne
        exact absurd ((hmx v).2 hv') (by simp)
  obtain ⟨k, hk1, hk2⟩ := hk
  have hred : reducedCond hs a.ev c2 = .ok k := by
    unfold reducedCond
    rw [hk1, hev]
    have : hs.strs.toList ((Dict.keys ([] : Dict Var ℝ)).filter (· ∈ k.2.vars)) = [] := by
      rw [List.eq_nil_iff_forall_not_mem]
      intro v hv'
      rw [hs.strs.mem] at hv'
      simp [Dict.keys] at hv'
    dsimp only [bind, Except.bind]
    rw [this]
    rfl
  rw [hred, py_bind_ok]
  unfold transformed sigmaPoints Gauss.getCov updateCov
  rw [if_pos hk2]
  rfl

/-! ### What a user sees -/

/-- **C71 for the joint.** For affine transforms, multiplying with a factor over conditional variables and then reading
the joint distribution gives the log potential of the joint without the factor, plus the log potential of the factor,
at the evidence. -/
theorem C71_joint (hs : HashSeed) {a : NLG} {U C G : (Var → ℝ) → ℝ} (h : IsNLG a U C) (hys : a.ys ≠ [])
    (hN : a.noise.PosDef) {A : Fin a.q → Var → ℝ} {b : Fin a.q → ℝ}
    (hT : Computes a.transform a.xs a.q fun z i => (a.xs.map fun v => A i v * z v).sum + b i) {p : AnyG}
    (hp : Proper a p C) {g : AnyG} (hg : Den g (g.2.vars, G)) (hv : g.2.vac = false) (hsub : ∀ v ∈ g.2.vars, v ∈ a.ys) :
    ∃ j L g' r j', jointDistribution hs a = .ok j ∧ Denotes j.2 L ∧ multiply a g = .ok (g', r) ∧
      jointDistribution hs r = .ok j' ∧ Denotes j'.2 fun x => L x + G (override a.ev x) := by
  obtain ⟨j, hj, -, -, dj⟩ := C84_affine hs h hys hN hT hp
  obtain ⟨g', k, u, c, e, hi, -, -, -, sc, nc⟩ := multiply_ys h hg hv hsub
  obtain ⟨p', hp'⟩ := proper_copy (j := k) (u := some u) hp sc nc
  obtain ⟨j', hj', -, -, dj'⟩ := C84_affine hs hi hys hN hT hp'
  refine ⟨j, _, g', _, j', hj, dj, e, hj', dj'.congr fun x => ?_⟩
  dsimp only
  ring

/-! ### Concrete cases -/

theorem stdA_den : Den ⟨_, std ["a"]⟩ (["a"], (stdItem ["a"]).2) := (std_den (by decide)).1
theorem stdC_den : Den ⟨_, std ["c"]⟩ (["c"], (stdItem ["c"]).2) := (std_den (by decide)).1

theorem exN_full : IsNLG (exN (some ⟨_, std ["a", "b"]⟩) [("b", 2)]) (stdItem ["c"]).2 (stdItem ["a", "b"]).2 :=
  exN_isNLG (part_std (vs := ["a", "b"]) (scope := ["a", "b"]) (by decide) fun v h => h)
    (by show (["b"] : List Var).Nodup; decide)

/-- Factors over `c`, over `a`, and over variables of both kinds. -/
example : (∃ g' r, multiply (exN (some ⟨_, std ["a", "b"]⟩) [("b", 2)]) ⟨_, std ["c"]⟩ = .ok (g', r) ∧
      IsNLG r (fun x => (stdItem ["c"]).2 x + (stdItem ["c"]).2 x) (stdItem ["a", "b"]).2) ∧
    (∃ g' r, multiply (exN (some ⟨_, std ["a", "b"]⟩) [("b", 2)]) ⟨_, std ["a"]⟩ = .ok (g', r) ∧
      IsNLG r (stdItem ["c"]).2 (fun x => (stdItem ["a", "b"]).2 x + (stdItem ["a"]).2 x)) ∧
    multiply (exN (some ⟨_, std ["a", "b"]⟩) [("b", 2)]) ⟨_, std ["a", "c"]⟩ = .error .valueError := by
  refine ⟨?_, ?_, ?_⟩
  · obtain ⟨g', r, e, -, hi, -⟩ := (C71_multiply exN_full stdC_den rfl).1 (by simp [std, exN])
    exact ⟨g', r, e, hi⟩
  · obtain ⟨g', r, e, -, hi, -⟩ := (C71_multiply exN_full stdA_den rfl).2.1 (by simp [std, exN]) (by simp [std, exN])
    exact ⟨g', r, e, hi⟩
  · have hd : Den ⟨_, std ["a", "c"]⟩ (["a", "c"], (stdItem ["a", "c"]).2) := (std_den (by decide)).1
    exact (C71_multiply exN_full hd rfl).2.2 (by simp [std, exN]) (by simp [std, exN])

/-- Both kinds of factors can be divided out again. -/
example (hs : HashSeed) : (∃ g' r g'' s, multiply (exN (some ⟨_, std ["a", "b"]⟩) [("b", 2)]) ⟨_, std ["c"]⟩ = .ok (g', r) ∧
      divide hs r g' = .ok (g'', s) ∧ IsNLG s (stdItem ["c"]).2 (stdItem ["a", "b"]).2) ∧
    ∃ g' r g'' s, multiply (exN (some ⟨_, std ["a", "b"]⟩) [("b", 2)]) ⟨_, std ["a"]⟩ = .ok (g', r) ∧
      divide hs r g' = .ok (g'', s) ∧ IsNLG s (stdItem ["c"]).2 (stdItem ["a", "b"]).2 := by
  constructor
  · obtain ⟨g', r, g'', s, h1, h2, -, h3⟩ := C71_undo_conditional hs exN_full stdC_den rfl (by simp [std, exN])
      (.inr ⟨by simp [exN], PosDef.one, exNT_total, _, exN_proper⟩)
    exact ⟨g', r, g'', s, h1, h2, h3⟩
  · obtain ⟨g', r, g'', s, h1, h2, -, h3⟩ := C71_undo_conditioning_partial hs exN_full stdA_den rfl (by simp [std, exN])
      (by simp [std, exN]) (by simp [exN]) PosDef.one exNT_total exN_proper (by simp [std])
    exact ⟨g', r, g'', s, h1, h2, h3⟩

/-- Dividing by a part that is not there, and dividing out the whole conditioning factor. -/
example (hs : HashSeed) : divide hs (exN none []) ⟨_, std ["a"]⟩ = .error .notImplementedError ∧
    ∃ g' r, multiply (exN none []) ⟨_, std ["a", "b"]⟩ = .ok (g', r) ∧ divide hs r g' = .error .exception := by
  have h : IsNLG (exN none []) (stdItem ["c"]).2 fun _ => 0 := exN_isNLG (cond := none) (fun _ => rfl) (by simp [Dict.keys])
  have hd : Den ⟨_, std ["a", "b"]⟩ (["a", "b"], (stdItem ["a", "b"]).2) := (std_den (by decide)).1
  exact ⟨(C71_divide hs h stdA_den rfl).2.2.2 (by simp [std, exN]) (by simp [std, exN]) rfl,
    C71_undo_raises hs h hd rfl (fun v => Iff.rfl) (by simp [exN]) rfl rfl⟩

/-- The joint after multiplying with a factor over `c`. -/
example (hs : HashSeed) : ∃ j L g' r j', jointDistribution hs (exN (some ⟨_, std ["a", "b"]⟩) [("b", 2)]) = .ok j ∧
    Denotes j.2 L ∧ multiply (exN (some ⟨_, std ["a", "b"]⟩) [("b", 2)]) ⟨_, std ["c"]⟩ = .ok (g', r) ∧
    jointDistribution hs r = .ok j' ∧ Denotes j'.2 fun x => L x + (stdItem ["c"]).2 (override [("b", 2)] x) :=
  C71_joint hs exN_full (by simp [exN]) PosDef.one exNT_computes exN_proper stdC_den rfl (by simp [std, exN])

/-- A vacuous factor over a variable the non-linear Gaussian does not have. -/
example : ∃ r, multiply (exN (some ⟨_, std ["a", "b"]⟩) [("b", 2)]) ⟨1, ⟨["z"], some ⟨0, 0, 7⟩, none, true⟩⟩ =
    .ok (⟨1, ⟨["z"], some ⟨0, 0, 7⟩, none, true⟩⟩, r) ∧ IsNLG r (stdItem ["c"]).2 (stdItem ["a", "b"]).2 := by
  obtain ⟨r, h1, -, -, h2⟩ := C71_vacuous HashSeed.example exN_full
    (g := ⟨1, ⟨["z"], some ⟨0, 0, 7⟩, none, true⟩⟩) rfl
  exact ⟨r, h1, h2⟩

end Verif.NLG
