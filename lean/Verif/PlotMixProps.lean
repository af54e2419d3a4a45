import Verif.PlotGaussProps
import Verif.MixProps3

/-!
# C121: plots of Gaussian mixtures
-/

namespace Verif.Plot
open MeasureTheory Matrix Spec Gauss Mix Sampling

/-! ### Helpers -/

theorem hull_ok {l : List (ℝ × ℝ)} (h : l ≠ []) : ∃ lim, hull l = .ok lim ∧ ∀ p ∈ l, lim.1 ≤ p.1 ∧ p.2 ≤ lim.2 := by
  cases l with
  | nil => exact absurd rfl h
  | cons p t =>
    refine ⟨_, rfl, ?_⟩
    have hmin : ∀ (t : List (ℝ × ℝ)) (m : ℝ), t.foldl (fun m q => min m q.1) m ≤ m ∧
        ∀ q ∈ t, t.foldl (fun m q => min m q.1) m ≤ q.1 := by
      intro t
      induction t with
      | nil => intro m; simp
      | cons q t ih =>
        intro m
        obtain ⟨h1, h2⟩ := ih (min m q.1)
        rw [List.foldl_cons]
        refine ⟨h1.trans (min_le_left _ _), fun r hr => ?_⟩
        rcases List.mem_cons.1 hr with rfl | hr
        · exact h1.trans (min_le_right _ _)
        · exact h2 r hr
    have hmax : ∀ (t : List (ℝ × ℝ)) (m : ℝ), m ≤ t.foldl (fun m q => max m q.2) m ∧
        ∀ q ∈ t, q.2 ≤ t.foldl (fun m q => max m q.2) m := by
      intro t
      induction t with
      | nil => intro m; simp
      | cons q t ih =>
        intro m
        obtain ⟨h1, h2⟩ := ih (max m q.2)
        rw [List.foldl_cons]
        refine ⟨(le_max_left _ _).trans h1, fun r hr => ?_⟩
        rcases List.mem_cons.1 hr with rfl | hr
        · exact (le_max_right _ _).trans h1
        · exact h2 r hr
    intro q hq
    rcases List.mem_cons.1 hq with rfl | hq
    · exact ⟨(hmin t q.1).1, (hmax t q.2).1⟩
    · exact ⟨(hmin t p.1).2 q hq, (hmax t p.2).2 q hq⟩

/-- Reading the parameters of all components. -/
theorem read_all {vars : List Var} {cs : List AnyG} {Ls : List ((Var → ℝ) → ℝ)} {vs : List (CovF vars.length)}
    (hc : List.Forall₂ (Comp vars) cs Ls) (h : List.Forall₂ (Ready vars) cs vs) :
    ∃ gs : List (Gauss vars.length × CovF vars.length),
      cs.mapM Mix.readG = .ok (gs.map fun p => ⟨vars.length, p.1, p.2⟩) ∧ gs.map Prod.snd = vs ∧
      List.Forall₂ (Comp vars) (gs.map fun p => (⟨vars.length, p.1⟩ : AnyG)) Ls := by
  induction h generalizing Ls with
  | nil => cases hc; exact ⟨[], rfl, rfl, .nil⟩
  | cons h1 h2 ih =>
    cases hc with
    | cons c1 c2 =>
    obtain ⟨gs, e1, e2, e3⟩ := ih c2
    obtain ⟨g, g', rfl, k1, k2, k3, k4, k5, k6, -⟩ := h1
    rename_i v _ _ _ _
    refine ⟨(g', v) :: gs, ?_, by simp [e2], .cons ⟨k5, k6 _ c1.den, k4⟩ e3⟩
    rw [List.mapM_cons, e1]
    unfold Mix.readG
    dsimp only
    rw [k1]
    rfl

theorem all_ready {M : Mix} {Ls : List ((Var → ℝ) → ℝ)} (hM : IsMix M Ls)
    (hp : ∀ c ∈ M.comps, (∃ a0 k, c.2.getCan = .ok (a0, k) ∧ k.prec.PosDef) ∧ c.2.isVacuous = false) :
    ∃ vs, List.Forall₂ (Ready M.vars) M.comps vs ∧ vs ≠ [] ∧ ∀ v ∈ vs, v.cov.PosDef := by
  obtain ⟨vs, hvs⟩ : ∃ vs, List.Forall₂ (Ready M.vars) M.comps vs := by
    refine forall₂_exists fun c hc => ?_
    obtain ⟨L, hL⟩ : ∃ L, Comp M.vars c L := by
      obtain ⟨i, hi, rfl⟩ := List.mem_iff_getElem.1 hc
      exact ⟨_, hM.comps.get hi (hM.comps.length_eq ▸ hi)⟩
    exact comp_ready hL (hp c hc).1 (hp c hc).2
  refine ⟨vs, hvs, ?_, ?_⟩
  · intro h
    rw [h] at hvs
    exact hM.ne (List.forall₂_nil_right_iff.1 hvs)
  · intro v hv
    obtain ⟨i, hi, rfl⟩ := List.mem_iff_getElem.1 hv
    obtain ⟨g, g', -, -, -, h, -⟩ := hvs.get (hvs.length_eq ▸ hi) hi
    exact h

theorem foldl_zipWith (xs : List ℝ) (Fs : List (ℝ → ℝ)) (G : ℝ → ℝ) :
    (Fs.map fun F => xs.map F).foldl (fun t p => List.zipWith (· + ·) t p) (xs.map G) =
      xs.map fun x => G x + (Fs.map fun F => F x).sum := by
  induction Fs generalizing G with
  | nil => simp
  | cons F Fs ih =>
    rw [List.map_cons, List.foldl_cons]
    have : List.zipWith (· + ·) (xs.map G) (xs.map F) = xs.map fun x => G x + F x := by
      rw [List.zipWith_map, List.zipWith_self]
    rw [this, ih]
    refine List.map_congr_left fun x _ => ?_
    rw [List.map_cons, List.sum_cons, add_assoc]

/-- The height of the curve of a component. -/
noncomputable def height (log : Bool) (L : (Var → ℝ) → ℝ) (t : ℝ) : ℝ :=
  if log then L fun _ => t else Real.exp (L fun _ => t)

theorem comps_series {vars : List Var} {cs : List AnyG} {Ls : List ((Var → ℝ) → ℝ)} {v : Var} (hv : vars = [v])
    (hc : List.Forall₂ (Comp vars) cs Ls) (log : Bool) (xs : List ℝ) :
    (cs.mapM fun c => series (gaussFn c.2 log) xs) = .ok (Ls.map fun L => xs.map (height log L)) := by
  induction hc with
  | nil => rfl
  | cons h1 _ ih =>
    rw [List.mapM_cons, ih, series_ok fun t => fn_one h1.den (h1.vars.trans hv) log t]
    rfl

/-- What `plot` draws for a mixture over one variable: the sum of the heights of the components, over the limits `lim`. -/
theorem mixPlot_one {M M' : Mix} {Ls : List ((Var → ℝ) → ℝ)} (hM' : IsMix M' Ls) (hl : M.vars.length = 1)
    (hv : M'.vars = M.vars) (log parts : Bool) (xlim ylim : Option (ℝ × ℝ)) (lim : ℝ × ℝ)
    (h : mixXlim M xlim = .ok (M', lim)) :
    ∃ l pts, mixPlot M log xlim ylim parts = .ok (M', .curves (l ++ [pts])) ∧
      Line (fun t => (Ls.map fun L => height log L t).sum) lim.1 lim.2 pts ∧
      (parts = false → l = []) ∧
      (parts = true → List.Forall₂ (fun L p => Line (height log L) lim.1 lim.2 p) Ls l) := by
  obtain ⟨v, ev⟩ := List.length_eq_one_iff.1 hl
  refine ⟨if parts then Ls.map fun L => (linspace lim.1 lim.2 200).zip ((linspace lim.1 lim.2 200).map (height log L)) else [],
    (linspace lim.1 lim.2 200).zip ((linspace lim.1 lim.2 200).map fun t => (Ls.map fun L => height log L t).sum),
    ?_, line_graph _ _ _, fun h => by rw [h]; rfl, fun h => ?_⟩
  · unfold mixPlot
    rw [if_pos hl]
    dsimp only
    rw [h]
    dsimp only [bind, Except.bind]
    rw [comps_series (hv.trans ev) hM'.comps]
    dsimp only
    have e0 : (List.replicate 200 0 : List ℝ) = (linspace lim.1 lim.2 200).map fun _ => 0 := by
      rw [List.map_const', linspace_length]
    have e1 : (Ls.map fun L => (linspace lim.1 lim.2 200).map (height log L)) =
        (Ls.map fun L => height log L).map fun F => (linspace lim.1 lim.2 200).map F := by
      rw [List.map_map]; rfl
    rw [e0]
    conv_lhs => rw [e1]
    rw [foldl_zipWith]
    have e2 : ((linspace lim.1 lim.2 200).map fun x => 0 + ((Ls.map fun L => height log L).map fun F => F x).sum) =
        (linspace lim.1 lim.2 200).map fun t => (Ls.map fun L => height log L t).sum := by
      refine List.map_congr_left fun x _ => ?_
      rw [zero_add, List.map_map]
      rfl
    rw [e2, List.map_map, List.map_map]
    rfl
  · rw [if_pos h, List.forall₂_map_right_iff, List.forall₂_same]
    exact fun L _ => line_graph _ _ _

theorem mixFn_one {M : Mix} {Ls : List ((Var → ℝ) → ℝ)} (hM : IsMix M Ls) (hl : M.vars.length = 1) (t : ℝ) :
    M.potential [t] = .ok (mixFn Ls fun _ => t) ∧ M.logPotential [t] = .ok (Real.log (mixFn Ls fun _ => t)) := by
  obtain ⟨v, ev⟩ := List.length_eq_one_iff.1 hl
  have := hM.pot fun _ => t
  rw [ev] at this
  exact ⟨this.1, this.2.1⟩

/-- The computed limits. -/
theorem mixLim_ok {M : Mix} {Ls : List ((Var → ℝ) → ℝ)} (hM : IsMix M Ls) (hl : M.vars.length = 1)
    (hp : ∀ c ∈ M.comps, (∃ a0 k, c.2.getCan = .ok (a0, k) ∧ k.prec.PosDef) ∧ c.2.isVacuous = false) :
    ∃ M' lim, mixLim M = .ok (M', lim) ∧ IsMix M' Ls ∧ M'.vars = M.vars ∧
      ShowsLine (fun t => mixFn Ls fun _ => t) lim.1 lim.2 := by
  obtain ⟨vs, hvs, hne, hpos⟩ := all_ready hM hp
  obtain ⟨gs, e1, e2, e3⟩ := read_all hM.comps hvs
  have hmix := fun t => mixPotential hvs fun _ => t
  have hone := fun t => (mixFn_one hM hl t).1
  obtain ⟨vars, comps, cm⟩ := M
  obtain ⟨v, ev⟩ := List.length_eq_one_iff.1 hl
  dsimp only at ev
  subst ev
  dsimp only at vs hvs hpos gs e1 e2 e3 hmix
  change List (CovF 1) at vs
  change List (Gauss 1 × CovF 1) at gs
  have hgpos : ∀ p ∈ gs, p.2.cov.PosDef := fun p hp => hpos p.2 (by rw [← e2]; exact List.mem_map_of_mem hp)
  have hgne : gs ≠ [] := by rintro rfl; exact hne e2.symm
  have hs : (gs.map fun p => (⟨1, p.1, p.2⟩ : Σ k, Gauss k × CovF k)).mapM (side 0) =
      .ok (gs.map fun p => (p.2.mean 0 - 3 * √(p.2.cov 0 0), p.2.mean 0 + 3 * √(p.2.cov 0 0))) := by
    rw [List.mapM_map]
    exact mapM_ok fun p hp => side_ok (hgpos p hp) 0
  obtain ⟨lim, hlim, hb⟩ := hull_ok (l := gs.map fun p => (p.2.mean 0 - 3 * √(p.2.cov 0 0), p.2.mean 0 + 3 * √(p.2.cov 0 0)))
    (by simpa using hgne)
  refine ⟨⟨[v], gs.map fun p => ⟨1, p.1⟩, cm⟩, lim, ?_, ⟨by simpa using hgne, e3⟩, rfl, ?_⟩
  · unfold mixLim
    dsimp only
    rw [e1]
    dsimp only [bind, Except.bind]
    have hs' : List.mapM (side 0) (gs.map fun p => (⟨[v].length, p.1, p.2⟩ : Σ k, Gauss k × CovF k)) = _ := hs
    erw [hs']
    dsimp only
    rw [hlim]
    dsimp only
    erw [List.map_map]
    rfl
  · obtain ⟨k1, k2⟩ := mix_mass (d := 1) (fun _ => lim.1) (fun _ => lim.2) vs fun u hu => by
      refine ⟨hpos u hu, fun i => ?_⟩
      obtain rfl : i = 0 := Subsingleton.elim _ _
      rw [← e2] at hu
      obtain ⟨p, hp, rfl⟩ := List.mem_map.1 hu
      exact hb _ (List.mem_map_of_mem hp)
    obtain ⟨l1, l2, l3⟩ := line_mass k1 lim.1 lim.2
    have e : (fun t : ℝ => mixFn Ls fun _ => t) = fun t => mixDensity vs fun _ => t := by
      funext t
      exact Except.ok.inj ((hone t).symm.trans (hmix t))
    rw [e]
    refine ⟨l1, ?_⟩
    rw [l2, l3]
    norm_num at k2
    exact k2

/-- **C121 (mixtures over one variable).** `plot` draws a curve through 200 equally spaced points of the graph of the
potential of the mixture, over the limits given; without limits, for normalisable components, at least 8/9 of the mass lie
within the limits. If asked for, the curves of the components are drawn as well. The mixture keeps its function. -/
theorem C121_mixture_line_partial {M : Mix} {Ls : List ((Var → ℝ) → ℝ)} (hM : IsMix M Ls) (hl : M.vars.length = 1)
    (parts : Bool) (xlim ylim : Option (ℝ × ℝ))
    (hp : xlim = none → ∀ c ∈ M.comps, (∃ a0 k, c.2.getCan = .ok (a0, k) ∧ k.prec.PosDef) ∧ c.2.isVacuous = false) :
    ∃ F : ℝ → ℝ, (∀ t, M.potential [t] = .ok (F t) ∧ 0 < F t) ∧
      ∃ M' lo hi l pts, mixPlot M false xlim ylim parts = .ok (M', .curves (l ++ [pts])) ∧ Line F lo hi pts ∧
        (parts = false → l = []) ∧
        (parts = true → List.Forall₂ (fun (c : AnyG) p => ∃ G : ℝ → ℝ, (∀ t, c.2.potential [t] = .ok (G t)) ∧ Line G lo hi p)
          M.comps l) ∧
        (∀ lim, xlim = some lim → lim = (lo, hi)) ∧ (xlim = none → ShowsLine F lo hi) ∧
        IsMix M' Ls ∧ M'.vars = M.vars := by
  refine ⟨fun t => mixFn Ls fun _ => t, fun t => ⟨(mixFn_one hM hl t).1, mixFn_pos hM.ls_ne _⟩, ?_⟩
  obtain ⟨v, ev⟩ := List.length_eq_one_iff.1 hl
  have hparts : ∀ {lim : ℝ × ℝ} {l : List (List (ℝ × ℝ))},
      List.Forall₂ (fun L p => Line (height false L) lim.1 lim.2 p) Ls l →
      List.Forall₂ (fun (c : AnyG) p => ∃ G : ℝ → ℝ, (∀ t, c.2.potential [t] = .ok (G t)) ∧ Line G lim.1 lim.2 p)
        M.comps l := by
    intro lim l h
    have hc := hM.comps
    clear hM
    generalize M.comps = cs at hc
    induction hc generalizing l with
    | nil => cases h; exact .nil
    | cons h1 h2 ih =>
      cases h with
      | cons k1 k2 =>
      exact .cons ⟨_, fun t => fn_one h1.den (h1.vars.trans ev) false t, k1⟩ (ih k2)
  cases xlim with
  | some lim =>
    obtain ⟨l, pts, h1, h2, h3, h4⟩ := mixPlot_one (M := M) hM hl rfl false parts (some lim) ylim lim rfl
    exact ⟨M, lim.1, lim.2, l, pts, h1, h2, h3, fun h => hparts (h4 h), fun l h => (by cases h; rfl),
      fun h => (by cases h), hM, rfl⟩
  | none =>
    obtain ⟨M', lim, e1, e2, e3, e4⟩ := mixLim_ok hM hl (hp rfl)
    obtain ⟨l, pts, h1, h2, h3, h4⟩ := mixPlot_one (M := M) e2 hl e3 false parts none ylim lim e1
    exact ⟨M', lim.1, lim.2, l, pts, h1, h2, h3, fun h => hparts (h4 h), fun l h => (by cases h), fun _ => e4, e2, e3⟩

/-- **C121 violated.** With `log=True` the curve of a mixture over one variable is the sum of the log potentials of the
components, whatever limits are given. -/
theorem C121_mixture_log {M : Mix} {Ls : List ((Var → ℝ) → ℝ)} (hM : IsMix M Ls) (hl : M.vars.length = 1)
    (lim : ℝ × ℝ) (ylim : Option (ℝ × ℝ)) :
    ∃ pts, mixPlot M true (some lim) ylim = .ok (M, .curves [pts]) ∧
      Line (fun t => (Ls.map fun L => L fun _ => t).sum) lim.1 lim.2 pts := by
  obtain ⟨l, pts, h1, h2, h3, -⟩ := mixPlot_one (M := M) hM hl rfl true false (some lim) ylim lim rfl
  obtain rfl := h3 rfl
  exact ⟨pts, h1, h2⟩

/-- The function `exp(-x²/2)`. -/
noncomputable def bump : Gauss 1 := ⟨["x"], some ⟨1, 0, 0⟩, none, vacParams (1 : Matrix (Fin 1) (Fin 1) ℝ)⟩

theorem bump_mk : mkCan ["x"] ⟨1, 0, 0⟩ = .ok bump := mkCan_ok (by decide) rfl

theorem bump_good : Good bump := good_mkCan (by decide) rfl _ isSymm_one

theorem bump_comp : Comp ["x"] ⟨1, bump⟩ (logOf bump bump_good.len) :=
  ⟨.ofCan isSymm_one bump_mk, bump_good.denotes, rfl⟩

theorem bump_zero : logOf bump bump_good.len (fun _ => 0) = 0 := by
  have e : vecAt bump.vars bump_good.len (fun _ => 0) = 0 := rfl
  unfold logOf evalCan
  rw [e]
  simp [canOf, bump]

/-- **C121 violated.** For two equal components the curve drawn with `log=True` does not show the log potential. -/
theorem C121_mixture_log_violated : ∃ (M : Mix) (Ls : List ((Var → ℝ) → ℝ)), IsMix M Ls ∧ M.vars = ["x"] ∧
    ∃ (F : ℝ → ℝ) (pts : List (ℝ × ℝ)), (∀ t, M.logPotential [t] = .ok (F t)) ∧
      mixPlot M true (some (0, 1)) none = .ok (M, .curves [pts]) ∧ ¬ Line F 0 1 pts := by
  have hM : IsMix ⟨["x"], [⟨1, bump⟩, ⟨1, bump⟩], 0⟩ [logOf bump bump_good.len, logOf bump bump_good.len] :=
    ⟨by simp, .cons bump_comp (.cons bump_comp .nil)⟩
  obtain ⟨pts, h1, h2⟩ := C121_mixture_log hM rfl (0, 1) none
  refine ⟨_, _, hM, rfl, _, pts, fun t => (mixFn_one hM rfl t).2, h1, fun h => ?_⟩
  obtain ⟨x, k1, k2⟩ := h2.2 0 (by norm_num)
  obtain ⟨y, k3, k4⟩ := h.2 0 (by norm_num)
  rw [k1] at k3
  injection k3 with k3
  injection k3 with k5 k6
  have hx : x = 0 := by
    norm_num at k2
    exact k2
  subst hx
  subst k5
  simp only [mixFn, List.map_cons, List.map_nil, List.sum_cons, List.sum_nil, add_zero, bump_zero, Real.exp_zero] at k6
  have := Real.log_pos (show (1 : ℝ) < 1 + 1 by norm_num)
  linarith

/-! ### Two variables -/

theorem mixFn_two {M : Mix} {Ls : List ((Var → ℝ) → ℝ)} (hM : IsMix M Ls) {v w : Var} (hv : M.vars = [v, w])
    (hvw : v ≠ w) (x y : ℝ) : M.potential [x, y] = .ok (mixFn Ls (pt v x y)) ∧
      M.logPotential [x, y] = .ok (Real.log (mixFn Ls (pt v x y))) := by
  have := hM.pot (pt v x y)
  have e : M.vars.map (pt v x y) = [x, y] := by
    rw [hv]
    simp [pt, hvw.symm]
  rw [e] at this
  exact ⟨this.1, this.2.1⟩

/-- The computed limits. -/
theorem mixLim2d_ok {M : Mix} {Ls : List ((Var → ℝ) → ℝ)} (hM : IsMix M Ls) {v w : Var} (hv : M.vars = [v, w])
    (hvw : v ≠ w)
    (hp : ∀ c ∈ M.comps, (∃ a0 k, c.2.getCan = .ok (a0, k) ∧ k.prec.PosDef) ∧ c.2.isVacuous = false) :
    ∃ M' xl yl, mixLim2d M = .ok (M', xl, yl) ∧ IsMix M' Ls ∧ M'.vars = M.vars ∧
      ShowsBox (fun x y => mixFn Ls (pt v x y)) xl yl := by
  obtain ⟨vs, hvs, hne, hpos⟩ := all_ready hM hp
  obtain ⟨gs, e1, e2, e3⟩ := read_all hM.comps hvs
  have hmix := fun x => mixPotential hvs x
  have htwo := fun x y => (mixFn_two hM hv hvw x y).1
  obtain ⟨vars, comps, cm⟩ := M
  dsimp only at hv
  subst hv
  dsimp only at vs hvs hpos gs e1 e2 e3 hmix
  change List (CovF 2) at vs
  change List (Gauss 2 × CovF 2) at gs
  have hgpos : ∀ p ∈ gs, p.2.cov.PosDef := fun p hp => hpos p.2 (by rw [← e2]; exact List.mem_map_of_mem hp)
  have hgne : gs ≠ [] := by rintro rfl; exact hne e2.symm
  have hs : ∀ i : Fin 2, (gs.map fun p => (⟨2, p.1, p.2⟩ : Σ k, Gauss k × CovF k)).mapM (side i) =
      .ok (gs.map fun p => (p.2.mean i - 3 * √(p.2.cov i i), p.2.mean i + 3 * √(p.2.cov i i))) := by
    intro i
    rw [List.mapM_map]
    exact mapM_ok fun p hp => side_ok (hgpos p hp) i
  have hb : ∀ i : Fin 2, ∃ lim, hull (gs.map fun p => (p.2.mean i - 3 * √(p.2.cov i i), p.2.mean i + 3 * √(p.2.cov i i))) =
      .ok lim ∧ ∀ p ∈ gs, lim.1 ≤ p.2.mean i - 3 * √(p.2.cov i i) ∧ p.2.mean i + 3 * √(p.2.cov i i) ≤ lim.2 := by
    intro i
    obtain ⟨lim, h1, h2⟩ := hull_ok (l := gs.map fun p => (p.2.mean i - 3 * √(p.2.cov i i), p.2.mean i + 3 * √(p.2.cov i i)))
      (by simpa using hgne)
    exact ⟨lim, h1, fun p hp => h2 _ (List.mem_map_of_mem hp)⟩
  obtain ⟨xl, hx1, hx2⟩ := hb 0
  obtain ⟨yl, hy1, hy2⟩ := hb 1
  refine ⟨⟨[v, w], gs.map fun p => ⟨2, p.1⟩, cm⟩, xl, yl, ?_, ⟨by simpa using hgne, e3⟩, rfl, ?_⟩
  · unfold mixLim2d
    dsimp only
    rw [e1]
    dsimp only [bind, Except.bind]
    have hs0 : List.mapM (side 0) (gs.map fun p => (⟨[v, w].length, p.1, p.2⟩ : Σ k, Gauss k × CovF k)) = _ := hs 0
    have hs1 : List.mapM (side 1) (gs.map fun p => (⟨[v, w].length, p.1, p.2⟩ : Σ k, Gauss k × CovF k)) = _ := hs 1
    erw [hs0]
    dsimp only
    erw [hs1]
    dsimp only
    rw [hx1]
    dsimp only
    rw [hy1]
    dsimp only
    erw [List.map_map]
    rfl
  · refine box_shows (vs := vs) (fun z => ?_) fun u hu => ?_
    · have h1 := htwo (z 0) (z 1)
      have h2 := hmix (pt v (z 0) (z 1))
      have e : ([v, w] : List Var).map (pt v (z 0) (z 1)) = [z 0, z 1] := by simp [pt, hvw.symm]
      rw [e] at h2
      rw [Except.ok.inj (h1.symm.trans h2)]
      unfold mixDensity
      refine congrArg List.sum (List.map_congr_left fun u _ => ?_)
      congr 2
      funext i
      fin_cases i
      · simp [pt]
      · simp [pt, hvw.symm]
    · have h0 := hpos u hu
      rw [← e2] at hu
      obtain ⟨p, hp, rfl⟩ := List.mem_map.1 hu
      exact ⟨h0, hx2 p hp, hy2 p hp⟩

/-- **C121 (mixtures over two variables).** `plot` draws a grid of 100 times 100 points of the graph of the (log)
potential of the mixture, with the first variable on the horizontal axis, over the limits given if both are given; without
limits, for normalisable components, the rectangle contains at least 7/9 of the mass. The mixture keeps its function. -/
theorem C121_mixture_surface_partial {M : Mix} {Ls : List ((Var → ℝ) → ℝ)} (hM : IsMix M Ls) (hl : M.vars.length = 2)
    (log parts : Bool) (xlim ylim : Option (ℝ × ℝ))
    (hlim : xlim = none ∨ ylim = none →
      ∀ c ∈ M.comps, (∃ a0 k, c.2.getCan = .ok (a0, k) ∧ k.prec.PosDef) ∧ c.2.isVacuous = false) :
    ∃ F : ℝ → ℝ → ℝ, (∀ x y, M.potential [x, y] = .ok (F x y) ∧ 0 < F x y) ∧
      ∃ M' v w xl yl mesh, M.vars = [v, w] ∧ mixPlot M log xlim ylim parts = .ok (M', .surface v w mesh) ∧
        Grid (fun x y => if log then Real.log (F x y) else F x y) xl yl mesh ∧
        (∀ a b, xlim = some a → ylim = some b → a = xl ∧ b = yl) ∧
        (xlim = none ∨ ylim = none → ShowsBox F xl yl) ∧ IsMix M' Ls ∧ M'.vars = M.vars := by
  obtain ⟨v, w, hv, hvw⟩ := two hl hM.nodup
  refine ⟨fun x y => mixFn Ls (pt v x y), fun x y => ⟨(mixFn_two hM hv hvw x y).1, mixFn_pos hM.ls_ne _⟩, ?_⟩
  obtain ⟨M', xl, yl, h1, h2, h3, h4, h5⟩ : ∃ M' xl yl, mixLims M xlim ylim = .ok (M', xl, yl) ∧ IsMix M' Ls ∧
      M'.vars = M.vars ∧ (∀ a b, xlim = some a → ylim = some b → a = xl ∧ b = yl) ∧
      (xlim = none ∨ ylim = none → ShowsBox (fun x y => mixFn Ls (pt v x y)) xl yl) := by
    cases xlim with
    | none =>
      obtain ⟨M', xl, yl, h1, h2, h3, h4⟩ := mixLim2d_ok hM hv hvw (hlim (.inl rfl))
      exact ⟨M', xl, yl, h1, h2, h3, fun a b h => (by cases h), fun _ => h4⟩
    | some xl =>
      cases ylim with
      | none =>
        obtain ⟨M', xl, yl, h1, h2, h3, h4⟩ := mixLim2d_ok hM hv hvw (hlim (.inr rfl))
        exact ⟨M', xl, yl, h1, h2, h3, fun a b _ h => (by cases h), fun _ => h4⟩
      | some yl => exact ⟨M, xl, yl, rfl, hM, rfl, fun a b h1 h2 => (by cases h1; cases h2; exact ⟨rfl, rfl⟩),
          fun h => (by rcases h with h | h <;> cases h)⟩
  have hf : ∀ x y, (if log then M'.logPotential [x, y] else M'.potential [x, y]) =
      .ok (if log then Real.log (mixFn Ls (pt v x y)) else mixFn Ls (pt v x y)) := by
    intro x y
    obtain ⟨k1, k2⟩ := mixFn_two h2 (h3.trans hv) hvw x y
    cases log
    · exact k1
    · exact k2
  obtain ⟨mesh, m1, m2⟩ := plot2d_ok (func := fun x => if log then M'.logPotential x else M'.potential x) hf xl yl v w
  refine ⟨M', v, w, xl, yl, mesh, hv, ?_, m2, h4, h5, h2, h3⟩
  unfold mixPlot
  rw [if_neg (by omega), if_pos hl]
  unfold mixPlot2d
  rw [h1]
  dsimp only [bind, Except.bind]
  rw [h3, hv]
  dsimp only [nameAt, List.getElem?_cons_zero, List.getElem?_cons_succ]
  rw [m1]

/-- **C121 violated.** If only one of the limits of a mixture over two variables is given, it is ignored. -/
theorem C121_one_limit_ignored (M : Mix) (hl : M.vars.length = 2) (log parts : Bool) (lim : ℝ × ℝ) :
    mixPlot M log (some lim) none parts = mixPlot M log none none parts ∧
    mixPlot M log none (some lim) parts = mixPlot M log none none parts := by
  have h1 : ¬ M.vars.length = 1 := by omega
  unfold mixPlot
  simp only [if_neg h1]
  exact ⟨rfl, rfl⟩

/-- **C121.** Factors over more than two variables (or none) are not plotted. -/
theorem C121_other_dimensions (log parts : Bool) (xlim ylim : Option (ℝ × ℝ)) :
    (∀ {n : ℕ} (a : Gauss n), n ≠ 1 → n ≠ 2 → gaussPlot a log xlim ylim = .error .notImplementedError) ∧
    ∀ M : Mix, M.vars.length ≠ 1 → M.vars.length ≠ 2 → mixPlot M log xlim ylim parts = .error .notImplementedError := by
  constructor
  · intro n a h1 h2
    unfold gaussPlot
    rw [if_neg h1, if_neg h2]
  · intro M h1 h2
    unfold mixPlot
    rw [if_neg h1, if_neg h2]

/-! ### The hypotheses can be met -/

example : ∃ a' lo hi pts, gaussPlot (stdNormal 3) true none none = .ok (a', .curves [pts]) ∧
    ShowsLine (fun t => Real.exp (logOf (stdNormal 3) (stdNormal_good 3).len fun _ => t)) lo hi := by
  obtain ⟨F, h0, a', lo, hi, pts, h1, h2, h3, h4, -⟩ := C121_gaussian_line (stdNormal_comp 3).made (stdNormal_comp 3).den true
    none none fun _ => ⟨⟨_, _, getCan_valid (stdNormal_good 3).toValid, PosDef.one.inv⟩, rfl⟩
  have e : F = fun t => Real.exp (logOf (stdNormal 3) (stdNormal_good 3).len fun _ => t) := by
    funext t
    exact Except.ok.inj ((h0 t).1.symm.trans (((stdNormal_good 3).denotes fun _ => t).2.1))
  exact ⟨a', lo, hi, pts, h1, e ▸ h4 rfl⟩

example : ∃ mesh, gaussPlot exA false none (some (0, 1)) = .ok (exA, .surface "a" "b" mesh) := by
  obtain ⟨F, h0, v, w, xl, yl, mesh, hv, h1, -⟩ := C121_gaussian_surface_partial exA_made exA_good.denotes false none
    (some (0, 1)) ⟨_, _, getCan_valid exA_good.toValid, exS_posDef.inv⟩
  have e : ["a", "b"] = [v, w] := hv
  injection e with e1 e2
  injection e2 with e2
  subst e1 e2
  exact ⟨mesh, h1⟩

example : IsMix ⟨["x"], [⟨1, stdNormal 0⟩, ⟨1, stdNormal 4⟩], 0⟩
      [logOf (stdNormal 0) (stdNormal_good 0).len, logOf (stdNormal 4) (stdNormal_good 4).len] ∧
    ∀ c ∈ ([⟨1, stdNormal 0⟩, ⟨1, stdNormal 4⟩] : List AnyG),
      (∃ a0 k, c.2.getCan = .ok (a0, k) ∧ k.prec.PosDef) ∧ c.2.isVacuous = false := by
  refine ⟨⟨by simp, .cons (stdNormal_comp 0).toComp (.cons (stdNormal_comp 4).toComp .nil)⟩, ?_⟩
  intro c hc
  rcases List.mem_cons.1 hc with rfl | hc
  · exact ⟨⟨_, _, getCan_valid (stdNormal_good 0).toValid, PosDef.one.inv⟩, rfl⟩
  · obtain rfl := List.mem_singleton.1 hc
    exact ⟨⟨_, _, getCan_valid (stdNormal_good 4).toValid, PosDef.one.inv⟩, rfl⟩

end Verif.Plot
