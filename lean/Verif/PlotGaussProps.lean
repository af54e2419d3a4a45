import Verif.PlotGaussModel
import Verif.PlotMass

/-!
# C121: plots of Gaussians
-/

namespace Verif.Plot
open MeasureTheory Matrix Spec Gauss Mix Sampling

/-! ### What a plot shall show -/

/-- A curve through 200 equally spaced points of the graph of `F` from `lo` to `hi`. -/
def Line (F : ℝ → ℝ) (lo hi : ℝ) (pts : List (ℝ × ℝ)) : Prop :=
  pts.length = 200 ∧ ∀ k : ℕ, k < 200 → ∃ x, pts[k]? = some (x, F x) ∧ 199 * x = (199 - (k : ℝ)) * lo + k * hi

/-- A grid of 100 times 100 points of the graph of `F` over the rectangle with the sides `xl` and `yl`. -/
def Grid (F : ℝ → ℝ → ℝ) (xl yl : ℝ × ℝ) (mesh : List (ℝ × ℝ × ℝ)) : Prop :=
  mesh.length = 10000 ∧ ∀ i j : ℕ, i < 100 → j < 100 → ∃ x y, mesh[100 * j + i]? = some (x, y, F x y) ∧
    99 * x = (99 - (i : ℝ)) * xl.1 + i * xl.2 ∧ 99 * y = (99 - (j : ℝ)) * yl.1 + j * yl.2

/-- The curve of `F` contains most of its mass. -/
def ShowsLine (F : ℝ → ℝ) (lo hi : ℝ) : Prop :=
  Integrable F ∧ 8 / 9 * ∫ t, F t ≤ ∫ t in Set.Icc lo hi, F t

/-- The rectangle contains most of the mass of `F`. -/
def ShowsBox (F : ℝ → ℝ → ℝ) (xl yl : ℝ × ℝ) : Prop :=
  Integrable (fun z : Fin 2 → ℝ => F (z 0) (z 1)) ∧
    7 / 9 * ∫ z : Fin 2 → ℝ, F (z 0) (z 1) ≤ ∫ z in Set.Icc ![xl.1, yl.1] ![xl.2, yl.2], F (z 0) (z 1)

/-! ### Helpers -/

theorem linspace_length (lo hi : ℝ) (n : ℕ) : (linspace lo hi n).length = n := by simp [linspace]

theorem linspace_get (lo hi : ℝ) {n k : ℕ} (h : k < n) :
    (linspace lo hi n)[k]? = some (lo + (k : ℝ) * ((hi - lo) / ((n : ℝ) - 1))) := by
  simp [linspace, h]

theorem series_ok {f : List ℝ → Py ℝ} {F : ℝ → ℝ} (h : ∀ t, f [t] = .ok (F t)) (xs : List ℝ) :
    series f xs = .ok (xs.map F) := mapM_ok fun t _ => h t

theorem zip_graph (F : ℝ → ℝ) (xs : List ℝ) : xs.zip (xs.map F) = xs.map fun x => (x, F x) := by
  induction xs with
  | nil => rfl
  | cons x xs ih => simp [ih]

theorem line_graph (F : ℝ → ℝ) (lo hi : ℝ) : Line F lo hi ((linspace lo hi 200).zip ((linspace lo hi 200).map F)) := by
  rw [zip_graph]
  refine ⟨by simp [linspace_length], fun k hk => ?_⟩
  rw [List.getElem?_map, linspace_get lo hi hk]
  refine ⟨_, rfl, ?_⟩
  push_cast
  ring

theorem getElem?_flatMap {α β γ : Type} (f : α → β → γ) (ys : List α) (xs : List β) (i j : ℕ) (hi : i < xs.length)
    (hj : j < ys.length) : (ys.flatMap fun y => xs.map (f y))[xs.length * j + i]? = some (f ys[j] xs[i]) := by
  induction ys generalizing j with
  | nil => simp at hj
  | cons y ys ih =>
    rw [List.flatMap_cons]
    cases j with
    | zero =>
      rw [Nat.mul_zero, Nat.zero_add, List.getElem?_append_left (by simpa using hi)]
      simp [hi]
    | succ j =>
      rw [List.getElem?_append_right (by simp; nlinarith)]
      have : xs.length * (j + 1) + i - (xs.map (f y)).length = xs.length * j + i := by
        rw [List.length_map, Nat.mul_succ]
        omega
      rw [this, ih j (by simpa using hj)]
      rfl

theorem plot2d_ok {func : List ℝ → Py ℝ} {F : ℝ → ℝ → ℝ} (h : ∀ x y, func [x, y] = .ok (F x y)) (xl yl : ℝ × ℝ)
    (a b : Var) : ∃ mesh, plot2d func xl yl a b = .ok (.surface a b mesh) ∧ Grid F xl yl mesh := by
  unfold plot2d
  dsimp only
  rw [mapM_ok (g := fun p : ℝ × ℝ => (p.1, p.2, F p.1 p.2)) fun p _ => by rw [h]; rfl]
  refine ⟨_, rfl, ?_, fun i j hi hj => ?_⟩
  · simp [List.length_flatMap, linspace_length]
  · rw [List.getElem?_map]
    have hi' : i < (linspace xl.1 xl.2 100).length := by rwa [linspace_length]
    have hj' : j < (linspace yl.1 yl.2 100).length := by rwa [linspace_length]
    have := getElem?_flatMap (fun y x => (x, y)) (linspace yl.1 yl.2 100) (linspace xl.1 xl.2 100) i j hi' hj'
    rw [linspace_length] at this
    rw [this]
    refine ⟨_, _, rfl, ?_, ?_⟩
    · have := linspace_get xl.1 xl.2 hi
      rw [List.getElem?_eq_getElem hi'] at this
      rw [Option.some.inj this]
      push_cast
      ring
    · have := linspace_get yl.1 yl.2 hj
      rw [List.getElem?_eq_getElem hj'] at this
      rw [Option.some.inj this]
      push_cast
      ring

theorem side_ok {n : ℕ} {g : Gauss n} {v : CovF n} (hv : v.cov.PosDef) (i : Fin n) :
    side i ⟨n, g, v⟩ = .ok (v.mean i - 3 * √(v.cov i i), v.mean i + 3 * √(v.cov i i)) := by
  unfold side
  dsimp only
  have := hv.diag_pos (i := i)
  rw [dif_pos i.2, if_neg (not_lt.2 this.le)]

theorem single {a : Gauss 1} (hl : a.vars.length = 1) : ∃ v, a.vars = [v] := List.length_eq_one_iff.1 hl

/-- The values of a Gaussian over one variable. -/
theorem fn_one {n : ℕ} {a : Gauss n} {L : (Var → ℝ) → ℝ} (hL : Denotes a L) {v : Var} (hv : a.vars = [v]) (log : Bool)
    (t : ℝ) : gaussFn a log [t] = .ok (if log then L fun _ => t else Real.exp (L fun _ => t)) := by
  have := hL fun _ => t
  rw [hv] at this
  unfold gaussFn
  cases log
  · exact this.2.1
  · exact this.1

/-- The point with the first variable at `x` and all others at `y`. -/
def pt (v : Var) (x y : ℝ) : Var → ℝ := fun u => if u = v then x else y

theorem fn_two {n : ℕ} {a : Gauss n} {L : (Var → ℝ) → ℝ} (hL : Denotes a L) {v w : Var} (hv : a.vars = [v, w])
    (hvw : v ≠ w) (log : Bool) (x y : ℝ) :
    gaussFn a log [x, y] = .ok (if log then L (pt v x y) else Real.exp (L (pt v x y))) := by
  have := hL (pt v x y)
  have e : a.vars.map (pt v x y) = [x, y] := by
    rw [hv]
    simp [pt, hvw.symm]
  rw [e] at this
  unfold gaussFn
  cases log
  · exact this.2.1
  · exact this.1

/-! ### C121 for Gaussians -/

/-- **C121 (one variable).** `plot` of a Gaussian draws one curve through 200 equally spaced points of the graph of the
(log) potential, over the limits given; also if the factor is vacuous. Without limits, for a normalisable factor that is
not reported vacuous, at least 8/9 of the mass lie within the limits. The factor keeps its function. -/
theorem C121_gaussian_line {a : Gauss 1} {L : (Var → ℝ) → ℝ} (ha : Made a) (hL : Denotes a L) (log : Bool)
    (xlim ylim : Option (ℝ × ℝ))
    (hp : xlim = none → (∃ a0 c, a.getCan = .ok (a0, c) ∧ c.prec.PosDef) ∧ a.isVacuous = false) :
    ∃ F : ℝ → ℝ, (∀ t, a.potential [t] = .ok (F t) ∧ 0 < F t) ∧
      ∃ a' lo hi pts, gaussPlot a log xlim ylim = .ok (a', .curves [pts]) ∧
        Line (fun t => if log then Real.log (F t) else F t) lo hi pts ∧
        (∀ lim, xlim = some lim → lim = (lo, hi)) ∧ (xlim = none → ShowsLine F lo hi) ∧
        Denotes a' L ∧ a'.vars = a.vars := by
  have hg := hL.good ha.inv
  obtain ⟨v, hv⟩ := single hg.len
  have hF : ∀ t, a.potential [t] = .ok (Real.exp (L fun _ => t)) := fun t => by
    have := fn_one hL hv false t
    exact this
  refine ⟨fun t => Real.exp (L fun _ => t), fun t => ⟨hF t, Real.exp_pos _⟩, ?_⟩
  have hlog : (fun t => if log then Real.log (Real.exp (L fun _ => t)) else Real.exp (L fun _ => t)) =
      fun t => if log then L fun _ => t else Real.exp (L fun _ => t) := by
    funext t
    rw [Real.log_exp]
  rw [hlog]
  have hdraw : ∀ a' : Gauss 1, Denotes a' L → a'.vars = [v] → ∀ lo hi,
      (do
        let xs := linspace lo hi 200
        let ys ← series (gaussFn a' log) xs
        .ok (a', .curves [xs.zip ys]) : Py (Gauss 1 × Drawing)) =
      .ok (a', .curves [(linspace lo hi 200).zip ((linspace lo hi 200).map
        fun t => if log then L fun _ => t else Real.exp (L fun _ => t))]) := by
    intro a' h1 h2 lo hi
    dsimp only
    rw [series_ok fun t => fn_one h1 h2 log t]
    rfl
  cases xlim with
  | some lim =>
    refine ⟨a, lim.1, lim.2, _, ?_, line_graph _ _ _, fun l h => (by cases h; rfl), fun h => (by cases h), hL, rfl⟩
    unfold gaussPlot
    rw [if_pos rfl]
    dsimp only [bind, Except.bind]
    exact hdraw a hL hv lim.1 lim.2
  | none =>
    obtain ⟨⟨a0, c, hc, hK⟩, hvac⟩ := hp rfl
    obtain ⟨a', w, hl, h1, -, h3, h4, h5, h6⟩ := ready ha hc hK hvac
    refine ⟨a', w.mean 0 - 3 * √(w.cov 0 0), w.mean 0 + 3 * √(w.cov 0 0), _, ?_, line_graph _ _ _,
      fun l h => (by cases h), fun _ => ?_, h4 L hL, h5⟩
    · unfold gaussPlot
      rw [if_pos rfl]
      dsimp only
      rw [h1]
      dsimp only [bind, Except.bind]
      rw [show side 0 ⟨1, a', w⟩ = _ from side_ok h3 0]
      dsimp only
      exact hdraw a' (h4 L hL) (h5.trans hv) _ _
    · have hm := mix_mass (fun _ : Fin 1 => w.mean 0 - 3 * √(w.cov 0 0)) (fun _ => w.mean 0 + 3 * √(w.cov 0 0)) [w] (by
        intro u hu
        obtain rfl := List.mem_singleton.1 hu
        refine ⟨h3, fun i => ?_⟩
        obtain rfl : i = 0 := Subsingleton.elim _ _
        exact ⟨le_rfl, le_rfl⟩)
      obtain ⟨k1, k2⟩ := hm
      obtain ⟨l1, l2, l3⟩ := line_mass k1 (w.mean 0 - 3 * √(w.cov 0 0)) (w.mean 0 + 3 * √(w.cov 0 0))
      have e : (fun t : ℝ => Real.exp (L fun _ => t)) = fun t => mixDensity [w] fun _ => t := by
        funext t
        have h0 : a.vars.map (fun _ => t) = [t] := by rw [hv]; rfl
        have this := h6 fun _ => t
        rw [h0] at this
        have h2 := (hF t).symm.trans this
        rw [Except.ok.inj h2]
        simp only [mixDensity, List.map_cons, List.map_nil, List.sum_cons, List.sum_nil, add_zero]
        rfl
      rw [e]
      refine ⟨l1, ?_⟩
      rw [l2, l3]
      norm_num at k2
      exact k2

theorem two {vars : List Var} (hl : vars.length = 2) (hn : vars.Nodup) : ∃ v w, vars = [v, w] ∧ v ≠ w := by
  obtain ⟨v, w, rfl⟩ := List.length_eq_two.1 hl
  exact ⟨v, w, rfl, by simpa using hn⟩

/-- Mass in a rectangle. -/
theorem box_shows {F : ℝ → ℝ → ℝ} {vs : List (CovF 2)} {xl yl : ℝ × ℝ}
    (hF : ∀ z : Fin 2 → ℝ, F (z 0) (z 1) = mixDensity vs z)
    (h : ∀ v ∈ vs, v.cov.PosDef ∧ (xl.1 ≤ v.mean 0 - 3 * √(v.cov 0 0) ∧ v.mean 0 + 3 * √(v.cov 0 0) ≤ xl.2) ∧
      (yl.1 ≤ v.mean 1 - 3 * √(v.cov 1 1) ∧ v.mean 1 + 3 * √(v.cov 1 1) ≤ yl.2)) : ShowsBox F xl yl := by
  obtain ⟨k1, k2⟩ := mix_mass ![xl.1, yl.1] ![xl.2, yl.2] vs fun v hv => ⟨(h v hv).1, fun i => by
    fin_cases i
    · exact (h v hv).2.1
    · exact (h v hv).2.2⟩
  unfold ShowsBox
  simp only [hF]
  refine ⟨k1, ?_⟩
  norm_num at k2
  exact k2

/-- **C121 (two variables).** `plot` of a normalisable Gaussian draws a grid of 100 times 100
points of the graph of the (log) potential, with the first variable on the horizontal axis, over the limits given; without
limits the rectangle contains at least 7/9 of the mass. The factor is not changed. -/
theorem C121_gaussian_surface_partial {a : Gauss 2} {L : (Var → ℝ) → ℝ} (ha : Made a) (hL : Denotes a L) (log : Bool)
    (xlim ylim : Option (ℝ × ℝ)) (hp : ∃ a0 c, a.getCan = .ok (a0, c) ∧ c.prec.PosDef) :
    ∃ F : ℝ → ℝ → ℝ, (∀ x y, a.potential [x, y] = .ok (F x y) ∧ 0 < F x y) ∧
      ∃ v w xl yl mesh, a.vars = [v, w] ∧ gaussPlot a log xlim ylim = .ok (a, .surface v w mesh) ∧
        Grid (fun x y => if log then Real.log (F x y) else F x y) xl yl mesh ∧
        (∀ lim, xlim = some lim → lim = xl) ∧ (∀ lim, ylim = some lim → lim = yl) ∧
        (xlim = none → ylim = none → ShowsBox F xl yl) := by
  have hg := hL.good ha.inv
  obtain ⟨v, w, hv, hvw⟩ := two hg.len hg.nodup
  have hF : ∀ x y, a.potential [x, y] = .ok (Real.exp (L (pt v x y))) := fun x y => fn_two hL hv hvw false x y
  refine ⟨fun x y => Real.exp (L (pt v x y)), fun x y => ⟨hF x y, Real.exp_pos _⟩, ?_⟩
  have hlog : (fun x y => if log then Real.log (Real.exp (L (pt v x y))) else Real.exp (L (pt v x y))) =
      fun x y => if log then L (pt v x y) else Real.exp (L (pt v x y)) := by
    funext x y
    rw [Real.log_exp]
  rw [hlog]
  obtain ⟨a0, c, hc, hK⟩ := hp
  obtain ⟨-, -, rfl⟩ := getCan_inv ha.inv hc
  obtain ⟨k, hk⟩ := copy_total hg
  obtain ⟨gk, ek, ck⟩ := copy_good hg hk
  have vk : k.vac = false := copy_vac hg hK hk
  have hkk : k.isVacuous = false := by
    cases h : k.isVacuous with
    | false => rfl
    | true =>
      unfold Gauss.isVacuous at h
      rw [vk, Bool.false_or] at h
      cases hcan : k.can with
      | none => rw [hcan] at h; cases h
      | some c' =>
        rw [hcan] at h
        dsimp only at h
        have : canOf k = c' := canOf_can hcan
        rw [← this, ck, vacParams_posDef hK] at h
        cases h
  obtain ⟨k', u, hl, h1, -, h3, h4, h5, h6⟩ := ready (.copy ha hk) (getCan_valid gk.toValid) (ck ▸ hK) hkk
  obtain ⟨mesh, m1, m2⟩ := plot2d_ok (fn_two hL hv hvw log)
    (xlim.getD (u.mean 0 - 3 * √(u.cov 0 0), u.mean 0 + 3 * √(u.cov 0 0)))
    (ylim.getD (u.mean 1 - 3 * √(u.cov 1 1), u.mean 1 + 3 * √(u.cov 1 1))) v w
  refine ⟨v, w, _, _, mesh, hv, ?_, m2, fun lim h => by rw [h]; rfl, fun lim h => by rw [h]; rfl, fun e1 e2 => ?_⟩
  · unfold gaussPlot
    rw [if_neg (by decide), if_pos rfl]
    unfold gaussPlot2d
    rw [hk]
    dsimp only [bind, Except.bind]
    rw [h1]
    dsimp only
    rw [show side 0 ⟨2, k', u⟩ = _ from side_ok h3 0, show side 1 ⟨2, k', u⟩ = _ from side_ok h3 1, hv]
    dsimp only [nameAt, List.getElem?_cons_zero, List.getElem?_cons_succ]
    rw [m1]
  · rw [e1, e2]
    refine box_shows (vs := [u]) (fun z => ?_) fun x hx => ?_
    · have h7 := h6 (pt v (z 0) (z 1))
      have dk : k.potential (k.vars.map (pt v (z 0) (z 1))) = .ok (Real.exp (L (pt v (z 0) (z 1)))) := by
        obtain ⟨k2, hk2, dk2, -⟩ := (C38_copy_weight ha hL).1
        rw [hk] at hk2
        cases hk2
        exact (dk2 _).2.1
      have h8 := Except.ok.inj (dk.symm.trans h7)
      rw [h8]
      simp only [mixDensity, List.map_cons, List.map_nil, List.sum_cons, List.sum_nil, add_zero]
      congr 2
      have key : ∀ (ws : List Var) (hw : ws.length = 2), ws = [v, w] → vecAt ws hw (pt v (z 0) (z 1)) = z := by
        rintro _ hw rfl
        funext i
        fin_cases i
        · simp [vecAt, pt]
        · simp [vecAt, pt, hvw.symm]
      exact key _ _ (ek.trans hv)
    · obtain rfl := List.mem_singleton.1 hx
      exact ⟨h3, ⟨le_rfl, le_rfl⟩, ⟨le_rfl, le_rfl⟩⟩

/-- **C121 violated (two variables).** A vacuous Gaussian over two variables cannot be plotted, even if the limits are
given; over one variable it can. -/
theorem C121_vacuous_violated (v w : Var) (hvw : v ≠ w) (g : ℝ) (log : Bool) (xl yl : ℝ × ℝ) :
    ∃ a, makeVacuous [v, w] g = .ok a ∧ gaussPlot a log (some xl) (some yl) = .error .exception ∧
      ∀ x y, a.potential [x, y] = .ok (Real.exp g) := by
  have hm : makeVacuous [v, w] g = .ok ⟨[v, w], some ⟨0, 0, g⟩, none, vacParams 0⟩ := mkCan_ok (by simpa using hvw) rfl
  have hv : vacParams (0 : Matrix (Fin 2) (Fin 2) ℝ) = true := vacParams_zero (by decide)
  refine ⟨_, hm, ?_, fun x y => ?_⟩
  · unfold gaussPlot
    rw [if_neg (by simp), if_pos (by simp)]
    unfold gaussPlot2d
    rw [show Gauss.copy (⟨[v, w], some ⟨0, 0, g⟩, none, vacParams 0⟩ : Gauss 2) = _ from hm]
    dsimp only [bind, Except.bind]
    unfold getCov updateCov
    rw [if_pos hv]
    rfl
  · have := denotes_const (vars := [v, w]) (by simpa using hvw) g (vacParams (0 : Matrix (Fin 2) (Fin 2) ℝ)) (pt v x y)
    have e : [v, w].map (pt v x y) = [x, y] := by simp [pt, hvw.symm]
    have h2 := this.2.1
    rw [show (([v, w] : List Var).map (pt v x y)) = [x, y] from e] at h2
    exact h2

end Verif.Plot
