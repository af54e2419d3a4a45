import Verif.MixModel

/-!
# Model of the plots of Gaussians and Gaussian mixtures

What is handed to matplotlib: the curves (lists of points) or the mesh of a contour plot and the names of the axes. The
number of points, the limits and the functions plotted are modelled; colours and sizes are not.
-/

namespace Verif.Plot
open Gauss

/-- `np.linspace(lo, hi, num)` for `num ≥ 2`. -/
noncomputable def linspace (lo hi : ℝ) (num : ℕ) : List ℝ :=
  (List.range num).map fun (k : ℕ) => lo + (k : ℝ) * ((hi - lo) / ((num : ℝ) - 1))

/-- The arguments of the calls of `plt.plot`, or of `plt.contourf`, `plt.xlabel` and `plt.ylabel`. -/
inductive Drawing
  | curves (l : List (List (ℝ × ℝ)))
  | surface (xlabel ylabel : Var) (mesh : List (ℝ × ℝ × ℝ))

/-- Mean minus and plus three standard deviations along axis `i` (gaussian.py 957-960, 999-1001;
gaussian_mixture.py 386-388, 705-712). The square root of a negative number is a `nan`. -/
noncomputable def side (i : ℕ) (p : Σ k, Gauss k × CovF k) : Py (ℝ × ℝ) :=
  if h : i < p.1 then
    if p.2.2.cov ⟨i, h⟩ ⟨i, h⟩ < 0 then .error .nan
    else .ok (p.2.2.mean ⟨i, h⟩ - 3 * √(p.2.2.cov ⟨i, h⟩ ⟨i, h⟩), p.2.2.mean ⟨i, h⟩ + 3 * √(p.2.2.cov ⟨i, h⟩ ⟨i, h⟩))
  else .error .indexError

/-- `[min(lowers), max(uppers)]` -/
noncomputable def hull (l : List (ℝ × ℝ)) : Py (ℝ × ℝ) :=
  match l with
  | [] => .error .valueError
  | p :: t => .ok (t.foldl (fun m q => min m q.1) p.1, t.foldl (fun m q => max m q.2) p.2)

/-- `plot_2d` (_factor_utils.py 296-326): `meshgrid` lists the points row by row. -/
noncomputable def plot2d (func : List ℝ → Py ℝ) (xlim ylim : ℝ × ℝ) (xlabel ylabel : Var) : Py Drawing := do
  let xs := linspace xlim.1 xlim.2 100
  let ys := linspace ylim.1 ylim.2 100
  let pts := ys.flatMap fun y => xs.map fun x => (x, y)
  let mesh ← pts.mapM fun p => do
    let z ← func [p.1, p.2]
    .ok (p.1, p.2, z)
  .ok (.surface xlabel ylabel mesh)

/-- The function plotted. -/
noncomputable def gaussFn {n : ℕ} (a : Gauss n) (log : Bool) (x : List ℝ) : Py ℝ :=
  if log then a.logPotential x else a.potential x

/-- `self.var_names[i]` -/
def nameAt (vars : List Var) (i : ℕ) : Py Var :=
  match vars[i]? with
  | some v => .ok v
  | none => .error .indexError

/-- `Gaussian._plot_2d` (gaussian.py 950-984): the default limits are computed in any case, from a copy. -/
noncomputable def gaussPlot2d {n : ℕ} (a : Gauss n) (log : Bool) (xlim ylim : Option (ℝ × ℝ)) : Py Drawing := do
  let k ← a.copy
  let (k', v) ← k.getCov
  let dx ← side 0 ⟨n, k', v⟩
  let dy ← side 1 ⟨n, k', v⟩
  let xlabel ← nameAt a.vars 0
  let ylabel ← nameAt a.vars 1
  plot2d (gaussFn a log) (xlim.getD dx) (ylim.getD dy) xlabel ylabel

/-- The points of a curve. -/
noncomputable def series (f : List ℝ → Py ℝ) (xs : List ℝ) : Py (List ℝ) := xs.mapM fun x => f [x]

/-- `Gaussian.plot` (gaussian.py 986-1016): the factor afterwards, and what is drawn. -/
noncomputable def gaussPlot {n : ℕ} (a : Gauss n) (log : Bool) (xlim ylim : Option (ℝ × ℝ)) : Py (Gauss n × Drawing) :=
  if n = 1 then do
    let (a', lim) ← match xlim with
      | some lim => (.ok (a, lim) : Py (Gauss n × (ℝ × ℝ)))
      | none => do
        let (a', v) ← a.getCov
        let lim ← side 0 ⟨n, a', v⟩
        .ok (a', lim)
    let xs := linspace lim.1 lim.2 200
    let ys ← series (gaussFn a' log) xs
    .ok (a', .curves [xs.zip ys])
  else if n = 2 then do
    let d ← gaussPlot2d a log xlim ylim
    .ok (a, d)
  else .error .notImplementedError

/-- `GaussianMixture._get_sensible_xlim` (gaussian_mixture.py 377-392): the mixture afterwards, and the limits. -/
noncomputable def mixLim (M : Mix) : Py (Mix × (ℝ × ℝ)) := do
  let l ← M.comps.mapM Mix.readG
  let sides ← l.mapM (side 0)
  let lim ← hull sides
  .ok ({ M with comps := l.map fun p => ⟨p.1, p.2.1⟩ }, lim)

/-- `GaussianMixture._get_limits_for_2d_plot` (gaussian_mixture.py 694-716). -/
noncomputable def mixLim2d (M : Mix) : Py (Mix × (ℝ × ℝ) × (ℝ × ℝ)) := do
  let l ← M.comps.mapM Mix.readG
  let xs ← l.mapM (side 0)
  let ys ← l.mapM (side 1)
  let xlim ← hull xs
  let ylim ← hull ys
  .ok ({ M with comps := l.map fun p => ⟨p.1, p.2.1⟩ }, xlim, ylim)

/-- The limits in `plot` (gaussian_mixture.py 406-410). -/
noncomputable def mixXlim (M : Mix) : Option (ℝ × ℝ) → Py (Mix × (ℝ × ℝ))
  | some lim => .ok (M, lim)
  | none => mixLim M

/-- The limits in `_plot_2d` (gaussian_mixture.py 726-732): if only one of them is given, both are computed. -/
noncomputable def mixLims (M : Mix) : Option (ℝ × ℝ) → Option (ℝ × ℝ) → Py (Mix × (ℝ × ℝ) × (ℝ × ℝ))
  | some xl, some yl => .ok (M, xl, yl)
  | _, _ => mixLim2d M

/-- `GaussianMixture._plot_2d` (gaussian_mixture.py 718-741). -/
noncomputable def mixPlot2d (M : Mix) (log : Bool) (xlim ylim : Option (ℝ × ℝ)) : Py (Mix × Drawing) := do
  let (M', xl, yl) ← mixLims M xlim ylim
  let xlabel ← nameAt M'.vars 0
  let ylabel ← nameAt M'.vars 1
  let d ← plot2d (fun x => if log then M'.logPotential x else M'.potential x) xl yl xlabel ylabel
  .ok (M', d)

/-- `GaussianMixture.plot` (gaussian_mixture.py 394-426): the mixture afterwards, and what is drawn. -/
noncomputable def mixPlot (M : Mix) (log : Bool) (xlim ylim : Option (ℝ × ℝ)) (parts : Bool := false) :
    Py (Mix × Drawing) :=
  if M.vars.length = 1 then do
    let (M', lim) ← mixXlim M xlim
    let xs := linspace lim.1 lim.2 200
    let potxs ← M'.comps.mapM fun c => series (gaussFn c.2 log) xs
    let total := potxs.foldl (fun t p => List.zipWith (· + ·) t p) (List.replicate 200 0)
    .ok (M', .curves ((if parts then potxs.map fun p => xs.zip p else []) ++ [xs.zip total]))
  else if M.vars.length = 2 then mixPlot2d M log xlim ylim
  else .error .notImplementedError

end Verif.Plot
