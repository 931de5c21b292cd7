import Verif.Model.Stats

/-!
# Model of the curve plots of `filterpy/stats/stats.py`

What is drawn is represented by data: the points joined by the curve, the limits set for the axes and the vertical line.
Labels are left out of the picture.
-/

namespace Filterpy.Stats

/-- The values that the documented arguments of these functions can take; an `axes` argument is a matplotlib object. -/
inductive PlotArg
  | none
  | num (a : ℝ)
  | bool (b : Bool)
  | pair (a b : ℝ)
  | axes
  | str (s : String)

/-- A number where arithmetic is done with the argument; `True` and `False` are numbers. -/
def PlotArg.toNum : PlotArg → Except Err ℝ
  | .num a => .ok a
  | .bool b => .ok (if b then 1 else 0)
  | _ => .error .typeError

/-- `if arg:` -/
noncomputable def PlotArg.truthy : PlotArg → Bool
  | .none => false
  | .num a => open Classical in decide (a ≠ 0)
  | .bool b => b
  | .pair _ _ => true
  | .axes => true
  | .str s => s ≠ ""

/-- What is drawn. -/
structure Curve where
  points : List (ℝ × ℝ)
  xlim : ℝ × ℝ
  ylim : PlotArg
  line : Option ℝ

/-- `norm(mean, std)` of scipy: its quantiles and its distribution function. -/
structure NormLib where
  ppf : ℝ → ℝ → ℝ → ℝ
  cdf : ℝ → ℝ → ℝ → ℝ

/-- `norm(mean, std).pdf(x)`. -/
noncomputable def normPdf (mean std x : ℝ) : ℝ :=
  (Real.sqrt (2 * Real.pi) * std)⁻¹ * Real.exp (-(x - mean) ^ 2 / (2 * std ^ 2))

/-- `np.arange(a, b, (b - a) / 1000.)` (stats.py 556, 634): in exact arithmetic 1000 numbers, the first of which is `a`;
a step of zero raises `ZeroDivisionError`. Rounding of the step can add one more number, which is not modelled. -/
noncomputable def arange1000 (lim : ℝ × ℝ) : Except Err (List ℝ) :=
  open Classical in
  if lim.1 = lim.2 then .error .zeroDivision
  else .ok ((List.range 1000).map fun i : ℕ => lim.1 + i * ((lim.2 - lim.1) / 1000))

/-- `xlim = [n.ppf(0.001), n.ppf(0.999)]` if `xlim` is `None` (stats.py 553-554, 631-632). -/
noncomputable def curveLimits (lib : NormLib) (mean std : ℝ) : PlotArg → Except Err (ℝ × ℝ)
  | .none => .ok (lib.ppf mean std 0.001, lib.ppf mean std 0.999)
  | .pair a b => .ok (a, b)
  | _ => .error .typeError

/-- `ax.plot` for the `ax` argument: `None` stands for `plt.gca()`; other objects have no `plot`. -/
def axesOf : PlotArg → Except Err Unit
  | .none => .ok ()
  | .axes => .ok ()
  | _ => .error .attributeError

/-- `math.sqrt(variance)` for the two arguments of `plot_gaussian_pdf` (stats.py 620-627). -/
noncomputable def pdfStd (variance std : PlotArg) : Except Err ℝ :=
  match variance, std with
  | .none, .none => .error .valueError
  | .none, s => s.toNum
  | v, .none => do
    let a ← v.toNum
    if a < 0 then .error .valueError else .ok (Real.sqrt a)
  | _, _ => .error .valueError

/-- `np.arange` of limits that are `nan` raises `ValueError`. -/
noncomputable def nanLimits (sd : ℝ) : PlotArg → Except Err Unit
  | .none => if sd ≤ 0 then .error .valueError else .ok ()
  | _ => .ok ()

/-- `plot_gaussian_pdf` (stats.py 566-648).  For a deviation that is not positive scipy answers `nan`, from which
`np.arange` raises `ValueError` if the limits are not given; a curve of `nan`s is the error value `nonFinite`. -/
noncomputable def plotGaussianPdf (lib : NormLib) (mean : ℝ) (variance : PlotArg := .num 1) (std ax : PlotArg := .none)
    (meanLine : PlotArg := .bool false) (xlim ylim : PlotArg := .none) : Except Err Curve := do
  let sd ← pdfStd variance std
  let lim ← curveLimits lib mean sd xlim
  nanLimits sd xlim
  let xs ← arange1000 lim
  axesOf ax
  if sd ≤ 0 then .error .nonFinite
  else .ok {
    points := xs.map fun x => (x, normPdf mean sd x), xlim := lim, ylim := ylim,
    line := if meanLine.truthy then some mean else none }

/-- `plot_gaussian` (stats.py 651-669): the arguments are handed on by position, without the `std` that
`plot_gaussian_pdf` expects after the variance. The labels are left out, except for `xlabel`, which arrives as `ylim`. -/
noncomputable def plotGaussian (lib : NormLib) (mean : ℝ) (variance : PlotArg := .num 1) (ax : PlotArg := .none)
    (meanLine : PlotArg := .bool false) (xlim ylim xlabel : PlotArg := .none) : Except Err Curve :=
  plotGaussianPdf lib mean variance ax meanLine xlim ylim xlabel

/-- `plot_gaussian_cdf` (stats.py 508-563); `nan` as in `plotGaussianPdf`. -/
noncomputable def plotGaussianCdf (lib : NormLib) (mean : ℝ) (variance : ℝ := 1) (ax xlim : PlotArg := .none)
    (ylim : PlotArg := .pair 0 1) : Except Err Curve := do
  if variance < 0 then .error .valueError
  let sd := Real.sqrt variance
  let lim ← curveLimits lib mean sd xlim
  nanLimits sd xlim
  let xs ← arange1000 lim
  axesOf ax
  if sd ≤ 0 then .error .nonFinite
  else .ok { points := xs.map fun x => (x, lib.cdf mean sd x), xlim := lim, ylim := ylim, line := none }

/-- `np.cumsum`. -/
def cumsum (ys : List ℝ) : List ℝ := (List.range ys.length).map fun k => (ys.take (k + 1)).sum

/-- The points of `plot_discrete_cdf` (stats.py 458-505); matplotlib raises `ValueError` if the lengths differ. -/
def plotDiscreteCdf (xs : Option (List ℝ)) (ys : List ℝ) : Except Err (List (ℝ × ℝ)) :=
  let xs := xs.getD ((List.range ys.length).map fun k : ℕ => (k : ℝ))
  if xs.length = ys.length then .ok (xs.zip (cumsum ys)) else .error .valueError

end Filterpy.Stats
