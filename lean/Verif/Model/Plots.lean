import Verif.Model.Stats

/-!
# Model of the covariance plot of `filterpy/stats/stats.py`

What is drawn is represented by data: the patches and the line segments handed to matplotlib. Colours, limits, titles,
line styles and the cross at the centre are left out.
-/

namespace Filterpy.Stats

open Matrix

/-- An argument that is a number or an iterable of numbers. -/
inductive NumArg
  | scalar (a : ℝ)
  | list (as : List ℝ)

/-- `if np.isscalar(a): a = (a,)` -/
def NumArg.tuple : NumArg → List ℝ
  | .scalar a => [a]
  | .list as => as

/-- `_std_tuple_of` (stats.py 891-921). `interval1 p` is `norm.interval(p)[1]`. `np.sqrt` of a negative number is
`nan` in numpy and 0 here. -/
noncomputable def stdTupleOf (interval1 : ℝ → ℝ) (var std interval : Option NumArg) : Except Err (List ℝ) :=
  match std with
  | some s => .ok s.tuple
  | none => match interval with
    | some i => .ok (i.tuple.map interval1)
    | none => match var with
      | none => .error .valueError
      | some v => .ok (v.tuple.map Real.sqrt)

/-- `matplotlib.patches.Ellipse(xy, width, height, angle)`: centre, full lengths of the two axes, and the angle of the
first one in degrees. -/
structure EllipsePatch where
  xy : Vec 2
  width : ℝ
  height : ℝ
  angle : ℝ

/-- The patches added to the axes and, with `show_semiaxis`, the end points of the two segments drawn from the
centre. -/
structure Picture where
  patches : List EllipsePatch
  segments : List (Vec 2)

/-- `plot_covariance` (stats.py 924-1067), with `svd P` standing for the `U, s` of `linalg.svd(P)`. -/
noncomputable def plotCovariance (svd : Mat 2 2 → Mat 2 2 × Vec 2) (interval1 : ℝ → ℝ) (mean : Vec 2)
    (cov : Option (Mat 2 2)) (ellipse : Option (ℝ × ℝ × ℝ)) (variance : Option NumArg := some (.scalar 1))
    (std interval : Option NumArg := none) (showSemiaxis : Bool := false) : Except Err Picture :=
  match cov, ellipse with
  | some _, some _ => .error .valueError
  | none, none => .error .valueError
  | some P, none => do
    let e ← covarianceEllipse (svd P).1 (svd P).2 1
    draw e
  | none, some e => draw e
where
  /-- The part after the ellipse is known (stats.py 1036-1067). -/
  draw (ellipse : ℝ × ℝ × ℝ) : Except Err Picture := do
    let angle := ellipse.1 * (180 / Real.pi)
    let width := ellipse.2.1 * 2
    let height := ellipse.2.2 * 2
    let sds ← stdTupleOf interval1 variance std interval
    let patches := sds.map fun sd => ⟨mean, sd * width, sd * height, angle⟩
    let a := ellipse.1
    let h := height / 4
    let w := width / 4
    .ok ⟨patches, if showSemiaxis then
      [![mean 0 + h * Real.cos (a + Real.pi / 2), mean 1 + h * Real.sin (a + Real.pi / 2)],
       ![mean 0 + w * Real.cos a, mean 1 + w * Real.sin a]] else []⟩

/-- `np.linspace(0.0, b, N)`. -/
noncomputable def linspace0 (b : ℝ) (N : ℕ) (i : Fin N) : ℝ := b * (i : ℝ) / ((N : ℝ) - 1)

/-- `plot_3d_covariance` (stats.py 733-863): the grid of points handed to `plot_surface`. `eigsorted cov` is the
result of `_eigsorted(cov, asc=True)` (stats.py 700-730): eigenvalues in ascending order and the matrix whose columns are
the eigenvectors. The shape checks of `mean` and `cov` are the types here. -/
noncomputable def plot3dCovariance (eigsorted : Mat 3 3 → Vec 3 × Mat 3 3) (mean : Vec 3) (cov : Mat 3 3) (std : ℝ := 1)
    (N : ℕ := 60) : Except Err (Fin N → Fin N → Vec 3) :=
  let eigval := (eigsorted cov).1
  let eigvec := (eigsorted cov).2
  let radii := fun i => std * Real.sqrt (eigval i)
  if eigval 0 < 0 then .error .valueError
  else
    let u := linspace0 (2 * Real.pi) N
    let v := linspace0 Real.pi N
    let x := fun i j => Real.cos (u i) * Real.sin (v j) * radii 0
    let y := fun i j => Real.sin (u i) * Real.sin (v j) * radii 1
    let z := fun i j => Real.cos (v j) * radii 2
    .ok fun i j c => eigvec c 0 * x i j + eigvec c 1 * y i j + eigvec c 2 * z i j + mean c

end Filterpy.Stats
