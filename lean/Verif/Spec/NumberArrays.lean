import Verif.Model.KalmanFuncShapes
import Verif.Spec.Shapes

/-! # What it means that arrays hold a filtering problem with one variable -/

namespace Filterpy.Spec

open Matrix

/-- The arrays that hold the single number `a`: shapes `()`, `(1,)` and `(1, 1)`. -/
inductive OneNumber (a : ℝ) : Nd → Prop
  | number : OneNumber a (.d0 a)
  | vector : OneNumber a (.d1 1 fun _ => a)
  | matrix : OneNumber a (.d2 1 1 (of fun _ _ => a))

/-- The forms in which a measurement factor `h` can be passed: `None` for one, a number, or an
array. -/
inductive OneFactor (h : ℝ) : NdArg → Prop
  | default (h1 : h = 1) : OneFactor h .none
  | number : OneFactor h (.scalar h)
  | array (A : Nd) (hA : OneNumber h A) : OneFactor h (.arr A)

/-- A call on one variable, in numbers: a prediction with factor `f`, variance `q`, control `b u`
and fading `alpha`, or a measurement `z = h x + noise` of variance `r`, missing if `none`. -/
inductive NumCall
  | predict (f q u b alpha : ℝ)
  | update (z : Option ℝ) (r h : ℝ)

/-- The textbook filter for one variable, on the pair (mean, variance). -/
noncomputable def NumCall.apply (s : ℝ × ℝ) : NumCall → ℝ × ℝ
  | .predict f q u b alpha => (f * s.1 + b * u, alpha ^ 2 * f ^ 2 * s.2 + q)
  | .update none _ _ => s
  | .update (some z) r h =>
      ((r * s.1 + s.2 * h * z) / (h ^ 2 * s.2 + r), s.2 * r / (h ^ 2 * s.2 + r))

/-- The call makes sense: variances are not negative, and those of measurements positive. -/
def NumCall.Sensible : NumCall → Prop
  | .predict _ q _ _ _ => 0 ≤ q
  | .update _ r _ => 0 < r

/-- The numpy-level call `c` is the call `o`, every number in any of its forms. -/
inductive IsNumCall : NFun.Call → NumCall → Prop
  | predict {f q u b alpha : ℝ} {F Q U B : Nd} (hF : OneNumber f F) (hQ : OneNumber q Q)
      (hu : OneNumber u U) (hB : OneNumber b B) :
      IsNumCall (.predict F Q U B alpha) (.predict f q u b alpha)
  | update {z r h : ℝ} {Z R : Nd} {H : NdArg} (hz : OneNumber z Z) (hR : OneNumber r R)
      (hH : OneFactor h H) : IsNumCall (.update (some Z) (some R) H) (.update (some z) r h)
  | missing {r h : ℝ} {R : Option Nd} {H : NdArg} : IsNumCall (.update none R H) (.update none r h)

variable {n l : ℕ}

/-- The noise argument as the user passes it to the module-level functions. -/
def ndOf : MatArg n → Option Nd
  | .none => none
  | .scalar c => some (.d0 c)
  | .mat A => some (.d2 n n A)

/-- The control arguments `B`, `u` as the user passes them. -/
def controlsOf (col : Bool) : KFun.BUArg n l → Nd × Nd
  | .scalars B u => (.d0 B, .d0 u)
  | .scalarVec B u => (.d0 B, vecAs col u)
  | .matVec B u => (.d2 n l B, vecAs col u)

/-- The transition argument as the user passes it. -/
def transOf : KFun.FArg n → Nd
  | .scalar c => .d0 c
  | .mat F => .d2 n n F

end Filterpy.Spec
