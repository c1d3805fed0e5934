import Verif.Curve

/-!
# Specification of curve points: which group element an extended or an affine point stands for
-/

namespace FF
namespace Curve

variable {K : Type} [Field K] [DecidableEq K]

/-- The curve `y² = x³ + a x + b`. -/
def curveW (a b : K) : WeierstrassCurve.Affine K := { a₁ := 0, a₂ := 0, a₃ := 0, a₄ := a, a₆ := b }

abbrev GPoint (a b : K) := (curveW a b).Point

/-- The extended point `p` stands for the group element `P`. -/
def CRep {a b : K} (p : Pt K) : GPoint a b → Prop
  | .zero => p.zz = 0 ∧ p.zzz = 0
  | .some x y _ => p.zz ≠ 0 ∧ p.zz ^ 3 = p.zzz ^ 2 ∧ p.x = x * p.zz ∧ p.y = y * p.zzz

/-- The affine point `p` stands for `P`; the pair (0,0) is the code for zero. -/
def ARep {a b : K} (p : PtA K) : GPoint a b → Prop
  | .zero => p.x = 0 ∧ p.y = 0
  | .some x y _ => p.x = x ∧ p.y = y

/-- `x` and `y` do not both vanish when the point is zero: what `eq` needs of its second argument. -/
def Proper (p : Pt K) : Prop := p.zz = 0 → p.x ≠ 0 ∨ p.y ≠ 0


end Curve
end FF
