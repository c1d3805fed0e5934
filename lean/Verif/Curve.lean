import Verif.Naf
import Mathlib.AlgebraicGeometry.EllipticCurve.Affine.Point
import Mathlib.Tactic.FieldSimp
import Mathlib.Tactic.LinearCombination

/-!
# Curve arithmetic: `c/curve.cpp`, `c/curve.hpp`

Points in extended coordinates `(x, y, zz, zzz)` and affine points over a field `K`.  A field call `F.op(r, a, b)` is the assignment
of the field operation; that it also is when `r`, `a`, `b` coincide is proved for the class field (C21, C56) and the towers.
Functions whose result may be one of the operands are modelled on a store of points (suffix `M`), one assignment at a time.
-/

set_option linter.unusedSimpArgs false

namespace FF

/-- `Curve::Point`, `curve.hpp:13-18`. -/
@[ext] structure Pt (K : Type) where
  x : K
  y : K
  zz : K
  zzz : K
deriving DecidableEq

/-- `Curve::PointAffine`, `curve.hpp:20-23`. -/
@[ext] structure PtA (K : Type) where
  x : K
  y : K
deriving DecidableEq

/-- `TypeOfA`, `curve.hpp:29`. -/
inductive TypeOfA | zero | one | negone | long
deriving DecidableEq

namespace Curve

variable {K : Type} [Field K] [DecidableEq K]

/-- The classification in `initCurve`, `curve.cpp:44-52`. -/
def typeOfA (a : K) : TypeOfA :=
  if a = 0 then .zero else if a = 1 then .one else if a = -1 then .negone else .long

/-- `mulByA`, `curve.cpp:60-68`. -/
def mulByA (a ab : K) : K :=
  match typeOfA a with
  | .zero => 0
  | .one => ab
  | .negone => -ab
  | .long => a * ab

/-- `fzero`, `fzeroAffine`, `fone`, `foneAffine`: `curve.cpp:31-42`. -/
def zero : Pt K := ⟨1, 1, 0, 0⟩
def zeroAffine : PtA K := ⟨0, 0⟩
def one (gx gy : K) : Pt K := ⟨gx, gy, 1, 1⟩
def oneAffine (gx gy : K) : PtA K := ⟨gx, gy⟩

/-- `isZero`, `curve.cpp:529-537`. -/
def isZero (p : Pt K) : Bool := p.zz == 0
def isZeroA (p : PtA K) : Bool := p.x == 0 && p.y == 0

/-- `copy(Point, PointAffine)`, `curve.cpp:547-560`. -/
def copyPA (a : PtA K) : Pt K := if isZeroA a then ⟨1, 1, 0, 0⟩ else ⟨a.x, a.y, 1, 1⟩

/-- `copy(PointAffine, Point)`, `curve.cpp:562-574`. -/
def copyAP (a : Pt K) : PtA K := if isZero a then ⟨0, 0⟩ else ⟨a.x / a.zz, a.y / a.zzz⟩

/-! ## Functions on a store, one assignment at a time -/

abbrev PStore (K : Type) := Nat → Pt K

def setX (m : PStore K) (i : Nat) (v : K) : PStore K := Function.update m i { m i with x := v }
def setY (m : PStore K) (i : Nat) (v : K) : PStore K := Function.update m i { m i with y := v }
def setZZ (m : PStore K) (i : Nat) (v : K) : PStore K := Function.update m i { m i with zz := v }
def setZZZ (m : PStore K) (i : Nat) (v : K) : PStore K := Function.update m i { m i with zzz := v }

/-- `copy(Point, Point)`, `curve.cpp:539-545`. -/
def copyM (m : PStore K) (r a : Nat) : PStore K :=
  let m := setX m r (m a).x
  let m := setY m r (m a).y
  let m := setZZ m r (m a).zz
  setZZZ m r (m a).zzz

/-- `copy(Point, PointAffine)` into the store. -/
def copyPAM (m : PStore K) (r : Nat) (a : PtA K) : PStore K :=
  if isZeroA a then
    let m := setX m r 1
    let m := setY m r 1
    let m := setZZ m r 0
    setZZZ m r 0
  else
    let m := setX m r a.x
    let m := setY m r a.y
    let m := setZZ m r 1
    setZZZ m r 1

/-- `dbl(Point, Point)`, `curve.cpp:337-394`. -/
def dblM (a : K) (m : PStore K) (p3 p1 : Nat) : PStore K :=
  if isZero (m p1) then copyM m p3 p1
  else
    let U := (m p1).y + (m p1).y
    let V := U * U
    let W := U * V
    let S := (m p1).x * V
    let M := (m p1).x * (m p1).x
    let tmp := M + M
    let M := M + tmp
    let M := if typeOfA a ≠ .zero then
        let tmp := (m p1).zz * (m p1).zz
        let tmp := mulByA a tmp
        M + tmp
      else M
    let m := setX m p3 (M * M)
    let m := setX m p3 ((m p3).x - S)
    let m := setX m p3 ((m p3).x - S)
    let tmp := W * (m p1).y
    let m := setY m p3 (S - (m p3).x)
    let m := setY m p3 (M * (m p3).y)
    let m := setY m p3 ((m p3).y - tmp)
    let m := setZZ m p3 (V * (m p1).zz)
    setZZZ m p3 (W * (m p1).zzz)

/-- `dbl(Point, PointAffine)`, `curve.cpp:408-456`. -/
def dblAM (a : K) (m : PStore K) (p3 : Nat) (p1 : PtA K) : PStore K :=
  if isZeroA p1 then copyPAM m p3 p1
  else
    let U := p1.y + p1.y
    let m := setZZ m p3 (U * U)
    let m := setZZZ m p3 (U * (m p3).zz)
    let S := p1.x * (m p3).zz
    let M := p1.x * p1.x
    let tmp := M + M
    let M := tmp + M
    let M := M + a
    let m := setX m p3 (M * M)
    let m := setX m p3 ((m p3).x - S)
    let m := setX m p3 ((m p3).x - S)
    let tmp := (m p3).zzz * p1.y
    let m := setY m p3 (S - (m p3).x)
    let m := setY m p3 (M * (m p3).y)
    setY m p3 ((m p3).y - tmp)

/-- `add(Point, Point, Point)`, `curve.cpp:88-164`. -/
def addM (a : K) (m : PStore K) (p3 p1 p2 : Nat) : PStore K :=
  if isZero (m p1) then copyM m p3 p2
  else if isZero (m p2) then copyM m p3 p1
  else
    let U1 := (m p1).x * (m p2).zz
    let U2 := (m p2).x * (m p1).zz
    let S1 := (m p1).y * (m p2).zzz
    let S2 := (m p2).y * (m p1).zzz
    let P := U2 - U1
    let R := S2 - S1
    if P == 0 && R == 0 then dblM a m p3 p1
    else
      let PP := P * P
      let PPP := P * PP
      let Q := U1 * PP
      let m := setX m p3 (R * R)
      let m := setX m p3 ((m p3).x - PPP)
      let m := setX m p3 ((m p3).x - Q)
      let m := setX m p3 ((m p3).x - Q)
      let tmp := S1 * PPP
      let m := setY m p3 (Q - (m p3).x)
      let m := setY m p3 ((m p3).y * R)
      let m := setY m p3 ((m p3).y - tmp)
      let m := setZZ m p3 ((m p1).zz * (m p2).zz)
      let m := setZZ m p3 ((m p3).zz * PP)
      let m := setZZZ m p3 ((m p1).zzz * (m p2).zzz)
      setZZZ m p3 ((m p3).zzz * PPP)

/-- `add(Point, Point, PointAffine)`, `curve.cpp:182-248`. -/
def addMixM (a : K) (m : PStore K) (p3 p1 : Nat) (p2 : PtA K) : PStore K :=
  if isZero (m p1) then copyPAM m p3 p2
  else if isZeroA p2 then copyM m p3 p1
  else
    let U2 := p2.x * (m p1).zz
    let S2 := p2.y * (m p1).zzz
    let P := U2 - (m p1).x
    let R := S2 - (m p1).y
    if P == 0 && R == 0 then dblAM a m p3 p2
    else
      let PP := P * P
      let PPP := P * PP
      let Q := (m p1).x * PP
      let m := setX m p3 (R * R)
      let m := setX m p3 ((m p3).x - PPP)
      let m := setX m p3 ((m p3).x - Q)
      let m := setX m p3 ((m p3).x - Q)
      let tmp := (m p1).y * PPP
      let m := setY m p3 (Q - (m p3).x)
      let m := setY m p3 ((m p3).y * R)
      let m := setY m p3 ((m p3).y - tmp)
      let m := setZZ m p3 ((m p1).zz * PP)
      setZZZ m p3 ((m p1).zzz * PPP)

/-- `add(Point, PointAffine, PointAffine)`, `curve.cpp:263-320`. -/
def addAffM (a : K) (m : PStore K) (p3 : Nat) (p1 p2 : PtA K) : PStore K :=
  if isZeroA p1 then copyPAM m p3 p2
  else if isZeroA p2 then copyPAM m p3 p1
  else
    let P := p2.x - p1.x
    let R := p2.y - p1.y
    if P == 0 && R == 0 then dblAM a m p3 p2
    else
      let PP := P * P
      let PPP := P * PP
      let Q := p1.x * PP
      let m := setX m p3 (R * R)
      let m := setX m p3 ((m p3).x - PPP)
      let m := setX m p3 ((m p3).x - Q)
      let m := setX m p3 ((m p3).x - Q)
      let tmp := p1.y * PPP
      let m := setY m p3 (Q - (m p3).x)
      let m := setY m p3 ((m p3).y * R)
      let m := setY m p3 ((m p3).y - tmp)
      let m := setZZ m p3 PP
      setZZZ m p3 PPP

/-- `neg(Point, Point)`, `curve.cpp:582-588`. -/
def negM (m : PStore K) (r a : Nat) : PStore K :=
  let m := setX m r (m a).x
  let m := setY m r (-(m a).y)
  let m := setZZ m r (m a).zz
  setZZZ m r (m a).zzz

/-- `neg(Point, PointAffine)`, `curve.cpp:590-596`. -/
def negPAM (m : PStore K) (r : Nat) (a : PtA K) : PStore K :=
  let m := setX m r a.x
  let m := setY m r (-a.y)
  let m := setZZ m r 1
  setZZZ m r 1

/-- `neg(PointAffine, Point)`, `curve.cpp:598-611`. -/
def negAP (a : Pt K) : PtA K :=
  if isZero a then ⟨0, 0⟩
  else
    let r : PtA K := ⟨a.x / a.zz, a.y / a.zzz⟩
    { r with y := -r.y }

/-- `copy(PointAffine, PointAffine)` and `neg(PointAffine, PointAffine)` on a store of affine points, `curve.cpp:576-580,613-617`. -/
def copyAM (m : Nat → PtA K) (r a : Nat) : Nat → PtA K :=
  let m := Function.update m r { m r with x := (m a).x }
  Function.update m r { m r with y := (m a).y }
def negAM (m : Nat → PtA K) (r a : Nat) : Nat → PtA K :=
  let m := Function.update m r { m r with x := (m a).x }
  Function.update m r { m r with y := -(m a).y }

/-- `eq(Point, Point)`, `curve.cpp:458-491`. -/
def eq (p1 p2 : Pt K) : Bool :=
  if isZero p1 then isZero p2
  else
    let U1 := p1.x * p2.zz
    let U2 := p2.x * p1.zz
    let S1 := p1.y * p2.zzz
    let S2 := p2.y * p1.zzz
    let P := U2 - U1
    let R := S2 - S1
    P == 0 && R == 0

/-- `eq(Point, PointAffine)`, `curve.cpp:494-521`; `eq(PointAffine, Point)` (`curve.hpp:99`) swaps its arguments. -/
def eqPA (p1 : Pt K) (p2 : PtA K) : Bool :=
  if isZero p1 then isZeroA p2
  else
    let U2 := p2.x * p1.zz
    let S2 := p2.y * p1.zzz
    let P := U2 - p1.x
    let R := S2 - p1.y
    P == 0 && R == 0

/-- `eq(PointAffine, PointAffine)`, `curve.cpp:523-526`. -/
def eqAA (p1 p2 : PtA K) : Bool := p1.x == p2.x && p1.y == p2.y

/-! ## The same functions as values -/

def copyP (a : Pt K) : Pt K := a

/-- Value of `dbl(Point, Point)`: `dblM_eq`. -/
def dbl (a : K) (p1 : Pt K) : Pt K :=
  if isZero p1 then p1
  else
    let U := p1.y + p1.y
    let V := U * U
    let W := U * V
    let S := p1.x * V
    let M := p1.x * p1.x + (p1.x * p1.x + p1.x * p1.x)
    let M := if typeOfA a ≠ .zero then M + mulByA a (p1.zz * p1.zz) else M
    let X := M * M - S - S
    ⟨X, M * (S - X) - W * p1.y, V * p1.zz, W * p1.zzz⟩

/-- Value of `dbl(Point, PointAffine)`: `dblAM_eq`. -/
def dblA (a : K) (p1 : PtA K) : Pt K :=
  if isZeroA p1 then copyPA p1
  else
    let U := p1.y + p1.y
    let V := U * U
    let W := U * V
    let S := p1.x * V
    let M := p1.x * p1.x + p1.x * p1.x + p1.x * p1.x + a
    let X := M * M - S - S
    ⟨X, M * (S - X) - W * p1.y, V, W⟩

/-- Value of `add(Point, Point, Point)`: `addM_eq`. -/
def add (a : K) (p1 p2 : Pt K) : Pt K :=
  if isZero p1 then p2
  else if isZero p2 then p1
  else
    let U1 := p1.x * p2.zz
    let U2 := p2.x * p1.zz
    let S1 := p1.y * p2.zzz
    let S2 := p2.y * p1.zzz
    let P := U2 - U1
    let R := S2 - S1
    if P == 0 && R == 0 then dbl a p1
    else
      let PP := P * P
      let PPP := P * PP
      let Q := U1 * PP
      let X := R * R - PPP - Q - Q
      ⟨X, (Q - X) * R - S1 * PPP, p1.zz * p2.zz * PP, p1.zzz * p2.zzz * PPP⟩

/-- Value of `add(Point, Point, PointAffine)`: `addMixM_eq`. -/
def addMix (a : K) (p1 : Pt K) (p2 : PtA K) : Pt K :=
  if isZero p1 then copyPA p2
  else if isZeroA p2 then p1
  else
    let U2 := p2.x * p1.zz
    let S2 := p2.y * p1.zzz
    let P := U2 - p1.x
    let R := S2 - p1.y
    if P == 0 && R == 0 then dblA a p2
    else
      let PP := P * P
      let PPP := P * PP
      let Q := p1.x * PP
      let X := R * R - PPP - Q - Q
      ⟨X, (Q - X) * R - p1.y * PPP, p1.zz * PP, p1.zzz * PPP⟩

/-- Value of `add(Point, PointAffine, PointAffine)`: `addAffM_eq`. -/
def addAff (a : K) (p1 p2 : PtA K) : Pt K :=
  if isZeroA p1 then copyPA p2
  else if isZeroA p2 then copyPA p1
  else
    let P := p2.x - p1.x
    let R := p2.y - p1.y
    if P == 0 && R == 0 then dblA a p2
    else
      let PP := P * P
      let PPP := P * PP
      let Q := p1.x * PP
      let X := R * R - PPP - Q - Q
      ⟨X, (Q - X) * R - p1.y * PPP, PP, PPP⟩

/-- Values of the `neg` overloads. -/
def neg (a : Pt K) : Pt K := ⟨a.x, -a.y, a.zz, a.zzz⟩
def negPA (a : PtA K) : Pt K := ⟨a.x, -a.y, 1, 1⟩
def negA (a : PtA K) : PtA K := ⟨a.x, -a.y⟩

/-! ## The inline overloads of `curve.hpp:66-91` -/

/-- `add(Point, PointAffine, Point)`, `curve.hpp:69`. -/
def addXP (a : K) (p1 : PtA K) (p2 : Pt K) : Pt K := addMix a p2 p1
/-- `add(PointAffine, ·, ·)`, `curve.hpp:70-73`: a local point, then a copy. -/
def addToA (a : K) (p1 p2 : Pt K) : PtA K := copyAP (add a p1 p2)
def addMixToA (a : K) (p1 : Pt K) (p2 : PtA K) : PtA K := copyAP (addMix a p1 p2)
def addAffToA (a : K) (p1 p2 : PtA K) : PtA K := copyAP (addAff a p1 p2)
def addXPToA (a : K) (p1 : PtA K) (p2 : Pt K) : PtA K := copyAP (addXP a p1 p2)
/-- `sub`, `curve.hpp:75-82`: the operand is negated into a local of its own type. -/
def sub (a : K) (p1 p2 : Pt K) : Pt K := add a p1 (neg p2)
def subMix (a : K) (p1 : Pt K) (p2 : PtA K) : Pt K := addMix a p1 (negA p2)
def subAff (a : K) (p1 p2 : PtA K) : Pt K := addAff a p1 (negA p2)
def subXP (a : K) (p1 : PtA K) (p2 : Pt K) : Pt K := addXP a p1 (neg p2)
def subToA (a : K) (p1 p2 : Pt K) : PtA K := addToA a p1 (neg p2)
def subMixToA (a : K) (p1 : Pt K) (p2 : PtA K) : PtA K := addMixToA a p1 (negA p2)
def subAffToA (a : K) (p1 p2 : PtA K) : PtA K := addAffToA a p1 (negA p2)
def subXPToA (a : K) (p1 : PtA K) (p2 : Pt K) : PtA K := addXPToA a p1 (neg p2)
/-- `dbl(PointAffine, ·)`, `curve.hpp:86-87`. -/
def dblToA (a : K) (p : Pt K) : PtA K := copyAP (dbl a p)
def dblAToA (a : K) (p : PtA K) : PtA K := copyAP (dblA a p)

/-- `sub(Point, Point, Point)` on a store, `curve.hpp:75`; `t` is the address of the local. -/
def subM (a : K) (m : PStore K) (p3 p1 p2 t : Nat) : PStore K :=
  let m := negM m t p2
  addM a m p3 p1 t

/-! ## Store versions compute the values, for every coincidence of addresses -/

omit [Field K] [DecidableEq K] in
@[simp] theorem setX_same (m : PStore K) (i : Nat) (v : K) : setX m i v i = { m i with x := v } := by simp [setX]
omit [Field K] [DecidableEq K] in
@[simp] theorem setY_same (m : PStore K) (i : Nat) (v : K) : setY m i v i = { m i with y := v } := by simp [setY]
omit [Field K] [DecidableEq K] in
@[simp] theorem setZZ_same (m : PStore K) (i : Nat) (v : K) : setZZ m i v i = { m i with zz := v } := by simp [setZZ]
omit [Field K] [DecidableEq K] in
@[simp] theorem setZZZ_same (m : PStore K) (i : Nat) (v : K) : setZZZ m i v i = { m i with zzz := v } := by simp [setZZZ]
omit [Field K] [DecidableEq K] in
theorem setX_other {m : PStore K} {i j : Nat} (v : K) (h : j ≠ i) : setX m i v j = m j := by simp [setX, h]
omit [Field K] [DecidableEq K] in
theorem setY_other {m : PStore K} {i j : Nat} (v : K) (h : j ≠ i) : setY m i v j = m j := by simp [setY, h]
omit [Field K] [DecidableEq K] in
theorem setZZ_other {m : PStore K} {i j : Nat} (v : K) (h : j ≠ i) : setZZ m i v j = m j := by simp [setZZ, h]
omit [Field K] [DecidableEq K] in
theorem setZZZ_other {m : PStore K} {i j : Nat} (v : K) (h : j ≠ i) : setZZZ m i v j = m j := by simp [setZZZ, h]

/-- A store equal to `m` away from `r` and to `v` at `r` is the update. -/
theorem eq_update {T : Type} {m m' : Nat → T} {r : Nat} {v : T} (h1 : m' r = v) (h2 : ∀ p, p ≠ r → m' p = m p) :
    m' = Function.update m r v := by
  funext p
  by_cases h : p = r
  · subst h; simp [h1]
  · simp [h, h2 p h]

omit [Field K] [DecidableEq K] in
theorem copyM_eq (m : PStore K) (r a : Nat) : copyM m r a = Function.update m r (m a) := by
  apply eq_update
  · by_cases h : a = r
    · subst h; simp [copyM]
    · simp [copyM, setX_other, setY_other, setZZ_other, setZZZ_other, h]
  · intro p hp; simp [copyM, setX_other, setY_other, setZZ_other, setZZZ_other, hp]

theorem copyPAM_eq (m : PStore K) (r : Nat) (a : PtA K) : copyPAM m r a = Function.update m r (copyPA a) := by
  apply eq_update
  · unfold copyPAM copyPA; split <;> simp
  · intro p hp; unfold copyPAM; split <;> simp [setX_other, setY_other, setZZ_other, setZZZ_other, hp]

theorem dblM_eq (a : K) (m : PStore K) (p3 p1 : Nat) : dblM a m p3 p1 = Function.update m p3 (dbl a (m p1)) := by
  unfold dblM dbl
  split
  · rw [copyM_eq]
  · apply eq_update
    · by_cases h : p1 = p3
      · subst h; simp
      · simp [setX_other, setY_other, setZZ_other, setZZZ_other, h]
    · intro p hp; simp [setX_other, setY_other, setZZ_other, setZZZ_other, hp]

theorem dblAM_eq (a : K) (m : PStore K) (p3 : Nat) (p1 : PtA K) : dblAM a m p3 p1 = Function.update m p3 (dblA a p1) := by
  unfold dblAM dblA
  split
  · rw [copyPAM_eq]
  · apply eq_update
    · simp
    · intro p hp; simp [setX_other, setY_other, setZZ_other, setZZZ_other, hp]

theorem addM_eq (a : K) (m : PStore K) (p3 p1 p2 : Nat) : addM a m p3 p1 p2 = Function.update m p3 (add a (m p1) (m p2)) := by
  unfold addM add
  split
  · rw [copyM_eq]
  split
  · rw [copyM_eq]
  simp only []
  split
  · rw [dblM_eq]
  apply eq_update
  · by_cases h : p1 = p3
    · subst h
      by_cases h2 : p2 = p1
      · subst h2; simp
      · simp [setX_other, setY_other, setZZ_other, setZZZ_other, h2]
    · by_cases h2 : p2 = p3
      · subst h2; simp [setX_other, setY_other, setZZ_other, setZZZ_other, h]
      · simp [setX_other, setY_other, setZZ_other, setZZZ_other, h, h2]
  · intro p hp; simp [setX_other, setY_other, setZZ_other, setZZZ_other, hp]

theorem addMixM_eq (a : K) (m : PStore K) (p3 p1 : Nat) (p2 : PtA K) :
    addMixM a m p3 p1 p2 = Function.update m p3 (addMix a (m p1) p2) := by
  unfold addMixM addMix
  split
  · rw [copyPAM_eq]
  split
  · rw [copyM_eq]
  simp only []
  split
  · rw [dblAM_eq]
  apply eq_update
  · by_cases h : p1 = p3
    · subst h; simp
    · simp [setX_other, setY_other, setZZ_other, setZZZ_other, h]
  · intro p hp; simp [setX_other, setY_other, setZZ_other, setZZZ_other, hp]

theorem addAffM_eq (a : K) (m : PStore K) (p3 : Nat) (p1 p2 : PtA K) :
    addAffM a m p3 p1 p2 = Function.update m p3 (addAff a p1 p2) := by
  unfold addAffM addAff
  split
  · rw [copyPAM_eq]
  split
  · rw [copyPAM_eq]
  simp only []
  split
  · rw [dblAM_eq]
  apply eq_update
  · simp
  · intro p hp; simp [setX_other, setY_other, setZZ_other, setZZZ_other, hp]

omit [DecidableEq K] in
theorem negM_eq (m : PStore K) (r a : Nat) : negM m r a = Function.update m r (neg (m a)) := by
  apply eq_update
  · by_cases h : a = r
    · subst h; simp [negM, neg]
    · simp [negM, neg, setX_other, setY_other, setZZ_other, setZZZ_other, h]
  · intro p hp; simp [negM, setX_other, setY_other, setZZ_other, setZZZ_other, hp]

omit [DecidableEq K] in
theorem negPAM_eq (m : PStore K) (r : Nat) (a : PtA K) : negPAM m r a = Function.update m r (negPA a) := by
  apply eq_update
  · simp [negPAM, negPA]
  · intro p hp; simp [negPAM, setX_other, setY_other, setZZ_other, setZZZ_other, hp]

omit [Field K] [DecidableEq K] in
theorem copyAM_eq (m : Nat → PtA K) (r a : Nat) : copyAM m r a = Function.update m r (m a) := by
  apply eq_update
  · by_cases h : a = r
    · subst h; simp [copyAM]
    · simp [copyAM, h]
  · intro p hp; simp [copyAM, hp]

omit [DecidableEq K] in
theorem negAM_eq (m : Nat → PtA K) (r a : Nat) : negAM m r a = Function.update m r (negA (m a)) := by
  apply eq_update
  · by_cases h : a = r
    · subst h; simp [negAM, negA]
    · simp [negAM, negA, h]
  · intro p hp; simp [negAM, hp]

theorem subM_eq (a : K) (m : PStore K) (p3 p1 p2 t : Nat) (h1 : p1 ≠ t) (h3 : p3 ≠ t) :
    ∀ p, p ≠ t → subM a m p3 p1 p2 t p = Function.update m p3 (sub a (m p1) (m p2)) p := by
  intro p hp
  unfold subM sub
  rw [addM_eq, negM_eq]
  by_cases h : p = p3
  · subst h; simp [h1]
  · simp [h, hp]

end Curve
end FF
