import Verif.RawFr
import Mathlib.Algebra.Field.Basic

/-!
# The extension towers: `c/f2field.cpp`, `c/f6field.cpp`, `c/f12field.cpp`

Elements over a base field `K`.  A base-field call `F.op(r, a, b)` is the assignment of the field operation (that it is, also when the
three references coincide, is C21 and C56).  Each function is given twice: on values, and (suffix `M`) on a store of elements, one
assignment at a time, so that references to the same element alias.  Calls of an inner field inside an outer one use the value
version, which C24/C25 justify for every aliasing.
-/

namespace FF

/-- `F2Field::Element`, `f2field.hpp:7-10`. -/
@[ext] structure F2El (K : Type) where
  a : K
  b : K
deriving DecidableEq

/-- `F6Field::Element`, `f6field.hpp:7-11`: `x·t² + y·t + z`. -/
@[ext] structure F6El (K : Type) where
  x : F2El K
  y : F2El K
  z : F2El K
deriving DecidableEq

/-- `F12Field::Element`, `f12field.hpp:7-10`: `x·w + y`. -/
@[ext] structure F12El (K : Type) where
  x : F6El K
  y : F6El K
deriving DecidableEq

/-- `TypeOfNr`, `f2field.hpp:18`. -/
inductive TypeOfNr | zero | one | negone | long
deriving DecidableEq

variable {K : Type} [Field K] [DecidableEq K]

namespace F2

/-- The classification in `initField`, `f2field.cpp:30-38`. -/
def typeOfNr (nr : K) : TypeOfNr :=
  if nr = 0 then .zero else if nr = 1 then .one else if nr = -1 then .negone else .long

/-- `initField`, `f2field.cpp:23-28`. -/
def zero : F2El K := ⟨0, 0⟩
def one : F2El K := ⟨1, 0⟩
def negOne : F2El K := ⟨-1, 0⟩

/-- `mulByNr`, `f2field.cpp:60-67`. -/
def mulByNr (nr a : K) : K :=
  match typeOfNr nr with
  | .zero => 0
  | .one => a
  | .negone => -a
  | .long => nr * a

/-- `add`, `sub`, `neg`, `conjugate`: `f2field.cpp:70-91`; `dbl`: `f2field.cpp:142-145`. -/
def add (a b : F2El K) : F2El K := ⟨a.a + b.a, a.b + b.b⟩
def sub (a b : F2El K) : F2El K := ⟨a.a - b.a, a.b - b.b⟩
def neg (a : F2El K) : F2El K := ⟨-a.a, -a.b⟩
def conjugate (a : F2El K) : F2El K := ⟨a.a, -a.b⟩
def dbl (a : F2El K) : F2El K := ⟨a.a + a.a, a.b + a.b⟩

/-- `mul`, `f2field.cpp:100-118`. -/
def mul (nr : K) (e1 e2 : F2El K) : F2El K :=
  let aa := e1.a * e2.a
  let bb := e1.b * e2.b
  let bbr := mulByNr nr bb
  let sum1 := e1.a + e1.b
  let sum2 := e2.a + e2.b
  let ra := aa + bbr
  let rb := sum1 * sum2
  let rb := rb - aa
  let rb := rb - bb
  ⟨ra, rb⟩

/-- `mulScalar`, `f2field.cpp:121-124`. -/
def mulScalar (a : F2El K) (b : K) : F2El K := ⟨a.a * b, a.b * b⟩

/-- `mulXi`, `f2field.cpp:127-139`. -/
def mulXi (a : F2El K) : F2El K :=
  let t := dbl a
  let t := dbl t
  let t := dbl t
  let t := add t a
  let t := { t with b := t.b + a.a }
  let t := { t with a := t.a - a.b }
  t

/-- `square`, `f2field.cpp:148-175`. -/
def square (nr : K) (e1 : F2El K) : F2El K :=
  if typeOfNr nr = .negone then
    let ab := e1.a * e1.b
    let tmp1 := e1.a + e1.b
    let tmp2 := e1.a - e1.b
    ⟨tmp1 * tmp2, ab + ab⟩
  else
    let ab := e1.a * e1.b
    let tmp1 := e1.a + e1.b
    let _tmp2 := mulByNr nr e1.b
    let tmp2 := e1.a + tmp1
    let tmp1 := tmp1 * tmp2
    let tmp2 := mulByNr nr ab
    let tmp2 := ab + tmp2
    ⟨tmp1 - tmp2, ab + ab⟩

/-- `inv`, `f2field.cpp:178-188`. -/
def inv (nr : K) (e1 : F2El K) : F2El K :=
  let t0 := e1.a * e1.a
  let t1 := e1.b * e1.b
  let t2 := mulByNr nr t1
  let t2 := t0 - t2
  let t3 := t2⁻¹
  let ra := e1.a * t3
  let rb := e1.b * t3
  let rb := -rb
  ⟨ra, rb⟩

/-- `div`, `f2field.cpp:191-195`. -/
def div (nr : K) (e1 e2 : F2El K) : F2El K :=
  let tmp := inv nr e2
  mul nr e1 tmp

/-- `isZero`, `isOne`, `eq`: `f2field.cpp:198-210`. -/
def isZero (a : F2El K) : Bool := a.a == 0 && a.b == 0
def isOne (a : F2El K) : Bool := a.a == 1 && a.b == 0
def eq (a b : F2El K) : Bool := a.a == b.a && a.b == b.b

/-! ### On a store -/

abbrev Store (K : Type) := Nat → F2El K

def setA (m : Store K) (i : Nat) (v : K) : Store K := Function.update m i { m i with a := v }
def setB (m : Store K) (i : Nat) (v : K) : Store K := Function.update m i { m i with b := v }

/-- `add`, `sub`, `neg`, `conjugate`, `copy`, `dbl`: `f2field.cpp:70-97`, `142-145`. -/
def addM (m : Store K) (r a b : Nat) : Store K :=
  let m := setA m r ((m a).a + (m b).a)
  setB m r ((m a).b + (m b).b)
def subM (m : Store K) (r a b : Nat) : Store K :=
  let m := setA m r ((m a).a - (m b).a)
  setB m r ((m a).b - (m b).b)
def negM (m : Store K) (r a : Nat) : Store K :=
  let m := setA m r (-(m a).a)
  setB m r (-(m a).b)
def conjugateM (m : Store K) (r a : Nat) : Store K :=
  let m := setA m r (m a).a
  setB m r (-(m a).b)
def copyM (m : Store K) (r a : Nat) : Store K :=
  let m := setA m r (m a).a
  setB m r (m a).b
def dblM (m : Store K) (r a : Nat) : Store K :=
  let m := setA m r ((m a).a + (m a).a)
  setB m r ((m a).b + (m a).b)

/-- `mul`, `f2field.cpp:100-118`. -/
def mulM (nr : K) (m : Store K) (r e1 e2 : Nat) : Store K :=
  let aa := (m e1).a * (m e2).a
  let bb := (m e1).b * (m e2).b
  let bbr := mulByNr nr bb
  let sum1 := (m e1).a + (m e1).b
  let sum2 := (m e2).a + (m e2).b
  let m := setA m r (aa + bbr)
  let m := setB m r (sum1 * sum2)
  let m := setB m r ((m r).b - aa)
  setB m r ((m r).b - bb)

/-- `mulScalar`, `f2field.cpp:121-124`; the scalar is an object of its own, not a coordinate of the result. -/
def mulScalarM (m : Store K) (r a : Nat) (b : K) : Store K :=
  let m := setA m r ((m a).a * b)
  setB m r ((m a).b * b)

/-- `mulXi`, `f2field.cpp:127-139`; `t` is a local. -/
def mulXiM (m : Store K) (r a : Nat) : Store K :=
  let t := dbl (m a)
  let t := dbl t
  let t := dbl t
  let t := add t (m a)
  let t := { t with b := t.b + (m a).a }
  let t := { t with a := t.a - (m a).b }
  let m := setA m r t.a
  setB m r t.b

/-- `square`, `f2field.cpp:148-175`. -/
def squareM (nr : K) (m : Store K) (r e1 : Nat) : Store K :=
  if typeOfNr nr = .negone then
    let ab := (m e1).a * (m e1).b
    let tmp1 := (m e1).a + (m e1).b
    let tmp2 := (m e1).a - (m e1).b
    let m := setA m r (tmp1 * tmp2)
    setB m r (ab + ab)
  else
    let ab := (m e1).a * (m e1).b
    let tmp1 := (m e1).a + (m e1).b
    let _tmp2 := mulByNr nr (m e1).b
    let tmp2 := (m e1).a + tmp1
    let tmp1 := tmp1 * tmp2
    let tmp2 := mulByNr nr ab
    let tmp2 := ab + tmp2
    let m := setA m r (tmp1 - tmp2)
    setB m r (ab + ab)

/-- `inv`, `f2field.cpp:178-188`. -/
def invM (nr : K) (m : Store K) (r e1 : Nat) : Store K :=
  let t0 := (m e1).a * (m e1).a
  let t1 := (m e1).b * (m e1).b
  let t2 := mulByNr nr t1
  let t2 := t0 - t2
  let t3 := t2⁻¹
  let m := setA m r ((m e1).a * t3)
  let m := setB m r ((m e1).b * t3)
  setB m r (-(m r).b)

/-- `div`, `f2field.cpp:191-195`; `tmp` is a local, copied into the call of `mul`. -/
def divM (nr : K) (m : Store K) (r e1 e2 : Nat) : Store K :=
  let tmp := inv nr (m e2)
  let aa := (m e1).a * tmp.a
  let bb := (m e1).b * tmp.b
  let bbr := mulByNr nr bb
  let sum1 := (m e1).a + (m e1).b
  let sum2 := tmp.a + tmp.b
  let m := setA m r (aa + bbr)
  let m := setB m r (sum1 * sum2)
  let m := setB m r ((m r).b - aa)
  setB m r ((m r).b - bb)

end F2

namespace F6

/-- The multiplication and squaring of `F`, which the constructor builds as `F("-1")`, `f6field.cpp:6-7`. -/
abbrev fmul (a b : F2El K) : F2El K := F2.mul (-1) a b
abbrev fsquare (a : F2El K) : F2El K := F2.square (-1) a
abbrev finv (a : F2El K) : F2El K := F2.inv (-1) a

/-- `initField`, `f6field.cpp:26-36`. -/
def zero : F6El K := ⟨F2.zero, F2.zero, F2.zero⟩
def one : F6El K := ⟨F2.zero, F2.zero, F2.one⟩
def negOne : F6El K := ⟨F2.zero, F2.zero, F2.negOne⟩

/-- `add`, `sub`, `neg`, `dbl`: `f6field.cpp:61-79`, `186-190`. -/
def add (a b : F6El K) : F6El K := ⟨F2.add a.x b.x, F2.add a.y b.y, F2.add a.z b.z⟩
def sub (a b : F6El K) : F6El K := ⟨F2.sub a.x b.x, F2.sub a.y b.y, F2.sub a.z b.z⟩
def neg (a : F6El K) : F6El K := ⟨F2.neg a.x, F2.neg a.y, F2.neg a.z⟩
def dbl (a : F6El K) : F6El K := ⟨F2.dbl a.x, F2.dbl a.y, F2.dbl a.z⟩

/-- `mul`, `f6field.cpp:89-124`. -/
def mul (a b : F6El K) : F6El K :=
  let v0 := fmul a.z b.z
  let v1 := fmul a.y b.y
  let v2 := fmul a.x b.x
  let t0 := F2.add a.x a.y
  let t1 := F2.add b.x b.y
  let tz := fmul t0 t1
  let tz := F2.sub tz v1
  let tz := F2.sub tz v2
  let tz := F2.mulXi tz
  let tz := F2.add tz v0
  let t0 := F2.add a.y a.z
  let t1 := F2.add b.y b.z
  let ty := fmul t0 t1
  let ty := F2.sub ty v0
  let ty := F2.sub ty v1
  let t0 := F2.mulXi v2
  let ty := F2.add ty t0
  let t0 := F2.add a.x a.z
  let t1 := F2.add b.x b.z
  let tx := fmul t0 t1
  let tx := F2.sub tx v0
  let tx := F2.add tx v1
  let tx := F2.sub tx v2
  ⟨tx, ty, tz⟩

/-- `mulScalar`, `f6field.cpp:127-131`: the scalar is an element of `F2`. -/
def mulScalar (a : F6El K) (b : F2El K) : F6El K := ⟨fmul a.x b, fmul a.y b, fmul a.z b⟩

/-- `mulTau`, `f6field.cpp:134-143`. -/
def mulTau (a : F6El K) : F6El K :=
  let tz := F2.mulXi a.x
  let ty := a.y
  ⟨ty, a.z, tz⟩

/-- `mulGFP`, `f6field.cpp:146-150`. -/
def mulGFP (a : F6El K) (b : K) : F6El K := ⟨F2.mulScalar a.x b, F2.mulScalar a.y b, F2.mulScalar a.z b⟩

/-- `square`, `f6field.cpp:153-183`. -/
def square (a : F6El K) : F6El K :=
  let v0 := fsquare a.z
  let v1 := fsquare a.y
  let v2 := fsquare a.x
  let c0 := F2.add a.x a.y
  let c0 := fsquare c0
  let c0 := F2.sub c0 v1
  let c0 := F2.sub c0 v2
  let c0 := F2.mulXi c0
  let c0 := F2.add c0 v0
  let c1 := F2.add a.y a.z
  let c1 := fsquare c1
  let c1 := F2.sub c1 v0
  let c1 := F2.sub c1 v1
  let xiV2 := F2.mulXi v2
  let c1 := F2.add c1 xiV2
  let c2 := F2.add a.x a.z
  let c2 := fsquare c2
  let c2 := F2.sub c2 v0
  let c2 := F2.add c2 v1
  let c2 := F2.sub c2 v2
  ⟨c2, c1, c0⟩

/-- The constants of the constructor, `f6field.cpp:10-23`, read into `K` (the decimal reading is C18/C49). -/
def xiTo2PMinus2Over3 : F2El K :=
  ⟨((2581911344467009335267311115468803099551665605076196740867805258568234346338 : Nat) : K),
   ((19937756971775647987995932169929341994314640652964949448313374472400716661030 : Nat) : K)⟩
def xiToPMinus1Over3 : F2El K :=
  ⟨((21575463638280843010398324269430826099269044274347216827212613867836435027261 : Nat) : K),
   ((10307601595873709700152284273816112264069230130616436755625194854815875713954 : Nat) : K)⟩
def xiTo2PSquaredMinus2Over3 : K := ((2203960485148121921418603742825762020974279258880205651966 : Nat) : K)
def xiToPSquaredMinus1Over3 : K :=
  ((21888242871839275220042445260109153167277707414472061641714758635765020556616 : Nat) : K)

/-- `Frobenius`, `f6field.cpp:193-200`. -/
def Frobenius (a : F6El K) : F6El K :=
  let rx := F2.conjugate a.x
  let ry := F2.conjugate a.y
  let rz := F2.conjugate a.z
  let rx := fmul rx xiTo2PMinus2Over3
  let ry := fmul ry xiToPMinus1Over3
  ⟨rx, ry, rz⟩

/-- `FrobeniusP2`, `f6field.cpp:203-207`. -/
def FrobeniusP2 (a : F6El K) : F6El K :=
  ⟨F2.mulScalar a.x xiTo2PSquaredMinus2Over3, F2.mulScalar a.y xiToPSquaredMinus1Over3, a.z⟩

/-- `inv`, `f6field.cpp:210-240`. -/
def inv (a : F6El K) : F6El K :=
  let A := fsquare a.z
  let t1 := fmul a.x a.y
  let t1 := F2.mulXi t1
  let A := F2.sub A t1
  let B := fsquare a.x
  let B := F2.mulXi B
  let t1 := fmul a.y a.z
  let B := F2.sub B t1
  let C := fsquare a.y
  let t1 := fmul a.x a.z
  let C := F2.sub C t1
  let F := fmul C a.y
  let F := F2.mulXi F
  let t1 := fmul A a.z
  let F := F2.add F t1
  let t1 := fmul B a.x
  let t1 := F2.mulXi t1
  let F := F2.add F t1
  let F := finv F
  ⟨fmul C F, fmul B F, fmul A F⟩

/-- `div`, `f6field.cpp:243-247`. -/
def div (a b : F6El K) : F6El K :=
  let tmp := inv b
  mul a tmp

/-- `isZero`, `isOne`, `eq`: `f6field.cpp:250-262`. -/
def isZero (a : F6El K) : Bool := F2.isZero a.x && F2.isZero a.y && F2.isZero a.z
def isOne (a : F6El K) : Bool := F2.isZero a.x && F2.isZero a.y && F2.isOne a.z
def eq (a b : F6El K) : Bool := F2.eq a.x b.x && F2.eq a.y b.y && F2.eq a.z b.z

/-! ### On a store -/

abbrev Store (K : Type) := Nat → F6El K

def setX (m : Store K) (i : Nat) (v : F2El K) : Store K := Function.update m i { m i with x := v }
def setY (m : Store K) (i : Nat) (v : F2El K) : Store K := Function.update m i { m i with y := v }
def setZ (m : Store K) (i : Nat) (v : F2El K) : Store K := Function.update m i { m i with z := v }

/-- `add`, `sub`, `neg`, `copy`, `dbl`: `f6field.cpp:61-86`, `186-190`. -/
def addM (m : Store K) (r a b : Nat) : Store K :=
  let m := setX m r (F2.add (m a).x (m b).x)
  let m := setY m r (F2.add (m a).y (m b).y)
  setZ m r (F2.add (m a).z (m b).z)
def subM (m : Store K) (r a b : Nat) : Store K :=
  let m := setX m r (F2.sub (m a).x (m b).x)
  let m := setY m r (F2.sub (m a).y (m b).y)
  setZ m r (F2.sub (m a).z (m b).z)
def negM (m : Store K) (r a : Nat) : Store K :=
  let m := setX m r (F2.neg (m a).x)
  let m := setY m r (F2.neg (m a).y)
  setZ m r (F2.neg (m a).z)
def copyM (m : Store K) (r a : Nat) : Store K :=
  let m := setX m r (m a).x
  let m := setY m r (m a).y
  setZ m r (m a).z
def dblM (m : Store K) (r a : Nat) : Store K :=
  let m := setX m r (F2.dbl (m a).x)
  let m := setY m r (F2.dbl (m a).y)
  setZ m r (F2.dbl (m a).z)

/-- `mul`, `f6field.cpp:89-124`: the eight locals, then three copies. -/
def mulM (m : Store K) (r a b : Nat) : Store K :=
  let v0 := fmul (m a).z (m b).z
  let v1 := fmul (m a).y (m b).y
  let v2 := fmul (m a).x (m b).x
  let t0 := F2.add (m a).x (m a).y
  let t1 := F2.add (m b).x (m b).y
  let tz := fmul t0 t1
  let tz := F2.sub tz v1
  let tz := F2.sub tz v2
  let tz := F2.mulXi tz
  let tz := F2.add tz v0
  let t0 := F2.add (m a).y (m a).z
  let t1 := F2.add (m b).y (m b).z
  let ty := fmul t0 t1
  let ty := F2.sub ty v0
  let ty := F2.sub ty v1
  let t0 := F2.mulXi v2
  let ty := F2.add ty t0
  let t0 := F2.add (m a).x (m a).z
  let t1 := F2.add (m b).x (m b).z
  let tx := fmul t0 t1
  let tx := F2.sub tx v0
  let tx := F2.add tx v1
  let tx := F2.sub tx v2
  let m := setX m r tx
  let m := setY m r ty
  setZ m r tz

/-- `mulScalar`, `mulGFP`: `f6field.cpp:127-131`, `146-150`; the scalar is an object of its own. -/
def mulScalarM (m : Store K) (r a : Nat) (b : F2El K) : Store K :=
  let m := setX m r (fmul (m a).x b)
  let m := setY m r (fmul (m a).y b)
  setZ m r (fmul (m a).z b)
def mulGFPM (m : Store K) (r a : Nat) (b : K) : Store K :=
  let m := setX m r (F2.mulScalar (m a).x b)
  let m := setY m r (F2.mulScalar (m a).y b)
  setZ m r (F2.mulScalar (m a).z b)

/-- `mulTau`, `f6field.cpp:134-143`. -/
def mulTauM (m : Store K) (r a : Nat) : Store K :=
  let tz := F2.mulXi (m a).x
  let ty := (m a).y
  let m := setY m r (m a).z
  let m := setX m r ty
  setZ m r tz

/-- `square`, `f6field.cpp:153-183`. -/
def squareM (m : Store K) (r a : Nat) : Store K :=
  let v0 := fsquare (m a).z
  let v1 := fsquare (m a).y
  let v2 := fsquare (m a).x
  let c0 := F2.add (m a).x (m a).y
  let c0 := fsquare c0
  let c0 := F2.sub c0 v1
  let c0 := F2.sub c0 v2
  let c0 := F2.mulXi c0
  let c0 := F2.add c0 v0
  let c1 := F2.add (m a).y (m a).z
  let c1 := fsquare c1
  let c1 := F2.sub c1 v0
  let c1 := F2.sub c1 v1
  let xiV2 := F2.mulXi v2
  let c1 := F2.add c1 xiV2
  let c2 := F2.add (m a).x (m a).z
  let c2 := fsquare c2
  let c2 := F2.sub c2 v0
  let c2 := F2.add c2 v1
  let c2 := F2.sub c2 v2
  let m := setX m r c2
  let m := setY m r c1
  setZ m r c0

/-- `Frobenius`, `f6field.cpp:193-200`. -/
def FrobeniusM (m : Store K) (r a : Nat) : Store K :=
  let m := setX m r (F2.conjugate (m a).x)
  let m := setY m r (F2.conjugate (m a).y)
  let m := setZ m r (F2.conjugate (m a).z)
  let m := setX m r (fmul (m r).x xiTo2PMinus2Over3)
  setY m r (fmul (m r).y xiToPMinus1Over3)

/-- `FrobeniusP2`, `f6field.cpp:203-207`. -/
def FrobeniusP2M (m : Store K) (r a : Nat) : Store K :=
  let m := setX m r (F2.mulScalar (m a).x xiTo2PSquaredMinus2Over3)
  let m := setY m r (F2.mulScalar (m a).y xiToPSquaredMinus1Over3)
  setZ m r (m a).z

/-- `inv`, `f6field.cpp:210-240`. -/
def invM (m : Store K) (r a : Nat) : Store K :=
  let A := fsquare (m a).z
  let t1 := fmul (m a).x (m a).y
  let t1 := F2.mulXi t1
  let A := F2.sub A t1
  let B := fsquare (m a).x
  let B := F2.mulXi B
  let t1 := fmul (m a).y (m a).z
  let B := F2.sub B t1
  let C := fsquare (m a).y
  let t1 := fmul (m a).x (m a).z
  let C := F2.sub C t1
  let F := fmul C (m a).y
  let F := F2.mulXi F
  let t1 := fmul A (m a).z
  let F := F2.add F t1
  let t1 := fmul B (m a).x
  let t1 := F2.mulXi t1
  let F := F2.add F t1
  let F := finv F
  let m := setX m r (fmul C F)
  let m := setY m r (fmul B F)
  setZ m r (fmul A F)

/-- `div`, `f6field.cpp:243-247`: `inv` into the local `tmp` (a fresh cell `t`), then `mul`. -/
def divM (m : Store K) (t r a b : Nat) : Store K :=
  let m := invM m t b
  mulM m r a t

end F6

namespace F12

/-- `initField`, `f12field.cpp:17-24`. -/
def zero : F12El K := ⟨F6.zero, F6.zero⟩
def one : F12El K := ⟨F6.zero, F6.one⟩
def negOne : F12El K := ⟨F6.zero, F6.negOne⟩

/-- `add`, `sub`, `neg`, `conjugate`: `f12field.cpp:44-65`. -/
def add (a b : F12El K) : F12El K := ⟨F6.add a.x b.x, F6.add a.y b.y⟩
def sub (a b : F12El K) : F12El K := ⟨F6.sub a.x b.x, F6.sub a.y b.y⟩
def neg (a : F12El K) : F12El K := ⟨F6.neg a.x, F6.neg a.y⟩
def conjugate (a : F12El K) : F12El K := ⟨F6.neg a.x, a.y⟩

/-- `mul`, `f12field.cpp:74-86`. -/
def mul (a b : F12El K) : F12El K :=
  let tx := F6.mul a.x b.y
  let t := F6.mul b.x a.y
  let tx := F6.add tx t
  let ty := F6.mul a.y b.y
  let t := F6.mul a.x b.x
  let t := F6.mulTau t
  ⟨tx, F6.add ty t⟩

/-- `mulScalar`, `f12field.cpp:89-92`. -/
def mulScalar (a : F12El K) (b : F6El K) : F12El K := ⟨F6.mul a.x b, F6.mul a.y b⟩

/-- `square`, `f12field.cpp:113-128`. -/
def square (a : F12El K) : F12El K :=
  let v0 := F6.mul a.x a.y
  let t := F6.mulTau a.x
  let t := F6.add a.y t
  let ty := F6.add a.x a.y
  let ty := F6.mul ty t
  let ty := F6.sub ty v0
  let t := F6.mulTau v0
  let ty := F6.sub ty t
  ⟨F6.dbl v0, ty⟩

/-- The constants of the constructor, `f12field.cpp:8-13`. -/
def xiToPMinus1Over6 : F2El K :=
  ⟨((8376118865763821496583973867626364092589906065868298776909617916018768340080 : Nat) : K),
   ((16469823323077808223889137241176536799009286646108169935659301613961712198316 : Nat) : K)⟩
def xiToPSquaredMinus1Over6 : K :=
  ((21888242871839275220042445260109153167277707414472061641714758635765020556617 : Nat) : K)

/-- `Frobenius`, `f12field.cpp:131-135`. -/
def Frobenius (a : F12El K) : F12El K :=
  let rx := F6.Frobenius a.x
  let ry := F6.Frobenius a.y
  let rx := F6.mulScalar rx xiToPMinus1Over6
  ⟨rx, ry⟩

/-- `FrobeniusP2`, `f12field.cpp:138-142`. -/
def FrobeniusP2 (a : F12El K) : F12El K :=
  let rx := F6.FrobeniusP2 a.x
  let rx := F6.mulGFP rx xiToPSquaredMinus1Over6
  let ry := F6.FrobeniusP2 a.y
  ⟨rx, ry⟩

/-- `inv`, `f12field.cpp:145-157`. -/
def inv (a : F12El K) : F12El K :=
  let t1 := F6.square a.x
  let t2 := F6.square a.y
  let t1 := F6.mulTau t1
  let t1 := F6.sub t2 t1
  let t2 := F6.inv t1
  mulScalar ⟨F6.neg a.x, a.y⟩ t2

/-- `div`, `f12field.cpp:160-164`. -/
def div (a b : F12El K) : F12El K :=
  let tmp := inv b
  mul a tmp

/-- `isZero`, `isOne`, `eq`: `f12field.cpp:167-179`. -/
def isZero (a : F12El K) : Bool := F6.isZero a.x && F6.isZero a.y
def isOne (a : F12El K) : Bool := F6.isZero a.x && F6.isOne a.y
def eq (a b : F12El K) : Bool := F6.eq a.x b.x && F6.eq a.y b.y

/-! ### On a store -/

abbrev Store (K : Type) := Nat → F12El K

def setX (m : Store K) (i : Nat) (v : F6El K) : Store K := Function.update m i { m i with x := v }
def setY (m : Store K) (i : Nat) (v : F6El K) : Store K := Function.update m i { m i with y := v }

/-- `add`, `sub`, `neg`, `conjugate`, `copy`: `f12field.cpp:44-71`. -/
def addM (m : Store K) (r a b : Nat) : Store K :=
  let m := setX m r (F6.add (m a).x (m b).x)
  setY m r (F6.add (m a).y (m b).y)
def subM (m : Store K) (r a b : Nat) : Store K :=
  let m := setX m r (F6.sub (m a).x (m b).x)
  setY m r (F6.sub (m a).y (m b).y)
def negM (m : Store K) (r a : Nat) : Store K :=
  let m := setX m r (F6.neg (m a).x)
  setY m r (F6.neg (m a).y)
def conjugateM (m : Store K) (r a : Nat) : Store K :=
  let m := setX m r (F6.neg (m a).x)
  setY m r (m a).y
def copyM (m : Store K) (r a : Nat) : Store K :=
  let m := setX m r (m a).x
  setY m r (m a).y

/-- `mul`, `f12field.cpp:74-86`. -/
def mulM (m : Store K) (r a b : Nat) : Store K :=
  let tx := F6.mul (m a).x (m b).y
  let t := F6.mul (m b).x (m a).y
  let tx := F6.add tx t
  let ty := F6.mul (m a).y (m b).y
  let t := F6.mul (m a).x (m b).x
  let t := F6.mulTau t
  let m := setY m r (F6.add ty t)
  setX m r tx

/-- `mulScalar`, `f12field.cpp:89-92`; the scalar is an object of its own. -/
def mulScalarM (m : Store K) (r a : Nat) (b : F6El K) : Store K :=
  let m := setX m r (F6.mul (m a).x b)
  setY m r (F6.mul (m a).y b)

/-- `square`, `f12field.cpp:113-128`. -/
def squareM (m : Store K) (r a : Nat) : Store K :=
  let v0 := F6.mul (m a).x (m a).y
  let t := F6.mulTau (m a).x
  let t := F6.add (m a).y t
  let ty := F6.add (m a).x (m a).y
  let ty := F6.mul ty t
  let ty := F6.sub ty v0
  let t := F6.mulTau v0
  let ty := F6.sub ty t
  let m := setY m r ty
  setX m r (F6.dbl v0)

/-- The loop of `exp`, `f12field.cpp:101-109`; `t` is a local, the first argument counts the iterations left. -/
def expLoop (scalar : List (BitVec 8)) (r a : Nat) : Nat → Store K → Store K
  | 0, m => m
  | i + 1, m =>
    let t := square (m r)
    let m := if bitIsSet scalar i then Function.update m r (mul t (m a)) else Function.update m r t
    expLoop scalar r a i m

/-- `exp`, `f12field.cpp:94-110`.  The calls
`mul(r, t, a)` and `copy(r, t)` have the local `t` as operand and are the value versions, as C26 proves. -/
def expM (m : Store K) (r a : Nat) (scalar : List (BitVec 8)) : Store K :=
  let m := Function.update m r one
  expLoop scalar r a (intBits scalar.length) m

/-- `Frobenius`, `f12field.cpp:131-135`. -/
def FrobeniusM (m : Store K) (r a : Nat) : Store K :=
  let m := setX m r (F6.Frobenius (m a).x)
  let m := setY m r (F6.Frobenius (m a).y)
  setX m r (F6.mulScalar (m r).x xiToPMinus1Over6)

/-- `FrobeniusP2`, `f12field.cpp:138-142`. -/
def FrobeniusP2M (m : Store K) (r a : Nat) : Store K :=
  let m := setX m r (F6.FrobeniusP2 (m a).x)
  let m := setX m r (F6.mulGFP (m r).x xiToPSquaredMinus1Over6)
  setY m r (F6.FrobeniusP2 (m a).y)

/-- `inv`, `f12field.cpp:145-157`. -/
def invM (m : Store K) (r a : Nat) : Store K :=
  let t1 := F6.square (m a).x
  let t2 := F6.square (m a).y
  let t1 := F6.mulTau t1
  let t1 := F6.sub t2 t1
  let t2 := F6.inv t1
  let m := setX m r (F6.neg (m a).x)
  let m := setY m r (m a).y
  mulScalarM m r r t2

/-- `div`, `f12field.cpp:160-164`: `inv` into the local `tmp` (a fresh cell `t`), then `mul`. -/
def divM (m : Store K) (t r a b : Nat) : Store K :=
  let m := invM m t b
  mulM m r a t

end F12

end FF
