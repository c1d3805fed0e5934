import Verif.Tagged

/-!
# The tagged element layer on top of another set of raw routines

On ARM64 the program is `fr_generic.cpp.ejs` linked with the routines of `fr_raw_arm64.s.ejs` (`fr.hpp.ejs:63-122`).  `RawImpl` is a set of
raw routines whose results depend only on the contents of the operand arrays; the definitions are those of `Tagged.lean` with every
call of a raw routine that `fr.hpp.ejs` declares `extern "C"` for ARM64 replaced by the entry of `RawImpl`.  `rawMSquare` and `rawZero`
stay C++ functions there: the first calls `rawMMul` (`fr_raw_generic.cpp.ejs:155-158`), the second clears the array
(`fr_generic.cpp.ejs:1625`).  The repository has no build recipe for ARM64; the file `fr_raw_generic.cpp` also defines the routines of
the assembly file, so a program can take only `rawMSquare` and `rawToMontgomery` from it.
-/

set_option linter.unusedVariables false

namespace FF

/-- The raw routines declared `extern "C"` in `fr.hpp.ejs:92-119` and called by `fr_generic.cpp.ejs`, as functions of the contents of their
operands. -/
structure RawImpl where
  add : Limbs → Limbs → Limbs
  sub : Limbs → Limbs → Limbs
  addLS : Limbs → BitVec 64 → Limbs
  subLS : Limbs → BitVec 64 → Limbs
  subSL : BitVec 64 → Limbs → Limbs
  subRegular : Limbs → Limbs → Limbs
  neg : Limbs → Limbs
  negLS : Limbs → BitVec 64 → Limbs
  mmul : Limbs → Limbs → Limbs
  mmul1 : Limbs → BitVec 64 → Limbs
  fromMontgomery : Limbs → Limbs
  copy : Limbs → Limbs
  copyS2L : BitVec 64 → Limbs
  isZero : Limbs → Bool
  cmp : Limbs → Limbs → Ordering
  and : Limbs → Limbs → Limbs
  or : Limbs → Limbs → Limbs
  xor : Limbs → Limbs → Limbs
  not : Limbs → Limbs
  shl : Limbs → BitVec 64 → Limbs
  shr : Limbs → BitVec 64 → Limbs

namespace Over

/-- Value left in `*r` by `Fr_toNormal`, given the old `*r` and `*a`, `fr_generic.cpp.ejs:19-30`. -/
def toNormalInto (q : Nat) (I : RawImpl) (r a : Elem) : Elem :=
  if a.long && a.mont then
    { r with long := true, mont := false, longVal := I.fromMontgomery a.longVal }
  else a

/-- `Fr_toNormal`, `fr_generic.cpp.ejs:19-30`. -/
def Fr_toNormal (q : Nat) (I : RawImpl) (m : Mem) (r a : Nat) : Mem :=
  if (m a).long && (m a).mont then
    let m := m.setTy r true false
    m.setLong r (I.fromMontgomery (m a).longVal)
  else Fr_copy m r a

/-- `Fr_toLongNormal` as a function of the old `*r` and of `*a`, `fr_generic.cpp.ejs:274-294`. -/
def toLongNormalInto (q : Nat) (I : RawImpl) (r a : Elem) : Elem :=
  if a.long then
    if a.mont then { r with longVal := I.fromMontgomery a.longVal, long := true, mont := false }
    else a
  else { shortVal := 0, long := true, mont := false, longVal := I.copyS2L (sx a.shortVal) }

/-- `Fr_toLongNormal`, `fr_generic.cpp.ejs:274-294`. -/
def Fr_toLongNormal (q : Nat) (I : RawImpl) (m : Mem) (r a : Nat) : Mem :=
  if (m a).long then
    if (m a).mont then
      let m := m.setLong r (I.fromMontgomery (m a).longVal)
      m.setTy r true false
    else Fr_copy m r a
  else
    let m := m.setLong r (I.copyS2L (sx (m a).shortVal))
    let m := m.setTy r true false
    m.setShort r 0

/-- `Fr_toMontgomery` as a function of the old `*r` and of `*a`, `fr_generic.cpp.ejs:296-324`. -/
def toMontgomeryInto (q : Nat) (I : RawImpl) (r a : Elem) : Elem :=
  if a.mont then a
  else if a.long then
    { shortVal := a.shortVal, long := true, mont := true, longVal := I.mmul a.longVal (rawR2 q) }
  else if a.shortVal.toInt < 0 then
    { r with long := false, mont := true, longVal := I.neg (I.mmul1 (rawR2 q) (-(sx a.shortVal))) }
  else
    { r with long := false, mont := true, longVal := I.mmul1 (rawR2 q) (sx a.shortVal) }

/-- `Fr_toMontgomery`, `fr_generic.cpp.ejs:296-324`. -/
def Fr_toMontgomery (q : Nat) (I : RawImpl) (m : Mem) (r a : Nat) : Mem :=
  if (m a).mont then Fr_copy m r a
  else if (m a).long then
    let m := m.setShort r (m a).shortVal
    let m := m.setLong r (I.mmul (m a).longVal (rawR2 q))
    m.setTy r true true
  else if (m a).shortVal.toInt < 0 then
    let m := m.setLong r (I.mmul1 (rawR2 q) (-(sx (m a).shortVal)))
    let m := m.setLong r (I.neg (m r).longVal)
    m.setTy r false true
  else
    let m := m.setLong r (I.mmul1 (rawR2 q) (sx (m a).shortVal))
    m.setTy r false true

/-! ## Multiplication -/

/-- `rawCopyS2L(r->longVal, v); r->type = LONG; r->shortVal = 0`, e.g. `fr_generic.cpp.ejs:58-60`. -/
def storeS2L (q : Nat) (I : RawImpl) (m : Mem) (r : Nat) (v : BitVec 64) : Mem :=
  let m := m.setLong r (I.copyS2L v)
  let m := m.setTy r true false
  m.setShort r 0

/-- `mul_s1s2`, `fr_generic.cpp.ejs:51-74`. -/
def mul_s1s2 (q : Nat) (I : RawImpl) (m : Mem) (r a b : Nat) : Mem :=
  let result := sx (m a).shortVal * sx (m b).shortVal
  if hasMul32Overflow result then storeS2L q I m r result
  else
    let m := m.setShort r (result.truncate 32)
    let m := m.setTy r false false
    storeS2L q I m r result

/-- `mul_l1nl2n`, `fr_generic.cpp.ejs:76-82`. -/
def mul_l1nl2n (q : Nat) (I : RawImpl) (m : Mem) (r a b : Nat) : Mem :=
  let m := m.setTy r true true
  let m := m.setLong r (I.mmul (m a).longVal (m b).longVal)
  m.setLong r (I.mmul (m r).longVal (rawR3 q))

/-- `r->type = ty; Fr_rawMMul(r->longVal, a->longVal, b->longVal)`: the body shared by `mul_l1nl2m` (`LONG`, 84-88),
`mul_l1ml2m` (`LONGMONTGOMERY`, 90-94), `mul_l1ml2n` (96-100), `mul_l1ns2m` (170-174), `mul_l1ms2m` (176-180),
`mul_s1ml2m` (182-186) and `mul_s1ml2n` (188-192) of `fr_generic.cpp.ejs`. -/
def mul_ll (q : Nat) (I : RawImpl) (mont : Bool) (m : Mem) (r a b : Nat) : Mem :=
  let m := m.setTy r true mont
  m.setLong r (I.mmul (m a).longVal (m b).longVal)

/-- The branch shared by `mul_l1ns2n`, `mul_s1nl2n`, `mul_l1ms2n`, `mul_s1nl2m` (`fr_generic.cpp.ejs:102-168`):
multiply the long operand `l` by the short operand `s`. -/
def mul_ls (q : Nat) (I : RawImpl) (mont : Bool) (m : Mem) (r l s : Nat) : Mem :=
  let m := m.setTy r true mont
  if (m s).shortVal.toInt < 0 then
    let m := m.setLong r (I.mmul1 (m l).longVal (-(sx (m s).shortVal)))
    m.setLong r (I.neg (m r).longVal)
  else
    m.setLong r (I.mmul1 (m l).longVal (sx (m s).shortVal))

/-- `mul_l1ns2n`, `fr_generic.cpp.ejs:102-118`. -/
def mul_l1ns2n (q : Nat) (I : RawImpl) (m : Mem) (r a b : Nat) : Mem :=
  let m := mul_ls q I true m r a b
  m.setLong r (I.mmul (m r).longVal (rawR3 q))

/-- `mul_s1nl2n`, `fr_generic.cpp.ejs:120-136`. -/
def mul_s1nl2n (q : Nat) (I : RawImpl) (m : Mem) (r a b : Nat) : Mem :=
  let m := mul_ls q I true m r b a
  m.setLong r (I.mmul (m r).longVal (rawR3 q))

/-- `mul_l1ms2n`, `fr_generic.cpp.ejs:138-152`. -/
def mul_l1ms2n (q : Nat) (I : RawImpl) (m : Mem) (r a b : Nat) : Mem := mul_ls q I false m r a b

/-- `mul_s1nl2m`, `fr_generic.cpp.ejs:154-168`. -/
def mul_s1nl2m (q : Nat) (I : RawImpl) (m : Mem) (r a b : Nat) : Mem := mul_ls q I false m r b a

/-- `Fr_mul`, `fr_generic.cpp.ejs:194-272`. -/
def Fr_mul (q : Nat) (I : RawImpl) (m : Mem) (r a b : Nat) : Mem :=
  if (m a).long then
    if (m b).long then
      if (m a).mont then
        if (m b).mont then mul_ll q I true m r a b else mul_ll q I false m r a b
      else
        if (m b).mont then mul_ll q I false m r a b else mul_l1nl2n q I m r a b
    else if (m a).mont then
      if (m b).mont then mul_ll q I true m r a b else mul_l1ms2n q I m r a b
    else
      if (m b).mont then mul_ll q I false m r a b else mul_l1ns2n q I m r a b
  else if (m b).long then
    if (m a).mont then
      if (m b).mont then mul_ll q I true m r a b else mul_ll q I false m r a b
    else if (m b).mont then mul_s1nl2m q I m r a b
    else mul_s1nl2n q I m r a b
  else mul_s1s2 q I m r a b

/-- `Fr_square`, `fr_generic.cpp.ejs:1944-1984`. -/
def Fr_square (q : Nat) (I : RawImpl) (m : Mem) (r a : Nat) : Mem :=
  if (m a).long then
    if (m a).long && (m a).mont then
      let m := m.setTy r true true
      m.setLong r (I.mmul (m a).longVal (m a).longVal)
    else
      let m := m.setTy r true true
      let m := m.setLong r (I.mmul (m a).longVal (m a).longVal)
      m.setLong r (I.mmul (m r).longVal (rawR3 q))
  else
    let result := sx (m a).shortVal * sx (m a).shortVal
    if hasMul32Overflow result then storeS2L q I m r result
    else
      let m := m.setShort r (result.truncate 32)
      let m := m.setTy r false false
      storeS2L q I m r result

/-! ## Subtraction and addition -/

/-- The tail shared by `sub_s1s2`, `add_s1s2` and the short branch of `Fr_neg`, e.g. `fr_generic.cpp.ejs:351-361`. -/
def storeSum (q : Nat) (I : RawImpl) (m : Mem) (r : Nat) (v : BitVec 64) : Mem :=
  if hasAdd32Overflow v then storeS2L q I m r v
  else
    let m := m.setTy r false false
    m.setShort r (v.truncate 32)

/-- `sub_s1s2`, `fr_generic.cpp.ejs:345-362`. -/
def sub_s1s2 (q : Nat) (I : RawImpl) (m : Mem) (r a b : Nat) : Mem := storeSum q I m r (sx (m a).shortVal - sx (m b).shortVal)

/-- `r->type = ty; Fr_rawSub(r->longVal, a->longVal, b->longVal)`: `sub_l1nl2n` (364-369), `sub_l1ml2m` (381-386),
`sub_l1ms2m` (448-453), `sub_s1ml2m` (455-460). -/
def sub_ll (q : Nat) (I : RawImpl) (mont : Bool) (m : Mem) (r a b : Nat) : Mem :=
  let m := m.setTy r true mont
  m.setLong r (I.sub (m a).longVal (m b).longVal)

/-- `sub_l1nl2m` (371-379) and `sub_s1nl2m` (423-431): the first operand is converted after `r->type` was written. -/
def sub_conv1 (q : Nat) (I : RawImpl) (u : Elem) (m : Mem) (r a b : Nat) : Mem :=
  let m := m.setTy r true true
  let a_m := toMontgomeryInto q I u (m a)
  m.setLong r (I.sub a_m.longVal (m b).longVal)

/-- `sub_l1ml2n` (388-396) and `sub_l1ms2n` (413-421): the second operand is converted after `r->type` was written. -/
def sub_conv2 (q : Nat) (I : RawImpl) (u : Elem) (m : Mem) (r a b : Nat) : Mem :=
  let m := m.setTy r true true
  let b_m := toMontgomeryInto q I u (m b)
  m.setLong r (I.sub (m a).longVal b_m.longVal)

/-- `sub_s1l2n`, `fr_generic.cpp.ejs:398-411`. -/
def sub_s1l2n (q : Nat) (I : RawImpl) (m : Mem) (r a b : Nat) : Mem :=
  let m := m.setTy r true false
  if 0 ≤ (m a).shortVal.toInt then
    m.setLong r (I.subSL (sx (m a).shortVal) (m b).longVal)
  else
    m.setLong r (I.negLS (m b).longVal (-(sx (m a).shortVal)))

/-- `sub_l1ns2`, `fr_generic.cpp.ejs:433-446`. -/
def sub_l1ns2 (q : Nat) (I : RawImpl) (m : Mem) (r a b : Nat) : Mem :=
  let m := m.setTy r true false
  if (m b).shortVal.toInt < 0 then
    m.setLong r (I.addLS (m a).longVal (-(sx (m b).shortVal)))
  else
    m.setLong r (I.subLS (m a).longVal (sx (m b).shortVal))

/-- `Fr_sub`, `fr_generic.cpp.ejs:462-526`. -/
def Fr_sub (q : Nat) (I : RawImpl) (u : Elem) (m : Mem) (r a b : Nat) : Mem :=
  if (m a).long then
    if (m b).long then
      if (m a).mont then
        if (m b).mont then sub_ll q I true m r a b else sub_conv2 q I u m r a b
      else if (m b).mont then sub_conv1 q I u m r a b
      else sub_ll q I false m r a b
    else if (m a).mont then
      if (m b).mont then sub_ll q I true m r a b else sub_conv2 q I u m r a b
    else sub_l1ns2 q I m r a b
  else if (m b).long then
    if (m b).mont then
      if (m a).mont then sub_ll q I true m r a b else sub_conv1 q I u m r a b
    else sub_s1l2n q I m r a b
  else sub_s1s2 q I m r a b

/-- `add_s1s2`, `fr_generic.cpp.ejs:535-552`. -/
def add_s1s2 (q : Nat) (I : RawImpl) (m : Mem) (r a b : Nat) : Mem := storeSum q I m r (sx (m a).shortVal + sx (m b).shortVal)

/-- `r->type = ty; Fr_rawAdd(r->longVal, a->longVal, b->longVal)`: `add_l1nl2n` (554-559), `add_l1ml2m` (571-575),
`add_l1ms2m` (638-643), `add_s1ml2m` (645-650). -/
def add_ll (q : Nat) (I : RawImpl) (mont : Bool) (m : Mem) (r a b : Nat) : Mem :=
  let m := m.setTy r true mont
  m.setLong r (I.add (m a).longVal (m b).longVal)

/-- `add_l1nl2m` (561-569) and `add_s1nl2m` (613-621). -/
def add_conv1 (q : Nat) (I : RawImpl) (u : Elem) (m : Mem) (r a b : Nat) : Mem :=
  let m := m.setTy r true true
  let a_m := toMontgomeryInto q I u (m a)
  m.setLong r (I.add a_m.longVal (m b).longVal)

/-- `add_l1ml2n` (577-585) and `add_l1ms2n` (602-611). -/
def add_conv2 (q : Nat) (I : RawImpl) (u : Elem) (m : Mem) (r a b : Nat) : Mem :=
  let m := m.setTy r true true
  let b_m := toMontgomeryInto q I u (m b)
  m.setLong r (I.add (m a).longVal b_m.longVal)

/-- The body shared by `add_s1l2n` (587-600) and `add_l1ns2` (623-636): long operand `l`, short operand `s`. -/
def add_ls (q : Nat) (I : RawImpl) (m : Mem) (r l s : Nat) : Mem :=
  let m := m.setTy r true false
  if 0 ≤ (m s).shortVal.toInt then
    m.setLong r (I.addLS (m l).longVal (sx (m s).shortVal))
  else
    m.setLong r (I.subLS (m l).longVal (-(sx (m s).shortVal)))

/-- `Fr_add`, `fr_generic.cpp.ejs:652-719`. -/
def Fr_add (q : Nat) (I : RawImpl) (u : Elem) (m : Mem) (r a b : Nat) : Mem :=
  if (m a).long then
    if (m b).long then
      if (m a).mont then
        if (m b).mont then add_ll q I true m r a b else add_conv2 q I u m r a b
      else
        if (m b).mont then add_conv1 q I u m r a b else add_ll q I false m r a b
    else if (m a).mont then
      if (m b).mont then add_ll q I true m r a b else add_conv2 q I u m r a b
    else add_ls q I m r a b
  else if (m b).long then
    if (m b).mont then
      if (m a).mont then add_ll q I true m r a b else add_conv1 q I u m r a b
    else add_ls q I m r b a
  else add_s1s2 q I m r a b

/-- `Fr_neg`, `fr_generic.cpp.ejs:1007-1033`. -/
def Fr_neg (q : Nat) (I : RawImpl) (m : Mem) (r a : Nat) : Mem :=
  if (m a).long then
    let m := m.setTy r (m a).long (m a).mont
    let m := m.setShort r (m a).shortVal
    m.setLong r (I.neg (m a).longVal)
  else storeSum q I m r (-(sx (m a).shortVal))

/-! ## Predicates -/

/-- `Fr_isTrue`, `fr_generic.cpp.ejs:721-735`. -/
def Fr_isTrue (I : RawImpl) (e : Elem) : Bool := if e.long then !I.isZero e.longVal else e.shortVal != 0

/-- `Fr_longNeg`, `fr_generic.cpp.ejs:737-756`; `none` is the failed assertion of `Fr_longErr`. -/
def Fr_longNeg (q : Nat) (I : RawImpl) (e : Elem) : Option (BitVec 32) :=
  if I.cmp e.longVal (rawq q) != .lt then none
  else
    let result : BitVec 64 := limbAt e.longVal 0 - limbAt (rawq q) 0
    let is_long := result.sshiftRight 31 + 1
    if is_long != 0 then none else some (result.truncate 32)

/-- `Fr_longNormal`, `fr_generic.cpp.ejs:758-778`. -/
def Fr_longNormal (q : Nat) (I : RawImpl) (e : Elem) : Option (BitVec 32) :=
  let result := limbAt e.longVal 0
  if result >>> 31 != 0 then Fr_longNeg q I e
  else if e.longVal.tail.any (· != 0) then Fr_longNeg q I e
  else some (result.truncate 32)

/-- `Fr_toInt`, `fr_generic.cpp.ejs:781-805`. -/
def Fr_toInt (q : Nat) (I : RawImpl) (u : Elem) (e : Elem) : Option (BitVec 32) :=
  if e.long then
    if e.mont then Fr_longNormal q I (toNormalInto q I u e) else Fr_longNormal q I e
  else some e.shortVal

/-- `rltl1l2_n1`, `rltl1l2_p1`, `rltL1L2` with `rltRawL1L2`, `fr_generic.cpp.ejs:812-853`. -/
def rltL1L2 (q : Nat) (I : RawImpl) (a b : Limbs) : Bool :=
  let raw := I.cmp b a == .gt
  if I.cmp (half q) a == .lt then
    if I.cmp (half q) b == .lt then raw else true
  else
    if I.cmp (half q) b == .lt then false else raw

/-- `rgtl1l2_n1`, `rgtl1l2_p1`, `rgtL1L2` with `rgtRawL1L2`, `fr_generic.cpp.ejs:1223-1262`. -/
def rgtL1L2 (q : Nat) (I : RawImpl) (a b : Limbs) : Bool :=
  let raw := I.cmp b a == .lt
  if I.cmp (half q) a == .lt then
    if I.cmp (half q) b == .lt then raw else false
  else
    if I.cmp (half q) b == .lt then true else raw

/-- `Fr_rlt`, `fr_generic.cpp.ejs:929-983`, with its callees at 807-927. -/
def Fr_rlt (q : Nat) (I : RawImpl) (u : Elem) (a b : Elem) : Bool :=
  if a.long then
    if b.long then
      if a.mont then
        if b.mont then rltL1L2 q I (toNormalInto q I u a).longVal (toNormalInto q I u b).longVal
        else rltL1L2 q I (toNormalInto q I u a).longVal b.longVal
      else if b.mont then rltL1L2 q I a.longVal (toNormalInto q I u b).longVal
      else rltL1L2 q I a.longVal b.longVal
    else if a.mont then rltL1L2 q I (toNormalInto q I u a).longVal (toLongNormalInto q I u b).longVal
    else rltL1L2 q I a.longVal (toLongNormalInto q I u b).longVal
  else if b.long then
    if b.mont then rltL1L2 q I (toLongNormalInto q I u a).longVal (toNormalInto q I u b).longVal
    else rltL1L2 q I (toLongNormalInto q I u a).longVal b.longVal
  else decide (a.shortVal.toInt < b.shortVal.toInt)

/-- `Fr_rgt`, `fr_generic.cpp.ejs:1334-1388`, with its callees at 1218-1332. -/
def Fr_rgt (q : Nat) (I : RawImpl) (u : Elem) (a b : Elem) : Bool :=
  if a.long then
    if b.long then
      if a.mont then
        if b.mont then rgtL1L2 q I (toNormalInto q I u a).longVal (toNormalInto q I u b).longVal
        else rgtL1L2 q I (toNormalInto q I u a).longVal b.longVal
      else if b.mont then rgtL1L2 q I a.longVal (toNormalInto q I u b).longVal
      else rgtL1L2 q I a.longVal b.longVal
    else if a.mont then rgtL1L2 q I (toNormalInto q I u a).longVal (toLongNormalInto q I u b).longVal
    else rgtL1L2 q I a.longVal (toLongNormalInto q I u b).longVal
  else if b.long then
    if b.mont then rgtL1L2 q I (toLongNormalInto q I u a).longVal (toNormalInto q I u b).longVal
    else rgtL1L2 q I (toLongNormalInto q I u a).longVal b.longVal
  else decide (a.shortVal.toInt > b.shortVal.toInt)

/-- `Fr_lt`, `fr_generic.cpp.ejs:985-989`. -/
def Fr_lt (q : Nat) (I : RawImpl) (u : Elem) (m : Mem) (r a b : Nat) : Mem := storeBool m r (Fr_rlt q I u (m a) (m b))
/-- `Fr_geq`, `fr_generic.cpp.ejs:991-998`. -/
def Fr_geq (q : Nat) (I : RawImpl) (u : Elem) (m : Mem) (r a b : Nat) : Mem := storeBool m r (!Fr_rlt q I u (m a) (m b))
/-- `Fr_gt`, `fr_generic.cpp.ejs:1390-1394`. -/
def Fr_gt (q : Nat) (I : RawImpl) (u : Elem) (m : Mem) (r a b : Nat) : Mem := storeBool m r (Fr_rgt q I u (m a) (m b))
/-- `Fr_leq`, `fr_generic.cpp.ejs:1396-1403`. -/
def Fr_leq (q : Nat) (I : RawImpl) (u : Elem) (m : Mem) (r a b : Nat) : Mem := storeBool m r (!Fr_rgt q I u (m a) (m b))

/-- `reqL1L2`, `fr_generic.cpp.ejs:1035-1038`. -/
def reqL1L2 (I : RawImpl) (a b : Limbs) : Bool := I.cmp b a == .eq

/-- `Fr_req`, `fr_generic.cpp.ejs:1104-1158`, with its nine callees at 1040-1101. -/
def Fr_req (q : Nat) (I : RawImpl) (u : Elem) (a b : Elem) : Bool :=
  if a.long then
    if b.long then
      if a.mont then
        if b.mont then reqL1L2 I a.longVal b.longVal
        else reqL1L2 I a.longVal (toMontgomeryInto q I u b).longVal
      else if b.mont then reqL1L2 I (toMontgomeryInto q I u a).longVal b.longVal
      else reqL1L2 I a.longVal b.longVal
    else if a.mont then reqL1L2 I a.longVal (toMontgomeryInto q I u b).longVal
    else reqL1L2 I a.longVal (toLongNormalInto q I u b).longVal
  else if b.long then
    if b.mont then reqL1L2 I (toMontgomeryInto q I u a).longVal b.longVal
    else reqL1L2 I (toLongNormalInto q I u a).longVal b.longVal
  else a.shortVal == b.shortVal

/-- `Fr_eq`, `fr_generic.cpp.ejs:1160-1164`. -/
def Fr_eq (q : Nat) (I : RawImpl) (u : Elem) (m : Mem) (r a b : Nat) : Mem := storeBool m r (Fr_req q I u (m a) (m b))
/-- `Fr_neq`, `fr_generic.cpp.ejs:1166-1172`. -/
def Fr_neq (q : Nat) (I : RawImpl) (u : Elem) (m : Mem) (r a b : Nat) : Mem := storeBool m r (!Fr_req q I u (m a) (m b))

/-- `is_true_a` computed inline in `Fr_lor` and `Fr_land`, `fr_generic.cpp.ejs:1179-1186`. -/
def isTrueInline (I : RawImpl) (e : Elem) : Bool := if e.long then !I.isZero e.longVal else e.shortVal != 0

/-- `Fr_lor`, `fr_generic.cpp.ejs:1175-1201`. -/
def Fr_lor (I : RawImpl) (m : Mem) (r a b : Nat) : Mem := storeBool m r (isTrueInline I (m a) || isTrueInline I (m b))
/-- `Fr_land`, `fr_generic.cpp.ejs:1406-1432`. -/
def Fr_land (I : RawImpl) (m : Mem) (r a b : Nat) : Mem := storeBool m r (isTrueInline I (m a) && isTrueInline I (m b))
/-- `Fr_lnot`, `fr_generic.cpp.ejs:1203-1215`. -/
def Fr_lnot (I : RawImpl) (m : Mem) (r a : Nat) : Mem :=
  storeBool m r (if (m a).long then I.isZero (m a).longVal else (m a).shortVal == 0)

/-! ## Bitwise operations -/

/-- `a_n = {0, 0, {(uint64_t)a->shortVal}}` or `Fr_toLongNormal(&a_n, a)`, e.g. `fr_generic.cpp.ejs:1500-1507`. -/
def shortOperand (q : Nat) (I : RawImpl) (u : Elem) (e : Elem) : Limbs :=
  if 0 ≤ e.shortVal.toInt then shortLimbs q (sx e.shortVal) else (toLongNormalInto q I u e).longVal

/-- `Fr_band`, `Fr_bor`, `Fr_bxor`: the three dispatchers (`fr_generic.cpp.ejs:1573-1623`, `2124-2174`, `2313-2363`) and
their nine callees each (`1434-1571`, `1986-2121`, `2176-2311`) differ only in the raw routine `f` and in the short
operation `g`.  `r->type = LONG` is written before an operand is converted.  The operand order passed to the raw routine is
the one of the source (`*_l1ms2` passes `b` first). -/
def Fr_bitop (f : Limbs → Limbs → Limbs) (g : BitVec 32 → BitVec 32 → BitVec 32)
    (q : Nat) (I : RawImpl) (u : Elem) (m : Mem) (r a b : Nat) : Mem :=
  if (m a).long then
    if (m b).long then
      if (m a).mont then
        if (m b).mont then
          let m := m.setTy r true false
          let a_n := toNormalInto q I u (m a)
          let b_n := toNormalInto q I u (m b)
          m.setLong r (f a_n.longVal b_n.longVal)
        else
          let m := m.setTy r true false
          let a_n := toNormalInto q I u (m a)
          m.setLong r (f a_n.longVal (m b).longVal)
      else if (m b).mont then
        let m := m.setTy r true false
        let b_n := toNormalInto q I u (m b)
        m.setLong r (f (m a).longVal b_n.longVal)
      else
        let m := m.setTy r true false
        m.setLong r (f (m a).longVal (m b).longVal)
    else if (m a).mont then
      let m := m.setTy r true false
      let a_n := toNormalInto q I u (m a)
      let b_n := shortOperand q I u (m b)
      m.setLong r (f b_n a_n.longVal)
    else
      let m := m.setTy r true false
      let b_n := shortOperand q I u (m b)
      m.setLong r (f (m a).longVal b_n)
  else if (m b).long then
    if (m b).mont then
      let m := m.setTy r true false
      let b_n := toNormalInto q I u (m b)
      let a_n := shortOperand q I u (m a)
      m.setLong r (f a_n b_n.longVal)
    else
      let m := m.setTy r true false
      let a_n := shortOperand q I u (m a)
      m.setLong r (f a_n (m b).longVal)
  else
    if 0 ≤ (m a).shortVal.toInt ∧ 0 ≤ (m b).shortVal.toInt then
      let m := m.setShort r (g (m a).shortVal (m b).shortVal)
      m.setTy r false false
    else
      let m := m.setTy r true false
      let a_n := toLongNormalInto q I u (m a)
      let b_n := toLongNormalInto q I u (m b)
      m.setLong r (f a_n.longVal b_n.longVal)

/-- `Fr_band`, `fr_generic.cpp.ejs:1573-1623`. -/
def Fr_band (q : Nat) (I : RawImpl) := Fr_bitop I.and (· &&& ·) q I
/-- `Fr_bor`, `fr_generic.cpp.ejs:2124-2174`. -/
def Fr_bor (q : Nat) (I : RawImpl) := Fr_bitop I.or (· ||| ·) q I
/-- `Fr_bxor`, `fr_generic.cpp.ejs:2313-2363`. -/
def Fr_bxor (q : Nat) (I : RawImpl) := Fr_bitop I.xor (· ^^^ ·) q I

/-- `Fr_bnot`, `fr_generic.cpp.ejs:2365-2389`: `r->type = LONG` is written before `a->type` is tested. -/
def Fr_bnot (q : Nat) (I : RawImpl) (u : Elem) (m : Mem) (r a : Nat) : Mem :=
  let m := m.setTy r true false
  if (m a).long && !(m a).mont then
    if (m a).mont then
      let a_n := toNormalInto q I u (m a)
      m.setLong r (I.not a_n.longVal)
    else m.setLong r (I.not (m a).longVal)
  else
    let a_n := toLongNormalInto q I u (m a)
    m.setLong r (I.not a_n.longVal)

/-! ## Shifts -/

/-- static `rawShl`, `fr_generic.cpp.ejs:1630-1645`. -/
def stRawShl (q : Nat) (I : RawImpl) (a : Limbs) (b : BitVec 64) : Limbs :=
  if b.toNat = 0 then I.copy a
  else if bitLen q ≤ b.toNat then rawZero q
  else I.shl a b

/-- static `rawShr`, `fr_generic.cpp.ejs:1647-1662`. -/
def stRawShr (q : Nat) (I : RawImpl) (a : Limbs) (b : BitVec 64) : Limbs :=
  if b.toNat = 0 then I.copy a
  else if bitLen q ≤ b.toNat then rawZero q
  else I.shr a b

/-- `do_shlcl`, `fr_generic.cpp.ejs:1670-1677`. -/
def do_shlcl (q : Nat) (I : RawImpl) (u : Elem) (m : Mem) (r a : Nat) (b : BitVec 64) : Mem :=
  let a_long := toLongNormalInto q I u (m a)
  let m := m.setTy r true false
  m.setLong r (stRawShl q I a_long.longVal b)

/-- `do_shl` with `do_shlln`, `fr_generic.cpp.ejs:1679-1734`. -/
def do_shl (q : Nat) (I : RawImpl) (u : Elem) (m : Mem) (r a : Nat) (b : BitVec 64) : Mem :=
  if (m a).long then
    if (m a).long && (m a).mont then
      let a_long := toNormalInto q I u (m a)
      let m := m.setTy r true false
      m.setLong r (stRawShl q I a_long.longVal b)
    else
      let m := m.setTy r true false
      m.setLong r (stRawShl q I (m a).longVal b)
  else
    let a_shortVal := sx (m a).shortVal
    if a_shortVal = 0 then Fr_setzero m r
    else if a_shortVal.toInt < 0 then do_shlcl q I u m r a b
    else if 31 ≤ b.toNat then do_shlcl q I u m r a b
    else
      let a_shortVal := a_shortVal <<< b.toNat
      if a_shortVal.sshiftRight 31 != 0 then do_shlcl q I u m r a b
      else
        let m := m.setTy r false false
        m.setShort r (a_shortVal.truncate 32)

/-- `do_shrl` with `do_shrln` on an element value, `fr_generic.cpp.ejs:1736-1755`. -/
def do_shrl (q : Nat) (I : RawImpl) (u : Elem) (m : Mem) (r : Nat) (a : Elem) (b : BitVec 64) : Mem :=
  if a.long && a.mont then
    let a_long := toNormalInto q I u a
    let m := m.setTy r true false
    m.setLong r (stRawShr q I a_long.longVal b)
  else
    let m := m.setTy r true false
    m.setLong r (stRawShr q I a.longVal b)

/-- `do_shr`, `fr_generic.cpp.ejs:1757-1790`. -/
def do_shr (q : Nat) (I : RawImpl) (u : Elem) (m : Mem) (r a : Nat) (b : BitVec 64) : Mem :=
  if (m a).long then do_shrl q I u m r (m a) b
  else
    let a_shortVal := sx (m a).shortVal
    if a_shortVal = 0 then Fr_setzero m r
    else if a_shortVal.toInt < 0 then
      let a_long := toLongNormalInto q I u (m a)
      do_shrl q I u m r a_long b
    else if 31 ≤ b.toNat then Fr_setzero m r
    else
      let a_shortVal := a_shortVal.sshiftRight b.toNat
      let m := m.setShort r (a_shortVal.truncate 32)
      m.setTy r false false

/-- `Fr_shr_long` with `Fr_shr_big_shift`, `fr_generic.cpp.ejs:1792-1822`. -/
def Fr_shr_long (q : Nat) (I : RawImpl) (u : Elem) (m : Mem) (r a : Nat) (b : Elem) : Mem :=
  if I.cmp b.longVal (maxShift q) != .lt then
    let shift := I.subRegular (rawq q) b.longVal
    if I.cmp shift (maxShift q) != .lt then Fr_setzero m r
    else do_shl q I u m r a (limbAt shift 0)
  else do_shr q I u m r a (limbAt b.longVal 0)

/-- `Fr_shr`, `fr_generic.cpp.ejs:1824-1866`. -/
def Fr_shr (q : Nat) (I : RawImpl) (u : Elem) (m : Mem) (r a b : Nat) : Mem :=
  if (m b).long then
    if (m b).long && (m b).mont then Fr_shr_long q I u m r a (toNormalInto q I u (m b))
    else Fr_shr_long q I u m r a (m b)
  else
    let b_shortVal := sx (m b).shortVal
    if b_shortVal.toInt < 0 then
      let b_shortVal := -b_shortVal
      if (bitLen q : Int) ≤ b_shortVal.toInt then Fr_setzero m r
      else do_shl q I u m r a b_shortVal
    else if (bitLen q : Int) ≤ b_shortVal.toInt then Fr_setzero m r
    else do_shr q I u m r a b_shortVal

/-- `Fr_shl_long` with `Fr_shl_big_shift`, `fr_generic.cpp.ejs:1868-1898`. -/
def Fr_shl_long (q : Nat) (I : RawImpl) (u : Elem) (m : Mem) (r a : Nat) (b : Elem) : Mem :=
  if I.cmp b.longVal (maxShift q) != .lt then
    let shift := I.subRegular (rawq q) b.longVal
    if I.cmp shift (maxShift q) != .lt then Fr_setzero m r
    else do_shr q I u m r a (limbAt shift 0)
  else do_shl q I u m r a (limbAt b.longVal 0)

/-- `Fr_shl`, `fr_generic.cpp.ejs:1900-1942`. -/
def Fr_shl (q : Nat) (I : RawImpl) (u : Elem) (m : Mem) (r a b : Nat) : Mem :=
  if (m b).long then
    if (m b).long && (m b).mont then Fr_shl_long q I u m r a (toNormalInto q I u (m b))
    else Fr_shl_long q I u m r a (m b)
  else
    let b_shortVal := sx (m b).shortVal
    if b_shortVal.toInt < 0 then
      let b_shortVal := -b_shortVal
      if (bitLen q : Int) ≤ b_shortVal.toInt then Fr_setzero m r
      else do_shr q I u m r a b_shortVal
    else if (bitLen q : Int) ≤ b_shortVal.toInt then Fr_setzero m r
    else do_shl q I u m r a b_shortVal

end Over

end FF
