import Verif.RawFr

/-!
# The class `RawFr` on top of another set of raw routines

The class is the same C++ code in every build; the raw routines it calls come from `fr.asm.ejs` on x86-64 (the default build), from
`fr_raw_arm64.s.ejs` on ARM64, and from `fr_raw_generic.cpp.ejs` elsewhere (`fr.hpp.ejs:28-122`).  `RawOps` is a set of raw routines as
functions of the contents of their operands; the definitions are those of `RawFr.lean` with the raw routines taken from it.
-/

namespace FF

/-- The raw routines called by the class, `fr.hpp.ejs:227-263`, `fr.cpp.ejs:173-320`.  `swap` is treated by C54 and C69. -/
structure RawOps where
  add : Limbs → Limbs → Limbs
  sub : Limbs → Limbs → Limbs
  neg : Limbs → Limbs
  mmul : Limbs → Limbs → Limbs
  msquare : Limbs → Limbs
  mmul1 : Limbs → BitVec 64 → Limbs
  toMontgomery : Limbs → Limbs
  fromMontgomery : Limbs → Limbs
  copy : Limbs → Limbs
  isEq : Limbs → Limbs → Int
  isZero : Limbs → Int

namespace RawOps

variable (q : Nat) (K : RawOps)

/-- `RawFr::fromMpz`, `fr.cpp.ejs:286-290`. -/
def fromMpz (m : LMem) (r : Nat) (v : Int) : Option LMem := (exportLimbs q v).map fun l => m.set r (K.toMontgomery l)

/-- `RawFr::fromString`, `fr.cpp.ejs:184-192`. -/
def fromString (m : LMem) (r : Nat) (s : List Char) (radix : Nat) : Option LMem :=
  (mpzFdivR (mpzInitSetStr radix s) q).bind (fromMpz q K m r)

/-- `RawFr::fromUI`, `fr.cpp.ejs:194-202`. -/
def fromUI (m : LMem) (r : Nat) (v : BitVec 64) : Option LMem := fromMpz q K m r (v.toNat : Int)

/-- `RawFr::set`, `fr.cpp.ejs:210-224`; as in `RawFr.lean` the first export is left out. -/
def set (m : LMem) (r : Nat) (value : BitVec 32) : Option LMem :=
  fromMpz q K m r (if value.toInt < 0 then value.toInt + (q : Int) else value.toInt)

/-- `RawFr::toMpz`, `fr.cpp.ejs:280-284`. -/
def toMpz (a : Limbs) : Int := mpzImport (K.fromMontgomery a)

/-- `RawFr::toString`, `fr.cpp.ejs:226-237`. -/
def toString (a : Limbs) (radix : Nat) : List Char := mpzGetStr radix (mpzImport (K.fromMontgomery a)).toNat

/-- `RawFr::inv`, `fr.cpp.ejs:239-251`. -/
def inv (junk : Int) (m : LMem) (r a : Nat) : Option LMem :=
  (exportLimbs q (mpzInvert (mpzImport (m a)) q junk)).map fun l => m.set r (K.mmul l (rawR3 q))

/-- `RawFr::div`, `fr.cpp.ejs:253-257`; the local `tmp` is at the fresh address `t`. -/
def div (junk : Int) (m : LMem) (r a b t : Nat) : Option LMem :=
  ((inv q K junk m t b).map fun m => m.set r (K.mmul (m a) (m t))).map fun m' => m'.set t (m t)

/-- The constructor's `fOne`, `fr.cpp.ejs:174-179`. -/
def one : Limbs := K.toMontgomery (toLimbs (n64 q) 1)

/-- The constructor's `fZero`. -/
def zero : Limbs := K.toMontgomery (toLimbs (n64 q) 0)

/-- The constructor's `fNegOne`. -/
def negOne : Limbs := K.neg (K.one q)

/-- The loop of `RawFr::exp`, `fr.cpp.ejs:264-274`. -/
def expLoop (copyBase : Limbs) (scalar : List (BitVec 8)) (r : Nat) : Nat → LMem → Bool → LMem × Bool
  | 0, m, oneFound => (m, oneFound)
  | i + 1, m, oneFound =>
    if !oneFound then
      if !bitIsSet scalar i then expLoop copyBase scalar r i m false
      else expLoop copyBase scalar r i (m.set r (K.copy copyBase)) true
    else
      let m := m.set r (K.msquare (m r))
      let m := if bitIsSet scalar i then m.set r (K.mmul (m r) copyBase) else m
      expLoop copyBase scalar r i m true

/-- `RawFr::exp`, `fr.cpp.ejs:260-278`. -/
def exp (m : LMem) (r base : Nat) (scalar : List (BitVec 8)) : LMem :=
  let copyBase := K.copy (m base)
  let st := expLoop K copyBase scalar r (intBits scalar.length) m false
  if !st.2 then st.1.set r (K.copy (K.one q)) else st.1

/-- `RawFr::toRprBE`, `fr.cpp.ejs:292-306`. -/
def toRprBE (a : Limbs) (data : List (BitVec 8)) (bytes : Nat) : Option (Int × List (BitVec 8)) :=
  if bytes < n64 q * 8 then some (-(n64 q * 8 : Int), data)
  else (mpzExportBE data bytes (K.toMpz a)).map fun d => ((n64 q * 8 : Int), d)

/-- `RawFr::fromRprBE`, `fr.cpp.ejs:308-320`. -/
def fromRprBE (m : LMem) (r : Nat) (data : List (BitVec 8)) (bytes : Nat) : Option (Int × LMem) :=
  if bytes < n64 q * 8 then some (-(n64 q * 8 : Int), m)
  else (fromMpz q K m r (valBE (data.take (n64 q * 8)) : Int)).map fun m => ((n64 q * 8 : Int), m)

/-- `Element RawFr::set(int)`, `fr.cpp.ejs:203-207`; `u` is the uninitialised content of the local `r`. -/
def setE (u : Limbs) (value : BitVec 32) : Option Limbs := (set q K (fun _ => u) 0 value).map fun m => m 0

/-- `add(int, Element)`, `fr.hpp.ejs:242`. -/
def addIE (u : Limbs) (a : BitVec 32) (b : Limbs) : Option Limbs := (setE q K u a).map fun a => K.add a b
/-- `sub(int, Element)`, `fr.hpp.ejs:243`. -/
def subIE (u : Limbs) (a : BitVec 32) (b : Limbs) : Option Limbs := (setE q K u a).map fun a => K.sub a b
/-- `mul(int, Element)`, `fr.hpp.ejs:244`. -/
def mulIE (u : Limbs) (a : BitVec 32) (b : Limbs) : Option Limbs := (setE q K u a).map fun a => K.mmul a b
/-- `add(Element, int)`, `fr.hpp.ejs:246`. -/
def addEI (u : Limbs) (a : Limbs) (b : BitVec 32) : Option Limbs := (setE q K u b).map fun b => K.add a b
/-- `sub(Element, int)`, `fr.hpp.ejs:247`. -/
def subEI (u : Limbs) (a : Limbs) (b : BitVec 32) : Option Limbs := (setE q K u b).map fun b => K.sub a b
/-- `mul(Element, int)`, `fr.hpp.ejs:248`. -/
def mulEI (u : Limbs) (a : Limbs) (b : BitVec 32) : Option Limbs := (setE q K u b).map fun b => K.mmul a b

/-- The portable routines, `fr_raw_generic.cpp.ejs`. -/
def portable (q : Nat) : RawOps where
  add := rawAdd q
  sub := rawSub q
  neg := rawNeg q
  mmul := rawMMul q
  msquare := rawMSquare q
  mmul1 := rawMMul1 q
  toMontgomery := rawToMontgomery q
  fromMontgomery := rawFromMontgomery q
  copy := id
  isEq a b := if rawIsEq a b then 1 else 0
  isZero a := if rawIsZero a then 1 else 0

/-- The routines give what the portable ones give, on arrays of the width of the modulus.  `from'`, `mul1'` and `eq'` say for which
moduli the conversion from Montgomery form, the product by a word and the equality test do. -/
structure Agree (q : Nat) (K : RawOps) (from' mul1' eq' : Prop) : Prop where
  add : ∀ {a b : Limbs}, a.length = n64 q → b.length = n64 q → K.add a b = rawAdd q a b
  sub : ∀ {a b : Limbs}, a.length = n64 q → b.length = n64 q → K.sub a b = rawSub q a b
  neg : ∀ {a : Limbs}, a.length = n64 q → K.neg a = rawNeg q a
  mmul : ∀ {a b : Limbs}, a.length = n64 q → b.length = n64 q → val b < q → K.mmul a b = rawMMul q a b
  msquare : ∀ {a : Limbs}, a.length = n64 q → val a < q → K.msquare a = rawMSquare q a
  mmul1 : mul1' → ∀ {a : Limbs} (w), a.length = n64 q → val a < q → K.mmul1 a w = rawMMul1 q a w
  toMontgomery : ∀ {a : Limbs}, a.length = n64 q → K.toMontgomery a = rawToMontgomery q a
  fromMontgomery : from' → ∀ {a : Limbs}, a.length = n64 q → K.fromMontgomery a = rawFromMontgomery q a
  copy : ∀ {a : Limbs}, a.length = n64 q → K.copy a = a
  isEq : eq' → ∀ {a b : Limbs}, a.length = n64 q → b.length = n64 q → K.isEq a b = if rawIsEq a b then 1 else 0
  isZero : ∀ {a : Limbs}, a.length = n64 q → K.isZero a = if rawIsZero a then 1 else 0

section
variable {q : Nat} {K : RawOps} {F M E : Prop} {m : LMem} {r a b : Nat} {x y : ZMod q}

theorem portable_agree : Agree q (portable q) True True True := by constructor <;> intros <;> rfl

theorem exportLimbs_length {v : Int} {l : Limbs} (h : exportLimbs q v = some l) : l.length = n64 q := by
  unfold exportLimbs mpzExport at h
  revert h
  simp only [List.length_replicate]
  split
  · simp
  · intro h
    rw [← Option.some.inj h]
    simp
    omega

theorem Agree.fromMpz (h : Agree q K F M E) (v : Int) : K.fromMpz q m r v = RawFr.fromMpz q m r v := by
  unfold RawOps.fromMpz RawFr.fromMpz
  cases e : exportLimbs q v with
  | none => rfl
  | some l =>
    rw [Option.map_some, Option.map_some, rawToMontgomeryM_eq, LMem.set_set, LMem.set_same, h.toMontgomery (exportLimbs_length e)]

theorem Agree.fromString (h : Agree q K F M E) (s : List Char) (radix : Nat) :
    K.fromString q m r s radix = RawFr.fromString q m r s radix := by
  unfold RawOps.fromString RawFr.fromString
  congr 1
  exact funext fun v => h.fromMpz v

theorem Agree.fromUI (h : Agree q K F M E) (v : BitVec 64) : K.fromUI q m r v = RawFr.fromUI q m r v := h.fromMpz _

theorem Agree.set (h : Agree q K F M E) (v : BitVec 32) : K.set q m r v = RawFr.set q m r v := h.fromMpz _

theorem Agree.toMpz (h : Agree q K F M E) (hF : F) {l : Limbs} (hl : l.length = n64 q) : K.toMpz l = RawFr.toMpz q l := by
  rw [RawOps.toMpz, RawFr.toMpz, h.fromMontgomery hF hl]

theorem Agree.toString (h : Agree q K F M E) (hF : F) {l : Limbs} (hl : l.length = n64 q) (radix : Nat) :
    K.toString l radix = RawFr.toString q l radix := by
  rw [RawOps.toString, RawFr.toString, h.fromMontgomery hF hl]

theorem Agree.inv (h : Agree q K F M E) (hq : 0 < q) (junk : Int) : K.inv q junk m r a = RawFr.inv q junk m r a := by
  unfold RawOps.inv RawFr.inv
  dsimp only
  cases e : exportLimbs q (mpzInvert (mpzImport (m a)) q junk) with
  | none => rfl
  | some l =>
    rw [Option.map_some, Option.map_some, rawMMulCM_eq, LMem.set_set, LMem.set_same,
      h.mmul (exportLimbs_length e) (LRep.R3 hq).1 (LRep.R3 hq).2.1]

theorem Agree.one (h : Agree q K F M E) : K.one q = RawFr.one q := h.toMontgomery (by simp)
theorem Agree.zero (h : Agree q K F M E) : K.zero q = RawFr.zero q := h.toMontgomery (by simp)
theorem Agree.negOne (h : Agree q K F M E) (hq : q % 2 = 1) : K.negOne q = RawFr.negOne q := by
  rw [RawOps.negOne, RawFr.negOne, h.one, h.neg (RawFr.one_rep hq).1]

theorem Agree.div (h : Agree q K F M E) (hq : q % 2 = 1) (junk : Int) {t : Nat} (hat : a ≠ t) (ha : FRep q (m a) x)
    (hb : FRep q (m b) y) (hy : IsUnit y) : K.div q junk m r a b t = RawFr.div q junk m r a b t := by
  unfold RawOps.div RawFr.div
  rw [h.inv (by omega)]
  obtain ⟨m', h1, h2, h3⟩ := RawFr.inv_rep (m := m) (r := t) hq junk hb hy
  simp only [h1, Option.map_some]
  rw [rawMMulM_eq, h.mmul (by rw [h3 a hat]; exact ha.1) h2.1 h2.2.1]

theorem Agree.expLoop (h : Agree q K F M E) (hq : q % 2 = 1) (scalar : List (BitVec 8)) {c : Limbs} (hc : FRep q c x) :
    ∀ (i : Nat) (m : LMem) (f : Bool) (y : ZMod q), (f = true → FRep q (m r) y) →
      K.expLoop c scalar r i m f = RawFr.expLoop q c scalar r i m f := by
  intro i
  induction i with
  | zero => intros; rfl
  | succ i ih =>
    intro m f y hm
    cases f with
    | false =>
      rw [RawOps.expLoop, RawFr.expLoop, h.copy hc.1, ih m false y (by simp), ih (m.set r c) true x (fun _ => by rwa [LMem.set_same])]
      simp
    | true =>
      have hr := hm rfl
      rw [RawOps.expLoop, RawFr.expLoop]
      dsimp only
      rw [rawMSquareM_eq, rawMMulCM_eq, h.msquare hr.1 hr.2.1]
      have h2 : FRep q (rawMSquare q (m r)) (y * y) := hr.mul hq hr
      have h3 : FRep q ((m.set r (rawMSquare q (m r))) r) (y * y) := by rwa [LMem.set_same]
      rw [h.mmul h3.1 hc.1 hc.2.1]
      simp only [Bool.not_true, Bool.false_eq_true, if_false]
      by_cases hbit : bitIsSet scalar i
      · simp only [hbit, if_true]
        rw [ih _ true (y * y * x) (fun _ => by rw [LMem.set_same]; exact h3.mul hq hc)]
      · simp only [hbit, if_false, Bool.false_eq_true]
        rw [ih _ true (y * y) (fun _ => h3)]

theorem Agree.exp (h : Agree q K F M E) (hq : q % 2 = 1) (scalar : List (BitVec 8)) (hb : FRep q (m b) x) :
    K.exp q m r b scalar = RawFr.exp q m r b scalar := by
  unfold RawOps.exp RawFr.exp
  dsimp only
  rw [h.copy hb.1, h.expLoop hq scalar hb _ m false 0 (by simp), h.one, h.copy (RawFr.one_rep hq).1]

theorem Agree.toRprBE (h : Agree q K F M E) (hF : F) {l : Limbs} (hl : l.length = n64 q) (data : List (BitVec 8)) (bytes : Nat) :
    K.toRprBE q l data bytes = RawFr.toRprBE q l data bytes := by
  rw [RawOps.toRprBE, RawFr.toRprBE, h.toMpz hF hl]

theorem Agree.fromRprBE (h : Agree q K F M E) (data : List (BitVec 8)) (bytes : Nat) :
    K.fromRprBE q m r data bytes = RawFr.fromRprBE q m r data bytes := by
  rw [RawOps.fromRprBE, RawFr.fromRprBE, h.fromMpz]

end

end RawOps

end FF
