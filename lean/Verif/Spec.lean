import Verif.Tagged
import Mathlib.Data.ZMod.Basic
import Mathlib.Data.ZMod.Units

/-!
# Specification vocabulary for the field layers

What it means for an array of limbs, or for a tagged element, to stand for a residue modulo `q`.
-/

namespace FF

/-- What the library requires of the modulus: odd, above `2^62` (products of two short values must be below it), and with a bit
length that fits in the 64-bit constants of the generated code. -/
structure Modulus (q : Nat) : Prop where
  odd : q % 2 = 1
  big : 2 ^ 62 < q
  bits : bitLen q < 2 ^ 63

/-- The Montgomery radix `2^(64*N64)` as a residue. -/
def R (q : Nat) : ZMod q := (2 : ZMod q) ^ (64 * n64 q)

/-- The array holds the reduced little-endian representation of `x`. -/
def LRep (q : Nat) (l : Limbs) (x : ZMod q) : Prop :=
  l.length = n64 q ∧ val l < q ∧ (val l : ZMod q) = x

/-- The tagged element stands for the residue `x`.  The long part of a plain short element is never read, so it is arbitrary. -/
def Rep (q : Nat) (e : Elem) (x : ZMod q) : Prop :=
  match e.long, e.mont with
  | false, false => ((e.shortVal.toInt : ℤ) : ZMod q) = x
  | false, true => ((e.shortVal.toInt : ℤ) : ZMod q) = x ∧ LRep q e.longVal (x * R q)
  | true, false => LRep q e.longVal x
  | true, true => LRep q e.longVal (x * R q)

/-- Signed reading of a residue: values above `⌊q/2⌋` are negative. -/
def sval {q : Nat} (x : ZMod q) : ℤ := if x.val ≤ q / 2 then (x.val : ℤ) else (x.val : ℤ) - q

/-- A 0/1 residue. -/
def bit {q : Nat} (P : Prop) [Decidable P] : ZMod q := if P then 1 else 0

/-- Left shift of a residue by a residue (`b < bitLength(q)`: shift and keep `bitLength(q)` bits; `b` within `bitLength(q)` of `q`:
a right shift by `q - b`; otherwise zero), reduced modulo `q`. -/
def shlSpec {q : Nat} (x y : ZMod q) : ZMod q :=
  if y.val < bitLen q then ((x.val * 2 ^ y.val % 2 ^ bitLen q : Nat) : ZMod q)
  else if q - y.val < bitLen q then ((x.val / 2 ^ (q - y.val) : Nat) : ZMod q)
  else 0

/-- Right shift of a residue by a residue. -/
def shrSpec {q : Nat} (x y : ZMod q) : ZMod q :=
  if y.val < bitLen q then ((x.val / 2 ^ y.val : Nat) : ZMod q)
  else if q - y.val < bitLen q then ((x.val * 2 ^ (q - y.val) % 2 ^ bitLen q : Nat) : ZMod q)
  else 0

end FF
