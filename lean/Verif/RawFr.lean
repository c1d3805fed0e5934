import Verif.Gmp
import Verif.RawMem
import Verif.LRep
import Mathlib.Algebra.Field.ZMod

/-!
# The class `RawFr`, `src/fr.hpp.ejs` and `src/fr.cpp.ejs`

An `Element` is an array of `N64` limbs in Montgomery form.  The inline methods `add`, `sub`, `mul`, `square`, `neg`, `copy`, `swap`,
`mul1`, `toMontgomery`, `fromMontgomery`, `eq`, `isZero` (`fr.hpp.ejs:218-263`) are the raw routines of `RawMem.lean`.
-/

namespace FF

/-- `for (i) r.v[i] = 0; mpz_export(r.v, …, v)`, the block shared by `fromString`, `fromUI`, `set`, `inv`, `fromMpz`. -/
def exportLimbs (q : Nat) (v : Int) : Option Limbs := mpzExport (List.replicate (n64 q) 0) v

namespace RawFr

/-- `RawFr::fromMpz`, `fr.cpp.ejs:286-290`. -/
def fromMpz (q : Nat) (m : LMem) (r : Nat) (v : Int) : Option LMem :=
  (exportLimbs q v).map fun l => rawToMontgomeryM q (m.set r l) r r

/-- `RawFr::fromString`, `fr.cpp.ejs:184-192`. -/
def fromString (q : Nat) (m : LMem) (r : Nat) (s : List Char) (radix : Nat) : Option LMem :=
  (mpzFdivR (mpzInitSetStr radix s) q).bind (fromMpz q m r)

/-- `RawFr::fromUI`, `fr.cpp.ejs:194-202`. -/
def fromUI (q : Nat) (m : LMem) (r : Nat) (v : BitVec 64) : Option LMem := fromMpz q m r (v.toNat : Int)

/-- `RawFr::set`, `fr.cpp.ejs:210-224`.  The first of its two exports, into the uninitialised array, is overwritten by the second. -/
def set (q : Nat) (m : LMem) (r : Nat) (value : BitVec 32) : Option LMem :=
  let mr := value.toInt
  let mr := if value.toInt < 0 then mr + (q : Int) else mr
  fromMpz q m r mr

/-- `RawFr::toMpz`, `fr.cpp.ejs:280-284`. -/
def toMpz (q : Nat) (a : Limbs) : Int := mpzImport (rawFromMontgomery q a)

/-- `RawFr::toString`, `fr.cpp.ejs:226-237`. -/
def toString (q : Nat) (a : Limbs) (radix : Nat) : List Char := mpzGetStr radix (mpzImport (rawFromMontgomery q a)).toNat

/-- `RawFr::inv`, `fr.cpp.ejs:239-251`; `junk` is the unspecified result of a failed `mpz_invert`. -/
def inv (q : Nat) (junk : Int) (m : LMem) (r a : Nat) : Option LMem :=
  let mr := mpzInvert (mpzImport (m a)) q junk
  (exportLimbs q mr).map fun l => rawMMulCM q (m.set r l) r r (rawR3 q)

/-- `RawFr::div`, `fr.cpp.ejs:253-257`; the local `tmp` is at the fresh address `t`. -/
def div (q : Nat) (junk : Int) (m : LMem) (r a b t : Nat) : Option LMem :=
  ((inv q junk m t b).map fun m => rawMMulM q m r a t).map fun m' => m'.set t (m t)

/-- The constructor's `fOne`, `fr.cpp.ejs:174-179`: `set(fOne, 1)`. -/
def one (q : Nat) : Limbs := rawToMontgomery q (toLimbs (n64 q) 1)

/-- The constructor's `fZero`. -/
def zero (q : Nat) : Limbs := rawToMontgomery q (toLimbs (n64 q) 0)

/-- The constructor's `fNegOne`: `neg(fNegOne, fOne)`. -/
def negOne (q : Nat) : Limbs := rawNeg q (one q)

end RawFr

/-- `BIT_IS_SET(s, p)`, `fr.cpp.ejs:259`. -/
def bitIsSet (s : List (BitVec 8)) (p : Nat) : Bool := s.getD (p / 8) 0 &&& (1#8 <<< (p % 8)) != 0

/-- Iterations of `for (int i=scalarSize*8-1; i>=0; i--)`, `fr.cpp.ejs:263` and `f12field.cpp:101`: `scalarSize*8-1` is computed on 32-bit
unsigned integers and converted to `int`, so from `2^28+1` bytes on the counter can start negative. -/
def intBits (scalarSize : Nat) : Nat := ((BitVec.ofNat 32 scalarSize * 8 - 1).toInt + 1).toNat

theorem intBits_eq {k : Nat} (h : k ≤ 2 ^ 28) : intBits k = k * 8 := by
  unfold intBits
  rcases Nat.eq_zero_or_pos k with rfl | h0
  · decide
  have e : (BitVec.ofNat 32 k * 8 - 1).toNat = k * 8 - 1 := by
    simp only [BitVec.toNat_sub, BitVec.toNat_mul, BitVec.toNat_ofNat, show (8 : BitVec 32).toNat = 8 from rfl,
      show (1 : BitVec 32).toNat = 1 from rfl]; omega
  rw [BitVec.toInt_eq_toNat_of_lt (by omega), e]; omega

theorem intBits_wrap {k : Nat} (h1 : 2 ^ 28 < k) (h2 : k ≤ 2 ^ 29) : intBits k = 0 := by
  unfold intBits
  have e : (BitVec.ofNat 32 k * 8 - 1).toNat = k * 8 - 1 := by
    simp only [BitVec.toNat_sub, BitVec.toNat_mul, BitVec.toNat_ofNat, show (8 : BitVec 32).toNat = 8 from rfl,
      show (1 : BitVec 32).toNat = 1 from rfl]; omega
  rw [BitVec.toInt_eq_toNat_cond, e, if_neg (by omega)]; omega

namespace RawFr

/-- The loop of `RawFr::exp`, `fr.cpp.ejs:264-274`; the argument is the number of bits still to be read. -/
def expLoop (q : Nat) (copyBase : Limbs) (scalar : List (BitVec 8)) (r : Nat) : Nat → LMem → Bool → LMem × Bool
  | 0, m, oneFound => (m, oneFound)
  | i + 1, m, oneFound =>
    if !oneFound then
      if !bitIsSet scalar i then expLoop q copyBase scalar r i m false
      else expLoop q copyBase scalar r i (m.set r copyBase) true
    else
      let m := rawMSquareM q m r r
      let m := if bitIsSet scalar i then rawMMulCM q m r r copyBase else m
      expLoop q copyBase scalar r i m true

/-- `RawFr::exp`, `fr.cpp.ejs:260-278`. -/
def exp (q : Nat) (m : LMem) (r base : Nat) (scalar : List (BitVec 8)) : LMem :=
  let copyBase := m base
  let st := expLoop q copyBase scalar r (intBits scalar.length) m false
  if !st.2 then st.1.set r (one q) else st.1

end RawFr

/-- Big-endian bytes of `n`, exactly `k` of them. -/
def bytesBE : Nat → Nat → List (BitVec 8)
  | 0, _ => []
  | k + 1, n => bytesBE k (n / 256) ++ [BitVec.ofNat 8 n]

/-- Number written by big-endian bytes. -/
def valBE (l : List (BitVec 8)) : Nat := l.foldl (fun acc b => acc * 256 + b.toNat) 0

/-- Number written by little-endian bytes. -/
def valLE : List (BitVec 8) → Nat
  | [] => 0
  | b :: bs => b.toNat + 256 * valLE bs

/-- `mpz_export(data, NULL, 1, size, 1, 0, v)`: most significant word first, big-endian words of `size` bytes, only as many words as
needed; nothing is written for zero. -/
def mpzExportBE (data : List (BitVec 8)) (size : Nat) (v : Int) : Option (List (BitVec 8)) :=
  let n := v.natAbs
  let words := if n = 0 then 0 else n.log2 / (8 * size) + 1
  if data.length < words * size then none
  else some (bytesBE (words * size) n ++ data.drop (words * size))

namespace RawFr

/-- `RawFr::toRprBE`, `fr.cpp.ejs:292-306`: returned value and new content of the buffer of `bytes` bytes. -/
def toRprBE (q : Nat) (a : Limbs) (data : List (BitVec 8)) (bytes : Nat) : Option (Int × List (BitVec 8)) :=
  if bytes < n64 q * 8 then some (-(n64 q * 8 : Int), data)
  else (mpzExportBE data bytes (toMpz q a)).map fun d => ((n64 q * 8 : Int), d)

/-- `RawFr::fromRprBE`, `fr.cpp.ejs:308-320`.  The call `mpz_import(r, N64*8, 0, 1, 0, 0, data)` passes the order `0`, which GMP's code
treats as most significant first. -/
def fromRprBE (q : Nat) (m : LMem) (r : Nat) (data : List (BitVec 8)) (bytes : Nat) : Option (Int × LMem) :=
  if bytes < n64 q * 8 then some (-(n64 q * 8 : Int), m)
  else (fromMpz q m r (valBE (data.take (n64 q * 8)) : Int)).map fun m => ((n64 q * 8 : Int), m)

end RawFr

/-! ## Representation -/

/-- The class element (Montgomery form) stands for the residue `x`. -/
def FRep (q : Nat) (l : Limbs) (x : ZMod q) : Prop := LRep q l (x * R q)

section
variable {q : Nat} {m : LMem} {r a b : Nat} {x y : ZMod q}

theorem FRep.mul (hq : q % 2 = 1) {l l' : Limbs} (h : FRep q l x) (h' : FRep q l' y) : FRep q (rawMMul q l l') (x * y) :=
  LRep.mmul' hq h h' (by ring)
theorem FRep.add {l l' : Limbs} (h : FRep q l x) (h' : FRep q l' y) : FRep q (rawAdd q l l') (x + y) :=
  (LRep.add h h').congr (by ring)
theorem FRep.sub {l l' : Limbs} (h : FRep q l x) (h' : FRep q l' y) : FRep q (rawSub q l l') (x - y) :=
  (LRep.sub h h').congr (by ring)
theorem FRep.neg {l : Limbs} (h : FRep q l x) : FRep q (rawNeg q l) (-x) := (LRep.neg h).congr (by ring)
theorem FRep.unique (hq : q % 2 = 1) {l : Limbs} (h : FRep q l x) (h' : FRep q l y) : x = y :=
  R_cancel hq (h.2.2.symm.trans h'.2.2)
theorem FRep.inj {l l' : Limbs} (h : FRep q l x) (h' : FRep q l' x) : l = l' := LRep.inj h h'

theorem FRep.toMont (hq : q % 2 = 1) {l : Limbs} (hl : l.length = n64 q) : FRep q (rawToMontgomery q l) (val l : ZMod q) :=
  LRep.mmul hq hl (LRep.R2 (by omega)) (by ring)

theorem exportLimbs_eq {v : Int} (h : v.natAbs < W ^ n64 q) : exportLimbs q v = some (toLimbs (n64 q) v.natAbs) :=
  mpzExport_zero h

theorem set_read (m : LMem) (p : Nat) (l : Limbs) : (m.set p l) p = l := by simp

theorem RawFr.fromMpz_rep (hq : q % 2 = 1) {v : Int} (h : v.natAbs < W ^ n64 q) :
    ∃ m', RawFr.fromMpz q m r v = some m' ∧ FRep q (m' r) (v.natAbs : ZMod q) ∧ ∀ p, p ≠ r → m' p = m p := by
  unfold RawFr.fromMpz
  rw [exportLimbs_eq h]
  refine ⟨_, rfl, ?_, ?_⟩
  · beta_reduce; rw [rawToMontgomeryM_eq, LMem.set_set, LMem.set_same, LMem.set_same]
    have := FRep.toMont hq (l := toLimbs (n64 q) v.natAbs) (by simp)
    rwa [val_toLimbs_of_lt h] at this
  · intro p hp
    beta_reduce; rw [rawToMontgomeryM_eq, LMem.set_set, LMem.set_other _ _ hp]

theorem RawFr.one_rep (hq : q % 2 = 1) : FRep q (RawFr.one q) 1 := by
  have h : 1 < W ^ n64 q := by
    have := Nat.one_lt_pow (n64_pos q).ne' (show 1 < W by rw [← W_eq]; norm_num); exact this
  have := FRep.toMont hq (l := toLimbs (n64 q) 1) (by simp)
  rw [val_toLimbs_of_lt h, Nat.cast_one] at this
  exact this

theorem RawFr.zero_rep (hq : q % 2 = 1) : FRep q (RawFr.zero q) 0 := by
  have := FRep.toMont hq (l := toLimbs (n64 q) 0) (by simp)
  rw [val_toLimbs_of_lt (pow_pos W_pos _), Nat.cast_zero] at this
  exact this

theorem RawFr.toMpz_eq (hq : q % 2 = 1) {l : Limbs} (h : FRep q l x) : RawFr.toMpz q l = (x.val : ℤ) := by
  rw [RawFr.toMpz, mpzImport, (LRep.fromMont hq h).val_eq]

theorem RawFr.inv_rep (hq : q % 2 = 1) (junk : Int) (h : FRep q (m a) x) (hx : IsUnit x) :
    ∃ m', RawFr.inv q junk m r a = some m' ∧ FRep q (m' r) x⁻¹ ∧ ∀ p, p ≠ r → m' p = m p := by
  have hp : 0 < q := by omega
  have hgcd : Int.gcd (mpzImport (m a)) (q : ℤ) = 1 := by
    have hu : IsUnit ((val (m a) : Nat) : ZMod q) := by rw [h.2.2]; exact hx.mul (R_isUnit hq)
    have := (ZMod.isUnit_iff_coprime _ q).mp hu
    rw [mpzImport]; exact_mod_cast this
  obtain ⟨h0, h1, h2⟩ := mpzInvert_spec (junk := junk) (by exact_mod_cast hp) hgcd
  have hlt : (mpzInvert (mpzImport (m a)) q junk).natAbs < W ^ n64 q := lt_of_le_of_lt (by omega) (q_lt_Wn q)
  have h3 := congrArg (fun z : ℤ => (z : ZMod q)) h2
  simp only [ZMod.intCast_mod, Int.cast_mul, Int.cast_one, mpzImport, Int.cast_natCast, h.2.2] at h3
  have h4 := ZMod.mul_inv_of_unit x hx
  unfold RawFr.inv
  simp only []
  rw [exportLimbs_eq hlt]
  set v := mpzInvert (mpzImport (m a)) q junk with hv
  refine ⟨_, rfl, ?_, ?_⟩
  · beta_reduce; rw [rawMMulCM_eq, LMem.set_set, LMem.set_same, LMem.set_same]
    refine LRep.mmul hq (by simp) (LRep.R3 hp) ?_
    rw [val_toLimbs_of_lt hlt]
    have e : ((v.natAbs : Nat) : ZMod q) = ((v : ℤ) : ZMod q) := by
      rw [← Int.cast_natCast, Int.natAbs_of_nonneg h0]
    rw [e]
    have e2 : x * R q * (v : ZMod q) = x * x⁻¹ := by rw [h4]; exact h3
    have e3 : R q * (v : ZMod q) = x⁻¹ := hx.mul_left_cancel (by rw [← mul_assoc]; exact e2)
    rw [← e3]; ring
  · intro p hp'
    beta_reduce; rw [rawMMulCM_eq, LMem.set_set, LMem.set_other _ _ hp']

theorem RawFr.div_rep (hq : q % 2 = 1) (junk : Int) {t : Nat} (hr : r ≠ t) (hat : a ≠ t)
    (ha : FRep q (m a) x) (hb : FRep q (m b) y) (hy : IsUnit y) :
    ∃ m', RawFr.div q junk m r a b t = some m' ∧ FRep q (m' r) (x * y⁻¹) ∧ ∀ p, p ≠ r → m' p = m p := by
  obtain ⟨m1, h1, h2, h3⟩ := RawFr.inv_rep (r := t) hq junk hb hy
  refine ⟨_, by unfold RawFr.div; rw [h1]; rfl, ?_, ?_⟩
  · beta_reduce; rw [LMem.set_other _ _ hr, rawMMulM_eq, LMem.set_same]
    exact FRep.mul hq (by rw [h3 a hat]; exact ha) h2
  · intro p hp
    by_cases hpt : p = t
    · subst hpt; simp
    · beta_reduce; rw [LMem.set_other _ _ hpt, rawMMulM_eq, LMem.set_other _ _ hp, h3 p hpt]

/-! ## Exponentiation -/

theorem bitIsSet_eq (s : List (BitVec 8)) (p : Nat) : bitIsSet s p = (valLE s).testBit p := by
  induction s generalizing p with
  | nil => simp [bitIsSet, valLE]
  | cons b bs ih =>
    have hb : b.toNat < 2 ^ 8 := b.isLt
    have e : valLE (b :: bs) = 2 ^ 8 * valLE bs + b.toNat := by simp only [valLE]; ring
    rw [e, Nat.testBit_two_pow_mul_add _ hb]
    split
    · rename_i hp
      have h0 : p / 8 = 0 := by omega
      have h1 : p % 8 = p := by omega
      simp only [bitIsSet, h0, h1, List.getD_cons_zero]
      have key : ∀ (b : BitVec 8) (p : Fin 8), (b &&& (1#8 <<< (p : Nat)) != 0) = b.toNat.testBit p := by decide +kernel
      exact key b ⟨p, hp⟩
    · rename_i hp
      rw [← ih]
      have h0 : p / 8 = (p - 8) / 8 + 1 := by omega
      have h1 : p % 8 = (p - 8) % 8 := by omega
      simp only [bitIsSet, h0, h1, List.getD_cons_succ]

theorem valLE_lt (s : List (BitVec 8)) : valLE s < 2 ^ (s.length * 8) := by
  induction s with
  | nil => simp [valLE]
  | cons b bs ih =>
    have hb : b.toNat < 2 ^ 8 := b.isLt
    simp only [valLE, List.length_cons]
    rw [Nat.add_mul, pow_add]; omega

theorem shiftRight_succ (S i : Nat) : S >>> i = 2 * (S >>> (i + 1)) + (if S.testBit i then 1 else 0) := by
  rw [Nat.shiftRight_add S i 1, Nat.testBit, Nat.shiftRight_one]
  simp only [Nat.one_and_eq_mod_two, bne_iff_ne, ne_eq, Nat.mod_two_not_eq_zero]
  split <;> omega

theorem expLoop_rep (hq : q % 2 = 1) {cb : Limbs} (hcb : FRep q cb x) (s : List (BitVec 8)) (i : Nat) (m : LMem) (f : Bool)
    (h : if f then FRep q (m r) (x ^ (valLE s >>> i)) else valLE s >>> i = 0) :
    let st := RawFr.expLoop q cb s r i m f
    (if st.2 then FRep q (st.1 r) (x ^ valLE s) else valLE s = 0) ∧ ∀ p, p ≠ r → st.1 p = m p := by
  induction i generalizing m f with
  | zero => exact ⟨h, fun _ _ => rfl⟩
  | succ i ih =>
    have hs := shiftRight_succ (valLE s) i
    unfold RawFr.expLoop
    cases f with
    | false =>
      simp only [Bool.false_eq_true, if_false] at h
      simp only [Bool.not_false, if_true, bitIsSet_eq]
      rw [h] at hs
      cases hb : (valLE s).testBit i with
      | false =>
        simp only [Bool.not_false, if_true]
        exact ih m false (by simp only [Bool.false_eq_true, if_false]; rw [hs, hb]; simp)
      | true =>
        simp only [Bool.not_true, Bool.false_eq_true, if_false]
        obtain ⟨h1, h2⟩ := ih (m.set r cb) true (by
          simp only [if_true, LMem.set_same]; rw [hs, hb]; simpa using hcb)
        exact ⟨h1, fun p hp => by rw [h2 p hp, LMem.set_other _ _ hp]⟩
    | true =>
      simp only [if_true] at h
      simp only [Bool.not_true, Bool.false_eq_true, if_false, bitIsSet_eq]
      have hsq : FRep q (rawMSquareM q m r r r) (x ^ (2 * (valLE s >>> (i + 1)))) := by
        rw [rawMSquareM_eq, LMem.set_same]
        have := FRep.mul hq h h
        rwa [← pow_add, ← two_mul] at this
      cases hb : (valLE s).testBit i with
      | false =>
        simp only [Bool.false_eq_true, if_false]
        obtain ⟨h1, h2⟩ := ih (rawMSquareM q m r r) true (by
          simp only [if_true]; rw [hs, hb]; simpa using hsq)
        exact ⟨h1, fun p hp => by rw [h2 p hp, rawMSquareM_eq, LMem.set_other _ _ hp]⟩
      | true =>
        simp only [if_true]
        obtain ⟨h1, h2⟩ := ih (rawMMulCM q (rawMSquareM q m r r) r r cb) true (by
          simp only [if_true]; rw [hs, hb, rawMMulCM_eq, LMem.set_same]
          simp only [if_true, pow_succ]
          exact FRep.mul hq hsq hcb)
        exact ⟨h1, fun p hp => by rw [h2 p hp, rawMMulCM_eq, LMem.set_other _ _ hp, rawMSquareM_eq, LMem.set_other _ _ hp]⟩

theorem RawFr.exp_rep (hq : q % 2 = 1) (s : List (BitVec 8)) (hs : s.length ≤ 2 ^ 28) (hb : FRep q (m b) x) :
    FRep q (RawFr.exp q m r b s r) (x ^ valLE s) ∧ ∀ p, p ≠ r → RawFr.exp q m r b s p = m p := by
  have h0 : valLE s >>> (s.length * 8) = 0 := by
    rw [Nat.shiftRight_eq_div_pow, Nat.div_eq_of_lt (valLE_lt s)]
  obtain ⟨h1, h2⟩ := expLoop_rep (r := r) hq hb s (s.length * 8) m false (by simpa using h0)
  unfold RawFr.exp
  rw [intBits_eq hs]
  generalize RawFr.expLoop q (m b) s r (s.length * 8) m false = st at *
  cases hst : st.2 with
  | false =>
    simp only [hst, Bool.false_eq_true, if_false] at h1
    simp only [Bool.not_false, if_true, LMem.set_same, h1, pow_zero]
    exact ⟨RawFr.one_rep hq, fun p hp => by rw [LMem.set_other _ _ hp, h2 p hp]⟩
  | true =>
    simp only [hst, if_true] at h1
    simp only [Bool.not_true, Bool.false_eq_true, if_false]
    exact ⟨h1, h2⟩

/-! ## Byte strings -/

theorem bytesBE_length (k n : Nat) : (bytesBE k n).length = k := by
  induction k generalizing n with
  | zero => rfl
  | succ k ih => simp [bytesBE, ih]

theorem valBE_append_one (l : List (BitVec 8)) (b : BitVec 8) : valBE (l ++ [b]) = valBE l * 256 + b.toNat := by
  simp [valBE]

theorem valBE_bytesBE (k n : Nat) : valBE (bytesBE k n) = n % 256 ^ k := by
  induction k generalizing n with
  | zero => simp [bytesBE, valBE, Nat.mod_one]
  | succ k ih =>
    rw [bytesBE, valBE_append_one, ih, BitVec.toNat_ofNat]
    have e : 256 ^ (k + 1) = 256 * 256 ^ k := by ring
    have := Nat.mod_mul (x := n) (a := 256) (b := 256 ^ k)
    rw [e, this, show (2 : Nat) ^ 8 = 256 by norm_num]; ring

theorem valBE_lt (l : List (BitVec 8)) : valBE l < 256 ^ l.length := by
  induction l using List.reverseRecOn with
  | nil => simp [valBE]
  | append_singleton l b ih =>
    rw [valBE_append_one]
    have : b.toNat < 256 := b.isLt
    simp only [List.length_append, List.length_cons, List.length_nil, zero_add, pow_succ]
    omega

theorem W_bytes (n : Nat) : W ^ n = 256 ^ (n * 8) := by
  rw [W_pow, show (256 : Nat) = 2 ^ 8 by norm_num, ← pow_mul]; congr 1; ring

theorem mpzExportBE_one {data : List (BitVec 8)} {k : Nat} {n : Nat} (hd : data.length = k) (hn : n ≠ 0) (hlt : n < 256 ^ k) :
    mpzExportBE data k (n : ℤ) = some (bytesBE k n) := by
  have h1 : 2 ^ n.log2 ≤ n := Nat.log2_self_le hn
  have h2 : (2 : Nat) ^ n.log2 < 2 ^ (8 * k) := by
    rw [show (256 : Nat) = 2 ^ 8 by norm_num, ← pow_mul] at hlt; omega
  have h3 := (Nat.pow_lt_pow_iff_right (by norm_num : 1 < 2)).mp h2
  have h4 : n.log2 / (8 * k) = 0 := Nat.div_eq_of_lt h3
  unfold mpzExportBE
  simp only [Int.natAbs_natCast, hn, if_false, h4, zero_add, one_mul]
  rw [if_neg (by omega), List.drop_eq_nil_of_le (by omega)]; simp

theorem mpzExportBE_zero (data : List (BitVec 8)) (k : Nat) : mpzExportBE data k 0 = some data := by
  simp [mpzExportBE, bytesBE]

end

end FF
