import Verif.RawBits

/-!
# The raw routines on a store of arrays

`Raw.lean` gives every raw routine as a function of the contents of its operand arrays.  Here the same routines are written
statement by statement over a store of limb arrays, where the result pointer may equal an operand pointer.  GMP allows the
destination of `mpn_add_n`, `mpn_sub_n`, `mpn_add_1`, `mpn_sub_1`, `mpn_com`, `mpn_and_n`, … to coincide with a source, so each
of those calls reads its sources entirely and then writes; `mpn_copyi` to a *higher* overlapping address is undefined (`none`).
-/

namespace FF

/-- A store of raw arrays. -/
abbrev LMem := Nat → Limbs

/-- Overwrite one array. -/
def LMem.set (m : LMem) (p : Nat) (l : Limbs) : LMem := fun x => if x = p then l else m x

@[simp] theorem LMem.set_same (m : LMem) (p : Nat) (l : Limbs) : (m.set p l) p = l := by simp [LMem.set]
theorem LMem.set_other (m : LMem) {p x : Nat} (l : Limbs) (h : x ≠ p) : (m.set p l) x = m x := by simp [LMem.set, h]
@[simp] theorem LMem.set_set (m : LMem) (p : Nat) (l l' : Limbs) : (m.set p l).set p l' = m.set p l' := by
  funext x; by_cases h : x = p <;> simp [LMem.set, h]
theorem LMem.set_self (m : LMem) (p : Nat) : m.set p (m p) = m := by
  funext x; by_cases h : x = p <;> simp [LMem.set, h]

/-- `if (c || mpn_cmp(r, q) >= 0) mpn_sub_n(r, r, q)` in the store. -/
def condSubM (q : Nat) (c : Bool) (m : LMem) (r : Nat) : LMem :=
  if c || cmpGe (m r) (rawq q) then m.set r (mpn_sub_n (m r) (rawq q)).1 else m

/-- `if (c) mpn_add_n(r, r, q)` in the store. -/
def condAddM (q : Nat) (c : Bool) (m : LMem) (r : Nat) : LMem :=
  if c then m.set r (mpn_add_n (m r) (rawq q)).1 else m

/-- `Fr_rawAdd`, `fr_raw_generic.cpp.ejs:12-20`. -/
def rawAddM (q : Nat) (m : LMem) (r a b : Nat) : LMem :=
  let s := mpn_add_n (m a) (m b)
  let m := m.set r s.1
  condSubM q (s.2 != 0) m r

/-- `Fr_rawAddLS`, `fr_raw_generic.cpp.ejs:22-30`. -/
def rawAddLSM (q : Nat) (m : LMem) (r a : Nat) (b : Limb) : LMem :=
  let s := mpn_add_1 (m a) b
  let m := m.set r s.1
  condSubM q (s.2 != 0) m r

/-- `Fr_rawSub`, `fr_raw_generic.cpp.ejs:32-40`. -/
def rawSubM (q : Nat) (m : LMem) (r a b : Nat) : LMem :=
  let s := mpn_sub_n (m a) (m b)
  let m := m.set r s.1
  condAddM q (s.2 != 0) m r

/-- `Fr_rawSubRegular`, `fr_raw_generic.cpp.ejs:42-45`. -/
def rawSubRegularM (m : LMem) (r a b : Nat) : LMem := m.set r (mpn_sub_n (m a) (m b)).1

/-- `Fr_rawSubSL`, `fr_raw_generic.cpp.ejs:47-57`. -/
def rawSubSLM (q : Nat) (m : LMem) (r : Nat) (a : Limb) (b : Nat) : LMem :=
  let s := mpn_sub_n (shortLimbs q a) (m b)
  let m := m.set r s.1
  condAddM q (s.2 != 0) m r

/-- `Fr_rawSubLS`, `fr_raw_generic.cpp.ejs:59-67`. -/
def rawSubLSM (q : Nat) (m : LMem) (r a : Nat) (b : Limb) : LMem :=
  let s := mpn_sub_1 (m a) b
  let m := m.set r s.1
  condAddM q (s.2 != 0) m r

/-- `Fr_rawNeg`, `fr_raw_generic.cpp.ejs:69-79`. -/
def rawNegM (q : Nat) (m : LMem) (r a : Nat) : LMem :=
  if mpn_cmp (m a) (rawZero q) != .eq then m.set r (mpn_sub_n (rawq q) (m a)).1 else m.set r (rawZero q)

/-- `Fr_rawNegLS`, `fr_raw_generic.cpp.ejs:82-91`. -/
def rawNegLSM (q : Nat) (m : LMem) (r a : Nat) (b : Limb) : LMem :=
  let s1 := mpn_sub_1 (rawq q) b
  let m := m.set r s1.1
  let s2 := mpn_sub_n (m r) (m a)
  let m := m.set r s2.1
  condAddM q (s1.2 != 0 || s2.2 != 0) m r

/-- `Fr_rawCopy`, `fr_raw_generic.cpp.ejs:93-96`. -/
def rawCopyM (m : LMem) (r a : Nat) : LMem := m.set r (m a)

/-- `Fr_rawSwap`, `fr_raw_generic.cpp.ejs:256-263`. -/
def rawSwapM (m : LMem) (r a : Nat) : LMem :=
  let temp := m r
  let m := rawCopyM m r a
  m.set a temp

/-- The end shared by `Fr_rawMMul`, `Fr_rawMMul1` and `Fr_rawFromMontgomery`: last reduction into a local array, copy to the
result, conditional subtraction, `fr_raw_generic.cpp.ejs:136-152`. -/
def mmulFinalM (q : Nat) (opt : Bool) (m : LMem) (r : Nat) (product : Limbs) (c : Limb) : LMem :=
  let np0 := np q * product.headD 0
  let am := mpn_addmul_1 product (rawqExt q) np0
  let c' := c + BitVec.ofNat 64 am.2
  let m := m.set r am.1.tail
  condSubM q (!opt && c' != 0) m r

/-- `Fr_rawMMul`, `fr_raw_generic.cpp.ejs:103-153`: all intermediate products are local arrays. -/
def rawMMulM (q : Nat) (m : LMem) (r a b : Nat) : LMem :=
  let p0 := mpn_mul_1 (m b) ((m a).headD 0)
  let p := mmulLoop q (canOpt q) (m b) (m a).tail (p0.1 ++ [BitVec.ofNat 64 p0.2]) 0
  mmulFinalM q (canOpt q) m r p.1 p.2

/-- `Fr_rawMSquare`, `fr_raw_generic.cpp.ejs:155-158`. -/
def rawMSquareM (q : Nat) (m : LMem) (r a : Nat) : LMem := rawMMulM q m r a a

/-- `Fr_rawMMul1`, `fr_raw_generic.cpp.ejs:160-198`. -/
def rawMMul1M (q : Nat) (m : LMem) (r a : Nat) (b : Limb) : LMem :=
  let p0 := mpn_mul_1 (m a) b
  mmulFinalM q (canOpt q) m r (redLoop q (canOpt q) (n64 q - 1) (p0.1 ++ [BitVec.ofNat 64 p0.2])) 0

/-- `Fr_rawMMul(r, a, c)` with the second operand a constant array of the library. -/
def rawMMulCM (q : Nat) (m : LMem) (r a : Nat) (c : Limbs) : LMem :=
  let p0 := mpn_mul_1 c ((m a).headD 0)
  let p := mmulLoop q (canOpt q) c (m a).tail (p0.1 ++ [BitVec.ofNat 64 p0.2]) 0
  mmulFinalM q (canOpt q) m r p.1 p.2

/-- `Fr_rawToMontgomery`, `fr_raw_generic.cpp.ejs:200-203`. -/
def rawToMontgomeryM (q : Nat) (m : LMem) (r a : Nat) : LMem := rawMMulCM q m r a (rawR2 q)

/-- `Fr_rawFromMontgomery`, `fr_raw_generic.cpp.ejs:205-244`. -/
def rawFromMontgomeryM (q : Nat) (m : LMem) (r a : Nat) : LMem :=
  mmulFinalM q (canOpt q) m r (redLoop q (canOpt q) (n64 q - 1) (m a ++ [0])) 0

/-- `r[n64-1] &= lboMask` in the store. -/
def maskTopM (q : Nat) (m : LMem) (r : Nat) : LMem := m.set r (maskTop q (m r))

/-- The three binary bit routines `Fr_rawAnd`, `Fr_rawOr`, `Fr_rawXor`, `fr_raw_generic.cpp.ejs:279-313`, around the GMP call `f`. -/
def rawBitM (f : Limbs → Limbs → Limbs) (q : Nat) (m : LMem) (r a b : Nat) : LMem :=
  let m := m.set r (f (m a) (m b))
  let m := maskTopM q m r
  condSubM q false m r

/-- `Fr_rawNot`, `fr_raw_generic.cpp.ejs:352-362`. -/
def rawNotM (q : Nat) (m : LMem) (r a : Nat) : LMem :=
  let m := m.set r (mpn_com (m a))
  let m := maskTopM q m r
  condSubM q false m r

/-- `Fr_rawShl`, `fr_raw_generic.cpp.ejs:315-335`, `b < 64*N64`.  With `r = a` and a whole-word shift the copy to a higher overlapping
address is undefined. -/
def rawShlM (q : Nat) (m : LMem) (r a : Nat) (b : Nat) : Option LMem :=
  let bit_shift := b % 64
  let word_shift := b / 64
  let word_count := n64 q - word_shift
  if r = a ∧ 0 < word_shift then none
  else
    let m := m.set r ((m r).take word_shift ++ (m a).take word_count)
    let m := m.set r (List.replicate word_shift 0 ++ (m r).drop word_shift)
    let m := if bit_shift ≠ 0 then m.set r (mpn_lshift (m r) bit_shift 0) else m
    let m := maskTopM q m r
    some (condSubM q false m r)

/-- `Fr_rawShr`, `fr_raw_generic.cpp.ejs:337-350`, `b < 64*N64`: the overlapping copy goes towards lower addresses, which
`mpn_copyi` allows. -/
def rawShrM (q : Nat) (m : LMem) (r a : Nat) (b : Nat) : LMem :=
  let bit_shift := b % 64
  let word_shift := b / 64
  let word_count := n64 q - word_shift
  let m := m.set r (((m a).drop word_shift).take word_count ++ (m r).drop word_count)
  let m := m.set r ((m r).take word_count ++ List.replicate word_shift 0)
  if bit_shift ≠ 0 then m.set r (mpn_rshift (m r) bit_shift) else m

/-! ## The store versions equal the value versions -/

variable (q : Nat) (m : LMem) (r a b : Nat)

theorem condSubM_set (c : Bool) (l : Limbs) : condSubM q c (m.set r l) r = m.set r (condSub q c l) := by
  unfold condSubM condSub; simp only [LMem.set_same, LMem.set_set]; split <;> rfl

theorem condAddM_set (c : Bool) (l : Limbs) : condAddM q c (m.set r l) r = m.set r (condAdd q c l) := by
  unfold condAddM condAdd; simp only [LMem.set_same, LMem.set_set]; split <;> rfl

theorem rawAddM_eq : rawAddM q m r a b = m.set r (rawAdd q (m a) (m b)) := condSubM_set ..
theorem rawAddLSM_eq (w : Limb) : rawAddLSM q m r a w = m.set r (rawAddLS q (m a) w) := condSubM_set ..
theorem rawSubM_eq : rawSubM q m r a b = m.set r (rawSub q (m a) (m b)) := condAddM_set ..
theorem rawSubRegularM_eq : rawSubRegularM m r a b = m.set r (rawSubRegular (m a) (m b)) := rfl
theorem rawSubSLM_eq (w : Limb) : rawSubSLM q m r w b = m.set r (rawSubSL q w (m b)) := condAddM_set ..
theorem rawSubLSM_eq (w : Limb) : rawSubLSM q m r a w = m.set r (rawSubLS q (m a) w) := condAddM_set ..
theorem rawNegM_eq : rawNegM q m r a = m.set r (rawNeg q (m a)) := by
  unfold rawNegM rawNeg; split <;> rfl

theorem rawNegLSM_eq (w : Limb) : rawNegLSM q m r a w = m.set r (rawNegLS q (r == a) (m a) w) := by
  unfold rawNegLSM rawNegLS
  simp only [LMem.set_same, LMem.set_set]
  rw [condAddM_set]
  by_cases h : r = a
  · subst h; simp
  · rw [LMem.set_other _ _ (Ne.symm h)]; simp [h]

theorem mmulFinalM_eq (opt : Bool) (p : Limbs) (c : Limb) : mmulFinalM q opt m r p c = m.set r (mmulFinal q opt p c) :=
  condSubM_set ..
theorem rawMMulM_eq : rawMMulM q m r a b = m.set r (rawMMul q (m a) (m b)) := mmulFinalM_eq ..
theorem rawMMulCM_eq (c : Limbs) : rawMMulCM q m r a c = m.set r (rawMMul q (m a) c) := mmulFinalM_eq ..
theorem rawMSquareM_eq : rawMSquareM q m r a = m.set r (rawMSquare q (m a)) := mmulFinalM_eq ..
theorem rawMMul1M_eq (w : Limb) : rawMMul1M q m r a w = m.set r (rawMMul1 q (m a) w) := mmulFinalM_eq ..
theorem rawToMontgomeryM_eq : rawToMontgomeryM q m r a = m.set r (rawToMontgomery q (m a)) := mmulFinalM_eq ..
theorem rawFromMontgomeryM_eq : rawFromMontgomeryM q m r a = m.set r (rawFromMontgomery q (m a)) := mmulFinalM_eq ..

theorem rawBitM_eq (f : Limbs → Limbs → Limbs) :
    rawBitM f q m r a b = m.set r (condSub q false (maskTop q (f (m a) (m b)))) := by
  unfold rawBitM maskTopM; simp only [LMem.set_same, LMem.set_set]; exact condSubM_set ..
theorem rawNotM_eq : rawNotM q m r a = m.set r (rawNot q (m a)) := by
  unfold rawNotM maskTopM; simp only [LMem.set_same, LMem.set_set]; exact condSubM_set ..

theorem rawShlM_eq (s : Nat) (hr : (m r).length = n64 q) (hs : s < 64 * n64 q) (h : r = a → s < 64) :
    rawShlM q m r a s = some (m.set r (rawShl q (m a) s)) := by
  have hw : s / 64 ≤ n64 q := by omega
  unfold rawShlM rawShl maskTopM
  simp only []
  rw [if_neg (by rintro ⟨rfl, h'⟩; have := h rfl; omega)]
  have e : ((m r).take (s / 64) ++ (m a).take (n64 q - s / 64)).drop (s / 64) = (m a).take (n64 q - s / 64) := by
    rw [List.drop_append_of_le_length (by rw [List.length_take]; omega), List.drop_eq_nil_of_le (by rw [List.length_take]; omega)]; simp
  simp only [LMem.set_same, LMem.set_set, e]
  split
  · simp only [LMem.set_same, LMem.set_set]; rw [condSubM_set]
  · simp only [LMem.set_same, LMem.set_set]; rw [condSubM_set]

theorem rawShrM_eq (s : Nat) (ha : (m a).length = n64 q) (hs : s < 64 * n64 q) :
    rawShrM q m r a s = m.set r (rawShr q (m a) s) := by
  unfold rawShrM rawShr
  simp only []
  have e : (((m a).drop (s / 64)).take (n64 q - s / 64) ++ (m r).drop (n64 q - s / 64)).take (n64 q - s / 64)
      = ((m a).drop (s / 64)).take (n64 q - s / 64) := by
    rw [List.take_append_of_le_length (by rw [List.length_take, List.length_drop]; omega), List.take_take, min_self]
  simp only [LMem.set_same, LMem.set_set, e]
  split <;> rfl

end FF
