import Verif.AsmNot

/-!
# Shifts of raw limbs in the generated assembly

The listings of `rawShr` and `rawShl`, `src/binops.asm.ejs:298-489`, for `n` limbs and a modulus of `bl` bits.  The tail jumps to
`rawCopy` and `rawZero` are forward jumps to copies of these routines appended to the listing.  The numbered labels of the unrolled
rounds have the same name in every round; a jump goes to the next occurrence, which is the one of its own round.
-/

namespace FF.X86

abbrev r10 : Opd := .reg .r10
abbrev r11 : Opd := .reg .r11

/-! ## Listings -/

/-- `rawCopy` and `rawZero` as targets of tail jumps. -/
def copyZero (n : Nat) : List Line := .label "rawCopy" :: (rawCopy n ++ (.label "rawZero" :: rawZero n))

/-- The first lines of both routines, up to the test for a shift by whole words, `src/binops.asm.ejs:300-311, 377-388`. -/
def shiftHead (bl : Nat) (aligned : String) : List Line :=
  [op .cmp rdx (.imm 0), .jump .zero "rawCopy", op .cmp rdx (.imm (BitVec.ofNat 64 bl)), .jump .ncarry "rawZero",
   op .mov r8 rdx, .misc (.shr .r8 6), op .mov rcx rdx, op .and rcx (.imm 0x3F), .jump .zero aligned]

/-- The masks of `rawShr`, `src/binops.asm.ejs:312-321`. -/
def shrMasks : List Line :=
  [.misc (.movCh 64), .misc .subChCl, op .mov r9 (.imm 1), .misc .rolCx8, .misc (.shlCl .r9), .misc .rolCx8,
   op .sub r9 (.imm 1), op .mov r10 r9, .misc (.not .r10)]

/-- Round `i` of `rawShr`, `src/binops.asm.ejs:324-352`. -/
def shrRound (n i : Nat) : List Line :=
  [op .cmp r8 (.imm (BitVec.ofNat 64 (n - 1 - i))), .jump .ncarry "if2",
   .misc (.load .rax .rsi .r8 (8 * i)), .misc (.shrCl .rax), op .and rax r9,
   .misc (.load .r11 .rsi .r8 (8 * (i + 1))), .misc .rolCx8, .misc (.shlCl .r11), .misc .rolCx8, op .and r11 r10, op .or rax r11,
   op .mov (.mem .rdi (8 * i)) rax, .jump .always "endif",
   .label "if2", .jump .nzero "else",
   .misc (.load .rax .rsi .r8 (8 * i)), .misc (.shrCl .rax), op .and rax r9, op .mov (.mem .rdi (8 * i)) rax, .jump .always "endif",
   .label "else", op .xor rax rax, op .mov (.mem .rdi (8 * i)) rax, .label "endif"]

/-- Round `i` of `rawShr` by whole words, `src/binops.asm.ejs:359-367`. -/
def shrWords (n i : Nat) : List Line :=
  [op .cmp r8 (.imm (BitVec.ofNat 64 (n - 1 - i))), .jump .above "if3",
   .misc (.load .rax .rsi .r8 (8 * i)), op .mov (.mem .rdi (8 * i)) rax, .jump .always "endif3",
   .label "if3", op .xor rax rax, op .mov (.mem .rdi (8 * i)) rax, .label "endif3"]

/-- `<name>_rawShr`, `src/binops.asm.ejs:298-370`. -/
def rawShrCode (bl n : Nat) : List Line :=
  shiftHead bl "rawShr_aligned" ++ shrMasks ++ (List.range n).flatMap (shrRound n) ++ [.ret, .label "rawShr_aligned"] ++
    (List.range n).flatMap (shrWords n) ++ [.ret] ++ copyZero n

/-- The masks of `rawShl`, `src/binops.asm.ejs:389-398`. -/
def shlMasks : List Line :=
  [.misc (.movCh 64), .misc .subChCl, op .mov r10 (.imm 1), .misc (.shlCl .r10), op .sub r10 (.imm 1), op .mov r9 r10, .misc (.not .r9)]

/-- `rdx` becomes the source moved down by the whole words, `src/binops.asm.ejs:400-403, 446-449`. -/
def shlBase : List Line := [op .mov rdx rsi, op .mov rax r8, .misc (.shl .rax 3), op .sub rdx rax]

/-- Round `i` of `rawShl`, `src/binops.asm.ejs:406-439`.  Simplification: the offset `(i-1)*8` is 0 instead of -8 in round 0, where
that line is never reached. -/
def shlRound (n i : Nat) : List Line :=
  [op .cmp r8 (.imm (BitVec.ofNat 64 i)), .jump .ncarry "if2",
   op .mov rax (.mem .rdx (8 * i)), .misc (.shlCl .rax), op .and rax r9,
   op .mov r11 (.mem .rdx (8 * (i - 1))), .misc .rolCx8, .misc (.shrCl .r11), .misc .rolCx8, op .and r11 r10, op .or rax r11] ++
  maskLast n i ++ [op .mov (.mem .rdi (8 * i)) rax, .jump .always "endif",
   .label "if2", .jump .nzero "else",
   op .mov rax (.mem .rdx (8 * i)), .misc (.shlCl .rax), op .and rax r9] ++
  maskLast n i ++ [op .mov (.mem .rdi (8 * i)) rax, .jump .always "endif",
   .label "else", op .xor rax rax, op .mov (.mem .rdi (8 * i)) rax, .label "endif"]

/-- Round `i` of `rawShl` by whole words, `src/binops.asm.ejs:452-463`. -/
def shlWords (n i : Nat) : List Line :=
  [op .cmp r8 (.imm (BitVec.ofNat 64 i)), .jump .above "if3", op .mov rax (.mem .rdx (8 * i))] ++
  maskLast n i ++ [op .mov (.mem .rdi (8 * i)) rax, .jump .always "endif3",
   .label "if3", op .xor rax rax, op .mov (.mem .rdi (8 * i)) rax, .label "endif3"]

/-- `<name>_rawShl`, `src/binops.asm.ejs:375-466`. -/
def rawShlCode (bl n : Nat) : List Line :=
  shiftHead bl "rawShl_aligned" ++ shlMasks ++ shlBase ++ down (shlRound n) n ++ subQIfBigger n 0 ++ [.ret, .label "rawShl_aligned"] ++
    shlBase ++ down (shlWords n) n ++ subQIfBigger n 0 ++ [.ret] ++ copyZero n

/-! ## Words -/

/-- The mask of the low `k` bits. -/
def lowMask (k : Nat) : BitVec 64 := (1#64 <<< k) - 1#64

theorem lowMask_bit {k i : Nat} (hk : k < 64) (hi : i < 64) : (lowMask k).getLsbD i = decide (i < k) := by
  have e : lowMask k = BitVec.ofNat 64 (2 ^ k - 1) := by
    apply BitVec.eq_of_toNat_eq
    have h1 : 2 ^ k < 2 ^ 64 := Nat.pow_lt_pow_right (by decide) hk
    have h0 : 0 < 2 ^ k := Nat.two_pow_pos k
    rw [lowMask, BitVec.toNat_sub, BitVec.toNat_shiftLeft, BitVec.toNat_ofNat, Nat.shiftLeft_eq, Nat.one_mod_two_pow_eq_one.2 (by decide),
      Nat.one_mul, Nat.mod_eq_of_lt h1, BitVec.toNat_ofNat, Nat.mod_eq_of_lt (show 2 ^ k - 1 < 2 ^ 64 by omega)]
    rw [show 2 ^ 64 - 1 + 2 ^ k = (2 ^ k - 1) + 2 ^ 64 by omega, Nat.add_mod_right, Nat.mod_eq_of_lt (by omega)]
  rw [e, BitVec.getLsbD_ofNat, Nat.testBit_two_pow_sub_one]
  simp [hi]

/-- A word of a right shift. -/
theorem shr_word {k : Nat} (h0 : 0 < k) (hk : k < 64) (x y : BitVec 64) :
    (x >>> k &&& lowMask (64 - k)) ||| (y <<< (64 - k) &&& ~~~ lowMask (64 - k)) =
      BitVec.ofNat 64 ((x.toNat + 2 ^ 64 * y.toNat) / 2 ^ k) := by
  apply BitVec.eq_of_getLsbD_eq
  intro i hi
  have e : x.toNat + 2 ^ 64 * y.toNat = 2 ^ 64 * y.toNat + x.toNat := Nat.add_comm _ _
  rw [BitVec.getLsbD_or, BitVec.getLsbD_and, BitVec.getLsbD_and, BitVec.getLsbD_not, lowMask_bit (by omega) hi, BitVec.getLsbD_ushiftRight,
    BitVec.getLsbD_shiftLeft, BitVec.getLsbD_ofNat, Nat.testBit_div_two_pow, e, Nat.testBit_two_pow_mul_add _ x.isLt]
  by_cases h : i < 64 - k
  · rw [if_pos (by omega)]
    simp [hi, h, BitVec.getLsbD, Nat.add_comm]
  · rw [if_neg (by omega)]
    simp [hi, h, BitVec.getLsbD]
    congr 1
    omega

/-- The top word of a right shift. -/
theorem shr_top {k : Nat} (h0 : 0 < k) (hk : k < 64) (x : BitVec 64) :
    x >>> k &&& lowMask (64 - k) = BitVec.ofNat 64 (x.toNat / 2 ^ k) := by
  have := shr_word h0 hk x 0
  simpa using this

/-- A word of a left shift. -/
theorem shl_word {k : Nat} (h0 : 0 < k) (hk : k < 64) (x y : BitVec 64) :
    (x <<< k &&& ~~~ lowMask k) ||| (y >>> (64 - k) &&& lowMask k) = BitVec.ofNat 64 (x.toNat * 2 ^ k + y.toNat / 2 ^ (64 - k)) := by
  apply BitVec.eq_of_getLsbD_eq
  intro i hi
  have hy : y.toNat / 2 ^ (64 - k) < 2 ^ k := by
    rw [Nat.div_lt_iff_lt_mul (Nat.two_pow_pos _), ← pow_add, show k + (64 - k) = 64 by omega]; exact y.isLt
  rw [BitVec.getLsbD_or, BitVec.getLsbD_and, BitVec.getLsbD_and, BitVec.getLsbD_not, lowMask_bit (by omega) hi, BitVec.getLsbD_ushiftRight,
    BitVec.getLsbD_shiftLeft, BitVec.getLsbD_ofNat, Nat.mul_comm, Nat.testBit_two_pow_mul_add _ hy]
  by_cases h : i < k
  · rw [if_pos h, Nat.testBit_div_two_pow]
    simp [hi, h, BitVec.getLsbD, Nat.add_comm]
  · rw [if_neg h]
    simp [hi, h, BitVec.getLsbD]

/-- The lowest word of a left shift. -/
theorem shl_low {k : Nat} (h0 : 0 < k) (hk : k < 64) (x : BitVec 64) : x <<< k &&& ~~~ lowMask k = BitVec.ofNat 64 (x.toNat * 2 ^ k) := by
  have := shl_word h0 hk x 0
  simpa using this

/-! ## Limbs -/

theorem limbAt_cons (x : BitVec 64) (xs : Limbs) (i : Nat) : limbAt (x :: xs) (i + 1) = limbAt xs i := rfl

theorem rshift_limb (k : Nat) : ∀ (xs : Limbs) (i : Nat), i < xs.length →
    limbAt (mpn_rshift xs k) i = BitVec.ofNat 64 (((limbAt xs i).toNat + 2 ^ 64 * (limbAt xs (i + 1)).toNat) / 2 ^ k)
  | [], i, h => by simp at h
  | x :: xs, 0, _ => by cases xs <;> rfl
  | x :: xs, i + 1, h => by
    rw [mpn_rshift, limbAt_cons, limbAt_cons, limbAt_cons]
    exact rshift_limb k xs i (by simpa using h)

theorem lshift_limb {k : Nat} (hk : k ≤ 64) : ∀ (xs : Limbs) (c i : Nat), c < 2 ^ k → i < xs.length →
    limbAt (mpn_lshift xs k c) i = BitVec.ofNat 64 ((limbAt xs i).toNat * 2 ^ k +
      if i = 0 then c else (limbAt xs (i - 1)).toNat / 2 ^ (64 - k))
  | [], c, i, _, h => by simp at h
  | x :: xs, c, 0, _, _ => rfl
  | x :: xs, c, i + 1, hc, h => by
    have e : (x.toNat * 2 ^ k + c) / 2 ^ 64 = x.toNat / 2 ^ (64 - k) := by
      rw [show 2 ^ 64 = 2 ^ k * 2 ^ (64 - k) by rw [← pow_add]; congr 1; omega, ← Nat.div_div_eq_div_mul, Nat.mul_comm, Nat.mul_add_div (Nat.two_pow_pos k),
        Nat.div_eq_of_lt hc, Nat.add_zero]
    have hl : x.toNat / 2 ^ (64 - k) < 2 ^ k := by
      rw [Nat.div_lt_iff_lt_mul (Nat.two_pow_pos _), ← pow_add, show k + (64 - k) = 64 by omega]; exact x.isLt
    rw [mpn_lshift, limbAt_cons, limbAt_cons, e, lshift_limb hk xs _ i hl (by simpa using h), if_neg (Nat.succ_ne_zero i), Nat.add_sub_cancel]
    congr 2
    cases i with
    | zero => rfl
    | succ i => rw [if_neg (Nat.succ_ne_zero i), limbAt_cons, Nat.add_sub_cancel]

theorem limbs_ext {xs ys : Limbs} {n : Nat} (hx : xs.length = n) (hy : ys.length = n) (h : ∀ i, i < n → limbAt xs i = limbAt ys i) : xs = ys := by
  refine List.ext_getElem (by rw [hx, hy]) fun i h1 h2 => ?_
  have := h i (by omega)
  rwa [limbAt, limbAt, List.getD_eq_getElem?_getD, List.getD_eq_getElem?_getD, List.getElem?_eq_getElem h1, List.getElem?_eq_getElem h2] at this

theorem firsts_limb (V : Nat → BitVec 64) {n i : Nat} (h : i < n) : limbAt (firsts V n) i = V i := by
  rw [limbAt, List.getD_eq_getElem?_getD, List.getElem?_eq_getElem (by rw [firsts_length]; exact h), Option.getD_some]
  simp [firsts]

theorem rd_limb (m : BitVec 64 → BitVec 64) (a : BitVec 64) {n i : Nat} (h : i < n) : limbAt (rd m a n) i = m (cell a i) := by
  rw [limbAt, List.getD_eq_getElem?_getD, List.getElem?_eq_getElem (by rw [rd_length]; exact h), Option.getD_some, rd_getElem]

theorem limb_out {xs : Limbs} {i : Nat} (h : xs.length ≤ i) : limbAt xs i = 0 := by
  rw [limbAt, List.getD_eq_getElem?_getD, List.getElem?_eq_none h]; rfl

/-! ## The shift counts in `cl` and `ch` -/

/-- `cl = k`, `ch = 64 - k`, the rest of `rcx` zero. -/
def cx (k : Nat) : BitVec 64 := BitVec.ofNat 64 (k + 256 * (64 - k))

theorem cx_set : ∀ {k : Nat}, k < 64 →
    setHigh8 (setHigh8 (BitVec.ofNat 64 k) 64) ((setHigh8 (BitVec.ofNat 64 k) 64 >>> 8).setWidth 8 - (setHigh8 (BitVec.ofNat 64 k) 64).setWidth 8) = cx k := by
  decide +kernel

theorem cx_rol : ∀ {k : Nat}, k < 64 → setHigh8 (setLow8 (cx k) ((cx k >>> 8).setWidth 8)) ((cx k).setWidth 8) = cx (64 - k) := by
  decide +kernel

theorem cx_back : ∀ {k : Nat}, k < 64 →
    setHigh8 (setLow8 (cx (64 - k)) ((cx (64 - k) >>> 8).setWidth 8)) ((cx (64 - k)).setWidth 8) = cx k := by
  decide +kernel

theorem cx_cl : ∀ {k : Nat}, k < 64 → (cx k).toNat % 64 = k := by
  decide +kernel

end FF.X86
