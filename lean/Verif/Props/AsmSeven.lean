import Verif.AsmTagMach
import Verif.Props.AsmProgram
import Verif.Props.AsmToInt

/-!
# The tagged x86-64 routines for the moduli excluded from C61–C68

C55 shows that the generator prints a wrong product by one word for some moduli and a wrong conversion from Montgomery form for others.
Here the tagged routines that call them are run on such moduli: the P-384 prime, another modulus of six limbs, the Ed448 prime and `2^446 - 77`.  Each theorem gives a
machine state that meets every other hypothesis of the corresponding theorem and from which the routine returns a wrong result.

The file also shows that the theorems of C61 apply to the P-384 prime where they claim to.
-/

namespace FF.Props

open FF FF.X86

/-! ## Elements of any number of limbs -/

/-- A short value, a long value in plain form, a long value whose limbs are given, in Montgomery form. -/
def eS (q : Nat) (v : BitVec 32) : Elem := ⟨v, false, false, List.replicate (n64 q) 0⟩
def eL (q k : Nat) : Elem := ⟨0, true, false, toLimbs (n64 q) k⟩
def eR (q k : Nat) : Elem := ⟨0, true, true, toLimbs (n64 q) k⟩

theorem p384_modulus : Modulus p384 := ⟨by decide +kernel, by decide +kernel, by decide +kernel⟩
theorem p446_modulus : Modulus p446 := ⟨by decide +kernel, by decide +kernel, by decide +kernel⟩
theorem p448_modulus : Modulus p448 := ⟨by decide +kernel, by decide +kernel, by decide +kernel⟩

/-- The call returns, with an element that does not denote `k`; the machine was ready for it, and the operands denoted `x` and `y`. -/
structure TagWrong (env : String → Option (State → Option State)) (code : List Line) (q : Nat) (s : State) (x y k : Nat) : Prop where
  modulus : Modulus q
  ready : TagReady q s
  opA : TagOperand q s .rsi
  opB : TagOperand q s .rdx
  repA : Rep q (opAt q s .rsi) (x : ZMod q)
  repB : Rep q (opAt q s .rdx) (y : ZMod q)
  wrong : ∃ s', X86.run env 0 code s = some s' ∧ ¬ Rep q (opAt q s' .rdi) (k : ZMod q)

/-- The machine of the examples: result, first and second operand at three places. -/
abbrev mach3 (q : Nat) (a b : Elem) : State := tagMach q (eS q 0) a b 0 1 2

theorem wrong_of {env envF : String → Option (State → Option State)} {code : List Line} {q x y k : Nat} {a b : Elem} (hq : Modulus q)
    (hn : n64 q ≤ 15) (he : env = envF) (hx : repB q (opAt q (mach3 q a b) .rsi) x = true) (hy : repB q (opAt q (mach3 q a b) .rdx) y = true)
    (h : (runE envF 0 code (mach3 q a b)).map (fun s' => !repB q (opAt q s' .rdi) k) = some true) :
    TagWrong env code q (mach3 q a b) x y k := by
  obtain ⟨s', h1, h2⟩ := run_of_eval he h
  exact ⟨hq, tagMach_ready hn (by decide), (tagMach_opnds hn (by decide) (by decide) (by decide)).1,
    (tagMach_opnds hn (by decide) (by decide) (by decide)).2, Rep_iff.mpr hx, Rep_iff.mpr hy, s', h1,
    fun h => by rw [Rep_iff] at h; rw [h] at h2; exact absurd h2 (by decide)⟩

/-! ## The P-384 prime: what holds and what does not -/

theorem p384_limbs : n64 p384 = 6 := by decide +kernel
theorem p446_limbs : n64 p446 = 7 := by decide +kernel
theorem p448_limbs : n64 p448 = 7 := by decide +kernel

theorem p384_conv : ConvRight p384 := .inr ⟨p384_limbs, by decide +kernel⟩

/-- A modulus of six limbs of the variant that is not optimised, for which every product by a short value is right. -/
example : n64 (2 ^ 383 + 187) = 6 ∧ canOpt (2 ^ 383 + 187) = false ∧ Mul1Right (2 ^ 383 + 187) :=
  ⟨by decide +kernel, by decide +kernel, .inr ⟨by decide +kernel, by decide +kernel⟩⟩

/-- An element for which the first round of the product by 3 has a carry. -/
def x384 : Nat := (p384 / 2 ^ 64 - 1) * 2 ^ 64 + (p384 % 2 ^ 64 * 12297829382473034411) % 2 ^ 64

/-- C61, multiplication, violated: a long element of the P-384 field times the short value 3. -/
theorem C61_mul_six_violated : TagWrong (libRaw p384 0) mulCode p384 (mach3 p384 (eL p384 x384) (eS p384 3)) x384 3 (x384 * 3) :=
  wrong_of p384_modulus (by rw [p384_limbs]; decide) (libRawF_eq _ _) (by decide +kernel) (by decide +kernel) (by decide +kernel)

/-- The theorem about addition applies to the P-384 field. -/
example : TagDenotes (lib p384 0) 0 (addCode (n64 p384)) p384 (mach3 p384 (eR p384 (x384 * 2 ^ 384 % p384)) (eS p384 3))
    ((x384 : ZMod p384) + ((3 : Nat) : ZMod p384)) := by
  have hn : n64 p384 ≤ 15 := by rw [p384_limbs]; decide
  exact C61_add_distinct_partial 0 p384_modulus (.of p384_conv _ _) (tagMach_ready hn (by decide))
    (tagMach_opnds hn (by decide) (by decide) (by decide)).1 (tagMach_opnds hn (by decide) (by decide) (by decide)).2
    (Rep_iff.mpr (by decide +kernel)) (Rep_iff.mpr (by decide +kernel)) (by decide) (by decide)

/-! ## Six limbs, not optimised, with a wrong conversion to Montgomery form -/

/-- `2^384 - c` for a `c` just below `2^192`, so that the Montgomery constant `2^768 mod q` is `c^2`, close to the modulus. -/
def d384 : Nat := 2 ^ 384 - 0xffffffffffffffffffffffffffffff644000000080000001

theorem d384_modulus : Modulus d384 := ⟨by decide +kernel, by decide +kernel, by decide +kernel⟩
theorem d384_limbs : n64 d384 = 6 := by decide +kernel

/-- The Montgomery form of 7. -/
def md384 : Elem := eR d384 (7 * 2 ^ 384 % d384)

/-- C63, violated for this modulus of six limbs: the short value `2^31 - 1` is taken to a wrong Montgomery form. -/
theorem C63_six_violated :
    TagWrong (libRaw d384 0) toMontgomery d384 (mach3 d384 (eS d384 0x7fffffff) (eS d384 0)) (2 ^ 31 - 1) 0 (2 ^ 31 - 1) :=
  wrong_of d384_modulus (by rw [d384_limbs]; decide) (libRawF_eq _ _) (by decide +kernel) (by decide +kernel) (by decide +kernel)

/-- C61, addition and subtraction, violated for it: `7 + (2^31 - 1)` and `7 - (2^31 - 1)`. -/
theorem C61_conv_six_violated :
    TagWrong (lib d384 0) (addCode 6) d384 (mach3 d384 md384 (eS d384 0x7fffffff)) 7 (2 ^ 31 - 1) (2 ^ 31 + 6) ∧
    TagWrong (lib d384 0) (subCode 6) d384 (mach3 d384 md384 (eS d384 0x7fffffff)) 7 (2 ^ 31 - 1) (d384 + 8 - 2 ^ 31) := by
  have hn : n64 d384 ≤ 15 := by rw [d384_limbs]; decide
  exact ⟨wrong_of d384_modulus hn (libF_eq _ _) (by decide +kernel) (by decide +kernel) (by decide +kernel),
    wrong_of d384_modulus hn (libF_eq _ _) (by decide +kernel) (by decide +kernel) (by decide +kernel)⟩

/-- C64, violated for it: `2^31 - 1` in Montgomery form is not reported equal to the short value. -/
theorem C64_eq_six_violated :
    TagWrong (libCmp d384 0) (cmpStore "req") d384 (mach3 d384 (eR d384 ((2 ^ 31 - 1) * 2 ^ 384 % d384)) (eS d384 0x7fffffff))
      (2 ^ 31 - 1) (2 ^ 31 - 1) 1 :=
  wrong_of d384_modulus (by rw [d384_limbs]; decide) (libCmpF_eq _ _) (by decide +kernel) (by decide +kernel) (by decide +kernel)

/-! ## Seven limbs, optimised -/

/-- The residue whose Montgomery limbs are 2. -/
def x446 : Nat := 71975912633168864161540182274623825642162537340789613112290425568212656777463106043665022879122690745465119834386748139522095291145252
/-- The Montgomery form of 7. -/
def m446 : Elem := eR p446 (7 * 2 ^ 448 % p446)

/-- C61, violated for `2^446 - 77`: `7 * 5`, `7 + 5` and `7 - 5` with the 5 short. -/
theorem C61_seven_violated :
    TagWrong (libRaw p446 0) mulCode p446 (mach3 p446 (eL p446 7) (eS p446 5)) 7 5 35 ∧
    TagWrong (lib p446 0) (addCode 7) p446 (mach3 p446 m446 (eS p446 5)) 7 5 12 ∧
    TagWrong (lib p446 0) (subCode 7) p446 (mach3 p446 m446 (eS p446 5)) 7 5 2 := by
  have hn : n64 p446 ≤ 15 := by rw [p446_limbs]; decide
  exact ⟨wrong_of p446_modulus hn (libRawF_eq _ _) (by decide +kernel) (by decide +kernel) (by decide +kernel),
    wrong_of p446_modulus hn (libF_eq _ _) (by decide +kernel) (by decide +kernel) (by decide +kernel),
    wrong_of p446_modulus hn (libF_eq _ _) (by decide +kernel) (by decide +kernel) (by decide +kernel)⟩

/-- The theorems apply to this modulus when no short operand has to be taken to Montgomery form or multiplied by a long one. -/
example : TagDenotes (lib p446 0) 0 (subCode (n64 p446)) p446 (mach3 p446 (eL p446 x446) (eS p446 5))
    ((x446 : ZMod p446) - ((5 : Nat) : ZMod p446)) := by
  have hn : n64 p446 ≤ 15 := by rw [p446_limbs]; decide
  exact C61_sub_distinct_partial 0 p446_modulus (.normal (by decide +kernel) (by decide +kernel)) (tagMach_ready hn (by decide))
    (tagMach_opnds hn (by decide) (by decide) (by decide)).1 (tagMach_opnds hn (by decide) (by decide) (by decide)).2
    (Rep_iff.mpr (by decide +kernel)) (Rep_iff.mpr (by decide +kernel)) (by decide) (by decide)
example : TagDenotes (lib p446 0) 0 (addCode (n64 p446)) p446 (mach3 p446 (eL p446 x446) m446)
    ((x446 : ZMod p446) + ((7 : Nat) : ZMod p446)) := by
  have hn : n64 p446 ≤ 15 := by rw [p446_limbs]; decide
  exact C61_add_distinct_partial 0 p446_modulus (.long (by decide +kernel) (by decide +kernel)) (tagMach_ready hn (by decide))
    (tagMach_opnds hn (by decide) (by decide) (by decide)).1 (tagMach_opnds hn (by decide) (by decide) (by decide)).2
    (Rep_iff.mpr (by decide +kernel)) (Rep_iff.mpr (by decide +kernel)) (by decide) (by decide)
example : TagDenotes (libRaw p446 0) 0 mulCode p446 (mach3 p446 (eL p446 x446) m446)
    ((x446 : ZMod p446) * ((7 : Nat) : ZMod p446)) := by
  have hn : n64 p446 ≤ 15 := by rw [p446_limbs]; decide
  exact C61_mul_partial 0 p446_modulus (.same (by decide +kernel)) (tagMach_ready hn (by decide))
    (tagMach_opnds hn (by decide) (by decide) (by decide)).1 (tagMach_opnds hn (by decide) (by decide) (by decide)).2
    (Rep_iff.mpr (by decide +kernel)) (Rep_iff.mpr (by decide +kernel))

/-- C63, violated for `2^446 - 77`: the conversion of the short value 7 to Montgomery form, and both conversions of the element whose Montgomery limbs
are 2 to plain form. -/
theorem C63_seven_violated :
    TagWrong (libRaw p446 0) toMontgomery p446 (mach3 p446 (eS p446 7) (eS p446 0)) 7 0 7 ∧
    TagWrong (libRaw p446 0) toNormal p446 (mach3 p446 (eR p446 2) (eS p446 0)) x446 0 x446 ∧
    TagWrong (libRaw p446 0) toLongNormal p446 (mach3 p446 (eR p446 2) (eS p446 0)) x446 0 x446 := by
  have hn : n64 p446 ≤ 15 := by rw [p446_limbs]; decide
  exact ⟨wrong_of p446_modulus hn (libRawF_eq _ _) (by decide +kernel) (by decide +kernel) (by decide +kernel),
    wrong_of p446_modulus hn (libRawF_eq _ _) (by decide +kernel) (by decide +kernel) (by decide +kernel),
    wrong_of p446_modulus hn (libRawF_eq _ _) (by decide +kernel) (by decide +kernel) (by decide +kernel)⟩

/-- C64, violated for `2^446 - 77`: 7 in Montgomery form is not reported equal to the short value 7. -/
theorem C64_eq_seven_violated :
    TagWrong (libCmp p446 0) (cmpStore "req") p446 (mach3 p446 m446 (eS p446 7)) 7 7 1 :=
  wrong_of p446_modulus (by rw [p446_limbs]; decide) (libCmpF_eq _ _) (by decide +kernel) (by decide +kernel) (by decide +kernel)

/-- C68, violated for `2^446 - 77`: `toInt` of 7 in Montgomery form ends in `fail`. -/
theorem C68_seven_violated : let s := tagMach p446 m446 (eS p446 0) (eS p446 0) 0 1 2
    Modulus p446 ∧ TagReady p446 s ∧ Rep p446 (opAt p446 s .rdi) ((7 : Nat) : ZMod p446) ∧
      X86.run (libFail p446 0 fun _ => none) 0 (toIntCode (n64 p446)) s = none := by
  refine ⟨p446_modulus, tagMach_ready (by rw [p446_limbs]; decide) (by decide), Rep_iff.mpr (by decide +kernel), ?_⟩
  rw [libFailF_eq, runE_eq]
  have h : (runE (libFailF p446 0 fun _ => none) 0 (toIntCode (n64 p446)) (tagMach p446 m446 (eS p446 0) (eS p446 0) 0 1 2)).isNone = true := by
    decide +kernel
  exact Option.isNone_iff_eq_none.mp h

/-! ## Seven limbs, not optimised -/

/-- The residue whose Montgomery limbs are those of `-1`. -/
def x448 : Nat := 26959946667150639794667015087019630673637144422540572481103610249214
/-- The element with these limbs. -/
def m448 : Elem := eR p448 (p448 - 1)

/-- C63, violated for the Ed448 prime: both conversions to plain form. -/
theorem C63_ed448_violated :
    TagWrong (libRaw p448 0) toNormal p448 (mach3 p448 m448 (eS p448 0)) x448 0 x448 ∧
    TagWrong (libRaw p448 0) toLongNormal p448 (mach3 p448 m448 (eS p448 0)) x448 0 x448 := by
  have hn : n64 p448 ≤ 15 := by rw [p448_limbs]; decide
  exact ⟨wrong_of p448_modulus hn (libRawF_eq _ _) (by decide +kernel) (by decide +kernel) (by decide +kernel),
    wrong_of p448_modulus hn (libRawF_eq _ _) (by decide +kernel) (by decide +kernel) (by decide +kernel)⟩

theorem p448_conv : ConvRight p448 := .inl (by rw [p448_limbs, show canOpt p448 = false by decide +kernel]; decide)

/-- Equality, which does not convert from Montgomery form, is right for the Ed448 prime: the same element in both forms. -/
example : TagDecides (lib p448 0) 0 (reqCode (n64 p448)) p448 (mach3 p448 m448 (eL p448 x448)) ((x448 : ZMod p448) = (x448 : ZMod p448)) := by
  have hn : n64 p448 ≤ 15 := by rw [p448_limbs]; decide
  exact C64_req_partial 0 p448_modulus (.of p448_conv _ _) (tagMach_ready hn (by decide))
    (tagMach_opnds hn (by decide) (by decide) (by decide)).1 (tagMach_opnds hn (by decide) (by decide) (by decide)).2
    (Rep_iff.mpr (by decide +kernel)) (Rep_iff.mpr (by decide +kernel))

/-- C64, violated for the Ed448 prime: an element is reported greater than the same element in plain form. -/
theorem C64_order_ed448_violated :
    TagWrong (libCmp p448 0) (cmpStore "rgt") p448 (mach3 p448 m448 (eL p448 x448)) x448 x448 0 :=
  wrong_of p448_modulus (by rw [p448_limbs]; decide) (libCmpF_eq _ _) (by decide +kernel) (by decide +kernel) (by decide +kernel)

/-- C66, violated for the Ed448 prime: `x & x`, `x | x`, `x ^ x` with one of the operands in Montgomery form. -/
theorem C66_ed448_violated :
    TagWrong (lib p448 0) (bandCode 7) p448 (mach3 p448 m448 (eL p448 x448)) x448 x448 x448 ∧
    TagWrong (lib p448 0) (borCode 7) p448 (mach3 p448 m448 (eL p448 x448)) x448 x448 x448 ∧
    TagWrong (lib p448 0) (bxorCode 7) p448 (mach3 p448 m448 (eL p448 x448)) x448 x448 0 := by
  have hn : n64 p448 ≤ 15 := by rw [p448_limbs]; decide
  exact ⟨wrong_of p448_modulus hn (libF_eq _ _) (by decide +kernel) (by decide +kernel) (by decide +kernel),
    wrong_of p448_modulus hn (libF_eq _ _) (by decide +kernel) (by decide +kernel) (by decide +kernel),
    wrong_of p448_modulus hn (libF_eq _ _) (by decide +kernel) (by decide +kernel) (by decide +kernel)⟩

/-- C67, violated for the Ed448 prime: shifts by one bit of an element in Montgomery form. -/
theorem C67_ed448_violated :
    TagWrong (libShift p448 0) (shlCode 448 7) p448 (mach3 p448 m448 (eS p448 1)) x448 1 (x448 * 2) ∧
    TagWrong (libShift p448 0) (shrCode 448 7) p448 (mach3 p448 m448 (eS p448 1)) x448 1 (x448 / 2) := by
  have hn : n64 p448 ≤ 15 := by rw [p448_limbs]; decide
  exact ⟨wrong_of p448_modulus hn (libShiftF_eq _ _) (by decide +kernel) (by decide +kernel) (by decide +kernel),
    wrong_of p448_modulus hn (libShiftF_eq _ _) (by decide +kernel) (by decide +kernel) (by decide +kernel)⟩

/-- The theorems about order, bitwise operations, shifts and `toInt` apply to the seven-limb moduli when no operand is a long element in
Montgomery form. -/
example : TagDenotes (libCmp p446 0) 0 (cmpStore "rlt") p446 (mach3 p446 (eL p446 x446) (eS p446 (-5)))
    (if sval (x446 : ZMod p446) < sval ((p446 - 5 : Nat) : ZMod p446) then 1 else 0) := by
  have hn : n64 p446 ≤ 15 := by rw [p446_limbs]; decide
  exact (C64_order_partial 0 p446_modulus (.normal (by decide +kernel)) (.short (by decide +kernel)) (tagMach_ready hn (by decide))
    (tagMach_opnds hn (by decide) (by decide) (by decide)).1 (tagMach_opnds hn (by decide) (by decide) (by decide)).2
    (Rep_iff.mpr (by decide +kernel)) (Rep_iff.mpr (by decide +kernel))).1
example : TagDenotes (lib p448 0) 0 (bandCode (n64 p448)) p448 (mach3 p448 (eL p448 x448) (eS p448 5))
    (((x448 : ZMod p448).val &&& ((5 : Nat) : ZMod p448).val : Nat) : ZMod p448) := by
  have hn : n64 p448 ≤ 15 := by rw [p448_limbs]; decide
  exact (C66_bitwise_partial 0 p448_modulus (.normal (by decide +kernel)) (.short (by decide +kernel)) (tagMach_ready hn (by decide))
    (tagMach_opnds hn (by decide) (by decide) (by decide)).1 (tagMach_opnds hn (by decide) (by decide) (by decide)).2
    (Rep_iff.mpr (by decide +kernel)) (Rep_iff.mpr (by decide +kernel))
    ⟨fun h => absurd h (by decide), fun h => absurd h (by decide)⟩).1
example : TagDenotes (libShift p448 0) 0 (shrCode (bitLen p448) (n64 p448)) p448 (mach3 p448 (eL p448 x448) (eL p448 70))
    (shrSpec (x448 : ZMod p448) ((70 : Nat) : ZMod p448)) := by
  have hn : n64 p448 ≤ 15 := by rw [p448_limbs]; decide
  exact (C67_shift_partial 0 p448_modulus (.normal (by decide +kernel)) (.normal (by decide +kernel)) (by decide +kernel)
    (tagMach_ready hn (by decide))
    (tagMach_opnds hn (by decide) (by decide) (by decide)).1 (tagMach_opnds hn (by decide) (by decide) (by decide)).2
    (Rep_iff.mpr (by decide +kernel)) (Rep_iff.mpr (by decide +kernel))).2

/-- A program for `2^446 - 77`: `e0 := e1 - e2; e0 := e0 * e0; e1 := -e0`, started on plain elements, one of them short. -/
def sevenProg : List Instr := [⟨.sub, 0, 1, 2⟩, ⟨.square, 0, 0, 0⟩, ⟨.neg, 1, 0, 0⟩]

example : ∃ s', callAll p446 99 (plainCaller machLoc 99) sevenProg (mach3 p446 (eL p446 x446) (eS p446 (-5))) = some s' ∧
    ∀ p < 3, Rep p446 (elemAt (n64 p446) s'.mem (machLoc p))
      (runSpec sevenProg (fun p => ((match p with | 0 => 0 | 1 => x446 | _ => p446 - 5 : Nat) : ZMod p446)) p) := by
  have hn : n64 p446 ≤ 15 := by rw [p446_limbs]; decide
  obtain ⟨s', h1, _, _, h2⟩ := C79_inplace_partial (k := 3) (loc := machLoc) 99 p446_modulus sevenProg
    (by
      intro i hi
      simp only [sevenProg, List.mem_cons, List.not_mem_nil, or_false] at hi
      rcases hi with rfl | rfl | rfl <;> simp [Instr.inRange, Op.binary]) (plainCaller machLoc 99)
    (plainCaller_enters p446 3 machLoc 99) (mach3 p446 (eL p446 x446) (eS p446 (-5)))
    ⟨.inl (by simp [Instr.placedX86]), .inr (MixOk.normal (by decide +kernel) (by decide +kernel)),
      fun _ _ => ⟨.inl trivial, .inl trivial, fun _ _ => ⟨.inl trivial, .inl trivial, fun _ _ => trivial⟩⟩⟩
    (tagMach_layout hn (by decide))
    (fun p => ((match p with | 0 => 0 | 1 => x446 | _ => p446 - 5 : Nat) : ZMod p446)) (by
      intro p hp
      interval_cases p <;> exact Rep_iff.mpr (by decide +kernel))
  exact ⟨s', h1, h2⟩

end FF.Props
