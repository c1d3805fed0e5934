import Verif.RawFr
import Mathlib.Algebra.Module.Basic
import Mathlib.Tactic.Module

/-!
# Signed-digit recoding and scalar multiplication: `c/naf.cpp`, `c/exp.hpp`
-/

namespace FF

/-- Body of the inner loop of `buildNafTable`, `naf.cpp:12-42`: new `last`, new `carry`, digit. -/
def nafStep (last carry cur : Bool) : Bool × Bool × BitVec 8 :=
  if last then
    if cur then
      if carry then (false, true, 1) else (false, true, 2)
    else
      if carry then (false, true, 2) else (false, false, 1)
  else
    if cur then
      if carry then (false, true, 0) else (true, false, 0)
    else
      if carry then (true, false, 0) else (false, false, 0)

/-- The loop `for (i=0; i<8; i++)`, `naf.cpp:9-42`, with `k = 8 - i` steps to go: digits, final `last`, final `carry`. -/
def nafEntryLoop (inp : Nat) : Nat → Nat → Bool → Bool → List (BitVec 8) × Bool × Bool
  | 0, _, last, carry => ([], last, carry)
  | k + 1, i, last, carry =>
    let cur := inp &&& (1 <<< (i + 1)) != 0
    let s := nafStep last carry cur
    let t := nafEntryLoop inp k (i + 1) s.1 s.2.1
    (s.2.2 :: t.1, t.2)

/-- Reading the eight bytes `res` as one 64-bit word, `naf.cpp:44` (little-endian machine). -/
def word64 : List (BitVec 8) → BitVec 64
  | [] => 0
  | b :: bs => (b.setWidth 64) ||| (word64 bs <<< 8)

/-- One entry of `NAFTable`, `naf.cpp:5-49`. -/
def nafEntry (inp : Nat) : BitVec 64 :=
  let carry := inp &&& 0x200 != 0
  let last := inp &&& 1 != 0
  let t := nafEntryLoop inp 8 0 last carry
  let r64 := word64 t.1
  let r64 := if t.2.2 then r64 ||| 0x4 else r64
  if t.2.1 then r64 ||| 0x8 else r64

/-- The eight bytes of a word stored at `r64[i]`. -/
def bytes64 (w : BitVec 64) : List (BitVec 8) := (List.range 8).map fun k => w.extractLsb' (8 * k) 8

/-- The loop of `buildNaf`, `naf.cpp:63-74`, from index `i` with `k` iterations to go: the bytes stored.
`scalar` has `scalarSize ≥ 1` bytes, so `scalarSize-1` does not wrap and every access is within the array. -/
def buildNafLoop (scalar : List (BitVec 8)) : Nat → Nat → Bool → Bool → List (BitVec 8)
  | 0, _, _, _ => []
  | k + 1, i, last, carry =>
    let st := if last then 1 else 0
    let st := if i < scalar.length then st + (scalar.getD i 0 &&& 0xFE).toNat else st
    let st := if i < scalar.length - 1 then st + (scalar.getD (i + 1) 0 &&& 1).toNat <<< 8 else st
    let st := if carry then st + 0x200 else st
    let rs := nafEntry st
    let carry := rs &&& 4 != 0
    let last := rs &&& 8 != 0
    bytes64 (rs &&& 0x0303030303030303) ++ buildNafLoop scalar k (i + 1) last carry

/-- `buildNaf`, `naf.cpp:56-75`: the `8·(scalarSize+2)` digit bytes written to `r`.  With `scalarSize = 0` the read of `scalar[0]` is
out of bounds: `none`. -/
def buildNaf (scalar : List (BitVec 8)) : Option (List (BitVec 8)) :=
  if scalar.length = 0 then none
  else
    let carry := false
    let last := scalar.getD 0 0 &&& 1 != 0
    some (buildNafLoop scalar (scalar.length + 2) 0 last carry)

/-! ## `nafMulByScalar`, `exp.hpp:6-29` -/

variable {P PA A : Type}

/-- The loop that skips leading zero digits, `exp.hpp:16`: argument `i+1`, result `i+1`. -/
def nafSkip (naf : List (BitVec 8)) : Nat → Nat
  | 0 => 0
  | i + 1 => if naf.getD i 0 == 0 then nafSkip naf i else i + 1

/-- The main loop, `exp.hpp:17-25`: argument `i+1`.  `r` is the content of the result. -/
def nafMulLoop (dbl : P → P) (add sub : P → PA → P) (naf : List (BitVec 8)) (base : PA) : Nat → P → P
  | 0, r => r
  | i + 1, r =>
    let r := dbl r
    let r := if naf.getD i 0 == 1 then add r base else if naf.getD i 0 == 2 then sub r base else r
    nafMulLoop dbl add sub naf base i r

/-- `int nBits = (scalarSize*8)+2`, `exp.hpp:9`: computed on 32-bit unsigned integers and converted to `int`; no digit is read when it is
negative. -/
def nafBits (scalarSize : Nat) : Nat := (BitVec.ofNat 32 scalarSize * 8 + 2).toInt.toNat

/-- `buildNaf` into `new uint8_t[(scalarSize+2)*8]`, `exp.hpp:10-11`.  The product is a 32-bit one; `none` when it wraps, since `buildNaf`
then writes behind the array. -/
def nafAlloc (scalar : List (BitVec 8)) : Option (List (BitVec 8)) :=
  if (scalar.length + 2) * 8 < 2 ^ 32 then buildNaf scalar else none

/-- `nafMulByScalar`, `exp.hpp:6-29`, when the base is of another type than the result (affine base), so cannot share its memory. -/
def nafMulByScalar (zero : P) (dbl : P → P) (add sub : P → PA → P) (base : PA) (scalar : List (BitVec 8)) : Option P :=
  let nBits := nafBits scalar.length
  (nafAlloc scalar).map fun naf =>
    let baseCopy := base
    let r := zero
    let i := nafSkip naf nBits
    nafMulLoop dbl add sub naf baseCopy i r

/-- The main loop on a store of points, the result at `r`. -/
def nafMulLoopM (dbl : P → P) (add sub : P → P → P) (naf : List (BitVec 8)) (base : P) (r : Nat) : Nat → (Nat → P) → (Nat → P)
  | 0, m => m
  | i + 1, m =>
    let m := Function.update m r (dbl (m r))
    let m := if naf.getD i 0 == 1 then Function.update m r (add (m r) base)
      else if naf.getD i 0 == 2 then Function.update m r (sub (m r) base) else m
    nafMulLoopM dbl add sub naf base r i m

/-- `nafMulByScalar` on a store of points: `base` and `r` may be the same point. -/
def nafMulByScalarM (zero : P) (dbl : P → P) (add sub : P → P → P) (m : Nat → P) (r base : Nat) (scalar : List (BitVec 8)) :
    Option (Nat → P) :=
  let nBits := nafBits scalar.length
  (nafAlloc scalar).map fun naf =>
    let baseCopy := m base
    let m := Function.update m r zero
    let i := nafSkip naf nBits
    nafMulLoopM dbl add sub naf baseCopy r i m

/-! ## Facts about the recoding -/

/-- The recoding automaton on a list of bits. -/
def nafRun : Bool → Bool → List Bool → List (BitVec 8) × Bool × Bool
  | last, carry, [] => ([], last, carry)
  | last, carry, b :: bs =>
    let s := nafStep last carry b
    let t := nafRun s.1 s.2.1 bs
    (s.2.2 :: t.1, t.2)

def bits8 (x : Nat) : List Bool := (List.range 8).map fun k => x.testBit k

theorem nafEntry_table : ∀ last carry : Bool, ∀ x : Fin 256,
    let rs := nafEntry ((if last then 1 else 0) + 2 * x.val + (if carry then 512 else 0))
    let t := nafRun last carry (bits8 x.val)
    bytes64 (rs &&& 0x0303030303030303) = t.1 ∧ (rs &&& 8 != 0) = t.2.1 ∧ (rs &&& 4 != 0) = t.2.2 := by
  decide +kernel

theorem nafRun_append (bs bs' : List Bool) : ∀ last carry,
    nafRun last carry (bs ++ bs') =
      ((nafRun last carry bs).1 ++ (nafRun (nafRun last carry bs).2.1 (nafRun last carry bs).2.2 bs').1,
        (nafRun (nafRun last carry bs).2.1 (nafRun last carry bs).2.2 bs').2) := by
  induction bs with
  | nil => intro last carry; rfl
  | cons b bs ih => intro last carry; simp only [List.cons_append, nafRun, ih]

theorem nafRun_length (bs : List Bool) : ∀ last carry, (nafRun last carry bs).1.length = bs.length := by
  induction bs with
  | nil => intro last carry; rfl
  | cons b bs ih => intro last carry; simp [nafRun, ih]

/-- The value of a digit byte: 0, 1 and 2 stand for 0, 1 and -1. -/
def digitVal (d : BitVec 8) : ℤ := if d = 1 then 1 else if d = 2 then -1 else 0

/-- `Σ dⱼ 2ʲ`. -/
def nafVal : List (BitVec 8) → ℤ
  | [] => 0
  | d :: ds => digitVal d + 2 * nafVal ds

def bitsVal : List Bool → Nat
  | [] => 0
  | b :: bs => b.toNat + 2 * bitsVal bs

theorem nafStep_val (last carry cur : Bool) :
    (last.toNat : ℤ) + 2 * carry.toNat + 2 * cur.toNat =
      digitVal (nafStep last carry cur).2.2 + 2 * ((nafStep last carry cur).1.toNat + 2 * (nafStep last carry cur).2.1.toNat) := by
  revert last carry cur; decide

theorem nafRun_val (bs : List Bool) : ∀ last carry,
    (last.toNat : ℤ) + 2 * carry.toNat + 2 * (bitsVal bs : ℤ) =
      nafVal (nafRun last carry bs).1 + 2 ^ bs.length * ((nafRun last carry bs).2.1.toNat + 2 * (nafRun last carry bs).2.2.toNat) := by
  induction bs with
  | nil => intro last carry; simp [nafRun, nafVal, bitsVal]
  | cons b bs ih =>
    intro last carry
    have h1 := nafStep_val last carry b
    have h2 := ih (nafStep last carry b).1 (nafStep last carry b).2.1
    simp only [nafRun, nafVal, bitsVal, List.length_cons, pow_succ]
    push_cast
    linear_combination h1 + 2 * h2

/-- `last` and `carry` are never both set. -/
theorem nafRun_inv (bs : List Bool) : ∀ last carry, ¬ (last = true ∧ carry = true) →
    ¬ ((nafRun last carry bs).2.1 = true ∧ (nafRun last carry bs).2.2 = true) := by
  induction bs with
  | nil => intro last carry h; exact h
  | cons b bs ih =>
    intro last carry h
    apply ih
    revert last carry b; decide

theorem digit_cases (last carry cur : Bool) : (nafStep last carry cur).2.2 = 0 ∨ (nafStep last carry cur).2.2 = 1 ∨ (nafStep last carry cur).2.2 = 2 := by
  revert last carry cur; decide

theorem nafRun_digits (bs : List Bool) : ∀ last carry, ∀ d ∈ (nafRun last carry bs).1, d = 0 ∨ d = 1 ∨ d = 2 := by
  induction bs with
  | nil => intro last carry d hd; simp [nafRun] at hd
  | cons b bs ih =>
    intro last carry d hd
    simp only [nafRun, List.mem_cons] at hd
    rcases hd with rfl | hd
    · exact digit_cases ..
    · exact ih _ _ d hd

theorem nafStep_last (last carry cur : Bool) (h : (nafStep last carry cur).2.2 ≠ 0) : (nafStep last carry cur).1 = false := by
  revert last carry cur; decide
theorem nafStep_zero (carry cur : Bool) : (nafStep false carry cur).2.2 = 0 := by revert carry cur; decide

/-- No two adjacent digits are both non-zero. -/
theorem nafRun_nonadjacent (bs : List Bool) : ∀ last carry j, j + 1 < bs.length →
    (nafRun last carry bs).1.getD j 0 = 0 ∨ (nafRun last carry bs).1.getD (j + 1) 0 = 0 := by
  induction bs with
  | nil => intro last carry j h; simp at h
  | cons b bs ih =>
    intro last carry j h
    simp only [nafRun, List.getD_cons_succ]
    cases j with
    | zero =>
      rw [List.getD_cons_zero]
      by_cases h0 : (nafStep last carry b).2.2 = 0
      · exact Or.inl h0
      · right
        rw [nafStep_last _ _ _ h0]
        cases bs with
        | nil => simp at h
        | cons c cs => simp only [nafRun, List.getD_cons_zero]; exact nafStep_zero ..
    | succ j =>
      rw [List.getD_cons_succ]
      exact ih _ _ j (by simpa using h)

/-! ### The bits fed to the automaton -/

theorem and_fe (b : BitVec 8) : (b &&& 0xFE).toNat = 2 * (b.toNat / 2) := by revert b; decide +kernel
theorem and_one8 (b : BitVec 8) : (b &&& 1).toNat = b.toNat % 2 := by revert b; decide +kernel

theorem valLE_byte (s : List (BitVec 8)) : ∀ i, valLE s / 256 ^ i % 256 = (s.getD i 0).toNat := by
  induction s with
  | nil => intro i; simp [valLE]
  | cons b s ih =>
    intro i
    have hb : b.toNat < 256 := b.isLt
    cases i with
    | zero => simp only [valLE, pow_zero, Nat.div_one, List.getD_cons_zero]; omega
    | succ i =>
      rw [List.getD_cons_succ, ← ih i]
      have e1 : valLE (b :: s) / 256 ^ (i + 1) = valLE s / 256 ^ i := by
        rw [pow_succ', ← Nat.div_div_eq_div_mul]
        congr 1
        simp only [valLE]; omega
      rw [e1]

/-- The eight bits `8i+1 … 8i+8` of the scalar. -/
theorem naf_window (s : List (BitVec 8)) (i : Nat) :
    valLE s / 2 ^ (8 * i + 1) % 256 = (s.getD i 0).toNat / 2 + 128 * ((s.getD (i + 1) 0).toNat % 2) := by
  have h1 := valLE_byte s i
  have h2 := valLE_byte s (i + 1)
  have e0 : (256 : Nat) ^ i = 2 ^ (8 * i) := by rw [pow_mul]; norm_num
  rw [e0] at h1
  rw [pow_succ, e0, ← Nat.div_div_eq_div_mul] at h2
  rw [pow_succ, ← Nat.div_div_eq_div_mul]
  generalize valLE s / 2 ^ (8 * i) = v at *
  omega

theorem naf_st (s : List (BitVec 8)) (i : Nat) (last carry : Bool) :
    (let st := if last then 1 else 0
     let st := if i < s.length then st + (s.getD i 0 &&& 0xFE).toNat else st
     let st := if i < s.length - 1 then st + (s.getD (i + 1) 0 &&& 1).toNat <<< 8 else st
     if carry then st + 0x200 else st) =
    (if last then 1 else 0) + 2 * (valLE s / 2 ^ (8 * i + 1) % 256) + (if carry then 512 else 0) := by
  rw [naf_window]
  have g1 : i < s.length ∨ s.getD i 0 = 0 := by
    by_cases h : i < s.length
    · exact Or.inl h
    · exact Or.inr (by simp [List.getD_eq_getElem?_getD, List.getElem?_eq_none (not_lt.mp h)])
  have g2 : i < s.length - 1 ∨ s.getD (i + 1) 0 = 0 := by
    by_cases h : i + 1 < s.length
    · exact Or.inl (by omega)
    · exact Or.inr (by simp [List.getD_eq_getElem?_getD, List.getElem?_eq_none (not_lt.mp h)])
  simp only [and_fe, and_one8, Nat.shiftLeft_eq]
  have z : (0 : BitVec 8).toNat = 0 := rfl
  have c1 : (if i < s.length then (if last then 1 else 0) + 2 * ((s.getD i 0).toNat / 2) else (if last then 1 else 0)) =
      (if last then 1 else 0) + 2 * ((s.getD i 0).toNat / 2) := by
    split
    · rfl
    · rename_i h; rw [g1.resolve_left h, z]; rfl
  rw [c1]
  generalize (if last = true then 1 else 0) = L
  have c2 : (if i < s.length - 1 then L + 2 * ((s.getD i 0).toNat / 2) + (s.getD (i + 1) 0).toNat % 2 * 2 ^ 8 else
      L + 2 * ((s.getD i 0).toNat / 2)) = L + 2 * ((s.getD i 0).toNat / 2) + (s.getD (i + 1) 0).toNat % 2 * 2 ^ 8 := by
    split
    · rfl
    · rename_i h; rw [g2.resolve_left h, z]; omega
  rw [c2]
  split <;> omega

/-- Bits `a, a+1, …, a+k-1` of `v`. -/
def bitsOf (v : Nat) : Nat → Nat → List Bool
  | _, 0 => []
  | a, k + 1 => v.testBit a :: bitsOf v (a + 1) k

theorem bitsOf_length (v : Nat) : ∀ a k, (bitsOf v a k).length = k := by
  intro a k
  induction k generalizing a with
  | zero => rfl
  | succ k ih => simp [bitsOf, ih]

theorem bitsOf_add (v : Nat) : ∀ a j k, bitsOf v a (j + k) = bitsOf v a j ++ bitsOf v (a + j) k := by
  intro a j k
  induction j generalizing a with
  | zero => simp [bitsOf]
  | succ j ih =>
    rw [show j + 1 + k = (j + k) + 1 by ring, bitsOf, ih, bitsOf, List.cons_append, show a + 1 + j = a + (j + 1) by ring]

theorem bitsOf_zero (v : Nat) : ∀ a k, v < 2 ^ a → bitsOf v a k = List.replicate k false := by
  intro a k h
  induction k generalizing a with
  | zero => rfl
  | succ k ih =>
    rw [bitsOf, List.replicate_succ, Nat.testBit_lt_two_pow h, ih (a + 1) (lt_trans h (Nat.pow_lt_pow_right (by norm_num) (by omega)))]

theorem bits8_eq (v a : Nat) : bits8 (v / 2 ^ a % 256) = bitsOf v a 8 := by
  have h : ∀ k, k < 8 → (v / 2 ^ a % 256).testBit k = v.testBit (a + k) := by
    intro k hk
    rw [show (256 : Nat) = 2 ^ 8 by norm_num, Nat.testBit_mod_two_pow, Nat.testBit_div_two_pow]
    simp [hk, add_comm]
  unfold bits8
  simp only [List.range_succ, List.range_zero, List.nil_append, List.map_cons, List.map_nil, List.cons_append]
  rw [h 0 (by omega), h 1 (by omega), h 2 (by omega), h 3 (by omega), h 4 (by omega), h 5 (by omega), h 6 (by omega), h 7 (by omega)]
  rfl

theorem bitsVal_bitsOf (v : Nat) : ∀ k a, bitsVal (bitsOf v a k) = v / 2 ^ a % 2 ^ k := by
  intro k
  induction k with
  | zero => intro a; simp [bitsOf, bitsVal, Nat.mod_one]
  | succ k ih =>
    intro a
    rw [bitsOf, bitsVal, ih, Nat.toNat_testBit, pow_succ, ← Nat.div_div_eq_div_mul]
    rw [pow_succ' 2 k, Nat.mod_mul]

/-- `buildNafLoop` is the automaton run on the bits `8i+1, …` of the scalar. -/
theorem buildNafLoop_eq (s : List (BitVec 8)) : ∀ k i last carry,
    buildNafLoop s k i last carry = (nafRun last carry (bitsOf (valLE s) (8 * i + 1) (8 * k))).1 := by
  intro k
  induction k with
  | zero => intro i last carry; rfl
  | succ k ih =>
    intro i last carry
    have ht := nafEntry_table last carry ⟨valLE s / 2 ^ (8 * i + 1) % 256, Nat.mod_lt _ (by norm_num)⟩
    have hst := naf_st s i last carry
    simp only [] at ht hst
    unfold buildNafLoop
    simp only []
    rw [hst, ht.1, ht.2.1, ht.2.2, ih]
    rw [show 8 * (k + 1) = 8 + 8 * k by ring, bitsOf_add, nafRun_append, bits8_eq]
    rw [show 8 * i + 1 + 8 = 8 * (i + 1) + 1 by ring]

theorem nafRun_zeros : ∀ last carry : Bool, ¬ (last = true ∧ carry = true) →
    (∀ j, 2 ≤ j → (nafRun last carry (List.replicate 16 false)).1.getD j 0 = 0) ∧
    (nafRun last carry (List.replicate 16 false)).2 = (false, false) := by
  intro last carry h
  have key : ∀ last carry : Bool, ¬ (last = true ∧ carry = true) →
      (nafRun last carry (List.replicate 16 false)).1.drop 2 = List.replicate 14 0 ∧
      (nafRun last carry (List.replicate 16 false)).2 = (false, false) := by decide +kernel
  refine ⟨fun j hj => ?_, (key last carry h).2⟩
  obtain ⟨i, rfl⟩ := Nat.exists_eq_add_of_le hj
  have := (key last carry h).1
  rw [List.getD_eq_getElem?_getD, ← List.getElem?_drop, this]
  rw [List.getElem?_replicate]
  split <;> rfl

/-- Everything about the recoding of a byte string. -/
theorem buildNaf_spec (s : List (BitVec 8)) (hs : s ≠ []) :
    ∃ naf, buildNaf s = some naf ∧ naf.length = 8 * (s.length + 2) ∧ (∀ d ∈ naf, d = 0 ∨ d = 1 ∨ d = 2) ∧
      nafVal naf = valLE s ∧ (∀ j, naf.getD j 0 = 0 ∨ naf.getD (j + 1) 0 = 0) ∧
      ∀ j, 8 * s.length + 2 ≤ j → naf.getD j 0 = 0 := by
  have hl : s.length ≠ 0 := by simpa using hs
  have hlt := valLE_lt s
  have hlt2 : valLE s < 2 ^ (8 * s.length) := by
    rwa [mul_comm] at hlt
  set last := (s.getD 0 0 &&& 1 != 0) with hlast
  have hb0 : last.toNat = valLE s % 2 := by
    have h0 := valLE_byte s 0
    rw [pow_zero, Nat.div_one] at h0
    have h1 : last = ((s.getD 0 0).toNat % 2 != 0) := by
      rw [hlast, ← and_one8]
      generalize s.getD 0 0 = b
      revert b; decide +kernel
    rw [h1, ← h0]
    rcases Nat.mod_two_eq_zero_or_one (valLE s % 256) with h | h <;> rw [h]
    · simp; omega
    · simp; omega
  set bs := bitsOf (valLE s) 1 (8 * (s.length + 2)) with hbs
  have hsplit : bs = bitsOf (valLE s) 1 (8 * s.length) ++ List.replicate 16 false := by
    rw [hbs, show 8 * (s.length + 2) = 8 * s.length + 16 by ring, bitsOf_add,
      bitsOf_zero _ _ 16 (lt_of_lt_of_le hlt2 (Nat.pow_le_pow_right (by norm_num) (by omega)))]
  have hinv := nafRun_inv (bitsOf (valLE s) 1 (8 * s.length)) last false (by simp)
  have hz := nafRun_zeros _ _ hinv
  have hrun := nafRun_append (bitsOf (valLE s) 1 (8 * s.length)) (List.replicate 16 false) last false
  rw [← hsplit] at hrun
  refine ⟨(nafRun last false bs).1, ?_, ?_, nafRun_digits bs last false, ?_, ?_, ?_⟩
  · rw [buildNaf, if_neg hl]
    simp only []
    rw [buildNafLoop_eq]
  · rw [nafRun_length, hbs, bitsOf_length]
  · have hv := nafRun_val bs last false
    have h2 : (nafRun last false bs).2 = (false, false) := by rw [hrun]; exact hz.2
    rw [h2] at hv
    have hbv : bitsVal bs = valLE s / 2 := by
      rw [hbs, bitsVal_bitsOf, pow_one]
      apply Nat.mod_eq_of_lt
      calc valLE s / 2 ≤ valLE s := Nat.div_le_self _ _
        _ < 2 ^ (8 * s.length) := hlt2
        _ ≤ _ := Nat.pow_le_pow_right (by norm_num) (by omega)
    rw [hbv, hb0] at hv
    simp only [Bool.toNat_false, Nat.cast_zero, mul_zero, add_zero] at hv
    have := Nat.div_add_mod (valLE s) 2
    omega
  · intro j
    by_cases h : j + 1 < bs.length
    · exact nafRun_nonadjacent bs last false j h
    · right
      rw [List.getD_eq_getElem?_getD, List.getElem?_eq_none (by rw [nafRun_length]; omega)]; rfl
  · intro j hj
    rw [hrun]
    simp only []
    rw [List.getD_eq_getElem?_getD, List.getElem?_append_right (by rw [nafRun_length, bitsOf_length]; omega),
      nafRun_length, bitsOf_length, ← List.getD_eq_getElem?_getD]
    exact hz.1 _ (by omega)

/-! ## Facts about scalar multiplication -/

theorem nafSkip_spec (naf : List (BitVec 8)) : ∀ i, nafSkip naf i ≤ i ∧ ∀ j, nafSkip naf i ≤ j → j < i → naf.getD j 0 = 0 := by
  intro i
  induction i with
  | zero => exact ⟨le_refl _, fun j _ h => absurd h (by omega)⟩
  | succ i ih =>
    unfold nafSkip
    split
    · rename_i h
      refine ⟨by omega, fun j h1 h2 => ?_⟩
      by_cases hj : j = i
      · subst hj; exact eq_of_beq h
      · exact ih.2 j h1 (by omega)
    · exact ⟨le_refl _, fun j h1 h2 => absurd h2 (by omega)⟩

theorem nafVal_drop (naf : List (BitVec 8)) (i : Nat) :
    nafVal (naf.drop i) = digitVal (naf.getD i 0) + 2 * nafVal (naf.drop (i + 1)) := by
  by_cases h : i < naf.length
  · rw [List.drop_eq_getElem_cons h, nafVal, List.getD_eq_getElem _ _ h]
  · rw [List.drop_of_length_le (by omega), List.drop_of_length_le (by omega), List.getD_eq_getElem?_getD,
      List.getElem?_eq_none (by omega)]
    rfl

theorem nafVal_zero (naf : List (BitVec 8)) : ∀ i, (∀ j, i ≤ j → naf.getD j 0 = 0) → nafVal (naf.drop i) = 0 := by
  intro i h
  by_cases hi : i < naf.length
  · have := nafVal_zero naf (i + 1) (fun j hj => h j (by omega))
    rw [nafVal_drop, this, h i (le_refl _)]; rfl
  · rw [List.drop_of_length_le (by omega)]; rfl
termination_by i => naf.length - i

variable [AddCommGroup A]

/-- Loop invariant: after handling digits `≥ i` the result is the value of those digits times the base. -/
theorem nafMulLoop_spec {dbl : P → P} {add sub : P → PA → P} {D : P → A → Prop} {naf : List (BitVec 8)} {base : PA} {a : A}
    (hdbl : ∀ p x, D p x → D (dbl p) (x + x)) (hadd : ∀ p x, D p x → D (add p base) (x + a))
    (hsub : ∀ p x, D p x → D (sub p base) (x - a)) (hd : ∀ j, naf.getD j 0 = 0 ∨ naf.getD j 0 = 1 ∨ naf.getD j 0 = 2) :
    ∀ i r, D r (nafVal (naf.drop i) • a) → D (nafMulLoop dbl add sub naf base i r) (nafVal naf • a) := by
  intro i
  induction i with
  | zero => intro r hr; simpa [nafMulLoop] using hr
  | succ i ih =>
    intro r hr
    unfold nafMulLoop
    apply ih
    rw [nafVal_drop]
    have h1 := hdbl _ _ hr
    rcases hd i with h | h | h <;> rw [h]
    · rw [if_neg (by decide), if_neg (by decide), show digitVal 0 = 0 from rfl]
      have e : (0 + 2 * nafVal (naf.drop (i + 1))) • a = nafVal (naf.drop (i + 1)) • a + nafVal (naf.drop (i + 1)) • a := by module
      rwa [e]
    · rw [if_pos (by decide), show digitVal 1 = 1 from rfl]
      have e : (1 + 2 * nafVal (naf.drop (i + 1))) • a = nafVal (naf.drop (i + 1)) • a + nafVal (naf.drop (i + 1)) • a + a := by module
      rw [e]; exact hadd _ _ h1
    · rw [if_neg (by decide), if_pos (by decide), show digitVal 2 = -1 from rfl]
      have e : (-1 + 2 * nafVal (naf.drop (i + 1))) • a = nafVal (naf.drop (i + 1)) • a + nafVal (naf.drop (i + 1)) • a - a := by module
      rw [e]; exact hsub _ _ h1

theorem nafBits_eq {k : Nat} (h : k < 2 ^ 28) : nafBits k = k * 8 + 2 := by
  unfold nafBits
  have e : (BitVec.ofNat 32 k * 8 + 2).toNat = k * 8 + 2 := by
    simp only [BitVec.toNat_add, BitVec.toNat_mul, BitVec.toNat_ofNat, show (8 : BitVec 32).toNat = 8 from rfl,
      show (2 : BitVec 32).toNat = 2 from rfl]; omega
  rw [BitVec.toInt_eq_toNat_of_lt (by omega), e]; omega

theorem nafBits_wrap {k : Nat} (h1 : 2 ^ 28 ≤ k) (h2 : k + 2 < 2 ^ 29) : nafBits k = 0 := by
  unfold nafBits
  have e : (BitVec.ofNat 32 k * 8 + 2).toNat = k * 8 + 2 := by
    simp only [BitVec.toNat_add, BitVec.toNat_mul, BitVec.toNat_ofNat, show (8 : BitVec 32).toNat = 8 from rfl,
      show (2 : BitVec 32).toNat = 2 from rfl]; omega
  rw [BitVec.toInt_eq_toNat_cond, e, if_neg (by omega)]; omega

/-- From `2^28` bytes on no digit is read. -/
theorem nafMulByScalar_wrap {zero : P} {dbl : P → P} {add sub : P → PA → P} {base : PA} {s : List (BitVec 8)} (h1 : 2 ^ 28 ≤ s.length)
    (h2 : s.length + 2 < 2 ^ 29) : nafMulByScalar zero dbl add sub base s = some zero := by
  obtain ⟨naf, hn, -⟩ := buildNaf_spec s (by rintro rfl; simp at h1)
  rw [nafMulByScalar, nafBits_wrap h1 h2, nafAlloc, if_pos (by omega), hn]
  rfl

theorem nafMulByScalar_spec {zero : P} {dbl : P → P} {add sub : P → PA → P} {D : P → A → Prop} {base : PA} {a : A}
    (hzero : D zero 0) (hdbl : ∀ p x, D p x → D (dbl p) (x + x)) (hadd : ∀ p x, D p x → D (add p base) (x + a))
    (hsub : ∀ p x, D p x → D (sub p base) (x - a)) (s : List (BitVec 8)) (hs : s ≠ []) (hl : s.length < 2 ^ 28) :
    ∃ r, nafMulByScalar zero dbl add sub base s = some r ∧ D r (valLE s • a) := by
  obtain ⟨naf, h1, h2, h3, h4, -, h6⟩ := buildNaf_spec s hs
  have hd : ∀ j, naf.getD j 0 = 0 ∨ naf.getD j 0 = 1 ∨ naf.getD j 0 = 2 := by
    intro j
    by_cases hj : j < naf.length
    · rw [List.getD_eq_getElem _ _ hj]; exact h3 _ (List.getElem_mem hj)
    · left; rw [List.getD_eq_getElem?_getD, List.getElem?_eq_none (by omega)]; rfl
  refine ⟨_, by rw [nafMulByScalar, nafAlloc, if_pos (by omega), h1]; rfl, ?_⟩
  rw [nafBits_eq hl]
  have hv : (valLE s • a : A) = nafVal naf • a := by rw [h4, natCast_zsmul]
  rw [hv]
  apply nafMulLoop_spec hdbl hadd hsub hd
  have hsk := nafSkip_spec naf (s.length * 8 + 2)
  rw [nafVal_zero, zero_smul]
  · exact hzero
  · intro j hj
    by_cases h : j < s.length * 8 + 2
    · exact hsk.2 j hj h
    · exact h6 j (by omega)

theorem nafMulLoopM_eq {dbl : P → P} {add sub : P → P → P} {naf : List (BitVec 8)} {base : P} {r : Nat} :
    ∀ i (m : Nat → P), nafMulLoopM dbl add sub naf base r i m = Function.update m r (nafMulLoop dbl add sub naf base i (m r)) := by
  intro i
  induction i with
  | zero => intro m; simp [nafMulLoopM, nafMulLoop]
  | succ i ih =>
    intro m
    unfold nafMulLoopM nafMulLoop
    rw [ih]
    split
    · simp
    · split <;> simp

/-- The point version in any memory is the value version: the base is copied before the result is touched. -/
theorem nafMulByScalarM_eq {zero : P} {dbl : P → P} {add sub : P → P → P} {m : Nat → P} {r base : Nat} {s : List (BitVec 8)} :
    nafMulByScalarM zero dbl add sub m r base s =
      (nafMulByScalar zero dbl add sub (m base) s).map fun v => Function.update m r v := by
  unfold nafMulByScalarM nafMulByScalar
  cases nafAlloc s with
  | none => rfl
  | some naf => simp [nafMulLoopM_eq]

end FF
