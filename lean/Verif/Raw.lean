import Verif.Limbs
import Mathlib.Data.Int.ModEq
import Mathlib.Data.Nat.ModEq
import Mathlib.Algebra.Ring.Divisibility.Basic
import Mathlib.Tactic.NormNum
import Mathlib.Tactic.LinearCombination

/-!
# Generated constants and the portable raw field routines

`q` is the modulus given to `buildzqfield.js -q`; every routine is generated for it, so every definition here
takes `q` as its first argument.  Raw routines are functions of the *contents* of their operand arrays; the
file `RawMem.lean` shows for which of them this is legitimate when result and operand arrays coincide.
-/

namespace FF

/-- `q.bitLength()` (big-integer). -/
def bitLen (q : Nat) : Nat := q.log2 + 1

/-- `this.n64`, `buildzqfield.js:17`. -/
def n64 (q : Nat) : Nat := (bitLen q - 1) / 64 + 1

/-- `this.canOptimizeConsensys`, `buildzqfield.js:18`. -/
def canOpt (q : Nat) : Bool :=
  decide (q / 2 ^ ((n64 q - 1) * 64) ≤ (2 ^ 64 - 1) / 2 - 1)

/-- `constantElement(v)`, `buildzqfield.js:32-42`. -/
def constantElement (q v : Nat) : Limbs := toLimbs (n64 q) v

/-- `Fr_rawq`, `fr_raw_generic.cpp.ejs:5`: the limbs of `q` followed by a zero limb. -/
def rawqExt (q : Nat) : Limbs := constantElement q q ++ [0]

/-- The first `N64` limbs of `Fr_rawq` (the part seen by `N64`-limb calls). -/
def rawq (q : Nat) : Limbs := constantElement q q

/-- `Fr_rawR2`, `fr_raw_generic.cpp.ejs:6`. -/
def rawR2 (q : Nat) : Limbs := constantElement q (2 ^ (n64 q * 64 * 2) % q)

/-- `Fr_rawR3`, `fr_generic.cpp.ejs` (constant `R3`). -/
def rawR3 (q : Nat) : Limbs := constantElement q (2 ^ (n64 q * 64 * 3) % q)

/-- One Newton step for the inverse of `q` modulo `2^64`. -/
def newton (q x : Nat) : Nat := x * (2 + (2 ^ 64 - q * x % 2 ^ 64)) % 2 ^ 64

/-- `q.modInv(2^64)` (big-integer).  The library's extended Euclid is replaced by Newton's iteration; both return the
unique inverse in `[0, 2^64)` of an odd `q` (`modInv64_spec`, `modInv64_unique`). -/
def modInv64 (q : Nat) : Nat :=
  newton q (newton q (newton q (newton q (newton q (q % 2 ^ 64)))))

/-- `Fr_np`, `fr_raw_generic.cpp.ejs:7`. -/
def np (q : Nat) : Limb := BitVec.ofNat 64 (2 ^ 64 - modInv64 q)

/-- `lboMask`, `fr_raw_generic.cpp.ejs:8`. -/
def lboMask (q : Nat) : Limb := BitVec.ofNat 64 (2 ^ 64 / 2 ^ (n64 q * 64 - bitLen q) - 1)

/-- `static FrRawElement zero = {0}`, `fr_raw_generic.cpp.ejs:9`. -/
def rawZero (q : Nat) : Limbs := List.replicate (n64 q) 0

/-- The array `[w, 0, …, 0]` (`FrRawElement pRawA = {rawA}`). -/
def shortLimbs (q : Nat) (w : Limb) : Limbs := w :: List.replicate (n64 q - 1) 0

/-- The common tail `if (c || mpn_cmp(r, q) >= 0) mpn_sub_n(r, r, q)`, e.g. `fr_raw_generic.cpp.ejs:16-19`. -/
def condSub (q : Nat) (c : Bool) (r : Limbs) : Limbs :=
  if c || cmpGe r (rawq q) then (mpn_sub_n r (rawq q)).1 else r

/-- The common tail `if (carry) mpn_add_n(r, r, q)`, e.g. `fr_raw_generic.cpp.ejs:36-39`. -/
def condAdd (q : Nat) (c : Bool) (r : Limbs) : Limbs :=
  if c then (mpn_add_n r (rawq q)).1 else r

/-- `Fr_rawAdd`, `fr_raw_generic.cpp.ejs:12-20`. -/
def rawAdd (q : Nat) (a b : Limbs) : Limbs :=
  let s := mpn_add_n a b
  condSub q (s.2 != 0) s.1

/-- `Fr_rawAddLS`, `fr_raw_generic.cpp.ejs:22-30`. -/
def rawAddLS (q : Nat) (a : Limbs) (b : Limb) : Limbs :=
  let s := mpn_add_1 a b
  condSub q (s.2 != 0) s.1

/-- `Fr_rawSub`, `fr_raw_generic.cpp.ejs:32-40`. -/
def rawSub (q : Nat) (a b : Limbs) : Limbs :=
  let s := mpn_sub_n a b
  condAdd q (s.2 != 0) s.1

/-- `Fr_rawSubRegular`, `fr_raw_generic.cpp.ejs:42-45`. -/
def rawSubRegular (a b : Limbs) : Limbs := (mpn_sub_n a b).1

/-- `Fr_rawSubSL`, `fr_raw_generic.cpp.ejs:47-57`. -/
def rawSubSL (q : Nat) (a : Limb) (b : Limbs) : Limbs :=
  let s := mpn_sub_n (shortLimbs q a) b
  condAdd q (s.2 != 0) s.1

/-- `Fr_rawSubLS`, `fr_raw_generic.cpp.ejs:59-67`. -/
def rawSubLS (q : Nat) (a : Limbs) (b : Limb) : Limbs :=
  let s := mpn_sub_1 a b
  condAdd q (s.2 != 0) s.1

/-- `Fr_rawNeg`, `fr_raw_generic.cpp.ejs:69-79`. -/
def rawNeg (q : Nat) (a : Limbs) : Limbs :=
  if mpn_cmp a (rawZero q) != .eq then (mpn_sub_n (rawq q) a).1 else rawZero q

/-- `Fr_rawNegLS`, `fr_raw_generic.cpp.ejs:82-91`.  The code stores `q - b` in the result array and then
subtracts the array `pRawA` from it; `aliased` says that result and `pRawA` are the same array, in which case the
second subtraction reads the value just stored. -/
def rawNegLS (q : Nat) (aliased : Bool) (a : Limbs) (b : Limb) : Limbs :=
  let s1 := mpn_sub_1 (rawq q) b
  let s2 := mpn_sub_n s1.1 (if aliased then s1.1 else a)
  condAdd q (s1.2 != 0 || s2.2 != 0) s2.1

/-- `Fr_rawIsEq`, `fr_raw_generic.cpp.ejs:98-101`. -/
def rawIsEq (a b : Limbs) : Bool := mpn_cmp a b == .eq

/-- One unrolled round of `Fr_rawMMul`: `fr_raw_generic.cpp.ejs:117-125` (plain variant) and `:129-133` (optimised variant).
`product` is `product{i}`, `cin` the value left in `product{i+1}[N-1]` by the previous round (zero in the first),
`ai` is `pRawA[i+1]`.  Returns `product{i+1}` and the carry of the final `mpn_add`. -/
def mmulStep (q : Nat) (opt : Bool) (B : Limbs) (ai : Limb) (product : Limbs) (cin : Limb) : Limbs × Limb :=
  let np0 := np q * product.headD 0
  let am := mpn_addmul_1 product (rawqExt q) np0
  if opt then
    let base : Limbs := (List.replicate (n64 q) 0).set 1 (BitVec.ofNat 64 am.2)
    let bm := mpn_addmul_1 base B ai
    ((mpn_add (bm.1 ++ [BitVec.ofNat 64 bm.2]) am.1.tail).1, 0)
  else
    let top := cin + BitVec.ofNat 64 am.2
    let bm := mpn_addmul_1 (List.replicate (n64 q) 0) B ai
    let top := top + BitVec.ofNat 64 bm.2
    let ad := mpn_add (bm.1 ++ [top]) am.1.tail
    (ad.1, BitVec.ofNat 64 ad.2)

/-- The unrolled rounds of `Fr_rawMMul` over `pRawA[1..]`, `fr_raw_generic.cpp.ejs:115-135`. -/
def mmulLoop (q : Nat) (opt : Bool) (B : Limbs) : Limbs → Limbs → Limb → Limbs × Limb
  | [], product, cin => (product, cin)
  | ai :: as, product, cin =>
      let p := mmulStep q opt B ai product cin
      mmulLoop q opt B as p.1 p.2

/-- The last reduction, `fr_raw_generic.cpp.ejs:136-152`: the carry `c` takes part only in the plain variant. -/
def mmulFinal (q : Nat) (opt : Bool) (product : Limbs) (c : Limb) : Limbs :=
  let np0 := np q * product.headD 0
  let am := mpn_addmul_1 product (rawqExt q) np0
  let c' := c + BitVec.ofNat 64 am.2
  condSub q (!opt && c' != 0) am.1.tail

/-- `Fr_rawMMul` in the variant selected by `opt`, `fr_raw_generic.cpp.ejs:103-153`. -/
def rawMMulV (q : Nat) (opt : Bool) (a b : Limbs) : Limbs :=
  let m := mpn_mul_1 b (a.headD 0)
  let p := mmulLoop q opt b a.tail (m.1 ++ [BitVec.ofNat 64 m.2]) 0
  mmulFinal q opt p.1 p.2

/-- `Fr_rawMMul` as generated for `q`, `fr_raw_generic.cpp.ejs:103-153`. -/
def rawMMul (q : Nat) (a b : Limbs) : Limbs := rawMMulV q (canOpt q) a b

/-- `Fr_rawMSquare`, `fr_raw_generic.cpp.ejs:155-158`. -/
def rawMSquare (q : Nat) (a : Limbs) : Limbs := rawMMul q a a

/-- One unrolled round of `Fr_rawMMul1` / `Fr_rawFromMontgomery`, `fr_raw_generic.cpp.ejs:173-179` and `:219-225`. -/
def redStep (q : Nat) (opt : Bool) (product : Limbs) : Limbs :=
  let np0 := np q * product.headD 0
  let am := mpn_addmul_1 product (rawqExt q) np0
  let nxt : Limbs := (List.replicate (n64 q + 1) 0).set (if opt then 1 else n64 q) (BitVec.ofNat 64 am.2)
  (mpn_add nxt am.1.tail).1

/-- `k` rounds of `redStep`. -/
def redLoop (q : Nat) (opt : Bool) : Nat → Limbs → Limbs
  | 0, p => p
  | k + 1, p => redLoop q opt k (redStep q opt p)

/-- `Fr_rawMMul1`, `fr_raw_generic.cpp.ejs:160-198`. -/
def rawMMul1V (q : Nat) (opt : Bool) (a : Limbs) (b : Limb) : Limbs :=
  let m := mpn_mul_1 a b
  mmulFinal q opt (redLoop q opt (n64 q - 1) (m.1 ++ [BitVec.ofNat 64 m.2])) 0

/-- `Fr_rawMMul1` as generated for `q`. -/
def rawMMul1 (q : Nat) (a : Limbs) (b : Limb) : Limbs := rawMMul1V q (canOpt q) a b

/-- `Fr_rawToMontgomery`, `fr_raw_generic.cpp.ejs:200-203`. -/
def rawToMontgomery (q : Nat) (a : Limbs) : Limbs := rawMMul q a (rawR2 q)

/-- `Fr_rawFromMontgomery`, `fr_raw_generic.cpp.ejs:205-244`. -/
def rawFromMontgomeryV (q : Nat) (opt : Bool) (a : Limbs) : Limbs :=
  mmulFinal q opt (redLoop q opt (n64 q - 1) (a ++ [0])) 0

/-- `Fr_rawFromMontgomery` as generated for `q`. -/
def rawFromMontgomery (q : Nat) (a : Limbs) : Limbs := rawFromMontgomeryV q (canOpt q) a

/-- `Fr_rawIsZero`, `fr_raw_generic.cpp.ejs:246-249`. -/
def rawIsZero (a : Limbs) : Bool := mpn_zero_p a

/-- `Fr_rawCmp`, `fr_raw_generic.cpp.ejs:251-254`. -/
def rawCmp (a b : Limbs) : Ordering := mpn_cmp a b

/-- `Fr_rawCopyS2L`, `fr_raw_generic.cpp.ejs:265-277`. -/
def rawCopyS2L (q : Nat) (v : BitVec 64) : Limbs :=
  if v.toInt < 0 then
    (mpn_add_n (v :: List.replicate (n64 q - 1) (-1)) (rawq q)).1
  else v :: List.replicate (n64 q - 1) 0

/-- `pRawResult[n64-1] &= lboMask`, e.g. `fr_raw_generic.cpp.ejs:283`. -/
def maskTop (q : Nat) (r : Limbs) : Limbs := r.set (n64 q - 1) (limbAt r (n64 q - 1) &&& lboMask q)

/-- `Fr_rawAnd`, `fr_raw_generic.cpp.ejs:279-289`. -/
def rawAnd (q : Nat) (a b : Limbs) : Limbs := condSub q false (maskTop q (mpn_and_n a b))
/-- `Fr_rawOr`, `fr_raw_generic.cpp.ejs:291-301`. -/
def rawOr (q : Nat) (a b : Limbs) : Limbs := condSub q false (maskTop q (mpn_ior_n a b))
/-- `Fr_rawXor`, `fr_raw_generic.cpp.ejs:303-313`. -/
def rawXor (q : Nat) (a b : Limbs) : Limbs := condSub q false (maskTop q (mpn_xor_n a b))
/-- `Fr_rawNot`, `fr_raw_generic.cpp.ejs:352-362`. -/
def rawNot (q : Nat) (a : Limbs) : Limbs := condSub q false (maskTop q (mpn_com a))

/-- `Fr_rawShl` with distinct arrays, `fr_raw_generic.cpp.ejs:315-335`, `b < 64*N64`. -/
def rawShl (q : Nat) (a : Limbs) (b : Nat) : Limbs :=
  let bit_shift := b % 64
  let word_shift := b / 64
  let word_count := n64 q - word_shift
  let r := List.replicate word_shift 0 ++ a.take word_count
  let r := if bit_shift ≠ 0 then mpn_lshift r bit_shift 0 else r
  condSub q false (maskTop q r)

/-- `Fr_rawShr`, `fr_raw_generic.cpp.ejs:337-350`, `b < 64*N64`. -/
def rawShr (q : Nat) (a : Limbs) (b : Nat) : Limbs :=
  let bit_shift := b % 64
  let word_shift := b / 64
  let word_count := n64 q - word_shift
  let r := (a.drop word_shift).take word_count ++ List.replicate word_shift 0
  if bit_shift ≠ 0 then mpn_rshift r bit_shift else r

/-! ## Facts about the generated constants -/

theorem bitLen_lt {q : Nat} : q < 2 ^ bitLen q := by
  unfold bitLen; exact Nat.lt_log2_self

theorem bitLen_le {q : Nat} (h : q ≠ 0) : 2 ^ (bitLen q - 1) ≤ q := by
  unfold bitLen; simpa using Nat.log2_self_le h

theorem n64_pos (q : Nat) : 0 < n64 q := by unfold n64; omega

theorem bitLen_le_n64 (q : Nat) : bitLen q ≤ 64 * n64 q := by
  unfold n64 bitLen; omega

theorem W_pow (n : Nat) : W ^ n = 2 ^ (64 * n) := by
  rw [← W_eq, ← pow_mul]

theorem q_lt_Wn (q : Nat) : q < W ^ n64 q := by
  rw [W_pow]
  exact lt_of_lt_of_le bitLen_lt (Nat.pow_le_pow_right (by norm_num) (bitLen_le_n64 q))

theorem Wn_le_q {q : Nat} (h : q ≠ 0) : W ^ (n64 q - 1) ≤ q := by
  rw [W_pow]
  refine le_trans (Nat.pow_le_pow_right (by norm_num) ?_) (bitLen_le h)
  unfold n64; omega

@[simp] theorem constantElement_length (q v : Nat) : (constantElement q v).length = n64 q := by
  simp [constantElement]

@[simp] theorem rawq_length (q : Nat) : (rawq q).length = n64 q := by simp [rawq]
@[simp] theorem rawqExt_length (q : Nat) : (rawqExt q).length = n64 q + 1 := by simp [rawqExt]
@[simp] theorem rawR2_length (q : Nat) : (rawR2 q).length = n64 q := by simp [rawR2]
@[simp] theorem rawR3_length (q : Nat) : (rawR3 q).length = n64 q := by simp [rawR3]
@[simp] theorem rawZero_length (q : Nat) : (rawZero q).length = n64 q := by simp [rawZero]

theorem constantElement_val {q v : Nat} (h : v < W ^ n64 q) : val (constantElement q v) = v := by
  rw [constantElement, val_toLimbs_of_lt h]

@[simp] theorem rawq_val (q : Nat) : val (rawq q) = q := constantElement_val (q_lt_Wn q)

@[simp] theorem rawqExt_val (q : Nat) : val (rawqExt q) = q := by
  rw [rawqExt, val_append, constantElement_val (q_lt_Wn q)]; simp

theorem rawR2_val {q : Nat} (h : 0 < q) : val (rawR2 q) = 2 ^ (n64 q * 64 * 2) % q :=
  constantElement_val (lt_trans (Nat.mod_lt _ h) (q_lt_Wn q))

theorem rawR3_val {q : Nat} (h : 0 < q) : val (rawR3 q) = 2 ^ (n64 q * 64 * 3) % q :=
  constantElement_val (lt_trans (Nat.mod_lt _ h) (q_lt_Wn q))

@[simp] theorem rawZero_val (q : Nat) : val (rawZero q) = 0 := by simp [rawZero]

/-! ### The inverse modulo 2^64 -/

theorem newton_step {q x k : Nat} (h : q * x % 2 ^ k = 1 % 2 ^ k) (hk' : k ≤ 64) :
    q * newton q x % 2 ^ (min (2 * k) 64) = 1 % 2 ^ (min (2 * k) 64) := by
  set m := min (2 * k) 64 with hm
  have hm64 : m ≤ 64 := by omega
  have hd : (2 : ℤ) ^ k ∣ (q * x : ℤ) - 1 := by
    have h2 : ((q * x : ℕ) : ℤ) ≡ ((1 : ℕ) : ℤ) [ZMOD (((2 ^ k : ℕ)) : ℤ)] := (Int.natCast_modEq_iff).2 h
    have := h2.symm.dvd
    simpa using this
  obtain ⟨t, ht⟩ := hd
  have h64 : (2 : ℤ) ^ m ∣ 2 ^ 64 := pow_dvd_pow 2 hm64
  have h2k : (2 : ℤ) ^ m ∣ 2 ^ k * 2 ^ k := by
    rw [← pow_add]; exact pow_dvd_pow 2 (by omega)
  have goal : ((q * newton q x : ℕ) : ℤ) ≡ ((1 : ℕ) : ℤ) [ZMOD ((2 ^ m : ℕ) : ℤ)] := by
    have hlt : q * x % 2 ^ 64 < 2 ^ 64 := Nat.mod_lt _ (by positivity)
    have e1 : ((newton q x : ℕ) : ℤ) ≡ x * (2 + (2 ^ 64 - q * x)) [ZMOD 2 ^ 64] := by
      unfold newton
      rw [Int.natCast_mod]
      refine (Int.mod_modEq _ _).trans ?_
      rw [Nat.cast_mul, Nat.cast_add, Nat.cast_sub hlt.le, Int.natCast_mod]
      refine Int.ModEq.mul_left _ (Int.ModEq.add_left _ (Int.ModEq.sub_left _ ?_))
      have := Int.mod_modEq ((q * x : ℕ) : ℤ) ((2 ^ 64 : ℕ) : ℤ)
      push_cast at this ⊢
      exact this
    have e2 : ((newton q x : ℕ) : ℤ) ≡ x * (2 + (2 ^ 64 - q * x)) [ZMOD 2 ^ m] := e1.of_dvd h64
    push_cast
    refine (e2.mul_left (q : ℤ)).trans ?_
    apply Int.ModEq.symm
    rw [Int.modEq_iff_dvd]
    have : (q : ℤ) * (x * (2 + (2 ^ 64 - q * x))) - 1 = 2 ^ 64 * (q * x) - (2 ^ k * 2 ^ k) * (t * t) := by
      have hqx : (q : ℤ) * x = 1 + 2 ^ k * t := by linarith
      linear_combination (1 - (q : ℤ) * x - 2 ^ k * t) * hqx
    rw [this]
    exact dvd_sub (Dvd.dvd.mul_right h64 _) (Dvd.dvd.mul_right h2k _)
  have := (Int.natCast_modEq_iff).1 goal
  exact this

theorem odd_sq_mod8 {q : Nat} (h : q % 2 = 1) : q * (q % 2 ^ 64) % 2 ^ 3 = 1 % 2 ^ 3 := by
  have : q % 8 = 1 ∨ q % 8 = 3 ∨ q % 8 = 5 ∨ q % 8 = 7 := by omega
  rw [Nat.mul_mod, show q % 2 ^ 64 % 2 ^ 3 = q % 8 by omega, show q % 2 ^ 3 = q % 8 by norm_num]
  rcases this with h | h | h | h <;> rw [h] <;> norm_num

theorem modInv64_spec {q : Nat} (h : q % 2 = 1) : q * modInv64 q % 2 ^ 64 = 1 := by
  have h0 := odd_sq_mod8 h
  have h1 := newton_step (k := 3) h0 (by omega)
  have h2 := newton_step (k := 6) h1 (by omega)
  have h3 := newton_step (k := 12) h2 (by omega)
  have h4 := newton_step (k := 24) h3 (by omega)
  have h5 := newton_step (k := 48) h4 (by omega)
  simpa [modInv64] using h5

theorem modInv64_lt (q : Nat) : modInv64 q < 2 ^ 64 := by
  unfold modInv64 newton; exact Nat.mod_lt _ (by positivity)

theorem neg_inv_mod {q x M : Nat} (hx : x ≤ M) (h : q * x % M = 1) :
    (q * (M - x) + 1) % M = 0 := by
  obtain ⟨k, hk⟩ : ∃ k, q * x = M * k + 1 := by
    have := Nat.div_add_mod (q * x) M
    rw [h] at this; exact ⟨_, this.symm⟩
  have e2 : q * (M - x) + (M * k + 1) = q * M := by
    rw [← hk, ← Nat.mul_add]; congr 1; omega
  have e3 : (q * (M - x) + 1) + M * k = q * M := by omega
  have := congrArg (· % M) e3
  simpa [Nat.add_mul_mod_self_left] using this

theorem np_spec {q : Nat} (h : q % 2 = 1) : (q * (np q).toNat + 1) % W = 0 := by
  have h1 := modInv64_spec h
  have h2 := modInv64_lt q
  have h3 : 0 < modInv64 q := by
    rcases Nat.eq_zero_or_pos (modInv64 q) with h0 | h0
    · rw [h0] at h1; simp at h1
    · exact h0
  rw [np, toNat_ofNat_W]
  rw [W_eq] at *
  rw [Nat.mod_eq_of_lt (a := W - modInv64 q) (by omega)]
  exact neg_inv_mod h2.le h1

/-! ## Value lemmas for the ring operations -/

theorem condSub_length {q : Nat} (c : Bool) {r : Limbs} (h : r.length = n64 q) :
    (condSub q c r).length = n64 q := by
  unfold condSub; split
  · simp [mpn_sub_n, subNC_length, h]
  · exact h

theorem condAdd_length {q : Nat} (c : Bool) {r : Limbs} (h : r.length = n64 q) :
    (condAdd q c r).length = n64 q := by
  unfold condAdd; split
  · simp [mpn_add_n, addNC_length, h]
  · exact h

theorem mod_sub_once {x q : Nat} (h1 : q ≤ x) (h2 : x < 2 * q) : x % q = x - q := by
  rw [Nat.mod_eq_sub_mod h1, Nat.mod_eq_of_lt (by omega)]

/-- Conditional subtraction reduces any value below `2q` given as limbs plus a carry. -/
theorem condSub_val {q : Nat} {c : Nat} {r : Limbs} (h : r.length = n64 q)
    (hlt : val r + W ^ n64 q * c < 2 * q) :
    val (condSub q (c != 0) r) = (val r + W ^ n64 q * c) % q := by
  have hq := q_lt_Wn q
  have hr := val_lt r
  rw [h] at hr
  have hc : c ≤ 1 := by
    by_contra hcon
    have : W ^ n64 q * 2 ≤ W ^ n64 q * c := Nat.mul_le_mul_left _ (by omega)
    omega
  have hs := subNC_val r (rawq q) 0 (by simp [h]) (by omega)
  have hb := subNC_borrow_le r (rawq q) 0 (by omega)
  have hl : (subNC r (rawq q) 0).1.length = n64 q := by rw [subNC_length, h]
  have hv := val_lt (subNC r (rawq q) 0).1
  rw [hl] at hv
  rw [h, rawq_val] at hs
  unfold condSub mpn_sub_n
  have hge := cmpGe_iff r (rawq q) (by simp [h])
  rw [rawq_val] at hge
  generalize W ^ n64 q = P at *
  generalize hsub : subNC r (rawq q) 0 = sb at *
  clear hsub
  generalize cmpGe r (rawq q) = g at *
  rcases Nat.le_one_iff_eq_zero_or_eq_one.mp hc with rfl | rfl
  · simp only [Nat.mul_zero, Nat.add_zero] at *
    by_cases hg : q ≤ val r
    · rw [hge.mpr hg, mod_sub_once hg hlt]
      rcases Nat.le_one_iff_eq_zero_or_eq_one.mp hb with h0 | h1
      · rw [h0] at hs; simp only [bne_self_eq_false, Bool.or_true, if_true]; omega
      · rw [h1] at hs; omega
    · have : g = false := by simpa using mt hge.mp hg
      rw [this, Nat.mod_eq_of_lt (by omega)]; simp
  · simp only [Nat.mul_one, Nat.add_zero] at *
    rw [mod_sub_once (by omega) hlt]
    rcases Nat.le_one_iff_eq_zero_or_eq_one.mp hb with h0 | h1
    · rw [h0] at hs; omega
    · rw [h1] at hs; simp; omega

theorem condSub_false_val {q : Nat} {r : Limbs} (h : r.length = n64 q) (hlt : val r < 2 * q) :
    val (condSub q false r) = val r % q := by
  have := condSub_val (c := 0) h (by simpa using hlt)
  simpa using this

theorem rawAdd_length {q : Nat} {a b : Limbs} (ha : a.length = n64 q) : (rawAdd q a b).length = n64 q :=
  condSub_length _ (by simp [mpn_add_n, addNC_length, ha])

theorem rawAdd_val {q : Nat} {a b : Limbs} (ha : a.length = n64 q) (hb : b.length = n64 q)
    (hlt : val a + val b < 2 * q) : val (rawAdd q a b) = (val a + val b) % q := by
  have e := addNC_val a b 0 (by omega)
  rw [ha] at e
  unfold rawAdd mpn_add_n
  rw [condSub_val (by rw [addNC_length, ha]) (by omega)]
  rw [e]; simp

theorem rawAddLS_length {q : Nat} {a : Limbs} {b : Limb} (ha : a.length = n64 q) :
    (rawAddLS q a b).length = n64 q :=
  condSub_length _ (by simp [mpn_add_1, addNC_length, ha])

theorem rawAddLS_val {q : Nat} {a : Limbs} {b : Limb} (ha : a.length = n64 q)
    (hlt : val a + b.toNat < 2 * q) : val (rawAddLS q a b) = (val a + b.toNat) % q := by
  have hn := n64_pos q
  have e := addNC_val a [b] 0 (by simp; omega)
  rw [ha] at e
  simp only [val_cons, val_nil, Nat.mul_zero, Nat.add_zero] at e
  unfold rawAddLS mpn_add_1
  rw [condSub_val (by rw [addNC_length, ha]) (by omega)]
  rw [e]

/-- Conditional correction after a subtraction. -/
theorem condAdd_val {q : Nat} {x y bo : Nat} {r : Limbs} (hr : r.length = n64 q) (hbo : bo ≤ 1)
    (hy : y ≤ x + q) (e : val r + y = x + W ^ n64 q * bo) :
    val (condAdd q (bo != 0) r) = if x < y then x + q - y else x - y := by
  have hq := q_lt_Wn q
  have hv := val_lt r
  rw [hr] at hv
  rcases Nat.le_one_iff_eq_zero_or_eq_one.mp hbo with h0 | h1
  · subst h0
    simp only [condAdd, bne_self_eq_false, Bool.false_eq_true, if_false]
    rw [if_neg (by omega)]; omega
  · subst h1
    have e2 := addNC_val r (rawq q) 0 (by simp [hr])
    have hv2 := val_lt (addNC r (rawq q) 0).1
    rw [addNC_length, hr] at hv2
    rw [hr, rawq_val] at e2
    simp only [condAdd, mpn_add_n]
    rw [if_pos (by simp), if_pos (by omega)]
    have : (addNC r (rawq q) 0).2 = 1 := by
      rcases Nat.lt_trichotomy (addNC r (rawq q) 0).2 1 with h | h | h
      · have h0 : (addNC r (rawq q) 0).2 = 0 := by omega
        rw [h0] at e2; omega
      · exact h
      · have : W ^ n64 q * 2 ≤ W ^ n64 q * (addNC r (rawq q) 0).2 := Nat.mul_le_mul_left _ h
        omega
    rw [this] at e2
    omega

theorem rawSub_length {q : Nat} {a b : Limbs} (ha : a.length = n64 q) : (rawSub q a b).length = n64 q :=
  condAdd_length _ (by simp [mpn_sub_n, subNC_length, ha])

theorem rawSub_val {q : Nat} {a b : Limbs} (ha : a.length = n64 q) (hb : b.length = n64 q)
    (hlt : val b ≤ val a + q) :
    val (rawSub q a b) = if val a < val b then val a + q - val b else val a - val b := by
  have e := subNC_val a b 0 (by omega) (by omega)
  have hb1 := subNC_borrow_le a b 0 (by omega)
  have hva := val_lt a
  rw [ha] at e hva
  exact condAdd_val (by rw [mpn_sub_n, subNC_length, ha]) hb1 hlt (by simpa [mpn_sub_n] using e)

theorem shortLimbs_length (q : Nat) (w : Limb) : (shortLimbs q w).length = n64 q := by
  have := n64_pos q
  simp [shortLimbs]; omega

theorem shortLimbs_val (q : Nat) (w : Limb) : val (shortLimbs q w) = w.toNat := by
  simp [shortLimbs]

theorem rawSubSL_length {q : Nat} {a : Limb} {b : Limbs} : (rawSubSL q a b).length = n64 q :=
  condAdd_length _ (by simp [mpn_sub_n, subNC_length, shortLimbs_length])

theorem rawSubSL_val {q : Nat} {a : Limb} {b : Limbs} (hb : b.length = n64 q) (hlt : val b ≤ a.toNat + q) :
    val (rawSubSL q a b) = if a.toNat < val b then a.toNat + q - val b else a.toNat - val b := by
  have := rawSub_val (q := q) (shortLimbs_length q a) hb (by rw [shortLimbs_val]; exact hlt)
  rw [shortLimbs_val] at this
  exact this

theorem rawSubLS_length {q : Nat} {a : Limbs} {b : Limb} (ha : a.length = n64 q) :
    (rawSubLS q a b).length = n64 q :=
  condAdd_length _ (by simp [mpn_sub_1, subNC_length, ha])

theorem rawSubLS_val {q : Nat} {a : Limbs} {b : Limb} (ha : a.length = n64 q) (hlt : b.toNat ≤ val a + q) :
    val (rawSubLS q a b) = if val a < b.toNat then val a + q - b.toNat else val a - b.toNat := by
  have hn := n64_pos q
  have e := subNC_val a [b] 0 (by simp; omega) (by omega)
  have hb1 := subNC_borrow_le a [b] 0 (by omega)
  have hva := val_lt a
  rw [ha] at e hva
  exact condAdd_val (by rw [mpn_sub_1, subNC_length, ha]) hb1 hlt (by simpa [mpn_sub_1] using e)

theorem rawNeg_length {q : Nat} {a : Limbs} : (rawNeg q a).length = n64 q := by
  unfold rawNeg; split
  · simp [mpn_sub_n, subNC_length]
  · simp

theorem rawNeg_val {q : Nat} {a : Limbs} (ha : a.length = n64 q) (hlt : val a < q) :
    val (rawNeg q a) = (q - val a) % q := by
  unfold rawNeg
  rw [mpn_cmp_eq _ _ (by simp [ha]), rawZero_val]
  by_cases h0 : val a = 0
  · simp [h0]
  · have : (compare (val a) 0 != .eq) = true := by
      simp [h0]
    rw [if_pos this]
    have e := subNC_val (rawq q) a 0 (by simp [ha]) (by omega)
    have hb1 := subNC_borrow_le (rawq q) a 0 (by omega)
    have hv := val_lt (subNC (rawq q) a 0).1
    rw [subNC_length, rawq_length] at hv
    simp only [rawq_val, rawq_length, Nat.add_zero] at e
    rw [Nat.mod_eq_of_lt (by omega), mpn_sub_n]
    have hq := q_lt_Wn q
    rcases Nat.le_one_iff_eq_zero_or_eq_one.mp hb1 with h0 | h1
    · rw [h0] at e; omega
    · rw [h1] at e; omega

theorem rawNegLS_length {q : Nat} {al : Bool} {a : Limbs} {b : Limb} :
    (rawNegLS q al a b).length = n64 q :=
  condAdd_length _ (by simp [mpn_sub_n, mpn_sub_1, subNC_length])

theorem rawNegLS_val {q : Nat} {a : Limbs} {b : Limb} (ha : a.length = n64 q) (hlt : val a < q)
    (hb : b.toNat < q) :
    val (rawNegLS q false a b) = if q - b.toNat < val a then q - b.toNat + q - val a else q - b.toNat - val a := by
  have hn := n64_pos q
  have e := subNC_val (rawq q) [b] 0 (by simp; omega) (by omega)
  have hb1 := subNC_borrow_le (rawq q) [b] 0 (by omega)
  have hq := q_lt_Wn q
  simp only [rawq_val, rawq_length, Nat.add_zero, val_cons, val_nil, Nat.mul_zero] at e
  have hv1 := val_lt (subNC (rawq q) [b] 0).1
  rw [subNC_length, rawq_length] at hv1
  have hbz : (subNC (rawq q) [b] 0).2 = 0 := by
    rcases Nat.le_one_iff_eq_zero_or_eq_one.mp hb1 with h0 | h1
    · exact h0
    · rw [h1] at e; omega
  rw [hbz] at e
  have hs : val (subNC (rawq q) [b] 0).1 = q - b.toNat := by omega
  have hl : (subNC (rawq q) [b] 0).1.length = n64 q := by rw [subNC_length, rawq_length]
  have e2 := subNC_val (subNC (rawq q) [b] 0).1 a 0 (by rw [hl, ha]) (by omega)
  have hb2 := subNC_borrow_le (subNC (rawq q) [b] 0).1 a 0 (by omega)
  rw [hl, hs] at e2
  unfold rawNegLS
  simp only [mpn_sub_1, mpn_sub_n, hbz, Bool.false_eq_true, if_false, bne_self_eq_false, Bool.false_or]
  exact condAdd_val (by rw [subNC_length, hl]) hb2 (by omega) (by simpa using e2)

theorem rawIsEq_iff {a b : Limbs} (h : a.length = b.length) : rawIsEq a b = true ↔ val a = val b := by
  rw [rawIsEq, mpn_cmp_eq a b h]; simp

theorem rawIsZero_iff {a : Limbs} : rawIsZero a = true ↔ val a = 0 := mpn_zero_p_iff a

theorem rawCopyS2L_length {q : Nat} {v : BitVec 64} : (rawCopyS2L q v).length = n64 q := by
  have := n64_pos q
  unfold rawCopyS2L; split
  · simp [mpn_add_n, addNC_length]; omega
  · simp; omega

theorem val_replicate_ones (n : Nat) : val (List.replicate n (-1 : BitVec 64)) = W ^ n - 1 := by
  have h := mpn_com_val (List.replicate n 0)
  simp only [mpn_com, List.map_replicate, List.length_replicate] at h
  have hz : val (List.replicate n (0 : Limb)) = 0 := val_replicate_zero n
  rw [hz] at h
  have e : (~~~(0 : BitVec 64)) = -1 := by decide
  rw [e] at h
  simpa using h

theorem rawCopyS2L_val {q : Nat} {v : BitVec 64} (hv : v.toInt.natAbs < q ∨ 0 ≤ v.toInt) :
    (val (rawCopyS2L q v) : ℤ) = if v.toInt < 0 then (q : ℤ) + v.toInt else v.toInt := by
  have hn := n64_pos q
  have hq := q_lt_Wn q
  have hti : v.toInt = if v.msb then (v.toNat : ℤ) - (2 ^ 64 : ℤ) else (v.toNat : ℤ) := by
    rw [BitVec.toInt_eq_msb_cond]; norm_num
  unfold rawCopyS2L
  split
  · rename_i hneg
    have hm : v.toInt = (v.toNat : ℤ) - 2 ^ 64 := by
      rw [hti] at hneg ⊢
      split at hneg
      · rename_i h; rw [if_pos h]
      · omega
    have e := addNC_val (v :: List.replicate (n64 q - 1) (-1)) (rawq q) 0
      (by simp only [List.length_cons, List.length_replicate, rawq_length]; omega)
    have hl : (v :: List.replicate (n64 q - 1) (-1 : BitVec 64)).length = n64 q := by
      simp only [List.length_cons, List.length_replicate]; omega
    have hr := val_lt (addNC (v :: List.replicate (n64 q - 1) (-1)) (rawq q) 0).1
    rw [addNC_length, hl] at hr
    rw [hl, val_cons, val_replicate_ones, rawq_val] at e
    have hWn : W ^ n64 q = W * W ^ (n64 q - 1) := by
      rw [← pow_succ', Nat.sub_add_cancel hn]
    have hp : 0 < W ^ (n64 q - 1) := pow_pos W_pos _
    have e1 : W * (W ^ (n64 q - 1) - 1) = W ^ n64 q - W := by
      rw [Nat.mul_sub, Nat.mul_one, ← hWn]
    have hWle : W ≤ W ^ n64 q := by
      rw [hWn]; exact Nat.le_mul_of_pos_right _ hp
    rw [e1] at e
    have hvl : v.toNat < W := limb_lt v
    have hWeq : (W : ℤ) = 2 ^ 64 := by rw [← W_eq]; rfl
    have hneg' : v.toInt.natAbs < q := by
      rcases hv with h | h
      · exact h
      · omega
    simp only [mpn_add_n]
    have hc1 : (addNC (v :: List.replicate (n64 q - 1) (-1)) (rawq q) 0).2 = 1 := by
      set c := (addNC (v :: List.replicate (n64 q - 1) (-1)) (rawq q) 0).2
      rcases Nat.lt_trichotomy c 1 with h | h | h
      · have h0 : c = 0 := by omega
        rw [h0] at e; omega
      · exact h
      · have : W ^ n64 q * 2 ≤ W ^ n64 q * c := Nat.mul_le_mul_left _ h
        omega
    rw [hc1] at e
    have e' : val (addNC (v :: List.replicate (n64 q - 1) (-1)) (rawq q) 0).1 + W = v.toNat + q := by omega
    have e'' : ((val (addNC (v :: List.replicate (n64 q - 1) (-1)) (rawq q) 0).1 : ℕ) : ℤ) + W = v.toNat + q := by
      exact_mod_cast e'
    rw [hm]; linarith
  · rename_i hneg
    have hm : v.toInt = (v.toNat : ℤ) := by
      rw [hti] at hneg ⊢
      have := v.isLt
      split
      · rename_i h; rw [if_pos h] at hneg; omega
      · rfl
    simp [hm]

end FF
