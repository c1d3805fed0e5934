import Verif.FrCpp
import Verif.RawFr
import Verif.Props.Tagged

/-!
# Properties C18, C19, C21, C22, C23, C56: conversions, division, and the `RawFr` class

`Rep q e x`: the tagged element `e` stands for `x : ZMod q`; `FRep q l x`: the class element `l` (an array of limbs in Montgomery
form) stands for `x`.  `none` is an abort or a buffer overrun.  `u` is the content of uninitialised locals, `junk` the unspecified
output of a failed `mpz_invert`: both are arbitrary.
-/

namespace FF.Props

open FF

section tagged
variable {q : Nat} {m : Mem} {r a b p : Nat} {x y z : ZMod q} {u e e0 : Elem}

/-! ## C18: text and big integers -/

/-- C18.  The text of an element is the decimal text of its canonical residue. -/
theorem C18_element2str (hq : Modulus q) (h : Rep q e x) : Fr_element2str q u e = (Nat.repr x.val).toList := by
  rw [Fr_element2str_eq hq u h, mpzGetStr_ten, Nat.toList_repr]

theorem set_str_repr (n : Nat) : mpzSetStr 10 (Nat.repr n).toList = some (n : ℤ) := by
  rw [Nat.toList_repr, ← mpzGetStr_ten]; exact mpzSetStr_getStr (by norm_num) (by norm_num) n

/-- C18.  Reading the decimal text of any natural number, of any size, gives its residue. -/
theorem C18_str2element (hq : Modulus q) (n : Nat) :
    ∃ e', Fr_str2element q e0 (Nat.repr n).toList = some e' ∧ Rep q e' (n : ZMod q) := by
  obtain ⟨e', h1, h2⟩ := Fr_str2element_rep hq e0 (Nat.repr n).toList
  rw [mpzInitSetStr, set_str_repr] at h2
  exact ⟨e', h1, by simpa using h2⟩

/-- C18.  Any non-empty string of decimal digits, leading zeros included, is read as the number it writes. -/
theorem C18_str2element_digits (hq : Modulus q) (s : List Char) (h0 : s ≠ []) (hs : ∀ c ∈ s, '0' ≤ c ∧ c ≤ '9') :
    ∃ e', Fr_str2element q e0 s = some e' ∧ Rep q e' ((s.foldl (fun n c => n * 10 + (c.toNat - '0'.toNat)) 0 : Nat) : ZMod q) := by
  obtain ⟨e', h1, h2⟩ := Fr_str2element_rep hq e0 s
  rw [mpzInitSetStr, mpzSetStr_digits h0 hs] at h2
  exact ⟨e', h1, by simpa using h2⟩

example : ∀ c ∈ "0042".toList, '0' ≤ c ∧ c ≤ '9' := by decide

/-- C18, with a minus sign. -/
theorem C18_str2element_neg (hq : Modulus q) (n : Nat) :
    ∃ e', Fr_str2element q e0 ('-' :: (Nat.repr n).toList) = some e' ∧ Rep q e' (-(n : ZMod q)) := by
  obtain ⟨e', h1, h2⟩ := Fr_str2element_rep hq e0 ('-' :: (Nat.repr n).toList)
  have hs : mpzSetStr 10 ('-' :: (Nat.repr n).toList) = some (-(n : ℤ)) := by
    obtain ⟨c, cs, e1, -, e3⟩ := mpzGetStr_spec (base := 10) (by norm_num) (by norm_num) n
    rw [Nat.toList_repr, ← mpzGetStr_ten, e1]
    rw [mpzSetStr, List.dropWhile_cons_of_neg (by decide)]
    simp only []
    rw [e3]; rfl
  rw [mpzInitSetStr, hs] at h2
  exact ⟨e', h1, by simpa using h2⟩

/-- C18, round trip starting from an element. -/
theorem C18_text_roundtrip (hq : Modulus q) (h : Rep q e x) :
    ∃ e', Fr_str2element q e0 (Fr_element2str q u e) = some e' ∧ Rep q e' x := by
  have := hq.ne
  rw [C18_element2str hq h]
  obtain ⟨e', h1, h2⟩ := C18_str2element (e0 := e0) hq x.val
  exact ⟨e', h1, by rwa [ZMod.natCast_zmod_val] at h2⟩

/-- C18, round trip starting from text: the number comes back reduced modulo `q`. -/
theorem C18_text_roundtrip' (hq : Modulus q) (n : Nat) :
    ∃ e', Fr_str2element q e0 (Nat.repr n).toList = some e' ∧ Fr_element2str q u e' = (Nat.repr (n % q)).toList := by
  obtain ⟨e', h1, h2⟩ := C18_str2element (e0 := e0) hq n
  exact ⟨e', h1, by rw [C18_element2str hq h2, ZMod.val_natCast]⟩

/-- C18, big integers: the integer read out is the canonical residue, and writing it back gives the same residue. -/
theorem C18_mpz_roundtrip (hq : Modulus q) (h : Rep q e x) :
    Fr_toMpz q u e = (x.val : ℤ) ∧ ∃ e', Fr_fromMpz q e0 (Fr_toMpz q u e) = some e' ∧ Rep q e' x := by
  have := hq.ne
  have e1 := Fr_toMpz_eq hq u h
  refine ⟨e1, ?_⟩
  rw [e1]
  obtain ⟨e', h1, h2⟩ := Fr_fromMpz_rep hq e0 (v := (x.val : ℤ)) (Int.natCast_nonneg _) (by exact_mod_cast ZMod.val_lt x)
  exact ⟨e', h1, by rwa [Int.cast_natCast, ZMod.natCast_zmod_val] at h2⟩

/-- C18: the return value of the parser is ignored, so text that is not a number reads as zero. -/
theorem C18_malformed_is_zero (hq : Modulus q) {s : List Char} (hs : mpzSetStr 10 s = none) :
    ∃ e', Fr_str2element q e0 s = some e' ∧ Rep q e' 0 := by
  obtain ⟨e', h1, h2⟩ := Fr_str2element_rep hq e0 s
  rw [mpzInitSetStr, hs] at h2
  exact ⟨e', h1, by simpa using h2⟩

example : Rep bnR (sM 12345678901234567890) ((12345678901234567890 : Nat) : ZMod bnR) ∧
    Fr_element2str bnR (sS 7) (sM 12345678901234567890) = "12345678901234567890".toList := by
  refine ⟨by simp only [Rep_iff]; decide +kernel, by decide +kernel⟩
example : Fr_element2str bnR (sS 7) (sS (-1)) = (Nat.repr (bnR - 1)).toList := by decide +kernel
example : mpzSetStr 10 "12x".toList = none := by decide +kernel

/-! ## C19: integer division, power, inverse -/

/-- C19, `idiv`: the quotient of the canonical residues, for a non-zero divisor, wherever the result is stored. -/
theorem C19_idiv (hq : Modulus q) (ha : Rep q (m a) x) (hb : Rep q (m b) y) (hy : y ≠ 0) :
    ∃ m', Fr_idiv q u m r a b = some m' ∧ Rep q (m' r) ((x.val / y.val : Nat) : ZMod q) ∧ ∀ p, p ≠ r → m' p = m p :=
  Fr_idiv_rep hq u ha hb hy

/-- C19, `mod`. -/
theorem C19_mod (hq : Modulus q) (ha : Rep q (m a) x) (hb : Rep q (m b) y) (hy : y ≠ 0) :
    ∃ m', Fr_mod q u m r a b = some m' ∧ Rep q (m' r) ((x.val % y.val : Nat) : ZMod q) ∧ ∀ p, p ≠ r → m' p = m p :=
  Fr_mod_rep hq u ha hb hy

/-- C19: dividing by zero aborts the process. -/
theorem C19_div_zero_aborts (hq : Modulus q) (hb : Rep q (m b) 0) :
    Fr_idiv q u m r a b = none ∧ Fr_mod q u m r a b = none := by
  unfold Fr_idiv Fr_mod
  simp [Fr_toMpz_eq hq u hb, mpzFdivQ, mpzFdivR]

/-- C19, `pow`: the base to the canonical residue of the exponent. -/
theorem C19_pow (hq : Modulus q) (ha : Rep q (m a) x) (hb : Rep q (m b) y) :
    ∃ m', Fr_pow q u m r a b = some m' ∧ Rep q (m' r) (x ^ y.val) ∧ ∀ p, p ≠ r → m' p = m p :=
  Fr_pow_rep hq u ha hb

/-- C19, `inv` modulo a prime. -/
theorem C19_inv [Fact q.Prime] (hq : Modulus q) (junk : Int) (ha : Rep q (m a) x) (hx : x ≠ 0) :
    ∃ m', Fr_inv q u junk m r a = some m' ∧ (∃ z, Rep q (m' r) z ∧ x * z = 1) ∧ ∀ p, p ≠ r → m' p = m p := by
  obtain ⟨m', h1, h2, h3⟩ := Fr_inv_rep (r := r) hq u junk ha (isUnit_iff_ne_zero.mpr hx)
  exact ⟨m', h1, ⟨x⁻¹, h2, mul_inv_cancel₀ hx⟩, h3⟩

/-- C19, `inv` for a composite modulus: every invertible residue is inverted. -/
theorem C19_inv_unit (hq : Modulus q) (junk : Int) (ha : Rep q (m a) x) (hx : IsUnit x) :
    ∃ m', Fr_inv q u junk m r a = some m' ∧ (∃ z, Rep q (m' r) z ∧ x * z = 1) ∧ ∀ p, p ≠ r → m' p = m p := by
  obtain ⟨m', h1, h2, h3⟩ := Fr_inv_rep (r := r) hq u junk ha hx
  exact ⟨m', h1, ⟨x⁻¹, h2, ZMod.mul_inv_of_unit x hx⟩, h3⟩

/-- C19, `div` modulo a prime; `t` is the address of the function's local variable, distinct from the caller's. -/
theorem C19_div [Fact q.Prime] (hq : Modulus q) (junk : Int) {t : Nat} (hr : r ≠ t) (hat : a ≠ t)
    (ha : Rep q (m a) x) (hb : Rep q (m b) y) (hy : y ≠ 0) :
    ∃ m', Fr_div q u junk m r a b t = some m' ∧ Rep q (m' r) (x / y) ∧ ∀ p, p ≠ r → m' p = m p := by
  rw [div_eq_mul_inv]
  exact Fr_div_rep hq u junk hr hat ha hb (isUnit_iff_ne_zero.mpr hy)

/-- Sample store: 100 (long), 7 (short) and -5 (short), 2 in Montgomery form. -/
def mDiv : Mem := mem4 (sL 100) (sS 7) (sS (-5)) (sM 2)

example : Rep bnR (mDiv 0) ((100 : Nat) : ZMod bnR) ∧ Rep bnR (mDiv 1) ((7 : Nat) : ZMod bnR) ∧
    Rep bnR (mDiv 2) ((bnR - 5 : Nat) : ZMod bnR) ∧ Rep bnR (mDiv 3) ((2 : Nat) : ZMod bnR) := by
  simp only [Rep_iff]; decide +kernel
example : ((Fr_idiv bnR (sS 0) mDiv 0 0 1).map (fun m => (m 0).shortVal.toInt)) = some 14 ∧
    ((Fr_mod bnR (sS 0) mDiv 0 0 1).map (fun m => (m 0).shortVal.toInt)) = some 2 ∧
    ((Fr_pow bnR (sS 0) mDiv 1 1 3).map (fun m => (m 1).shortVal.toInt)) = some 49 ∧
    ((Fr_inv bnR (sS 0) 0 mDiv 1 3).map (fun m => val (m 1).longVal)) = some ((bnR + 1) / 2) := by decide +kernel
example : IsUnit ((2 : Nat) : ZMod bnR) := by
  rw [ZMod.isUnit_iff_coprime]; decide +kernel

end tagged

section raw
variable {q : Nat} {m : LMem} {r a b : Nat} {x y : ZMod q}

/-! ## C21: the class operations -/

/-- C21.  The ring operations of the class, for any placement of the result. -/
theorem C21_ring (hq : q % 2 = 1) (ha : FRep q (m a) x) (hb : FRep q (m b) y) :
    FRep q (rawAddM q m r a b r) (x + y) ∧ FRep q (rawSubM q m r a b r) (x - y) ∧
    FRep q (rawMMulM q m r a b r) (x * y) ∧ FRep q (rawMSquareM q m r a r) (x ^ 2) ∧ FRep q (rawNegM q m r a r) (-x) := by
  rw [rawAddM_eq, rawSubM_eq, rawMMulM_eq, rawMSquareM_eq, rawNegM_eq]
  simp only [LMem.set_same]
  exact ⟨ha.add hb, ha.sub hb, ha.mul hq hb, by rw [pow_two]; exact ha.mul hq ha, ha.neg⟩

/-- C21.  Equality and zero tests decide equality of the residues: the representation is canonical. -/
theorem C21_tests (hq : q % 2 = 1) {l l' : Limbs} (h : FRep q l x) (h' : FRep q l' y) :
    (rawIsEq l l' = true ↔ x = y) ∧ (rawIsZero l = true ↔ x = 0) := by
  constructor
  · rw [rawIsEq_iff (h.1.trans h'.1.symm)]
    constructor
    · intro e
      exact h.unique hq ((val_inj (h.1.trans h'.1.symm) e) ▸ h')
    · rintro rfl; rw [h.inj h']
  · rw [rawIsZero_iff]
    constructor
    · intro e
      apply R_cancel hq
      rw [← h.2.2, e]; simp
    · rintro rfl
      have h0 : LRep q l 0 := LRep.congr h (zero_mul _)
      rw [h0.val_eq]; simp

/-- C21.  The constants created by the constructor. -/
theorem C21_constants (hq : q % 2 = 1) :
    FRep q (RawFr.zero q) 0 ∧ FRep q (RawFr.one q) 1 ∧ FRep q (RawFr.negOne q) (-1) :=
  ⟨RawFr.zero_rep hq, RawFr.one_rep hq, (RawFr.one_rep hq).neg⟩

/-- C21.  Conversion from a C `int` not below `-q`, from an unsigned long and from text in any base. -/
theorem C21_set (hq : q % 2 = 1) (v : BitVec 32) (hv : -(q : ℤ) ≤ v.toInt) :
    ∃ m', RawFr.set q m r v = some m' ∧ FRep q (m' r) ((v.toInt : ℤ) : ZMod q) ∧ ∀ p, p ≠ r → m' p = m p := by
  have hb := short_bounds v
  have hW := q_lt_Wn q
  have hW' : 2 ^ 64 ≤ W ^ n64 q := by rw [W_eq]; exact Nat.le_self_pow (n64_pos q).ne' W
  have hv0 : 0 ≤ (if v.toInt < 0 then v.toInt + (q : ℤ) else v.toInt) := by
    split <;> omega
  obtain ⟨m', h1, h2, h3⟩ := RawFr.fromMpz_rep (m := m) (r := r) hq
    (v := if v.toInt < 0 then v.toInt + (q : ℤ) else v.toInt) (by split <;> omega)
  refine ⟨m', h1, ?_, h3⟩
  rw [← Int.cast_natCast, Int.natAbs_of_nonneg hv0] at h2
  split at h2
  · simpa using h2
  · exact h2

/-- C21: an `int` below `-q`, possible for a modulus below `2^31`, is converted wrongly: `-10` modulo 7 comes out as 3, not 4. -/
theorem C21_set_small_modulus :
    (RawFr.set 7 (fun _ => []) 0 (BitVec.ofInt 32 (-10))).map (fun m => RawFr.toMpz 7 (m 0)) = some 3 ∧ ((-10 : ℤ) : ZMod 7) ≠ 3 := by
  refine ⟨by decide +kernel, by decide⟩

theorem C21_fromUI (hq : q % 2 = 1) (v : BitVec 64) :
    ∃ m', RawFr.fromUI q m r v = some m' ∧ FRep q (m' r) (v.toNat : ZMod q) ∧ ∀ p, p ≠ r → m' p = m p := by
  have h1 : v.toNat < W ^ n64 q := by
    have h2 : v.toNat < W := limb_lt v
    exact lt_of_lt_of_le h2 (Nat.le_self_pow (n64_pos q).ne' W)
  have := RawFr.fromMpz_rep (m := m) (r := r) hq (v := (v.toNat : ℤ)) (by simpa using h1)
  simpa [RawFr.fromUI] using this

theorem C21_fromString (hq : q % 2 = 1) {radix : Nat} (h2 : 2 ≤ radix) (h36 : radix ≤ 36) (n : Nat) :
    ∃ m', RawFr.fromString q m r (mpzGetStr radix n) radix = some m' ∧ FRep q (m' r) (n : ZMod q) ∧ ∀ p, p ≠ r → m' p = m p := by
  have hp : 0 < q := by omega
  unfold RawFr.fromString mpzFdivR
  rw [mpzInitSetStr, mpzSetStr_getStr h2 h36, if_neg (by exact_mod_cast hp.ne')]
  simp only [Option.getD_some, Option.bind_some]
  rw [Int.fmod_eq_emod_of_nonneg _ (by omega), ← Int.natCast_emod]
  have hlt : n % q < W ^ n64 q := lt_trans (Nat.mod_lt _ hp) (q_lt_Wn q)
  obtain ⟨m', h1, h3, h4⟩ := RawFr.fromMpz_rep (m := m) (r := r) hq (v := ((n % q : Nat) : ℤ)) (by rw [Int.natAbs_natCast]; exact hlt)
  refine ⟨m', h1, ?_, h4⟩
  rwa [Int.natAbs_natCast, cast_mod] at h3

theorem C21_toString (hq : q % 2 = 1) {l : Limbs} (h : FRep q l x) (radix : Nat) :
    RawFr.toString q l radix = mpzGetStr radix x.val := by
  have := RawFr.toMpz_eq hq h
  rw [RawFr.toMpz] at this
  rw [RawFr.toString, this, Int.toNat_natCast]

/-- C21.  Inverse and quotient modulo a prime, also in place; `t` is the address of the local of `div`. -/
theorem C21_inv [Fact q.Prime] (hq : q % 2 = 1) (junk : Int) (ha : FRep q (m a) x) (hx : x ≠ 0) :
    ∃ m', RawFr.inv q junk m r a = some m' ∧ FRep q (m' r) x⁻¹ ∧ ∀ p, p ≠ r → m' p = m p :=
  RawFr.inv_rep hq junk ha (isUnit_iff_ne_zero.mpr hx)

theorem C21_div [Fact q.Prime] (hq : q % 2 = 1) (junk : Int) {t : Nat} (hr : r ≠ t) (hat : a ≠ t)
    (ha : FRep q (m a) x) (hb : FRep q (m b) y) (hy : y ≠ 0) :
    ∃ m', RawFr.div q junk m r a b t = some m' ∧ FRep q (m' r) (x / y) ∧ ∀ p, p ≠ r → m' p = m p := by
  rw [div_eq_mul_inv]
  exact RawFr.div_rep hq junk hr hat ha hb (isUnit_iff_ne_zero.mpr hy)

/-- Every residue has a class element, so the hypotheses above are met for all operands. -/
theorem FRep_exists (hq : q % 2 = 1) (x : ZMod q) : ∃ l, FRep q l x := by
  have : NeZero q := ⟨by omega⟩
  refine ⟨rawToMontgomery q (toLimbs (n64 q) x.val), ?_⟩
  have := FRep.toMont hq (l := toLimbs (n64 q) x.val) (by simp)
  rwa [val_toLimbs_of_lt (lt_trans (ZMod.val_lt x) (q_lt_Wn q)), ZMod.natCast_zmod_val] at this

example : FRep bnR (toLimbs 4 (7 * 2 ^ 256 % bnR)) ((7 : Nat) : ZMod bnR) ∧ rawIsZero (toLimbs 4 (7 * 2 ^ 256 % bnR)) = false := by
  refine ⟨?_, by decide +kernel⟩
  have e : ((7 : Nat) : ZMod bnR) * R bnR = ((7 * 2 ^ (64 * n64 bnR) : Nat) : ZMod bnR) := by
    rw [Nat.cast_mul, R, Nat.cast_pow, Nat.cast_ofNat (n := 2)]
  rw [FRep, e, lrepB_iff]; decide +kernel

/-! ## C22: exponentiation -/

/-- C22.  `exp` raises to the little-endian integer of the scalar bytes, for any number of bytes up to `2^28` including none, also in
place. -/
theorem C22_exp (hq : q % 2 = 1) (scalar : List (BitVec 8)) (hl : scalar.length ≤ 2 ^ 28) (hb : FRep q (m b) x) :
    FRep q (RawFr.exp q m r b scalar r) (x ^ valLE scalar) ∧ ∀ p, p ≠ r → RawFr.exp q m r b scalar p = m p :=
  RawFr.exp_rep hq scalar hl hb

/-- C22: the bound is sharp.  From `2^28 + 1` to `2^29` bytes the bit counter starts negative and the result is one, whatever the base
and the scalar. -/
theorem C22_long_scalar (hq : q % 2 = 1) (scalar : List (BitVec 8)) (h1 : 2 ^ 28 < scalar.length) (h2 : scalar.length ≤ 2 ^ 29) :
    FRep q (RawFr.exp q m r b scalar r) 1 := by
  unfold RawFr.exp
  rw [intBits_wrap h1 h2]
  have e : RawFr.expLoop q (m b) scalar r 0 m false = (m, false) := rfl
  rw [e]
  show FRep q (m.set r (RawFr.one q) r) 1
  rw [LMem.set_same]
  exact RawFr.one_rep hq

/-- The zero scalar of `2^28 + 1` bytes. -/
example : 2 ^ 28 < (List.replicate (2 ^ 28 + 1) (0 : BitVec 8)).length ∧ (List.replicate (2 ^ 28 + 1) (0 : BitVec 8)).length ≤ 2 ^ 29 := by
  rw [List.length_replicate]; norm_num

example : valLE [0x39, 0x30] = 12345 ∧ valLE [] = 0 := by decide
example : RawFr.toMpz gl (RawFr.exp gl (fun _ => rawToMontgomery gl [3]) 0 0 [0x05, 0x01] 0) = ((3 ^ 261 % gl : Nat) : ℤ) := by
  decide +kernel

/-! ## C23: byte strings -/

/-- C23, the part that holds: a non-zero element written to a buffer of exactly `8·N64` bytes is its big-endian canonical residue,
and reading it back returns the element.
Missing: zero (nothing is written, `C23_zero_violated`) and longer buffers (`C23_long_buffer_violated`). -/
theorem C23_roundtrip_partial (hq : q % 2 = 1) {l : Limbs} (h : FRep q l x) (hx : x ≠ 0) {data : List (BitVec 8)}
    (hd : data.length = n64 q * 8) :
    ∃ d m', RawFr.toRprBE q l data (n64 q * 8) = some ((n64 q * 8 : Int), d) ∧ d.length = n64 q * 8 ∧ valBE d = x.val ∧
      RawFr.fromRprBE q m r d (n64 q * 8) = some ((n64 q * 8 : Int), m') ∧ m' r = l ∧ ∀ p, p ≠ r → m' p = m p := by
  have : NeZero q := ⟨by omega⟩
  have hxv : x.val ≠ 0 := by rwa [Ne, ZMod.val_eq_zero]
  have hlt : x.val < W ^ n64 q := lt_trans (ZMod.val_lt x) (q_lt_Wn q)
  have hlt' : x.val < 256 ^ (n64 q * 8) := by rwa [← W_bytes]
  have hval : valBE (bytesBE (n64 q * 8) x.val) = x.val := by rw [valBE_bytesBE, Nat.mod_eq_of_lt hlt']
  obtain ⟨m', h1, h2, h3⟩ := RawFr.fromMpz_rep (m := m) (r := r) hq (v := (x.val : ℤ)) (by rw [Int.natAbs_natCast]; exact hlt)
  rw [Int.natAbs_natCast, ZMod.natCast_zmod_val] at h2
  refine ⟨bytesBE (n64 q * 8) x.val, m', ?_, bytesBE_length _ _, hval, ?_, h2.inj h, h3⟩
  · rw [RawFr.toRprBE, if_neg (by omega), RawFr.toMpz_eq hq h, mpzExportBE_one hd hxv hlt']; rfl
  · rw [RawFr.fromRprBE, if_neg (by omega), List.take_of_length_le (by rw [bytesBE_length]), hval, h1]; rfl

/-- C23, reading: any `8·N64` bytes, also those of a number not below `q`, give the residue of the number they write. -/
theorem C23_fromRprBE (hq : q % 2 = 1) {data : List (BitVec 8)} {bytes : Nat} (hb : n64 q * 8 ≤ bytes) (hd : n64 q * 8 ≤ data.length) :
    ∃ m', RawFr.fromRprBE q m r data bytes = some ((n64 q * 8 : Int), m') ∧
      FRep q (m' r) (valBE (data.take (n64 q * 8)) : ZMod q) ∧ ∀ p, p ≠ r → m' p = m p := by
  have hlt : valBE (data.take (n64 q * 8)) < W ^ n64 q := by
    rw [W_bytes]
    have := valBE_lt (data.take (n64 q * 8))
    rwa [List.length_take, min_eq_left hd] at this
  obtain ⟨m', h1, h2, h3⟩ := RawFr.fromMpz_rep (m := m) (r := r) hq (v := (valBE (data.take (n64 q * 8)) : ℤ))
    (by rw [Int.natAbs_natCast]; exact hlt)
  refine ⟨m', ?_, by rwa [Int.natAbs_natCast] at h2, h3⟩
  rw [RawFr.fromRprBE, if_neg (by omega), h1]; rfl

/-- C23, short buffers are refused by both calls, with no effect. -/
theorem C23_short (l : Limbs) {data : List (BitVec 8)} {bytes : Nat} (hb : bytes < n64 q * 8) :
    RawFr.toRprBE q l data bytes = some (-(n64 q * 8 : Int), data) ∧
      RawFr.fromRprBE q m r data bytes = some (-(n64 q * 8 : Int), m) := by
  rw [RawFr.toRprBE, RawFr.fromRprBE, if_pos hb, if_pos hb]; exact ⟨rfl, rfl⟩

/-- C23 fails at zero, for every modulus: the call reports success and leaves the buffer as it was. -/
theorem C23_zero_violated (hq : q % 2 = 1) {l : Limbs} (h : FRep q l 0) (data : List (BitVec 8)) :
    RawFr.toRprBE q l data (n64 q * 8) = some ((n64 q * 8 : Int), data) := by
  rw [RawFr.toRprBE, if_neg (by omega), RawFr.toMpz_eq hq h]
  simp [mpzExportBE_zero]

/-- C23 fails for a longer buffer: the element 1 written to 33 bytes reads back as 0. -/
theorem C23_long_buffer_violated :
    ((RawFr.toRprBE bnR (RawFr.one bnR) (List.replicate 33 0) 33).bind fun d =>
      (RawFr.fromRprBE bnR (fun _ => []) 0 d.2 33).map fun m => RawFr.toMpz bnR (m.2 0)) = some 0 := by decide +kernel

example : FRep bnR (RawFr.one bnR) 1 ∧ (RawFr.toRprBE bnR (RawFr.one bnR) (List.replicate 32 0xAA) 32).map (fun d => valBE d.2) = some 1 :=
  ⟨RawFr.one_rep (by decide +kernel), by decide +kernel⟩

/-! ## C56: results may overwrite operands -/

/-- C56.  For every coincidence of result and operand arrays, each raw routine stores in the result array the value it computes from
the original contents of its operands, and touches no other array. -/
theorem C56_aliasing (q : Nat) (m : LMem) (r a b : Nat) (w : Limb) :
    rawAddM q m r a b = m.set r (rawAdd q (m a) (m b)) ∧
    rawAddLSM q m r a w = m.set r (rawAddLS q (m a) w) ∧
    rawSubM q m r a b = m.set r (rawSub q (m a) (m b)) ∧
    rawSubSLM q m r w b = m.set r (rawSubSL q w (m b)) ∧
    rawSubLSM q m r a w = m.set r (rawSubLS q (m a) w) ∧
    rawNegM q m r a = m.set r (rawNeg q (m a)) ∧
    rawMMulM q m r a b = m.set r (rawMMul q (m a) (m b)) ∧
    rawMSquareM q m r a = m.set r (rawMSquare q (m a)) ∧
    rawMMul1M q m r a w = m.set r (rawMMul1 q (m a) w) ∧
    rawToMontgomeryM q m r a = m.set r (rawToMontgomery q (m a)) ∧
    rawFromMontgomeryM q m r a = m.set r (rawFromMontgomery q (m a)) ∧
    rawBitM mpn_and_n q m r a b = m.set r (rawAnd q (m a) (m b)) ∧
    rawBitM mpn_ior_n q m r a b = m.set r (rawOr q (m a) (m b)) ∧
    rawBitM mpn_xor_n q m r a b = m.set r (rawXor q (m a) (m b)) ∧
    rawNotM q m r a = m.set r (rawNot q (m a)) :=
  ⟨rawAddM_eq .., rawAddLSM_eq .., rawSubM_eq .., rawSubSLM_eq .., rawSubLSM_eq .., rawNegM_eq .., rawMMulM_eq .., rawMSquareM_eq ..,
    rawMMul1M_eq .., rawToMontgomeryM_eq .., rawFromMontgomeryM_eq .., rawBitM_eq .., rawBitM_eq .., rawBitM_eq .., rawNotM_eq ..⟩

/-- C56, shifts by less than the limb width of the field: right shifts in every placement, left shifts when the arrays differ or the
count is below 64. -/
theorem C56_shifts {q : Nat} {m : LMem} {r a s : Nat} (ha : (m a).length = n64 q) (hr : (m r).length = n64 q) (hs : s < 64 * n64 q) :
    rawShrM q m r a s = m.set r (rawShr q (m a) s) ∧
    ((r = a → s < 64) → rawShlM q m r a s = some (m.set r (rawShl q (m a) s))) :=
  ⟨rawShrM_eq q m r a s ha hs, rawShlM_eq q m r a s hr hs⟩

/-- C56 fails for the long-minus-short negation in place: the operand is overwritten before it is read. -/
theorem C56_negLS_violated :
    let m : LMem := fun _ => toLimbs 4 5
    val (rawNegLSM bnR m 1 0 3 1) = bnR - 8 ∧ val (rawNegLSM bnR m 0 0 3 0) = 0 := by decide +kernel

/-- C56 fails for a left shift in place by 64 or more: the overlapping copy is undefined. -/
theorem C56_shl_violated (q : Nat) (m : LMem) (r s : Nat) (hs : 64 ≤ s) : rawShlM q m r r s = none := by
  unfold rawShlM
  simp only []
  rw [if_pos]
  exact ⟨trivial, by omega⟩

/-- Swapping exchanges the two arrays and nothing else (and is the identity when they coincide). -/
theorem C56_swap (m : LMem) (r a : Nat) :
    rawSwapM m r a r = m a ∧ rawSwapM m r a a = m r ∧ ∀ p, p ≠ r → p ≠ a → rawSwapM m r a p = m p := by
  unfold rawSwapM rawCopyM
  refine ⟨?_, by simp, fun p h1 h2 => by rw [LMem.set_other _ _ h2, LMem.set_other _ _ h1]⟩
  by_cases h : r = a
  · subst h; simp
  · rw [LMem.set_other _ _ h, LMem.set_same]

example : let m : LMem := fun p => toLimbs 4 (p + 2)
    val (rawAddM bnR m 0 0 0 0) = 4 ∧ val (rawSubM bnR m 1 0 1 1) = bnR - 1 := by decide +kernel

end raw

end FF.Props
