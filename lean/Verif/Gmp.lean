import Verif.Limbs
import Mathlib.Data.ZMod.Basic
import Mathlib.Data.Int.GCD
import Mathlib.Tactic.Linarith
import Mathlib.Tactic.Ring

/-!
# GMP `mpz` calls used by the library

GMP is not part of the repository: these definitions are the part of its documented behaviour that the library relies on.  An
`mpz_t` is an integer.  Undefined behaviour (division by zero, buffer overrun) is `none`.
-/

namespace FF

/-- Number of 64-bit words of `n` (0 for 0). -/
def limbCount (n : Nat) : Nat := if n = 0 then 0 else n.log2 / 64 + 1

/-- `mpz_import(r, n, -1, 8, -1, 0, p)`: little-endian words. -/
def mpzImport (l : Limbs) : Int := (val l : Int)

/-- `mpz_export(dst, NULL, -1, 8, -1, 0, v)`: the absolute value, least significant word first, only as many words as needed; the
rest of the destination is left as it was.  `none`: the destination is too small. -/
def mpzExport (dst : Limbs) (v : Int) : Option Limbs :=
  let c := limbCount v.natAbs
  if dst.length < c then none else some (toLimbs c v.natAbs ++ dst.drop c)

/-- `mpz_fits_sint_p`. -/
def mpzFitsSint (v : Int) : Bool := decide (-2147483648 ≤ v ∧ v ≤ 2147483647)

/-- `mpz_fdiv_q`: quotient rounded towards minus infinity; division by zero aborts. -/
def mpzFdivQ (a b : Int) : Option Int := if b = 0 then none else some (Int.fdiv a b)

/-- `mpz_fdiv_r`. -/
def mpzFdivR (a b : Int) : Option Int := if b = 0 then none else some (Int.fmod a b)

/-- `mpz_powm` with a non-negative exponent, by square and multiply on the binary digits of the exponent. -/
def powmNat (b e m : Nat) : Nat :=
  if e = 0 then 1 % m
  else
    let t := powmNat (b * b % m) (e / 2) m
    if e % 2 = 1 then b * t % m else t
termination_by e
decreasing_by omega

/-- `mpz_powm`; a negative exponent needs an inverse and is not used by the library: `none`. -/
def mpzPowm (b e m : Int) : Option Int :=
  if m = 0 ∨ e < 0 then none else some (powmNat (b % m).toNat e.toNat m.natAbs)

/-- `mpz_invert(r, a, m)`: the inverse in `[0, |m|)` when it exists, otherwise the content of `r` is unspecified (`junk`). -/
def mpzInvert (a m junk : Int) : Int := if Int.gcd a m = 1 then Int.gcdA a m % m else junk

/-- Digits `0-9a-z` as printed by `mpz_get_str` for bases up to 36. -/
def digitCh (d : Nat) : Char := if d < 10 then Char.ofNat (48 + d) else Char.ofNat (87 + d)

/-- `mpz_get_str(0, base, n)` for `n ≥ 0`, `2 ≤ base ≤ 36`: most significant digit first, `"0"` for zero. -/
def mpzGetStr (base n : Nat) : List Char :=
  if h : base ≤ 1 ∨ n < base then [digitCh n] else mpzGetStr base (n / base) ++ [digitCh (n % base)]
termination_by n
decreasing_by
  simp only [not_or, not_le, not_lt] at h
  exact Nat.div_lt_self (by omega) (by omega)

/-- Value of a character as a digit; letters of either case (bases up to 36). -/
def chDigit (c : Char) : Option Nat :=
  let k := c.toNat
  if 48 ≤ k ∧ k ≤ 57 then some (k - 48)
  else if 97 ≤ k ∧ k ≤ 122 then some (k - 87)
  else if 65 ≤ k ∧ k ≤ 90 then some (k - 55)
  else none

/-- C `isspace`. -/
def isSpaceC (c : Char) : Bool := c.toNat == 32 || (9 ≤ c.toNat && c.toNat ≤ 13)

/-- The digits of `mpz_set_str` after the first one: white space is ignored, anything else that is no digit is an error. -/
def strDigits (base : Nat) : List Char → Nat → Option Nat
  | [], acc => some acc
  | c :: cs, acc =>
    if isSpaceC c then strDigits base cs acc
    else match chDigit c with
      | some d => if d < base then strDigits base cs (acc * base + d) else none
      | none => none

/-- The unsigned part: the first character must be a digit. -/
def strUnsigned (base : Nat) : List Char → Option Nat
  | [] => none
  | c :: cs => match chDigit c with
    | some d => if d < base then strDigits base cs d else none
    | none => none

/-- `mpz_set_str(r, s, base)` for `2 ≤ base ≤ 36`: leading white space, optional minus sign, digits.  `none` is the error return. -/
def mpzSetStr (base : Nat) (s : List Char) : Option Int :=
  match s.dropWhile isSpaceC with
  | '-' :: cs => (strUnsigned base cs).map (fun n => -(n : Int))
  | cs => (strUnsigned base cs).map (fun n => (n : Int))

/-- `mpz_init_set_str`, whose return value the library ignores: on a malformed string the number is left at zero. -/
def mpzInitSetStr (base : Nat) (s : List Char) : Int := (mpzSetStr base s).getD 0

/-! ## Facts -/

theorem limbCount_lt {n k : Nat} (h : n < W ^ k) : limbCount n ≤ k := by
  unfold limbCount
  split
  · omega
  · rename_i h0
    have h1 : 2 ^ n.log2 ≤ n := Nat.log2_self_le h0
    have h2 : 2 ^ n.log2 < 2 ^ (64 * k) := by
      rw [← W_eq, ← pow_mul] at h; omega
    have := (Nat.pow_lt_pow_iff_right (by norm_num : 1 < 2)).mp h2
    omega

theorem limbCount_le {n : Nat} : n < W ^ limbCount n := by
  unfold limbCount
  split
  · rename_i h; subst h; simp
  · have : n < 2 ^ (n.log2 + 1) := Nat.lt_log2_self
    rw [← W_eq, ← pow_mul]
    exact lt_of_lt_of_le this (Nat.pow_le_pow_right (by norm_num) (by omega))

/-- Export into a zeroed buffer that is large enough. -/
theorem mpzExport_zero {k : Nat} {v : Int} (h : v.natAbs < W ^ k) :
    mpzExport (List.replicate k 0) v = some (toLimbs k v.natAbs) := by
  have h1 := limbCount_lt h
  unfold mpzExport
  simp only [List.length_replicate]
  rw [if_neg (by omega)]
  congr 1
  apply val_inj
  · simp; omega
  · have hz : ∀ j, val (List.replicate j (0 : Limb)) = 0 := val_replicate_zero
    rw [val_append, val_toLimbs_of_lt limbCount_le, List.drop_replicate, hz, val_toLimbs_of_lt h]; simp

theorem powmNat_eq (b e m : Nat) : powmNat b e m = b ^ e % m := by
  induction e using Nat.strong_induction_on generalizing b with
  | _ e ih =>
    unfold powmNat
    split
    · rename_i h; subst h; simp
    · rename_i h
      simp only []
      rw [ih (e / 2) (by omega)]
      have key : (b * b % m) ^ (e / 2) % m = (b * b) ^ (e / 2) % m := (Nat.pow_mod _ _ _).symm
      rw [key]
      split
      · rename_i h2
        have e1 : e = 2 * (e / 2) + 1 := by omega
        rw [Nat.mul_mod, Nat.mod_mod, ← Nat.mul_mod]
        conv_rhs => rw [e1, pow_succ, pow_mul, pow_two, mul_comm]
      · have e1 : e = 2 * (e / 2) := by omega
        conv_rhs => rw [e1, pow_mul, pow_two]

theorem mpzInvert_spec {a m junk : Int} (hm : 0 < m) (h : Int.gcd a m = 1) :
    0 ≤ mpzInvert a m junk ∧ mpzInvert a m junk < m ∧ a * mpzInvert a m junk % m = 1 % m := by
  unfold mpzInvert
  rw [if_pos h]
  refine ⟨Int.emod_nonneg _ (by omega), Int.emod_lt_of_pos _ hm, ?_⟩
  have := Int.gcd_eq_gcd_ab a m
  rw [h] at this
  rw [Int.mul_emod, Int.emod_emod_of_dvd _ dvd_rfl, ← Int.mul_emod]
  have e : a * Int.gcdA a m = 1 - m * Int.gcdB a m := by push_cast at this; linarith
  rw [e, Int.sub_mul_emod_self_left]

/-! ### Text -/

theorem chDigit_digitCh {d : Nat} (h : d < 36) : chDigit (digitCh d) = some d ∧ isSpaceC (digitCh d) = false := by
  have : ∀ d, d < 36 → chDigit (digitCh d) = some d ∧ isSpaceC (digitCh d) = false := by decide
  exact this d h

theorem digitCh_ne_minus {d : Nat} (h : d < 36) : digitCh d ≠ '-' := by
  have : ∀ d, d < 36 → digitCh d ≠ '-' := by decide
  exact this d h

theorem strDigits_append {base : Nat} (l l' : List Char) (acc : Nat) :
    strDigits base (l ++ l') acc = (strDigits base l acc).bind (strDigits base l') := by
  induction l generalizing acc with
  | nil => simp [strDigits]
  | cons c cs ih =>
    simp only [List.cons_append, strDigits]
    split
    · exact ih acc
    · split
      · split
        · exact ih _
        · rfl
      · rfl

theorem mpzGetStr_spec {base : Nat} (hb : 2 ≤ base) (hb' : base ≤ 36) (n : Nat) :
    ∃ c cs, mpzGetStr base n = c :: cs ∧ (∃ d, d < base ∧ c = digitCh d) ∧ strUnsigned base (c :: cs) = some n := by
  induction n using Nat.strong_induction_on with
  | _ n ih =>
    unfold mpzGetStr
    split
    · rename_i h
      have hn : n < base := by omega
      refine ⟨digitCh n, [], rfl, ⟨n, hn, rfl⟩, ?_⟩
      simp [strUnsigned, (chDigit_digitCh (show n < 36 by omega)).1, hn, strDigits]
    · rename_i h
      simp only [not_or, not_le, not_lt] at h
      obtain ⟨c, cs, e1, ⟨d, hd, e2⟩, e3⟩ := ih (n / base) (Nat.div_lt_self (by omega) (by omega))
      refine ⟨c, cs ++ [digitCh (n % base)], by rw [e1]; rfl, ⟨d, hd, e2⟩, ?_⟩
      have hm : n % base < base := Nat.mod_lt _ (by omega)
      have hc := chDigit_digitCh (show n % base < 36 by omega)
      simp only [strUnsigned] at e3 ⊢
      rw [e2, (chDigit_digitCh (show d < 36 by omega)).1] at e3 ⊢
      simp only [hd, if_true] at e3 ⊢
      rw [strDigits_append, e3]
      simp only [Option.bind_some, strDigits, hc.1, hc.2, hm, if_true, Bool.false_eq_true, if_false]
      congr 1
      rw [mul_comm]; exact Nat.div_add_mod n base

/-- Reading back what was printed. -/
theorem mpzSetStr_getStr {base : Nat} (hb : 2 ≤ base) (hb' : base ≤ 36) (n : Nat) :
    mpzSetStr base (mpzGetStr base n) = some (n : Int) := by
  obtain ⟨c, cs, e1, ⟨d, hd, e2⟩, e3⟩ := mpzGetStr_spec hb hb' n
  have hsp := (chDigit_digitCh (show d < 36 by omega)).2
  have hm := digitCh_ne_minus (show d < 36 by omega)
  rw [← e2] at hsp hm
  unfold mpzSetStr
  rw [e1, List.dropWhile_cons_of_neg (by simp [hsp])]
  split
  · rename_i cs' heq
    exact absurd (List.cons.inj heq).1 hm
  · rw [e3]; rfl

theorem digit_chDigit {c : Char} (h : '0' ≤ c ∧ c ≤ '9') :
    chDigit c = some (c.toNat - '0'.toNat) ∧ c.toNat - '0'.toNat < 10 ∧ isSpaceC c = false ∧ c ≠ '-' := by
  have h1 : 48 ≤ c.toNat := h.1
  have h2 : c.toNat ≤ 57 := h.2
  have e : '0'.toNat = 48 := rfl
  refine ⟨by rw [chDigit, e]; simp only [h1, h2, and_self, if_true], by omega, ?_, ?_⟩
  · simp only [isSpaceC, Bool.or_eq_false_iff, beq_eq_false_iff_ne, ne_eq, Bool.and_eq_false_iff, decide_eq_false_iff_not]; omega
  · rintro rfl; exact absurd h1 (by decide)

theorem strDigits_digits (s : List Char) (hs : ∀ c ∈ s, '0' ≤ c ∧ c ≤ '9') (acc : Nat) :
    strDigits 10 s acc = some (s.foldl (fun n c => n * 10 + (c.toNat - '0'.toNat)) acc) := by
  induction s generalizing acc with
  | nil => rfl
  | cons c cs ih =>
    obtain ⟨h1, h2, h3, -⟩ := digit_chDigit (hs c (List.mem_cons_self ..))
    rw [strDigits, h3, h1]
    simp only [h2, if_true, Bool.false_eq_true, if_false]
    exact ih (fun c hc => hs c (List.mem_cons_of_mem _ hc)) _

/-- Any string of decimal digits is read as the number it writes. -/
theorem mpzSetStr_digits {s : List Char} (h0 : s ≠ []) (hs : ∀ c ∈ s, '0' ≤ c ∧ c ≤ '9') :
    mpzSetStr 10 s = some ((s.foldl (fun n c => n * 10 + (c.toNat - '0'.toNat)) 0 : Nat) : Int) := by
  obtain ⟨c, cs, rfl⟩ := List.exists_cons_of_ne_nil h0
  obtain ⟨h1, h2, h3, h4⟩ := digit_chDigit (hs c (List.mem_cons_self ..))
  unfold mpzSetStr
  rw [List.dropWhile_cons_of_neg (by simp [h3])]
  split
  · rename_i cs' heq
    exact absurd (List.cons.inj heq).1 h4
  · rw [strUnsigned, h1]
    simp only [h2, if_true]
    rw [strDigits_digits cs (fun c hc => hs c (List.mem_cons_of_mem _ hc))]
    simp

/-- In base ten the text is the one Lean prints. -/
theorem mpzGetStr_ten (n : Nat) : mpzGetStr 10 n = Nat.toDigits 10 n := by
  have hch : ∀ d, d < 10 → digitCh d = Nat.digitChar d := by decide
  induction n using Nat.strong_induction_on with
  | _ n ih =>
    unfold mpzGetStr
    split
    · rename_i h
      have hn : n < 10 := by omega
      rw [Nat.toDigits_of_lt_base hn, hch n hn]
    · rename_i h
      simp only [not_or, not_le, not_lt] at h
      rw [Nat.toDigits_of_base_le (by norm_num) h.2, ih _ (by omega), hch _ (Nat.mod_lt _ (by norm_num))]

end FF
