import Mathlib.Tactic.Ring
import Mathlib.Tactic.Linarith
import Mathlib.Data.Nat.Bitwise
import Mathlib.Tactic.IrreducibleDef

/-!
# Limb vectors and the GMP `mpn_*` routines

The generated field code stores an `n`-limb number as `uint64_t[n]`, least significant limb first, and calls
GMP's low-level `mpn_*` functions on it.  GMP is not part of the repository; each routine used by the
repository is modelled here as the carry-propagating loop that its documentation describes.
-/

namespace FF

/-- `uint64_t` / `mp_limb_t` (gmp.h); `fr_element.hpp.ejs:12` `typedef uint64_t FrRawElement[N64]`. -/
abbrev Limb := BitVec 64

/-- An array of limbs, least significant first (`fr_element.hpp.ejs:12`). -/
abbrev Limbs := List Limb

/-- The limb base `2^64`, opaque in proofs; `W_eq : 2 ^ 64 = W`. -/
irreducible_def W : Nat := 2 ^ 64

theorem W_eq : 2 ^ 64 = W := by rw [W_def]

/-- The natural number stored in a little-endian limb array. -/
def val : Limbs → Nat
  | [] => 0
  | l :: ls => l.toNat + 2 ^ 64 * val ls

/-- Reads limb `i` of an array (in-range in every use in the code). -/
def limbAt (a : Limbs) (i : Nat) : Limb := a.getD i 0

/-- The `n` low limbs of a number: `ZqBuilder.constantElement`, `buildzqfield.js:32-42`. -/
def toLimbs : Nat → Nat → Limbs
  | 0, _ => []
  | n + 1, v => BitVec.ofNat 64 v :: toLimbs n (v / 2 ^ 64)

/-- Addition of two limb arrays with carry in, the second possibly shorter
(GMP `mpn_add_n`, `mpn_add`, `mpn_add_1`).  Result and carry out. -/
def addNC : Limbs → Limbs → Nat → Limbs × Nat
  | x :: xs, y :: ys, c =>
      let s := x.toNat + y.toNat + c
      let p := addNC xs ys (s / 2 ^ 64)
      (BitVec.ofNat 64 s :: p.1, p.2)
  | x :: xs, [], c =>
      let s := x.toNat + c
      let p := addNC xs [] (s / 2 ^ 64)
      (BitVec.ofNat 64 s :: p.1, p.2)
  | [], _, c => ([], c)

/-- Subtraction of two limb arrays with borrow in, the second possibly shorter
(GMP `mpn_sub_n`, `mpn_sub_1`).  Result and borrow out. -/
def subNC : Limbs → Limbs → Nat → Limbs × Nat
  | x :: xs, y :: ys, c =>
      let p := subNC xs ys (if x.toNat < y.toNat + c then 1 else 0)
      ((x - y - BitVec.ofNat 64 c) :: p.1, p.2)
  | x :: xs, [], c =>
      let p := subNC xs [] (if x.toNat < c then 1 else 0)
      ((x - BitVec.ofNat 64 c) :: p.1, p.2)
  | [], _, c => ([], c)

/-- GMP `mpn_add_n(rp, s1p, s2p, n)`: sum and carry. -/
def mpn_add_n (a b : Limbs) : Limbs × Nat := addNC a b 0
/-- GMP `mpn_add(rp, s1p, n1, s2p, n2)`, `n1 ≥ n2`: sum and carry. -/
def mpn_add (a b : Limbs) : Limbs × Nat := addNC a b 0
/-- GMP `mpn_add_1(rp, s1p, n, limb)`: sum and carry. -/
def mpn_add_1 (a : Limbs) (w : Limb) : Limbs × Nat := addNC a [w] 0
/-- GMP `mpn_sub_n(rp, s1p, s2p, n)`: difference and borrow. -/
def mpn_sub_n (a b : Limbs) : Limbs × Nat := subNC a b 0
/-- GMP `mpn_sub_1(rp, s1p, n, limb)`: difference and borrow. -/
def mpn_sub_1 (a : Limbs) (w : Limb) : Limbs × Nat := subNC a [w] 0

/-- Accumulating product with carry in (GMP `mpn_mul_1`, `mpn_addmul_1`): `r + a*m + c` over the length of `r`,
`a` possibly shorter. -/
def addmulC : Limbs → Limbs → Limb → Nat → Limbs × Nat
  | r :: rs, x :: xs, m, c =>
      let s := r.toNat + x.toNat * m.toNat + c
      let p := addmulC rs xs m (s / 2 ^ 64)
      (BitVec.ofNat 64 s :: p.1, p.2)
  | rs, _, _, c => (rs, c)

/-- GMP `mpn_addmul_1(rp, s1p, n, limb)`: `rp + s1p*limb` and the carry limb. -/
def mpn_addmul_1 (r a : Limbs) (m : Limb) : Limbs × Nat := addmulC r a m 0
/-- GMP `mpn_mul_1(rp, s1p, n, limb)`: `s1p*limb` and the carry limb. -/
def mpn_mul_1 (a : Limbs) (m : Limb) : Limbs × Nat := addmulC (List.replicate a.length 0) a m 0

/-- GMP `mpn_cmp(s1p, s2p, n)`: comparison from the most significant limb down. -/
def mpn_cmp : Limbs → Limbs → Ordering
  | x :: xs, y :: ys => (mpn_cmp xs ys).then (compare x.toNat y.toNat)
  | _, _ => .eq

/-- GMP `mpn_zero_p(sp, n)`. -/
def mpn_zero_p (a : Limbs) : Bool := a.all (· == 0)

/-- GMP `mpn_and_n`. -/
def mpn_and_n (a b : Limbs) : Limbs := List.zipWith (· &&& ·) a b
/-- GMP `mpn_ior_n`. -/
def mpn_ior_n (a b : Limbs) : Limbs := List.zipWith (· ||| ·) a b
/-- GMP `mpn_xor_n`. -/
def mpn_xor_n (a b : Limbs) : Limbs := List.zipWith (· ^^^ ·) a b
/-- GMP `mpn_com`. -/
def mpn_com (a : Limbs) : Limbs := a.map (~~~ ·)

/-- GMP `mpn_lshift(rp, sp, n, count)`, `1 ≤ count ≤ 63`; the carry-out limb is ignored by the repository. -/
def mpn_lshift : Limbs → Nat → Nat → Limbs
  | x :: xs, k, c =>
      let s := x.toNat * 2 ^ k + c
      BitVec.ofNat 64 s :: mpn_lshift xs k (s / 2 ^ 64)
  | [], _, _ => []

/-- GMP `mpn_rshift(rp, sp, n, count)`, `1 ≤ count ≤ 63`. -/
def mpn_rshift : Limbs → Nat → Limbs
  | x :: xs, k =>
      BitVec.ofNat 64 ((x.toNat + 2 ^ 64 * (xs.headD 0).toNat) / 2 ^ k) :: mpn_rshift xs k
  | [], _ => []

/-! ## Value lemmas -/

theorem W_pos : 0 < W := by rw [← W_eq]; positivity

theorem W_pow_succ (n : Nat) : W ^ (n + 1) = W ^ n * W := pow_succ W n

theorem limb_lt (x : Limb) : x.toNat < W := by rw [← W_eq]; exact x.isLt

@[simp] theorem val_nil : val [] = 0 := rfl
@[simp] theorem val_cons (l : Limb) (ls : Limbs) : val (l :: ls) = l.toNat + W * val ls := by
  rw [← W_eq, val]

theorem toNat_ofNat_W (s : Nat) : (BitVec.ofNat 64 s).toNat = s % W := by
  rw [BitVec.toNat_ofNat, W_eq]

theorem val_lt (a : Limbs) : val a < W ^ a.length := by
  induction a with
  | nil => simp
  | cons x xs ih =>
    have hx := limb_lt x
    simp only [val_cons, List.length_cons, pow_succ]
    have : W * val xs + W ≤ W * W ^ xs.length := by
      have := Nat.mul_le_mul_left W ih
      simpa [Nat.mul_succ] using this
    rw [Nat.mul_comm (W ^ xs.length)]
    omega

theorem val_append (a b : Limbs) : val (a ++ b) = val a + W ^ a.length * val b := by
  induction a with
  | nil => simp
  | cons x xs ih =>
    simp only [List.cons_append, val_cons, ih, List.length_cons, pow_succ]
    ring

@[simp] theorem val_replicate_zero (n : Nat) : val (List.replicate n 0#64) = 0 := by
  induction n with
  | zero => rfl
  | succ n ih => simp [List.replicate_succ, ih]

@[simp] theorem toLimbs_length (n v : Nat) : (toLimbs n v).length = n := by
  induction n generalizing v with
  | zero => rfl
  | succ n ih => simp [toLimbs, ih]

theorem val_toLimbs (n v : Nat) : val (toLimbs n v) = v % W ^ n := by
  induction n generalizing v with
  | zero => simp [toLimbs, Nat.mod_one]
  | succ n ih =>
    simp only [toLimbs, val_cons, toNat_ofNat_W, ih, W_eq]
    rw [pow_succ, Nat.mul_comm (W ^ n) W, Nat.mod_mul]

theorem val_toLimbs_of_lt {n v : Nat} (h : v < W ^ n) : val (toLimbs n v) = v := by
  rw [val_toLimbs, Nat.mod_eq_of_lt h]

theorem val_inj {a b : Limbs} (hl : a.length = b.length) (h : val a = val b) : a = b := by
  induction a generalizing b with
  | nil => cases b <;> simp_all
  | cons x xs ih =>
    cases b with
    | nil => simp at hl
    | cons y ys =>
      simp only [val_cons] at h
      have hx := limb_lt x
      have hy := limb_lt y
      have h1 : x.toNat = y.toNat := by
        have := congrArg (· % W) h
        simpa [Nat.add_mul_mod_self_left, Nat.mod_eq_of_lt hx, Nat.mod_eq_of_lt hy] using this
      have h2 : val xs = val ys := by
        rw [h1] at h
        have := Nat.add_left_cancel h
        exact Nat.eq_of_mul_eq_mul_left W_pos this
      rw [BitVec.eq_of_toNat_eq h1, ih (by simpa using hl) h2]

theorem toLimbs_val (a : Limbs) : toLimbs a.length (val a) = a :=
  val_inj (by simp) (by rw [val_toLimbs_of_lt (val_lt a)])

theorem addNC_length (a b : Limbs) (c : Nat) : (addNC a b c).1.length = a.length := by
  induction a generalizing b c with
  | nil => simp [addNC]
  | cons x xs ih => cases b <;> simp [addNC, ih]

theorem addNC_val (a b : Limbs) (c : Nat) (h : b.length ≤ a.length) :
    val (addNC a b c).1 + W ^ a.length * (addNC a b c).2 = val a + val b + c := by
  induction a generalizing b c with
  | nil =>
    have : b = [] := by simpa using h
    subst this; simp [addNC]
  | cons x xs ih =>
    cases b with
    | nil =>
      have e := ih [] ((x.toNat + c) / W) (by simp)
      have d := Nat.div_add_mod (x.toNat + c) W
      simp only [addNC, W_eq, val_cons, toNat_ofNat_W, List.length_cons, W_pow_succ, val_nil] at e ⊢
      calc _ = (x.toNat + c) % W + W * (val (addNC xs [] ((x.toNat + c) / W)).1 +
                 W ^ xs.length * (addNC xs [] ((x.toNat + c) / W)).2) := by ring
        _ = (W * ((x.toNat + c) / W) + (x.toNat + c) % W) + W * val xs := by rw [e]; ring
        _ = _ := by rw [d]; ring
    | cons y ys =>
      have e := ih ys ((x.toNat + y.toNat + c) / W) (by simpa using h)
      have d := Nat.div_add_mod (x.toNat + y.toNat + c) W
      simp only [addNC, W_eq, val_cons, toNat_ofNat_W, List.length_cons, W_pow_succ] at e ⊢
      calc _ = (x.toNat + y.toNat + c) % W + W * (val (addNC xs ys ((x.toNat + y.toNat + c) / W)).1 +
                 W ^ xs.length * (addNC xs ys ((x.toNat + y.toNat + c) / W)).2) := by ring
        _ = (W * ((x.toNat + y.toNat + c) / W) + (x.toNat + y.toNat + c) % W)
              + W * val xs + W * val ys := by rw [e]; ring
        _ = _ := by rw [d]; ring

theorem subNC_length (a b : Limbs) (c : Nat) : (subNC a b c).1.length = a.length := by
  induction a generalizing b c with
  | nil => simp [subNC]
  | cons x xs ih => cases b <;> simp [subNC, ih]

theorem subNC_borrow_le (a b : Limbs) (c : Nat) (hc : c ≤ 1) : (subNC a b c).2 ≤ 1 := by
  induction a generalizing b c with
  | nil => simpa [subNC] using hc
  | cons x xs ih =>
    cases b with
    | nil => simp only [subNC]; exact ih _ _ (by split <;> omega)
    | cons y ys => simp only [subNC]; exact ih _ _ (by split <;> omega)

theorem sub_digit (x y : Limb) (c : Nat) (hc : c ≤ 1) :
    (x - y - BitVec.ofNat 64 c).toNat + (y.toNat + c) =
      x.toNat + W * (if x.toNat < y.toNat + c then 1 else 0) := by
  have hx := x.isLt
  have hy := y.isLt
  rw [← W_eq, BitVec.toNat_sub, BitVec.toNat_sub, BitVec.toNat_ofNat]
  rcases Nat.lt_or_ge x.toNat (y.toNat + c) with h | h
  · rw [if_pos h]; omega
  · rw [if_neg (by omega)]; omega

theorem subNC_val (a b : Limbs) (c : Nat) (h : b.length ≤ a.length) (hc : c ≤ 1) :
    val (subNC a b c).1 + val b + c = val a + W ^ a.length * (subNC a b c).2 := by
  induction a generalizing b c with
  | nil =>
    have : b = [] := by simpa using h
    subst this; simp [subNC]
  | cons x xs ih =>
    cases b with
    | nil =>
      have e := ih [] (if x.toNat < c then 1 else 0) (by simp) (by split <;> omega)
      have d := sub_digit x 0 c hc
      simp only [BitVec.ofNat_eq_ofNat, BitVec.toNat_ofNat, Nat.zero_mod, Nat.zero_add, BitVec.sub_zero] at d
      simp only [subNC, val_cons, List.length_cons, pow_succ, val_nil] at e ⊢
      generalize (if x.toNat < c then 1 else 0) = k at *
      calc _ = ((x - BitVec.ofNat 64 c).toNat + c) + W * val (subNC xs [] k).1 := by ring
        _ = x.toNat + W * (val (subNC xs [] k).1 + 0 + k) := by rw [d]; ring
        _ = _ := by rw [e]; ring
    | cons y ys =>
      have e := ih ys (if x.toNat < y.toNat + c then 1 else 0) (by simpa using h) (by split <;> omega)
      have d := sub_digit x y c hc
      simp only [subNC, val_cons, List.length_cons, pow_succ] at e ⊢
      generalize (if x.toNat < y.toNat + c then 1 else 0) = k at *
      calc _ = ((x - y - BitVec.ofNat 64 c).toNat + (y.toNat + c)) + W * val (subNC xs ys k).1
                + W * val ys := by ring
        _ = x.toNat + W * (val (subNC xs ys k).1 + val ys + k) := by rw [d]; ring
        _ = _ := by rw [e]; ring

theorem addmulC_length (r a : Limbs) (m : Limb) (c : Nat) : (addmulC r a m c).1.length = r.length := by
  induction r generalizing a c with
  | nil => simp [addmulC]
  | cons x xs ih => cases a <;> simp [addmulC, ih]

theorem addmulC_val (r a : Limbs) (m : Limb) (c : Nat) (h : r.length = a.length) :
    val (addmulC r a m c).1 + W ^ r.length * (addmulC r a m c).2 = val r + val a * m.toNat + c := by
  induction r generalizing a c with
  | nil =>
    have : a = [] := by cases a <;> simp_all
    subst this; simp [addmulC]
  | cons x xs ih =>
    cases a with
    | nil => simp at h
    | cons y ys =>
      have e := ih ys ((x.toNat + y.toNat * m.toNat + c) / W) (by simpa using h)
      have d := Nat.div_add_mod (x.toNat + y.toNat * m.toNat + c) W
      simp only [addmulC, W_eq, val_cons, toNat_ofNat_W, List.length_cons, W_pow_succ] at e ⊢
      generalize (x.toNat + y.toNat * m.toNat + c) / W = k at *
      calc _ = (x.toNat + y.toNat * m.toNat + c) % W +
                 W * (val (addmulC xs ys m k).1 + W ^ xs.length * (addmulC xs ys m k).2) := by ring
        _ = (W * k + (x.toNat + y.toNat * m.toNat + c) % W) + W * val xs + W * val ys * m.toNat := by
              rw [e]; ring
        _ = _ := by rw [d]; ring

theorem mpn_mul_1_length (a : Limbs) (m : Limb) : (mpn_mul_1 a m).1.length = a.length := by
  simp [mpn_mul_1, addmulC_length]

theorem mpn_mul_1_val (a : Limbs) (m : Limb) :
    val (mpn_mul_1 a m).1 + W ^ a.length * (mpn_mul_1 a m).2 = val a * m.toNat := by
  have := addmulC_val (List.replicate a.length 0) a m 0 (by simp)
  simpa [mpn_mul_1] using this

theorem mpn_cmp_eq (a b : Limbs) (h : a.length = b.length) : mpn_cmp a b = compare (val a) (val b) := by
  induction a generalizing b with
  | nil =>
    have : b = [] := by cases b <;> simp_all
    subst this; simp [mpn_cmp]
  | cons x xs ih =>
    cases b with
    | nil => simp at h
    | cons y ys =>
      have hx := limb_lt x
      have hy := limb_lt y
      rw [mpn_cmp, ih ys (by simpa using h)]
      simp only [val_cons]
      rcases Nat.lt_trichotomy (val xs) (val ys) with hlt | heq | hgt
      · have h1 : x.toNat + W * val xs < y.toNat + W * val ys := by
          have := Nat.mul_le_mul_left W (Nat.succ_le_of_lt hlt)
          rw [Nat.mul_succ] at this
          omega
        rw [compare_lt_iff_lt.mpr hlt, compare_lt_iff_lt.mpr h1]; rfl
      · rw [heq, compare_eq_iff_eq.mpr rfl]
        simp only [Ordering.then]
        rcases Nat.lt_trichotomy x.toNat y.toNat with h1 | h1 | h1
        · rw [compare_lt_iff_lt.mpr h1, compare_lt_iff_lt.mpr (by omega)]
        · rw [compare_eq_iff_eq.mpr h1, compare_eq_iff_eq.mpr (by omega)]
        · rw [compare_gt_iff_gt.mpr h1, compare_gt_iff_gt.mpr (by omega)]
      · have h1 : x.toNat + W * val xs > y.toNat + W * val ys := by
          have := Nat.mul_le_mul_left W (Nat.succ_le_of_lt hgt)
          rw [Nat.mul_succ] at this
          omega
        rw [compare_gt_iff_gt.mpr hgt, compare_gt_iff_gt.mpr h1]; rfl

/-- `mpn_cmp(a, b, n) >= 0`. -/
def cmpGe (a b : Limbs) : Bool := mpn_cmp a b != .lt

theorem cmpGe_iff (a b : Limbs) (h : a.length = b.length) : cmpGe a b = true ↔ val b ≤ val a := by
  rw [cmpGe, mpn_cmp_eq a b h]
  simp [compare_lt_iff_lt]

theorem mpn_zero_p_iff (a : Limbs) : mpn_zero_p a = true ↔ val a = 0 := by
  induction a with
  | nil => simp [mpn_zero_p]
  | cons x xs ih =>
    have hW := W_pos
    simp only [mpn_zero_p, List.all_cons, Bool.and_eq_true, val_cons] at ih ⊢
    rw [ih]
    constructor
    · rintro ⟨h1, h2⟩
      have : x = 0 := by simpa using h1
      subst this; simp [h2]
    · intro h
      have h1 : x.toNat = 0 := by omega
      have h2 : W * val xs = 0 := by omega
      rcases Nat.mul_eq_zero.mp h2 with h3 | h3
      · omega
      · exact ⟨by simpa using BitVec.eq_of_toNat_eq (y := 0) (by simpa using h1), h3⟩

/-! ## Bitwise -/

theorem split_testBit (x v j : Nat) (hx : x < W) :
    (x + W * v).testBit j = if j < 64 then x.testBit j else v.testBit (j - 64) := by
  rw [Nat.add_comm, ← W_eq]; exact Nat.testBit_two_pow_mul_add v (W_eq ▸ hx) j

theorem mpn_and_n_val (a b : Limbs) (h : a.length = b.length) :
    val (mpn_and_n a b) = val a &&& val b := by
  induction a generalizing b with
  | nil => simp [mpn_and_n]
  | cons x xs ih =>
    cases b with
    | nil => simp at h
    | cons y ys =>
      have e := ih ys (by simpa using h)
      simp only [mpn_and_n] at e
      simp only [mpn_and_n, List.zipWith_cons_cons, val_cons, e, BitVec.toNat_and]
      apply Nat.eq_of_testBit_eq
      intro j
      rw [split_testBit _ _ _ (W_eq ▸ Nat.and_lt_two_pow _ y.isLt)]
      simp only [Nat.testBit_and, split_testBit _ _ _ (limb_lt x), split_testBit _ _ _ (limb_lt y)]
      split <;> simp

theorem mpn_ior_n_val (a b : Limbs) (h : a.length = b.length) :
    val (mpn_ior_n a b) = val a ||| val b := by
  induction a generalizing b with
  | nil => cases b <;> simp_all [mpn_ior_n]
  | cons x xs ih =>
    cases b with
    | nil => simp at h
    | cons y ys =>
      have e := ih ys (by simpa using h)
      simp only [mpn_ior_n] at e
      simp only [mpn_ior_n, List.zipWith_cons_cons, val_cons, e, BitVec.toNat_or]
      apply Nat.eq_of_testBit_eq
      intro j
      rw [split_testBit _ _ _ (W_eq ▸ Nat.or_lt_two_pow x.isLt y.isLt)]
      simp only [Nat.testBit_or, split_testBit _ _ _ (limb_lt x), split_testBit _ _ _ (limb_lt y)]
      split <;> simp

theorem mpn_xor_n_val (a b : Limbs) (h : a.length = b.length) :
    val (mpn_xor_n a b) = val a ^^^ val b := by
  induction a generalizing b with
  | nil => cases b <;> simp_all [mpn_xor_n]
  | cons x xs ih =>
    cases b with
    | nil => simp at h
    | cons y ys =>
      have e := ih ys (by simpa using h)
      simp only [mpn_xor_n] at e
      simp only [mpn_xor_n, List.zipWith_cons_cons, val_cons, e, BitVec.toNat_xor]
      apply Nat.eq_of_testBit_eq
      intro j
      rw [split_testBit _ _ _ (W_eq ▸ Nat.xor_lt_two_pow x.isLt y.isLt)]
      simp only [Nat.testBit_xor, split_testBit _ _ _ (limb_lt x), split_testBit _ _ _ (limb_lt y)]
      split <;> simp

theorem mpn_com_val (a : Limbs) : val (mpn_com a) = W ^ a.length - 1 - val a := by
  induction a with
  | nil => simp [mpn_com]
  | cons x xs ih =>
    have hx := limb_lt x
    have hv := val_lt xs
    have hW := W_pos
    simp only [mpn_com] at ih
    simp only [mpn_com, List.map_cons, val_cons, ih, BitVec.toNat_not, List.length_cons, W_eq]
    rw [pow_succ]
    have h1 : W * (W ^ xs.length - 1 - val xs) = W * W ^ xs.length - W - W * val xs := by
      rw [Nat.mul_sub, Nat.mul_sub, Nat.mul_one]
    have h2 : W * (val xs + 1) ≤ W * W ^ xs.length := Nat.mul_le_mul_left W hv
    rw [Nat.mul_succ] at h2
    rw [h1, Nat.mul_comm (W ^ xs.length) W]
    omega

@[simp] theorem mpn_and_n_length (a b : Limbs) : (mpn_and_n a b).length = min a.length b.length := by
  simp [mpn_and_n]
@[simp] theorem mpn_ior_n_length (a b : Limbs) : (mpn_ior_n a b).length = min a.length b.length := by
  simp [mpn_ior_n]
@[simp] theorem mpn_xor_n_length (a b : Limbs) : (mpn_xor_n a b).length = min a.length b.length := by
  simp [mpn_xor_n]
@[simp] theorem mpn_com_length (a : Limbs) : (mpn_com a).length = a.length := by
  simp [mpn_com]

/-! ## Shifts -/

@[simp] theorem mpn_lshift_length (a : Limbs) (k c : Nat) : (mpn_lshift a k c).length = a.length := by
  induction a generalizing c with
  | nil => simp [mpn_lshift]
  | cons x xs ih => simp [mpn_lshift, ih]

theorem mpn_lshift_val (a : Limbs) (k c : Nat) :
    val (mpn_lshift a k c) = (val a * 2 ^ k + c) % W ^ a.length := by
  induction a generalizing c with
  | nil => simp [mpn_lshift, Nat.mod_one]
  | cons x xs ih =>
    simp only [mpn_lshift, W_eq, val_cons, toNat_ofNat_W, ih, List.length_cons, W_pow_succ]
    rw [Nat.mul_comm (W ^ xs.length) W, Nat.mod_mul]
    have h1 : (x.toNat + W * val xs) * 2 ^ k + c = (x.toNat * 2 ^ k + c) + W * (val xs * 2 ^ k) := by ring
    rw [h1, Nat.add_mul_mod_self_left, Nat.add_mul_div_left _ _ W_pos]
    congr 2
    rw [Nat.add_comm]

@[simp] theorem mpn_rshift_length (a : Limbs) (k : Nat) : (mpn_rshift a k).length = a.length := by
  induction a with
  | nil => simp [mpn_rshift]
  | cons x xs ih => simp [mpn_rshift, ih]

theorem mpn_rshift_val (a : Limbs) (k : Nat) (hk : k ≤ 64) : val (mpn_rshift a k) = val a / 2 ^ k := by
  have hWk : W = 2 ^ k * 2 ^ (64 - k) := by
    rw [← W_eq, ← pow_add]; congr 1; omega
  have hp : 0 < 2 ^ k := by positivity
  induction a with
  | nil => simp [mpn_rshift]
  | cons x xs ih =>
    simp only [mpn_rshift, W_eq, val_cons, toNat_ofNat_W, ih]
    -- second limb splits the rest
    obtain ⟨h, t, hxs⟩ : ∃ (h : Nat) (t : Nat), h = (xs.headD 0).toNat ∧ val xs = h + W * t := by
      cases xs with
      | nil => exact ⟨0, 0, by simp, by simp⟩
      | cons y ys => exact ⟨y.toNat, val ys, by simp, by simp⟩
    obtain ⟨hh, hv⟩ := hxs
    rw [← hh]
    have e1 : (x.toNat + W * h) / 2 ^ k = x.toNat / 2 ^ k + 2 ^ (64 - k) * h := by
      have : x.toNat + W * h = x.toNat + 2 ^ k * (2 ^ (64 - k) * h) := by rw [hWk]; ring
      rw [this, Nat.add_mul_div_left _ _ hp]
    have e2 : (x.toNat + W * val xs) / 2 ^ k = x.toNat / 2 ^ k + 2 ^ (64 - k) * val xs := by
      have : x.toNat + W * val xs = x.toNat + 2 ^ k * (2 ^ (64 - k) * val xs) := by
        conv_lhs => rw [hWk]
        ring
      rw [this, Nat.add_mul_div_left _ _ hp]
    rw [e1, e2]
    have hx : x.toNat / 2 ^ k < 2 ^ (64 - k) := by
      rw [Nat.div_lt_iff_lt_mul hp, Nat.mul_comm, ← hWk]; exact limb_lt x
    -- (lo + 2^(64-k) * h) % W with h = q*2^k + r
    have d := Nat.div_add_mod (val xs) (2 ^ k)
    have hm : h % 2 ^ k = val xs % 2 ^ k := by
      rw [hv]
      have : W * t = 2 ^ k * (2 ^ (64 - k) * t) := by
        conv_lhs => rw [hWk]
        ring
      rw [this, Nat.add_mul_mod_self_left]
    have dh := Nat.div_add_mod h (2 ^ k)
    have e3 : (x.toNat / 2 ^ k + 2 ^ (64 - k) * h) % W = x.toNat / 2 ^ k + 2 ^ (64 - k) * (val xs % 2 ^ k) := by
      have : x.toNat / 2 ^ k + 2 ^ (64 - k) * h =
          (x.toNat / 2 ^ k + 2 ^ (64 - k) * (h % 2 ^ k)) + W * (h / 2 ^ k) := by
        conv_lhs => rw [← dh]
        conv_rhs => rw [hWk]
        ring
      rw [this, Nat.add_mul_mod_self_left, hm, Nat.mod_eq_of_lt]
      have hr : val xs % 2 ^ k + 1 ≤ 2 ^ k := Nat.mod_lt _ hp
      have := Nat.mul_le_mul_left (2 ^ (64 - k)) hr
      rw [Nat.mul_succ] at this
      rw [hWk, Nat.mul_comm (2 ^ k)]
      omega
    rw [e3]
    have : W * (val xs / 2 ^ k) = 2 ^ (64 - k) * (2 ^ k * (val xs / 2 ^ k)) := by
      conv_lhs => rw [hWk]
      ring
    rw [this]
    conv_rhs => rw [← d]
    ring

end FF
