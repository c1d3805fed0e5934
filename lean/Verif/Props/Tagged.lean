import Verif.TaggedShift
import Verif.RepDec

/-!
# Properties C06–C17: the tagged field elements

`Rep q e x`: the tagged element `e` stands for the residue `x : ZMod q` (`Spec.lean`).  A store `m` gives the element at every
address; an operation takes the addresses of its result and operands, which may coincide.  `u` is the arbitrary content of
uninitialised locals.
-/

namespace FF.Props

open FF

variable {q : Nat} {m : Mem} {r a b p : Nat} {x y z : ZMod q} {u : Elem}

/-- The result overwrites an operand that is still to be converted to Montgomery form: that operand is not in Montgomery form
and the other one is a long Montgomery element. -/
def ConvClash (m : Mem) (r a b : Nat) : Prop :=
  (r = a ∧ (m a).mont = false ∧ (m b).long = true ∧ (m b).mont = true) ∨
  (r = b ∧ (m b).mont = false ∧ (m a).long = true ∧ (m a).mont = true)

/-- The result overwrites the long normal second operand of a subtraction from a negative short. -/
def NegShortClash (m : Mem) (r a b : Nat) : Prop :=
  r = b ∧ (m a).long = false ∧ (m a).shortVal.toInt < 0 ∧ (m b).long = true ∧ (m b).mont = false

/-- A small store for the examples: addresses 0, 1, 2, 3 hold the given elements, the others zero. -/
def mem4 (e0 e1 e2 e3 : Elem) : Mem := fun p =>
  match p with
  | 0 => e0 | 1 => e1 | 2 => e2 | 3 => e3
  | _ => ⟨0, false, false, []⟩

/-- Sample elements over the BN254 scalar field. -/
def sS (v : BitVec 32) : Elem := ⟨v, false, false, List.replicate 4 0⟩
def sL (k : Nat) : Elem := ⟨0, true, false, toLimbs 4 k⟩
def sM (k : Nat) : Elem := ⟨0, true, true, toLimbs 4 (k * 2 ^ 256 % bnR)⟩
def sX : Mem := mem4 (sS 0) (sS (-5)) (sM 12345678901234567890) (sL (bnR - 3))

/-! ## C06, C07: addition and subtraction -/

/-- C06. -/
theorem C06_add (hq : Modulus q) (ha : Rep q (m a) x) (hb : Rep q (m b) y) (hal : ¬ ConvClash m r a b) :
    Rep q (Fr_add q u m r a b r) (x + y) ∧ ∀ p, p ≠ r → Fr_add q u m r a b p = m p :=
  ⟨Fr_add_rep hq ha hb (fun e h => hal (Or.inl ⟨e, h⟩)) (fun e h => hal (Or.inr ⟨e, h⟩)), fun _ h => Fr_add_other h⟩

/-- C06 with the result stored elsewhere: no side condition. -/
theorem C06_add_distinct (hq : Modulus q) (ha : Rep q (m a) x) (hb : Rep q (m b) y) (h1 : r ≠ a) (h2 : r ≠ b) :
    Rep q (Fr_add q u m r a b r) (x + y) :=
  (C06_add hq ha hb (by rintro (h | h); exact h1 h.1; exact h2 h.1)).1

/-- C07. -/
theorem C07_sub (hq : Modulus q) (ha : Rep q (m a) x) (hb : Rep q (m b) y) (hal : ¬ ConvClash m r a b)
    (hns : ¬ NegShortClash m r a b) :
    Rep q (Fr_sub q u m r a b r) (x - y) ∧ ∀ p, p ≠ r → Fr_sub q u m r a b p = m p :=
  ⟨Fr_sub_rep hq ha hb (fun e h => hal (Or.inl ⟨e, h⟩)) (fun e h => hal (Or.inr ⟨e, h⟩)) (fun e h => hns ⟨e, h⟩),
    fun _ h => Fr_sub_other h⟩

/-- C07 with the result stored elsewhere. -/
theorem C07_sub_distinct (hq : Modulus q) (ha : Rep q (m a) x) (hb : Rep q (m b) y) (h1 : r ≠ a) (h2 : r ≠ b) :
    Rep q (Fr_sub q u m r a b r) (x - y) :=
  (C07_sub hq ha hb (by rintro (h | h); exact h1 h.1; exact h2 h.1) (fun h => h2 h.1)).1

example : Rep bnR (Fr_add bnR (sS 9) sX 0 1 2 0) (((bnR - 5 : Nat) : ZMod bnR) + ((12345678901234567890 : Nat) : ZMod bnR)) :=
  C06_add_distinct bnR_modulus (Rep_iff.mpr (by decide +kernel)) (Rep_iff.mpr (by decide +kernel)) (by decide) (by decide)
example : Rep bnR (Fr_sub bnR (sS 9) sX 0 1 3 0) (((bnR - 5 : Nat) : ZMod bnR) - ((bnR - 3 : Nat) : ZMod bnR)) :=
  C07_sub_distinct bnR_modulus (Rep_iff.mpr (by decide +kernel)) (Rep_iff.mpr (by decide +kernel)) (by decide) (by decide)

/-! ## C08, C09: multiplication, squaring, negation, any aliasing -/

/-- C08. -/
theorem C08_mul (hq : Modulus q) (ha : Rep q (m a) x) (hb : Rep q (m b) y) :
    Rep q (Fr_mul q m r a b r) (x * y) ∧ ∀ p, p ≠ r → Fr_mul q m r a b p = m p :=
  ⟨Fr_mul_rep hq ha hb, fun _ h => Fr_mul_other h⟩

/-- C08, squaring. -/
theorem C08_square (hq : Modulus q) (ha : Rep q (m a) x) :
    Rep q (Fr_square q m r a r) (x * x) ∧ ∀ p, p ≠ r → Fr_square q m r a p = m p :=
  ⟨Fr_square_rep hq ha, fun _ h => Fr_square_other h⟩

/-- C09. -/
theorem C09_neg (hq : Modulus q) (ha : Rep q (m a) x) :
    Rep q (Fr_neg q m r a r) (-x) ∧ ∀ p, p ≠ r → Fr_neg q m r a p = m p :=
  ⟨Fr_neg_rep hq ha, fun _ h => Fr_neg_other h⟩

example : Rep bnR (Fr_mul bnR sX 1 1 3 1) (((bnR - 5 : Nat) : ZMod bnR) * ((bnR - 3 : Nat) : ZMod bnR)) :=
  (C08_mul bnR_modulus (Rep_iff.mpr (by decide +kernel)) (Rep_iff.mpr (by decide +kernel))).1
example : Rep gl (Fr_neg gl (mem4 (sS 0) (sS (BitVec.intMin 32)) (sS 0) (sS 0)) 1 1 1) (-((gl - 2147483648 : Nat) : ZMod gl)) :=
  (C09_neg gl_modulus (Rep_iff.mpr (by decide +kernel))).1

/-! ## C10–C12: predicates -/

/-- C10. -/
theorem C10_eq (hq : Modulus q) (ha : Rep q (m a) x) (hb : Rep q (m b) y) :
    Rep q (Fr_eq q u m r a b r) (if x = y then 1 else 0) ∧ Rep q (Fr_neq q u m r a b r) (if x = y then 0 else 1) ∧
      (∀ p, p ≠ r → Fr_eq q u m r a b p = m p) ∧ ∀ p, p ≠ r → Fr_neq q u m r a b p = m p := by
  refine ⟨?_, ?_, fun _ h => storeBool_other h, fun _ h => storeBool_other h⟩
  · have := storeBool_rep (q := q) (m := m) (r := r) (v := Fr_req q u (m a) (m b))
    rw [Fr_req_iff hq ha hb] at this
    unfold Fr_eq; rw [Fr_req_iff hq ha hb]; simpa [bit] using this
  · have := storeBool_rep (q := q) (m := m) (r := r) (v := !Fr_req q u (m a) (m b))
    rw [Fr_req_iff hq ha hb] at this
    unfold Fr_neq; rw [Fr_req_iff hq ha hb]; by_cases h : x = y <;> simpa [bit, h] using this

/-- C11: the four comparisons order elements by the signed representative `sval` (the one in `(-q/2, q/2]`), hence by one
linear order. -/
theorem C11_order (hq : Modulus q) (ha : Rep q (m a) x) (hb : Rep q (m b) y) :
    Rep q (Fr_lt q u m r a b r) (if sval x < sval y then 1 else 0) ∧
    Rep q (Fr_gt q u m r a b r) (if sval y < sval x then 1 else 0) ∧
    Rep q (Fr_leq q u m r a b r) (if sval x ≤ sval y then 1 else 0) ∧
    Rep q (Fr_geq q u m r a b r) (if sval y ≤ sval x then 1 else 0) := by
  have hl := Fr_rlt_iff (u := u) hq ha hb
  have hg := Fr_rgt_iff (u := u) hq ha hb
  refine ⟨?_, ?_, ?_, ?_⟩
  · have := storeBool_rep (q := q) (m := m) (r := r) (v := decide (sval x < sval y))
    unfold Fr_lt; rw [hl]; simpa [bit] using this
  · have := storeBool_rep (q := q) (m := m) (r := r) (v := decide (sval y < sval x))
    unfold Fr_gt; rw [hg]; simpa [bit] using this
  · have := storeBool_rep (q := q) (m := m) (r := r) (v := !decide (sval y < sval x))
    unfold Fr_leq; rw [hg]; simpa [bit] using this
  · have := storeBool_rep (q := q) (m := m) (r := r) (v := !decide (sval x < sval y))
    unfold Fr_geq; rw [hl]; simpa [bit] using this

/-- C11: `sval` is the representative in `(-q/2, q/2]`, so distinct residues are never tied. -/
theorem C11_sval (hq : Modulus q) (x : ZMod q) :
    ((sval x : ℤ) : ZMod q) = x ∧ -(q : ℤ) < 2 * sval x ∧ 2 * sval x ≤ q := by
  have := hq.ne
  have hlt := ZMod.val_lt x
  have ho := hq.odd
  unfold sval
  split
  · refine ⟨by simp, by omega, by omega⟩
  · refine ⟨by simp, by omega, by omega⟩

theorem C11_sval_inj (hq : Modulus q) : Function.Injective (sval (q := q)) := by
  intro x y h
  rw [← (C11_sval hq x).1, ← (C11_sval hq y).1, h]

/-- C12. -/
theorem C12_isTrue (hq : Modulus q) (ha : Rep q (m a) x) : Fr_isTrue (m a) = decide (x ≠ 0) := Fr_isTrue_iff hq ha

/-- C10–C12: every predicate stores a short, non-Montgomery 0 or 1. -/
theorem C12_short (f : Mem) (h : f ∈ [Fr_land m r a b, Fr_lor m r a b, Fr_lnot m r a, Fr_eq q u m r a b, Fr_neq q u m r a b,
      Fr_lt q u m r a b, Fr_gt q u m r a b, Fr_leq q u m r a b, Fr_geq q u m r a b]) :
    (f r).long = false ∧ (f r).mont = false ∧ ((f r).shortVal = 0 ∨ (f r).shortVal = 1) := by
  have hb : ∀ v, (storeBool m r v r).long = false ∧ (storeBool m r v r).mont = false ∧
      ((storeBool m r v r).shortVal = 0 ∨ (storeBool m r v r).shortVal = 1) := by
    intro v; cases v <;> simp [storeBool, Mem.setShort, Mem.setTy]
  simp only [List.mem_cons, List.not_mem_nil, or_false] at h
  rcases h with rfl | rfl | rfl | rfl | rfl | rfl | rfl | rfl | rfl <;> exact hb _

/-- C12. -/
theorem C12_logical (hq : Modulus q) (ha : Rep q (m a) x) (hb : Rep q (m b) y) :
    Rep q (Fr_land m r a b r) (if x ≠ 0 ∧ y ≠ 0 then 1 else 0) ∧
    Rep q (Fr_lor m r a b r) (if x ≠ 0 ∨ y ≠ 0 then 1 else 0) ∧
    Rep q (Fr_lnot m r a r) (if x = 0 then 1 else 0) ∧
    ∀ p, p ≠ r → Fr_land m r a b p = m p ∧ Fr_lor m r a b p = m p ∧ Fr_lnot m r a p = m p := by
  have h1 := Fr_isTrue_iff hq ha
  have h2 := Fr_isTrue_iff hq hb
  refine ⟨?_, ?_, ?_, fun p h => ⟨storeBool_other h, storeBool_other h, storeBool_other h⟩⟩
  · have := storeBool_rep (q := q) (m := m) (r := r) (v := decide (x ≠ 0) && decide (y ≠ 0))
    unfold Fr_land; rw [isTrueInline_eq, isTrueInline_eq, h1, h2]; simpa [bit] using this
  · have := storeBool_rep (q := q) (m := m) (r := r) (v := decide (x ≠ 0) || decide (y ≠ 0))
    unfold Fr_lor; rw [isTrueInline_eq, isTrueInline_eq, h1, h2]; simpa [bit] using this
  · have := storeBool_rep (q := q) (m := m) (r := r) (v := !decide (x ≠ 0))
    unfold Fr_lnot; rw [lnot_eq, h1]; simpa [bit] using this

example : Rep bnR (Fr_lt bnR (sS 9) sX 1 1 3 1)
    (if sval ((bnR - 5 : Nat) : ZMod bnR) < sval ((bnR - 3 : Nat) : ZMod bnR) then 1 else 0) :=
  (C11_order bnR_modulus (Rep_iff.mpr (by decide +kernel)) (Rep_iff.mpr (by decide +kernel))).1
example : Rep bnR (Fr_eq bnR (sS 9) sX 2 1 2 2)
    (if ((bnR - 5 : Nat) : ZMod bnR) = ((12345678901234567890 : Nat) : ZMod bnR) then 1 else 0) :=
  (C10_eq bnR_modulus (Rep_iff.mpr (by decide +kernel)) (Rep_iff.mpr (by decide +kernel))).1
example : Rep bnR (Fr_lnot sX 2 2 2) (if ((12345678901234567890 : Nat) : ZMod bnR) = 0 then 1 else 0) :=
  (C12_logical (b := 2) (y := ((12345678901234567890 : Nat) : ZMod bnR)) bnR_modulus (Rep_iff.mpr (by decide +kernel)) (Rep_iff.mpr (by decide +kernel))).2.2.1

/-! ## C13: bitwise operations -/

/-- An operand that a bitwise operation reads correctly even when the result overwrites it: long normal, or a non-negative
short whose partner is not a negative short. -/
def BitOverwriteOK (e other : Elem) : Prop :=
  if e.long then e.mont = false else 0 ≤ e.shortVal.toInt ∧ (other.long = true ∨ 0 ≤ other.shortVal.toInt)

/-- C13.  `&`, `|`, `^` of the canonical residues (each below `2^bitLen q`), reduced modulo `q`. -/
theorem C13_and (hq : Modulus q) (ha : Rep q (m a) x) (hb : Rep q (m b) y)
    (h1 : r = a → BitOverwriteOK (m a) (m b)) (h2 : r = b → BitOverwriteOK (m b) (m a)) :
    Rep q (Fr_band q u m r a b r) ((x.val &&& y.val : Nat) : ZMod q) ∧ ∀ p, p ≠ r → Fr_band q u m r a b p = m p :=
  ⟨Fr_bitop_rep hq (F := (· &&& ·)) Nat.and_comm
    (fun h h' => LRep.bitop (rawAnd_val hq.pos) (fun _ hj => Nat.and_lt_two_pow _ hj) h h') and_short ha hb h1 h2,
    fun _ h => Fr_bitop_other h⟩

theorem C13_or (hq : Modulus q) (ha : Rep q (m a) x) (hb : Rep q (m b) y)
    (h1 : r = a → BitOverwriteOK (m a) (m b)) (h2 : r = b → BitOverwriteOK (m b) (m a)) :
    Rep q (Fr_bor q u m r a b r) ((x.val ||| y.val : Nat) : ZMod q) ∧ ∀ p, p ≠ r → Fr_bor q u m r a b p = m p :=
  ⟨Fr_bitop_rep hq (F := (· ||| ·)) Nat.or_comm
    (fun h h' => LRep.bitop (rawOr_val hq.pos) (fun hi hj => Nat.or_lt_two_pow hi hj) h h') or_short ha hb h1 h2,
    fun _ h => Fr_bitop_other h⟩

theorem C13_xor (hq : Modulus q) (ha : Rep q (m a) x) (hb : Rep q (m b) y)
    (h1 : r = a → BitOverwriteOK (m a) (m b)) (h2 : r = b → BitOverwriteOK (m b) (m a)) :
    Rep q (Fr_bxor q u m r a b r) ((x.val ^^^ y.val : Nat) : ZMod q) ∧ ∀ p, p ≠ r → Fr_bxor q u m r a b p = m p :=
  ⟨Fr_bitop_rep hq (F := (· ^^^ ·)) Nat.xor_comm
    (fun h h' => LRep.bitop (rawXor_val hq.pos) (fun hi hj => Nat.xor_lt_two_pow hi hj) h h') xor_short ha hb h1 h2,
    fun _ h => Fr_bitop_other h⟩

/-- C13.  Complement within `bitLen q` bits. -/
theorem C13_not (hq : Modulus q) (ha : Rep q (m a) x) (h1 : r = a → (m a).long = true ∧ (m a).mont = false) :
    Rep q (Fr_bnot q u m r a r) ((2 ^ bitLen q - 1 - x.val : Nat) : ZMod q) ∧ ∀ p, p ≠ r → Fr_bnot q u m r a p = m p :=
  ⟨Fr_bnot_rep hq ha h1, fun _ h => Fr_bnot_other h⟩

example : Rep bnR (Fr_bxor bnR (sS 9) sX 0 1 2 0)
    ((((bnR - 5 : Nat) : ZMod bnR).val ^^^ ((12345678901234567890 : Nat) : ZMod bnR).val : Nat) : ZMod bnR) :=
  (C13_xor bnR_modulus (Rep_iff.mpr (by decide +kernel)) (Rep_iff.mpr (by decide +kernel)) (fun h => by cases h) (fun h => by cases h)).1
example : Rep bnR (Fr_bnot bnR (sS 9) sX 0 2 0) ((2 ^ bitLen bnR - 1 - ((12345678901234567890 : Nat) : ZMod bnR).val : Nat) : ZMod bnR) :=
  (C13_not bnR_modulus (Rep_iff.mpr (by decide +kernel)) (by decide)).1

/-! ## C14: shifts -/

/-- C14, left.  The only excluded case (undefined behaviour: overlapping copy) is an in-place shift of a long normal element by
64 bits or more. -/
theorem C14_shl (hq : Modulus q) (ha : Rep q (m a) x) (hb : Rep q (m b) y)
    (hal : r = a → (m a).long = true → (m a).mont = false → y.val < bitLen q → y.val < 64) :
    ∃ m', Fr_shl q u m r a b = some m' ∧ Rep q (m' r) (shlSpec x y) ∧ ∀ p, p ≠ r → m' p = m p :=
  Fr_shl_rep hq ha hb hal

/-- C14, right. -/
theorem C14_shr (hq : Modulus q) (ha : Rep q (m a) x) (hb : Rep q (m b) y)
    (hal : r = a → (m a).long = true → (m a).mont = false → q - y.val < bitLen q → q - y.val < 64) :
    ∃ m', Fr_shr q u m r a b = some m' ∧ Rep q (m' r) (shrSpec x y) ∧ ∀ p, p ≠ r → m' p = m p :=
  Fr_shr_rep hq ha hb hal

example : ∃ m', Fr_shl bnR (sS 9) sX 0 2 1 = some m' ∧
    Rep bnR (m' 0) (shlSpec ((12345678901234567890 : Nat) : ZMod bnR) ((bnR - 5 : Nat) : ZMod bnR)) ∧ ∀ p, p ≠ 0 → m' p = sX p :=
  C14_shl bnR_modulus (Rep_iff.mpr (by decide +kernel)) (Rep_iff.mpr (by decide +kernel)) (by decide)

/-! ## C15: in-place calls -/

/-- C15, the positive part for addition and subtraction (a `_partial`: the clashes below are real failures of the code). -/
theorem C15_add_sub_partial (hq : Modulus q) (ha : Rep q (m a) x) (hb : Rep q (m b) y) (hal : ¬ ConvClash m r a b)
    (hns : ¬ NegShortClash m r a b) (r' : Nat) (h1 : r' ≠ a) (h2 : r' ≠ b) :
    (∀ z, Rep q (Fr_add q u m r a b r) z ↔ Rep q (Fr_add q u m r' a b r') z) ∧
    (∀ z, Rep q (Fr_sub q u m r a b r) z ↔ Rep q (Fr_sub q u m r' a b r') z) := by
  have k1 := (C06_add (u := u) hq ha hb hal).1
  have k2 := C06_add_distinct (u := u) hq ha hb h1 h2
  have k3 := (C07_sub (u := u) hq ha hb hal hns).1
  have k4 := C07_sub_distinct (u := u) hq ha hb h1 h2
  refine ⟨fun z => ⟨fun h => ?_, fun h => ?_⟩, fun z => ⟨fun h => ?_, fun h => ?_⟩⟩
  · rw [← Rep.unique hq k1 h]; exact k2
  · rw [← Rep.unique hq k2 h]; exact k1
  · rw [← Rep.unique hq k3 h]; exact k4
  · rw [← Rep.unique hq k4 h]; exact k3

/-- C15 for multiplication, squaring and negation: every aliasing. -/
theorem C15_mul (hq : Modulus q) (ha : Rep q (m a) x) (hb : Rep q (m b) y) (r r' : Nat) :
    (∀ z, Rep q (Fr_mul q m r a b r) z ↔ Rep q (Fr_mul q m r' a b r') z) ∧
    (∀ z, Rep q (Fr_square q m r a r) z ↔ Rep q (Fr_square q m r' a r') z) ∧
    (∀ z, Rep q (Fr_neg q m r a r) z ↔ Rep q (Fr_neg q m r' a r') z) := by
  refine ⟨fun z => ⟨fun h => ?_, fun h => ?_⟩, fun z => ⟨fun h => ?_, fun h => ?_⟩, fun z => ⟨fun h => ?_, fun h => ?_⟩⟩
  · rw [← Rep.unique hq (C08_mul hq ha hb).1 h]; exact (C08_mul hq ha hb).1
  · rw [← Rep.unique hq (C08_mul hq ha hb).1 h]; exact (C08_mul hq ha hb).1
  · rw [← Rep.unique hq (C08_square hq ha).1 h]; exact (C08_square hq ha).1
  · rw [← Rep.unique hq (C08_square hq ha).1 h]; exact (C08_square hq ha).1
  · rw [← Rep.unique hq (C09_neg hq ha).1 h]; exact (C09_neg hq ha).1
  · rw [← Rep.unique hq (C09_neg hq ha).1 h]; exact (C09_neg hq ha).1

/-- C15 fails for `Fr_add(a, a, b)` with `a` long normal and `b` long Montgomery: `1 + 1` in place is not `2`. -/
theorem C15_add_violated :
    let m := mem4 (sL 1) (sM 1) (sS 0) (sS 0)
    Rep bnR (m 0) ((1 : Nat) : ZMod bnR) ∧ Rep bnR (m 1) ((1 : Nat) : ZMod bnR) ∧
      ¬ Rep bnR (Fr_add bnR (sS 0) m 0 0 1 0) ((2 : Nat) : ZMod bnR) := by
  simp only [Rep_iff]; decide +kernel

/-- C15 fails for `Fr_sub(b, a, b)` with `a` a negative short and `b` long normal: `-1 - 1` in place is not `-2`. -/
theorem C15_sub_violated :
    let m := mem4 (sS (-1)) (sL 1) (sS 0) (sS 0)
    Rep bnR (m 0) ((bnR - 1 : Nat) : ZMod bnR) ∧ Rep bnR (m 1) ((1 : Nat) : ZMod bnR) ∧
      ¬ Rep bnR (Fr_sub bnR (sS 0) m 1 0 1 1) ((bnR - 2 : Nat) : ZMod bnR) := by
  simp only [Rep_iff]; decide +kernel

/-- C15 fails for `Fr_bor(a, a, b)` with `a` a negative short: the stale long part is used instead of its value. -/
theorem C15_bor_violated :
    let m := mem4 (sS (-1)) (sL 1) (sS 0) (sS 0)
    Rep bnR (m 0) ((bnR - 1 : Nat) : ZMod bnR) ∧ Rep bnR (m 1) ((1 : Nat) : ZMod bnR) ∧
      Rep bnR (Fr_bor bnR (sS 0) m 2 0 1 2) (((bnR - 1) ||| 1 : Nat) : ZMod bnR) ∧
      ¬ Rep bnR (Fr_bor bnR (sS 0) m 0 0 1 0) (((bnR - 1) ||| 1 : Nat) : ZMod bnR) := by
  simp only [Rep_iff]; decide +kernel

/-- C15 fails for `Fr_bnot(a, a)` with `a` short. -/
theorem C15_bnot_violated :
    let m := mem4 (sS 1) (sL 1) (sS 0) (sS 0)
    Rep bnR (m 0) ((1 : Nat) : ZMod bnR) ∧
      ¬ Rep bnR (Fr_bnot bnR (sS 0) m 0 0 0) ((2 ^ 254 - 1 - 1 : Nat) : ZMod bnR) ∧
      Rep bnR (Fr_bnot bnR (sS 0) m 2 0 2) ((2 ^ 254 - 1 - 1 : Nat) : ZMod bnR) := by
  simp only [Rep_iff]; decide +kernel

/-- C15: `Fr_shl(a, a, b)` with a long normal `a` and a shift of 64 is undefined behaviour. -/
theorem C15_shl_violated : Fr_shl bnR (sS 0) (mem4 (sL 1) (sS 64) (sS 0) (sS 0)) 0 0 1 = none := by
  rfl

/-! ## C16: representation conversions -/

/-- C16, `Fr_toNormal`: same residue, and the result is not a long Montgomery element. -/
theorem C16_toNormal (hq : Modulus q) (ha : Rep q (m a) x) :
    Rep q (Fr_toNormal q m r a r) x ∧ ¬ ((Fr_toNormal q m r a r).long = true ∧ (Fr_toNormal q m r a r).mont = true) ∧
      ∀ p, p ≠ r → Fr_toNormal q m r a p = m p := by
  rw [Fr_toNormal_eq]
  refine ⟨?_, ?_, fun p h => set_other _ _ h⟩
  · rw [set_same]
    by_cases h : ((m a).long && (m a).mont) = true
    · have h' : (m a).long = true ∧ (m a).mont = true := by simpa using h
      have := toNormalInto_rep hq (m r) ha h'.1
      exact Rep.long (by simp [toNormalInto, h]) (by simp [toNormalInto, h]) this
    · simpa [toNormalInto, h] using ha
  · rw [set_same]
    by_cases h : ((m a).long && (m a).mont) = true
    · simp [toNormalInto, h]
    · simp only [toNormalInto, h, Bool.false_eq_true, if_false]; simpa using h

/-- C16, `Fr_toLongNormal`: same residue, long normal. -/
theorem C16_toLongNormal (hq : Modulus q) (ha : Rep q (m a) x) :
    Rep q (Fr_toLongNormal q m r a r) x ∧ (Fr_toLongNormal q m r a r).long = true ∧ (Fr_toLongNormal q m r a r).mont = false ∧
      ∀ p, p ≠ r → Fr_toLongNormal q m r a p = m p := by
  have t : (toLongNormalInto q (m r) (m a)).long = true ∧ (toLongNormalInto q (m r) (m a)).mont = false := by
    unfold toLongNormalInto
    cases h1 : (m a).long <;> cases h2 : (m a).mont <;> simp [h1, h2]
  rw [Fr_toLongNormal_eq]
  refine ⟨?_, ?_, ?_, fun p h => set_other _ _ h⟩
  · rw [set_same]; exact Rep.long t.1 t.2 (toLongNormalInto_rep hq _ ha)
  · rw [set_same]; exact t.1
  · rw [set_same]; exact t.2

/-- C16, `Fr_toMontgomery`: the result is in Montgomery form and denotes the same residue, provided the operand is not a plain
short converted into another element whose short value differs (the code does not copy it: `C16_toMontgomery_violated`). -/
theorem C16_toMontgomery_partial (hq : Modulus q) (ha : Rep q (m a) x)
    (hs : (m a).long = false → (m a).mont = false → (m r).shortVal = (m a).shortVal) :
    Rep q (Fr_toMontgomery q m r a r) x ∧ (Fr_toMontgomery q m r a r).mont = true ∧
      ∀ p, p ≠ r → Fr_toMontgomery q m r a p = m p := by
  have hL := toMontgomeryInto_rep hq (m r) ha
  have t : (toMontgomeryInto q (m r) (m a)).mont = true ∧ (toMontgomeryInto q (m r) (m a)).long = (m a).long ∧
      (toMontgomeryInto q (m r) (m a)).shortVal = (m a).shortVal := by
    unfold toMontgomeryInto
    cases h2 : (m a).mont <;> cases h1 : (m a).long
    · have := hs h1 h2
      by_cases h3 : (m a).shortVal.toInt < 0 <;> simp [h3, this]
    · simp
    · simp [h1, h2]
    · simp [h1, h2]
  rw [Fr_toMontgomery_eq]
  refine ⟨?_, by rw [set_same]; exact t.1, fun p h => set_other _ _ h⟩
  rw [set_same]
  cases h1 : (m a).long
  · simp only [Rep, t.1, t.2.1, h1]
    exact ⟨by rw [t.2.2]; exact ha.getShort h1, hL⟩
  · exact Rep.longMont (by rw [t.2.1, h1]) t.1 hL

/-- C16, `Fr_toMontgomery` in place: unconditional. -/
theorem C16_toMontgomery_inplace (hq : Modulus q) (ha : Rep q (m a) x) :
    Rep q (Fr_toMontgomery q m a a a) x ∧ (Fr_toMontgomery q m a a a).mont = true :=
  ⟨(C16_toMontgomery_partial hq ha (fun _ _ => rfl)).1, (C16_toMontgomery_partial hq ha (fun _ _ => rfl)).2.1⟩

/-- C16 fails for `Fr_toMontgomery(r, a)` with a plain short `a` and `r ≠ a`: the result keeps the old short value, so it no
longer denotes `7` (it is tagged `SHORTMONTGOMERY`, whose short value is what comparisons and additions read). -/
theorem C16_toMontgomery_violated :
    let m := mem4 (sS 1) (sS 7) (sS 0) (sS 0)
    Rep bnR (m 1) ((7 : Nat) : ZMod bnR) ∧ ¬ Rep bnR (Fr_toMontgomery bnR m 0 1 0) ((7 : Nat) : ZMod bnR) ∧
      Fr_req bnR (sS 0) (Fr_toMontgomery bnR m 0 1 0) (m 1) = false := by
  simp only [Rep_iff]; decide +kernel

example : Rep bnR (Fr_toNormal bnR sX 2 2 2) ((12345678901234567890 : Nat) : ZMod bnR) :=
  (C16_toNormal bnR_modulus (Rep_iff.mpr (by decide +kernel))).1
example : Rep bnR (Fr_toLongNormal bnR sX 0 1 0) ((bnR - 5 : Nat) : ZMod bnR) :=
  (C16_toLongNormal bnR_modulus (Rep_iff.mpr (by decide +kernel))).1

/-! ## C17: conversion to a machine integer -/

theorem toInt_long (hq : Modulus q) {e : Elem} (he : Rep q e x) (hl : e.long = true) :
    Fr_toInt q u e =
      if x.val < 2147483648 then some (BitVec.ofNat 32 x.val)
      else if 0 < (q - x.val) % 2 ^ 64 ∧ (q - x.val) % 2 ^ 64 ≤ 2147483648 then
        some (-(BitVec.ofNat 32 ((q - x.val) % 2 ^ 64)))
      else none := by
  unfold Fr_toInt
  rw [if_pos hl]
  split
  · exact Fr_longNormal_exact (toNormalInto_rep hq u he hl)
  · rename_i h
    exact Fr_longNormal_exact (he.getLong hl (by simpa using h))

/-- C17, what holds for every modulus: a value whose signed representative fits `int32_t` is returned exactly. -/
theorem C17_toInt_fits_partial (hq : Modulus q) {e : Elem} (he : Rep q e x) (h1 : -2147483648 ≤ sval x)
    (h2 : sval x ≤ 2147483647) : ∃ v, Fr_toInt q u e = some v ∧ v.toInt = sval x := by
  cases hl : e.long
  · refine ⟨e.shortVal, by simp [Fr_toInt, hl], ?_⟩
    rw [← he.getShort hl, short_sval hq]
  · have hg := hq.gt
    have := hq.ne
    have hlt := ZMod.val_lt x
    rw [toInt_long hq he hl]
    unfold sval at *
    by_cases hc : x.val ≤ q / 2
    · rw [if_pos hc] at *
      rw [if_pos (by omega)]
      refine ⟨_, rfl, ?_⟩
      rw [BitVec.toInt_eq_toNat_cond, BitVec.toNat_ofNat]; split <;> omega
    · rw [if_neg hc] at *
      have e1 : (q - x.val) % 2 ^ 64 = q - x.val := Nat.mod_eq_of_lt (by omega)
      rw [if_neg (by omega), e1, if_pos (by omega)]
      refine ⟨_, rfl, ?_⟩
      rw [BitVec.toInt_eq_toNat_cond, BitVec.toNat_neg, BitVec.toNat_ofNat]; split <;> omega

/-- C17 in full for one-limb moduli: whatever is returned is the signed representative. -/
theorem C17_toInt_one_limb (hq : Modulus q) (h64 : q < 2 ^ 64) {e : Elem} (he : Rep q e x) :
    Fr_toInt q u e = if -2147483648 ≤ sval x ∧ sval x ≤ 2147483647 then some (BitVec.ofInt 32 (sval x)) else none := by
  by_cases hf : -2147483648 ≤ sval x ∧ sval x ≤ 2147483647
  · obtain ⟨v, e1, e2⟩ := C17_toInt_fits_partial (u := u) hq he hf.1 hf.2
    rw [if_pos hf, e1, ← e2, BitVec.ofInt_toInt]
  · rw [if_neg hf]
    have hg := hq.gt
    have := hq.ne
    have hlt := ZMod.val_lt x
    cases hl : e.long
    · exfalso
      rw [← he.getShort hl, short_sval hq] at hf
      have := short_bounds e.shortVal
      omega
    · rw [toInt_long hq he hl]
      unfold sval at hf
      have e1 : (q - x.val) % 2 ^ 64 = q - x.val := Nat.mod_eq_of_lt (by omega)
      rw [if_neg (by split at hf <;> omega), e1, if_neg (by split at hf <;> omega)]

/-- C17 fails for moduli of more than one limb: an element far outside `int32_t` (its residue is `q - 2^64 - 1`) is returned as `-1`. -/
theorem C17_toInt_violated :
    Rep bnR (sL (bnR - 2 ^ 64 - 1)) ((bnR - 2 ^ 64 - 1 : Nat) : ZMod bnR) ∧ Fr_toInt bnR (sS 0) (sL (bnR - 2 ^ 64 - 1)) = some (-1) := by
  simp only [Rep_iff]; decide +kernel

example : ∃ v, Fr_toInt bnR (sS 0) (sL (bnR - 3)) = some v ∧ v.toInt = sval ((bnR - 3 : Nat) : ZMod bnR) := by
  have : NeZero bnR := ⟨by decide +kernel⟩
  have hv : sval ((bnR - 3 : Nat) : ZMod bnR) = -3 := by
    unfold sval; rw [ZMod.val_natCast]; decide +kernel
  exact C17_toInt_fits_partial bnR_modulus (Rep_iff.mpr (by decide +kernel)) (by rw [hv]; decide) (by rw [hv]; decide)

end FF.Props
