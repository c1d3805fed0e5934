import Verif.X86Agree
import Verif.ArmClass
import Verif.Props.FrCpp
import Verif.Props.Limb

/-!
# C77: the field class in every build

C21–C23 are about the class `RawFr` linked with the portable raw routines.  Here the raw routines are the portable ones or the printed assembly, run
on a machine that holds the tables of the modulus and the operands (`X86Impl.lean`, `ArmImpl.lean`).  `FRep q l x`: the array `l` has `N64` limbs, is below
`q` and stands for the residue `x` in Montgomery form.
-/

namespace FF.Props

open FF

/-- The raw routines of one of the three builds, for an odd modulus.  x86-64: any number of limbs that fits the machine of
`X86Impl.lean`.  ARM64: the generator refuses more than twelve limbs. -/
inductive Backend (q : Nat) : RawOps → Prop
  | x86 (h : n64 q ≤ 2 ^ 30) : Backend q (X86.ops q)
  | arm (h : n64 q ≤ 12) : Backend q (Arm.ops q)
  | portable : Backend q (RawOps.portable q)

theorem Backend.agree {q : Nat} {K : RawOps} (hK : Backend q K) (hq : q % 2 = 1) (hq1 : 1 < q) :
    RawOps.Agree q K (n64 q ≠ 7) (n64 q + (if canOpt q then 0 else 1) ≠ 7) (n64 q ≠ 7) := by
  cases hK with
  | x86 h =>
    have k := X86.ops_agree hq hq1 h
    exact { k with isEq := fun _ => k.isEq trivial }
  | arm h =>
    have k := Arm.ops_agree hq h
    exact { k with
      mmul1 := fun _ => k.mmul1 trivial
      fromMontgomery := fun _ => k.fromMontgomery trivial }
  | portable =>
    have k := RawOps.portable_agree (q := q)
    exact { k with
      mmul1 := fun _ => k.mmul1 trivial
      isEq := fun _ => k.isEq trivial
      fromMontgomery := fun _ => k.fromMontgomery trivial }

section
variable {q : Nat} {K : RawOps} {m : LMem} {r a b : Nat} {x y : ZMod q} {l l' : Limbs}

/-- C77, ring operations: the class adds, subtracts, multiplies, squares and negates residues. -/
theorem C77_ring (hK : Backend q K) (hq : q % 2 = 1) (hq1 : 1 < q) (h : FRep q l x) (h' : FRep q l' y) :
    FRep q (K.add l l') (x + y) ∧ FRep q (K.sub l l') (x - y) ∧ FRep q (K.mmul l l') (x * y) ∧ FRep q (K.msquare l) (x ^ 2) ∧
    FRep q (K.neg l) (-x) ∧ K.copy l = l := by
  have k := hK.agree hq hq1
  rw [k.add h.1 h'.1, k.sub h.1 h'.1, k.mmul h.1 h'.1 h'.2.1, k.msquare h.1 h.2.1, k.neg h.1, k.copy h.1]
  exact ⟨h.add h', h.sub h', h.mul hq h', by rw [pow_two]; exact h.mul hq h, h.neg, rfl⟩

theorem FRep_mul1 (hq : q % 2 = 1) (h : FRep q l x) (w : BitVec 64) :
    FRep q (rawMMul1 q l w) (x * (w.toNat : ZMod q) * (2 ^ (64 * n64 q) : ZMod q)⁻¹) := by
  obtain ⟨m1, m2, m3⟩ := rawMMul1_spec hq (b := w) h.1 h.2.1
  refine ⟨m1, m2, ?_⟩
  have hu := R_isUnit (q := q) hq
  have e : ((val (rawMMul1 q l w) : ZMod q)) * R q = x * R q * (w.toNat : ZMod q) := by
    have := congrArg (Nat.cast : Nat → ZMod q) m3
    rw [ZMod.natCast_mod, ZMod.natCast_mod] at this
    push_cast at this
    rw [h.2.2] at this
    rw [← this, R, pow_mul]
    congr 2
    rw [← W_eq]; norm_num
  have hR : (R q : ZMod q) = 2 ^ (64 * n64 q) := rfl
  rw [← hR]
  refine hu.mul_right_cancel (e.trans ?_)
  have := ZMod.inv_mul_of_unit _ hu
  linear_combination (-(x * R q * (w.toNat : ZMod q))) * this

/-- C77, product by a word (`mul1`): a Montgomery product, so the residue is `x·w·R⁻¹`.
Missing: seven limbs in the optimised variant of the x86-64 routine and six in the other one, for which it can be wrong
(`C77_mul1_violation`); so the six limbs of BLS12-381 are covered, those of P-384 are not. -/
theorem C77_mul1_partial (hK : Backend q K) (hq : q % 2 = 1) (hq1 : 1 < q) (h67 : n64 q + (if canOpt q then 0 else 1) ≠ 7) (h : FRep q l x) (w : BitVec 64) :
    FRep q (K.mmul1 l w) (x * (w.toNat : ZMod q) * (2 ^ (64 * n64 q) : ZMod q)⁻¹) := by
  rw [(hK.agree hq hq1).mmul1 h67 w h.1 h.2.1]
  exact FRep_mul1 hq h w

/-- The base field of BLS12-381 has six limbs and meets the hypothesis. -/
example : let q := 0x1a0111ea397fe69a4b1ba7b6434bacd764774b84f38512bf6730d2a0f6b0f6241eabfffeb153ffffb9feffffffffaaab
    n64 q = 6 ∧ n64 q + (if canOpt q then 0 else 1) ≠ 7 := by decide +kernel

/-- C77, the tests.  Missing: the equality test for seven limbs, which is wrong on ARM64 (`C77_eq_violation`). -/
theorem C77_tests_partial (hK : Backend q K) (hq : q % 2 = 1) (hq1 : 1 < q) (h : FRep q l x) (h' : FRep q l' y) :
    (n64 q ≠ 7 → (K.isEq l l' ≠ 0 ↔ x = y)) ∧ (K.isZero l ≠ 0 ↔ x = 0) := by
  have k := hK.agree hq hq1
  obtain ⟨t1, t2⟩ := C21_tests hq h h'
  constructor
  · intro h7
    rw [k.isEq h7 h.1 h'.1, ← t1]
    split <;> simp_all
  · rw [k.isZero h.1, ← t2]
    split <;> simp_all

/-- C77, the constants of the constructor. -/
theorem C77_constants (hK : Backend q K) (hq : q % 2 = 1) (hq1 : 1 < q) :
    FRep q (K.zero q) 0 ∧ FRep q (K.one q) 1 ∧ FRep q (K.negOne q) (-1) := by
  have k := hK.agree hq hq1
  rw [k.zero, k.one, k.negOne hq]
  exact C21_constants hq

/-- C77, conversions into the class from a C `int`, an unsigned long and text in any base. -/
theorem C77_from (hK : Backend q K) (hq : Modulus q) (v : BitVec 32) (u : BitVec 64) {radix : Nat} (h2 : 2 ≤ radix) (h36 : radix ≤ 36) (n : Nat) :
    (∃ m', K.set q m r v = some m' ∧ FRep q (m' r) ((v.toInt : ℤ) : ZMod q) ∧ ∀ p, p ≠ r → m' p = m p) ∧
    (∃ m', K.fromUI q m r u = some m' ∧ FRep q (m' r) (u.toNat : ZMod q) ∧ ∀ p, p ≠ r → m' p = m p) ∧
    (∃ m', K.fromString q m r (mpzGetStr radix n) radix = some m' ∧ FRep q (m' r) (n : ZMod q) ∧ ∀ p, p ≠ r → m' p = m p) := by
  have k := hK.agree hq.odd (by have := hq.gt; omega)
  rw [k.set, k.fromUI, k.fromString]
  exact ⟨C21_set hq.odd v (by have := hq.gt; have := short_bounds v; omega), C21_fromUI hq.odd u, C21_fromString hq.odd h2 h36 n⟩

/-- C77, the overloads that take a C `int`, on the left or on the right; whatever the uninitialised local of `set` held. -/
theorem C77_int (hK : Backend q K) (hq : Modulus q) (u : Limbs) (v : BitVec 32) (h : FRep q l x) :
    (∃ c, K.setE q u v = some c ∧ FRep q c (v.toInt : ZMod q)) ∧
    (∃ c, K.addIE q u v l = some c ∧ FRep q c ((v.toInt : ZMod q) + x)) ∧ (∃ c, K.subIE q u v l = some c ∧ FRep q c ((v.toInt : ZMod q) - x)) ∧
    (∃ c, K.mulIE q u v l = some c ∧ FRep q c ((v.toInt : ZMod q) * x)) ∧ (∃ c, K.addEI q u l v = some c ∧ FRep q c (x + (v.toInt : ZMod q))) ∧
    (∃ c, K.subEI q u l v = some c ∧ FRep q c (x - (v.toInt : ZMod q))) ∧ ∃ c, K.mulEI q u l v = some c ∧ FRep q c (x * (v.toInt : ZMod q)) := by
  have hq1 : 1 < q := by have := hq.gt; omega
  obtain ⟨m', h1, h2, -⟩ := (C77_from (m := fun _ => u) (r := 0) hK hq v 0 (le_refl 2) (by norm_num) 0).1
  have hs : K.setE q u v = some (m' 0) := by rw [RawOps.setE, h1, Option.map_some]
  obtain ⟨a1, a2, a3, -⟩ := C77_ring hK hq.odd hq1 h2 h
  obtain ⟨b1, b2, b3, -⟩ := C77_ring hK hq.odd hq1 h h2
  simp only [RawOps.addIE, RawOps.subIE, RawOps.mulIE, RawOps.addEI, RawOps.subEI, RawOps.mulEI, hs, Option.map_some]
  exact ⟨⟨_, rfl, h2⟩, ⟨_, rfl, a1⟩, ⟨_, rfl, a2⟩, ⟨_, rfl, a3⟩, ⟨_, rfl, b1⟩, ⟨_, rfl, b2⟩, ⟨_, rfl, b3⟩⟩

/-- C77, conversions out of the class: the canonical residue, as a number and as text.
Missing: seven limbs, for which the x86-64 routine is wrong (`C77_toMpz_violation`). -/
theorem C77_to_partial (hK : Backend q K) (hq : q % 2 = 1) (hq1 : 1 < q) (h7 : n64 q ≠ 7) (h : FRep q l x) (radix : Nat) :
    K.toMpz l = (x.val : ℤ) ∧ K.toString l radix = mpzGetStr radix x.val := by
  have k := hK.agree hq hq1
  rw [k.toMpz h7 h.1, k.toString h7 h.1]
  exact ⟨RawFr.toMpz_eq hq h, C21_toString hq h radix⟩

/-- C77, inverse and quotient modulo a prime, also in place. -/
theorem C77_div [hp : Fact q.Prime] (hK : Backend q K) (hq : q % 2 = 1) (junk : Int) {t : Nat} (hr : r ≠ t) (hat : a ≠ t)
    (ha : FRep q (m a) x) (hb : FRep q (m b) y) (hy : y ≠ 0) :
    (∃ m', K.inv q junk m r b = some m' ∧ FRep q (m' r) y⁻¹ ∧ ∀ p, p ≠ r → m' p = m p) ∧
    ∃ m', K.div q junk m r a b t = some m' ∧ FRep q (m' r) (x / y) ∧ ∀ p, p ≠ r → m' p = m p := by
  have k := hK.agree hq hp.out.one_lt
  rw [k.inv hp.out.pos, k.div hq junk hat ha hb (isUnit_iff_ne_zero.mpr hy)]
  exact ⟨C21_inv hq junk hb hy, C21_div hq junk hr hat ha hb hy⟩

/-- C77, exponentiation by a little-endian byte string, also in place. -/
theorem C77_exp (hK : Backend q K) (hq : q % 2 = 1) (hq1 : 1 < q) (scalar : List (BitVec 8))
    (hl : scalar.length ≤ 2 ^ 28) (hb : FRep q (m b) x) :
    FRep q (K.exp q m r b scalar r) (x ^ valLE scalar) ∧ ∀ p, p ≠ r → K.exp q m r b scalar p = m p := by
  rw [(hK.agree hq hq1).exp hq scalar hb]
  exact C22_exp hq scalar hl hb

/-- C77, byte strings: a non-zero element written to a buffer of exactly `8·N64` bytes reads back as itself.
Missing: zero and longer buffers (as in C23), seven limbs. -/
theorem C77_bytes_partial (hK : Backend q K) (hq : q % 2 = 1) (hq1 : 1 < q) (h7 : n64 q ≠ 7) (h : FRep q l x) (hx : x ≠ 0) {data : List (BitVec 8)}
    (hd : data.length = n64 q * 8) :
    ∃ d m', K.toRprBE q l data (n64 q * 8) = some ((n64 q * 8 : Int), d) ∧ d.length = n64 q * 8 ∧ valBE d = x.val ∧
      K.fromRprBE q m r d (n64 q * 8) = some ((n64 q * 8 : Int), m') ∧ m' r = l ∧ ∀ p, p ≠ r → m' p = m p := by
  have k := hK.agree hq hq1
  obtain ⟨d, m', h1, h2⟩ := C23_roundtrip_partial (m := m) (r := r) hq h hx hd
  refine ⟨d, m', ?_⟩
  rw [k.toRprBE h7 h.1, k.fromRprBE]
  exact ⟨h1, h2⟩

end

/-! ## The field of C72–C75 -/

/-- C77: the operators with which C72–C75 run the curve code and the Fourier transform are those of either assembly build, so these
theorems are about that build too.  Missing: the equality test for seven limbs on ARM64. -/
theorem C77_field_partial {q : Nat} [hp : Fact q.Prime] [ho : Fact (q % 2 = 1)] {K : RawOps} (hK : Backend q K) (x y : El q) :
    (x + y).v = K.add x.v y.v ∧ (x - y).v = K.sub x.v y.v ∧ (-x).v = K.neg x.v ∧ (x * y).v = K.mmul x.v y.v ∧
    (x * x).v = K.msquare x.v ∧ (0 : El q).v = K.zero q ∧ (1 : El q).v = K.one q ∧ x.v = K.copy x.v ∧
    (n64 q ≠ 7 → (x == y) = decide (K.isEq x.v y.v ≠ 0)) ∧ ((x == 0) = decide (K.isZero x.v ≠ 0)) ∧
    (y ≠ 0 → ∀ (junk : Int) (m : LMem) (r a b t : Nat), r ≠ t → a ≠ t → m a = x.v → m b = y.v →
      (∃ m', K.inv q junk m r b = some m' ∧ m' r = (y⁻¹).v) ∧ ∃ m', K.div q junk m r a b t = some m' ∧ m' r = (x / y).v) := by
  have k := hK.agree ho.out hp.out.one_lt
  obtain ⟨c1, c2, c3, c4, c5, c6, c7, c8⟩ := C72_operations x y
  have c4' := (C72_operations x x).2.2.2.1
  refine ⟨c1.trans (k.add x.len y.len).symm, c2.trans (k.sub x.len y.len).symm, c3.trans (k.neg x.len).symm,
    c4.trans (k.mmul x.len y.len y.lt).symm, c4'.trans (k.msquare x.len x.lt).symm, c5.trans k.zero.symm, c6.trans k.one.symm,
    (k.copy x.len).symm, fun h7 => ?_, ?_, fun hy junk m r a b t hr hat ha hb => ?_⟩
  · rw [c7, k.isEq h7 x.len y.len]
    cases rawIsEq x.v y.v <;> rfl
  · rw [c8, k.isZero x.len]
    cases rawIsZero x.v <;> rfl
  · have hu : IsUnit y.toZ := isUnit_iff_ne_zero.mpr fun h => hy ((map_eq_zero (El.hom q)).mp h)
    rw [k.inv hp.out.pos, k.div ho.out junk hat (ha ▸ x.rep) (hb ▸ y.rep) hu]
    exact C72_division x y hy junk m r a b t hr hat ha hb

/-! ## Where the arrays are

`X86.ops` runs each routine with its operands and its result in disjoint arrays.  The same limbs come out for every other placement the
contract of the routines allows, in place included.  (ARM64: `C76_placement`; `Arm.ops` and `Arm.impl` run the same code on the same machine.) -/

section
open X86

/-- C77: sum, difference and product of two arrays on x86-64. -/
theorem C77_placement {q : Nat} {s : State} (ra : BitVec 64) (hq : q % 2 = 1) (hq1 : 1 < q) (hn : n64 q ≤ 2 ^ 30) :
    let A := rd s.mem (s.reg .rsi) (n64 q)
    let B := rd s.mem (s.reg .rdx) (n64 q)
    (Ready q s → Alias (s.reg .rsi) (s.reg .rdi) (n64 q) → Alias (s.reg .rdx) (s.reg .rdi) (n64 q) →
      (∃ s', X86.run noCalls ra (rawAddLL (n64 q)) s = some s' ∧ Returns (n64 q) s s' ((X86.ops q).add A B)) ∧
      ∃ s', X86.run noCalls ra (rawSubLL (n64 q)) s = some s' ∧ Returns (n64 q) s s' ((X86.ops q).sub A B)) ∧
    (MontReady q s → OffStack q s .rsi → OffStack q s .rdx → val B < q →
      ∃ p s', template (n64 q) (canOpt q) (upperMul (n64 q) (canOpt q)) = some p ∧ X86.run noCalls ra p s = some s' ∧
        MontReturns (n64 q) (frameCells (n64 q) (canOpt q)) s s' ((X86.ops q).mmul A B)) := by
  intro A B
  have k := X86.ops_agree hq hq1 hn
  have la : A.length = n64 q := rd_length ..
  have lb : B.length = n64 q := rd_length ..
  rw [k.add la lb, k.sub la lb]
  refine ⟨fun h ha hb => ⟨?_, ?_⟩, fun h ha hb hv => ?_⟩
  · obtain ⟨s', h1, h2, -⟩ := C54_add ra h ha hb; exact ⟨s', h1, h2⟩
  · obtain ⟨s', h1, h2, -⟩ := C54_sub ra h ha hb; exact ⟨s', h1, h2⟩
  · rw [k.mmul la lb hv]
    exact C55_mul noCalls ra hq h ha hb hv

/-- C77: negation, copy, square and the conversion from Montgomery form of one array on x86-64. -/
theorem C77_placement1 {q : Nat} {s : State} (ra : BitVec 64) (hq : q % 2 = 1) (hq1 : 1 < q) (hn : n64 q ≤ 2 ^ 30) :
    let A := rd s.mem (s.reg .rsi) (n64 q)
    (Alias (s.reg .rsi) (s.reg .rdi) (n64 q) →
      (Ready q s → ∃ s', X86.run noCalls ra (rawNegL (n64 q)) s = some s' ∧ Returns (n64 q) s s' ((X86.ops q).neg A)) ∧
      ∃ s', X86.run noCalls ra (X86.rawCopy (n64 q)) s = some s' ∧ Returns (n64 q) s s' ((X86.ops q).copy A)) ∧
    (MontReady q s → OffStack q s .rsi →
      (val A < q → ∃ p s', template (n64 q) (canOpt q) (upperSquare (n64 q) (canOpt q)) = some p ∧ X86.run noCalls ra p s = some s' ∧
        MontReturns (n64 q) (frameCells (n64 q) (canOpt q)) s s' ((X86.ops q).msquare A)) ∧
      (n64 q ≠ 7 → ∃ p s', template (n64 q) (canOpt q) (upperFrom (n64 q) (canOpt q)) = some p ∧ X86.run noCalls ra p s = some s' ∧
        MontReturns (n64 q) (frameCells (n64 q) (canOpt q)) s s' ((X86.ops q).fromMontgomery A))) := by
  intro A
  have k := X86.ops_agree hq hq1 hn
  have la : A.length = n64 q := rd_length ..
  rw [k.neg la, k.copy la]
  refine ⟨fun ha => ⟨fun h => ?_, ?_⟩, fun h ha => ⟨fun hv => ?_, fun h7 => ?_⟩⟩
  · obtain ⟨s', h1, h2, -⟩ := C54_neg ra h ha; exact ⟨s', h1, h2⟩
  · exact (C54_copy ra (by omega)).1 ha
  · rw [k.msquare la hv]
    exact C55_square noCalls ra hq h ha hv
  · rw [k.fromMontgomery h7 la]
    exact C55_from_partial noCalls ra hq h7 h ha

end

/-! ## Violations -/

/-- C77, violated on ARM64 for every seven-limb modulus: there are different residues the class declares equal. -/
theorem C77_eq_violation {q : Nat} (hq : q % 2 = 1) (hn : n64 q = 7) :
    ∃ (x y : ZMod q) (l l' : Limbs), FRep q l x ∧ FRep q l' y ∧ x ≠ y ∧ (Arm.ops q).isEq l l' ≠ 0 := by
  have h6 := Wn_le_q (q := q) (by omega)
  rw [hn] at h6
  have h1 : 1 < q := lt_of_lt_of_le (by norm_num [W]) h6
  have hw := q_lt_Wn q
  have mk : ∀ v, v < q → FRep q (toLimbs (n64 q) v) ((v : ZMod q) * (R q)⁻¹) := fun v hv =>
    ⟨by simp, by rw [val_toLimbs_of_lt (lt_trans hv hw)]; exact hv, by
      rw [val_toLimbs_of_lt (lt_trans hv hw), mul_assoc, ZMod.inv_mul_of_unit _ (R_isUnit hq), mul_one]⟩
  refine ⟨_, _, _, _, mk 0 (by omega), mk 1 h1, fun e => ?_, ?_⟩
  · have := FRep.inj (mk 0 (by omega)) (e ▸ mk 1 h1)
    have := congrArg val this
    rw [val_toLimbs_of_lt (by omega), val_toLimbs_of_lt (by omega)] at this
    omega
  · rw [Arm.ops_isEq7 hn (by simp) (by simp) (fun i hi => ?_)]
    · decide
    · rw [hn]
      match i, hi with
      | 4, _ => rfl
      | 5, _ => rfl
      | 6, _ => rfl
      | i + 7, _ => simp

theorem call_eval {q : Nat} {code : Option (List X86.Line)} {x y : Limbs} {r2 : BitVec 64} {P : Nat → Bool}
    (h : (code.bind fun p => (X86.runF X86.noCalls 0 (p.length + 1) p (X86.machine q x y (X86.base 5) (X86.base 3) r2)).map
      fun s => P (val (X86.rd s.mem (X86.base 5) (n64 q)))) = some true) :
    P (val (X86.call q (fun _ => X86.noCalls) code id x y r2)) = true := by
  cases code with
  | none => simp at h
  | some p =>
    rw [X86.call]
    simp only [Option.bind_some, id] at h ⊢
    rw [X86.run_eq_runF X86.noCalls 0 (p.length + 1) p _ (by omega)]
    cases hr : X86.runF X86.noCalls 0 (p.length + 1) p (X86.machine q x y (X86.base 5) (X86.base 3) r2) with
    | none => rw [hr] at h; simp at h
    | some s => rw [hr] at h; simpa using h

theorem FRep_of_val {q : Nat} (hq : q % 2 = 1) {l : Limbs} (hl : l.length = n64 q) (hv : val l < q) :
    FRep q l ((val l : ZMod q) * (R q)⁻¹) :=
  ⟨hl, hv, by rw [mul_assoc, ZMod.inv_mul_of_unit _ (R_isUnit hq), mul_one]⟩

theorem from_eq {q n : Nat} {opt : Bool} {l l' : Limbs} (hn : n64 q = n) (ho : canOpt q = opt)
    (e : (X86.ops q).toMpz l = mpzImport l') :
    val (X86.call q (fun _ => X86.noCalls) (X86.template n opt (X86.upperFrom n opt)) id l [] 0) = val l' := by
  subst hn ho
  exact Int.ofNat.inj e

theorem mul1_eq {q n : Nat} {opt : Bool} {l l' : Limbs} {w : BitVec 64} (hn : n64 q = n) (ho : canOpt q = opt)
    (e : (X86.ops q).mmul1 l w = l') :
    val (X86.call q (fun _ => X86.noCalls) (X86.template n opt (X86.upperMul1 n opt)) id l [] w) = val l' := by
  subst hn ho
  exact congrArg val e

/-- C77, violated on x86-64: for the Ed448 prime the class converts an element to a number that is not its residue. -/
theorem C77_toMpz_violation : ∃ (x : ZMod p448) (l : Limbs), FRep p448 l x ∧ (X86.ops p448).toMpz l ≠ (x.val : ℤ) := by
  have hq : p448 % 2 = 1 := by decide +kernel
  have hn : n64 p448 = 7 := by decide +kernel
  have ho : canOpt p448 = false := by decide +kernel
  have hr := FRep_of_val hq (l := toLimbs 7 (p448 - 1)) (by rw [hn]; exact toLimbs_length ..) (by decide +kernel)
  refine ⟨_, _, hr, ?_⟩
  rw [← RawFr.toMpz_eq hq hr]
  have key := call_eval (q := p448) (code := X86.template 7 false (X86.upperFrom 7 false)) (x := toLimbs 7 (p448 - 1)) (y := []) (r2 := 0)
    (P := fun v => decide (v ≠ val (rawFromMontgomery p448 (toLimbs 7 (p448 - 1))))) (by decide +kernel)
  exact fun e => of_decide_eq_true key (from_eq hn ho e)

/-- C77, violated on x86-64: for the P-384 prime the product by a word is not the Montgomery product. -/
theorem C77_mul1_violation : ∃ (x : ZMod p384) (l : Limbs) (w : BitVec 64), FRep p384 l x ∧
    ¬ FRep p384 ((X86.ops p384).mmul1 l w) (x * (w.toNat : ZMod p384) * (2 ^ (64 * n64 p384) : ZMod p384)⁻¹) := by
  have hq : p384 % 2 = 1 := by decide +kernel
  have hn : n64 p384 = 6 := by decide +kernel
  have ho : canOpt p384 = false := by decide +kernel
  have hr := FRep_of_val hq (l := toLimbs 6 (p384 - 3)) (by rw [hn]; exact toLimbs_length ..) (by decide +kernel)
  refine ⟨_, _, -1, hr, fun e => ?_⟩
  have key := call_eval (q := p384) (code := X86.template 6 false (X86.upperMul1 6 false)) (x := toLimbs 6 (p384 - 3)) (y := []) (r2 := -1)
    (P := fun v => decide (v ≠ val (rawMMul1 p384 (toLimbs 6 (p384 - 3)) (-1)))) (by decide +kernel)
  exact of_decide_eq_true key (mul1_eq hn ho (FRep.inj e (FRep_mul1 hq hr (-1))))

/-! ## The hypotheses are met -/

example : Backend bnR (X86.ops bnR) := .x86 (by rw [n64_bnR]; norm_num)
example : Backend bnR (Arm.ops bnR) := .arm (by rw [n64_bnR]; norm_num)
/-- Seven limbs are met on both sides. -/
example : Backend p448 (X86.ops p448) ∧ Backend p448 (Arm.ops p448) ∧ n64 p448 = 7 ∧ p448 % 2 = 1 := by
  have hn : n64 p448 = 7 := by decide +kernel
  exact ⟨.x86 (by rw [hn]; norm_num), .arm (by rw [hn]; norm_num), hn, by decide +kernel⟩
/-- Every residue of the scalar field of BN254 has an array, so the theorems speak about every element of the class. -/
example (x y : ZMod bnR) : ∃ l l', FRep bnR l x ∧ FRep bnR l' y ∧ FRep bnR ((X86.ops bnR).add l l') (x + y) ∧
    FRep bnR ((Arm.ops bnR).add l l') (x + y) := by
  have hq : bnR % 2 = 1 := by decide +kernel
  have h1 : 1 < bnR := by decide +kernel
  obtain ⟨l, h⟩ := FRep_exists hq x
  obtain ⟨l', h'⟩ := FRep_exists hq y
  exact ⟨l, l', h, h', (C77_ring (.x86 (by rw [n64_bnR]; norm_num)) hq h1 h h').1,
    (C77_ring (.arm (by rw [n64_bnR]; norm_num)) hq h1 h h').1⟩

end FF.Props
