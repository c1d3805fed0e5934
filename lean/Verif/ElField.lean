import Verif.RawFr
import Mathlib.Algebra.Field.TransferInstance
import Mathlib.Algebra.Field.Basic

/-!
# The class field as the field of a template

`RawFr::Element` holds `N64` limbs.  Here are those of them that the class produces, the arrays of a number below `q`, with the
operations of the class on them: `+` is `RawFr::add`, `*` is `RawFr::mul`, and so on.  They form a field, isomorphic to the integers
modulo `q`, so the templates (towers, curve, multi-exponentiation, FFT), which are modelled over any field, are with this field
the code running on limb arrays.
-/

namespace FF

/-- An array of `N64` limbs below `q`: a `RawFr::Element` (`fr.hpp.ejs:196-199`) as every method of the class leaves it. -/
structure El (q : Nat) where
  v : Limbs
  len : v.length = n64 q
  lt : val v < q
deriving DecidableEq

namespace El

variable {q : Nat} [hp : Fact q.Prime] [ho : Fact (q % 2 = 1)]

omit hp ho in
theorem ext {x y : El q} (h : x.v = y.v) : x = y := by cases x; cases y; cases h; rfl

/-- A valid array from the representation of a residue. -/
def mk' {l : Limbs} {x : ZMod q} (h : FRep q l x) : El q := ⟨l, h.1, h.2.1⟩

/-- The residue an element stands for: its number times the inverse of the Montgomery constant `2^(64·N64)`. -/
def toZ (x : El q) : ZMod q := (val x.v : ZMod q) * (R q)⁻¹

theorem rep (x : El q) : FRep q x.v x.toZ := by
  refine ⟨x.len, x.lt, ?_⟩
  have hu := R_isUnit (q := q) ho.out
  rw [toZ, mul_assoc, ZMod.inv_mul_of_unit _ hu, mul_one]

theorem toZ_of {x : El q} {z : ZMod q} (h : FRep q x.v z) : x.toZ = z := x.rep.unique ho.out h
theorem toZ_inj : Function.Injective (toZ (q := q)) := fun x y h => ext (x.rep.inj (h ▸ y.rep))

/-- The element of a residue. -/
def ofZ (z : ZMod q) : El q := ⟨rawToMontgomery q (toLimbs (n64 q) z.val), by
    have := FRep.toMont (q := q) ho.out (l := toLimbs (n64 q) z.val) (by simp); exact this.1, by
    have := FRep.toMont (q := q) ho.out (l := toLimbs (n64 q) z.val) (by simp); exact this.2.1⟩

@[simp] theorem toZ_ofZ (z : ZMod q) : (ofZ z).toZ = z := by
  apply toZ_of
  have hq := ho.out
  have : NeZero q := ⟨by omega⟩
  have := FRep.toMont hq (l := toLimbs (n64 q) z.val) (by simp)
  rwa [val_toLimbs_of_lt (lt_trans (ZMod.val_lt z) (q_lt_Wn q)), ZMod.natCast_zmod_val] at this

/-! ## The operations of the class -/

/-- `fZero`, `fOne`: `fr.cpp.ejs:174-179`. -/
instance : Zero (El q) := ⟨mk' (RawFr.zero_rep ho.out)⟩
instance : One (El q) := ⟨mk' (RawFr.one_rep ho.out)⟩
/-- `add`, `sub`, `neg`, `mul`: `fr.hpp.ejs:218-246`. -/
instance : Add (El q) := ⟨fun x y => ⟨rawAdd q x.v y.v, (x.rep.add y.rep).1, (x.rep.add y.rep).2.1⟩⟩
instance : Sub (El q) := ⟨fun x y => ⟨rawSub q x.v y.v, (x.rep.sub y.rep).1, (x.rep.sub y.rep).2.1⟩⟩
instance : Neg (El q) := ⟨fun x => ⟨rawNeg q x.v, x.rep.neg.1, x.rep.neg.2.1⟩⟩
instance : Mul (El q) := ⟨fun x y => ⟨rawMMul q x.v y.v, (x.rep.mul ho.out y.rep).1, (x.rep.mul ho.out y.rep).2.1⟩⟩

/-- The array `RawFr::inv` leaves (`fr.cpp.ejs:239-251`); for zero GMP leaves the inverse unspecified, here it is taken to be 0. -/
def invArr (x : El q) : Limbs := ((RawFr.inv q 0 (fun _ => x.v) 0 0).map fun m => m 0).getD []
/-- The array `RawFr::div` leaves (`fr.cpp.ejs:253-257`). -/
def divArr (x y : El q) : Limbs :=
  ((RawFr.div q 0 (fun p => if p = 0 then x.v else y.v) 2 0 1 3).map fun m => m 2).getD []

/-- With the unspecified inverse of zero taken to be 0, `inv` is the inverse of the field for all operands. -/
theorem inv_all {m : LMem} {r a : Nat} {x : ZMod q} (h : FRep q (m a) x) :
    ∃ m', RawFr.inv q 0 m r a = some m' ∧ FRep q (m' r) x⁻¹ ∧ ∀ p, p ≠ r → m' p = m p := by
  by_cases hx : x = 0
  · subst hx
    have h0 : val (m a) = 0 := by
      have h : LRep q (m a) 0 := LRep.congr h (zero_mul _)
      rw [h.val_eq]; simp
    have hg : mpzInvert (mpzImport (m a)) q 0 = 0 := by
      rw [mpzImport, h0]
      have := hp.out.one_lt
      simp only [mpzInvert, Nat.cast_zero, Int.gcd_zero_left, Int.natAbs_natCast]
      rw [if_neg (by omega)]
    rw [RawFr.inv]
    simp only [hg]
    rw [exportLimbs_eq (by simp [pow_pos W_pos])]
    refine ⟨_, rfl, ?_, ?_⟩
    · beta_reduce
      rw [rawMMulCM_eq, LMem.set_set, LMem.set_same, LMem.set_same, inv_zero]
      refine LRep.mmul ho.out (by simp) (LRep.R3 hp.out.pos) ?_
      rw [Int.natAbs_zero, val_toLimbs_of_lt (pow_pos W_pos _)]; simp
    · intro p hp'
      beta_reduce
      rw [rawMMulCM_eq, LMem.set_set, LMem.set_other _ _ hp']
  · exact RawFr.inv_rep ho.out 0 h (isUnit_iff_ne_zero.mpr hx)

theorem invArr_rep (x : El q) : FRep q x.invArr x.toZ⁻¹ := by
  obtain ⟨m', h1, h2, -⟩ := inv_all (m := fun _ => x.v) (r := 0) (a := 0) x.rep
  rw [invArr, h1]; exact h2

theorem divArr_rep (x y : El q) : FRep q (divArr x y) (x.toZ / y.toZ) := by
  obtain ⟨m1, h1, h2, h3⟩ := inv_all (m := fun p => if p = 0 then x.v else y.v) (r := 3) (a := 1) (by simpa using y.rep)
  rw [divArr, RawFr.div, h1]
  simp only [Option.map_some, Option.getD_some]
  rw [LMem.set_other _ _ (by norm_num), rawMMulM_eq, LMem.set_same, h3 0 (by norm_num), div_eq_mul_inv]
  exact FRep.mul ho.out (by simpa using x.rep) h2

instance : Inv (El q) := ⟨fun x => ⟨x.invArr, x.invArr_rep.1, x.invArr_rep.2.1⟩⟩
instance : Div (El q) := ⟨fun x y => ⟨divArr x y, (divArr_rep x y).1, (divArr_rep x y).2.1⟩⟩

/-! Operations of Lean's class of fields that the code does not use. -/
instance : NatCast (El q) := ⟨fun n => ofZ n⟩
instance : IntCast (El q) := ⟨fun n => ofZ n⟩
instance : NNRatCast (El q) := ⟨fun n => ofZ n⟩
instance : RatCast (El q) := ⟨fun n => ofZ n⟩
instance : SMul ℕ (El q) := ⟨fun n x => ofZ (n • x.toZ)⟩
instance : SMul ℤ (El q) := ⟨fun n x => ofZ (n • x.toZ)⟩
instance : SMul ℚ≥0 (El q) := ⟨fun n x => ofZ (n • x.toZ)⟩
instance : SMul ℚ (El q) := ⟨fun n x => ofZ (n • x.toZ)⟩
instance : Pow (El q) ℕ := ⟨fun x n => ofZ (x.toZ ^ n)⟩
instance : Pow (El q) ℤ := ⟨fun x n => ofZ (x.toZ ^ n)⟩

/-- The arrays with the operations of the class are a field. -/
instance : Field (El q) := toZ_inj.field toZ
  (toZ_of (RawFr.zero_rep ho.out)) (toZ_of (RawFr.one_rep ho.out))
  (fun x y => toZ_of (x.rep.add y.rep)) (fun x y => toZ_of (x.rep.mul ho.out y.rep))
  (fun x => toZ_of x.rep.neg) (fun x y => toZ_of (x.rep.sub y.rep))
  (fun x => toZ_of x.invArr_rep) (fun x y => toZ_of (divArr_rep x y))
  (fun _ _ => toZ_ofZ _) (fun _ _ => toZ_ofZ _) (fun _ _ => toZ_ofZ _) (fun _ _ => toZ_ofZ _)
  (fun _ _ => toZ_ofZ _) (fun _ _ => toZ_ofZ _)
  (fun _ => toZ_ofZ _) (fun _ => toZ_ofZ _) (fun _ => toZ_ofZ _) (fun _ => toZ_ofZ _)

/-- Reading the residue is an isomorphism. -/
def hom (q : Nat) [Fact q.Prime] [ho : Fact (q % 2 = 1)] : El q →+* ZMod q where
  toFun := toZ
  map_zero' := toZ_of (RawFr.zero_rep ho.out)
  map_one' := toZ_of (RawFr.one_rep ho.out)
  map_add' x y := toZ_of (x.rep.add y.rep)
  map_mul' x y := toZ_of (x.rep.mul ho.out y.rep)

theorem hom_ofZ (z : ZMod q) : hom q (ofZ z) = z := toZ_ofZ z
theorem hom_bijective : Function.Bijective (hom q) := ⟨toZ_inj, fun z => ⟨ofZ z, toZ_ofZ z⟩⟩

end El
end FF
