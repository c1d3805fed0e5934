import Verif.ArmImpl
import Verif.RawClass
import Verif.Props.Arm

/-!
# The raw routines the class `RawFr` calls on ARM64
-/

namespace FF.Arm

open FF FF.Props
open FF.X86 (cell rd rd_length)

/-- The ARM64 routines called by the class `RawFr`, `fr.hpp.ejs:63-122`; `rawMSquare` and `rawToMontgomery` are C++ functions around `rawMMul`
(`fr_raw_generic.cpp.ejs:155-158`, `200-203`). -/
def ops (q : Nat) : RawOps where
  add := (impl q).add
  sub := (impl q).sub
  neg := (impl q).neg
  mmul := (impl q).mmul
  msquare a := (impl q).mmul a a
  mmul1 := (impl q).mmul1
  toMontgomery a := (impl q).mmul a (rawR2 q)
  fromMontgomery := (impl q).fromMontgomery
  copy := (impl q).copy
  isEq a b := answer q (rawIsEq (n64 q)) a b 256 384
  isZero a := answer q (rawIsZero (n64 q)) a [] 256 0

theorem answer_of {q : Nat} {code : List Line} {x y : Limbs} {r0 r1 : BitVec 64} {s' : State} {P : Prop} [Decidable P]
    (h1 : run code (machine q x y r0 r1 0) = some s') (h2 : s'.reg 0 = if P then 1 else 0) :
    answer q code x y r0 r1 = if P then 1 else 0 := by
  unfold answer
  rw [h1]
  dsimp only
  rw [h2]
  split <;> decide

/-- The routines agree with the portable ones for every modulus of at most twelve limbs, except the equality test for seven limbs. -/
theorem ops_agree {q : Nat} (hq : q % 2 = 1) (hn : n64 q ≤ 12) : RawOps.Agree q (ops q) True True (n64 q ≠ 7) where
  add := (impl_agree hq hn).add
  sub := (impl_agree hq hn).sub
  neg := (impl_agree hq hn).neg
  mmul := (impl_agree hq hn).mmul
  msquare := fun ha hv => (impl_agree hq hn).mmul ha ha hv
  mmul1 := fun _ => (impl_agree hq hn).mmul1
  toMontgomery := fun ha => (impl_agree hq hn).mmul ha (LRep.R2 (by omega)).1 (R2_lt (by omega))
  fromMontgomery := fun _ => (impl_agree hq hn).fromMontgomery
  copy := (impl_agree hq hn).copy
  isEq := fun h7 {a b} ha hb => by
    obtain ⟨s', h1, -, -, h4⟩ := C69_isEq_partial (s := machine q a b 256 384 0) (n64_pos q) hn
    refine answer_of h1 ((h4 h7).trans ?_)
    rw [show rd _ ((machine q a b 256 384 0).reg 0) (n64 q) = a from machine_x ha hn,
      show rd _ ((machine q a b 256 384 0).reg 1) (n64 q) = b from machine_y hb hn]
    exact if_congr (rawIsEq_iff (ha.trans hb.symm)).symm rfl rfl
  isZero := fun {a} ha => by
    obtain ⟨s', h1, h4, -⟩ := C69_isZero (s := machine q a [] 256 0 0) (n64_pos q) hn
    refine answer_of h1 (h4.trans ?_)
    rw [show rd _ ((machine q a [] 256 0 0).reg 0) (n64 q) = a from machine_x ha hn]
    exact if_congr rawIsZero_iff.symm rfl rfl

/-- For seven limbs the equality test looks at the limbs 4, 5, 6 only. -/
theorem ops_isEq7 {q : Nat} (hn : n64 q = 7) {a b : Limbs} (ha : a.length = n64 q) (hb : b.length = n64 q)
    (h : ∀ i, 4 ≤ i → a[i]? = b[i]?) : (ops q).isEq a b = 1 := by
  have hw : n64 q ≤ 12 := by omega
  have e : ∀ i, 4 ≤ i → i < 7 → (machine q a b 256 384 0).mem (cell ((machine q a b 256 384 0).reg 0) i)
      = (machine q a b 256 384 0).mem (cell ((machine q a b 256 384 0).reg 1) i) := by
    intro i h4 h7
    have e1 := congrArg (fun l : Limbs => l[i]?) (machine_x (x := a) (y := b) (r0 := 256) (r1 := 384) (r2 := 0) ha hw)
    have e2 := congrArg (fun l : Limbs => l[i]?) (machine_y (x := a) (y := b) (r0 := 256) (r1 := 384) (r2 := 0) hb hw)
    simp only [rd_map, List.getElem?_map, List.getElem?_range (show i < n64 q by omega), Option.map_some] at e1 e2
    have := e1.trans ((h i h4).trans e2.symm)
    exact Option.some.inj this
  obtain ⟨s', h1, h2⟩ := C69_isEq_violation (e 4 (by omega) (by omega)) (e 5 (by omega) (by omega)) (e 6 (by omega) (by omega))
  rw [← hn] at h1
  exact answer_of (P := True) h1 h2

end FF.Arm
