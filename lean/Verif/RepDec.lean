import Verif.TaggedProof
import Verif.Consts

/-!
# A decision procedure for `Rep`, used for concrete witnesses
-/

namespace FF

def lrepB (q : Nat) (l : Limbs) (k : Nat) : Bool := l.length == n64 q && decide (val l < q) && (val l % q == k % q)

/-- Does the element stand for the residue of `k`? -/
def repB (q : Nat) (e : Elem) (k : Nat) : Bool :=
  let sh := (e.shortVal.toInt - k) % q == 0
  match e.long, e.mont with
  | false, false => sh
  | false, true => sh && lrepB q e.longVal (k * 2 ^ (64 * n64 q))
  | true, false => lrepB q e.longVal k
  | true, true => lrepB q e.longVal (k * 2 ^ (64 * n64 q))

theorem lrepB_iff {q : Nat} {l : Limbs} {k : Nat} : LRep q l (k : ZMod q) ↔ lrepB q l k = true := by
  rw [lrepB, Bool.and_eq_true, Bool.and_eq_true, beq_iff_eq, beq_iff_eq, decide_eq_true_eq, LRep,
    ZMod.natCast_eq_natCast_iff', and_assoc]

theorem Rep_iff {q : Nat} {e : Elem} {k : Nat} : Rep q e (k : ZMod q) ↔ repB q e k = true := by
  have hs : (((e.shortVal.toInt : ℤ) : ZMod q) = (k : ZMod q)) ↔ ((e.shortVal.toInt - k) % q == 0) = true := by
    rw [← Int.cast_natCast, ← sub_eq_zero, ← Int.cast_sub, ZMod.intCast_zmod_eq_zero_iff_dvd, beq_iff_eq, Int.dvd_iff_emod_eq_zero]
  have hR : ((k : ZMod q) * R q) = ((k * 2 ^ (64 * n64 q) : Nat) : ZMod q) := by
    rw [Nat.cast_mul, R, Nat.cast_pow, Nat.cast_ofNat]
  unfold Rep repB
  rw [hR]
  split <;> simp_all only [lrepB_iff, Bool.and_eq_true]

end FF
