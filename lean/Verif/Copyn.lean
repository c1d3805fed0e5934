import Verif.Tagged

/-!
# `copyn` of the portable code: an array of elements
-/

namespace FF

/-- The copy itself, element by element; the order plays no role when the arrays do not meet. -/
def copyUp : Nat → Mem → Nat → Nat → Mem
  | 0, m, _, _ => m
  | n + 1, m, r, a => copyUp n (m.set r (m a)) (r + 1) (a + 1)

/-- `Fr_copyn`, `fr_generic.cpp.ejs:326-329`: `memcpy` of `n` elements.  The address of element `i` of an array is that of the array plus `i`.
`none`: undefined behaviour, arrays that meet or a negative `n` (which `memcpy` takes as a size beyond all arrays). -/
def Fr_copyn (m : Mem) (r a : Nat) (n : BitVec 32) : Option Mem :=
  if n.toInt < 0 then none
  else if r < a + n.toNat ∧ a < r + n.toNat then none
  else some (copyUp n.toNat m r a)

theorem copyUp_spec (n : Nat) : ∀ (m : Mem) (r a : Nat), (r + n ≤ a ∨ a + n ≤ r) →
    (∀ i, i < n → copyUp n m r a (r + i) = m (a + i)) ∧ ∀ p, (∀ i, i < n → p ≠ r + i) → copyUp n m r a p = m p := by
  induction n with
  | zero => intro m r a _; exact ⟨fun i h => by omega, fun p _ => rfl⟩
  | succ n ih =>
    intro m r a h
    obtain ⟨h1, h2⟩ := ih (m.set r (m a)) (r + 1) (a + 1) (by omega)
    constructor
    · intro i hi
      rw [copyUp]
      cases i with
      | zero => rw [h2 _ (fun j hj => by omega)]; simp [Mem.set]
      | succ i =>
        rw [show r + (i + 1) = r + 1 + i by omega, h1 i (by omega), Mem.set, if_neg (by omega)]
        congr 1; omega
    · intro p hp
      rw [copyUp, h2 p (fun i hi => by have := hp (i + 1) (by omega); omega), Mem.set, if_neg (by have := hp 0 (by omega); omega)]

end FF
