import Verif.AsmCopyn
import Verif.AsmTagRun
import Verif.Copyn
import Verif.Props.Asm

/-!
# C78: copying an array of elements

An array of `k` elements of `n` limbs is `k·(n+1)` words; element `i` starts at word `i·(n+1)`.
-/

namespace FF.Props

open FF FF.X86

/-- C78, portable code: the elements of the result array are those of the source, everything else is kept. -/
theorem C78_portable {m : Mem} {r a : Nat} {n : BitVec 32} (h0 : 0 ≤ n.toInt) (h : r + n.toNat ≤ a ∨ a + n.toNat ≤ r) :
    ∃ m', Fr_copyn m r a n = some m' ∧ (∀ i, i < n.toNat → m' (r + i) = m (a + i)) ∧
      ∀ p, (∀ i, i < n.toNat → p ≠ r + i) → m' p = m p := by
  obtain ⟨h1, h2⟩ := copyUp_spec n.toNat m r a h
  exact ⟨_, by rw [Fr_copyn, if_neg (by omega), if_neg (by omega)], h1, h2⟩

/-- C78, x86-64: the elements of the result array are those of the source, word by word and hence as elements; every other word and every
register the caller may rely on is kept.  The arrays may be the same, apart, or overlap with the result below the source.
Missing: `n` is a C `int`, passed in the lower half of `rdx`; the code takes all of `rdx` (`C78_upper_violation`). -/
theorem C78_x86_partial {n k : Nat} {s : State} (env : String → Option (State → Option State)) (ra : BitVec 64)
    (hk : s.reg .rdx = BitVec.ofNat 64 k) (hk31 : k < 2 ^ 31) (hfit : 8 * (k * (n + 1)) < 2 ^ 64)
    (hover : ∀ i j, j < i → i < k * (n + 1) → cell (s.reg .rsi) i ≠ cell (s.reg .rdi) j) :
    ∃ s', X86.run env ra (X86.copyn n) s = some s' ∧
      (∀ i, i < k → rd s'.mem (cell (s.reg .rdi) (i * (n + 1))) (n + 1) = rd s.mem (cell (s.reg .rsi) (i * (n + 1))) (n + 1) ∧
        elemAt n s'.mem (cell (s.reg .rdi) (i * (n + 1))) = elemAt n s.mem (cell (s.reg .rsi) (i * (n + 1)))) ∧
      (∀ a, (∀ i, i < k * (n + 1) → a ≠ cell (s.reg .rdi) i) → s'.mem a = s.mem a) ∧
      (∀ r ∈ calleeSaved, s'.reg r = s.reg r) ∧ s'.reg .rdi = s.reg .rdi ∧ s'.reg .rsi = s.reg .rsi ∧ s'.reg .rsp = s.reg .rsp + 8 := by
  obtain ⟨s', h1, h2, -, h3, h4⟩ := copyn_run env ra n s
  have hc : copynCount n s = k * (n + 1) := by
    rw [copynCount, hk, BitVec.toNat_ofNat, Nat.mod_eq_of_lt (a := k) (by omega), Nat.mul_comm, Nat.mod_eq_of_lt (by omega)]
  rw [hc] at h2
  obtain ⟨m1, m2⟩ := movsq_spec (k * (n + 1)) (by omega) s.mem _ _ hover
  have word : ∀ i j, i < k → j < n + 1 →
      s'.mem (cell (cell (s.reg .rdi) (i * (n + 1))) j) = s.mem (cell (cell (s.reg .rsi) (i * (n + 1))) j) := by
    intro i j hi hj
    rw [cell_add, cell_add, h2]
    refine m1 _ ?_
    calc i * (n + 1) + j < i * (n + 1) + (n + 1) := by omega
      _ = (i + 1) * (n + 1) := by ring
      _ ≤ k * (n + 1) := Nat.mul_le_mul_right _ hi
  refine ⟨s', h1, fun i hi => ⟨?_, ?_⟩, fun a ha => by rw [h2]; exact m2 a ha, ?_, ?_, ?_, h3⟩
  · refine List.map_congr_left fun j hj => ?_
    rw [List.mem_range'_1] at hj
    exact word i j hi (by omega)
  · have e0 := word i 0 hi (by omega)
    rw [cell_zero, cell_zero] at e0
    rw [elemAt, elemAt, e0]
    congr 1
    refine List.map_congr_left fun j hj => ?_
    rw [List.mem_range'_1] at hj
    simpa only [cell_add, Nat.add_assoc] using word i (1 + j) hi (by omega)
  · intro r hr
    refine h4 r ?_ ?_ ?_ ?_ ?_ ?_ <;> rintro rfl <;> revert hr <;> decide
  · exact h4 _ (by decide) (by decide) (by decide) (by decide) (by decide) (by decide)
  · exact h4 _ (by decide) (by decide) (by decide) (by decide) (by decide) (by decide)

/-- C78, x86-64: onto itself nothing changes. -/
theorem C78_x86_same {n k : Nat} {s : State} (env : String → Option (State → Option State)) (ra : BitVec 64)
    (hk : s.reg .rdx = BitVec.ofNat 64 k) (hk31 : k < 2 ^ 31) (hfit : 8 * (k * (n + 1)) < 2 ^ 64) (he : s.reg .rsi = s.reg .rdi) :
    ∃ s', X86.run env ra (X86.copyn n) s = some s' ∧ s'.mem = s.mem := by
  obtain ⟨s', h1, h2, -, h3, h4⟩ := copyn_run env ra n s
  have hc : copynCount n s = k * (n + 1) := by
    rw [copynCount, hk, BitVec.toNat_ofNat, Nat.mod_eq_of_lt (a := k) (by omega), Nat.mul_comm, Nat.mod_eq_of_lt (by omega)]
  rw [hc, he] at h2
  obtain ⟨m1, m2⟩ := movsq_spec (k * (n + 1)) (by omega) s.mem (s.reg .rdi) (s.reg .rdi) (fun i j hj hi e => by
    have := cell_inj (by omega) (by omega) e; omega)
  refine ⟨s', h1, ?_⟩
  rw [h2]
  funext a
  by_cases h : ∃ i, i < k * (n + 1) ∧ a = cell (s.reg .rdi) i
  · obtain ⟨i, hi, rfl⟩ := h
    exact m1 i hi
  · exact m2 a (fun i hi e => h ⟨i, hi, e⟩)

/-- A machine about to copy one element from address 0 to address 2^63; the upper half of `rdx`, which a caller passing an `int` may leave
as it is, holds 1. -/
def copynDemo (n : Nat) : State where
  reg := fun r => match r with | .rdi => 0x8000000000000000 | .rsi => 0 | .rdx => 0x100000001 | _ => 0
  fl := ⟨false, false, false, false⟩
  mem := fun a => if a = cell 0 (n + 1) then 1 else 0
  sym := fun _ => 0

/-- C78, violated on x86-64: called with `n = 1`, arrays apart and anything in the upper half of `rdx`, which the System V calling convention
leaves undefined for an `int`, the code writes beyond the result array. -/
theorem C78_upper_violation {n : Nat} (hn : n < 2 ^ 20) :
    ((copynDemo n).reg .rdx).setWidth 32 = (1 : BitVec 32) ∧
    (∀ i j, i < n + 1 → j < n + 1 → cell ((copynDemo n).reg .rsi) i ≠ cell ((copynDemo n).reg .rdi) j) ∧
    ∃ s', X86.run noCalls 0 (X86.copyn n) (copynDemo n) = some s' ∧
      ∃ a, (∀ i, i < n + 1 → a ≠ cell ((copynDemo n).reg .rdi) i) ∧ s'.mem a ≠ (copynDemo n).mem a := by
  have far : ∀ i j, i < 2 ^ 53 → j < 2 ^ 53 → cell (0 : BitVec 64) i ≠ cell 0x8000000000000000 j := by
    intro i j hi hj e
    have := congrArg BitVec.toNat e
    simp only [cell, BitVec.toNat_add, BitVec.ofNat_eq_ofNat, BitVec.toNat_ofNat] at this
    omega
  refine ⟨by show BitVec.setWidth 32 (0x100000001 : BitVec 64) = 1; decide, fun i j hi hj => far i j (by omega) (by omega), ?_⟩
  obtain ⟨s', h1, h2, -⟩ := copyn_run noCalls 0 n (copynDemo n)
  have hc : copynCount n (copynDemo n) = (n + 1) * 0x100000001 := by
    rw [copynCount, show (copynDemo n).reg .rdx = 0x100000001 from rfl]
    exact Nat.mod_eq_of_lt (by show (n + 1) * 0x100000001 < _; omega)
  rw [hc] at h2
  obtain ⟨m1, -⟩ := movsq_spec ((n + 1) * 0x100000001) (by omega) (copynDemo n).mem ((copynDemo n).reg .rsi) ((copynDemo n).reg .rdi)
    (fun i j hj hi => far i j (by omega) (by omega))
  refine ⟨s', h1, cell ((copynDemo n).reg .rdi) (n + 1), fun i hi e => ?_, ?_⟩
  · have := cell_inj (by omega) (by omega) e
    omega
  · rw [h2, m1 (n + 1) (by omega)]
    show (if cell 0 (n + 1) = cell 0 (n + 1) then (1 : BitVec 64) else 0) ≠ if cell 0x8000000000000000 (n + 1) = cell 0 (n + 1) then 1 else 0
    rw [if_pos rfl, if_neg (fun e => far (n + 1) (n + 1) (by omega) (by omega) e.symm)]
    decide

/-! ## The hypotheses are met -/

/-- Three elements of four limbs, moved down by one element within the same memory. -/
example : ∃ s : State, s.reg .rdx = BitVec.ofNat 64 3 ∧ s.reg .rsi ≠ s.reg .rdi ∧
    (∀ i j, j < i → i < 3 * (4 + 1) → cell (s.reg .rsi) i ≠ cell (s.reg .rdi) j) := by
  refine ⟨⟨fun r => match r with | .rdi => 1000 | .rsi => 1040 | .rdx => 3 | _ => 0, ⟨false, false, false, false⟩, fun a => a, fun _ => 0⟩,
    rfl, by decide, ?_⟩
  intro i j hj hi e
  have := congrArg BitVec.toNat e
  simp only [cell, BitVec.toNat_add, BitVec.ofNat_eq_ofNat, BitVec.toNat_ofNat] at this
  omega

example : ∃ m', Fr_copyn (fun p => ⟨BitVec.ofNat 32 p, false, false, []⟩) 10 20 3 = some m' ∧ (m' 12).shortVal = 22 :=
  ⟨_, rfl, by decide⟩

end FF.Props
