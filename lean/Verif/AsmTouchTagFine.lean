import Verif.AsmTouchTagChk

/-!
# The pieces of the listings are what they say

Every loop of the tagged routines reads and writes only what its piece declares.
-/

namespace FF.X86

/-- A line of a loop round that is what its loop says. -/
def RoundOk (q : Nat) (rd : List Reg) (wr : Bool) (outs : List String) (x : Line) : Prop :=
  blkLine outs x = true ∧ ∀ s : State, x.good blkK s (fun a => (∃ r ∈ rd, InArr (s.reg r) (n64 q + 1) a) ∨ InData q s.sym a)
        (fun a => wr = true ∧ InArr (s.reg .rdi) (n64 q + 1) a)

variable {q : Nat} {rd : List Reg} {wr : Bool} {outs : List String} {g : Nat → Nat → List Line}

theorem fine_of {c : Nat → Nat → List Line} (h : ∀ x ∈ c (bitLen q) (n64 q), RoundOk q rd wr outs x) :
    ∀ x ∈ [Item.blk c rd wr outs], x.Fine q := by
  intro x hx
  rw [List.mem_singleton] at hx
  subst hx
  exact ⟨fun i hi => (h i hi).1, fun s i hi => (h i hi).2 s⟩

theorem fine_down (h : ∀ i < n64 q, ∀ x ∈ g (n64 q) i, RoundOk q rd wr outs x) : ∀ x ∈ [Item.blk (fun _ n => down (g n) n) rd wr outs], x.Fine q :=
  fine_of (all_down h)
theorem fine_range (h : ∀ i < n64 q, ∀ x ∈ g (n64 q) i, RoundOk q rd wr outs x) :
    ∀ x ∈ [Item.blk (fun _ n => (List.range n).flatMap (g n)) rd wr outs], x.Fine q :=
  fine_of (all_flatMap.2 fun i hi => h i (List.mem_range.1 hi))
theorem fine_range' (h : ∀ i < n64 q, ∀ x ∈ g (n64 q) i, RoundOk q rd wr outs x) :
    ∀ x ∈ [Item.blk (fun _ n => (List.range' 1 (n - 1)).flatMap (g n)) rd wr outs], x.Fine q :=
  fine_of (all_flatMap.2 fun i hi => h i (by rw [List.mem_range'_1] at hi; omega))

theorem inData_q {q i : Nat} {y : Sym → BitVec 64} (h : i < n64 q) : InData q y (y .q + BitVec.ofNat 64 (8 * i)) := .inl (inArr_at h)
theorem inData_half {q i : Nat} {y : Sym → BitVec 64} (h : i < n64 q) : InData q y (y .half + BitVec.ofNat 64 (8 * i)) := .inr (.inl (inArr_at h))
theorem inData_mask {q : Nat} {y : Sym → BitVec 64} : InData q y (y .lboMask) := .inr (.inr (.inr (.inr (.inl rfl))))

theorem rax_blkK : Reg.rax ∉ blkK := by decide
theorem rcx_blkK : Reg.rcx ∉ blkK := by decide
theorem rdi_blkK : Reg.rdi ∈ blkK := by decide
theorem rsi_blkK : Reg.rsi ∈ blkK := by decide
theorem rdx_blkK : Reg.rdx ∈ blkK := by decide

set_option linter.unusedSimpArgs false in
local macro "roundOk" : tactic => `(tactic| (
  intro i hi
  try unfold maskLast
  try (split_ifs with h0 <;> clear h0)
  all_goals simp [RoundOk, blkLine, Line.plain, op, Line.good, i2, Op2.reads, Op2.writes, Opd.rd, Opd.wr, inArr_off hi, inData_q hi, inData_half hi,
    inData_mask, rax_blkK, rcx_blkK, rdi_blkK, rsi_blkK, rdx_blkK, Misc.acc, Line.scratch, *]))

set_option linter.unusedSimpArgs false

theorem signLI_fine {r : Reg} (hr : r ∈ blkK) (pos neg : String) : (∀ x ∈ signLI r pos neg, x.Fine q) ↔ True := by
  refine iff_of_true (fine_down (g := fun n i => _) ?_) trivial
  roundOk

theorem rgtI_fine : ∀ x ∈ rgtI, x.Fine q := by
  simp only [rgtI, cmpOrdI, cmpI, signsI, List.forall_mem_append, lns_fine, convAI_fine, convBI_fine, signLI_fine rsi_blkK, signLI_fine rdx_blkK,
    and_true, true_and]
  refine fine_down (g := fun n i => _) ?_
  roundOk
theorem rltI_fine : ∀ x ∈ rltI, x.Fine q := by
  simp only [rltI, cmpOrdI, cmpI, signsI, List.forall_mem_append, lns_fine, convAI_fine, convBI_fine, signLI_fine rsi_blkK, signLI_fine rdx_blkK,
    and_true, true_and]
  refine fine_down (g := fun n i => _) ?_
  roundOk
theorem nil_fine (q : Nat) : (∀ x ∈ ([] : List Item), x.Fine q) ↔ True := by simp
theorem reqI_fine : ∀ x ∈ reqI, x.Fine q := by
  simp only [reqI, cmpI, List.forall_mem_append, lns_fine, convAI_fine, convBI_fine, nil_fine, and_true, true_and]
  refine fine_range (g := fun n i => _) ?_
  roundOk

theorem isTrueLI_fine (res : Reg) {src : Reg} (hr : src ∈ blkK) (long zero one done : String) :
    (∀ x ∈ isTrueLI res src long zero one done, x.Fine q) ↔ True := by
  refine iff_of_true ?_ trivial
  simp only [isTrueLI, List.forall_mem_append, lns_fine, and_true, true_and]
  refine fine_range (g := fun n i => _) ?_
  roundOk
theorem logicalI_fine (o : Op2) : ∀ x ∈ logicalI o, x.Fine q := by
  simp only [logicalI, List.forall_mem_append, lns_fine, isTrueLI_fine _ rsi_blkK, isTrueLI_fine _ rdx_blkK, and_true]
theorem lnotI_fine : ∀ x ∈ lnotI, x.Fine q := by
  simp only [lnotI, List.forall_mem_append, lns_fine, isTrueLI_fine _ rsi_blkK, and_true]
theorem isTrueI_fine : ∀ x ∈ isTrueI, x.Fine q := by
  simp only [isTrueI, List.forall_mem_append, lns_fine, isTrueLI_fine _ rdi_blkK, and_true]

theorem subQI_fine (q : Nat) : (∀ x ∈ subQI, x.Fine q) ↔ True := by
  refine iff_of_true ?_ trivial
  simp only [subQI, List.forall_mem_append, lns_fine, and_true, true_and]
  refine ⟨fine_down (g := fun n i => _) ?_, fine_range (g := fun n i => _) ?_⟩
  · roundOk
  · roundOk

theorem bitL1L2I_fine {o : Op2} : (∀ x ∈ bitL1L2I o, x.Fine q) ↔ True := by
  refine iff_of_true ?_ trivial
  simp only [bitL1L2I, List.forall_mem_append, lns_fine, subQI_fine, and_true]
  refine fine_range (g := fun n i => _) ?_
  roundOk
theorem bitShortI_fine {o : Op2} {p : Reg} (hr : p ∈ blkK) : (∀ x ∈ bitShortI o p, x.Fine q) ↔ True := by
  refine iff_of_true ?_ trivial
  simp only [bitShortI, List.forall_mem_append, lns_fine, true_and]
  refine fine_range' (g := fun n i => _) ?_
  roundOk
theorem bitI_fine (o : Op2) (o' : Op32) : ∀ x ∈ bitI o o', x.Fine q := by
  simp only [bitI, bitDispatchI, bitS1S2I, bitL1S2I, bitS1L2I, List.forall_mem_append, lns_fine, subQI_fine, bitL1L2I_fine, bitShortI_fine rsi_blkK,
    bitShortI_fine rdx_blkK, convAI_fine, convBI_fine, and_self]
theorem bnotI_fine : ∀ x ∈ bnotI, x.Fine q := by
  simp only [bnotI, List.forall_mem_append, lns_fine, subQI_fine, convAI_fine, and_true, true_and]
  refine fine_range (g := fun n i => _) ?_
  roundOk

theorem parseI_fine (pos neg big : String) : (∀ x ∈ parseI pos neg big, x.Fine q) ↔ True := by
  refine iff_of_true ?_ trivial
  simp only [parseI, List.forall_mem_append, lns_fine, convBI_fine, and_true, true_and]
  refine ⟨fine_of ?_, fine_range' (g := fun n i => _) ?_, fine_of ?_, fine_range' (g := fun n i => _) ?_, fine_of ?_, fine_of ?_⟩
  · simp [RoundOk, blkLine, Line.plain, op, Line.good, i2, Op2.reads, Op2.writes, Opd.rd, Opd.wr]
  · roundOk
  · simp [RoundOk, blkLine, Line.plain, op, Line.good, i2, Op2.reads, Op2.writes, Opd.rd, Opd.wr]
  · roundOk
  · simp [RoundOk, blkLine, Line.plain, op, Line.good, i2, Op2.reads, Op2.writes, Opd.rd, Opd.wr, Misc.acc, Line.scratch, rcx_blkK]
  · simp [RoundOk, blkLine, Line.plain, op, Line.good, i2, Op2.reads, Op2.writes, Opd.rd, Opd.wr, Misc.acc, Line.scratch, rcx_blkK]

theorem doShlI_fine (q : Nat) : (∀ x ∈ doShlI, x.Fine q) ↔ True := by
  simp only [doShlI, List.forall_mem_append, lns_fine, convAI_fine, and_self]
theorem doShrI_fine (q : Nat) : (∀ x ∈ doShrI, x.Fine q) ↔ True := by
  simp only [doShrI, List.forall_mem_append, lns_fine, convAI_fine, and_self]
theorem shlI_fine : ∀ x ∈ shlI, x.Fine q := by
  simp only [shlI, List.forall_mem_append, lns_fine, parseI_fine, doShlI_fine, doShrI_fine, and_self]
theorem shrI_fine : ∀ x ∈ shrI, x.Fine q := by
  simp only [shrI, shlI, List.forall_mem_append, lns_fine, parseI_fine, doShlI_fine, doShrI_fine, and_self]

theorem toIntI_fine : ∀ x ∈ toIntI, x.Fine q := by
  simp only [toIntI, List.forall_mem_append, lns_fine, alloc_fine, and_true, true_and]
  refine ⟨fine_range' (g := fun n i => _) ?_, fine_range' (g := fun n i => _) ?_⟩
  · roundOk
  · roundOk

end FF.X86
