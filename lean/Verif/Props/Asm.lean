import Verif.AsmRawNeg
import Verif.AsmRawSwap
import Verif.Props.Raw

/-!
# Property C54: the raw routines of the generated x86-64 code

`rd m a n` is the array of `n` eight-byte cells at address `a`.  Operands are passed in `rdi` (result), `rsi` and `rdx`.
Every theorem holds for every modulus, hence every limb count, for all contents of registers, flags and memory, and for
operand arrays that are the result array itself or do not meet it.
-/

namespace FF.Props

open FF FF.X86

/-- The machine is ready to call a raw routine: the limbs fit the address space, the table `q` holds the modulus and is not
overwritten by the result. -/
structure Ready (q : Nat) (s : State) : Prop where
  fits : 8 * (n64 q + 1) ≤ 2 ^ 64
  table : rd s.mem (s.sym .q) (n64 q) = rawq q
  sep : ∀ i j, i < n64 q → j < n64 q → cell (s.sym .q) i ≠ cell (s.reg .rdi) j

/-- The registers a System V callee must keep. -/
def calleeSaved : List Reg := [.rbx, .rbp, .r12, .r13, .r14, .r15]

/-- What a caller sees after a routine that returns the array `out`: the result array, every other memory cell unchanged,
the callee-saved registers and the result pointer kept, the return address taken from the stack. -/
structure Returns (n : Nat) (s s' : State) (out : Limbs) : Prop where
  out : rd s'.mem (s.reg .rdi) n = out
  frame : ∀ a, (∀ i, i < n → a ≠ cell (s.reg .rdi) i) → s'.mem a = s.mem a
  saved : ∀ r ∈ calleeSaved, s'.reg r = s.reg r
  rdi : s'.reg .rdi = s.reg .rdi
  rsp : s'.reg .rsp = s.reg .rsp + 8

theorem Returns.of {n : Nat} {K : Reg → Prop} {s s' : State} {out : Limbs} (h : RawPost n K s s' out)
    (hK : ∀ r, r ≠ .rax → r ≠ .rdx → r ≠ .rsi → r ≠ .rsp → K r) : Returns n s s' out := by
  refine ⟨h.out, h.frame, ?_, h.regs _ (hK _ (by decide) (by decide) (by decide) (by decide)), h.rsp⟩
  intro r hr
  refine h.regs r (hK r ?_ ?_ ?_ ?_)
  all_goals rintro rfl; exact absurd hr (by decide)

/-- C54, raw addition: same limbs as the portable code, for any operands; `(a + b) mod q` on reduced operands. -/
theorem C54_add {q : Nat} {s : State} (ra : BitVec 64) (h : Ready q s)
    (ha : Alias (s.reg .rsi) (s.reg .rdi) (n64 q)) (hb : Alias (s.reg .rdx) (s.reg .rdi) (n64 q)) :
    ∃ s', run noCalls ra (rawAddLL (n64 q)) s = some s' ∧
      Returns (n64 q) s s' (rawAdd q (rd s.mem (s.reg .rsi) (n64 q)) (rd s.mem (s.reg .rdx) (n64 q))) ∧
      (val (rd s.mem (s.reg .rsi) (n64 q)) < q → val (rd s.mem (s.reg .rdx) (n64 q)) < q →
        val (rd s'.mem (s.reg .rdi) (n64 q))
          = (val (rd s.mem (s.reg .rsi) (n64 q)) + val (rd s.mem (s.reg .rdx) (n64 q))) % q) := by
  obtain ⟨s', h1, h2⟩ := rawAddLL_run noCalls ra s (by have := h.fits; omega) h.table h.sep ha hb
  refine ⟨s', h1, .of h2 (fun r h1 _ _ h2 => ⟨h1, h2⟩), fun hx hy => ?_⟩
  rw [h2.out]
  exact (C04_add (rd_length _ _ _) (rd_length _ _ _) hx hy).2

/-- C54, raw subtraction. -/
theorem C54_sub {q : Nat} {s : State} (ra : BitVec 64) (h : Ready q s)
    (ha : Alias (s.reg .rsi) (s.reg .rdi) (n64 q)) (hb : Alias (s.reg .rdx) (s.reg .rdi) (n64 q)) :
    ∃ s', run noCalls ra (rawSubLL (n64 q)) s = some s' ∧
      Returns (n64 q) s s' (rawSub q (rd s.mem (s.reg .rsi) (n64 q)) (rd s.mem (s.reg .rdx) (n64 q))) ∧
      (val (rd s.mem (s.reg .rsi) (n64 q)) < q → val (rd s.mem (s.reg .rdx) (n64 q)) < q →
        (val (rd s'.mem (s.reg .rdi) (n64 q)) : ℤ)
          = ((val (rd s.mem (s.reg .rsi) (n64 q)) : ℤ) - val (rd s.mem (s.reg .rdx) (n64 q))) % q) := by
  obtain ⟨s', h1, h2⟩ := rawSubLL_run noCalls ra s (by have := h.fits; omega) h.table h.sep ha hb
  refine ⟨s', h1, .of h2 (fun r h1 _ _ h2 => ⟨h1, h2⟩), fun hx hy => ?_⟩
  rw [h2.out]
  exact (C04_sub (rd_length _ _ _) (rd_length _ _ _) hx hy).2

/-- C54, long plus short; the short operand is in `rdx`. -/
theorem C54_addLS {q : Nat} {s : State} (ra : BitVec 64) (h : Ready q s)
    (ha : Alias (s.reg .rsi) (s.reg .rdi) (n64 q)) :
    ∃ s', run noCalls ra (X86.rawAddLS (n64 q)) s = some s' ∧
      Returns (n64 q) s s' (FF.rawAddLS q (rd s.mem (s.reg .rsi) (n64 q)) (s.reg .rdx)) ∧
      (val (rd s.mem (s.reg .rsi) (n64 q)) < q → (s.reg .rdx).toNat < q →
        val (rd s'.mem (s.reg .rdi) (n64 q)) = (val (rd s.mem (s.reg .rsi) (n64 q)) + (s.reg .rdx).toNat) % q) := by
  obtain ⟨s', h1, h2⟩ := rawAddLS_run noCalls ra s (by have := h.fits; omega) h.table h.sep ha
  refine ⟨s', h1, .of h2 (fun r h1 h2 _ h3 => ⟨h1, h2, h3⟩), fun hx hy => ?_⟩
  rw [h2.out]
  exact (C04_addLS (rd_length _ _ _) hx hy).2

/-- C54, long minus short. -/
theorem C54_subLS {q : Nat} {s : State} (ra : BitVec 64) (h : Ready q s)
    (ha : Alias (s.reg .rsi) (s.reg .rdi) (n64 q)) :
    ∃ s', run noCalls ra (X86.rawSubLS (n64 q)) s = some s' ∧
      Returns (n64 q) s s' (FF.rawSubLS q (rd s.mem (s.reg .rsi) (n64 q)) (s.reg .rdx)) ∧
      (val (rd s.mem (s.reg .rsi) (n64 q)) < q → (s.reg .rdx).toNat < q →
        (val (rd s'.mem (s.reg .rdi) (n64 q)) : ℤ)
          = ((val (rd s.mem (s.reg .rsi) (n64 q)) : ℤ) - (s.reg .rdx).toNat) % q) := by
  obtain ⟨s', h1, h2⟩ := rawSubLS_run noCalls ra s (by have := h.fits; omega) h.table h.sep ha
  refine ⟨s', h1, .of h2 (fun r h1 h2 _ h3 => ⟨h1, h2, h3⟩), fun hx hy => ?_⟩
  rw [h2.out]
  exact (C04_subLS (rd_length _ _ _) hx hy).2

/-- C54, short minus long: the short operand is in `rsi`, the long one at `rdx`. -/
theorem C54_subSL {q : Nat} {s : State} (ra : BitVec 64) (h : Ready q s)
    (ha : Alias (s.reg .rdx) (s.reg .rdi) (n64 q)) :
    ∃ s', run noCalls ra (X86.rawSubSL (n64 q)) s = some s' ∧
      Returns (n64 q) s s' (FF.rawSubSL q (s.reg .rsi) (rd s.mem (s.reg .rdx) (n64 q))) ∧
      (val (rd s.mem (s.reg .rdx) (n64 q)) < q → (s.reg .rsi).toNat < q →
        (val (rd s'.mem (s.reg .rdi) (n64 q)) : ℤ)
          = (((s.reg .rsi).toNat : ℤ) - val (rd s.mem (s.reg .rdx) (n64 q))) % q) := by
  obtain ⟨s', h1, h2⟩ := rawSubSL_run noCalls ra s (by have := h.fits; omega) h.table h.sep ha
  refine ⟨s', h1, .of h2 (fun r h1 _ h2 h3 => ⟨h1, h2, h3⟩), fun hx hy => ?_⟩
  rw [h2.out]
  exact (C04_subSL (rd_length _ _ _) hx hy).2

/-- C54, negation. -/
theorem C54_neg {q : Nat} {s : State} (ra : BitVec 64) (h : Ready q s)
    (ha : Alias (s.reg .rsi) (s.reg .rdi) (n64 q)) :
    ∃ s', run noCalls ra (rawNegL (n64 q)) s = some s' ∧
      Returns (n64 q) s s' (rawNeg q (rd s.mem (s.reg .rsi) (n64 q))) ∧
      (val (rd s.mem (s.reg .rsi) (n64 q)) < q →
        (val (rd s'.mem (s.reg .rdi) (n64 q)) : ℤ) = (-(val (rd s.mem (s.reg .rsi) (n64 q)) : ℤ)) % q) := by
  obtain ⟨s', h1, h2⟩ := rawNegL_run noCalls ra s (by have := h.fits; omega) h.table h.sep ha
  refine ⟨s', h1, .of h2 (fun r h1 _ _ h2 => ⟨h1, h2⟩), fun hx => ?_⟩
  rw [h2.out]
  exact (C04_neg (rd_length _ _ _) hx).2

/-- C54, minus (long plus short); as in the portable code the sum is only right when operand and result are different
arrays and the short part is not zero. -/
theorem C54_negLS {q : Nat} {s : State} (ra : BitVec 64) (h : Ready q s)
    (ha : Alias (s.reg .rsi) (s.reg .rdi) (n64 q)) :
    ∃ s', run noCalls ra (X86.rawNegLS (n64 q)) s = some s' ∧
      Returns (n64 q) s s'
        (FF.rawNegLS q (decide (s.reg .rsi = s.reg .rdi)) (rd s.mem (s.reg .rsi) (n64 q)) (s.reg .rdx)) ∧
      (s.reg .rsi ≠ s.reg .rdi → val (rd s.mem (s.reg .rsi) (n64 q)) < q → (s.reg .rdx).toNat < q →
        0 < (s.reg .rdx).toNat →
        (val (rd s'.mem (s.reg .rdi) (n64 q)) : ℤ)
          = (-((val (rd s.mem (s.reg .rsi) (n64 q)) : ℤ) + (s.reg .rdx).toNat)) % q) := by
  obtain ⟨s', h1, h2⟩ := rawNegLS_run noCalls ra s (by have := h.fits; omega) h.table h.sep ha
  refine ⟨s', h1, .of h2 (fun r h1 h2 _ h3 => ⟨h1, h2, h3⟩), fun hne hx hy h0 => ?_⟩
  rw [h2.out, decide_eq_false hne]
  exact (C04_negLS (rd_length _ _ _) hx hy h0).2

/-- C54, `rawCopy` (limbs) and `copy` (tag word and limbs). -/
theorem C54_copy {n : Nat} {s : State} (ra : BitVec 64) (hn : 8 * (n + 1) ≤ 2 ^ 64) :
    (Alias (s.reg .rsi) (s.reg .rdi) n →
      ∃ s', run noCalls ra (rawCopy n) s = some s' ∧ Returns n s s' (rd s.mem (s.reg .rsi) n)) ∧
    (Alias (s.reg .rsi) (s.reg .rdi) (n + 1) →
      ∃ s', run noCalls ra (copy n) s = some s' ∧ Returns (n + 1) s s' (rd s.mem (s.reg .rsi) (n + 1))) := by
  constructor
  · intro ha
    obtain ⟨s', h1, h2⟩ := rawCopy_run noCalls ra s n (by omega) ha
    exact ⟨s', h1, .of h2 (fun r h1 _ _ h2 => ⟨h1, h2⟩)⟩
  · intro ha
    obtain ⟨s', h1, h2⟩ := copy_run noCalls ra s n hn ha
    exact ⟨s', h1, .of h2 (fun r h1 _ _ h2 => ⟨h1, h2⟩)⟩

/-- C54, `rawZero`. -/
theorem C54_zero {n : Nat} {s : State} (ra : BitVec 64) (hn : 8 * n ≤ 2 ^ 64) :
    ∃ s', run noCalls ra (X86.rawZero n) s = some s' ∧ Returns n s s' (List.replicate n 0) := by
  obtain ⟨s', h1, h2⟩ := rawZero_run noCalls ra s n (by omega)
  exact ⟨s', h1, .of h2 (fun r h1 _ _ h2 => ⟨h1, h2⟩)⟩

/-- C54, `rawIsEq` and `rawIsZero`: `rax` is 1 exactly when the arrays hold the same number, respectively zero; memory and
the other registers are kept. -/
theorem C54_cmp {n : Nat} {s : State} (ra : BitVec 64) :
    (∃ s', run noCalls ra (X86.rawIsEq n) s = some s' ∧
      s'.reg .rax = (if val (rd s.mem (s.reg .rdi) n) = val (rd s.mem (s.reg .rsi) n) then 1 else 0) ∧
      s'.mem = s.mem ∧ (∀ r, r ≠ .rax → r ≠ .rsp → s'.reg r = s.reg r) ∧ s'.reg .rsp = s.reg .rsp + 8) ∧
    (∃ s', run noCalls ra (X86.rawIsZero n) s = some s' ∧
      s'.reg .rax = (if val (rd s.mem (s.reg .rdi) n) = 0 then 1 else 0) ∧
      s'.mem = s.mem ∧ (∀ r, r ≠ .rax → r ≠ .rsp → s'.reg r = s.reg r) ∧ s'.reg .rsp = s.reg .rsp + 8) := by
  constructor
  · obtain ⟨s', h1, h2⟩ := rawIsEq_run noCalls ra s n
    refine ⟨s', h1, ?_, h2.mem, h2.regs, h2.rsp⟩
    rw [h2.rax, FF.rawIsEq, mpn_cmp_eq _ _ (by rw [rd_length, rd_length])]
    simp only [beq_iff_eq, compare_eq_iff_eq]
  · obtain ⟨s', h1, h2⟩ := rawIsZero_run noCalls ra s n
    refine ⟨s', h1, ?_, h2.mem, h2.regs, h2.rsp⟩
    rw [h2.rax]
    simp only [rawIsZero_iff]

/-- C54, `rawCopyS2L` of the assembly: writes the tag of a long normal element and the limbs the portable code writes. -/
theorem C54_copyS2L {q : Nat} {s : State} (ra : BitVec 64) (hn : 8 * (n64 q + 1) ≤ 2 ^ 64)
    (hQ : rd s.mem (s.sym .q) (n64 q) = rawq q)
    (hs : ∀ i j, i < n64 q → j < n64 q + 1 → cell (s.sym .q) i ≠ cell (s.reg .rdi) j) :
    ∃ s', run noCalls ra (X86.rawCopyS2L (n64 q)) s = some s' ∧
      s'.mem (s.reg .rdi) = 0x8000000000000000 ∧
      rd s'.mem (s.reg .rdi + 8) (n64 q) = FF.rawCopyS2L q (s.reg .rsi) ∧
      ((s.reg .rsi).toInt.natAbs < q →
        (val (rd s'.mem (s.reg .rdi + 8) (n64 q)) : ℤ) = (s.reg .rsi).toInt % q) ∧
      (∀ a, (∀ i, i < n64 q + 1 → a ≠ cell (s.reg .rdi) i) → s'.mem a = s.mem a) ∧
      (∀ r ∈ calleeSaved, s'.reg r = s.reg r) ∧ s'.reg .rsp = s.reg .rsp + 8 := by
  obtain ⟨s', h1, h2⟩ := rawCopyS2L_run noCalls ra s hn hQ hs
  have e : cell (s.reg .rdi) 1 = s.reg .rdi + 8 := rfl
  have ho := h2.out
  rw [e] at ho
  refine ⟨s', h1, h2.tag, ho, fun hv => ?_, h2.frame, ?_, h2.rsp⟩
  · rw [ho]; exact (C04_copyS2L hv).2
  · intro r hr
    refine h2.regs r ?_ ?_ ?_
    all_goals rintro rfl; exact absurd hr (by decide)

/-- C54, partial: `rawSwap` copies the second operand over the first and fills the second with whatever the caller left in
`rbx`; its second half is never a swap unless every limb of the first operand happened to equal `rbx`. -/
theorem C54_swap_partial {n : Nat} {s : State} (ra : BitVec 64) (hn : 8 * n ≤ 2 ^ 64)
    (hsep : Sep (s.reg .rdi) (s.reg .rsi) n) :
    ∃ s', run noCalls ra (rawSwap n) s = some s' ∧ rd s'.mem (s.reg .rdi) n = rd s.mem (s.reg .rsi) n ∧
      (rd s'.mem (s.reg .rsi) n = rd s.mem (s.reg .rdi) n ↔
        rd s.mem (s.reg .rdi) n = List.replicate n (s.reg .rbx)) := by
  obtain ⟨s', h1, h2, h3, _⟩ := rawSwap_run noCalls ra n hn s hsep
  exact ⟨s', h1, h2, by rw [h3]; exact eq_comm⟩

/-! ## The hypotheses are met

A machine with the four-limb modulus of the BN254 scalar field at address 0, operands at 64 and 128, the result at 192. -/

/-- Memory cells `0,8,…` from a list. -/
def memOf (l : List (BitVec 64)) : BitVec 64 → BitVec 64 := fun a => l.getD (a.toNat / 8) 0

def demo : State where
  reg := fun r => match r with | .rsi => 64 | .rdx => 128 | .rdi => 192 | .rbx => 7 | _ => 0
  fl := ⟨true, true, true, true⟩
  mem := memOf (rawq bnR ++ List.replicate 4 0 ++ toLimbs 4 (bnR - 1) ++ List.replicate 4 0 ++ toLimbs 4 (bnR - 2))
  sym := fun _ => 0

theorem demo_ready : Ready bnR demo := by
  refine ⟨by rw [n64_bnR]; decide, by rw [n64_bnR]; decide +kernel, ?_⟩
  rw [n64_bnR]
  have : ∀ i : Fin 4, ∀ j : Fin 4, cell (demo.sym .q) i ≠ cell (demo.reg .rdi) j := by decide
  exact fun i j hi hj => this ⟨i, hi⟩ ⟨j, hj⟩

theorem demo_sep (b : Reg) (hb : b = .rsi ∨ b = .rdx) : Sep (demo.reg b) (demo.reg .rdi) (n64 bnR) := by
  rw [n64_bnR]
  have h1 : ∀ i : Fin 4, ∀ j : Fin 4, cell (demo.reg .rsi) i ≠ cell (demo.reg .rdi) j := by decide
  have h2 : ∀ i : Fin 4, ∀ j : Fin 4, cell (demo.reg .rdx) i ≠ cell (demo.reg .rdi) j := by decide
  rcases hb with rfl | rfl
  · exact fun i j hi hj => h1 ⟨i, hi⟩ ⟨j, hj⟩
  · exact fun i j hi hj => h2 ⟨i, hi⟩ ⟨j, hj⟩

example : ∃ s', run noCalls 0 (rawAddLL (n64 bnR)) demo = some s' ∧ val (rd s'.mem 192 (n64 bnR)) = bnR - 3 := by
  obtain ⟨s', h1, _, h3⟩ := C54_add 0 demo_ready (.inr (demo_sep _ (.inl rfl))) (.inr (demo_sep _ (.inr rfl)))
  refine ⟨s', h1, ?_⟩
  have e1 : val (rd demo.mem (demo.reg .rsi) (n64 bnR)) = bnR - 1 := by rw [n64_bnR]; decide +kernel
  have e2 : val (rd demo.mem (demo.reg .rdx) (n64 bnR)) = bnR - 2 := by rw [n64_bnR]; decide +kernel
  have := h3 (by rw [e1]; decide +kernel) (by rw [e2]; decide +kernel)
  rw [e1, e2] at this
  exact this.trans (by decide +kernel)

example : ∃ s', run noCalls 0 (rawSubLL (n64 bnR)) demo = some s' ∧ (val (rd s'.mem 192 (n64 bnR)) : ℤ) = 1 := by
  obtain ⟨s', h1, _, h3⟩ := C54_sub 0 demo_ready (.inr (demo_sep _ (.inl rfl))) (.inr (demo_sep _ (.inr rfl)))
  refine ⟨s', h1, ?_⟩
  have e1 : val (rd demo.mem (demo.reg .rsi) (n64 bnR)) = bnR - 1 := by rw [n64_bnR]; decide +kernel
  have e2 : val (rd demo.mem (demo.reg .rdx) (n64 bnR)) = bnR - 2 := by rw [n64_bnR]; decide +kernel
  have := h3 (by rw [e1]; decide +kernel) (by rw [e2]; decide +kernel)
  rw [e1, e2] at this
  exact this.trans (by decide +kernel)

example : ∃ s', run noCalls 0 (X86.rawNegLS (n64 bnR)) demo = some s' :=
  (C54_negLS 0 demo_ready (.inr (demo_sep _ (.inl rfl)))).imp fun _ h => h.1
example : ∃ s', run noCalls 0 (rawNegL (n64 bnR)) demo = some s' ∧ (val (rd s'.mem 192 (n64 bnR)) : ℤ) = 1 := by
  obtain ⟨s', h1, _, h3⟩ := C54_neg 0 demo_ready (.inr (demo_sep _ (.inl rfl)))
  refine ⟨s', h1, ?_⟩
  have e1 : val (rd demo.mem (demo.reg .rsi) (n64 bnR)) = bnR - 1 := by rw [n64_bnR]; decide +kernel
  have := h3 (by rw [e1]; decide +kernel)
  rw [e1] at this
  exact this.trans (by decide +kernel)
example : ∃ s', run noCalls 0 (X86.rawAddLS (n64 bnR)) demo = some s' :=
  (C54_addLS 0 demo_ready (.inr (demo_sep _ (.inl rfl)))).imp fun _ h => h.1
example : ∃ s', run noCalls 0 (X86.rawSubLS (n64 bnR)) demo = some s' :=
  (C54_subLS 0 demo_ready (.inr (demo_sep _ (.inl rfl)))).imp fun _ h => h.1
example : ∃ s', run noCalls 0 (X86.rawSubSL (n64 bnR)) demo = some s' :=
  (C54_subSL 0 demo_ready (.inr (demo_sep _ (.inr rfl)))).imp fun _ h => h.1
example : ∃ s', run noCalls 0 (rawCopy 4) demo = some s' :=
  ((C54_copy 0 (by decide)).1 (.inr (by have := demo_sep _ (.inl rfl); rwa [n64_bnR] at this))).imp fun _ h => h.1
example : ∃ s', run noCalls 0 (X86.rawCopyS2L (n64 bnR)) demo = some s' := by
  have h : ∀ i : Fin 4, ∀ j : Fin 5, cell (demo.sym .q) i ≠ cell (demo.reg .rdi) j := by decide
  refine (C54_copyS2L 0 demo_ready.fits demo_ready.table ?_).imp fun _ h => h.1
  rw [n64_bnR]
  exact fun i j hi hj => h ⟨i, hi⟩ ⟨j, hj⟩

/-- C54, violated: on a concrete machine the second operand of `rawSwap` is lost. -/
theorem C54_swap_violation :
    ∃ s', run noCalls 0 (rawSwap 4) { demo with reg := upd demo.reg .rdi 128 } = some s' ∧
      rd s'.mem 64 4 ≠ rd demo.mem 128 4 := by
  have h : ∀ i : Fin 4, ∀ j : Fin 4, cell (128 : BitVec 64) i ≠ cell (64 : BitVec 64) j := by decide
  obtain ⟨s', h1, _, h3⟩ := C54_swap_partial (n := 4) (s := { demo with reg := upd demo.reg .rdi 128 }) 0 (by decide)
    (fun i j hi hj => h ⟨i, hi⟩ ⟨j, hj⟩)
  refine ⟨s', h1, fun e => ?_⟩
  have := h3.mp e
  revert this
  decide +kernel

end FF.Props
