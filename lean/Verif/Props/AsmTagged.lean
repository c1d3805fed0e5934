import Verif.AsmMulRun
import Verif.Props.AsmMont
import Verif.Props.Tagged

/-!
# Properties C61, C62 and C63: the tagged routines of the x86-64 assembly

`lib q ra` is the assembled library: a `call` enters the listing of the named routine.  The theorems run a listing from any
machine state in which the tables, the stack and the three elements are laid out as the C++ caller lays them out.

* C61: the residues.  The result element denotes the sum, difference, product, square or negation.
* C62: the two backends.  The result element is, bit for bit, the one the portable C++ code leaves.
* C63: the conversions.
-/

namespace FF.Props

open FF FF.X86

/-- The stack cells a tagged routine may use below the stack pointer. -/
def tagStack (q : Nat) : Nat := 4 * n64 q + 20

/-- The machine is ready to call a tagged routine: the tables hold the constants of the modulus, and the tables, the
result element at `rdi` and the stack cells the routine uses do not overlap. -/
structure TagReady (q : Nat) (s : State) : Prop where
  fits : 8 * (tagStack q + n64 q + 8) ≤ 2 ^ 64
  mod : rd s.mem (s.sym .q) (n64 q) = rawq q
  half : rd s.mem (s.sym .half) (n64 q) = half q
  r2 : rd s.mem (s.sym .r2) (n64 q) = rawR2 q
  r3 : rd s.mem (s.sym .r3) (n64 q) = rawR3 q
  mask : s.mem (s.sym .lboMask) = lboMask q
  np : s.mem (s.sym .np) = np q
  stackTables : ∀ a, InData q s.sym a → ¬ InStk (s.reg .rsp) (tagStack q) a
  stackDst : ∀ a, InArr (s.reg .rdi) (n64 q + 1) a → ¬ InStk (s.reg .rsp) (tagStack q) a
  tablesDst : ∀ a, InArr (s.reg .rdi) (n64 q + 1) a → ¬ InData q s.sym a

/-- The element at register `b` is the result element itself or does not meet it, and does not lie in the stack cells the
routine uses. -/
structure TagOperand (q : Nat) (s : State) (b : Reg) : Prop where
  ali : s.reg b = s.reg .rdi ∨ Sep (s.reg b) (s.reg .rdi) (n64 q + 1)
  stack : ∀ a, InArr (s.reg b) (n64 q + 1) a → ¬ InStk (s.reg .rsp) (tagStack q) a

/-- The element at register `b`. -/
abbrev opAt (q : Nat) (s : State) (b : Reg) : Elem := elemAt (n64 q) s.mem (s.reg b)

/-- A normal return to the caller: the element `e` in the result, every cell outside it and outside the stack cells below
the stack pointer as it was, the callee-saved registers, the result pointer and the addresses of the tables kept. -/
structure TagReturns (q : Nat) (s s' : State) (e : Elem) : Prop where
  elem : opAt q s' .rdi = e
  frame : ∀ a, ¬ InStk (s.reg .rsp) (tagStack q) a → ¬ InArr (s.reg .rdi) (n64 q + 1) a → s'.mem a = s.mem a
  saved : ∀ r ∈ calleeSaved, s'.reg r = s.reg r
  rdi : s'.reg .rdi = s.reg .rdi
  rsp : s'.reg .rsp = s.reg .rsp + 8
  sym : s'.sym = s.sym

/-- The moduli for which the printed `rawMMul1` is right for every element and every short value (C55 shows it wrong for others): all except
those with 7 limbs in the optimised variant and, of the other variant, those with 6 limbs close to `2^384`. -/
def Mul1Right (q : Nat) : Prop := OneWord q (q - 1) (2 ^ 31)

/-- The moduli for which it is right for the constant that takes short values to Montgomery form. -/
def ConvRight (q : Nat) : Prop := OneWord q (val (rawR2 q)) (2 ^ 31)

theorem Mul1Right.conv {q : Nat} (hq : 0 < q) (h : Mul1Right q) : ConvRight q :=
  OneWord.mono (Nat.le_sub_one_of_lt (rawR2_lt hq)) le_rfl h

/-- In place on an operand that is not in Montgomery form while the other operand is long Montgomery. -/
def TagConvClash (q : Nat) (s : State) : Prop :=
  (s.reg .rdi = s.reg .rsi ∧ (opAt q s .rsi).mont = false ∧ (opAt q s .rdx).long = true ∧ (opAt q s .rdx).mont = true) ∨
  (s.reg .rdi = s.reg .rdx ∧ (opAt q s .rdx).mont = false ∧ (opAt q s .rsi).long = true ∧ (opAt q s .rsi).mont = true)

/-- The result overwrites the long normal second operand of a subtraction from a negative short. -/
def TagNegClash (q : Nat) (s : State) : Prop :=
  s.reg .rdi = s.reg .rdx ∧ (opAt q s .rsi).long = false ∧ (opAt q s .rsi).shortVal.toInt < 0 ∧
    (opAt q s .rdx).long = true ∧ (opAt q s .rdx).mont = false

section helpers

variable {q : Nat} {s s' : State}

theorem callCells_le (q : Nat) : callCells q ≤ n64 q + 6 := by
  have := frame_small (n64_pos q) (canOpt q)
  unfold callCells; omega

theorem TagReady.args (h : TagReady q s) : TArgs q (tagStack q) s :=
  ⟨⟨h.fits, ⟨h.mod, h.half, h.r2, h.r3, h.mask, h.np⟩, h.stackTables⟩,
    by have := callCells_le q; unfold tagStack; omega, ⟨h.stackDst, h.tablesDst⟩⟩

theorem TagOperand.opnd {b : Reg} (h : TagOperand q s b) : TOpnd q (tagStack q) s (s.reg b) := ⟨h.ali, h.stack⟩

theorem tagReturns_of {e : Elem} (h : TRet q (tagStack q) s s' e) : TagReturns q s s' e :=
  ⟨by rw [opAt, h.rdi]; exact h.elem, h.frame, h.saved, h.rdi, h.rsp, h.sym⟩

theorem convClash_iff : ConvClash (absMem (n64 q) s.mem) (s.reg .rdi).toNat (s.reg .rsi).toNat (s.reg .rdx).toNat ↔
    TagConvClash q s := by
  unfold ConvClash TagConvClash opAt
  simp only [absMem_at, BitVec.toNat_inj]

theorem negClash_iff : NegShortClash (absMem (n64 q) s.mem) (s.reg .rdi).toNat (s.reg .rsi).toNat (s.reg .rdx).toNat ↔
    TagNegClash q s := by
  unfold NegShortClash TagNegClash opAt
  simp only [absMem_at, BitVec.toNat_inj]

end helpers

/-! ## C62: the two backends leave the same element -/

section agree

variable {q : Nat} {s : State} {ra : BitVec 64}

/-- C62, addition: whatever the memory holds, also in place.  Missing: of the moduli with `¬ ConvRight q`, a plain short
operand beside one in Montgomery form. -/
theorem C62_add_partial (u : Elem) (hq : q % 2 = 1) (h7 : MixOk q (opAt q s .rsi) (opAt q s .rdx)) (h : TagReady q s)
    (ha : TagOperand q s .rsi) (hb : TagOperand q s .rdx) :
    ∃ s', run (lib q ra) ra (addCode (n64 q)) s = some s' ∧
      TagReturns q s s' (Fr_add q u (absMem (n64 q) s.mem) (s.reg .rdi).toNat (s.reg .rsi).toNat (s.reg .rdx).toNat
        (s.reg .rdi).toNat) :=
  let ⟨s', h1, h2⟩ := addCode_run hq u h.args (by rw [absMem_at, absMem_at]; exact h7) ha.opnd hb.opnd
    (by have := callCells_le q; unfold addCells tagStack; omega)
  ⟨s', h1, tagReturns_of h2⟩

/-- C62, subtraction. -/
theorem C62_sub_partial (u : Elem) (hq : q % 2 = 1) (h7 : MixOk q (opAt q s .rsi) (opAt q s .rdx)) (h : TagReady q s)
    (ha : TagOperand q s .rsi) (hb : TagOperand q s .rdx) :
    ∃ s', run (lib q ra) ra (subCode (n64 q)) s = some s' ∧
      TagReturns q s s' (Fr_sub q u (absMem (n64 q) s.mem) (s.reg .rdi).toNat (s.reg .rsi).toNat (s.reg .rdx).toNat
        (s.reg .rdi).toNat) :=
  let ⟨s', h1, h2⟩ := subCode_run hq u h.args (by rw [absMem_at, absMem_at]; exact h7) ha.opnd hb.opnd
    (by have := callCells_le q; unfold addCells tagStack; omega)
  ⟨s', h1, tagReturns_of h2⟩

/-- C62, multiplication, of operands whose long parts, where they are read, are reduced. -/
theorem C62_mul_partial (hq : q % 2 = 1) (h7 : MulOk q (opAt q s .rsi) (opAt q s .rdx)) (h : TagReady q s)
    (ha : TagOperand q s .rsi) (hb : TagOperand q s .rdx)
    (hla : (opAt q s .rsi).long = true → val (opAt q s .rsi).longVal < q)
    (hlb : (opAt q s .rdx).long = true ∨ (opAt q s .rdx).mont = true → val (opAt q s .rdx).longVal < q) :
    ∃ s', run (libRaw q ra) ra mulCode s = some s' ∧
      TagReturns q s s' (Fr_mul q (absMem (n64 q) s.mem) (s.reg .rdi).toNat (s.reg .rsi).toNat (s.reg .rdx).toNat
        (s.reg .rdi).toNat) :=
  let ⟨s', h1, h2⟩ := mulCode_run hq h.args (by rw [absMem_at, absMem_at]; exact h7) ha.opnd hb.opnd
    (by have := callCells_le q; have := n64_pos q; unfold tagStack; omega) (by rw [absMem_at]; exact hla)
    (by rw [absMem_at]; exact hlb)
  ⟨s', h1, tagReturns_of h2⟩

/-- C62, squaring, for every odd modulus. -/
theorem C62_square (hq : q % 2 = 1) (h : TagReady q s) (ha : TagOperand q s .rsi)
    (hla : (opAt q s .rsi).long = true → val (opAt q s .rsi).longVal < q) :
    ∃ s', run (libRaw q ra) ra squareCode s = some s' ∧
      TagReturns q s s' (Fr_square q (absMem (n64 q) s.mem) (s.reg .rdi).toNat (s.reg .rsi).toNat (s.reg .rdi).toNat) :=
  let ⟨s', h1, h2⟩ := squareCode_run hq h.args ha.opnd
    (by have := callCells_le q; have := n64_pos q; unfold tagStack; omega) (by rw [absMem_at]; exact hla)
  ⟨s', h1, tagReturns_of h2⟩

/-- C62, negation, for every modulus. -/
theorem C62_neg (h : TagReady q s) (ha : TagOperand q s .rsi) :
    ∃ s', run (libRaw q ra) ra negCode s = some s' ∧
      TagReturns q s s' (Fr_neg q (absMem (n64 q) s.mem) (s.reg .rdi).toNat (s.reg .rsi).toNat (s.reg .rdi).toNat) :=
  let ⟨s', h1, h2⟩ := negCode_run h.args ha.opnd
    (by have := callCells_le q; have := n64_pos q; unfold tagStack; omega)
  ⟨s', h1, tagReturns_of h2⟩

/-- C62, conversion to normal form.  Missing: the long elements in Montgomery form of the seven-limb moduli,
for which C55 has no right conversion (`FromOk`). -/
theorem C62_toNormal_partial (hq : q % 2 = 1) (h7 : FromOk q (opAt q s .rsi)) (h : TagReady q s)
    (ha : TagOperand q s .rsi) :
    ∃ s', run (libRaw q ra) ra toNormal s = some s' ∧
      TagReturns q s s' (Fr_toNormal q (absMem (n64 q) s.mem) (s.reg .rdi).toNat (s.reg .rsi).toNat (s.reg .rdi).toNat) := by
  obtain ⟨s', h1, h2⟩ := toNormal_run (ra := ra) hq h7 h.args ha.opnd
  exact ⟨s', h1, by rw [Fr_toNormal_eq, FF.set_same, absMem_at, absMem_at]; exact tagReturns_of h2⟩

/-- C62, conversion to long normal form.  Missing as above. -/
theorem C62_toLongNormal_partial (hq : q % 2 = 1) (h7 : FromOk q (opAt q s .rsi)) (h : TagReady q s)
    (ha : TagOperand q s .rsi) :
    ∃ s', run (libRaw q ra) ra toLongNormal s = some s' ∧
      TagReturns q s s' (Fr_toLongNormal q (absMem (n64 q) s.mem) (s.reg .rdi).toNat (s.reg .rsi).toNat
        (s.reg .rdi).toNat) := by
  obtain ⟨s', h1, h2⟩ := toLongNormal_run (ra := ra) hq h7 h.args ha.opnd
  exact ⟨s', h1, by rw [Fr_toLongNormal_eq, FF.set_same, absMem_at, absMem_at]; exact tagReturns_of h2⟩

/-- C62, conversion to Montgomery form.  Here the backends agree only in place or where the small value is not part of the
element: the assembly copies it, the portable code does not (`C62_toMontgomery_violated`). -/
theorem C62_toMontgomery_partial (hq : q % 2 = 1) (h7 : ToOk q (opAt q s .rsi)) (h : TagReady q s) (ha : TagOperand q s .rsi)
    (hs : (opAt q s .rsi).long = true ∨ (opAt q s .rsi).mont = true ∨ (opAt q s .rdi).shortVal = (opAt q s .rsi).shortVal) :
    ∃ s', run (libRaw q ra) ra toMontgomery s = some s' ∧
      TagReturns q s s' (Fr_toMontgomery q (absMem (n64 q) s.mem) (s.reg .rdi).toNat (s.reg .rsi).toNat
        (s.reg .rdi).toNat) := by
  obtain ⟨s', h1, h2⟩ := toMontgomery_run (ra := ra) hq h7 h.args ha.opnd
  refine ⟨s', h1, ?_⟩
  rw [Fr_toMontgomery_eq, FF.set_same, absMem_at, absMem_at]
  have e : toMontAsm q (opAt q s .rsi) = toMontgomeryInto q (opAt q s .rdi) (opAt q s .rsi) := by
    unfold toMontAsm toMontgomeryInto
    split
    · rfl
    · rename_i hm
      split
      · rfl
      · rename_i hl
        have : (opAt q s .rdi).shortVal = (opAt q s .rsi).shortVal := by simpa [hm, hl] using hs
        split <;> simp [this]
  exact tagReturns_of (e ▸ h2)

end agree

/-! ## C61: the arithmetic routines compute with residues -/

section residues

variable {q : Nat} {s : State} {ra : BitVec 64} {x y : ZMod q}

/-- A call of a two-operand routine returns normally with an element that denotes `z`. -/
def TagDenotes (env : String → Option (State → Option State)) (ra : BitVec 64) (code : List Line) (q : Nat) (s : State)
    (z : ZMod q) : Prop :=
  ∃ s' e, run env ra code s = some s' ∧ TagReturns q s s' e ∧ Rep q e z

/-- C61, addition.  Missing: of the moduli with `¬ ConvRight q`, a plain short operand beside one in Montgomery form
(`C61_seven_violated`), and the in-place calls of `TagConvClash`, for which it is
false (`C61_add_violated`). -/
theorem C61_add_partial (ra : BitVec 64) (hq : Modulus q) (h7 : MixOk q (opAt q s .rsi) (opAt q s .rdx)) (h : TagReady q s)
    (ha : TagOperand q s .rsi) (hb : TagOperand q s .rdx) (hx : Rep q (opAt q s .rsi) x) (hy : Rep q (opAt q s .rdx) y)
    (hc : ¬ TagConvClash q s) : TagDenotes (lib q ra) ra (addCode (n64 q)) q s (x + y) := by
  obtain ⟨s', h1, h2⟩ := C62_add_partial (ra := ra) (opAt q s .rdi) hq.odd h7 h ha hb
  refine ⟨s', _, h1, h2, (C06_add hq ?_ ?_ (fun c => hc (convClash_iff.mp c))).1⟩ <;> rw [absMem_at] <;> assumption

/-- C61, addition into an element distinct from both operands. -/
theorem C61_add_distinct_partial (ra : BitVec 64) (hq : Modulus q) (h7 : MixOk q (opAt q s .rsi) (opAt q s .rdx)) (h : TagReady q s)
    (ha : TagOperand q s .rsi) (hb : TagOperand q s .rdx) (hx : Rep q (opAt q s .rsi) x) (hy : Rep q (opAt q s .rdx) y)
    (h1 : s.reg .rdi ≠ s.reg .rsi) (h2 : s.reg .rdi ≠ s.reg .rdx) :
    TagDenotes (lib q ra) ra (addCode (n64 q)) q s (x + y) :=
  C61_add_partial ra hq h7 h ha hb hx hy fun c => c.elim (fun c => h1 c.1) (fun c => h2 c.1)

/-- C61, subtraction.  Missing as for addition, and the in-place calls of `TagNegClash` (`C61_sub_violated`). -/
theorem C61_sub_partial (ra : BitVec 64) (hq : Modulus q) (h7 : MixOk q (opAt q s .rsi) (opAt q s .rdx)) (h : TagReady q s)
    (ha : TagOperand q s .rsi) (hb : TagOperand q s .rdx) (hx : Rep q (opAt q s .rsi) x) (hy : Rep q (opAt q s .rdx) y)
    (hc : ¬ TagConvClash q s) (hn : ¬ TagNegClash q s) : TagDenotes (lib q ra) ra (subCode (n64 q)) q s (x - y) := by
  obtain ⟨s', h1, h2⟩ := C62_sub_partial (ra := ra) (opAt q s .rdi) hq.odd h7 h ha hb
  refine ⟨s', _, h1, h2, (C07_sub hq ?_ ?_ (fun c => hc (convClash_iff.mp c)) (fun c => hn (negClash_iff.mp c))).1⟩ <;>
    rw [absMem_at] <;> assumption

/-- C61, subtraction into an element distinct from both operands. -/
theorem C61_sub_distinct_partial (ra : BitVec 64) (hq : Modulus q) (h7 : MixOk q (opAt q s .rsi) (opAt q s .rdx)) (h : TagReady q s)
    (ha : TagOperand q s .rsi) (hb : TagOperand q s .rdx) (hx : Rep q (opAt q s .rsi) x) (hy : Rep q (opAt q s .rdx) y)
    (h1 : s.reg .rdi ≠ s.reg .rsi) (h2 : s.reg .rdi ≠ s.reg .rdx) :
    TagDenotes (lib q ra) ra (subCode (n64 q)) q s (x - y) :=
  C61_sub_partial ra hq h7 h ha hb hx hy (fun c => c.elim (fun c => h1 c.1) (fun c => h2 c.1)) fun c => h2 c.1

theorem Rep.red {e : Elem} (h : Rep q e x) (hl : e.long = true ∨ e.mont = true) : val e.longVal < q := by
  cases h1 : e.mont
  · exact (h.getLong (by simpa [h1] using hl) h1).2.1
  · exact (h.getMont h1).2.1

/-- C61, multiplication, also in place.  Missing: of the moduli with `¬ Mul1Right q`, a plain short operand beside a long one. -/
theorem C61_mul_partial (ra : BitVec 64) (hq : Modulus q) (h7 : MulOk q (opAt q s .rsi) (opAt q s .rdx)) (h : TagReady q s)
    (ha : TagOperand q s .rsi) (hb : TagOperand q s .rdx) (hx : Rep q (opAt q s .rsi) x) (hy : Rep q (opAt q s .rdx) y) :
    TagDenotes (libRaw q ra) ra mulCode q s (x * y) := by
  obtain ⟨s', h1, h2⟩ := C62_mul_partial (ra := ra) hq.odd h7 h ha hb (fun h => Rep.red hx (.inl h)) (Rep.red hy)
  refine ⟨s', _, h1, h2, (C08_mul hq ?_ ?_).1⟩ <;> rw [absMem_at] <;> assumption

/-- C61, squaring, also in place, for every modulus. -/
theorem C61_square (ra : BitVec 64) (hq : Modulus q) (h : TagReady q s)
    (ha : TagOperand q s .rsi) (hx : Rep q (opAt q s .rsi) x) : TagDenotes (libRaw q ra) ra squareCode q s (x * x) := by
  obtain ⟨s', h1, h2⟩ := C62_square (ra := ra) hq.odd h ha (fun h => Rep.red hx (.inl h))
  exact ⟨s', _, h1, h2, (C08_square hq (by rw [absMem_at]; exact hx)).1⟩

/-- C61, negation, also in place, for every modulus. -/
theorem C61_neg (ra : BitVec 64) (hq : Modulus q) (h : TagReady q s)
    (ha : TagOperand q s .rsi) (hx : Rep q (opAt q s .rsi) x) : TagDenotes (libRaw q ra) ra negCode q s (-x) := by
  obtain ⟨s', h1, h2⟩ := C62_neg (ra := ra) h ha
  exact ⟨s', _, h1, h2, (C09_neg hq (by rw [absMem_at]; exact hx)).1⟩

end residues

/-! ## C63: the conversions -/

section conversions

variable {q : Nat} {s : State} {ra : BitVec 64} {x : ZMod q}

/-- A conversion returns normally with an element that denotes `z` and whose tag satisfies `P`. -/
def TagConverts (env : String → Option (State → Option State)) (ra : BitVec 64) (code : List Line) (q : Nat) (s : State)
    (z : ZMod q) (P : Elem → Prop) : Prop :=
  ∃ s' e, run env ra code s = some s' ∧ TagReturns q s s' e ∧ Rep q e z ∧ P e

/-- C63, to normal form.  Missing: the long elements in Montgomery form of the seven-limb moduli,
for which C55 has no right conversion (`FromOk`). -/
theorem C63_toNormal_partial (ra : BitVec 64) (hq : Modulus q) (h7 : FromOk q (opAt q s .rsi)) (h : TagReady q s)
    (ha : TagOperand q s .rsi) (hx : Rep q (opAt q s .rsi) x) :
    TagConverts (libRaw q ra) ra toNormal q s x fun e => ¬ (e.long = true ∧ e.mont = true) := by
  obtain ⟨s', h1, h2⟩ := toNormal_run (ra := ra) hq.odd h7 h.args ha.opnd
  have hh := C16_toNormal (r := (s.reg .rdi).toNat) hq
    (show Rep q (absMem (n64 q) s.mem (s.reg .rsi).toNat) x by rw [absMem_at]; exact hx)
  rw [Fr_toNormal_eq, FF.set_same, absMem_at, absMem_at] at hh
  exact ⟨s', _, h1, tagReturns_of h2, hh.1, hh.2.1⟩

/-- C63, to long normal form.  Missing as above. -/
theorem C63_toLongNormal_partial (ra : BitVec 64) (hq : Modulus q) (h7 : FromOk q (opAt q s .rsi)) (h : TagReady q s)
    (ha : TagOperand q s .rsi) (hx : Rep q (opAt q s .rsi) x) :
    TagConverts (libRaw q ra) ra toLongNormal q s x fun e => e.long = true ∧ e.mont = false := by
  obtain ⟨s', h1, h2⟩ := toLongNormal_run (ra := ra) hq.odd h7 h.args ha.opnd
  have hh := C16_toLongNormal (r := (s.reg .rdi).toNat) hq
    (show Rep q (absMem (n64 q) s.mem (s.reg .rsi).toNat) x by rw [absMem_at]; exact hx)
  rw [Fr_toLongNormal_eq, FF.set_same, absMem_at, absMem_at] at hh
  exact ⟨s', _, h1, tagReturns_of h2, hh.1, hh.2.1, hh.2.2.1⟩

/-- C63, to Montgomery form, also of a plain short into another element, where the portable code is wrong
(`C16_toMontgomery_violated`).  Missing: the plain short elements of the moduli with `¬ ConvRight q`. -/
theorem C63_toMontgomery_partial (ra : BitVec 64) (hq : Modulus q) (h7 : ToOk q (opAt q s .rsi)) (h : TagReady q s)
    (ha : TagOperand q s .rsi) (hx : Rep q (opAt q s .rsi) x) :
    TagConverts (libRaw q ra) ra toMontgomery q s x fun e => e.mont = true := by
  obtain ⟨s', h1, h2⟩ := toMontgomery_run (ra := ra) hq.odd h7 h.args ha.opnd
  have hh := C16_toMontgomery_inplace hq
    (show Rep q (absMem (n64 q) s.mem (s.reg .rsi).toNat) x by rw [absMem_at]; exact hx)
  rw [Fr_toMontgomery_eq, FF.set_same, absMem_at] at hh
  have e : toMontAsm q (opAt q s .rsi) = toMontgomeryInto q (opAt q s .rsi) (opAt q s .rsi) := by
    unfold toMontAsm toMontgomeryInto; split
    · rfl
    · split
      · rfl
      · split <;> rfl
  exact ⟨s', _, h1, tagReturns_of (e ▸ h2), hh⟩

end conversions

/-! ## A concrete machine, and the in-place calls that go wrong -/

/-- The five words of an element of four limbs, `src/fr_element.hpp.ejs`. -/
def words (e : Elem) : Limbs :=
  (e.shortVal.setWidth 64 ||| (if e.long then 1 <<< 63 else 0) ||| (if e.mont then 1 <<< 62 else 0)) :: e.longVal

/-- A machine for the BN254 scalar field: the tables from address 0, three elements at 144, 184 and 224, of which the
`i`-th, `j`-th and `k`-th are the result and the operands. -/
def tagDemo (e0 e1 e2 : Elem) (i j k : Nat) : State where
  reg := fun r => match r with
    | .rdi => BitVec.ofNat 64 (144 + 40 * i) | .rsi => BitVec.ofNat 64 (144 + 40 * j)
    | .rdx => BitVec.ofNat 64 (144 + 40 * k) | .rsp => 4096 | .rbx => 7 | _ => 0
  fl := ⟨true, true, true, true⟩
  mem := memOf (rawq bnR ++ half bnR ++ rawR2 bnR ++ rawR3 bnR ++ [lboMask bnR, np bnR] ++ words e0 ++ words e1 ++ words e2)
  sym := fun y => match y with | .q => 0 | .half => 32 | .r2 => 64 | .r3 => 96 | .lboMask => 128 | .np => 136

theorem n64_bnR : n64 bnR = 4 := by decide +kernel

theorem low_not_stk {a : BitVec 64} (h : a.toNat < 2048) : ¬ InStk 4096 (tagStack bnR) a := by
  rintro ⟨j, h1, rfl⟩
  rw [tagStack, n64_bnR] at h1
  revert h; revert j; decide +kernel

theorem arr_low {p : BitVec 64} {m : Nat} (hp : p.toNat < 1024) (hm : m ≤ 5) {a : BitVec 64} (h : InArr p m a) :
    a.toNat < 2048 ∧ p.toNat ≤ a.toNat ∧ a.toNat < p.toNat + 8 * m := by
  obtain ⟨i, h1, rfl⟩ := h
  have : (cell p i).toNat = p.toNat + 8 * i := by
    rw [cell, BitVec.toNat_add, BitVec.toNat_ofNat]; omega
  omega

theorem data_low {s : State} (hs : s.sym = (tagDemo (sS 0) (sS 0) (sS 0) 0 0 0).sym) {a : BitVec 64}
    (h : InData bnR s.sym a) : a.toNat < 144 := by
  rw [hs, InData, n64_bnR] at h
  rcases h with h | h | h | h | h | h
  · exact lt_of_lt_of_le (arr_low (by decide) (by decide) h).2.2 (by decide)
  · exact lt_of_lt_of_le (arr_low (by decide) (by decide) h).2.2 (by decide)
  · exact lt_of_lt_of_le (arr_low (by decide) (by decide) h).2.2 (by decide)
  · exact lt_of_lt_of_le (arr_low (by decide) (by decide) h).2.2 (by decide)
  · subst h; decide
  · subst h; decide

theorem addr {i : Nat} (hi : i < 3) : (BitVec.ofNat 64 (144 + 40 * i)).toNat = 144 + 40 * i := by
  rw [BitVec.toNat_ofNat]; omega

/-- The demo machine is ready as soon as the kernel has read its tables back. -/
theorem tagDemo_ready {e0 e1 e2 : Elem} {i j k : Nat} (hi : i < 3)
    (hd : rd (tagDemo e0 e1 e2 i j k).mem 0 4 = rawq bnR ∧ rd (tagDemo e0 e1 e2 i j k).mem 32 4 = half bnR ∧
      rd (tagDemo e0 e1 e2 i j k).mem 64 4 = rawR2 bnR ∧ rd (tagDemo e0 e1 e2 i j k).mem 96 4 = rawR3 bnR ∧
      (tagDemo e0 e1 e2 i j k).mem 128 = lboMask bnR ∧ (tagDemo e0 e1 e2 i j k).mem 136 = np bnR) :
    TagReady bnR (tagDemo e0 e1 e2 i j k) := by
  obtain ⟨h1, h2, h3, h4, h5, h6⟩ := hd
  have ad : ((tagDemo e0 e1 e2 i j k).reg .rdi).toNat = 144 + 40 * i := addr hi
  refine ⟨by rw [tagStack, n64_bnR]; decide, by rw [n64_bnR]; exact h1, by rw [n64_bnR]; exact h2, by rw [n64_bnR]; exact h3,
    by rw [n64_bnR]; exact h4, h5, h6, fun a h => low_not_stk (by have := data_low rfl h; omega), fun a h => ?_, fun a h h' => ?_⟩
  · rw [n64_bnR] at h
    exact low_not_stk (arr_low (by rw [ad]; omega) (by decide) h).1
  · have := data_low rfl h'
    rw [n64_bnR] at h
    have := (arr_low (by rw [ad]; omega) (by decide) h).2.1
    rw [ad] at this
    omega

theorem demo_operand {s : State} {b : Reg} {i j : Nat} (hi : i < 3) (hj : j < 3)
    (hd : s.reg .rdi = BitVec.ofNat 64 (144 + 40 * i)) (hb : s.reg b = BitVec.ofNat 64 (144 + 40 * j))
    (hs : s.reg .rsp = 4096) : TagOperand bnR s b := by
  have ai := addr hi
  have aj := addr hj
  refine ⟨?_, fun a h => ?_⟩
  · rw [hd, hb, n64_bnR]
    by_cases e : j = i
    · exact .inl (by rw [e])
    · refine .inr fun k l hk hl c => e ?_
      have := congrArg BitVec.toNat c
      rw [cell, cell, BitVec.toNat_add, BitVec.toNat_add, ai, aj, BitVec.toNat_ofNat, BitVec.toNat_ofNat,
        Nat.mod_eq_of_lt (show 8 * k < 2 ^ 64 by omega), Nat.mod_eq_of_lt (show 8 * l < 2 ^ 64 by omega),
        Nat.mod_eq_of_lt (show 144 + 40 * j + 8 * k < 2 ^ 64 by omega),
        Nat.mod_eq_of_lt (show 144 + 40 * i + 8 * l < 2 ^ 64 by omega)] at this
      clear ai aj c hd hb hs
      omega
  · rw [n64_bnR] at h
    rw [hs]
    exact low_not_stk (arr_low (by rw [hb, aj]; omega) (by decide) h).1

theorem tagDemo_opnds {e0 e1 e2 : Elem} {i j k : Nat} (hi : i < 3) (hj : j < 3) (hk : k < 3) :
    TagOperand bnR (tagDemo e0 e1 e2 i j k) .rsi ∧ TagOperand bnR (tagDemo e0 e1 e2 i j k) .rdx :=
  ⟨demo_operand hi hj rfl rfl rfl, demo_operand hi hk rfl rfl rfl⟩

theorem bnR_mul1 : Mul1Right bnR := .inl (by decide +kernel)
theorem bnR_conv : ConvRight bnR := .inl (by decide +kernel)

example : ∃ s' e, run (lib bnR 0) 0 (addCode 4) (tagDemo (sS (-5)) (sL (bnR - 3)) (sM 77) 0 1 2) = some s' ∧
    TagReturns bnR (tagDemo (sS (-5)) (sL (bnR - 3)) (sM 77) 0 1 2) s' e ∧
    Rep bnR e (((bnR - 3 : Nat) : ZMod bnR) + ((77 : Nat) : ZMod bnR)) :=
  n64_bnR ▸ C61_add_distinct_partial 0 bnR_modulus (.of bnR_conv _ _) (tagDemo_ready (by decide) (by decide +kernel))
    (tagDemo_opnds (by decide) (by decide) (by decide)).1 (tagDemo_opnds (by decide) (by decide) (by decide)).2
    (Rep_iff.mpr (by decide +kernel)) (Rep_iff.mpr (by decide +kernel)) (by decide) (by decide)
example : TagDenotes (lib bnR 0) 0 (subCode 4) bnR (tagDemo (sS (-5)) (sL (bnR - 3)) (sM 77) 0 0 1)
    (((bnR - 5 : Nat) : ZMod bnR) - ((bnR - 3 : Nat) : ZMod bnR)) :=
  n64_bnR ▸ C61_sub_partial 0 bnR_modulus (.of bnR_conv _ _) (tagDemo_ready (by decide) (by decide +kernel))
    (tagDemo_opnds (by decide) (by decide) (by decide)).1 (tagDemo_opnds (by decide) (by decide) (by decide)).2
    (Rep_iff.mpr (by decide +kernel)) (Rep_iff.mpr (by decide +kernel))
    (by unfold TagConvClash; decide +kernel) (by unfold TagNegClash; decide +kernel)
example : TagDenotes (libRaw bnR 0) 0 mulCode bnR (tagDemo (sS (-5)) (sL (bnR - 3)) (sM 77) 0 0 2)
    (((bnR - 5 : Nat) : ZMod bnR) * ((77 : Nat) : ZMod bnR)) :=
  C61_mul_partial 0 bnR_modulus (.of bnR_mul1 _ _) (tagDemo_ready (by decide) (by decide +kernel))
    (tagDemo_opnds (by decide) (by decide) (by decide)).1 (tagDemo_opnds (by decide) (by decide) (by decide)).2
    (Rep_iff.mpr (by decide +kernel)) (Rep_iff.mpr (by decide +kernel))
example : TagDenotes (libRaw bnR 0) 0 squareCode bnR (tagDemo (sS (-5)) (sL (bnR - 3)) (sM 77) 2 2 0)
    (((77 : Nat) : ZMod bnR) * ((77 : Nat) : ZMod bnR)) :=
  C61_square 0 bnR_modulus (tagDemo_ready (by decide) (by decide +kernel))
    (tagDemo_opnds (by decide) (by decide) (by decide)).1 (Rep_iff.mpr (by decide +kernel))
example : TagDenotes (libRaw bnR 0) 0 negCode bnR (tagDemo (sS (-5)) (sL (bnR - 3)) (sM 77) 0 2 0)
    (-((77 : Nat) : ZMod bnR)) :=
  C61_neg 0 bnR_modulus (tagDemo_ready (by decide) (by decide +kernel))
    (tagDemo_opnds (by decide) (by decide) (by decide)).1 (Rep_iff.mpr (by decide +kernel))
example : TagConverts (libRaw bnR 0) 0 toMontgomery bnR (tagDemo (sS 7) (sS 1) (sM 77) 1 0 0) ((7 : Nat) : ZMod bnR)
    fun e => e.mont = true :=
  C63_toMontgomery_partial 0 bnR_modulus (.of bnR_conv _) (tagDemo_ready (by decide) (by decide +kernel))
    (tagDemo_opnds (by decide) (by decide) (by decide)).1 (Rep_iff.mpr (by decide +kernel))
example : TagConverts (libRaw bnR 0) 0 toNormal bnR (tagDemo (sS 7) (sS 1) (sM 77) 1 2 0) ((77 : Nat) : ZMod bnR)
    fun e => ¬ (e.long = true ∧ e.mont = true) :=
  C63_toNormal_partial 0 bnR_modulus (.of_ne (by rw [n64_bnR]; decide) _) (tagDemo_ready (by decide) (by decide +kernel))
    (tagDemo_opnds (by decide) (by decide) (by decide)).1 (Rep_iff.mpr (by decide +kernel))
example : TagConverts (libRaw bnR 0) 0 toLongNormal bnR (tagDemo (sS (-7)) (sS 1) (sM 77) 1 0 0) ((bnR - 7 : Nat) : ZMod bnR)
    fun e => e.long = true ∧ e.mont = false :=
  C63_toLongNormal_partial 0 bnR_modulus (.of_ne (by rw [n64_bnR]; decide) _) (tagDemo_ready (by decide) (by decide +kernel))
    (tagDemo_opnds (by decide) (by decide) (by decide)).1 (Rep_iff.mpr (by decide +kernel))

/-- C62 fails for `toMontgomery(r, a)` with a plain short `a` and `r ≠ a`: the assembly copies the small value, the portable
code keeps the old one. -/
theorem C62_toMontgomery_violated (ra : BitVec 64) :
    let s := tagDemo (sS 1) (sS 7) (sS 0) 0 1 2
    ∃ s', run (libRaw bnR ra) ra toMontgomery s = some s' ∧ opAt bnR s' .rdi ≠
      Fr_toMontgomery bnR (absMem 4 s.mem) (s.reg .rdi).toNat (s.reg .rsi).toNat (s.reg .rdi).toNat := by
  obtain ⟨s', h1, h2⟩ := toMontgomery_run (ra := ra) bnR_modulus.odd (.of bnR_conv _)
    (tagDemo_ready (e0 := sS 1) (e1 := sS 7) (e2 := sS 0) (i := 0) (j := 1) (k := 2) (by decide) (by decide +kernel)).args
    (tagDemo_opnds (by decide) (by decide) (by decide)).1.opnd
  refine ⟨s', h1, ?_⟩
  rw [(tagReturns_of h2).elem]
  decide +kernel

/-- C61 fails for `add(a, a, b)` with `a` long normal and `b` long Montgomery, as in the portable code: `1 + 1` in place is
not `2`. -/
theorem C61_add_violated (ra : BitVec 64) :
    let s := tagDemo (sL 1) (sM 1) (sS 0) 0 0 1
    Rep bnR (opAt bnR s .rsi) ((1 : Nat) : ZMod bnR) ∧ Rep bnR (opAt bnR s .rdx) ((1 : Nat) : ZMod bnR) ∧
      ∃ s', run (lib bnR ra) ra (addCode (n64 bnR)) s = some s' ∧ ¬ Rep bnR (opAt bnR s' .rdi) ((2 : Nat) : ZMod bnR) := by
  obtain ⟨s', h1, h2⟩ := C62_add_partial (ra := ra) (s := tagDemo (sL 1) (sM 1) (sS 0) 0 0 1) (sS 0) bnR_modulus.odd (.of bnR_conv _ _)
    (tagDemo_ready (by decide) (by decide +kernel))
    (tagDemo_opnds (by decide) (by decide) (by decide)).1 (tagDemo_opnds (by decide) (by decide) (by decide)).2
  refine ⟨Rep_iff.mpr (by decide +kernel), Rep_iff.mpr (by decide +kernel), s', h1, ?_⟩
  rw [h2.elem, Rep_iff]
  decide +kernel

/-- C61 fails for `sub(b, a, b)` with `a` a negative short and `b` long normal, as in the portable code: `-1 - 1` in place
is not `-2`. -/
theorem C61_sub_violated (ra : BitVec 64) :
    let s := tagDemo (sS (-1)) (sL 1) (sS 0) 1 0 1
    Rep bnR (opAt bnR s .rsi) ((bnR - 1 : Nat) : ZMod bnR) ∧ Rep bnR (opAt bnR s .rdx) ((1 : Nat) : ZMod bnR) ∧
      ∃ s', run (lib bnR ra) ra (subCode (n64 bnR)) s = some s' ∧
        ¬ Rep bnR (opAt bnR s' .rdi) ((bnR - 2 : Nat) : ZMod bnR) := by
  obtain ⟨s', h1, h2⟩ := C62_sub_partial (ra := ra) (s := tagDemo (sS (-1)) (sL 1) (sS 0) 1 0 1) (sS 0) bnR_modulus.odd (.of bnR_conv _ _)
    (tagDemo_ready (by decide) (by decide +kernel))
    (tagDemo_opnds (by decide) (by decide) (by decide)).1 (tagDemo_opnds (by decide) (by decide) (by decide)).2
  refine ⟨Rep_iff.mpr (by decide +kernel), Rep_iff.mpr (by decide +kernel), s', h1, ?_⟩
  rw [h2.elem, Rep_iff]
  decide +kernel

end FF.Props
