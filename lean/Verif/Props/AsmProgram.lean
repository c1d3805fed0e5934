import Verif.AsmTagMach
import Verif.Props.AsmPred
import Verif.Props.AsmShift
import Verif.Props.Program

/-!
# Property C79: programs of tagged calls on the x86-64 machine

The elements of a caller lie anywhere in memory, apart from each other, from the tables of the library and from the stack cells below
the stack pointer.  Between two calls the caller does what it likes with its registers, the flags and the rest of the memory; to call a
routine it loads the argument registers and pushes a return address.  A list of such calls of any length returns, and leaves in every
element the residue that the same list of operations computes on residues (`runSpec`, of C20).
-/

namespace FF.Props

open FF FF.X86

/-! ## The caller -/

/-- The routine of the library, `src/*.asm.ejs`, and the routines it calls. -/
def Op.codeX86 (q : Nat) : Op → List Line
  | .copy => X86.copy (n64 q)
  | .toNormal => X86.toNormal
  | .toLongNormal => X86.toLongNormal
  | .toMontgomery => X86.toMontgomery
  | .add => addCode (n64 q)
  | .sub => subCode (n64 q)
  | .mul => mulCode
  | .square => squareCode
  | .neg => negCode
  | .eq => cmpStore "req"
  | .neq => cmpStoreNot "req"
  | .lt => cmpStore "rlt"
  | .gt => cmpStore "rgt"
  | .leq => cmpStoreNot "rgt"
  | .geq => cmpStoreNot "rlt"
  | .land => landCode (n64 q)
  | .lor => lorCode (n64 q)
  | .lnot => lnotCode (n64 q)
  | .band => bandCode (n64 q)
  | .bor => borCode (n64 q)
  | .bxor => bxorCode (n64 q)
  | .bnot => bnotCode (n64 q)
  | .shl => shlCode (bitLen q) (n64 q)
  | .shr => shrCode (bitLen q) (n64 q)

/-- The part of the library the routine calls into. -/
def Op.envX86 (q : Nat) (ra : BitVec 64) : Op → String → Option (State → Option State)
  | .copy => noCalls
  | .toNormal | .toLongNormal | .toMontgomery | .mul | .square | .neg => libRaw q ra
  | .eq | .neq | .lt | .gt | .leq | .geq => libCmp q ra
  | .shl | .shr => libShift q ra
  | _ => lib q ra

/-- The operations that read a second operand. -/
def Op.binary : Op → Bool
  | .copy | .toNormal | .toLongNormal | .toMontgomery | .square | .neg | .lnot | .bnot => false
  | _ => true

/-- The caller's program: before each call the caller brings the machine from the state it is in to the state at the first instruction
of the routine, by any means (`prep`, which sees the calls that remain). -/
def callAll (q : Nat) (ra : BitVec 64) (prep : List Instr → State → State) : List Instr → State → Option State
  | [], s => some s
  | i :: is, s => (X86.run (i.op.envX86 q ra) ra (i.op.codeX86 q) (prep (i :: is) s)).bind (callAll q ra prep is)

/-- The memory of the caller: `k` elements, the tables, and the stack with room for a return address and the cells of a routine. -/
structure Layout (q k : Nat) (loc : Nat → BitVec 64) (s : State) : Prop where
  fits : 8 * (tagStack q + n64 q + 8) ≤ 2 ^ 64
  apart : ∀ p < k, ∀ p' < k, p ≠ p' → Sep (loc p) (loc p') (n64 q + 1)
  elemTables : ∀ p < k, ∀ a, InArr (loc p) (n64 q + 1) a → ¬ InData q s.sym a
  elemStack : ∀ p < k, ∀ a, InArr (loc p) (n64 q + 1) a → ¬ InStk (s.reg .rsp) (tagStack q + 1) a
  tablesStack : ∀ a, InData q s.sym a → ¬ InStk (s.reg .rsp) (tagStack q + 1) a
  mod : rd s.mem (s.sym .q) (n64 q) = rawq q
  half : rd s.mem (s.sym .half) (n64 q) = half q
  r2 : rd s.mem (s.sym .r2) (n64 q) = rawR2 q
  r3 : rd s.mem (s.sym .r3) (n64 q) = rawR3 q
  mask : s.mem (s.sym .lboMask) = lboMask q
  np : s.mem (s.sym .np) = np q

/-- The caller enters a routine: the argument registers are loaded, the stack pointer is one cell down for the return address, and the
elements and the tables are as they were. -/
structure Enters (q k : Nat) (loc : Nat → BitVec 64) (i : Instr) (s s1 : State) : Prop where
  rdi : s1.reg .rdi = loc i.r
  rsi : s1.reg .rsi = loc i.a
  rdx : i.op.binary = true → s1.reg .rdx = loc i.b
  rsp : s1.reg .rsp = s.reg .rsp - 8
  sym : s1.sym = s.sym
  elems : ∀ p < k, ∀ a, InArr (loc p) (n64 q + 1) a → s1.mem a = s.mem a
  tables : ∀ a, InData q s.sym a → s1.mem a = s.mem a

/-- The call names elements of the caller. -/
def Instr.inRange (k : Nat) (i : Instr) : Prop := i.r < k ∧ i.a < k ∧ (i.op.binary = true → i.b < k)

/-- Placement of the result.  The conversions, the product, the comparisons, the logical operations and the shifts may overwrite an
operand. -/
def Instr.placedX86 (i : Instr) : Prop :=
  match i.op with
  | .add | .sub | .band | .bor | .bxor => i.r ≠ i.a ∧ i.r ≠ i.b
  | .bnot => i.r ≠ i.a
  | _ => True

/-- At the entry of a call: a result placed on an operand is one of those C61 and C66 show to be right (the operands are read before they are
overwritten). -/
def Instr.clear (q : Nat) (i : Instr) (s : State) : Prop :=
  match i.op with
  | .add => ¬ TagConvClash q s
  | .sub => ¬ TagConvClash q s ∧ ¬ TagNegClash q s
  | .band | .bor | .bxor => TagBitInPlace q s
  | .bnot => s.reg .rdi = s.reg .rsi → (opAt q s .rsi).long = true ∧ (opAt q s .rsi).mont = false
  | _ => True

/-- The moduli for which the routine is right on all elements, C61–C67. -/
def Op.rightX86 (q : Nat) : Op → Prop
  | .copy | .square | .neg | .land | .lor | .lnot => True
  | .add | .sub | .toMontgomery | .eq | .neq => ConvRight q
  | .mul => Mul1Right q
  | .shl | .shr => n64 q ≠ 7 ∧ bitLen q < 2 ^ 31
  | _ => n64 q ≠ 7

/-- At the entry of a call: for the other moduli, the operands are of the forms on which C61–C67 show the routine to be right. -/
def Instr.formed (q : Nat) (i : Instr) (s : State) : Prop :=
  match i.op with
  | .copy | .square | .neg | .land | .lor | .lnot => True
  | .add | .sub | .eq | .neq => MixOk q (opAt q s .rsi) (opAt q s .rdx)
  | .toMontgomery => ToOk q (opAt q s .rsi)
  | .mul => MulOk q (opAt q s .rsi) (opAt q s .rdx)
  | .toNormal | .toLongNormal | .bnot => FromOk q (opAt q s .rsi)
  | .shl | .shr => (FromOk q (opAt q s .rsi) ∧ FromOk q (opAt q s .rdx)) ∧ bitLen q < 2 ^ 31
  | _ => FromOk q (opAt q s .rsi) ∧ FromOk q (opAt q s .rdx)

/-- Every call of the program is placed apart from its operands or is clear when it is entered, and its routine is right for the modulus or
for the forms of its operands. -/
def ClearAll (q : Nat) (ra : BitVec 64) (prep : List Instr → State → State) : List Instr → State → Prop
  | [], _ => True
  | i :: is, s => (i.placedX86 ∨ i.clear q (prep (i :: is) s)) ∧ (i.op.rightX86 q ∨ i.formed q (prep (i :: is) s)) ∧
      ∀ s', X86.run (i.op.envX86 q ra) ra (i.op.codeX86 q) (prep (i :: is) s) = some s' → ClearAll q ra prep is s'

/-! ## One call -/

section step

variable {q k : Nat} {loc : Nat → BitVec 64} {ra : BitVec 64} {i : Instr} {s s1 s2 : State} {x y : ZMod q}

theorem C79_copy (ra : BitVec 64) (h : TagReady q s) (ha : TagOperand q s .rsi) (hx : Rep q (opAt q s .rsi) x) :
    TagDenotes noCalls ra (X86.copy (n64 q)) q s x := by
  have hf := h.fits
  obtain ⟨t, h1, h2⟩ := (C54_copy (n := n64 q) (s := s) ra (by omega)).2 ha.ali
  have hs : t.sym = s.sym := run_sym (env := noCalls) (by intro f g s s' e; exact absurd e (by simp [noCalls])) _ _ _ _ (Nat.lt_succ_self _) h1
  have hd : t.reg .rdi = s.reg .rdi := by
    obtain ⟨t', h1', h2'⟩ := copy_run noCalls ra s (n64 q) (by omega) ha.ali
    rw [h1] at h1'
    injection h1' with e
    subst e
    exact h2'.regs _ ⟨by decide, by decide⟩
  have hc : ∀ i, i < n64 q + 1 → t.mem (cell (s.reg .rdi) i) = s.mem (cell (s.reg .rsi) i) := fun i hi => rd_get_eq h2.out hi
  have h0 := hc 0 (by omega)
  rw [cell_zero, cell_zero] at h0
  have h4 : rd t.mem (cell (s.reg .rdi) 1) (n64 q) = rd s.mem (cell (s.reg .rsi) 1) (n64 q) := by
    apply List.ext_getElem (by simp [rd_length])
    intro i h1 h2
    rw [rd_length] at h1
    rw [rd_getElem, rd_getElem, cell_add, cell_add]
    exact hc _ (by omega)
  have e : elemAt (n64 q) t.mem (s.reg .rdi) = elemAt (n64 q) s.mem (s.reg .rsi) := by simp only [elemAt, h0, h4]
  exact ⟨t, _, h1, ⟨by rw [opAt, hd]; exact e, fun a _ ha => h2.frame a fun i hi e => ha ⟨i, hi, e⟩, h2.saved, hd, h2.rsp, hs⟩, hx⟩

theorem Enters.stk (h : Enters q k loc i s s1) {a : BitVec 64} (ha : ¬ InStk (s.reg .rsp) (tagStack q + 1) a) :
    ¬ InStk (s1.reg .rsp) (tagStack q) a := fun h' => ha (by
  rw [h.rsp, stk_one] at h'
  exact h'.deep (by omega))

theorem Enters.ready (h : Enters q k loc i s s1) (hl : Layout q k loc s) (hr : i.r < k) : TagReady q s1 := by
  have ht : ∀ (y : Sym), (∀ a, InArr (s.sym y) (n64 q) a → InData q s.sym a) → rd s1.mem (s1.sym y) (n64 q) = rd s.mem (s.sym y) (n64 q) := by
    intro y hy
    rw [h.sym]
    exact rd_congr fun j hj => h.tables _ (hy _ ⟨j, hj, rfl⟩)
  refine ⟨hl.fits, (ht .q fun a h => .inl h).trans hl.mod, (ht .half fun a h => .inr (.inl h)).trans hl.half,
    (ht .r2 fun a h => .inr (.inr (.inl h))).trans hl.r2, (ht .r3 fun a h => .inr (.inr (.inr (.inl h)))).trans hl.r3, ?_, ?_,
    fun a ha => h.stk (hl.tablesStack a (by rw [← h.sym]; exact ha)), fun a ha => h.stk (hl.elemStack _ hr a (by rw [← h.rdi]; exact ha)),
    fun a ha => by rw [h.sym]; exact hl.elemTables _ hr a (by rw [← h.rdi]; exact ha)⟩
  · rw [h.sym, h.tables _ (.inr (.inr (.inr (.inr (.inl rfl)))))]; exact hl.mask
  · rw [h.sym, h.tables _ (.inr (.inr (.inr (.inr (.inr rfl)))))]; exact hl.np

theorem Enters.opnd {b : Reg} {p : Nat} (h : Enters q k loc i s s1) (hl : Layout q k loc s) (hr : i.r < k) (hp : p < k)
    (hb : s1.reg b = loc p) : TagOperand q s1 b := by
  refine ⟨?_, fun a ha => h.stk (hl.elemStack p hp a (by rw [← hb]; exact ha))⟩
  rw [hb, h.rdi]
  by_cases e : p = i.r
  · exact .inl (by rw [e])
  · exact .inr (hl.apart p hp _ hr e)

theorem Enters.elem {b : Reg} {p : Nat} (h : Enters q k loc i s s1) (hp : p < k) (hb : s1.reg b = loc p) :
    opAt q s1 b = elemAt (n64 q) s.mem (loc p) := by
  rw [opAt, hb]
  exact elemAt_congr fun a ha => h.elems p hp a ha

theorem Layout.inj (hl : Layout q k loc s) {p p' : Nat} (hp : p < k) (hp' : p' < k) (h : p ≠ p') : loc p ≠ loc p' := fun e =>
  hl.apart p hp p' hp' h 0 0 (Nat.succ_pos _) (Nat.succ_pos _) (by rw [e])

/-- The call returns an element that denotes the result. -/
theorem call_denotes (ra : BitVec 64) (hq : Modulus q) (hl : Layout q k loc s) (hi : i.inRange k) (hp : i.placedX86 ∨ i.clear q s1)
    (hR : i.op.rightX86 q ∨ i.formed q s1)
    (h : Enters q k loc i s s1) (hx : Rep q (elemAt (n64 q) s.mem (loc i.a)) x)
    (hy : i.op.binary = true → Rep q (elemAt (n64 q) s.mem (loc i.b)) y) :
    TagDenotes (i.op.envX86 q ra) ra (i.op.codeX86 q) q s1 (i.op.den x y) := by
  obtain ⟨op, r, a, b⟩ := i
  obtain ⟨i1, i2, i3⟩ := hi
  have hr := h.ready hl i1
  have ha := h.opnd hl i1 i2 h.rsi
  have hx' : Rep q (opAt q s1 .rsi) x := by rw [h.elem i2 h.rsi]; exact hx
  have na : r ≠ a → s1.reg .rdi ≠ s1.reg .rsi := fun e => by rw [h.rdi, h.rsi]; exact hl.inj i1 i2 e
  have hb : op.binary = true → TagOperand q s1 .rdx := fun e => h.opnd hl i1 (i3 e) (h.rdx e)
  have hy' : op.binary = true → Rep q (opAt q s1 .rdx) y := fun e => by rw [h.elem (i3 e) (h.rdx e)]; exact hy e
  have nb : op.binary = true → r ≠ b → s1.reg .rdi ≠ s1.reg .rdx := fun e e' => by rw [h.rdi, h.rdx e]; exact hl.inj i1 (i3 e) e'
  have conv : ∀ {env : String → Option (State → Option State)} {code : List Line} {z : ZMod q} {P : Elem → Prop},
      TagConverts env ra code q s1 z P → TagDenotes env ra code q s1 z := fun ⟨s', e, h1, h2, h3, _⟩ => ⟨s', e, h1, h2, h3⟩
  have hc : Instr.clear q ⟨op, r, a, b⟩ s1 := by
    rcases hp with hp | hp
    · have nc : op.binary = true → r ≠ a ∧ r ≠ b → ¬ TagConvClash q s1 := fun e e' c => c.elim (fun c => na e'.1 c.1) (fun c => nb e e'.2 c.1)
      cases op <;> simp only [Instr.placedX86] at hp <;> simp only [Instr.clear]
      case add => exact nc rfl hp
      case sub => exact ⟨nc rfl hp, fun c => nb rfl hp.2 c.1⟩
      case bnot => exact fun c => absurd c (na hp)
      all_goals exact ⟨fun c => absurd c (na hp.1), fun c => absurd c (nb rfl hp.2)⟩
    · exact hp
  replace hR : Instr.formed q ⟨op, r, a, b⟩ s1 := by
    rcases hR with hR | hR
    · cases op <;> simp only [Op.rightX86] at hR <;> simp only [Instr.formed]
      case add | sub | eq | neq => exact .of hR _ _
      case mul => exact .of hR _ _
      case toMontgomery => exact .of hR _
      case shl | shr => exact ⟨⟨.of_ne hR.1 _, .of_ne hR.1 _⟩, hR.2⟩
      case toNormal | toLongNormal | bnot => exact .of_ne hR _
      all_goals exact ⟨.of_ne hR _, .of_ne hR _⟩
    · exact hR
  cases op
  case copy => exact C79_copy ra hr ha hx'
  case toNormal => exact conv (C63_toNormal_partial ra hq hR hr ha hx')
  case toLongNormal => exact conv (C63_toLongNormal_partial ra hq hR hr ha hx')
  case toMontgomery => exact conv (C63_toMontgomery_partial ra hq hR hr ha hx')
  case add => exact C61_add_partial ra hq hR hr ha (hb rfl) hx' (hy' rfl) hc
  case sub => exact C61_sub_partial ra hq hR hr ha (hb rfl) hx' (hy' rfl) hc.1 hc.2
  case mul => exact C61_mul_partial ra hq hR hr ha (hb rfl) hx' (hy' rfl)
  case square => exact C61_square ra hq hr ha hx'
  case neg => exact C61_neg ra hq hr ha hx'
  case eq => exact (C64_eq_partial ra hq hR hr ha (hb rfl) hx' (hy' rfl)).1
  case neq => exact (C64_eq_partial ra hq hR hr ha (hb rfl) hx' (hy' rfl)).2
  case lt => exact (C64_order_partial ra hq hR.1 hR.2 hr ha (hb rfl) hx' (hy' rfl)).1
  case gt => exact (C64_order_partial ra hq hR.1 hR.2 hr ha (hb rfl) hx' (hy' rfl)).2.1
  case leq => exact (C64_order_partial ra hq hR.1 hR.2 hr ha (hb rfl) hx' (hy' rfl)).2.2.1
  case geq => exact (C64_order_partial ra hq hR.1 hR.2 hr ha (hb rfl) hx' (hy' rfl)).2.2.2
  case land => exact (C65_logical ra hq hr hx' (hy' rfl)).1
  case lor => exact (C65_logical ra hq hr hx' (hy' rfl)).2
  case lnot => exact C65_lnot ra hq hr hx'
  case band => exact (C66_bitwise_partial ra hq hR.1 hR.2 hr ha (hb rfl) hx' (hy' rfl) hc).1
  case bor => exact (C66_bitwise_partial ra hq hR.1 hR.2 hr ha (hb rfl) hx' (hy' rfl) hc).2.1
  case bxor => exact (C66_bitwise_partial ra hq hR.1 hR.2 hr ha (hb rfl) hx' (hy' rfl) hc).2.2
  case bnot => exact C66_not_partial ra hq hR hr ha hx' hc
  case shl => exact (C67_shift_partial ra hq hR.1.1 hR.1.2 hR.2 hr ha (hb rfl) hx' (hy' rfl)).1
  case shr => exact (C67_shift_partial ra hq hR.1.1 hR.1.2 hR.2 hr ha (hb rfl) hx' (hy' rfl)).2

/-- After a call the layout is as before, and only the result has changed. -/
theorem Enters.returns (h : Enters q k loc i s s1) (hl : Layout q k loc s) (hr : i.r < k) {e : Elem} (h' : TagReturns q s1 s2 e) :
    Layout q k loc s2 ∧ s2.reg .rsp = s.reg .rsp ∧ s2.sym = s.sym ∧ elemAt (n64 q) s2.mem (loc i.r) = e ∧
      ∀ p < k, p ≠ i.r → elemAt (n64 q) s2.mem (loc p) = elemAt (n64 q) s.mem (loc p) := by
  have hsy : s2.sym = s.sym := by rw [h'.sym, h.sym]
  have hsp : s2.reg .rsp = s.reg .rsp := by rw [h'.rsp, h.rsp]; exact BitVec.sub_add_cancel _ _
  have hd : ∀ a, InData q s.sym a → s2.mem a = s.mem a := fun a ha => by
    rw [h'.frame a (h.stk (hl.tablesStack a ha)) (fun c => hl.elemTables _ hr a (by rw [← h.rdi]; exact c) ha), h.tables a ha]
  have ht : ∀ (y : Sym), (∀ a, InArr (s.sym y) (n64 q) a → InData q s.sym a) → rd s2.mem (s2.sym y) (n64 q) = rd s.mem (s.sym y) (n64 q) := by
    intro y hy
    rw [hsy]
    exact rd_congr fun j hj => hd _ (hy _ ⟨j, hj, rfl⟩)
  refine ⟨⟨hl.fits, hl.apart, by rw [hsy]; exact hl.elemTables, by rw [hsp]; exact hl.elemStack, by rw [hsy, hsp]; exact hl.tablesStack,
    (ht .q fun a h => .inl h).trans hl.mod, (ht .half fun a h => .inr (.inl h)).trans hl.half,
    (ht .r2 fun a h => .inr (.inr (.inl h))).trans hl.r2, (ht .r3 fun a h => .inr (.inr (.inr (.inl h)))).trans hl.r3, ?_, ?_⟩,
    hsp, hsy, ?_, fun p hp hne => elemAt_congr fun a ha => ?_⟩
  · rw [hsy, hd _ (.inr (.inr (.inr (.inr (.inl rfl)))))]; exact hl.mask
  · rw [hsy, hd _ (.inr (.inr (.inr (.inr (.inr rfl)))))]; exact hl.np
  · rw [← h.rdi, ← h'.rdi]; exact h'.elem
  · rw [h'.frame a (h.stk (hl.elemStack p hp a ha)) ?_, h.elems p hp a ha]
    rintro ⟨j, hj, e⟩
    obtain ⟨l, hl', e'⟩ := ha
    rw [h.rdi] at e
    exact hl.apart p hp _ hr hne l j hl' hj (e'.symm.trans e)

end step

/-! ## Programs -/

/-- C79, partial: a program of any length, whatever the caller does between the calls, with results also placed on operands.  Every call
returns, the elements denote what the program computes on residues, and the tables and the stack pointer are as before.  Missing: the calls
with operands of a form for which the routine is wrong for the modulus (`C61_seven_violated` …), and the results placed on an operand that is overwritten before it is read
(`C61_add_violated` … `C66_not_violated`). -/
theorem C79_inplace_partial {q k : Nat} {loc : Nat → BitVec 64} (ra : BitVec 64) (hq : Modulus q) (prog : List Instr)
    (hi : ∀ i ∈ prog, i.inRange k) (prep : List Instr → State → State)
    (hprep : ∀ i is s, Layout q k loc s → Enters q k loc i s (prep (i :: is) s)) (s : State) (hc : ClearAll q ra prep prog s)
    (hl : Layout q k loc s) (σ : Nat → ZMod q) (h : ∀ p < k, Rep q (elemAt (n64 q) s.mem (loc p)) (σ p)) :
    ∃ s', callAll q ra prep prog s = some s' ∧ Layout q k loc s' ∧ s'.reg .rsp = s.reg .rsp ∧
      ∀ p < k, Rep q (elemAt (n64 q) s'.mem (loc p)) (runSpec prog σ p) := by
  induction prog generalizing s σ with
  | nil => exact ⟨s, rfl, hl, rfl, h⟩
  | cons i is ih =>
    have hi1 := hi i (by simp)
    have he := hprep i is s hl
    obtain ⟨s2, e, h1, h2, h3⟩ := call_denotes (x := σ i.a) (y := σ i.b) ra hq hl hi1 hc.1 hc.2.1 he (h _ hi1.2.1) fun hb => h _ (hi1.2.2 hb)
    obtain ⟨g1, g2, g3, g4, g5⟩ := he.returns hl hi1.1 h2
    obtain ⟨s', k1, k2, k3, k4⟩ := ih (fun j hj => hi j (by simp [hj])) s2 (hc.2.2 s2 h1) g1
      (fun p => if p = i.r then i.op.den (σ i.a) (σ i.b) else σ p) (by
        intro p hp
        by_cases c : p = i.r
        · subst c; rw [g4]; simpa using h3
        · simp only [c, if_false]; rw [g5 p hp c]; exact h p hp)
    exact ⟨s', by rw [callAll, h1]; exact k1, k2, k3.trans g2, k4⟩

theorem clearAll_of_placed {q : Nat} {ra : BitVec 64} {prep : List Instr → State → State} {prog : List Instr}
    (h : ∀ i ∈ prog, i.placedX86 ∧ i.op.rightX86 q) (s : State) : ClearAll q ra prep prog s := by
  induction prog generalizing s with
  | nil => trivial
  | cons i is ih => exact ⟨.inl (h i (by simp)).1, .inl (h i (by simp)).2, fun s' _ => ih (fun j hj => h j (by simp [hj])) s'⟩

/-- C79, partial: the same for programs that are placed right, and whose routines are right for the modulus, whatever the elements hold. -/
theorem C79_program_partial {q k : Nat} {loc : Nat → BitVec 64} (ra : BitVec 64) (hq : Modulus q) (prog : List Instr)
    (hi : ∀ i ∈ prog, i.inRange k ∧ i.placedX86 ∧ i.op.rightX86 q) (prep : List Instr → State → State)
    (hprep : ∀ i is s, Layout q k loc s → Enters q k loc i s (prep (i :: is) s)) (s : State) (hl : Layout q k loc s) (σ : Nat → ZMod q)
    (h : ∀ p < k, Rep q (elemAt (n64 q) s.mem (loc p)) (σ p)) :
    ∃ s', callAll q ra prep prog s = some s' ∧ Layout q k loc s' ∧ s'.reg .rsp = s.reg .rsp ∧
      ∀ p < k, Rep q (elemAt (n64 q) s'.mem (loc p)) (runSpec prog σ p) :=
  C79_inplace_partial ra hq prog (fun i h => (hi i h).1) prep hprep s (clearAll_of_placed (fun i h => (hi i h).2) s) hl σ h

/-- Every routine is right for a modulus of less than `2^31` bits that does not have six or seven limbs. -/
theorem right_of_width {q : Nat} (h6 : n64 q ≠ 6) (h7 : n64 q ≠ 7) (hb : bitLen q < 2 ^ 31) (o : Op) : o.rightX86 q := by
  have h1 : ∀ x w, OneWord q x w := fun x w => .inl (by cases canOpt q <;> simp <;> omega)
  cases o <;> first | trivial | exact h1 _ _

/-! ## The hypotheses are met -/

/-- A caller that pushes a return address, loads the argument registers and leaves garbage in three others. -/
def plainCaller (loc : Nat → BitVec 64) (ra : BitVec 64) : List Instr → State → State
  | [], s => s
  | i :: _, s => { s with
      reg := upd (upd (upd (upd (upd (upd (upd s.reg .rsp (s.reg .rsp - 8)) .rdi (loc i.r)) .rsi (loc i.a)) .rdx (loc i.b)) .rax 12345) .rbx 77) .r8 9
      mem := upd s.mem (s.reg .rsp - 8) ra }

theorem plainCaller_enters (q k : Nat) (loc : Nat → BitVec 64) (ra : BitVec 64) (i : Instr) (is : List Instr) (s : State)
    (hl : Layout q k loc s) : Enters q k loc i s (plainCaller loc ra (i :: is) s) := by
  have hs : InStk (s.reg .rsp) (tagStack q + 1) (s.reg .rsp - 8) := ⟨0, Nat.succ_pos _, rfl⟩
  refine ⟨rfl, rfl, fun _ => rfl, rfl, rfl, fun p hp a ha => ?_, fun a ha => ?_⟩
  · exact upd_ne _ _ (fun e => hl.elemStack p hp a ha (by rw [e]; exact hs))
  · exact upd_ne _ _ (fun e => hl.tablesStack a ha (by rw [e]; exact hs))

/-- Three elements of the example machine. -/
def machLoc (p : Nat) : BitVec 64 := BitVec.ofNat 64 (128 * (5 + p))

theorem tagMach_layout {q : Nat} {e0 e1 e2 : Elem} {i j l : Nat} (hn : n64 q ≤ 15) (hi : i < 3) :
    Layout q 3 machLoc (tagMach q e0 e1 e2 i j l) := by
  have hr := tagMach_ready (q := q) (e0 := e0) (e1 := e1) (e2 := e2) (j := j) (k := l) hn hi
  have hst : ∀ a, InStk 4096 (tagStack q + 1) a → 3000 < a.toNat := by
    rintro a ⟨j, h1, rfl⟩
    rw [tagStack] at h1
    rw [stk, BitVec.toNat_sub, BitVec.toNat_ofNat, show (4096 : BitVec 64).toNat = 4096 from rfl]
    omega
  have harr : ∀ p < 3, ∀ a, InArr (machLoc p) (n64 q + 1) a → 128 * (5 + p) ≤ a.toNat ∧ a.toNat < 128 * (5 + p) + 128 :=
    fun p hp a ha => mach_arr (i := 5 + p) rfl (by omega) (by omega) ha
  refine ⟨hr.fits, fun p hp p' hp' hne x y hx hy e => ?_, fun p hp a ha hd => ?_, fun p hp a ha hs => ?_, fun a hd hs => ?_, hr.mod, hr.half,
    hr.r2, hr.r3, hr.mask, hr.np⟩
  · have h1 := harr p hp _ ⟨x, hx, rfl⟩
    have h2 := harr p' hp' _ ⟨y, hy, rfl⟩
    rw [e] at h1; omega
  · have := harr p hp a ha; have := mach_data hn hd; omega
  · have := harr p hp a ha; have := hst a hs; omega
  · have := mach_data hn hd; have := hst a hs; omega

/-- `e0 := e1 * e2; e1 := e0 + e2; e0 := e0 < e1; e2 := e2 << e0` for the scalar field of BN254, started on a short, a long and a
Montgomery element. -/
def demoProg : List Instr := [⟨.mul, 0, 1, 2⟩, ⟨.add, 1, 0, 2⟩, ⟨.lt, 0, 0, 1⟩, ⟨.shl, 2, 2, 0⟩]

example : ∃ s', callAll bnR 99 (plainCaller machLoc 99) demoProg (tagMach bnR (sS (-5)) (sL (bnR - 3)) (sM 77) 0 0 0) = some s' ∧
    ∀ p < 3, Rep bnR (elemAt (n64 bnR) s'.mem (machLoc p))
      (runSpec demoProg (fun p => ((match p with | 0 => bnR - 5 | 1 => bnR - 3 | _ => 77 : Nat) : ZMod bnR)) p) := by
  have hi : ∀ i ∈ demoProg, i.inRange 3 ∧ i.placedX86 ∧ i.op.rightX86 bnR := by
    intro i hi
    refine ⟨?_, ?_, right_of_width (by rw [n64_bnR]; decide) (by rw [n64_bnR]; decide) (by decide +kernel) _⟩ <;>
      (simp only [demoProg, List.mem_cons, List.not_mem_nil, or_false] at hi
       rcases hi with rfl | rfl | rfl | rfl <;> simp [Instr.inRange, Instr.placedX86, Op.binary])
  obtain ⟨s', h1, _, _, h2⟩ := C79_program_partial (k := 3) (loc := machLoc) 99 bnR_modulus demoProg hi (plainCaller machLoc 99)
    (plainCaller_enters bnR 3 machLoc 99) (tagMach bnR (sS (-5)) (sL (bnR - 3)) (sM 77) 0 0 0)
    (tagMach_layout (by rw [n64_bnR]; decide) (by decide))
    (fun p => ((match p with | 0 => bnR - 5 | 1 => bnR - 3 | _ => 77 : Nat) : ZMod bnR)) (by
      intro p hp
      interval_cases p <;> exact Rep_iff.mpr (by decide +kernel))
  exact ⟨s', h1, h2⟩

/-- A sum placed on its first operand, with both operands long. -/
example : ∃ s', callAll bnR 99 (plainCaller machLoc 99) [⟨.add, 0, 0, 1⟩] (tagMach bnR (sL 8) (sL (bnR - 3)) (sM 77) 0 0 0) = some s' ∧
    Rep bnR (elemAt (n64 bnR) s'.mem (machLoc 0)) (((8 : Nat) : ZMod bnR) + ((bnR - 3 : Nat) : ZMod bnR)) := by
  obtain ⟨s', h1, _, _, h2⟩ := C79_inplace_partial (k := 3) (loc := machLoc) 99 bnR_modulus [⟨.add, 0, 0, 1⟩]
    (fun i hi => by
      rw [List.mem_singleton] at hi
      subst hi
      exact ⟨by decide, by decide, fun _ => by decide⟩) (plainCaller machLoc 99)
    (plainCaller_enters bnR 3 machLoc 99) (tagMach bnR (sL 8) (sL (bnR - 3)) (sM 77) 0 0 0)
    ⟨.inr (by simp only [Instr.clear, TagConvClash]; decide +kernel),
      .inl (right_of_width (by rw [n64_bnR]; decide) (by rw [n64_bnR]; decide) (by decide +kernel) _), fun _ _ => trivial⟩
    (tagMach_layout (by rw [n64_bnR]; decide) (by decide))
    (fun p => ((match p with | 0 => 8 | 1 => bnR - 3 | _ => 77 : Nat) : ZMod bnR)) (by
      intro p hp
      interval_cases p <;> exact Rep_iff.mpr (by decide +kernel))
  exact ⟨s', h1, h2 0 (by decide)⟩

end FF.Props
