import Verif.AsmMont

/-!
# The register manager of the code generator (`src/asmbuilder.js`)

Variables with small numbers live in registers.  When there are more than eleven, the variables from number 10 on live
on the stack and `rbx` serves as a one-entry cache for them.
-/

namespace FF.X86

/-- How an instruction uses an argument: reads it (`I`), writes it (`O`), needs a register (`R`). -/
structure Acc where
  i : Bool
  o : Bool
  r : Bool

/-- The table `this.instructions`, `asmbuilder.js:11-23` (the instructions missing there make `op` fail). -/
def Op2.acc : Op2 → Option (Acc × Acc)
  | .adcx => some (⟨true, true, true⟩, ⟨true, false, false⟩)
  | .adox => some (⟨true, true, true⟩, ⟨true, false, false⟩)
  | .sub => some (⟨true, true, false⟩, ⟨true, false, false⟩)
  | .sbb => some (⟨true, true, false⟩, ⟨true, false, false⟩)
  | .cmp => some (⟨true, false, false⟩, ⟨true, false, false⟩)
  | .test => some (⟨true, false, false⟩, ⟨true, false, false⟩)
  | .mov => some (⟨false, true, false⟩, ⟨true, false, false⟩)
  | .xor => some (⟨true, true, false⟩, ⟨false, true, false⟩)
  | _ => none

/-- `this.wrAssignments`: the variable cached in `rbx` and whether it was modified.  The generator has a single work
register, so the list never has more than one entry. -/
abbrev Wr := Option (Nat × Bool)

/-- `this.nUsedRegs`, `asmbuilder.js:35-43`. -/
def nUsed (needed : Nat) : Nat := if 11 < needed then 10 else needed

/-- `availableRegs` followed by `pushableRegs`, `asmbuilder.js:7-8`. -/
def regOf : Nat → Reg
  | 0 => .rax | 1 => .r8 | 2 => .r9 | 3 => .r10 | 4 => .r11
  | 5 => .r12 | 6 => .r13 | 7 => .r14 | 8 => .r15 | 9 => .rbp | _ => .rbx

/-- `[rsp + 8(i - nUsedRegs)]`, `asmbuilder.js:50`. -/
def slot (N i : Nat) : Opd := .mem .rsp (8 * (i - N))

/-- One argument of the scan `asmbuilder.js:136-163`; the two pointers hold the argument instead of its position.
`none` is the failed assertion "tryning to load two args". -/
def scanArg (N : Nat) (a : Arg) (acc : Acc) (p : Option Arg × Option Arg) : Option (Option Arg × Option Arg) :=
  match a with
  | .hw (.reg _) => some p
  | .hw _ =>
    if p.1.isSome then (if p.2.isSome then none else some (some a, p.1)) else some (some a, p.2)
  | .idx n =>
    if N ≤ n then
      if p.1.isSome || acc.r then (if p.2.isSome then none else some (p.1, some a)) else some (some a, p.2)
    else some p

/-- `_loadWr`, `asmbuilder.js:94-118`. -/
def loadWr (N : Nat) (wr : Wr) (ref : Nat) (loadValue : Bool) : List (Ins Opd) × (Nat × Bool) :=
  match wr with
  | some (r, m) =>
    if r = ref then ([], (r, m))
    else ((if m then [.op2 .mov (slot N r) (.reg .rbx)] else []) ++
      (if loadValue then [.op2 .mov (.reg .rbx) (slot N ref)] else []), (ref, false))
  | none => (if loadValue then [.op2 .mov (.reg .rbx) (slot N ref)] else [], (ref, false))

/-- One argument of the second loop, `asmbuilder.js:165-179`: code printed first, operand, new cache. -/
def param (N : Nat) (dLoad : Option Arg) (wr : Wr) (a : Arg) (acc : Acc) : List (Ins Opd) × Opd × Wr :=
  match a with
  | .hw o => ([], o, wr)
  | .idx n =>
    if n < N then ([], .reg (regOf n), wr)
    else if dLoad = some a then
      let l := loadWr N wr n acc.i
      (l.1, .reg .rbx, some (l.2.1, l.2.2 || acc.o))
    else ([], slot N n, wr)

/-- `op`, `asmbuilder.js:121-181`. -/
def emit (N : Nat) (wr : Wr) : Ins Arg → Option (List (Ins Opd) × Wr)
  | .op2 o d s =>
    match o.acc with
    | none => none
    | some (ad, as) =>
      match (scanArg N d ad (none, none)).bind (scanArg N s as) with
      | none => none
      | some (_, dl) =>
        let p1 := param N dl wr d ad
        let p2 := param N dl p1.2.2 s as
        some (p1.1 ++ p2.1 ++ [.op2 o p1.2.1 p2.2.1], p2.2.2)
  | .mulx hi lo src =>
    match ((scanArg N hi ⟨false, true, true⟩ (none, none)).bind (scanArg N lo ⟨false, true, true⟩)).bind
        (scanArg N src ⟨true, false, false⟩) with
    | none => none
    | some (_, dl) =>
      let p1 := param N dl wr hi ⟨false, true, true⟩
      let p2 := param N dl p1.2.2 lo ⟨false, true, true⟩
      let p3 := param N dl p2.2.2 src ⟨true, false, false⟩
      some (p1.1 ++ p2.1 ++ p3.1 ++ [.mulx p1.2.1 p2.2.1 p3.2.1], p3.2.2)

/-- A sequence of `op` calls. -/
def emitAll (N : Nat) (wr : Wr) : List (Ins Arg) → Option (List (Ins Opd) × Wr)
  | [] => some ([], wr)
  | i :: l =>
    match emit N wr i with
    | none => none
    | some (c, wr') =>
      match emitAll N wr' l with
      | none => none
      | some (c', wr'') => some (c ++ c', wr'')

/-- `flushWr`, `asmbuilder.js:80-91`. -/
def flushWr (N : Nat) (wr : Wr) (remove : Bool) : List (Ins Opd) × Wr :=
  match wr with
  | none => ([], none)
  | some (r, m) =>
    ((if m then [.op2 .mov (slot N r) (.reg .rbx)] else []), if remove then none else some (r, false))

/-! ## The whole routine -/

/-- The comparison chain `montgomerybuilder.js:68-72`, limbs `i-1, …, 0`. -/
def emitCmps (N : Nat) (wr : Wr) : Nat → Option (List Line × Wr)
  | 0 => some ([], wr)
  | i + 1 =>
    match emit N wr (.op2 .cmp (V (T0 + i)) (mq i)) with
    | none => none
    | some (c, wr') =>
      match emitCmps N wr' i with
      | none => none
      | some (c', wr'') => some (code c ++ [.jump .carry "done", .jump .nzero "sq"] ++ c', wr'')

/-- `montgomerybuilder.js:64-67`. -/
def emitTest (N : Nat) (wr : Wr) (n : Nat) (opt : Bool) : Option (List Line × Wr) :=
  if opt then some ([], wr)
  else
    match emit N wr (.op2 .test (V (T0 + n)) (V (T0 + n))) with
    | none => none
    | some (c, wr') => some (code c ++ [.jump .nzero "sq"], wr')

/-- `montgomerybuilder.js:76-78`. -/
def subs (n : Nat) : List (Ins Arg) :=
  (List.range' 0 n).map fun i => .op2 (if i = 0 then .sub else .sbb) (V (T0 + i)) (mq i)

/-- `montgomerybuilder.js:84-86`. -/
def stores (n : Nat) : List (Ins Arg) := (List.range' 0 n).map fun i => .op2 .mov (mrdi i) (V (T0 + i))

/-- `neededRegs`, `montgomerybuilder.js:27`. -/
def needed (n : Nat) (opt : Bool) : Nat := 4 + n + 1 + (if opt then 0 else 1)

/-- `pushedRegs`, `asmbuilder.js:38,42`. -/
def pushedRegs (need : Nat) : List Reg :=
  let pushable : List Reg := [.r12, .r13, .r14, .r15, .rbp, .rbx]
  if 11 < need then pushable else pushable.take (nUsed need - 5)

/-- `templateMontgomery`, `montgomerybuilder.js:15-89`, with `_addHeader` and `_addgetFooter`, `asmbuilder.js:55-71`.
`none` when an assertion of the register manager fails. -/
def template (n : Nat) (opt : Bool) (upper : Nat → List (Ins Arg)) : Option (List Line) :=
  let need := needed n opt
  let N := nUsed need
  (emitAll N none (prologue ++ rounds upper n opt)).bind fun (c1, w1) =>
  (emitTest N (flushWr N w1 false).2 n opt).bind fun (ct, w2) =>
  (emitCmps N w2 n).bind fun (cc, w3) =>
  (emitAll N (flushWr N w3 true).2 (subs n)).bind fun (cs, w4) =>
  (emitAll N none (stores n)).bind fun (co, _) =>
  some ((pushedRegs need).reverse.map .push
    ++ (if N < need then [.ins (.op2 .sub (.reg .rsp) (.imm (BitVec.ofNat 64 (8 * (need - N)))))] else [])
    ++ code c1 ++ code (flushWr N w1 false).1 ++ ct ++ cc
    ++ [.label "sq"] ++ code (flushWr N w3 true).1 ++ code cs ++ code (flushWr N w4 true).1
    ++ [.label "done"] ++ code (flushWr N (flushWr N w4 true).2 true).1 ++ code co
    ++ (if N < need then [.ins (.op2 .add (.reg .rsp) (.imm (BitVec.ofNat 64 (8 * (need - N)))))] else [])
    ++ (pushedRegs need).map .pop ++ [.ret])

end FF.X86
