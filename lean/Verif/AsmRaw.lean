import Verif.X86

/-!
# The raw routines of the generated assembly

The listings printed by `src/{copy,add,sub,neg,cmpops}.asm.ejs` for `n` limbs.  Labels are shortened; they are local to
each routine.
-/

namespace FF.X86

open Op2 in
/-- Shorthand for a two-operand instruction. -/
def i2 (o : Op2) (d s : Opd) : Ins Opd := .op2 o d s

/-- Shorthands for the registers as operands. -/
abbrev rax : Opd := .reg .rax
abbrev rbx : Opd := .reg .rbx
abbrev rcx : Opd := .reg .rcx
abbrev rdx : Opd := .reg .rdx
abbrev rsi : Opd := .reg .rsi
abbrev rdi : Opd := .reg .rdi

/-- `rawCopy`, `src/copy.asm.ejs:31-36`. -/
def rawCopy (n : Nat) : List Line :=
  code ((List.range n).flatMap fun i => [i2 .mov rax (.mem .rsi (8 * i)), i2 .mov (.mem .rdi (8 * i)) rax]) ++ [.ret]

/-- `copy`, `src/copy.asm.ejs:12-17`: a whole element, the tag word and the limbs. -/
def copy (n : Nat) : List Line :=
  code ((List.range (n + 1)).flatMap fun i => [i2 .mov rax (.mem .rsi (8 * i)), i2 .mov (.mem .rdi (8 * i)) rax])
    ++ [.ret]

/-- `rawZero`, `src/copy.asm.ejs:49-54`. -/
def rawZero (n : Nat) : List Line :=
  code ([i2 .xor rax rax] ++ (List.range n).flatMap fun i => [i2 .mov (.mem .rdi (8 * i)) rax]) ++ [.ret]

/-- `rawSwap`, `src/copy.asm.ejs:67-74`. -/
def rawSwap (n : Nat) : List Line :=
  code ((List.range n).flatMap fun i =>
    [i2 .mov rax (.mem .rsi (8 * i)), i2 .mov rcx (.mem .rdi (8 * i)),
     i2 .mov (.mem .rdi (8 * i)) rax, i2 .mov (.mem .rsi (8 * i)) rbx]) ++ [.ret]

/-- `rawCopyS2L`, `src/copy.asm.ejs:114-139`. -/
def rawCopyS2L (n : Nat) : List Line :=
  [.movAl 0x80, .shlRax 56] ++
  code [i2 .mov (.mem .rdi 0) rax, i2 .cmp rsi (.imm 0)] ++
  [.jump .sign "adjust_neg"] ++
  code ([i2 .mov (.mem .rdi 8) rsi, i2 .xor rax rax] ++
    (List.range' 1 (n - 1)).flatMap fun i => [i2 .mov (.mem .rdi (8 + 8 * i)) rax]) ++
  [.ret, .label "adjust_neg"] ++
  code ([i2 .add rsi (.sym .q 0), i2 .mov (.mem .rdi 8) rsi, i2 .mov rsi (.imm (-1))] ++
    (List.range' 1 (n - 1)).flatMap fun i =>
      [i2 .mov rax rsi, i2 .adc rax (.sym .q (8 * i)), i2 .mov (.mem .rdi (8 * (i + 1))) rax]) ++
  [.ret]

/-- The loop "add/sub component by component with carry": `src/add.asm.ejs:213-217`, `src/sub.asm.ejs:291-295`. -/
def loopLL (first next : Op2) (n : Nat) : List (Ins Opd) :=
  (List.range n).flatMap fun i =>
    [i2 .mov rax (.mem .rsi (8 * i)), i2 (if i = 0 then first else next) rax (.mem .rdx (8 * i)),
     i2 .mov (.mem .rdi (8 * i)) rax]

/-- One comparison step, `src/add.asm.ejs:225-227`. -/
def cmpStep (i : Nat) : List Line :=
  [.ins (i2 .cmp rax (.sym .q (8 * i))), .jump .carry "done", .jump .nzero "sq"]

/-- The comparison with `q` from limb `n-1` downwards, `src/add.asm.ejs:261-266`. -/
def cmpQ (n : Nat) : List Line :=
  (List.range n).flatMap fun i => .ins (i2 .mov rax (.mem .rdi (8 * (n - i - 1)))) :: cmpStep (n - i - 1)

/-- The same with the first load left out: `rax` still holds the top limb (`src/add.asm.ejs:221-228`). -/
def cmpQ' (n : Nat) : List Line :=
  (List.range n).flatMap fun i =>
    (if 0 < i then [.ins (i2 .mov rax (.mem .rdi (8 * (n - i - 1))))] else []) ++ cmpStep (n - i - 1)

/-- Subtracts or adds `q` in place, `src/add.asm.ejs:231-234`, `src/sub.asm.ejs:300-303`. -/
def loopQ (first next : Op2) (n : Nat) : List (Ins Opd) :=
  (List.range n).flatMap fun i =>
    [i2 .mov rax (.sym .q (8 * i)), i2 (if i = 0 then first else next) (.mem .rdi (8 * i)) rax]

/-- `rawAddLL` / `rawAdd`, `src/add.asm.ejs:210-236`. -/
def rawAddLL (n : Nat) : List Line :=
  code (loopLL .add .adc n) ++ [.jump .carry "sq"] ++ cmpQ' n ++ [.label "sq"] ++ code (loopQ .sub .sbb n) ++
  [.label "done", .ret]

/-- `rawAddLS`, `src/add.asm.ejs:248-274`. -/
def rawAddLS (n : Nat) : List Line :=
  code ([i2 .add rdx (.mem .rsi 0), i2 .mov (.mem .rdi 0) rdx] ++
    (List.range' 1 (n - 1)).flatMap fun i =>
      [i2 .mov rdx (.imm 0), i2 .adc rdx (.mem .rsi (8 * i)), i2 .mov (.mem .rdi (8 * i)) rdx]) ++
  [.jump .carry "sq"] ++ cmpQ n ++ [.label "sq"] ++ code (loopQ .sub .sbb n) ++ [.label "done", .ret]

/-- `rawSubLL` / `rawSub`, `src/sub.asm.ejs:288-305`. -/
def rawSubLL (n : Nat) : List Line :=
  code (loopLL .sub .sbb n) ++ [.jump .ncarry "done", .label "aq"] ++ code (loopQ .add .adc n) ++
  [.label "done", .ret]

/-- `rawSubLS`, `src/sub.asm.ejs:217-238`. -/
def rawSubLS (n : Nat) : List Line :=
  code ([i2 .mov rax (.mem .rsi 0), i2 .sub rax rdx, i2 .mov (.mem .rdi 0) rax, i2 .mov rdx (.imm 0)] ++
    (List.range' 1 (n - 1)).flatMap fun i =>
      [i2 .mov rax (.mem .rsi (8 * i)), i2 .sbb rax rdx, i2 .mov (.mem .rdi (8 * i)) rax]) ++
  [.jump .ncarry "done", .label "aq"] ++ code (loopQ .add .adc n) ++ [.label "done", .ret]

/-- `rawSubSL`, `src/sub.asm.ejs:254-273`. -/
def rawSubSL (n : Nat) : List Line :=
  code ([i2 .sub rsi (.mem .rdx 0), i2 .mov (.mem .rdi 0) rsi] ++
    (List.range' 1 (n - 1)).flatMap fun i =>
      [i2 .mov rax (.imm 0), i2 .sbb rax (.mem .rdx (8 * i)), i2 .mov (.mem .rdi (8 * i)) rax]) ++
  [.jump .ncarry "done", .label "aq"] ++ code (loopQ .add .adc n) ++ [.label "done", .ret]

/-- `rawNegLS`, `src/sub.asm.ejs:320-348`. -/
def rawNegLS (n : Nat) : List Line :=
  code ([i2 .mov rax (.sym .q 0), i2 .sub rax rdx, i2 .mov (.mem .rdi 0) rax] ++
    (List.range' 1 (n - 1)).flatMap fun i =>
      [i2 .mov rax (.sym .q (8 * i)), i2 .sbb rax (.imm 0), i2 .mov (.mem .rdi (8 * i)) rax]) ++
  [.setcDl] ++
  code ((List.range n).flatMap fun i =>
    [i2 .mov rax (.mem .rdi (8 * i)), i2 (if i = 0 then .sub else .sbb) rax (.mem .rsi (8 * i)),
     i2 .mov (.mem .rdi (8 * i)) rax]) ++
  [.setcDh, .orDlDh, .jump .zero "done"] ++ code (loopQ .add .adc n) ++ [.label "done", .ret]

/-- `rawNegL` / `rawNeg`, `src/neg.asm.ejs:59-79`. -/
def rawNegL (n : Nat) : List Line :=
  code [i2 .xor rax rax] ++
  ((List.range n).flatMap fun i => [.ins (i2 .cmp (.mem .rsi (8 * i)) rax), .jump .nzero "doNegate"]) ++
  code ((List.range n).flatMap fun i => [i2 .mov (.mem .rdi (8 * i)) rax]) ++ [.ret, .label "doNegate"] ++
  code ((List.range n).flatMap fun i =>
    [i2 .mov rax (.sym .q (8 * i)), i2 (if i = 0 then .sub else .sbb) rax (.mem .rsi (8 * i)),
     i2 .mov (.mem .rdi (8 * i)) rax]) ++ [.ret]

/-- `rawIsEq`, `src/cmpops.asm.ejs:491-503`. -/
def rawIsEq (n : Nat) : List Line :=
  ((List.range n).flatMap fun i =>
    [.ins (i2 .mov rax (.mem .rsi (8 * i))), .ins (i2 .cmp (.mem .rdi (8 * i)) rax), .jump .nzero "ret0"]) ++
  code [i2 .mov rax (.imm 1)] ++ [.ret, .label "ret0"] ++ code [i2 .xor rax rax] ++ [.ret]

/-- `rawIsZero`, `src/cmpops.asm.ejs:516-528`. -/
def rawIsZero (n : Nat) : List Line :=
  ((List.range n).flatMap fun i =>
    [.ins (i2 .cmp (.mem .rdi (8 * i)) (.imm 0)), .jump .nzero "ret0"]) ++
  code [i2 .mov rax (.imm 1)] ++ [.ret, .label "ret0"] ++ code [i2 .xor rax rax] ++ [.ret]

end FF.X86
