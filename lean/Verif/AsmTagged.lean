import Verif.AsmRaw

/-!
# The tagged routines of the generated assembly

The listings printed by `src/{montgomery,add,sub,neg,mul}.asm.ejs` with the macros of `src/utils.asm.ejs`, for `n` limbs.
The `<name>_` prefix of the routine names is dropped, and the labels `tmp_k` handed out by `global.tmpLabel()` get names of
their own.  A routine is a listing up to and including its last `ret`.
-/

namespace FF.X86

/-- Shorthands. -/
abbrev rsp : Opd := .reg .rsp
abbrev rbp : Opd := .reg .rbp
abbrev r8 : Opd := .reg .r8
abbrev r9 : Opd := .reg .r9
abbrev op (o : Op2) (d s : Opd) : Line := .ins (i2 o d s)

/-! ## Macros -/

/-- `global.setTypeDest(t)`, `src/utils.asm.ejs:1-6`. -/
def setTypeDest (t : BitVec 8) : List Line := [.misc (.movR11b t), .misc (.shlR11d 24), .misc .storeHi]

/-- The macros `global.toMont_a`, `global.fromMont_a`, `global.toLong_a`, `src/utils.asm.ejs:9-22, 40-53, 85-98`: converts
the element at `rsi` into a temporary on the stack. -/
def convA (n : Nat) (f : String) : List Line :=
  [op .mov r8 rdi, op .sub rsp (.imm (BitVec.ofNat 64 (8 * (n + 1)))), op .mov rdi rsp, .push .rdx, .push .r8,
   .call f, op .mov rsi rdi, .pop .rdi, .pop .rdx]

/-- The macros `global.toMont_b`, `global.fromMont_b`, `global.toLong_b`, `src/utils.asm.ejs:24-38, 57-71, 100-114`: the same
for the element at `rdx`. -/
def convB (n : Nat) (f : String) : List Line :=
  [op .mov r8 rdi, op .sub rsp (.imm (BitVec.ofNat 64 (8 * (n + 1)))), op .mov rdi rsp, .push .rsi,
   op .mov rsi rdx, .push .r8, .call f, op .mov rdx rdi, .pop .rdi, .pop .rsi]

/-- The first lines of the routines with a frame, e.g. `src/add.asm.ejs:111-114`. -/
def enter : List Line := [.push .rbp, .push .rsi, .push .rdx, op .mov rbp rsp]

/-- Their last lines, e.g. `src/add.asm.ejs:92-96`. -/
def leave : List Line := [op .mov rsp rbp, .pop .rdx, .pop .rsi, .pop .rbp, .ret]

/-- `<name>_add` and `<name>_sub` differ only in the raw routines they call and in a few lines. -/
def callLL (f : String) : List Line :=
  [op .add rdi (.imm 8), op .add rsi (.imm 8), op .add rdx (.imm 8), .call f,
   op .sub rdi (.imm 8), op .sub rsi (.imm 8)]

/-! ## Conversions, `src/montgomery.asm.ejs` -/

/-- `toMontgomery`, `src/montgomery.asm.ejs:30-74`. -/
def toMontgomery : List Line :=
  [op .mov rax (.mem .rsi 0), .misc (.bt .rax 62), .jump .carry "doNothing", .misc (.bt .rax 63),
   .jump .carry "long",
   .misc (.movsx .rdx .rax), op .mov (.mem .rdi 0) rdx, op .add rdi (.imm 8), .lea .rsi .r2, op .cmp rdx (.imm 0),
   .jump .sign "neg",
   .call "rawMMul1", op .sub rdi (.imm 8)] ++ setTypeDest 0x40 ++ [.ret,
   .label "neg", .misc (.neg .rdx), .call "rawMMul1", op .mov rsi rdi, .call "rawNegL", op .sub rdi (.imm 8)] ++
   setTypeDest 0x40 ++ [.ret,
   .label "long", op .mov (.mem .rdi 0) rax, op .add rdi (.imm 8), op .add rsi (.imm 8), .lea .rdx .r2,
   .call "rawMMul", op .sub rsi (.imm 8), op .sub rdi (.imm 8)] ++ setTypeDest 0xC0 ++ [.ret,
   .label "doNothing", .call "copy", .ret]

/-- The lines shared by `toNormal` and `toLongNormal`, `src/montgomery.asm.ejs:93-99` and `124-130`. -/
def fromMontLines : List Line :=
  [op .add rdi (.imm 8), op .add rsi (.imm 8), .call "rawFromMontgomery", op .sub rsi (.imm 8),
   op .sub rdi (.imm 8)] ++ setTypeDest 0x80 ++ [.ret]

/-- `toNormal`, `src/montgomery.asm.ejs:85-103`. -/
def toNormal : List Line :=
  [op .mov rax (.mem .rsi 0), .misc (.bt .rax 62), .jump .ncarry "doNothing", .misc (.bt .rax 63),
   .jump .ncarry "doNothing"] ++ fromMontLines ++ [.label "doNothing", .call "copy", .ret]

/-- `toLongNormal`, `src/montgomery.asm.ejs:114-138`. -/
def toLongNormal : List Line :=
  [op .mov rax (.mem .rsi 0), .misc (.bt .rax 63), .jump .ncarry "fromShort", .misc (.bt .rax 62),
   .jump .carry "fromMontgomery", .call "copy", .ret, .label "fromMontgomery"] ++ fromMontLines ++
  [.label "fromShort", op .mov r8 rsi, .misc (.movsx .rsi .rax), .call "rawCopyS2L", op .mov rsi r8] ++
   setTypeDest 0x80 ++ [.ret]

/-! ## Addition, `src/add.asm.ejs`, and subtraction, `src/sub.asm.ejs` -/

/-- `addS1S2`, `src/add.asm.ejs:1-26`, and `subS1S2`, `src/sub.asm.ejs:1-26`. -/
def s1s2Lines (o : Op32) (o' : Op2) (lab : String) : List Line :=
  [op .xor rdx rdx, .misc (.op32 .mov .rdx (.reg .rax)), .misc (.op32 o .rdx (.reg .rcx)), .jump .overflow lab,
   op .mov (.mem .rdi 0) rdx] ++ leave ++
  [.label lab, .push .rsi, .misc (.movsx .rsi .rax), .misc (.movsx .rdx .rcx), op o' rsi rdx, .call "rawCopyS2L",
   .pop .rsi] ++ leave

/-- The part shared by `addL1S2`, `addS1L2` and `subL1S2`: a raw routine chosen by the sign of the short operand `w`. -/
def lsLines (w : Reg) (fNeg fPos lab : String) : List Line :=
  [.misc (.movsx .rdx w), op .add rdi (.imm 8), op .cmp rdx (.imm 0), .jump .nsign lab, .misc (.neg .rdx), .call fNeg,
   op .sub rdi (.imm 8), op .sub rsi (.imm 8)] ++ leave ++
  [.label lab, .call fPos, op .sub rdi (.imm 8), op .sub rsi (.imm 8)] ++ leave

/-- `addL1S2`, `src/add.asm.ejs:30-56`, and `subL1S2`, `src/sub.asm.ejs:28-53`. -/
def l1s2Lines (fNeg fPos lab : String) : List Line := op .add rsi (.imm 8) :: lsLines .rcx fNeg fPos lab

/-- `addS1L2`, `src/add.asm.ejs:58-83`. -/
def s1l2Lines (fNeg fPos lab : String) : List Line := .misc (.lea .rsi .rdx 8) :: lsLines .rax fNeg fPos lab

/-- `subS1L2`, `src/sub.asm.ejs:56-89`. -/
def subS1L2 (lab : String) : List Line :=
  [.misc (.op32 .cmp .rax (.imm 0)), .jump .sign lab, .push .rsi, op .add rdi (.imm 8), .misc (.movsx .rsi .rax),
   op .add rdx (.imm 8), .call "rawSubSL", op .sub rdi (.imm 8), .pop .rsi] ++ leave ++
  [.label lab, .push .rsi, .misc (.lea .rsi .rdx 8), .misc (.movsx .rdx .rax), op .add rdi (.imm 8),
   .misc (.neg .rdx), .call "rawNegLS", op .sub rdi (.imm 8), .pop .rsi] ++ leave

/-- `addL1L2`, `src/add.asm.ejs:85-97`, and `subL1L2`, `src/sub.asm.ejs:92-104`. -/
def l1l2Lines (f : String) : List Line := callLL f ++ leave

/-- The dispatch on the two tags shared by `<name>_add` (`src/add.asm.ejs:110-195`) and `<name>_sub`
(`src/sub.asm.ejs:117-202`), given the code of the three mixed cases and the raw routine `f` for two long operands. -/
def addSub (n : Nat) (s1s2 l1s2 s1l2 : List Line) (f : String) : List Line :=
  enter ++ [op .mov rax (.mem .rsi 0), op .mov rcx (.mem .rdx 0), .misc (.bt .rax 63), .jump .carry "l1",
    .misc (.bt .rcx 63), .jump .carry "s1l2", .label "s1s2"] ++ s1s2 ++
  [.label "l1", .misc (.bt .rcx 63), .jump .carry "l1l2",
   .label "l1s2", .misc (.bt .rax 62), .jump .carry "l1ms2",
   .label "l1ns2"] ++ setTypeDest 0x80 ++ l1s2 ++
  [.label "l1ms2", .misc (.bt .rcx 62), .jump .carry "l1ms2m",
   .label "l1ms2n"] ++ setTypeDest 0xC0 ++ convB n "toMontgomery" ++ l1l2Lines f ++
  [.label "l1ms2m"] ++ setTypeDest 0xC0 ++ l1l2Lines f ++
  [.label "s1l2", .misc (.bt .rcx 62), .jump .carry "s1l2m",
   .label "s1l2n"] ++ setTypeDest 0x80 ++ s1l2 ++
  [.label "s1l2m", .misc (.bt .rax 62), .jump .carry "s1ml2m",
   .label "s1nl2m"] ++ setTypeDest 0xC0 ++ convA n "toMontgomery" ++ l1l2Lines f ++
  [.label "s1ml2m"] ++ setTypeDest 0xC0 ++ l1l2Lines f ++
  [.label "l1l2", .misc (.bt .rax 62), .jump .carry "l1ml2",
   .label "l1nl2", .misc (.bt .rcx 62), .jump .carry "l1nl2m",
   .label "l1nl2n"] ++ setTypeDest 0x80 ++ l1l2Lines f ++
  [.label "l1nl2m"] ++ setTypeDest 0xC0 ++ convA n "toMontgomery" ++ l1l2Lines f ++
  [.label "l1ml2", .misc (.bt .rcx 62), .jump .carry "l1ml2m",
   .label "l1ml2n"] ++ setTypeDest 0xC0 ++ convB n "toMontgomery" ++ l1l2Lines f ++
  [.label "l1ml2m"] ++ setTypeDest 0xC0 ++ l1l2Lines f

/-- `<name>_add`, `src/add.asm.ejs:110-195`. -/
def addCode (n : Nat) : List Line :=
  addSub n (s1s2Lines .add .add "overflow") (l1s2Lines "rawSubLS" "rawAddLS" "tmp1")
    (s1l2Lines "rawSubLS" "rawAddLS" "tmp2") "rawAddLL"

/-- `<name>_sub`, `src/sub.asm.ejs:117-202`. -/
def subCode (n : Nat) : List Line :=
  addSub n (s1s2Lines .sub .sub "overflow") (l1s2Lines "rawAddLS" "rawSubLS" "tmp1") (subS1L2 "tmp2") "rawSubLL"

/-! ## Negation, `src/neg.asm.ejs` -/

/-- `<name>_neg`, `src/neg.asm.ejs:35-46` with `negS` (1-15) and `negL` (17-24). -/
def negCode : List Line :=
  [op .mov rax (.mem .rsi 0), .misc (.bt .rax 63), .jump .carry "l",
   .misc (.neg32 .rax), .jump .overflow "overflow", op .mov (.mem .rdi 0) rax, .ret,
   .label "overflow", .push .rsi, .misc (.movsx .rsi .rax), .misc (.neg .rsi), .call "rawCopyS2L", .pop .rsi, .ret,
   .label "l", op .mov (.mem .rdi 0) rax, op .add rdi (.imm 8), op .add rsi (.imm 8), .call "rawNegL",
   op .sub rdi (.imm 8), op .sub rsi (.imm 8), .ret]

/-! ## Multiplication, `src/mul.asm.ejs` -/

/-- `mulS1S2`, `src/mul.asm.ejs:1-17`. -/
def mulS1S2 : List Line :=
  [op .xor rax rax, .misc (.op32 .mov .rax (.reg .r8)), .misc (.imul32 .r9), .jump .overflow "overflow",
   op .mov (.mem .rdi 0) rax,
   .label "overflow", .push .rsi, .misc (.movsx .rax .r8), .misc (.movsx .rcx .r9), .misc (.imul64 .rcx),
   op .mov rsi rax, .call "rawCopyS2L", .pop .rsi]

/-- `squareS1`, `src/mul.asm.ejs:19-34`. -/
def squareS1 : List Line :=
  [op .xor rax rax, .misc (.op32 .mov .rax (.reg .r8)), .misc (.imul32 .rax), .jump .overflow "overflow",
   op .mov (.mem .rdi 0) rax,
   .label "overflow", .push .rsi, .misc (.movsx .rax .r8), .misc (.imul64 .rax),
   op .mov rsi rax, .call "rawCopyS2L", .pop .rsi]

/-- `mulL1S2`, `src/mul.asm.ejs:37-59`, and `mulS1L2`, `src/mul.asm.ejs:61-83`, from the sign test on. -/
def mulLS (first : Line) (w : Reg) (pos done : String) : List Line :=
  [.push .rsi, first, .misc (.movsx .rdx w), op .add rdi (.imm 8), op .cmp rdx (.imm 0), .jump .nsign pos,
   .misc (.neg .rdx), .call "rawMMul1", op .mov rsi rdi, .call "rawNegL", op .sub rdi (.imm 8), .pop .rsi,
   .jump .always done,
   .label pos, .call "rawMMul1", op .sub rdi (.imm 8), .pop .rsi, .label done]

/-- `mulL1S2`, `src/mul.asm.ejs:37-59`. -/
def mulL1S2 (pos done : String) : List Line := mulLS (op .add rsi (.imm 8)) .r9 pos done
/-- `mulS1L2`, `src/mul.asm.ejs:61-83`. -/
def mulS1L2 (pos done : String) : List Line := mulLS (.misc (.lea .rsi .rdx 8)) .r8 pos done

/-- `squareL1`, `src/mul.asm.ejs:95-101`. -/
def squareL1 : List Line :=
  [op .add rdi (.imm 8), op .add rsi (.imm 8), .call "rawMSquare", op .sub rdi (.imm 8), op .sub rsi (.imm 8)]

/-- `mulR3`, `src/mul.asm.ejs:103-111`. -/
def mulR3 : List Line :=
  [.push .rsi, op .add rdi (.imm 8), op .mov rsi rdi, .lea .rdx .r3, .call "rawMMul", op .sub rdi (.imm 8), .pop .rsi]

/-- `<name>_square`, `src/mul.asm.ejs:126-147`. -/
def squareCode : List Line :=
  [op .mov r8 (.mem .rsi 0), .misc (.bt .r8 63), .jump .carry "l1", .label "s1"] ++ squareS1 ++ [.ret,
   .label "l1", .misc (.bt .r8 62), .jump .carry "l1m", .label "l1n"] ++ setTypeDest 0xC0 ++ squareL1 ++ mulR3 ++ [.ret,
   .label "l1m"] ++ setTypeDest 0xC0 ++ squareL1 ++ [.ret]

/-- `<name>_mul`, `src/mul.asm.ejs:163-273`. -/
def mulCode : List Line :=
  [op .mov r8 (.mem .rsi 0), op .mov r9 (.mem .rdx 0), .misc (.bt .r8 63), .jump .carry "l1", .misc (.bt .r9 63),
   .jump .carry "s1l2", .label "s1s2"] ++ mulS1S2 ++ [.ret,
   .label "l1", .misc (.bt .r9 63), .jump .carry "l1l2",
   .label "l1s2", .misc (.bt .r8 62), .jump .carry "l1ms2",
   .label "l1ns2", .misc (.bt .r9 62), .jump .carry "l1ns2m",
   .label "l1ns2n"] ++ setTypeDest 0xC0 ++ mulL1S2 "tmp1" "tmp2" ++ mulR3 ++ [.ret,
   .label "l1ns2m"] ++ setTypeDest 0x80 ++ callLL "rawMMul" ++ [.ret,
   .label "l1ms2", .misc (.bt .r9 62), .jump .carry "l1ms2m",
   .label "l1ms2n"] ++ setTypeDest 0x80 ++ mulL1S2 "tmp3" "tmp4" ++ [.ret,
   .label "l1ms2m"] ++ setTypeDest 0xC0 ++ callLL "rawMMul" ++ [.ret,
   .label "s1l2", .misc (.bt .r8 62), .jump .carry "s1ml2",
   .label "s1nl2", .misc (.bt .r9 62), .jump .carry "s1nl2m",
   .label "s1nl2n"] ++ setTypeDest 0xC0 ++ mulS1L2 "tmp5" "tmp6" ++ mulR3 ++ [.ret,
   .label "s1nl2m"] ++ setTypeDest 0x80 ++ mulS1L2 "tmp7" "tmp8" ++ [.ret,
   .label "s1ml2", .misc (.bt .r9 62), .jump .carry "s1ml2m",
   .label "s1ml2n"] ++ setTypeDest 0x80 ++ callLL "rawMMul" ++ [.ret,
   .label "s1ml2m"] ++ setTypeDest 0xC0 ++ callLL "rawMMul" ++ [.ret,
   .label "l1l2", .misc (.bt .r8 62), .jump .carry "l1ml2",
   .label "l1nl2", .misc (.bt .r9 62), .jump .carry "l1nl2m",
   .label "l1nl2n"] ++ setTypeDest 0xC0 ++ callLL "rawMMul" ++ mulR3 ++ [.ret,
   .label "l1nl2m"] ++ setTypeDest 0x80 ++ callLL "rawMMul" ++ [.ret,
   .label "l1ml2", .misc (.bt .r9 62), .jump .carry "l1ml2m",
   .label "l1ml2n"] ++ setTypeDest 0x80 ++ callLL "rawMMul" ++ [.ret,
   .label "l1ml2m"] ++ setTypeDest 0xC0 ++ callLL "rawMMul" ++ [.ret]

end FF.X86
