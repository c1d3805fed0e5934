import Verif.AsmTouchTag

/-!
# The listings of the tagged routines in pieces

Each list has the lines of the listing it is named after (`…I_code`); its loops are what they say (`…I_fine`).
-/

namespace FF.X86

/-- Lines as pieces. -/
def lns (l : List Line) : List Item := l.map .ln

theorem lns_code (bl n : Nat) (l : List Line) : codeOf bl n (lns l) = l := by
  induction l with
  | nil => rfl
  | cons x l ih => exact congrArg (x :: ·) ih

theorem codeOf_append (bl n : Nat) (p p' : List Item) : codeOf bl n (p ++ p') = codeOf bl n p ++ codeOf bl n p' := List.flatMap_append

theorem codeOf_blk (bl n : Nat) (c : Nat → Nat → List Line) (rd : List Reg) (wr : Bool) (outs : List String) :
    codeOf bl n [.blk c rd wr outs] = c bl n := List.append_nil _

theorem lns_fine (q : Nat) (l : List Line) : (∀ x ∈ lns l, x.Fine q) ↔ True := by
  refine ⟨fun _ => trivial, fun _ x hx => ?_⟩
  obtain ⟨i, _, rfl⟩ := List.mem_map.1 hx
  trivial

theorem alloc_fine (q : Nat) : (∀ x ∈ [Item.alloc], x.Fine q) ↔ True := by simp [Item.Fine]

/-- `convA`. -/
def convAI (f : String) : List Item :=
  lns [op .mov r8 rdi] ++ ([.alloc] ++ lns [op .mov rdi rsp, .push .rdx, .push .r8, .call f, op .mov rsi rdi, .pop .rdi, .pop .rdx])
/-- `convB`. -/
def convBI (f : String) : List Item :=
  lns [op .mov r8 rdi] ++ ([.alloc] ++
    lns [op .mov rdi rsp, .push .rsi, op .mov rsi rdx, .push .r8, .call f, op .mov rdx rdi, .pop .rdi, .pop .rsi])

theorem convAI_code (bl n : Nat) (f : String) : codeOf bl n (convAI f) = convA n f := rfl
theorem convBI_code (bl n : Nat) (f : String) : codeOf bl n (convBI f) = convB n f := rfl
theorem convAI_fine (q : Nat) (f : String) : (∀ x ∈ convAI f, x.Fine q) ↔ True := by
  simp only [convAI, List.forall_mem_append, lns_fine, alloc_fine, and_self]
theorem convBI_fine (q : Nat) (f : String) : (∀ x ∈ convBI f, x.Fine q) ↔ True := by
  simp only [convBI, List.forall_mem_append, lns_fine, alloc_fine, and_self]

/-! ## Addition and subtraction -/

/-- `addSub`. -/
def addSubI (s1s2 l1s2 s1l2 : List Line) (f : String) : List Item :=
  lns (enter ++ [op .mov rax (.mem .rsi 0), op .mov rcx (.mem .rdx 0), .misc (.bt .rax 63), .jump .carry "l1",
    .misc (.bt .rcx 63), .jump .carry "s1l2", .label "s1s2"] ++ s1s2 ++
  [.label "l1", .misc (.bt .rcx 63), .jump .carry "l1l2",
   .label "l1s2", .misc (.bt .rax 62), .jump .carry "l1ms2",
   .label "l1ns2"] ++ setTypeDest 0x80 ++ l1s2 ++
  [.label "l1ms2", .misc (.bt .rcx 62), .jump .carry "l1ms2m",
   .label "l1ms2n"] ++ setTypeDest 0xC0) ++ (convBI "toMontgomery" ++ (lns (l1l2Lines f ++
  [.label "l1ms2m"] ++ setTypeDest 0xC0 ++ l1l2Lines f ++
  [.label "s1l2", .misc (.bt .rcx 62), .jump .carry "s1l2m",
   .label "s1l2n"] ++ setTypeDest 0x80 ++ s1l2 ++
  [.label "s1l2m", .misc (.bt .rax 62), .jump .carry "s1ml2m",
   .label "s1nl2m"] ++ setTypeDest 0xC0) ++ (convAI "toMontgomery" ++ (lns (l1l2Lines f ++
  [.label "s1ml2m"] ++ setTypeDest 0xC0 ++ l1l2Lines f ++
  [.label "l1l2", .misc (.bt .rax 62), .jump .carry "l1ml2",
   .label "l1nl2", .misc (.bt .rcx 62), .jump .carry "l1nl2m",
   .label "l1nl2n"] ++ setTypeDest 0x80 ++ l1l2Lines f ++
  [.label "l1nl2m"] ++ setTypeDest 0xC0) ++ (convAI "toMontgomery" ++ (lns (l1l2Lines f ++
  [.label "l1ml2", .misc (.bt .rcx 62), .jump .carry "l1ml2m",
   .label "l1ml2n"] ++ setTypeDest 0xC0) ++ (convBI "toMontgomery" ++ lns (l1l2Lines f ++
  [.label "l1ml2m"] ++ setTypeDest 0xC0 ++ l1l2Lines f))))))))

theorem addSubI_code (bl n : Nat) (s1s2 l1s2 s1l2 : List Line) (f : String) :
    codeOf bl n (addSubI s1s2 l1s2 s1l2 f) = addSub n s1s2 l1s2 s1l2 f := by
  unfold addSubI addSub
  simp only [codeOf_append, lns_code, convAI_code, convBI_code]
  simp only [List.append_assoc]

theorem addSubI_fine (q : Nat) (s1s2 l1s2 s1l2 : List Line) (f : String) : ∀ x ∈ addSubI s1s2 l1s2 s1l2 f, x.Fine q := by
  simp only [addSubI, List.forall_mem_append, lns_fine, convAI_fine, convBI_fine, and_self]

/-- `addCode`. -/
def addI : List Item :=
  addSubI (s1s2Lines .add .add "overflow") (l1s2Lines "rawSubLS" "rawAddLS" "tmp1") (s1l2Lines "rawSubLS" "rawAddLS" "tmp2") "rawAddLL"
/-- `subCode`. -/
def subI : List Item :=
  addSubI (s1s2Lines .sub .sub "overflow") (l1s2Lines "rawAddLS" "rawSubLS" "tmp1") (subS1L2 "tmp2") "rawSubLL"

/-! ## Comparisons -/

/-- `signL`. -/
def signLI (r : Reg) (pos neg : String) : List Item := [.blk (fun _ n => signL n r pos neg) [r] false [pos, neg]]

/-- `cmpCode`. -/
def cmpI (c : Cond) (l1ms2 s1l2m l1nl2m l1ml2n l1ml2m tail : List Item) : List Item :=
  lns (enter ++ [op .mov r8 (.mem .rsi 0), op .mov r9 (.mem .rdx 0), .misc (.bt .r8 63), .jump .carry "l1",
    .misc (.bt .r9 63), .jump .carry "s1l2",
    .label "s1s2", .misc (.op32 .cmp .r8 (.reg .r9)), .jump c "ret1", .jump .always "ret0",
    .label "l1", .misc (.bt .r9 63), .jump .carry "l1l2",
    .label "l1s2", .misc (.bt .r8 62), .jump .carry "l1ms2",
    .label "l1ns2"]) ++ (convBI "toLongNormal" ++ (lns [.jump .always "L1L2",
    .label "l1ms2"] ++ (l1ms2 ++ (lns [.jump .always "L1L2",
    .label "s1l2", .misc (.bt .r9 62), .jump .carry "s1l2m",
    .label "s1l2n"] ++ (convAI "toLongNormal" ++ (lns [.jump .always "L1L2",
    .label "s1l2m"] ++ (s1l2m ++ (lns [.jump .always "L1L2",
    .label "l1l2", .misc (.bt .r8 62), .jump .carry "l1ml2",
    .label "l1nl2", .misc (.bt .r9 62), .jump .carry "l1nl2m",
    .label "l1nl2n", .jump .always "L1L2",
    .label "l1nl2m"] ++ (l1nl2m ++ (lns [.jump .always "L1L2",
    .label "l1ml2", .misc (.bt .r9 62), .jump .carry "l1ml2m",
    .label "l1ml2n"] ++ (l1ml2n ++ (lns [.jump .always "L1L2",
    .label "l1ml2m"] ++ (l1ml2m ++ (lns [.jump .always "L1L2",
    .label "L1L2"] ++ tail))))))))))))))

/-- `cmpOrd`. -/
def cmpOrdI (c : Cond) (tail : List Item) : List Item :=
  cmpI c (convBI "toLongNormal" ++ convAI "toNormal") (convAI "toLongNormal" ++ convBI "toNormal") (convBI "toNormal") (convAI "toNormal")
    (convAI "toNormal" ++ convBI "toNormal") tail

/-- `signs`. -/
def signsI (lp ln : String) : List Item :=
  signLI .rsi "p1" "n1" ++ lns [.label "p1"] ++ signLI .rdx "RawL1L2" lp ++ lns [.label "n1"] ++ signLI .rdx ln "RawL1L2" ++
    lns [.label "RawL1L2"]

/-- `rgtCode`. -/
def rgtI : List Item :=
  cmpOrdI .greater (signsI "ret1" "ret0" ++
    ([.blk (fun _ n => down (fun i => [op .mov rax (.mem .rsi (8 + 8 * i)), op .cmp (.mem .rdx (8 + 8 * i)) rax, .jump .carry "ret1"] ++
      if i > 0 then [.jump .nzero "ret0"] else []) n) [.rsi, .rdx] false ["ret1", "ret0"]] ++ lns (cmpRet0 ++ cmpRet1)))

/-- `rltCode`. -/
def rltI : List Item :=
  cmpOrdI .less (signsI "ret0" "ret1" ++
    ([.blk (fun _ n => down (fun i => [op .mov rax (.mem .rsi (8 + 8 * i)), op .cmp (.mem .rdx (8 + 8 * i)) rax, .jump .carry "ret0",
      .jump .nzero "ret1"]) n) [.rsi, .rdx] false ["ret0", "ret1"]] ++ lns (cmpRet0 ++ cmpRet1)))

/-- `reqCode`. -/
def reqI : List Item :=
  cmpI .zero (convBI "toMontgomery") (convAI "toMontgomery") (convAI "toMontgomery") (convBI "toMontgomery") []
    ([.blk (fun _ n => (List.range n).flatMap fun i => [op .mov rax (.mem .rsi (8 + 8 * i)), op .cmp (.mem .rdx (8 + 8 * i)) rax,
      .jump .nzero "ret0"]) [.rsi, .rdx] false ["ret0"]] ++ lns (cmpRet1 ++ cmpRet0))

/-! ## Logical operations -/

/-- `isTrueL`. -/
def isTrueLI (res src : Reg) (long zero one done : String) : List Item :=
  lns [op .mov rax (.mem src 0), .misc (.bt .rax 63), .jump .carry long, .misc (.op32 .test .rax (.reg .rax)), .jump .zero zero,
    .jump .always one, .label long] ++
  ([.blk (fun _ n => (List.range n).flatMap fun i => [op .mov rax (.mem src (8 + 8 * i)), op .test rax rax, .jump .nzero one]) [src] false [one]] ++
  lns [.label zero, op .mov (.reg res) (.imm 0), .jump .always done, .label one, op .mov (.reg res) (.imm 1), .label done])

/-- `logicalOp`. -/
def logicalI (o : Op2) : List Item :=
  isTrueLI .r8 .rsi "long1" "retZero1" "retOne1" "done1" ++ (isTrueLI .rcx .rdx "long2" "retZero2" "retOne2" "done2" ++
    lns [op o rcx r8, op .mov (.mem .rdi 0) rcx, .ret])

/-- `lnotCode`. -/
def lnotI : List Item :=
  isTrueLI .rcx .rsi "long1" "retZero1" "retOne1" "done1" ++
    lns [op .test rcx rcx, .jump .zero "lnot_retOne", .label "lnot_retZero", op .mov (.mem .rdi 0) (.imm 0), .ret,
     .label "lnot_retOne", op .mov (.mem .rdi 0) (.imm 1), .ret]

/-- `isTrueCode`. -/
def isTrueI : List Item := isTrueLI .rax .rdi "long1" "retZero1" "retOne1" "done1" ++ lns [.ret]

/-! ## Bitwise operations -/

/-- `subQIfBigger` on an element. -/
def subQI : List Item :=
  [.blk (fun _ n => down (fun i => [op .mov rax (.mem .rdi (8 + 8 * i)), op .cmp rax (.sym .q (8 * i)), .jump .carry "done",
    .jump .nzero "subQ"]) n) [.rdi] false ["done", "subQ"]] ++ (lns [.label "subQ"] ++
  ([.blk (fun _ n => (List.range n).flatMap fun i => [op .mov rax (.sym .q (8 * i)),
    op (if i = 0 then .sub else .sbb) (.mem .rdi (8 + 8 * i)) rax]) [.rdi] true []] ++ lns [.label "done"]))

/-- `bitL1L2`. -/
def bitL1L2I (o : Op2) : List Item :=
  [.blk (fun _ n => (List.range n).flatMap fun i => [op .mov rax (.mem .rsi (8 + 8 * i)), op o rax (.mem .rdx (8 + 8 * i))] ++ maskLast n i ++
    [op .mov (.mem .rdi (8 + 8 * i)) rax]) [.rsi, .rdx] true []] ++ (subQI ++ lns leave)

/-- `bitShortRounds`. -/
def bitShortI (o : Op2) (p : Reg) : List Item :=
  lns [op o rax (.mem p 8), op .mov (.mem .rdi 8) rax] ++
  [.blk (fun _ n => (List.range' 1 (n - 1)).flatMap fun i => [op .xor rax rax, op o rax (.mem p (8 + 8 * i))] ++ maskLast n i ++
    [op .mov (.mem .rdi (8 + 8 * i)) rax]) [p] true []]

/-- `bitS1L2`. -/
def bitS1L2I (o : Op2) : List Item :=
  lns [.misc (.op32 .mov .rax (.low .rsi)), .misc (.op32 .cmp .rax (.imm 0)), .jump .sign "solveNeg"] ++
  (bitShortI o .rdx ++ (subQI ++ (lns (leave ++ [.label "solveNeg"]) ++ (convAI "toLongNormal" ++ (lns (setTypeDest 0x80) ++ bitL1L2I o)))))

/-- `bitL1S2`. -/
def bitL1S2I (o : Op2) : List Item :=
  lns [op .mov rcx (.mem .rdx 0), .misc (.op32 .cmp .rcx (.imm 0)), .jump .sign "solveNeg", .misc (.movsx .rax .rcx)] ++
  (bitShortI o .rsi ++ (subQI ++ (lns (leave ++ [.label "solveNeg"]) ++ (convBI "toLongNormal" ++ (lns (setTypeDest 0x80) ++ bitL1L2I o)))))

/-- `bitS1S2`. -/
def bitS1S2I (o : Op2) (o' : Op32) : List Item :=
  lns ([.misc (.op32 .cmp .rax (.imm 0)), .jump .sign "solveNeg", .misc (.op32 .cmp .rcx (.imm 0)), .jump .sign "solveNeg",
    op .xor rdx rdx, .misc (.op32 .mov .rdx (.reg .rax)), .misc (.op32 o' .rdx (.reg .rcx)), op .mov (.mem .rdi 0) rdx] ++ leave ++
  [.label "solveNeg"] ++ setTypeDest 0x80) ++ (convBI "toLongNormal" ++ (convAI "toLongNormal" ++ bitL1L2I o))

/-- `bitDispatch`. -/
def bitDispatchI (ss ls sl ll : List Item) : List Item :=
  lns (enter ++ [op .mov rax (.mem .rsi 0), op .mov rcx (.mem .rdx 0), .misc (.bt .rax 63), .jump .carry "l1",
    .misc (.bt .rcx 63), .jump .carry "s1l2",
    .label "s1s2"]) ++ (ss ++
  (lns ([.label "l1", .misc (.bt .rcx 63), .jump .carry "l1l2",
   .label "l1s2", .misc (.bt .rax 62), .jump .carry "l1ms2",
   .label "l1ns2"] ++ setTypeDest 0x80) ++ (ls ++
  (lns ([.label "l1ms2"] ++ setTypeDest 0x80) ++ (convAI "toNormal" ++ (ls ++
  (lns ([.label "s1l2", .misc (.bt .rcx 62), .jump .carry "s1l2m",
   .label "s1l2n"] ++ setTypeDest 0x80) ++ (sl ++
  (lns ([.label "s1l2m"] ++ setTypeDest 0x80) ++ (convBI "toNormal" ++ (sl ++
  (lns ([.label "l1l2", .misc (.bt .rax 62), .jump .carry "l1ml2", .misc (.bt .rcx 62), .jump .carry "l1nl2m",
   .label "l1nl2n"] ++ setTypeDest 0x80) ++ (ll ++
  (lns ([.label "l1nl2m"] ++ setTypeDest 0x80) ++ (convBI "toNormal" ++ (ll ++
  (lns ([.label "l1ml2", .misc (.bt .rcx 62), .jump .carry "l1ml2m",
   .label "l1ml2n"] ++ setTypeDest 0x80) ++ (convAI "toNormal" ++ (ll ++
  (lns ([.label "l1ml2m"] ++ setTypeDest 0x80) ++ (convAI "toNormal" ++ (convBI "toNormal" ++ ll))))))))))))))))))))))

/-- `bitCode`. -/
def bitI (o : Op2) (o' : Op32) : List Item := bitDispatchI (bitS1S2I o o') (bitL1S2I o) (bitS1L2I o) (bitL1L2I o)

/-- `bnotCode`. -/
def bnotI : List Item :=
  lns (enter ++ setTypeDest 0x80 ++ [op .mov rax (.mem .rsi 0), .misc (.bt .rax 63), .jump .carry "l1",
    .label "s"]) ++ (convAI "toLongNormal" ++ (lns [.jump .always "l1n",
    .label "l1", .misc (.bt .rax 62), .jump .ncarry "l1n",
    .label "l1m"] ++ (convAI "toNormal" ++ (lns [.label "l1n"] ++
  ([.blk (fun _ n => (List.range n).flatMap fun i => [op .mov rax (.mem .rsi (8 + 8 * i)), .misc (.not .rax)] ++ maskLast n i ++
    [op .mov (.mem .rdi (8 + 8 * i)) rax]) [.rsi] true []] ++ (subQI ++ lns leave))))))

/-! ## Shifts -/

/-- `parseShift`. -/
def parseI (pos neg big : String) : List Item :=
  lns [op .mov rcx (.mem .rdx 0), .misc (.bt .rcx 63), .jump .ncarry "S2", .misc (.bt .rcx 62), .jump .ncarry "L2"] ++
  (convBI "toNormal" ++
  (lns [.label "L2", op .mov rcx (.mem .rdx 8)] ++ ([.blk (fun bl _ => [op .cmp rcx (.imm (BitVec.ofNat 64 bl))]) [] false []] ++
  (lns [.jump .ncarry "L2neg", op .xor rax rax] ++
  ([.blk (fun _ n => (List.range' 1 (n - 1)).flatMap fun i => [op .cmp (.mem .rdx (8 + 8 * i)) rax, .jump .nzero "L2neg"]) [.rdx] false ["L2neg"]] ++
  (lns [op .mov rdx rcx, .jump .always pos,
   .label "L2neg", op .mov rcx (.sym .q 0), op .sub rcx (.mem .rdx 8)] ++ ([.blk (fun bl _ => [op .cmp rcx (.imm (BitVec.ofNat 64 bl))]) [] false []] ++
  (lns [.jump .ncarry big, op .mov rax (.sym .q 0), op .sub rax (.mem .rdx 8)] ++
  ([.blk (fun _ n => (List.range' 1 (n - 1)).flatMap fun i => [op .mov rax (.sym .q (8 * i)), op .sbb rax (.mem .rdx (8 + 8 * i)), .jump .nzero big])
    [.rdx] false [big]] ++
  (lns [op .mov rdx rcx, .jump .always neg,
   .label "S2", .misc (.op32 .cmp .rcx (.imm 0)), .jump .less "S2neg"] ++
  ([.blk (fun bl _ => [.misc (.op32 .cmp .rcx (.imm (BitVec.ofNat 32 bl)))]) [] false []] ++
  (lns [.jump .ncarry big, .misc (.movsx .rdx .rcx), .jump .always pos,
   .label "S2neg", .misc (.neg32 .rcx)] ++ ([.blk (fun bl _ => [.misc (.op32 .cmp .rcx (.imm (BitVec.ofNat 32 bl)))]) [] false []] ++
   lns [.jump .ncarry big, .misc (.movsx .rdx .rcx), .jump .always neg])))))))))))))

/-- `doShl`. -/
def doShlI : List Item :=
  lns ([.label "do_shl", op .mov rcx (.mem .rsi 0), .misc (.bt .rcx 63), .jump .carry "do_shll",
   .label "do_shls", .misc (.movsx .rax .rcx), op .cmp rax (.imm 0), .jump .zero "setzero", .jump .less "do_shlcl",
   op .cmp rdx (.imm 31), .jump .ncarry "do_shlcl",
   .misc .movClDl, .misc (.shlCl .rax), op .mov rcx rax, .misc (.shr .rcx 31), .jump .nzero "do_shlcl",
   op .mov (.mem .rdi 0) rax] ++ leave4 ++
  [.label "do_shlcl"]) ++ (convAI "toLongNormal" ++ (lns [.jump .always "do_shlln",
   .label "do_shll", .misc (.bt .rcx 62), .jump .ncarry "do_shlln"] ++ (convAI "toNormal" ++ lns ([.label "do_shlln"] ++ shiftLong "rawShl"))))

/-- `doShr`. -/
def doShrI : List Item :=
  lns ([.label "do_shr", op .mov rcx (.mem .rsi 0), .misc (.bt .rcx 63), .jump .carry "do_shrl",
   .label "do_shrs", .misc (.movsx .rax .rcx), op .cmp rax (.imm 0), .jump .zero "setzero", .jump .less "do_shrcl",
   op .cmp rdx (.imm 31), .jump .ncarry "setzero",
   .misc .movClDl, .misc (.shrCl .rax), op .mov (.mem .rdi 0) rax] ++ leave4 ++
  [.label "do_shrcl"]) ++ (convAI "toLongNormal" ++ (lns [.label "do_shrl", .misc (.bt .rcx 62), .jump .ncarry "do_shrln"] ++
   (convAI "toNormal" ++ lns ([.label "do_shrln"] ++ shiftLong "rawShr"))))

/-- `shlCode`. -/
def shlI : List Item := lns enter4 ++ (parseI "do_shl" "do_shr" "setzero" ++ (doShlI ++ (doShrI ++ lns setZero)))
/-- `shrCode`. -/
def shrI : List Item := lns enter4 ++ (parseI "do_shr" "do_shl" "setzero" ++ shlI)

/-! ## Conversion to a machine integer -/

/-- `toIntCode`. -/
def toIntI : List Item :=
  lns ([op .mov rax (.mem .rdi 0), .misc (.bt .rax 63), .jump .carry "long", .misc (.movsx .rax .rax), .ret, .label "long"] ++ enter ++
  [.misc (.bt .rax 62), .jump .ncarry "longNormal", .label "longMontgomery"]) ++ ([.alloc] ++
  (lns [.push .rsi, op .mov rsi rdi, op .mov rdi rsp, .call "toNormal", .pop .rsi,
   .label "longNormal", op .mov rax (.mem .rdi 8), op .mov rcx rax, .misc (.shr .rcx 31), .jump .nzero "longNeg"] ++
  ([.blk (fun _ n => toIntZeros n) [.rdi] false ["longNeg"]] ++
  (lns (leave ++ [.label "longNeg", op .mov rax (.mem .rdi 8), op .sub rax (.sym .q 0), .jump .ncarry "longErr"]) ++
  ([.blk (fun _ n => toIntSubs n) [.rdi] false ["longErr"]] ++
  lns ([op .mov rcx rax, .misc (.sar .rcx 31), op .add rcx (.imm 1), .jump .nzero "longErr"] ++ leave ++ toIntErr))))))

/-! ## The lines are those of the listings -/

section
variable (bl n : Nat)

theorem signLI_code (r : Reg) (pos neg : String) : codeOf bl n (signLI r pos neg) = signL n r pos neg := codeOf_blk _ _ _ _ _ _

theorem rgtI_code : codeOf bl n rgtI = rgtCode n := by
  simp only [rgtI, cmpOrdI, cmpI, signsI, rgtCode, cmpOrd, cmpCode, signs, codeOf_append, codeOf_blk, signLI_code, lns_code, convAI_code, convBI_code,
    List.append_assoc]
theorem rltI_code : codeOf bl n rltI = rltCode n := by
  simp only [rltI, cmpOrdI, cmpI, signsI, rltCode, cmpOrd, cmpCode, signs, codeOf_append, codeOf_blk, signLI_code, lns_code, convAI_code, convBI_code,
    List.append_assoc]
theorem reqI_code : codeOf bl n reqI = reqCode n := by
  unfold reqI cmpI reqCode cmpCode
  simp only [codeOf_append, codeOf_blk, lns_code, convAI_code, convBI_code]
  simp only [List.append_assoc]
  rfl

theorem isTrueLI_code (res src : Reg) (long zero one done : String) :
    codeOf bl n (isTrueLI res src long zero one done) = isTrueL n res src long zero one done := by
  unfold isTrueLI isTrueL
  simp only [codeOf_append, codeOf_blk, lns_code]
  simp only [List.append_assoc]
theorem logicalI_code (o : Op2) : codeOf bl n (logicalI o) = logicalOp n o := by
  unfold logicalI logicalOp
  simp only [codeOf_append, isTrueLI_code, lns_code]
  simp only [List.append_assoc]
theorem lnotI_code : codeOf bl n lnotI = lnotCode n := by
  simp only [lnotI, lnotCode, codeOf_append, isTrueLI_code, lns_code]
theorem isTrueI_code : codeOf bl n isTrueI = isTrueCode n := by
  simp only [isTrueI, isTrueCode, codeOf_append, isTrueLI_code, lns_code]

theorem subQI_code : codeOf bl n subQI = subQIfBigger n 8 := by
  unfold subQI subQIfBigger
  simp only [codeOf_append, codeOf_blk, lns_code]
  simp only [List.append_assoc]
theorem bitL1L2I_code (o : Op2) : codeOf bl n (bitL1L2I o) = bitL1L2 o n := by
  unfold bitL1L2I bitL1L2
  simp only [codeOf_append, codeOf_blk, subQI_code, lns_code]
  simp only [List.append_assoc]
theorem bitShortI_code (o : Op2) (p : Reg) : codeOf bl n (bitShortI o p) = bitShortRounds o p n := by
  simp only [bitShortI, bitShortRounds, codeOf_append, codeOf_blk, lns_code]
theorem bitS1L2I_code (o : Op2) : codeOf bl n (bitS1L2I o) = bitS1L2 o n := by
  unfold bitS1L2I bitS1L2
  simp only [codeOf_append, bitShortI_code, subQI_code, bitL1L2I_code, convAI_code, lns_code]
  simp only [List.append_assoc]
theorem bitL1S2I_code (o : Op2) : codeOf bl n (bitL1S2I o) = bitL1S2 o n := by
  unfold bitL1S2I bitL1S2
  simp only [codeOf_append, bitShortI_code, subQI_code, bitL1L2I_code, convBI_code, lns_code]
  simp only [List.append_assoc]
theorem bitS1S2I_code (o : Op2) (o' : Op32) : codeOf bl n (bitS1S2I o o') = bitS1S2 o o' n := by
  unfold bitS1S2I bitS1S2
  simp only [codeOf_append, bitL1L2I_code, convAI_code, convBI_code, lns_code]
  simp only [List.append_assoc]
theorem bitI_code (o : Op2) (o' : Op32) : codeOf bl n (bitI o o') = bitCode o o' n := by
  unfold bitI bitDispatchI bitCode bitDispatch
  simp only [codeOf_append, bitS1S2I_code, bitL1S2I_code, bitS1L2I_code, bitL1L2I_code, convAI_code, convBI_code, lns_code]
  simp only [List.append_assoc]
theorem bnotI_code : codeOf bl n bnotI = bnotCode n := by
  unfold bnotI bnotCode
  simp only [codeOf_append, codeOf_blk, subQI_code, convAI_code, lns_code]
  simp only [List.append_assoc]

theorem parseI_code (pos neg big : String) : codeOf bl n (parseI pos neg big) = parseShift bl n pos neg big := by
  unfold parseI parseShift
  simp only [codeOf_append, codeOf_blk, convBI_code, lns_code]
  simp only [List.append_assoc]
  rfl
theorem doShlI_code : codeOf bl n doShlI = doShl n := by
  unfold doShlI doShl
  simp only [codeOf_append, convAI_code, lns_code]
  simp only [List.append_assoc]
theorem doShrI_code : codeOf bl n doShrI = doShr n := by
  unfold doShrI doShr
  simp only [codeOf_append, convAI_code, lns_code]
  simp only [List.append_assoc]
theorem shlI_code : codeOf bl n shlI = shlCode bl n := by
  simp only [shlI, shlCode, codeOf_append, parseI_code, doShlI_code, doShrI_code, lns_code]
theorem shrI_code : codeOf bl n shrI = shrCode bl n := by
  simp only [shrI, shrCode, codeOf_append, parseI_code, shlI_code, lns_code]

theorem toIntI_code : codeOf bl n toIntI = toIntCode n := by
  unfold toIntI toIntCode toIntNormal toIntNeg fromMontR
  simp only [codeOf_append, codeOf_blk, lns_code]
  simp only [List.append_assoc]
  rfl

end

end FF.X86
