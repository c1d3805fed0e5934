import Verif.Arm

/-!
# The AArch64 generator

`src/armbuilder.js`, function by function.  A list of register numbers stands for a `RegVar`; the number 31 is `xzr`.  The prefix of
the labels (`makeLabel`, lines 172-174) is left out; comments and empty lines (`op_comment`, `op_empty`) are not printed.
-/

namespace FF.Arm

/-- `class RegPool`, `armbuilder.js:69-81`. -/
structure Pool where
  free : List Nat
  saved : List Nat

/-- `RegPool.constructor`, `armbuilder.js:70-81`: registers `numParamRegs … 29` without `x18`. -/
def Pool.new (numParamRegs : Nat) : Pool := ⟨((List.range 30).drop numParamRegs).filter (fun r => r != 18), []⟩

/-- The registers returned by `RegPool.assignRegs`, `armbuilder.js:83-97`. -/
def Pool.get (p : Pool) (k : Nat) : List Nat := p.free.take k

/-- The pool after `RegPool.assignRegs`, `armbuilder.js:83-97`. -/
def Pool.rest (p : Pool) (k : Nat) : Pool := ⟨p.free.drop k, p.saved ++ (p.free.take k).filter (fun r => decide (19 ≤ r))⟩

/-- `RegPool.releaseRegs`, `armbuilder.js:99-101`. -/
def Pool.release (p : Pool) (rs : List Nat) : Pool := ⟨p.free ++ rs, p.saved⟩

/-- `cyclicCopy`, `armbuilder.js:50-58`. -/
def cyclicCopy (v : List Nat) (width : Nat) : List Nat := (List.range width).map fun i => v.getD (i % v.length) 0

/-- `expand`, `armbuilder.js:60-67`. -/
def expand (v : List Nat) (newReg width : Nat) : List Nat := v ++ List.replicate (width - v.length) newReg

/-- A register operand, `armbuilder.js:11-16`. -/
def opd (r : Nat) : Opd := if r = 31 then .zr else .reg r

/-- Register `i` of a `RegVar`. -/
def at' (v : List Nat) (i : Nat) : Nat := v.getD i 0

/-- `genStoreVarWord`, `armbuilder.js:234-243`, `309-311`. -/
def storeWord (v : List Nat) (i memReg : Nat) : List Ins :=
  if i % 2 = 0 then
    if i = v.length - 1 then [.str (opd (at' v i)) memReg (8 * i)]
    else [.stp (opd (at' v i)) (opd (at' v (i + 1))) memReg (8 * i)]
  else []

/-- `genLoadVarWord`, `armbuilder.js:245-254`, `313-315`. -/
def loadWord (v : List Nat) (i memReg : Nat) : List Ins :=
  if i % 2 = 0 then
    if i = v.length - 1 then [.ldr (at' v i) memReg (8 * i)]
    else [.ldp (at' v i) (at' v (i + 1)) memReg (8 * i)]
  else []

/-- `for (let i = 0; i < this.width; i++)`. -/
def loop (n : Nat) (f : Nat → List Ins) : List Ins := (List.range n).flatMap f

/-- `genLoadVar`, `armbuilder.js:317-321`. -/
def loadVar (n : Nat) (v : List Nat) (memReg : Nat) : List Ins := loop n fun i => loadWord v i memReg

/-- `genStoreVar`, `armbuilder.js:323-327`. -/
def storeVar (n : Nat) (v : List Nat) (memReg : Nat) : List Ins := loop n fun i => storeWord v i memReg

/-- `genAddReg`, `armbuilder.js:256-258`. -/
def addReg (r a b i : Nat) : Ins := .alu (if i = 0 then .adds else .adcs) r (opd a) (opd b)

/-- `genSubReg`, `armbuilder.js:270-272`. -/
def subReg (r a b i : Nat) : Ins := .alu (if i = 0 then .subs else .sbcs) r (opd a) (opd b)

/-- `genAddWord`, `armbuilder.js:260-262`. -/
def addWord (r a b : List Nat) (i : Nat) : List Ins := [addReg (at' r i) (at' a i) (at' b i) i]

/-- `genSubWord`, `armbuilder.js:274-276`. -/
def subWord (r a b : List Nat) (i : Nat) : List Ins := [subReg (at' r i) (at' a i) (at' b i) i]

/-- `genSubLoad`, `armbuilder.js:284-291`. -/
def subLoad (n : Nat) (r a b : List Nat) (memReg : Nat) : List Ins := loop n fun i => loadWord b i memReg ++ subWord r a b i

/-- The pattern "store word `i - 1` after computing word `i`, and the last word at the end", `armbuilder.js:293-303`, `585-593`,
`867-877`, `950-958`. -/
def delayed (n : Nat) (f : Nat → List Ins) (v : List Nat) (memReg : Nat) : List Ins :=
  (loop n fun i => f i ++ if 0 < i then storeWord v (i - 1) memReg else []) ++ storeWord v (n - 1) memReg

/-- `genCselStore`, `armbuilder.js:293-307`. -/
def cselStore (n : Nat) (r a b : List Nat) (memReg : Nat) : List Ins :=
  delayed n (fun i => [.alu (.csel .hs) (at' r i) (opd (at' a i)) (opd (at' b i))]) r memReg

/-- `genLboMask`, `armbuilder.js:329-334`. -/
def genLboMask (lastWord maskReg : Nat) : List Ins :=
  [.adr maskReg .lboMask, .ldr maskReg maskReg 0, .alu .and lastWord (.reg lastWord) (.reg maskReg)]

/-- `pushRegs`, `armbuilder.js:195-204`. -/
def pushRegs : List Nat → List Ins
  | [] => []
  | [r] => [.push1 r]
  | r :: r' :: l => .push2 r r' :: pushRegs l

/-- `popRegs`, `armbuilder.js:206-220`: the pairs in reverse order. -/
def popRegs : List Nat → List Ins
  | [] => []
  | [r] => [.pop1 r]
  | r :: r' :: l => popRegs l ++ [.pop2 r r']

/-! ## Copies, comparisons -/

/-- `Gen_rawIsZero.genStep`, `armbuilder.js:379-409`: code, result register and the number of work registers used so far. -/
def isZeroStep (work : List Nat) : Nat → Nat → Nat → List Ins × Nat × Nat
  | 0, _, k => ([], 0, k)
  | 1, i, k => ([.ldr (at' work (k % work.length)) 0 (8 * i)], at' work (k % work.length), k + 1)
  | 2, i, k =>
      let a := at' work (k % work.length)
      let b := at' work ((k + 1) % work.length)
      let r := at' work ((k + 2) % work.length)
      ([.ldp a b 0 (8 * i), .alu .orr r (.reg a) (.reg b)], r, k + 3)
  | width + 3, i, k =>
      let a := isZeroStep work 2 i k
      let b := isZeroStep work (width + 1) (i + 2) a.2.2
      let r := at' work (b.2.2 % work.length)
      (a.1 ++ b.1 ++ [.alu .orr r (.reg a.2.1) (.reg b.2.1)], r, b.2.2 + 1)

/-- The widths of the chunks of `genFold`, `armbuilder.js:351-363`, `438-450`. -/
def chunks (n : Nat) : List Nat := List.replicate (n / 4) 4 ++ if n % 4 = 0 then [] else [n % 4]

/-- `Gen_rawIsZero.genFold`, `genChunk`, `armbuilder.js:351-377`: `acc` is the accumulator, `k` the number of work registers used,
`i` the number of the chunk. -/
def isZeroFold (work : List Nat) : List Nat → Nat → Nat → Option Nat → List Ins × Option Nat
  | [], _, _, acc => ([], acc)
  | w :: ws, i, k, acc =>
      let c := isZeroStep work w (i * 4) k
      match acc with
      | none =>
          let r := isZeroFold work ws (i + 1) c.2.2 (some c.2.1)
          (c.1 ++ r.1, r.2)
      | some a =>
          let r := isZeroFold work ws (i + 1) c.2.2 (some 17)
          (c.1 ++ [.alu .orr 17 (.reg a) (.reg c.2.1)] ++ r.1, r.2)

/-- `Gen_rawIsZero`, `armbuilder.js:337-349`. -/
def isZeroBody (n : Nat) : List Ins :=
  let work := (Pool.new 1).get 16
  let f := isZeroFold work (chunks n) 0 0 none
  f.1 ++ [.cmp (.reg (f.2.getD 0)) .zr, .alu (.cset .eq) 0 .zr .zr]

def rawIsZero (n : Nat) : List Line := lines (isZeroBody n) ++ [.ret]

/-- `Gen_rawIsEq.genStep`, `armbuilder.js:469-500`. -/
def isEqStep (work a1 b1 c1 : List Nat) : Nat → Nat → Nat → List Ins × Nat × Nat
  | 0, _, k => ([], 0, k)
  | 1, i, k =>
      let r := at' work (k % work.length)
      ([.ldr (at' a1 i) 0 (8 * i), .ldr (at' b1 i) 1 (8 * i), .alu .eor r (.reg (at' a1 i)) (.reg (at' b1 i))], r, k + 1)
  | 2, i, k =>
      let r := at' work (k % work.length)
      ([.ldp (at' a1 i) (at' a1 (i + 1)) 0 (8 * i), .ldp (at' b1 i) (at' b1 (i + 1)) 1 (8 * i),
        .alu .eor (at' c1 i) (.reg (at' a1 i)) (.reg (at' b1 i)),
        .alu .eor (at' c1 (i + 1)) (.reg (at' a1 (i + 1))) (.reg (at' b1 (i + 1))),
        .alu .orr r (.reg (at' c1 i)) (.reg (at' c1 (i + 1)))], r, k + 1)
  | width + 3, i, k =>
      let a := isEqStep work a1 b1 c1 2 i k
      let b := isEqStep work a1 b1 c1 (width + 1) (i + 2) a.2.2
      let r := at' work (b.2.2 % work.length)
      (a.1 ++ b.1 ++ [.alu .orr r (.reg a.2.1) (.reg b.2.1)], r, b.2.2 + 1)

/-- `Gen_rawIsEq.genFold`, `genChunk`, `armbuilder.js:438-467`. -/
def isEqFold (long : Bool) (work a1 b1 c1 : List Nat) : List Nat → Nat → Nat → Option Nat → List Ins × Option Nat
  | [], _, _, acc => ([], acc)
  | w :: ws, i, k, acc =>
      let c := isEqStep work a1 b1 c1 w (i * 4) k
      if long then
        let r := isEqFold long work a1 b1 c1 ws (i + 1) c.2.2 acc
        (c.1 ++ [.alu .orr 17 (.reg 17) (.reg c.2.1)] ++ r.1, r.2)
      else
        match acc with
        | none =>
            let r := isEqFold long work a1 b1 c1 ws (i + 1) c.2.2 (some c.2.1)
            (c.1 ++ r.1, r.2)
        | some a =>
            let r := isEqFold long work a1 b1 c1 ws (i + 1) c.2.2 (some 17)
            (c.1 ++ [.alu .orr 17 (.reg a) (.reg c.2.1)] ++ r.1, r.2)

/-- `Gen_rawIsEq`, `armbuilder.js:412-436`, `502-504`. -/
def isEqBody (n : Nat) : List Ins :=
  let p := Pool.new 2
  let work := p.get 3
  let p := p.rest 3
  let a1 := cyclicCopy (p.get 4) n
  let p := p.rest 4
  let b1 := cyclicCopy (p.get 4) n
  let p := p.rest 4
  let c1 := cyclicCopy (p.get 4) n
  let long := decide (8 ≤ n)
  let f := isEqFold long work a1 b1 c1 (chunks n) 0 0 (if long then some 17 else none)
  (if long then [.alu .mov 17 .zr .zr] else []) ++ f.1 ++ [.cmp (.reg (f.2.getD 0)) .zr, .alu (.cset .eq) 0 .zr .zr]

def rawIsEq (n : Nat) : List Line := lines (isEqBody n) ++ [.ret]

/-- `Gen_rawSwap`, `armbuilder.js:507-527`. -/
def rawSwap (n : Nat) : List Line :=
  let p := Pool.new 2
  let a1 := cyclicCopy (p.get 8) n
  let b1 := cyclicCopy ((p.rest 8).get 8) n
  lines (loop n fun i => loadWord a1 i 0 ++ loadWord b1 i 1 ++ storeWord a1 i 1 ++ storeWord b1 i 0) ++ [.ret]

/-- `Gen_rawCopy`, `armbuilder.js:529-546`. -/
def copyBody (n : Nat) : List Ins :=
  let a1 := cyclicCopy ((Pool.new 2).get 8) n
  loop n fun i => loadWord a1 i 1 ++ storeWord a1 i 0

def rawCopy (n : Nat) : List Line := lines (copyBody n) ++ [.ret]

/-- `Gen_rawCopyS2L`, `armbuilder.js:559-567`: the comparison. -/
def s2lCmp : List Ins := [.cmp (.reg 1) .zr]

/-- `Gen_rawCopyS2L`, `armbuilder.js:565-566`: the non-negative case. -/
def s2lPos (n : Nat) : List Ins := storeVar n (expand [1] 31 n) 0

/-- `Gen_rawCopyS2L.genPositive`, `armbuilder.js:552-553`, `575-595`: the negative case. -/
def s2lNeg (n : Nat) : List Ins :=
  let p := Pool.new 4
  let q1 := cyclicCopy (p.get 6) n
  let r1 := cyclicCopy ((p.rest 6).get 6) n
  let a1 := expand [1] 2 n
  (if 1 < n then [.alu .mov 2 (.imm (2 ^ 64 - 1)) .zr] else []) ++ [.adr 3 .q]
    ++ delayed n (fun i => loadWord q1 i 3 ++ addWord r1 a1 q1 i) r1 0

/-- `Gen_rawCopyS2L`, `armbuilder.js:548-596`. -/
def rawCopyS2L (n : Nat) : List Line :=
  lines s2lCmp ++ [.bc .lt "adjust_neg"] ++ lines (s2lPos n) ++ [.ret, .label "adjust_neg"] ++ lines (s2lNeg n) ++ [.ret]

/-- `Gen_rawCmp`, `armbuilder.js:598-633`. -/
def cmpBody (n : Nat) : List Ins :=
  let p := Pool.new 3
  let a1 := cyclicCopy (p.get 4) n
  let b1 := cyclicCopy ((p.rest 4).get 4) n
  (loop n fun i => loadWord a1 i 0 ++ loadWord b1 i 1 ++ subWord a1 a1 b1 i
      ++ [if i = 0 then .alu (.cset .ne) 2 .zr .zr else .alu (.cinc .ne) 2 (.reg 2) .zr])
    ++ [.alu (.cneg .lo) 0 (.reg 2) .zr]

def rawCmp (n : Nat) : List Line := lines (cmpBody n) ++ [.ret]

/-! ## Routines with two `width`-register variables -/

/-- The register variables of `Gen_rawBinOp`, `Gen_rawAdd`, `Gen_rawSub`, `Gen_rawNegLS`: `armbuilder.js:637-647`, `701-710`,
`780-789`, `970-977`. -/
structure Vars where
  r1 : List Nat
  b1 : List Nat
  r2 : List Nat
  saved : List Nat

def vars (n : Nat) : Vars :=
  let p := Pool.new 4
  let work := p.get 4
  let p := p.rest 4
  let r1 := p.get n
  let p := (p.rest n).release work
  ⟨r1, cyclicCopy work n, p.get n, (p.rest n).saved⟩

/-- `Gen_rawBinOp.genBinaryOp`, `armbuilder.js:665-692`. -/
def binOp (n : Nat) (o : Alu) : List Ins :=
  let v := vars n
  if o = .mvn then loop n fun i => loadWord v.r1 i 1 ++ [.alu o (at' v.r1 i) (.reg (at' v.r1 i)) .zr]
  else loop n fun i => loadWord v.r1 i 1 ++ loadWord v.b1 i 2 ++ [.alu o (at' v.r1 i) (.reg (at' v.r1 i)) (.reg (at' v.b1 i))]

/-- `Gen_rawBinOp.generate` between `pushRegs` and `popRegs`, `armbuilder.js:654-658`, `671`. -/
def binOpBody (n : Nat) (o : Alu) : List Ins :=
  let v := vars n
  binOp n o ++ genLboMask (at' v.r1 (n - 1)) 2 ++ [.adr 3 .q] ++ subLoad n v.r2 v.r1 v.r2 3 ++ cselStore n v.r1 v.r2 v.r1 0

/-- `Gen_rawBinOp`, `armbuilder.js:635-697`. -/
def rawBinOp (n : Nat) (o : Alu) : List Line :=
  lines (pushRegs (vars n).saved) ++ lines (binOpBody n o) ++ lines (popRegs (vars n).saved) ++ [.ret]

/-- `Gen_rawAdd.genAdditionOp`, `genAdditionOpLS`, the `cset` and `genSubtraction`: `armbuilder.js:717-725`, `736-760`. -/
def addBody (n : Nat) (short : Bool) : List Ins :=
  let v := vars n
  (if short then loop n fun i => loadWord v.r1 i 1 ++ addWord v.r1 v.r1 (expand [2] 31 n) i
    else loop n fun i => loadWord v.r1 i 1 ++ loadWord v.b1 i 2 ++ addWord v.r1 v.r1 v.b1 i)
    ++ [.alu (.cset .hs) 2 .zr .zr] ++ [.adr 3 .q] ++ subLoad n v.r2 v.r1 v.r2 3

/-- `Gen_rawAdd`, `armbuilder.js:699-776`; `short` for `rawAddLS`. -/
def rawAdd (n : Nat) (short : Bool) : List Line :=
  let v := vars n
  lines (pushRegs v.saved) ++ lines (addBody n short) ++ [.cbnz 2 "done_s", .bc .hs "done_s"] ++ lines (storeVar n v.r1 0)
    ++ [.b "out", .label "done_s"] ++ lines (storeVar n v.r2 0) ++ [.label "out"] ++ lines (popRegs v.saved) ++ [.ret]

/-- The three variants of `Gen_rawSub`, `armbuilder.js:1644-1646`. -/
inductive SubKind
  | LL | SL | LS
  deriving DecidableEq

/-- `Gen_rawSub.genSubtractionOp`, `genSubtractionOpLS`, `genSubtractionOpSL`, `armbuilder.js:818-842`. -/
def subBody (n : Nat) (k : SubKind) : List Ins :=
  let v := vars n
  match k with
  | .LL => loop n fun i => loadWord v.r1 i 1 ++ loadWord v.b1 i 2 ++ subWord v.r1 v.r1 v.b1 i
  | .LS => loop n fun i => loadWord v.r1 i 1 ++ subWord v.r1 v.r1 (expand [2] 31 n) i
  | .SL => subLoad n v.r1 (expand [1] 31 n) v.r1 2

/-- `Gen_rawSub.genAddition`, `armbuilder.js:844-853`. -/
def subAdd (n : Nat) : List Ins :=
  let v := vars n
  [.adr 3 .q] ++ loop n fun i => loadWord v.b1 i 3 ++ addWord v.r1 v.r1 v.b1 i

/-- `Gen_rawSub`, `armbuilder.js:778-854`. -/
def rawSub (n : Nat) (k : SubKind) : List Line :=
  let v := vars n
  lines (pushRegs v.saved) ++ lines (subBody n k) ++ [.bc .hs "done"] ++ lines (subAdd n) ++ [.label "done"]
    ++ lines (storeVar n v.r1 0) ++ lines (popRegs v.saved) ++ [.ret]

/-- `Gen_rawSubRegular`, `armbuilder.js:856-883`. -/
def subRegularBody (n : Nat) : List Ins :=
  let p := Pool.new 4
  let a1 := cyclicCopy (p.get 4) n
  let b1 := cyclicCopy ((p.rest 4).get 4) n
  delayed n (fun i => loadWord a1 i 1 ++ loadWord b1 i 2 ++ subWord a1 a1 b1 i) a1 0

def rawSubRegular (n : Nat) : List Line := lines (subRegularBody n) ++ [.ret]

/-- The register variables of `Gen_rawNeg`, `armbuilder.js:886-892`. -/
def negVars (n : Nat) : Vars :=
  let p := Pool.new 4
  let work := p.get 4
  let p := p.rest 4
  ⟨p.get n, cyclicCopy work n, work, (p.rest n).saved⟩

/-- `Gen_rawNeg.genIsZero`, `armbuilder.js:927-945`; `r2` holds the work registers. -/
def negIsZero (n : Nat) : List Ins :=
  let v := negVars n
  [.alu .mov 2 .zr .zr]
    ++ (loop (n / 2) fun k =>
      let r := at' v.r2 (k % 4)
      [.ldp (at' v.r1 (2 * k)) (at' v.r1 (2 * k + 1)) 1 (8 * (2 * k)),
        .alu .orr r (.reg (at' v.r1 (2 * k))) (.reg (at' v.r1 (2 * k + 1))), .alu .orr 2 (.reg 2) (.reg r)])
    ++ if n % 2 = 0 then []
      else [.ldr (at' v.r1 (n - 1)) 1 (8 * (n - 1)), .alu .orr 2 (.reg 2) (.reg (at' v.r1 (n - 1)))]

/-- `Gen_rawNeg.genSubtraction`, `armbuilder.js:947-960`. -/
def negSub (n : Nat) : List Ins :=
  let v := negVars n
  [.adr 3 .q] ++ delayed n (fun i => loadWord v.b1 i 3 ++ subWord v.r1 v.b1 v.r1 i) v.r1 0

/-- `Gen_rawNeg.genZeroStore`, `armbuilder.js:962-965`. -/
def negZero (n : Nat) : List Ins := storeVar n (cyclicCopy [31] n) 0

/-- `Gen_rawNeg`, `armbuilder.js:885-966`. -/
def rawNeg (n : Nat) : List Line :=
  let v := negVars n
  lines (pushRegs v.saved) ++ lines (negIsZero n) ++ [.cbz 2 "done_zero"] ++ lines (negSub n)
    ++ [if v.saved = [] then .ret else .b "out"] ++ [.label "done_zero"] ++ lines (negZero n)
    ++ (if v.saved = [] then [] else [.label "out"]) ++ lines (popRegs v.saved) ++ [.ret]

/-- `Gen_rawNegLS.genSubtractionOpQ`, `genSubtractionOpA` without the jump, `armbuilder.js:1001-1025`. -/
def negLSBody (n : Nat) : List Ins :=
  let v := vars n
  [.adr 3 .q] ++ (loop n fun i => loadWord v.r1 i 3 ++ subWord v.r2 v.r1 (expand [2] 31 n) i) ++ [.alu (.cset .hs) 2 .zr .zr]
    ++ (loop n fun i => loadWord v.b1 i 1 ++ subWord v.r2 v.r2 v.b1 i)
    ++ [.alu (.cset .hs) 3 .zr .zr, .alu .orr 3 (.reg 3) (.reg 2)]

/-- `genAdd`, `armbuilder.js:264-268`, as used by `Gen_rawNegLS`, line 989. -/
def negLSAdd (n : Nat) : List Ins := loop n fun i => addWord (vars n).r2 (vars n).r2 (vars n).r1 i

/-- `Gen_rawNegLS`, `armbuilder.js:968-1029`. -/
def rawNegLS (n : Nat) : List Line :=
  let v := vars n
  lines (pushRegs v.saved) ++ lines (negLSBody n) ++ [.cbz 3 "done"] ++ lines (negLSAdd n) ++ [.label "done"]
    ++ lines (storeVar n v.r2 0) ++ lines (popRegs v.saved) ++ [.ret]

/-! ## Shifts -/

/-- The register variables of `Gen_rawShr`, `armbuilder.js:1032-1039`; `b1` holds the work registers. -/
def shrVars (n : Nat) : Vars :=
  let p := Pool.new 6
  let work := p.get 2
  let p := p.rest 2
  ⟨p.get n, work, [], (p.rest n).saved⟩

/-- `genCalcShift`, `armbuilder.js:1074-1079`, `1208-1213`. -/
def calcShift : List Ins :=
  [.alu .and 3 (.reg 2) (.imm 63), .alu .mov 4 (.imm 63) .zr, .alu .sub 4 (.reg 4) (.reg 3)]

/-- `makeWordLabel`, `armbuilder.js:1157-1159`. -/
def wordLabel (i : Nat) : String := "word_shift_" ++ toString i

/-- `genCalcJump`, `genJumpTable`, `armbuilder.js:1081-1100`, `1215-1234`. -/
def calcJump (n : Nat) : List Line :=
  if 2 < n then [.ins (.alu .lsr 2 (.reg 2) (.imm 6)), .table 2 5 ((List.range n).map wordLabel)]
  else [.tbnz 2 6 (wordLabel 1)]

/-- The number of work registers used before the block of a word shift. -/
def workBefore (n ws : Nat) : Nat := ((List.range ws).map fun j => n - 1 - j).sum

/-- `Gen_rawShr.genBitShift`, `armbuilder.js:1128-1143`. -/
def shrBits (n ws : Nat) : List Ins :=
  let v := shrVars n
  (loop (n - 1 - ws) fun k =>
    let i := ws + k
    let c0 := at' v.b1 ((workBefore n ws + k) % 2)
    [.alu .lsr (at' v.r1 i) (.reg (at' v.r1 i)) (.reg 3), .alu .lsl c0 (.reg (at' v.r1 (i + 1))) (.reg 4),
      .alu .orrLsl1 (at' v.r1 i) (.reg (at' v.r1 i)) (.reg c0)])
    ++ [.alu .lsr (at' v.r1 (n - 1)) (.reg (at' v.r1 (n - 1))) (.reg 3)]

/-- `Gen_rawShr.genStore`, `armbuilder.js:1145-1155`. -/
def shrStore (n ws : Nat) : List Ins :=
  storeVar n ((List.range n).map fun i => if ws + i < n then at' (shrVars n).r1 (ws + i) else 31) 0

/-- A block of `Gen_rawShr.genShift`, `armbuilder.js:1102-1126`. -/
def shrBlock (n ws : Nat) : List Line :=
  [.label (wordLabel ws)] ++ lines (shrBits n ws ++ shrStore n ws)
    ++ if (shrVars n).saved = [] then [.ret] else if ws = n - 1 then [] else [.b "done"]

/-- `Gen_rawShr`, `armbuilder.js:1031-1160`. -/
def rawShr (n : Nat) : List Line :=
  if n = 1 then lines [.ldr 3 1 0, .alu .lsr 3 (.reg 3) (.reg 2), .str (.reg 3) 0 0] ++ [.ret]
  else
    let v := shrVars n
    lines (pushRegs v.saved) ++ lines (loadVar n v.r1 1 ++ calcShift) ++ calcJump n ++ (List.range n).flatMap (shrBlock n)
      ++ if v.saved = [] then [] else [.label "done"] ++ lines (popRegs v.saved) ++ [.ret]

/-- The register variables of `Gen_rawShl`, `armbuilder.js:1163-1172`; `b1` holds the work registers. -/
def shlVars (n : Nat) : Vars :=
  let p := Pool.new 7
  let work := p.get 2
  let p := p.rest 2
  let r1 := p.get n
  let p := ((p.rest n).release work).release [2, 3, 4, 5]
  ⟨r1, work, p.get n, (p.rest n).saved⟩

/-- `Gen_rawShl.genBitShift`, `armbuilder.js:1250-1270`; `k` counts the iterations. -/
def shlBits (n ws : Nat) : List Ins :=
  let v := shlVars n
  (loop (n - 1 - ws) fun k =>
    let i := n - 1 - ws - k
    let j := n - 1 - k
    let c0 := at' v.b1 ((workBefore n ws + k) % 2)
    [.alu .lsl (at' v.r1 j) (.reg (at' v.r1 i)) (.reg 3), .alu .lsr c0 (.reg (at' v.r1 (i - 1))) (.reg 4),
      .alu .orrLsr1 (at' v.r1 j) (.reg (at' v.r1 j)) (.reg c0)])
    ++ [.alu .lsl (at' v.r1 ws) (.reg (at' v.r1 0)) (.reg 3)]
    ++ loop ws fun k => [.alu .mov (at' v.r1 (ws - 1 - k)) .zr .zr]

/-- A block of `Gen_rawShl.genShift`, `armbuilder.js:1236-1248`. -/
def shlBlock (n ws : Nat) : List Line :=
  [.label (wordLabel ws)] ++ lines (shlBits n ws) ++ if ws = n - 1 then [] else [.b "sub"]

/-- The end of `Gen_rawShl.generate`, `armbuilder.js:1194-1198`. -/
def shlTail (n : Nat) : List Ins :=
  let v := shlVars n
  genLboMask (at' v.r1 (n - 1)) 6 ++ [.adr 1 .q] ++ subLoad n v.r2 v.r1 v.r2 1 ++ cselStore n v.r1 v.r2 v.r1 0

/-- `Gen_rawShl`, `armbuilder.js:1162-1275`. -/
def rawShl (n : Nat) : List Line :=
  if n = 1 then lines [.ldr 3 1 0, .alu .lsl 3 (.reg 3) (.reg 2), .str (.reg 3) 0 0] ++ [.ret]
  else
    let v := shlVars n
    lines (pushRegs v.saved) ++ lines (loadVar n v.r1 1 ++ calcShift) ++ calcJump n ++ (List.range n).flatMap (shlBlock n)
      ++ [.label "sub"] ++ lines (shlTail n) ++ lines (popRegs v.saved) ++ [.ret]

/-! ## Montgomery products -/

/-- The register variables of `Gen_rawMul`, `Gen_rawMul1`, `armbuilder.js:1277-1307`, `1476-1508`. -/
structure MulVars where
  r1 : List Nat
  b1 : List Nat
  q1 : List Nat
  r2 : List Nat
  q2 : List Nat
  b2 : List Nat
  saved : List Nat

/-- `isShort`, `armbuilder.js:1283`, `1482`. -/
def short (n : Nat) : Bool := decide (n ≤ 6)

def mulVars (n : Nat) : MulVars :=
  let p := Pool.new 9
  let r1 := p.get (n + 1)
  let p := p.rest (n + 1)
  if short n then
    let b1 := p.get n
    let p := p.rest n
    let q1 := p.get n
    ⟨r1, b1, q1, r1.tail, q1, b1, (p.rest n).saved⟩
  else
    let work := p.get 4
    let p := (((p.rest 4).release work).release [3, 4, 5, 7]).release (r1.take 1)
    ⟨r1, cyclicCopy work n, cyclicCopy work n, r1.tail, cyclicCopy [1, 2] n, p.get n, (p.rest n).saved⟩

/-- `if (!this.isShort) this.genLoadVarWord(…)`. -/
def longLoad (n : Nat) (v : List Nat) (i memReg : Nat) : List Ins := if short n then [] else loadWord v i memReg

/-- `genMulAB`, `armbuilder.js:1375-1393` (`ra = 3`, operand at `x2`) and `1570-1588` (`ra = 2`, operand at `x1`). -/
def mulAB (n ra memReg : Nat) : List Ins :=
  let v := mulVars n
  (loop n fun i =>
    longLoad n v.b1 i memReg ++ [.alu .mul (if i = 0 then at' v.r1 0 else 7) (.reg (at' v.b1 i)) (.reg ra)]
      ++ (if i = 0 then [] else [addReg (at' v.r1 i) (at' v.r1 i) 7 (i - 1)])
      ++ [.alu .umulh (at' v.r1 (i + 1)) (.reg (at' v.b1 i)) (.reg ra)])
    ++ if 1 < n then [.alu .adc (at' v.r1 n) (.reg (at' v.r1 n)) .zr] else []

/-- `genAddMulAB`, `armbuilder.js:1395-1433`. -/
def addMulAB (n : Nat) (opt : Bool) : List Ins :=
  let v := mulVars n
  let t1 := cyclicCopy [7, 5] n
  (loop n fun i => longLoad n v.b1 i 2 ++ [.alu .mul (at' v.r1 i) (.reg (at' v.b1 i)) (.reg 3),
      addReg (at' v.r1 i) (at' v.r1 i) (at' v.r1 (i + 1)) i])
    ++ (if opt then [.alu .adc (at' v.r1 n) .zr .zr, .alu .adds (at' v.r1 1) (.reg (at' v.r1 1)) (.reg 5)]
      else [.alu .adcs (at' v.r1 n) .zr (.reg 8), .alu .adc 8 .zr .zr])
    ++ (loop n fun i => longLoad n v.b1 i 2 ++ [.alu .umulh (at' t1 i) (.reg (at' v.b1 i)) (.reg 3),
      .alu (if opt then (if i = n - 1 then .adc else .adcs) else (if i = 0 then .adds else .adcs)) (at' v.r1 (i + 1))
        (.reg (at' v.r1 (i + 1))) (.reg (at' t1 i))])
    ++ if opt then [] else [.alu .adc 8 (.reg 8) .zr]

/-- `Gen_rawMul.genMulRawq`, `armbuilder.js:1435-1473`. -/
def mulRawq (n : Nat) (opt : Bool) (w : Nat) : List Ins :=
  let v := mulVars n
  let t1 := cyclicCopy [7, 3] n
  (loop n fun i => longLoad n v.q1 i 6 ++ [.alu .mul (at' t1 i) (.reg (at' v.q1 i)) (.reg 5),
      addReg (at' v.r1 i) (at' v.r1 i) (at' t1 i) i])
    ++ (if opt then [.alu .adc (at' v.r1 n) (.reg (at' v.r1 n)) .zr]
      else [.alu .adcs (at' v.r1 n) (.reg (at' v.r1 n)) .zr, .alu .adc 8 (if w = 0 then .zr else .reg 8) .zr])
    ++ (loop n fun i => longLoad n v.q1 i 6 ++ [.alu .umulh (at' t1 i) (.reg (at' v.q1 i)) (.reg 5),
      addReg (at' v.r1 (i + 1)) (at' v.r1 (i + 1)) (at' t1 i) i])
    ++ if opt then (if w < n - 1 then [.alu .adc 5 .zr .zr] else []) else [.alu .adc 8 (.reg 8) .zr]

/-- A round of `genMul`, `armbuilder.js:1350-1373`. -/
def mulRound (n : Nat) (opt : Bool) (w : Nat) : List Ins :=
  [.ldr 3 1 (8 * w)] ++ (if w = 0 then mulAB n 3 2 else addMulAB n opt) ++ [.alu .mul 5 (.reg 4) (.reg (at' (mulVars n).r1 0))]
    ++ mulRawq n opt w

/-- The loads of the constants, `armbuilder.js:1318-1325`, `1527-1534`. -/
def mulConsts (n : Nat) : List Ins :=
  [.adr 4 .np, .ldr 4 4 0, .adr 6 .q] ++ if short n then loadVar n (mulVars n).q1 6 else []

/-- The final subtraction and the stores, `armbuilder.js:1331-1343`, `1551-1563`. -/
def mulEnd (n : Nat) (opt : Bool) : List Ins :=
  let v := mulVars n
  (if short n then loop n fun i => subWord v.b2 v.r2 v.q2 i else subLoad n v.b2 v.r2 v.q2 6)
    ++ (if opt then [] else [.alu (.cinc .hs) 8 (.reg 8) .zr, .cmp (.reg 8) (.imm 1)])
    ++ cselStore n v.r2 v.b2 v.r2 0

/-- `Gen_rawMul.generate`, `armbuilder.js:1310-1348`. -/
def mulBody (n : Nat) (opt : Bool) : List Ins :=
  (if short n then loadVar n (mulVars n).b1 2 else []) ++ mulConsts n ++ loop n (mulRound n opt) ++ mulEnd n opt

/-- `Gen_rawMul`, `armbuilder.js:1277-1474`. -/
def rawMMul (n : Nat) (opt : Bool) : List Line :=
  lines (pushRegs (mulVars n).saved) ++ lines (mulBody n opt) ++ lines (popRegs (mulVars n).saved) ++ [.ret]

/-- `Gen_rawMul1.genMulRawq`, `armbuilder.js:1590-1637`. -/
def mul1Rawq (n : Nat) (opt : Bool) (w : Nat) : List Ins :=
  let v := mulVars n
  let t1 := cyclicCopy [7, 3] n
  (loop n fun i => longLoad n v.q1 i 6 ++ [.alu .mul (at' t1 i) (.reg (at' v.q1 i)) (.reg 5),
      addReg (at' v.r1 i) (at' v.r1 (if 0 < w then i + 1 else i)) (at' t1 i) i])
    ++ (if 0 < w then
        if opt then [.alu .adc (at' v.r1 n) .zr .zr, .alu .adds (at' v.r1 1) (.reg (at' v.r1 1)) (.reg 8)]
        else [.alu .adcs (at' v.r1 n) .zr (.reg 8), .alu .adc 8 .zr .zr]
      else [.alu .adc (at' v.r1 n) (.reg (at' v.r1 n)) .zr])
    ++ (loop n fun i => longLoad n v.q1 i 6 ++ [.alu .umulh (at' t1 i) (.reg (at' v.q1 i)) (.reg 5),
      addReg (at' v.r1 (i + 1)) (at' v.r1 (i + 1)) (at' t1 i) i])
    ++ if opt then (if w < n - 1 then [.alu .adc 8 .zr .zr] else [])
      else if w = 0 then [.alu .adc 8 .zr .zr] else [.alu .adc 8 (.reg 8) .zr]

/-- A round of `Gen_rawMul1.generate`, `armbuilder.js:1542-1548`. -/
def mul1Round (n : Nat) (opt : Bool) (w : Nat) : List Ins :=
  [.alu .mul 5 (.reg 4) (.reg (at' (mulVars n).r1 (if w = 0 then 0 else 1)))] ++ mul1Rawq n opt w

/-- `Gen_rawMul1.generate`, `armbuilder.js:1511-1568`; `ab` is `mulAB` (`rawMMul1`), otherwise `rawFromMontgomery`.  For an odd width
`genLoadVar` with the `width + 1` registers `r1` reads a pair at the last word, one word behind the operand. -/
def mul1Body (n : Nat) (ab opt : Bool) : List Ins :=
  let v := mulVars n
  (if ab then (if short n then loadVar n v.b1 1 else []) else loadVar n v.r1 1 ++ [.alu .mov (at' v.r1 n) .zr .zr])
    ++ mulConsts n ++ (if ab then mulAB n 2 1 else []) ++ loop n (mul1Round n opt) ++ mulEnd n opt

/-- `Gen_rawMul1`, `armbuilder.js:1476-1638`, `1651-1652`. -/
def rawMul1 (n : Nat) (ab opt : Bool) : List Line :=
  lines (pushRegs (mulVars n).saved) ++ lines (mul1Body n ab opt) ++ lines (popRegs (mulVars n).saved) ++ [.ret]

end FF.Arm
