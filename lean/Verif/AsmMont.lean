import Verif.AsmRawRun

/-!
# The Montgomery code generator

`src/montgomerybuilder.js` writes its programs over numbered variables (`0, 1, …`) and hands each instruction to the
register manager of `src/asmbuilder.js`, which decides where the variables live and prints the instruction.
This file contains the programs over variables (`Ins Arg`) and the register manager.
-/

namespace FF.X86

/-- Arguments given to `c.op`: a variable number, or a string (a register or a memory operand). -/
inductive Arg
  | idx (n : Nat)
  | hw (o : Opd)
  deriving DecidableEq

/-- Machine with variables: the meaning the generator has in mind before registers are allocated. -/
structure VState where
  v : Nat → BitVec 64
  s : State

def Arg.get : Arg → VState → BitVec 64
  | .idx n, st => st.v n
  | .hw o, st => o.get st.s

def Arg.set : Arg → BitVec 64 → VState → VState
  | .idx n, x, st => { st with v := upd st.v n x }
  | .hw o, x, st => { st with s := o.set x st.s }

def vstep (i : Ins Arg) (st : VState) : VState :=
  i.exec Arg.get Arg.set (fun st => st.s.fl) (fun f st => { st with s := { st.s with fl := f } })
    (fun st => st.s.reg .rdx) st

def vsteps (l : List (Ins Arg)) (st : VState) : VState := l.foldl (fun st i => vstep i st) st

/-! ## The programs -/

abbrev V (n : Nat) : Arg := .idx n
/-- Shorthand for an instruction over variables. -/
abbrev o2 (o : Op2) (d s : Arg) : Ins Arg := .op2 o d s

/-- `[rsi + 8j]`, `[rcx + 8j]`, `[rdi + 8j]`, `[q + 8j]`. -/
abbrev mrsi (j : Nat) : Arg := .hw (.mem .rsi (8 * j))
abbrev mrcx (j : Nat) : Arg := .hw (.mem .rcx (8 * j))
abbrev mrdi (j : Nat) : Arg := .hw (.mem .rdi (8 * j))
abbrev mq (j : Nat) : Arg := .hw (.sym .q (8 * j))
abbrev vrdx : Arg := .hw (.reg .rdx)
abbrev vrcx : Arg := .hw (.reg .rcx)

/-- The first variable of the running total (`montgomerybuilder.js:22`). -/
abbrev T0 : Nat := 4

/-- `montgomerybuilder.js:29-33`. -/
def prologue : List (Ins Arg) :=
  [o2 .mov vrcx vrdx, o2 .mov (V 2) (.hw (.sym .np 0)), o2 .xor (V 3) (V 3)]

/-- `SecondLoop`, `montgomerybuilder.js:41-57`. -/
def second (n : Nat) (opt : Bool) : List (Ins Arg) :=
  [o2 .mov vrdx (V 2), .mulx (V 0) vrdx (V T0), .mulx (V 1) (V 0) (mq 0), o2 .adcx (V 0) (V T0)] ++
  ((List.range' 1 (n - 1)).flatMap fun j =>
    [.mulx (V ((j + 1) % 2)) (V (T0 + j - 1)) (mq j), o2 .adcx (V (T0 + j - 1)) (V (j % 2)),
     o2 .adox (V (T0 + j - 1)) (V (T0 + j))]) ++
  [o2 .mov (V (T0 + n - 1)) (V 3), o2 .adcx (V (T0 + n - 1)) (V (n % 2)), o2 .adox (V (T0 + n - 1)) (V (T0 + n))] ++
  (if opt then [] else
    [o2 .mov (V (T0 + n)) (V 3), o2 .adcx (V (T0 + n)) (V 3), o2 .adox (V (T0 + n)) (V (T0 + n + 1))])

/-- The product of `rdx` by an array, first round: `montgomerybuilder.js:98-111`; `x j` is limb `j`. -/
def firstProduct (n : Nat) (opt : Bool) (x0 : Arg) (x : Nat → Arg) : List (Ins Arg) :=
  [.mulx (V 0) (V T0) x0] ++
  ((List.range' 1 (n - 1)).flatMap fun j =>
    [.mulx (V (j % 2)) (V (T0 + j)) (x j), o2 .adcx (V (T0 + j)) (V ((j - 1) % 2))]) ++
  [o2 .mov (V (T0 + n)) (V 3), o2 .adcx (V (T0 + n)) (V ((n - 1) % 2))] ++
  (if opt then [] else [o2 .mov (V (T0 + n + 1)) (V 3), o2 .adcx (V (T0 + n + 1)) (V 3)])

/-- The top variable cleared at the start of a later round: `montgomerybuilder.js:113-117`. -/
def clearTop (n : Nat) (opt : Bool) : List (Ins Arg) :=
  if opt then [o2 .mov (V (T0 + n)) (V 3)] else [o2 .mov (V (T0 + n + 1)) (V 3)]

/-- The accumulated product of `rdx` by an array, later rounds: `montgomerybuilder.js:113-129`. -/
def nextProduct (n : Nat) (opt : Bool) (x : Nat → Arg) : List (Ins Arg) :=
  clearTop n opt ++
  ((List.range' 0 n).flatMap fun j =>
    [.mulx (V 1) (V 0) (x j), o2 .adcx (V (T0 + j)) (V 0), o2 .adox (V (T0 + j + 1)) (V 1)]) ++
  (if opt then [o2 .adcx (V (T0 + n)) (V 3)] else
    [o2 .adcx (V (T0 + n)) (V 3), o2 .adcx (V (T0 + n + 1)) (V 3), o2 .adox (V (T0 + n + 1)) (V 3)])

/-- `buildMul`, `montgomerybuilder.js:92-132`. -/
def upperMul (n : Nat) (opt : Bool) (i : Nat) : List (Ins Arg) :=
  [o2 .mov vrdx (mrsi i)] ++ if i = 0 then firstProduct n opt (mrcx 0) mrcx else nextProduct n opt mrcx

/-- `buildSquare`, `montgomerybuilder.js:219-259`. -/
def upperSquare (n : Nat) (opt : Bool) (i : Nat) : List (Ins Arg) :=
  [o2 .mov vrdx (mrsi i)] ++ if i = 0 then firstProduct n opt vrdx mrsi else nextProduct n opt mrsi

/-- `buildMul1`, `montgomerybuilder.js:262-290`. -/
def upperMul1 (n : Nat) (opt : Bool) (i : Nat) : List (Ins Arg) :=
  if i = 0 then [o2 .mov vrdx vrcx] ++ firstProduct n opt (mrsi 0) mrsi else clearTop n opt

/-- `buildFromMontgomery`, `montgomerybuilder.js:292-312`. -/
def upperFrom (n : Nat) (opt : Bool) (i : Nat) : List (Ins Arg) :=
  if i = 0 then
    ((List.range' 0 n).flatMap fun j => [o2 .mov (V (T0 + j)) (mrsi j)]) ++ [o2 .mov (V (T0 + n)) (V 3)] ++
    (if opt then [] else [o2 .mov (V (T0 + n + 1)) (V 3)])
  else clearTop n opt

/-- The unrolled rounds, `montgomerybuilder.js:36-60`. -/
def rounds (upper : Nat → List (Ins Arg)) (n : Nat) (opt : Bool) : List (Ins Arg) :=
  (List.range' 0 n).flatMap fun i => upper i ++ second n opt

end FF.X86
