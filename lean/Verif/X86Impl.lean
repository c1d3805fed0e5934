import Verif.RawClass
import Verif.AsmMontMain
import Verif.AsmRawNeg

/-!
# The raw routines of the x86-64 build, as functions of their operands

Each entry runs the text printed by the templates of `src/*.asm.ejs` on a machine that holds the tables of the modulus and the operand
arrays.
-/

namespace FF.X86

open FF

/-- Block `k` of the memory: `2^40` bytes from `k·2^40`. -/
def base (k : Nat) : BitVec 64 := BitVec.ofNat 64 (k * 2 ^ 40)

/-- The contents of the memory: the tables of `fr.asm.ejs:66-81` (modulus, Montgomery constant, `R²`) in blocks 0, 1, 2, the operand arrays in
blocks 3 and 4; the result goes to block 5, the stack ends at block 10. -/
def machineMem (q : Nat) (x y : Limbs) (b i : Nat) : BitVec 64 :=
  if b = 0 then (rawq q).getD i 0
  else if b = 1 then np q
  else if b = 2 then (rawR2 q).getD i 0
  else if b = 3 then x.getD i 0
  else if b = 4 then y.getD i 0
  else 0

/-- A machine about to call a raw routine with the arguments `r0`, `r1`, `r2`. -/
def machine (q : Nat) (x y : Limbs) (r0 r1 r2 : BitVec 64) : State where
  reg := fun r => match r with | .rdi => r0 | .rsi => r1 | .rdx => r2 | .rsp => base 10 | _ => 0
  fl := ⟨false, false, false, false⟩
  mem := fun a => machineMem q x y (a.toNat / 2 ^ 40) (a.toNat % 2 ^ 40 / 8)
  sym := fun s => match s with | .q => base 0 | .np => base 1 | .r2 => base 2 | _ => base 6

/-- The array a routine leaves in block 5; `none` stands for a routine the generator cannot print. -/
def call (q : Nat) (env : List Line → String → Option (State → Option State)) (code : Option (List Line)) (entry : List Line → List Line)
    (x y : Limbs) (r2 : BitVec 64) : Limbs :=
  match code.bind fun p => run (env p) 0 (entry p) (machine q x y (base 5) (base 3) r2) with
  | some s => rd s.mem (base 5) (n64 q)
  | none => []

/-- The C `int` a routine answers in `rax`. -/
def answer (q : Nat) (code : List Line) (x y : Limbs) : Int :=
  match run noCalls 0 code (machine q x y (base 3) (base 4) 0) with
  | some s => ((s.reg .rax).setWidth 32).toInt
  | none => 0

/-- The x86-64 routines called by the class `RawFr`: `fr.hpp.ejs:29-62` declares them, `add.asm.ejs`, `sub.asm.ejs`, `neg.asm.ejs`,
`copy.asm.ejs`, `cmpops.asm.ejs` and `montgomery.asm.ejs` print them. -/
def ops (q : Nat) : RawOps where
  add a b := call q (fun _ => noCalls) (some (rawAddLL (n64 q))) id a b (base 4)
  sub a b := call q (fun _ => noCalls) (some (rawSubLL (n64 q))) id a b (base 4)
  neg a := call q (fun _ => noCalls) (some (rawNegL (n64 q))) id a [] 0
  mmul a b := call q (fun _ => noCalls) (template (n64 q) (canOpt q) (upperMul (n64 q) (canOpt q))) id a b (base 4)
  msquare a := call q (fun _ => noCalls) (template (n64 q) (canOpt q) (upperSquare (n64 q) (canOpt q))) id a [] 0
  mmul1 a w := call q (fun _ => noCalls) (template (n64 q) (canOpt q) (upperMul1 (n64 q) (canOpt q))) id a [] w
  toMontgomery a :=
    call q (callMMul 0) (template (n64 q) (canOpt q) (upperMul (n64 q) (canOpt q))) (fun _ => rawToMontgomeryCode) a [] 0
  fromMontgomery a := call q (fun _ => noCalls) (template (n64 q) (canOpt q) (upperFrom (n64 q) (canOpt q))) id a [] 0
  copy a := call q (fun _ => noCalls) (some (rawCopy (n64 q))) id a [] 0
  isEq a b := answer q (rawIsEq (n64 q)) a b
  isZero a := answer q (rawIsZero (n64 q)) a []

end FF.X86
