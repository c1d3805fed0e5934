import Verif.AsmRawRun

/-!
# A small AArch64 machine

The instructions printed by `src/armbuilder.js`.  Registers are numbered `x0 … x30`; `xzr` and immediate operands are separate kinds of
operands.  Memory is a map from addresses to 64-bit words; as in `X86.lean` the model only uses the cells `p`, `p + 8`, `p + 16`, … of
an array at `p`, and reading a cell never fails.
-/

namespace FF.Arm

open FF.X86 (upd cell rd)

/-- The condition flags. -/
structure Flags where
  n : Bool
  z : Bool
  c : Bool
  v : Bool

/-- Condition codes; `cs` is `hs`. -/
inductive Cond
  | eq | ne | hs | lo | lt
  deriving DecidableEq

def Cond.holds (f : Flags) : Cond → Bool
  | .eq => f.z
  | .ne => !f.z
  | .hs => f.c
  | .lo => !f.c
  | .lt => f.n != f.v

/-- The tables behind the code, `src/fr_raw_arm64.s.ejs:54-57`. -/
inductive Sym
  | q | np | lboMask
  deriving DecidableEq

/-- Registers, stack pointer, flags, memory, addresses of the tables and of the code labels. -/
structure State where
  reg : Nat → BitVec 64
  sp : BitVec 64
  fl : Flags
  mem : BitVec 64 → BitVec 64
  sym : Sym → BitVec 64
  code : String → BitVec 64

/-- Source operands. -/
inductive Opd
  | reg (r : Nat)
  | zr
  | imm (w : Nat)

def Opd.get (s : State) : Opd → BitVec 64
  | .reg r => s.reg r
  | .zr => 0
  | .imm w => BitVec.ofNat 64 w

/-- Data processing instructions with up to two source operands.  `orrLsl1` is `orr d, x, y, lsl #1`, `orrLsr1` is
`orr d, x, y, lsr #1`.  In `lsl`, `lsr` the shift amount is taken modulo 64. -/
inductive Alu
  | adds | adcs | adc | subs | sbcs | sub | and | orr | eor | mvn | mov | mul | umulh | lsl | lsr | orrLsl1 | orrLsr1
  | csel (c : Cond) | cset (c : Cond) | cinc (c : Cond) | cneg (c : Cond)
  deriving DecidableEq

/-- `AddWithCarry` of the architecture manual. -/
def addFlags (x y : BitVec 64) (c : Bool) : BitVec 64 × Flags :=
  let s := x.toNat + y.toNat + c.toNat
  let r := BitVec.ofNat 64 s
  (r, ⟨r.msb, decide (r = 0), decide (2 ^ 64 ≤ s), decide (x.toInt + y.toInt + (c.toNat : Int) ≠ r.toInt)⟩)

/-- Result and flags of an instruction. -/
def Alu.eval (o : Alu) (x y : BitVec 64) (f : Flags) : BitVec 64 × Flags :=
  match o with
  | .adds => addFlags x y false
  | .adcs => addFlags x y f.c
  | .adc => ((addFlags x y f.c).1, f)
  | .subs => addFlags x (~~~y) true
  | .sbcs => addFlags x (~~~y) f.c
  | .sub => (x - y, f)
  | .and => (x &&& y, f)
  | .orr => (x ||| y, f)
  | .eor => (x ^^^ y, f)
  | .mvn => (~~~x, f)
  | .mov => (x, f)
  | .mul => (x * y, f)
  | .umulh => (BitVec.ofNat 64 (x.toNat * y.toNat / 2 ^ 64), f)
  | .lsl => (x <<< (y.toNat % 64), f)
  | .lsr => (x >>> (y.toNat % 64), f)
  | .orrLsl1 => (x ||| (y <<< 1), f)
  | .orrLsr1 => (x ||| (y >>> 1), f)
  | .csel c => (if c.holds f then x else y, f)
  | .cset c => (if c.holds f then 1 else 0, f)
  | .cinc c => (if c.holds f then x + 1 else x, f)
  | .cneg c => (if c.holds f then -x else x, f)

/-- Instructions that do not transfer control.  `off` is in bytes.  `push`, `pop` are `str`/`stp …, [sp, #-16]!` and
`ldr`/`ldp …, [sp], #16`. -/
inductive Ins
  | alu (o : Alu) (d : Nat) (x y : Opd)
  | cmp (x y : Opd)
  | adr (d : Nat) (y : Sym)
  | ldr (d b off : Nat)
  | ldp (d e b off : Nat)
  | str (x : Opd) (b off : Nat)
  | stp (x y : Opd) (b off : Nat)
  | push1 (r : Nat)
  | push2 (r r' : Nat)
  | pop1 (r : Nat)
  | pop2 (r r' : Nat)

def Ins.exec : Ins → State → State
  | .alu o d x y, s =>
      let r := o.eval (x.get s) (y.get s) s.fl
      { s with reg := upd s.reg d r.1, fl := r.2 }
  | .cmp x y, s => { s with fl := (Alu.subs.eval (x.get s) (y.get s) s.fl).2 }
  | .adr d y, s => { s with reg := upd s.reg d (s.sym y) }
  | .ldr d b off, s => { s with reg := upd s.reg d (s.mem (s.reg b + BitVec.ofNat 64 off)) }
  | .ldp d e b off, s =>
      { s with reg := upd (upd s.reg d (s.mem (s.reg b + BitVec.ofNat 64 off))) e (s.mem (s.reg b + BitVec.ofNat 64 (off + 8))) }
  | .str x b off, s => { s with mem := upd s.mem (s.reg b + BitVec.ofNat 64 off) (x.get s) }
  | .stp x y b off, s =>
      { s with mem := upd (upd s.mem (s.reg b + BitVec.ofNat 64 off) (x.get s)) (s.reg b + BitVec.ofNat 64 (off + 8)) (y.get s) }
  | .push1 r, s => { s with sp := s.sp - 16, mem := upd s.mem (s.sp - 16) (s.reg r) }
  | .push2 r r', s => { s with sp := s.sp - 16, mem := upd (upd s.mem (s.sp - 16) (s.reg r)) (s.sp - 8) (s.reg r') }
  | .pop1 r, s => { s with sp := s.sp + 16, reg := upd s.reg r (s.mem s.sp) }
  | .pop2 r r', s => { s with sp := s.sp + 16, reg := upd (upd s.reg r (s.mem s.sp)) r' (s.mem (s.sp + 8)) }

/-- Lines of a listing.  `table i d ls` stands for the three lines `adr xd, table`, `ldr xd, [xd, xi, lsl 3]`, `br xd` with the
table of code addresses `ls`. -/
inductive Line
  | ins (i : Ins)
  | label (l : String)
  | b (l : String)
  | bc (c : Cond) (l : String)
  | cbz (r : Nat) (l : String)
  | cbnz (r : Nat) (l : String)
  | tbnz (r k : Nat) (l : String)
  | table (i d : Nat) (ls : List String)
  | ret

/-- The code behind the next occurrence of a label. -/
def dropTo (l : String) : List Line → List Line
  | [] => []
  | .label m :: p => if m = l then p else dropTo l p
  | _ :: p => dropTo l p

theorem dropTo_length (l : String) (p : List Line) : (dropTo l p).length ≤ p.length := by
  induction p with
  | nil => simp [dropTo]
  | cons x p ih =>
    cases x with
    | label m =>
      unfold dropTo
      split
      · simp only [List.length_cons]; omega
      · simp only [List.length_cons]; omega
    | _ => unfold dropTo; simp only [List.length_cons]; omega

/-- Runs a routine until its `ret`; `none` if it runs off the end of the listing or an index is outside its jump table.  All
jumps of the generated code are forward jumps. -/
def run (p : List Line) (s : State) : Option State :=
  match p with
  | [] => none
  | .ins i :: p => run p (i.exec s)
  | .label _ :: p => run p s
  | .b l :: p => run (dropTo l p) s
  | .bc c l :: p => if c.holds s.fl then run (dropTo l p) s else run p s
  | .cbz r l :: p => if s.reg r = 0 then run (dropTo l p) s else run p s
  | .cbnz r l :: p => if s.reg r = 0 then run p s else run (dropTo l p) s
  | .tbnz r k l :: p => if (s.reg r).getLsbD k then run (dropTo l p) s else run p s
  | .table i d ls :: p =>
      match ls[(s.reg i).toNat]? with
      | none => none
      | some l => run (dropTo l p) { s with reg := upd s.reg d (s.code l) }
  | .ret :: _ => some s
  termination_by p.length
  decreasing_by
    all_goals simp_wf
    all_goals first | omega | (have := dropTo_length l p; omega)

/-- Straight code as lines. -/
def lines (l : List Ins) : List Line := l.map .ins

/-- Straight code. -/
def exes (l : List Ins) (s : State) : State := l.foldl (fun s i => i.exec s) s

theorem run_lines (l : List Ins) : ∀ (p : List Line) (s : State), run (lines l ++ p) s = run p (exes l s) := by
  induction l with
  | nil => intro p s; rfl
  | cons i l ih => intro p s; rw [lines, List.map_cons, List.cons_append, run]; exact ih p _

theorem exes_append (l₁ l₂ : List Ins) (s : State) : exes (l₁ ++ l₂) s = exes l₂ (exes l₁ s) := by simp [exes, List.foldl_append]

theorem dropTo_lines (l : String) (is : List Ins) (p : List Line) : dropTo l (lines is ++ p) = dropTo l p := by
  induction is with
  | nil => rfl
  | cons i is ih => exact ih

theorem dropTo_self (l : String) (p : List Line) : dropTo l (.label l :: p) = p := by rw [dropTo, if_pos rfl]

end FF.Arm
