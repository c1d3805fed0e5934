import Verif.Raw

/-!
# The x86-64 instructions used by the generated assembly

`src/*.asm.ejs` and `src/montgomerybuilder.js` print x86-64 code.  This file gives the meaning of the instructions they
use.  Simplifications:

* memory is a map from addresses to 8-byte cells; every access of the modelled routines is to an 8-byte cell or to one
  half of it (the tag word of an element), and arrays are 8-byte aligned, so two different accessed addresses never
  overlap in part;
* every address may be read and written (there is no page protection); the theorems state which cells change;
* the modelled routines only jump forwards, so a jump continues behind the label further down (`dropTo`).
-/

namespace FF.X86

/-- The sixteen general registers (`src/asmbuilder.js:10` `allRegs`). -/
inductive Reg
  | rax | rbx | rcx | rdx | rdi | rsi | rsp | rbp | r8 | r9 | r10 | r11 | r12 | r13 | r14 | r15
  deriving DecidableEq, Repr

/-- The data labels of the generated file, `src/fr.asm.ejs:66-81`. -/
inductive Sym
  | q | half | r2 | r3 | lboMask | np
  deriving DecidableEq, Repr

/-- The arithmetic flags. -/
structure Flags where
  cf : Bool
  oF : Bool
  zf : Bool
  sf : Bool

/-- Registers, flags, memory and the addresses of the data labels. -/
structure State where
  reg : Reg → BitVec 64
  fl : Flags
  mem : BitVec 64 → BitVec 64
  sym : Sym → BitVec 64

/-- Operands: a register, `[base + off]`, `[label + off]`, an immediate. -/
inductive Opd
  | reg (r : Reg)
  | mem (b : Reg) (off : Nat)
  | sym (s : Sym) (off : Nat)
  | imm (v : BitVec 64)
  deriving DecidableEq

/-- Writes one entry of a map. -/
def upd {α β : Type} [DecidableEq α] (f : α → β) (a : α) (b : β) : α → β := fun x => if x = a then b else f x

/-- The address of cell `i` of the array at `a`. -/
def cell (a : BitVec 64) (i : Nat) : BitVec 64 := a + BitVec.ofNat 64 (8 * i)

/-- Reads an operand. -/
def Opd.get : Opd → State → BitVec 64
  | .reg r, s => s.reg r
  | .mem b off, s => s.mem (s.reg b + BitVec.ofNat 64 off)
  | .sym y off, s => s.mem (s.sym y + BitVec.ofNat 64 off)
  | .imm v, _ => v

/-- Writes an operand (an immediate is never a destination). -/
def Opd.set : Opd → BitVec 64 → State → State
  | .reg r, v, s => { s with reg := upd s.reg r v }
  | .mem b off, v, s => { s with mem := upd s.mem (s.reg b + BitVec.ofNat 64 off) v }
  | .sym y off, v, s => { s with mem := upd s.mem (s.sym y + BitVec.ofNat 64 off) v }
  | .imm _, _, s => s

/-- The two-operand instructions (Intel SDM vol. 2). -/
inductive Op2
  | mov | add | adc | sub | sbb | cmp | test | xor | and | or | adcx | adox
  deriving DecidableEq, Repr

/-- `0` or `1`. -/
def b2n (b : Bool) : Nat := if b then 1 else 0

/-- The flags of a sum `x + y + c` with result `r`. -/
def addFlags (x y : BitVec 64) (c : Nat) (r : BitVec 64) : Flags where
  cf := decide (2 ^ 64 ≤ x.toNat + y.toNat + c)
  oF := (x.msb == y.msb) && (r.msb != x.msb)
  zf := decide (r = 0)
  sf := r.msb

/-- The flags of a difference `x - y - c` with result `r`. -/
def subFlags (x y : BitVec 64) (c : Nat) (r : BitVec 64) : Flags where
  cf := decide (x.toNat < y.toNat + c)
  oF := (x.msb != y.msb) && (r.msb != x.msb)
  zf := decide (r = 0)
  sf := r.msb

/-- The flags of a logical instruction with result `r`. -/
def logicFlags (r : BitVec 64) : Flags where
  cf := false
  oF := false
  zf := decide (r = 0)
  sf := r.msb

/-- Result and flags of an instruction on destination value `x` and source value `y`. -/
def Op2.eval (o : Op2) (x y : BitVec 64) (f : Flags) : BitVec 64 × Flags :=
  match o with
  | .mov => (y, f)
  | .add => let r := x + y; (r, addFlags x y 0 r)
  | .adc => let r := x + y + BitVec.ofNat 64 (b2n f.cf); (r, addFlags x y (b2n f.cf) r)
  | .sub => let r := x - y; (r, subFlags x y 0 r)
  | .sbb => let r := x - y - BitVec.ofNat 64 (b2n f.cf); (r, subFlags x y (b2n f.cf) r)
  | .cmp => let r := x - y; (r, subFlags x y 0 r)
  | .test => let r := x &&& y; (r, logicFlags r)
  | .xor => let r := x ^^^ y; (r, logicFlags r)
  | .and => let r := x &&& y; (r, logicFlags r)
  | .or => let r := x ||| y; (r, logicFlags r)
  | .adcx =>
      (x + y + BitVec.ofNat 64 (b2n f.cf), { f with cf := decide (2 ^ 64 ≤ x.toNat + y.toNat + b2n f.cf) })
  | .adox =>
      (x + y + BitVec.ofNat 64 (b2n f.oF), { f with oF := decide (2 ^ 64 ≤ x.toNat + y.toNat + b2n f.oF) })

/-- `cmp` and `test` write no result. -/
def Op2.writes : Op2 → Bool
  | .cmp => false
  | .test => false
  | _ => true

/-- Instructions over an operand type: the two-operand ones and `mulx hi, lo, src` (`hi:lo = rdx * src`, flags kept). -/
inductive Ins (O : Type)
  | op2 (o : Op2) (d s : O)
  | mulx (hi lo src : O)

/-- The meaning of an instruction, for any machine state `σ` with readable and writable operands. -/
def Ins.exec {O σ : Type} (get : O → σ → BitVec 64) (set : O → BitVec 64 → σ → σ) (fl : σ → Flags)
    (setFl : Flags → σ → σ) (rdx : σ → BitVec 64) : Ins O → σ → σ
  | .op2 o d s, st =>
      let r := o.eval (get d st) (get s st) (fl st)
      let st' := setFl r.2 st
      if o.writes then set d r.1 st' else st'
  | .mulx hi lo src, st =>
      let p := (rdx st).toNat * (get src st).toNat
      set hi (BitVec.ofNat 64 (p / 2 ^ 64)) (set lo (BitVec.ofNat 64 p) st)

/-- One instruction on the machine. -/
def step (i : Ins Opd) (s : State) : State :=
  i.exec Opd.get Opd.set State.fl (fun f s => { s with fl := f }) (fun s => s.reg .rdx) s

/-- A straight piece of code. -/
def steps (l : List (Ins Opd)) (s : State) : State := l.foldl (fun s i => step i s) s

/-- Jump conditions. -/
inductive Cond
  | carry | ncarry | zero | nzero | sign | nsign | always | overflow | above | less | greater
  deriving DecidableEq

/-- Whether a jump is taken. -/
def Cond.holds (f : Flags) : Cond → Bool
  | .carry => f.cf
  | .ncarry => !f.cf
  | .zero => f.zf
  | .nzero => !f.zf
  | .sign => f.sf
  | .nsign => !f.sf
  | .always => true
  | .overflow => f.oF
  | .above => !f.cf && !f.zf
  | .less => f.sf != f.oF
  | .greater => !f.zf && f.sf == f.oF

/-- The low and the second byte of a word replaced. -/
def setLow8 (x : BitVec 64) (b : BitVec 8) : BitVec 64 := BitVec.ofNat 64 (x.toNat / 2 ^ 8 * 2 ^ 8 + b.toNat)
/-- The second byte of a word replaced. -/
def setHigh8 (x : BitVec 64) (b : BitVec 8) : BitVec 64 :=
  BitVec.ofNat 64 (x.toNat / 2 ^ 16 * 2 ^ 16 + b.toNat * 2 ^ 8 + x.toNat % 2 ^ 8)

/-- Source operands of the 32-bit instructions: the low half of a register, an immediate, the low half of the cell `[b]`. -/
inductive Opd32
  | reg (r : Reg)
  | imm (v : BitVec 32)
  | low (b : Reg)

/-- Reads a 32-bit operand. -/
def Opd32.get : Opd32 → State → BitVec 32
  | .reg r, s => (s.reg r).setWidth 32
  | .imm v, _ => v
  | .low b, s => (s.mem (s.reg b)).setWidth 32

/-- The two-operand instructions in their 32-bit form (only those the listings use). -/
inductive Op32
  | mov | add | sub | cmp | test | and | or | xor
  deriving DecidableEq

/-- Result and flags of a 32-bit instruction. -/
def Op32.eval (o : Op32) (x y : BitVec 32) (f : Flags) : BitVec 32 × Flags :=
  match o with
  | .mov => (y, f)
  | .add => let r := x + y
            (r, ⟨decide (2 ^ 32 ≤ x.toNat + y.toNat), (x.msb == y.msb) && (r.msb != x.msb), decide (r = 0), r.msb⟩)
  | .sub => let r := x - y
            (r, ⟨decide (x.toNat < y.toNat), (x.msb != y.msb) && (r.msb != x.msb), decide (r = 0), r.msb⟩)
  | .cmp => let r := x - y
            (r, ⟨decide (x.toNat < y.toNat), (x.msb != y.msb) && (r.msb != x.msb), decide (r = 0), r.msb⟩)
  | .test => let r := x &&& y; (r, ⟨false, false, decide (r = 0), r.msb⟩)
  | .and => let r := x &&& y; (r, ⟨false, false, decide (r = 0), r.msb⟩)
  | .or => let r := x ||| y; (r, ⟨false, false, decide (r = 0), r.msb⟩)
  | .xor => let r := x ^^^ y; (r, ⟨false, false, decide (r = 0), r.msb⟩)

/-- `cmp` and `test` write no result. -/
def Op32.writes : Op32 → Bool
  | .cmp => false
  | .test => false
  | _ => true

/-- The instructions only the tagged routines and the shifts use.  A 32-bit result clears the upper half of its register.
Simplification: flags the processor leaves undefined keep their value. -/
inductive Misc
  /-- `bt r, k`: the carry becomes bit `k` -/
  | bt (r : Reg) (k : Nat)
  /-- `movsx d, s` with the 32-bit name of `s` -/
  | movsx (d s : Reg)
  | op32 (o : Op32) (d : Reg) (s : Opd32)
  | neg (r : Reg)
  | neg32 (r : Reg)
  | not (r : Reg)
  /-- one-operand `imul`, 32 bits: `edx:eax = eax * s` -/
  | imul32 (s : Reg)
  /-- one-operand `imul`, 64 bits: `rdx:rax = rax * s` -/
  | imul64 (s : Reg)
  /-- `lea d, [b + off]` -/
  | lea (d b : Reg) (off : Nat)
  /-- `mov r11b, t` -/
  | movR11b (t : BitVec 8)
  /-- `shl r11d, k` -/
  | shlR11d (k : Nat)
  /-- `mov [rdi+4], r11d`: the upper half of the cell `[rdi]` -/
  | storeHi
  | shl (r : Reg) (k : Nat)
  | shr (r : Reg) (k : Nat)
  | sar (r : Reg) (k : Nat)
  /-- `shl r, cl` -/
  | shlCl (r : Reg)
  /-- `shr r, cl` -/
  | shrCl (r : Reg)
  /-- `mov cl, dl` -/
  | movClDl
  /-- `mov ch, v` -/
  | movCh (v : BitVec 8)
  /-- `sub ch, cl` -/
  | subChCl
  /-- `rol cx, 8`: swaps `cl` and `ch` -/
  | rolCx8
  /-- `mov d, [b + 8*i + off]` -/
  | load (d b i : Reg) (off : Nat)
  /-- one-operand `mul`, 64 bits: `rdx:rax = rax * s` -/
  | mul64 (s : Reg)
  /-- `cld`; the direction flag is only used by `rep movsq`, which is modelled with the flag clear -/
  | cld
  /-- `rep movsq` with the direction flag clear -/
  | repMovsq

/-- `n` steps of `movsq`: copies words upwards, one after the other. -/
def movsq : Nat → (BitVec 64 → BitVec 64) → BitVec 64 → BitVec 64 → BitVec 64 → BitVec 64
  | 0, m, _, _ => m
  | n + 1, m, src, dst => movsq n (upd m dst (m src)) (src + 8) (dst + 8)

/-- Upper half of `x` replaced. -/
def setHi32 (x : BitVec 64) (h : BitVec 32) : BitVec 64 := h ++ x.setWidth 32

/-- The low byte of `rcx`, masked as the shift instructions do. -/
def clCount (s : State) : Nat := ((s.reg .rcx).setWidth 8).toNat % 64

/-- Flags after a shift with result `r`; the carry is the last bit shifted out. -/
def shiftFlags (f : Flags) (c : Bool) (r : BitVec 64) : Flags := ⟨c, f.oF, decide (r = 0), r.msb⟩

/-- Meaning of the instructions above. -/
def Misc.exec : Misc → State → State
  | .bt r k, s => { s with fl := { s.fl with cf := (s.reg r).getLsbD k } }
  | .movsx d b, s => { s with reg := upd s.reg d (((s.reg b).setWidth 32).signExtend 64) }
  | .op32 o d b, s =>
      let x := (s.reg d).setWidth 32
      let r := o.eval x (b.get s) s.fl
      if o.writes then { s with reg := upd s.reg d (r.1.setWidth 64), fl := r.2 } else { s with fl := r.2 }
  | .neg r, s =>
      let v := -(s.reg r)
      { s with reg := upd s.reg r v, fl := subFlags 0 (s.reg r) 0 v }
  | .neg32 r, s =>
      let x := (s.reg r).setWidth 32
      let v := -x
      { s with reg := upd s.reg r (v.setWidth 64)
               fl := ⟨decide (x ≠ 0), x.msb && v.msb, decide (v = 0), v.msb⟩ }
  | .not r, s => { s with reg := upd s.reg r (~~~(s.reg r)) }
  | .imul32 b, s =>
      let p := ((s.reg .rax).setWidth 32).toInt * ((s.reg b).setWidth 32).toInt
      let o := decide (p < -2 ^ 31 ∨ 2 ^ 31 ≤ p)
      { s with reg := upd (upd s.reg .rax ((BitVec.ofInt 32 p).setWidth 64)) .rdx
                  ((BitVec.ofInt 32 (p / 2 ^ 32)).setWidth 64)
               fl := { s.fl with cf := o, oF := o } }
  | .imul64 b, s =>
      let p := (s.reg .rax).toInt * (s.reg b).toInt
      let o := decide (p < -2 ^ 63 ∨ 2 ^ 63 ≤ p)
      { s with reg := upd (upd s.reg .rax (BitVec.ofInt 64 p)) .rdx (BitVec.ofInt 64 (p / 2 ^ 64))
               fl := { s.fl with cf := o, oF := o } }
  | .lea d b off, s => { s with reg := upd s.reg d (s.reg b + BitVec.ofNat 64 off) }
  | .movR11b t, s => { s with reg := upd s.reg .r11 (setLow8 (s.reg .r11) t) }
  | .shlR11d k, s =>
      let v := (s.reg .r11).setWidth 32 <<< k
      { s with reg := upd s.reg .r11 (v.setWidth 64)
               fl := ⟨((s.reg .r11).setWidth 32).getLsbD (32 - k), s.fl.oF, decide (v = 0), v.msb⟩ }
  | .storeHi, s =>
      { s with mem := upd s.mem (s.reg .rdi) (setHi32 (s.mem (s.reg .rdi)) ((s.reg .r11).setWidth 32)) }
  | .shl r k, s =>
      let v := s.reg r <<< k
      { s with reg := upd s.reg r v, fl := shiftFlags s.fl ((s.reg r).getLsbD (64 - k)) v }
  | .shr r k, s =>
      let v := s.reg r >>> k
      { s with reg := upd s.reg r v, fl := shiftFlags s.fl ((s.reg r).getLsbD (k - 1)) v }
  | .sar r k, s =>
      let v := (s.reg r).sshiftRight k
      { s with reg := upd s.reg r v, fl := shiftFlags s.fl ((s.reg r).getLsbD (k - 1)) v }
  | .shlCl r, s =>
      let v := s.reg r <<< clCount s
      { s with reg := upd s.reg r v, fl := shiftFlags s.fl ((s.reg r).getLsbD (64 - clCount s)) v }
  | .shrCl r, s =>
      let v := s.reg r >>> clCount s
      { s with reg := upd s.reg r v, fl := shiftFlags s.fl ((s.reg r).getLsbD (clCount s - 1)) v }
  | .movClDl, s => { s with reg := upd s.reg .rcx (setLow8 (s.reg .rcx) ((s.reg .rdx).setWidth 8)) }
  | .movCh v, s => { s with reg := upd s.reg .rcx (setHigh8 (s.reg .rcx) v) }
  | .subChCl, s =>
      let x : BitVec 8 := ((s.reg .rcx) >>> 8).setWidth 8
      let y : BitVec 8 := (s.reg .rcx).setWidth 8
      let r := x - y
      { s with reg := upd s.reg .rcx (setHigh8 (s.reg .rcx) r)
               fl := ⟨decide (x.toNat < y.toNat), (x.msb != y.msb) && (r.msb != x.msb), decide (r = 0), r.msb⟩ }
  | .rolCx8, s =>
      let x : BitVec 8 := ((s.reg .rcx) >>> 8).setWidth 8
      let y : BitVec 8 := (s.reg .rcx).setWidth 8
      { s with reg := upd s.reg .rcx (setHigh8 (setLow8 (s.reg .rcx) x) y) }
  | .load d b i off, s => { s with reg := upd s.reg d (s.mem (s.reg b + 8 * s.reg i + BitVec.ofNat 64 off)) }
  | .mul64 b, s =>
      let p := (s.reg .rax).toNat * (s.reg b).toNat
      let o := decide (2 ^ 64 ≤ p)
      { s with reg := upd (upd s.reg .rax (BitVec.ofNat 64 p)) .rdx (BitVec.ofNat 64 (p / 2 ^ 64))
               fl := { s.fl with cf := o, oF := o } }
  | .cld, s => s
  | .repMovsq, s =>
      let n := (s.reg .rcx).toNat
      { s with reg := upd (upd (upd s.reg .rsi (cell (s.reg .rsi) n)) .rdi (cell (s.reg .rdi) n)) .rcx 0
               mem := movsq n s.mem (s.reg .rsi) (s.reg .rdi) }

/-- A line of assembly.  The byte instructions are the ones of `rawNegLS` (`setc dl`, `setc dh`, `or dl, dh`) and of
`rawCopyS2L` (`mov al, imm`, `shl rax, k`). -/
inductive Line
  | ins (i : Ins Opd)
  | push (r : Reg)
  | pop (r : Reg)
  | lea (r : Reg) (y : Sym)
  | setcDl
  | setcDh
  | orDlDh
  | movAl (b : BitVec 8)
  | shlRax (k : Nat)
  | misc (m : Misc)
  | label (l : String)
  | jump (c : Cond) (l : String)
  | call (f : String)
  | ret

/-- The code behind the next occurrence of a label. -/
def dropTo (l : String) : List Line → List Line
  | [] => []
  | .label m :: p => if m = l then p else dropTo l p
  | _ :: p => dropTo l p

theorem dropTo_length (l : String) (p : List Line) : (dropTo l p).length ≤ p.length := by
  induction p with
  | nil => simp [dropTo]
  | cons x p ih =>
    cases x with
    | label m =>
      unfold dropTo
      split
      · simp only [List.length_cons]; omega
      · simp only [List.length_cons]; omega
    | _ => unfold dropTo; simp only [List.length_cons]; omega

/-- `push`: the stack grows downwards. -/
def pushVal (v : BitVec 64) (s : State) : State :=
  { s with reg := upd s.reg .rsp (s.reg .rsp - 8), mem := upd s.mem (s.reg .rsp - 8) v }

/-- `pop r`. -/
def popReg (r : Reg) (s : State) : State :=
  { s with reg := upd (upd s.reg .rsp (s.reg .rsp + 8)) r (s.mem (s.reg .rsp)) }

/-- Meaning of the non-generic lines that do not transfer control. -/
def Line.exec : Line → State → State
  | .ins i, s => step i s
  | .push r, s => pushVal (s.reg r) s
  | .pop r, s => popReg r s
  | .lea r y, s => { s with reg := upd s.reg r (s.sym y) }
  | .setcDl, s => { s with reg := upd s.reg .rdx (setLow8 (s.reg .rdx) (BitVec.ofNat 8 (b2n s.fl.cf))) }
  | .setcDh, s => { s with reg := upd s.reg .rdx (setHigh8 (s.reg .rdx) (BitVec.ofNat 8 (b2n s.fl.cf))) }
  | .orDlDh, s =>
      let r : BitVec 8 := (s.reg .rdx).setWidth 8 ||| ((s.reg .rdx) >>> 8).setWidth 8
      { s with reg := upd s.reg .rdx (setLow8 (s.reg .rdx) r)
               fl := { cf := false, oF := false, zf := decide (r = 0), sf := r.msb } }
  | .movAl b, s => { s with reg := upd s.reg .rax (setLow8 (s.reg .rax) b) }
  | .shlRax k, s =>
      let r := s.reg .rax <<< k
      { s with reg := upd s.reg .rax r
               fl := { cf := (s.reg .rax).getLsbD (64 - k), oF := s.fl.oF, zf := decide (r = 0), sf := r.msb } }
  | .misc m, s => m.exec s
  | .label _, s => s
  | .jump _ _, s => s
  | .call _, s => s
  | .ret, s => s

/-- Runs the code of a routine until its `ret`; `none` if it runs off the end of the listing.  `env` gives the meaning
of the routines it calls; `ra` is the return address a call stores (its value plays no role). -/
def run (env : String → Option (State → Option State)) (ra : BitVec 64) (p : List Line) (s : State) : Option State :=
  match p with
  | [] => none
  | .label _ :: p => run env ra p s
  | .ret :: _ => some { s with reg := upd s.reg .rsp (s.reg .rsp + 8) }
  | .jump c l :: p => if c.holds s.fl then run env ra (dropTo l p) s else run env ra p s
  | .call f :: p =>
      match env f with
      | none => none
      | some g =>
        match g (pushVal ra s) with
        | none => none
        | some s' => run env ra p s'
  | i :: p => run env ra p (i.exec s)
  termination_by p.length
  decreasing_by
    all_goals simp_wf
    all_goals first | omega | (have := dropTo_length l p; omega)

/-- No routine is called. -/
def noCalls : String → Option (State → Option State) := fun _ => none

/-- Straight code as lines. -/
def code (l : List (Ins Opd)) : List Line := l.map .ins

end FF.X86
