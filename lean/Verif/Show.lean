import Verif.X86
import Verif.Arm

/-!
# Listings as text

Printers for the lines of the two machines.  Nothing is proved about them: the scripts in `tools/listings` use them to compare, line by
line, the listings of the model with the text that the templates and generators of `/repo/src` print.
-/

namespace FF.X86.Show

/-- Register names. -/
def rn : Reg → String
  | .rax=>"rax" | .rbx=>"rbx" | .rcx=>"rcx" | .rdx=>"rdx" | .rdi=>"rdi" | .rsi=>"rsi" | .rsp=>"rsp" | .rbp=>"rbp" | .r8=>"r8" | .r9=>"r9"
  | .r10=>"r10" | .r11=>"r11" | .r12=>"r12" | .r13=>"r13" | .r14=>"r14" | .r15=>"r15"

/-- Names of the 32-bit halves. -/
def rn32 : Reg → String
  | .rax=>"eax"|.rbx=>"ebx"|.rcx=>"ecx"|.rdx=>"edx"|.rdi=>"edi"|.rsi=>"esi"|.rsp=>"esp"|.rbp=>"ebp"| r => rn r ++ "d"

/-- Labels of the tables, `src/fr.asm.ejs`. -/
def sn : Sym → String
  | .q=>"q"|.half=>"half"|.r2=>"R2"|.r3=>"R3"|.lboMask=>"lboMask"|.np=>"np"

/-- Displacements. -/
def off (n : Nat) : String := if n = 0 then "" else s!"+{n}"

/-- Operands. -/
def on : Opd → String
  | .reg r => rn r | .mem b o => s!"[{rn b}{off o}]" | .sym s o => s!"[{sn s}{off o}]" | .imm v => s!"{v.toInt}"

/-- 32-bit operands. -/
def o32 : Opd32 → String
  | .reg r => rn32 r | .imm v => s!"{v.toInt}" | .low b => s!"[{rn b}]"

/-- Two-operand instructions. -/
def opn : Op2 → String
  | .mov=>"mov" | .add=>"add" | .adc=>"adc" | .sub=>"sub" | .sbb=>"sbb" | .cmp=>"cmp" | .test=>"test" | .xor=>"xor" | .and=>"and"
  | .or=>"or" | .adcx=>"adcx" | .adox=>"adox"

/-- 32-bit two-operand instructions. -/
def opn' : Op32 → String
  | .mov=>"mov"|.add=>"add"|.sub=>"sub"|.cmp=>"cmp"|.test=>"test"|.xor=>"xor"|.and=>"and"|.or=>"or"

/-- Instructions of `Ins`. -/
def insn : Ins Opd → String
  | .op2 o d s => s!"{opn o} {on d},{on s}"
  | .mulx h l s => s!"mulx {on h},{on l},{on s}"

/-- Condition codes. -/
def cn : Cond → String
  | .carry=>"jc" | .ncarry=>"jnc" | .zero=>"jz" | .nzero=>"jnz" | .sign=>"js" | .nsign=>"jns" | .always=>"jmp" | .overflow=>"jo"
  | .above=>"ja" | .less=>"jl" | .greater=>"jg"

/-- The other instructions. -/
def mi : Misc → String
  | .bt r k => s!"bt {rn r},{k}" | .movsx d s => s!"movsx {rn d},{rn32 s}" | .op32 o d s => s!"{opn' o} {rn32 d},{o32 s}"
  | .neg r => s!"neg {rn r}" | .neg32 r => s!"neg {rn32 r}" | .not r => s!"not {rn r}" | .imul32 s => s!"imul {rn32 s}" | .imul64 s => s!"imul {rn s}"
  | .lea d b o => s!"lea {rn d},[{rn b}{off o}]" | .movR11b t => s!"mov r11b,{t.toNat}" | .shlR11d k => s!"shl r11d,{k}"
  | .storeHi => "mov [rdi+4],r11d"
  | .shl r k => s!"shl {rn r},{k}" | .shr r k => s!"shr {rn r},{k}" | .sar r k => s!"sar {rn r},{k}" | .shlCl r => s!"shl {rn r},cl"
  | .shrCl r => s!"shr {rn r},cl"
  | .movClDl => "mov cl,dl" | .movCh v => s!"mov ch,{v.toNat}" | .subChCl => "sub ch,cl" | .rolCx8 => "rol cx,8"
  | .load d b i o => s!"mov {rn d},[{rn b}+{rn i}*8{off o}]" | .mul64 s => s!"mul {rn s}" | .cld => "cld" | .repMovsq => "rep movsq"

/-- Lines. -/
def li : Line → String
  | .ins i => insn i | .push r => s!"push {rn r}" | .pop r => s!"pop {rn r}" | .lea r y => s!"lea {rn r},[{sn y}]"
  | .setcDl => "setc dl" | .setcDh => "setc dh" | .orDlDh => "or dl,dh" | .movAl b => s!"mov al,{b.toNat}" | .shlRax k => s!"shl rax,{k}"
  | .misc m => mi m | .label l => s!"{l}:" | .jump c l => s!"{cn c} {l}" | .call f => s!"call {f}" | .ret => "ret"

end FF.X86.Show

namespace FF.Arm.Show

/-- Immediates. -/
def hx (w : Nat) : String := s!"#{w}"

/-- Operands. -/
def od : Opd → String
  | .reg r => s!"x{r}" | .zr => "xzr" | .imm w => hx w

/-- Condition codes. -/
def cn : Cond → String
  | .eq => "eq" | .ne => "ne" | .hs => "hs" | .lo => "lo" | .lt => "lt"

/-- Labels of the tables, `src/fr_raw_arm64.s.ejs:54-57`. -/
def sy : Sym → String
  | .q => "rawq" | .np => "np" | .lboMask => "lboMask"

/-- Addresses. -/
def mm (b off : Nat) : String := if off = 0 then s!"[x{b}]" else s!"[x{b},{off}]"

/-- Data processing instructions. -/
def alu : Alu → String → String → String → String
  | .adds,d,x,y=>s!"adds {d},{x},{y}" | .adcs,d,x,y=>s!"adcs {d},{x},{y}" | .adc,d,x,y=>s!"adc {d},{x},{y}"
  | .subs,d,x,y=>s!"subs {d},{x},{y}" | .sbcs,d,x,y=>s!"sbcs {d},{x},{y}"
  | .sub,d,x,y=>s!"sub {d},{x},{y}" | .and,d,x,y=>s!"and {d},{x},{y}" | .orr,d,x,y=>s!"orr {d},{x},{y}" | .eor,d,x,y=>s!"eor {d},{x},{y}"
  | .mvn,d,x,_=>s!"mvn {d},{x}" | .mov,d,x,_=>s!"mov {d},{x}"
  | .mul,d,x,y=>s!"mul {d},{x},{y}" | .umulh,d,x,y=>s!"umulh {d},{x},{y}" | .lsl,d,x,y=>s!"lsl {d},{x},{y}" | .lsr,d,x,y=>s!"lsr {d},{x},{y}"
  | .orrLsl1,d,x,y=>s!"orr {d},{x},{y},lsl #1" | .orrLsr1,d,x,y=>s!"orr {d},{x},{y},lsr #1" | .csel c,d,x,y=>s!"csel {d},{x},{y},{cn c}"
  | .cset c,d,_,_=>s!"cset {d},{cn c}" | .cinc c,d,x,_=>s!"cinc {d},{x},{cn c}" | .cneg c,d,x,_=>s!"cneg {d},{x},{cn c}"

/-- Instructions. -/
def ins : Ins → String
  | .alu o d x y => alu o s!"x{d}" (od x) (od y) | .cmp x y => s!"cmp {od x},{od y}" | .adr d y => s!"adr x{d},{sy y}"
  | .ldr d b o => s!"ldr x{d},{mm b o}" | .ldp d e b o => s!"ldp x{d},x{e},{mm b o}"
  | .str x b o => s!"str {od x},{mm b o}" | .stp x y b o => s!"stp {od x},{od y},{mm b o}" | .push1 r => s!"str x{r},[sp, #-16]!"
  | .push2 r r' => s!"stp x{r},x{r'},[sp, #-16]!"
  | .pop1 r => s!"ldr x{r},[sp], #16" | .pop2 r r' => s!"ldp x{r},x{r'},[sp], #16"

/-- Lines. -/
def li : Line → List String
  | .ins i => [ins i] | .label l => [l ++ ":"] | .b l => [s!"b {l}"] | .bc c l => [s!"b.{cn c} {l}"] | .cbz r l => [s!"cbz x{r},{l}"]
  | .cbnz r l => [s!"cbnz x{r},{l}"] | .tbnz r k l => [s!"tbnz x{r},{k},{l}"]
  | .table i d _ => [s!"adr x{d},word_shift", s!"ldr x{d},[x{d}, x{i}, lsl 3]", s!"br x{d}"] | .ret => ["ret"]

/-- The jump table behind a routine. -/
def tbl : Line → List String
  | .table _ _ ls => "word_shift:" :: ls.map (s!".quad {·}") | _ => []

end FF.Arm.Show
