import Verif.AsmTouchBack
import Verif.AsmToInt

/-!
# Checking the accesses of the tagged routines

The tagged routines keep pointers in registers and on the stack and call other routines.  `check` follows a listing on every path with a symbolic
state that knows, of some registers and stack cells, which operand, temporary or table they point to.  `check_sound` says that what it accepts
is `Safe`.
-/

namespace FF.X86

/-! ## Symbolic states -/

/-- What a register or a stack cell holds: a pointer to a cell of an argument, to a cell of a temporary on the stack (`a` words and `b` elements
below the entry), or to a table. -/
inductive Ptr
  | arg (r : Reg) (o : Nat)
  | sp (a b o : Nat)
  | tab (y : Sym)
  deriving DecidableEq

/-- The address, given the state at the entry. -/
def Ptr.den (n : Nat) (s0 : State) : Ptr → BitVec 64
  | .arg r o => cell (s0.reg r) o
  | .sp a b o => cell (stk (s0.reg .rsp) (a + b * (n + 1))) o
  | .tab y => s0.sym y

/-- The next cell. -/
def Ptr.up : Ptr → Option Ptr
  | .arg r o => some (.arg r (o + 1))
  | .sp a b o => some (.sp a b (o + 1))
  | .tab _ => none

/-- The cell before. -/
def Ptr.down : Ptr → Option Ptr
  | .arg r (o + 1) => some (.arg r o)
  | .sp a b (o + 1) => some (.sp a b o)
  | _ => none

/-- What is known at a point: some registers, the depth of the stack in words and elements, and some of its cells. -/
structure AState where
  regs : List (Reg × Ptr)
  a : Nat
  b : Nat
  cells : List ((Nat × Nat) × Ptr)

/-- The value of a register, if known. -/
def AState.get (A : AState) (r : Reg) : Option Ptr := (A.regs.find? fun x => x.1 = r).map (·.2)

/-- Forgets registers. -/
def AState.kill (A : AState) (rs : List Reg) : AState := { A with regs := A.regs.filter fun x => !rs.contains x.1 }

/-- A register gets a value. -/
def AState.set (A : AState) (r : Reg) (v : Option Ptr) : AState :=
  match v with
  | none => A.kill [r]
  | some p => { A with regs := (r, p) :: (A.kill [r]).regs }

/-- The stack pointer moves up. -/
def AState.cut (A : AState) (a b : Nat) : AState :=
  { A with a := a, b := b, cells := A.cells.filter fun x => decide (x.1.1 ≤ a) && decide (x.1.2 ≤ b) }

/-- The routine that is checked: its arguments, the size of its frame in words and elements, and the routines it may call. -/
structure Chk where
  sg : Sig
  Fa : Nat
  Fb : Nat
  sigs : List (String × Sig)

/-- A pointer into an element that may be read. -/
def Chk.arr (C : Chk) : Ptr → Bool
  | .arg r _ => C.sg.src.contains (r, .elem) || (decide (r = .rdi) && decide (C.sg.dst = some .elem))
  | .sp a b _ => decide (1 ≤ b) && decide (a ≤ C.Fa) && decide (b ≤ C.Fb)
  | .tab _ => false

/-- Its position in the element. -/
def Ptr.off : Ptr → Nat
  | .arg _ o => o
  | .sp _ _ o => o
  | .tab _ => 0

/-- The result may be written through `p`. -/
def Chk.dst (C : Chk) (p : Option Ptr) (o : Nat) : Bool := decide (p = some (.arg .rdi o)) && decide (C.sg.dst = some .elem)

/-- A memory operand that may be read: one of the first two cells of an element or the first one of a table. -/
def Chk.rdOpd (C : Chk) (A : AState) : Opd → Bool
  | .mem b off => (match A.get b with
      | none => false
      | some p => C.arr p && ((decide (off = 0) && decide (p.off ≤ 1)) || (decide (off = 8) && decide (p.off = 0))))
  | .sym y off => decide (off = 0) && decide (y ≠ .np)
  | _ => true

/-- A destination that may be written. -/
def Chk.wrOpd (C : Chk) (A : AState) : Opd → Bool
  | .mem b off => C.dst (A.get b) 0 && (decide (off = 0) || decide (off = 8))
  | .sym _ _ => false
  | _ => true

/-- The accesses of a line are allowed. -/
def Chk.accOk (C : Chk) (A : AState) : Line → Bool
  | .ins (.op2 o d b) => (!o.reads || C.rdOpd A d) && C.rdOpd A b && (!o.writes || C.wrOpd A d)
  | .ins (.mulx _ _ _) => false
  | .misc (.op32 _ _ (.low b)) => C.rdOpd A (.mem b 0)
  | .misc .storeHi => C.dst (A.get .rdi) 0
  | .misc (.load _ _ _ _) => false
  | .misc .repMovsq => false
  | .push _ | .pop _ | .call _ | .ret => false
  | _ => true

/-- The step of a line without jumps and calls. -/
def Chk.stepA (C : Chk) (A : AState) : Line → Option AState
  | .push r => if A.a + 1 ≤ C.Fa then some { A with a := A.a + 1, cells := (match A.get r with
      | none => A.cells
      | some p => ((A.a + 1, A.b), p) :: A.cells) } else none
  | .pop r => if 1 ≤ A.a ∧ r ≠ .rsp then
      some ((A.cut (A.a - 1) A.b).set r ((A.cells.find? fun x => x.1 = (A.a, A.b)).map (·.2))) else none
  | .lea r y => if r ≠ .rsp then some (A.set r (some (.tab y))) else none
  | .misc (.lea d b off) => if d ≠ .rsp then some (A.set d (if off = 8 then (A.get b).bind Ptr.up else none)) else none
  | .ins (.op2 .mov (.reg d) (.reg r)) =>
    if d = .rsp then (match A.get r with
      | some (.sp a b 0) => if a ≤ C.Fa ∧ b ≤ C.Fb then some (A.cut a b) else none
      | _ => none)
    else some (A.set d (if r = .rsp then some (.sp A.a A.b 0) else A.get r))
  | .ins (.op2 .add (.reg d) (.imm v)) => if d ≠ .rsp then some (A.set d (if v = 8 then (A.get d).bind Ptr.up else none)) else none
  | .ins (.op2 .sub (.reg d) (.imm v)) => if d ≠ .rsp then some (A.set d (if v = 8 then (A.get d).bind Ptr.down else none)) else none
  | i => if C.accOk A i && i.plain && !i.dests.contains .rsp then some (A.kill i.dests) else none

/-- A pointer to an array of the given size that may be read. -/
def Chk.srcOk (C : Chk) (e : Extent) : Option Ptr → Bool
  | none => false
  | some (.tab y) => decide (e = .limbs) && decide (y = .q ∨ y = .half ∨ y = .r2 ∨ y = .r3)
  | some p => C.arr p && decide (p.off = match e with | .limbs => 1 | .elem => 0)

/-- The result of a call may go there: to the result of the routine, or to a temporary. -/
def Chk.dstOk (C : Chk) (A : AState) : Option Extent → Bool
  | none => true
  | some .limbs => C.dst (A.get .rdi) 1
  | some .elem => C.dst (A.get .rdi) 0 || (match A.get .rdi with
      | some (.sp a b 0) => decide (1 ≤ b) && decide (a ≤ A.a) && decide (b ≤ A.b)
      | _ => false)

/-- A stack cell outside the temporary at `(a, b)`. -/
def clearOf (a b : Nat) (c : Nat × Nat) : Bool := (decide (c.2 < b) && decide (c.1 ≤ a)) || (decide (b ≤ c.2) && decide (a < c.1))

/-- What is known after a call. -/
def AState.after (A : AState) (sg : Sig) : AState :=
  { A with
    regs := A.regs.filter fun x => Props.calleeSaved.contains x.1 || (sg.di && decide (x.1 = .rdi))
    cells := (match sg.dst, A.get .rdi with
      | some .elem, some (.sp a b 0) => A.cells.filter fun x => clearOf a b x.1
      | _, _ => A.cells) }

/-- The state at `ret`. -/
def Chk.retOk (C : Chk) (A : AState) : Bool :=
  decide (A.a = 0) && decide (A.b = 0) && Props.calleeSaved.all (fun r => decide (A.get r = some (.arg r 0))) &&
    (!C.sg.di || decide (A.get .rdi = some (.arg .rdi 0)))

/-! ## Listings in pieces -/

/-- A piece of a listing: a line, the allocation of an element on the stack, or a loop over the limbs without labels that reads the elements at
the registers `rd` and the tables, writes the result if `wr`, and may leave to the labels `outs`. -/
inductive Item
  | ln (l : Line)
  | alloc
  | blk (c : Nat → Nat → List Line) (rd : List Reg) (wr : Bool) (outs : List String)

/-- Its lines. -/
def Item.code (bl n : Nat) : Item → List Line
  | .ln l => [l]
  | .alloc => [op .sub rsp (.imm (BitVec.ofNat 64 (8 * (n + 1))))]
  | .blk c _ _ _ => c bl n

/-- The lines of a list of pieces. -/
def codeOf (bl n : Nat) (p : List Item) : List Line := p.flatMap (Item.code bl n)

/-- The code behind a label. -/
def dropIt (l : String) : List Item → List Item
  | [] => []
  | .ln (.label m) :: p => if m = l then p else dropIt l p
  | _ :: p => dropIt l p

/-- The registers a loop keeps. -/
def blkK : List Reg := [.rbx, .rdx, .rdi, .rsi, .rsp, .rbp, .r8, .r9, .r10, .r11, .r12, .r13, .r14, .r15]

/-- A line of a loop: no label, no call, no `mulx`, jumps only to `outs`. -/
def blkLine (outs : List String) : Line → Bool
  | .jump _ l => outs.contains l
  | .ins (.mulx _ _ _) => false
  | i => i.plain

/-- A piece is what it says. -/
def Item.Fine (q : Nat) : Item → Prop
  | .blk c rd wr outs => (∀ i ∈ c (bitLen q) (n64 q), blkLine outs i = true) ∧ ∀ s : State, ∀ i ∈ c (bitLen q) (n64 q),
      i.good blkK s (fun a => (∃ r ∈ rd, InArr (s.reg r) (n64 q + 1) a) ∨ InData q s.sym a)
        (fun a => wr = true ∧ InArr (s.reg .rdi) (n64 q + 1) a)
  | _ => True

/-- Follows every path. -/
def Chk.check (C : Chk) : Nat → AState → List Item → Bool
  | 0, _, _ => false
  | _, _, [] => false
  | k + 1, A, .alloc :: p => decide (A.b + 1 ≤ C.Fb) && C.check k { A with b := A.b + 1 } p
  | k + 1, A, .blk _ rd wr outs :: p =>
      rd.all (fun r => match A.get r with | none => false | some v => C.arr v && decide (v.off = 0)) && (!wr || C.dst (A.get .rdi) 0) &&
        outs.all (fun l => C.check k (A.kill [.rax, .rcx]) (dropIt l p)) && C.check k (A.kill [.rax, .rcx]) p
  | k + 1, A, .ln (.label _) :: p => C.check k A p
  | _ + 1, A, .ln .ret :: _ => C.retOk A
  | k + 1, A, .ln (.jump c l) :: p => C.check k A (dropIt l p) && (decide (c = .always) || C.check k A p)
  | k + 1, A, .ln (.call f) :: p => (match C.sigs.find? fun x => x.1 = f with
      | none => false
      | some (_, sg) => decide (A.a + 1 ≤ C.Fa) && C.dstOk A sg.dst && sg.src.all (fun x => C.srcOk x.2 (A.get x.1)) && C.check k (A.after sg) p)
  | k + 1, A, .ln i :: p => (match C.stepA A i with | none => false | some A' => C.check k A' p)

/-- The state at the entry. -/
def atEntry : AState where
  regs := [.rdi, .rsi, .rdx, .rbx, .rbp, .r12, .r13, .r14, .r15].map fun r => (r, .arg r 0)
  a := 0
  b := 0
  cells := []

/-! ## Soundness -/

/-- The accesses are allowed and what is returned is `B`. -/
def Okay (env : String → Option (State → Option State)) (T : String → State → List Access) (ra : BitVec 64) (R W : BitVec 64 → Prop)
    (B : State → Prop) (p : List Line) (s : State) : Prop := Only R W (touched env T ra p s) ∧ ∀ t, run env ra p s = some t → B t

section
variable {env : String → Option (State → Option State)} {T : String → State → List Access} {ra : BitVec 64} {R W : BitVec 64 → Prop}
  {B : State → Prop}

theorem Okay.plain {i : Line} (hp : i.plain = true) {p : List Line} {s : State} (ha : Only R W (i.acc s)) (h : Okay env T ra R W B p (i.exec s)) :
    Okay env T ra R W B (i :: p) s := by
  refine ⟨?_, fun t ht => ?_⟩
  · rw [touched_plain hp]; exact ha.append h.1
  · rw [run_plain hp] at ht; exact h.2 t ht

theorem Okay.label {l : String} {p : List Line} {s : State} (h : Okay env T ra R W B p s) : Okay env T ra R W B (.label l :: p) s := by
  refine ⟨?_, fun t ht => ?_⟩
  · rw [touched_label]; exact h.1
  · rw [run] at ht; exact h.2 t ht

theorem Okay.jump {c : Cond} {l : String} {p : List Line} {s : State} (h : Okay env T ra R W B (dropTo l p) s)
    (h' : c = .always ∨ Okay env T ra R W B p s) : Okay env T ra R W B (.jump c l :: p) s := by
  by_cases hc : c.holds s.fl = true
  · refine ⟨?_, fun t ht => ?_⟩
    · rw [touched_jump, if_pos hc]; exact h.1
    · rw [run, if_pos hc] at ht; exact h.2 t ht
  · rcases h' with rfl | h'
    · exact absurd rfl hc
    · refine ⟨?_, fun t ht => ?_⟩
      · rw [touched_jump, if_neg hc]; exact h'.1
      · rw [run, if_neg hc] at ht; exact h'.2 t ht

theorem Okay.ret {p : List Line} {s : State} (h : R (s.reg .rsp)) (hb : B { s with reg := upd s.reg .rsp (s.reg .rsp + 8) }) :
    Okay env T ra R W B (.ret :: p) s := by
  refine ⟨?_, fun t ht => ?_⟩
  · rw [touched_ret]; exact Only.cons (a := .read _) h Only.nil
  · rw [run] at ht; cases ht; exact hb

theorem Okay.call {f : String} {p : List Line} {s : State} (h : W (s.reg .rsp - 8)) (hT : Only R W (T f (pushVal ra s)))
    (hr : ∀ s', (env f).bind (· (pushVal ra s)) = some s' → Okay env T ra R W B p s') : Okay env T ra R W B (.call f :: p) s := by
  constructor
  · rw [touched]
    refine ((Only.cons (a := .write _) h Only.nil).append hT).append ?_
    cases he : env f with
    | none => exact Only.nil
    | some g =>
      simp only
      cases hg : g (pushVal ra s) with
      | none => exact Only.nil
      | some s' => exact (hr s' (by rw [he]; exact hg)).1
  · intro t ht
    rw [run] at ht
    cases he : env f with
    | none => rw [he] at ht; simp at ht
    | some g =>
      rw [he] at ht
      simp only at ht
      cases hg : g (pushVal ra s) with
      | none => rw [hg] at ht; simp at ht
      | some s' =>
        rw [hg] at ht
        exact (hr s' (by rw [he]; exact hg)).2 t ht

/-- A loop. -/
theorem Okay.blk {K : List Reg} {s : State} {R' W' : BitVec 64 → Prop} (hR : ∀ a, R' a → R a) (hW : ∀ a, W' a → W a) {outs : List String}
    {p : List Line} (H : ∀ s', Bases K s s' → (∀ a, ¬ W' a → s'.mem a = s.mem a) →
      Okay env T ra R W B p s' ∧ ∀ l ∈ outs, Okay env T ra R W B (dropTo l p) s') :
    ∀ (c : List Line), (∀ i ∈ c, blkLine outs i = true) → (∀ i ∈ c, i.good K s R' W') →
    ∀ s', Bases K s s' → (∀ a, ¬ W' a → s'.mem a = s.mem a) → Okay env T ra R W B (c ++ p) s'
  | [], _, _, s', hb, hm => (H s' hb hm).1
  | i :: c, hl, hg, s', hb, hm => by
    have hl' : ∀ i ∈ c, blkLine outs i = true := fun j hj => hl j (List.mem_cons_of_mem _ hj)
    have ih := Okay.blk hR hW H c hl' (fun j hj => hg j (List.mem_cons_of_mem _ hj))
    have h1 := hl i List.mem_cons_self
    have h2 := hg i List.mem_cons_self
    rcases plain_cases i with hp | ⟨l, rfl⟩ | ⟨d, l, rfl⟩ | ⟨f, rfl⟩ | rfl
    · have := Line.good_safe h2 hp hb
      exact Okay.plain hp (this.1.mono hR hW) (ih _ this.2 fun a ha => (Line.good_mem h2 hp hb ha).trans (hm a ha))
    · exact absurd h1 Bool.false_ne_true
    · refine Okay.jump ?_ (.inr (ih s' hb hm))
      have hno : ∀ (c : List Line), (∀ i ∈ c, blkLine outs i = true) → dropTo l (c ++ p) = dropTo l p := by
        intro c
        induction c with
        | nil => intro _; rfl
        | cons x c ih =>
          intro h
          have hx := h x List.mem_cons_self
          have := ih fun j hj => h j (List.mem_cons_of_mem _ hj)
          cases x with
          | label m => exact absurd hx Bool.false_ne_true
          | _ => exact this
      show Okay env T ra R W B (dropTo l (c ++ p)) s'
      rw [hno c hl']
      exact (H s' hb hm).2 l (by simpa [blkLine] using h1)
    · exact h2.elim
    · exact absurd h1 Bool.false_ne_true

end

theorem dropIt_code {q : Nat} (l : String) (p : List Item) (hp : ∀ x ∈ p, x.Fine q) :
    dropTo l (codeOf (bitLen q) (n64 q) p) = codeOf (bitLen q) (n64 q) (dropIt l p) := by
  induction p with
  | nil => rfl
  | cons x p ih =>
    have ih := ih fun y hy => hp y (List.mem_cons_of_mem _ hy)
    cases x with
    | alloc => exact ih
    | ln i =>
      cases i with
      | label m =>
        show dropTo l (.label m :: codeOf (bitLen q) (n64 q) p) = _
        rw [dropTo, dropIt]
        split
        · rfl
        · exact ih
      | _ => exact ih
    | blk c rd wr outs =>
      show dropTo l (c (bitLen q) (n64 q) ++ codeOf (bitLen q) (n64 q) p) = _
      rw [show dropIt l (Item.blk c rd wr outs :: p) = dropIt l p from rfl, ← ih]
      have h := (hp _ List.mem_cons_self).1
      generalize c (bitLen q) (n64 q) = d at h
      induction d with
      | nil => rfl
      | cons x d ih' =>
        have hx := h x List.mem_cons_self
        have := ih' fun j hj => h j (List.mem_cons_of_mem _ hj)
        cases x with
        | label m => exact absurd hx Bool.false_ne_true
        | _ => exact this

theorem dropIt_mem (l : String) {p : List Item} {x : Item} (h : x ∈ dropIt l p) : x ∈ p := by
  induction p with
  | nil => simp [dropIt] at h
  | cons y p ih =>
    cases y with
    | ln i =>
      cases i with
      | label m =>
        rw [dropIt] at h
        split at h
        · exact List.mem_cons_of_mem _ h
        · exact List.mem_cons_of_mem _ (ih h)
      | _ => exact List.mem_cons_of_mem _ (ih h)
    | _ => exact List.mem_cons_of_mem _ (ih h)

/-- A symbolic state describes a state. -/
structure Gam (q G : Nat) (C : Chk) (s0 : State) (A : AState) (s : State) : Prop where
  rsp : s.reg .rsp = stk (s0.reg .rsp) (A.a + A.b * (n64 q + 1))
  regs : ∀ x ∈ A.regs, x.1 ≠ .rsp ∧ s.reg x.1 = x.2.den (n64 q) s0
  cells : ∀ x ∈ A.cells, 1 ≤ x.1.1 ∧ x.1.1 ≤ A.a ∧ x.1.2 ≤ A.b ∧ s.mem (stk (s0.reg .rsp) (x.1.1 + x.1.2 * (n64 q + 1))) = x.2.den (n64 q) s0
  sym : s.sym = s0.sym
  mem : ∀ a, ¬ C.sg.Wr q (C.Fa + C.Fb * (n64 q + 1) + G) s0 a → s.mem a = s0.mem a
  ha : A.a ≤ C.Fa
  hb : A.b ≤ C.Fb

section
variable {q G : Nat} {C : Chk} {s0 s s' : State} {A : AState}

theorem AState.get_mem {r : Reg} {p : Ptr} (h : A.get r = some p) : (r, p) ∈ A.regs := by
  rw [AState.get, Option.map_eq_some_iff] at h
  obtain ⟨⟨r', p'⟩, h1, rfl⟩ := h
  have := List.find?_some h1
  simp only [decide_eq_true_eq] at this
  subst this
  exact List.mem_of_find?_eq_some h1

theorem Gam.get (h : Gam q G C s0 A s) {r : Reg} {p : Ptr} (hr : A.get r = some p) : s.reg r = p.den (n64 q) s0 :=
  (h.regs _ (AState.get_mem hr)).2

/-- The distance of a cell of the frame. -/
theorem idx_le {a b Fa Fb n : Nat} (ha : a ≤ Fa) (hb : b ≤ Fb) : a + b * (n + 1) ≤ Fa + Fb * (n + 1) :=
  Nat.add_le_add ha (Nat.mul_le_mul_right _ hb)

theorem inStk_of {S : BitVec 64} {k F : Nat} (h1 : 1 ≤ k) (h2 : k ≤ F) : InStk S F (stk S k) := ⟨k - 1, by omega, by rw [Nat.sub_add_cancel h1]⟩

/-- Only registers `rs` and the result change. -/
theorem Gam.keep (h : Gam q G C s0 A s) (hd : ∀ a, C.sg.InDst q s0 a → ¬ InStk (s0.reg .rsp) (C.Fa + C.Fb * (n64 q + 1) + G) a) {rs : List Reg}
    (hr : ∀ r, r ∉ rs → s'.reg r = s.reg r) (hrsp : Reg.rsp ∉ rs) (hs : s'.sym = s.sym)
    (hm : ∀ a, ¬ C.sg.InDst q s0 a → s'.mem a = s.mem a) : Gam q G C s0 (A.kill rs) s' := by
  refine ⟨?_, ?_, ?_, hs.trans h.sym, fun a ha => (hm a fun h' => ha (.inl h')).trans (h.mem a ha), h.ha, h.hb⟩
  · rw [hr _ hrsp]; exact h.rsp
  · intro x hx
    simp only [AState.kill, List.mem_filter, List.contains_eq_mem, Bool.not_eq_true', decide_eq_false_iff_not] at hx
    rw [hr _ hx.2]; exact h.regs x hx.1
  · intro x hx
    obtain ⟨h1, h2, h3, h4⟩ := h.cells x hx
    refine ⟨h1, h2, h3, ?_⟩
    rw [hm _ ?_]
    · exact h4
    · intro h'
      have := idx_le (n := n64 q) (h2.trans h.ha) (h3.trans h.hb)
      exact hd _ h' (inStk_of (by omega) (by omega))

/-- One register gets a value. -/
theorem Gam.set (h : Gam q G C s0 A s) (hd : ∀ a, C.sg.InDst q s0 a → ¬ InStk (s0.reg .rsp) (C.Fa + C.Fb * (n64 q + 1) + G) a) {r : Reg}
    (hrsp : r ≠ .rsp) {v : Option Ptr} (hr : ∀ x, x ≠ r → s'.reg x = s.reg x) (hs : s'.sym = s.sym) (hm : s'.mem = s.mem)
    (hv : ∀ p, v = some p → s'.reg r = p.den (n64 q) s0) : Gam q G C s0 (A.set r v) s' := by
  have hk : Gam q G C s0 (A.kill [r]) s' := h.keep hd (fun x hx => hr x (by simpa using hx)) (by simpa using Ne.symm hrsp) hs fun a _ => congrFun hm a
  cases v with
  | none => exact hk
  | some p =>
    refine ⟨hk.rsp, ?_, hk.cells, hk.sym, hk.mem, hk.ha, hk.hb⟩
    intro x hx
    rcases List.mem_cons.1 hx with rfl | hx
    · exact ⟨hrsp, hv p rfl⟩
    · exact hk.regs x hx

/-- The stack pointer moves up. -/
theorem Gam.cut (h : Gam q G C s0 A s) {a b : Nat} (ha : a ≤ C.Fa) (hb : b ≤ C.Fb)
    (hr : ∀ x, x ≠ Reg.rsp → s'.reg x = s.reg x) (hs : s'.sym = s.sym) (hm : s'.mem = s.mem)
    (hv : s'.reg .rsp = stk (s0.reg .rsp) (a + b * (n64 q + 1))) : Gam q G C s0 (A.cut a b) s' := by
  refine ⟨hv, ?_, ?_, hs.trans h.sym, fun x hx => by rw [hm]; exact h.mem x hx, ha, hb⟩
  · intro x hx
    obtain ⟨h1, h2⟩ := h.regs x hx
    exact ⟨h1, by rw [hr _ h1]; exact h2⟩
  · intro x hx
    simp only [AState.cut, List.mem_filter, Bool.and_eq_true, decide_eq_true_eq] at hx
    obtain ⟨h1, -, -, h4⟩ := h.cells x hx.1
    exact ⟨h1, hx.2.1, hx.2.2, by rw [hm]; exact h4⟩

theorem cell_eight (a : BitVec 64) (o : Nat) : cell a o + 8 = cell a (o + 1) := by
  rw [← cell_add]; rfl

theorem up_den {p p' : Ptr} (h : p.up = some p') (n : Nat) (s0 : State) : p'.den n s0 = p.den n s0 + 8 := by
  cases p <;> simp only [Ptr.up, Option.some.injEq, reduceCtorEq] at h <;> subst h <;> exact (cell_eight _ _).symm

theorem down_den {p p' : Ptr} (h : p.down = some p') (n : Nat) (s0 : State) : p'.den n s0 = p.den n s0 - 8 := by
  have key : ∀ (a : BitVec 64) (o : Nat), cell a o = cell a (o + 1) - 8 := fun a o => by
    rw [← cell_eight]; exact (BitVec.add_sub_cancel _ _).symm
  cases p with
  | arg r o => cases o with
    | zero => simp [Ptr.down] at h
    | succ o => simp only [Ptr.down, Option.some.injEq] at h; subst h; exact key _ _
  | sp a b o => cases o with
    | zero => simp [Ptr.down] at h
    | succ o => simp only [Ptr.down, Option.some.injEq] at h; subst h; exact key _ _
  | tab y => simp [Ptr.down] at h

/-- A readable pointer. -/
theorem arr_sound {p : Ptr} (h : C.arr p = true) {i : Nat} (hi : p.off + i ≤ n64 q) :
    C.sg.Rd q (C.Fa + C.Fb * (n64 q + 1) + G) s0 (cell (p.den (n64 q) s0) i) := by
  cases p with
  | tab y => exact absurd h Bool.false_ne_true
  | arg r o =>
    simp only [Ptr.off] at hi
    simp only [Chk.arr, Bool.or_eq_true, List.contains_eq_mem, decide_eq_true_eq, Bool.and_eq_true] at h
    rw [Ptr.den, cell_add]
    rcases h with h | ⟨rfl, h⟩
    · exact .inl ⟨_, h, o + i, by simp only [Extent.cells]; omega, rfl⟩
    · exact .inr (.inl ⟨_, h, o + i, by simp only [Extent.cells]; omega, rfl⟩)
  | sp a b o =>
    simp only [Ptr.off] at hi
    simp only [Chk.arr, Bool.and_eq_true, decide_eq_true_eq] at h
    obtain ⟨⟨h1, h2⟩, h3⟩ := h
    have h4 := idx_le (n := n64 q) h2 h3
    have h5 : n64 q + 1 ≤ b * (n64 q + 1) := Nat.le_mul_of_pos_left _ h1
    rw [Ptr.den, cell_add, cell_stk _ (by omega)]
    exact .inr (.inr (.inr (.inl (inStk_of (by omega) (by omega)))))

theorem dst_sound {p : Option Ptr} {o : Nat} (h : C.dst p o = true) : p = some (.arg .rdi o) ∧ C.sg.dst = some .elem := by
  simpa [Chk.dst] using h

theorem rdOpd_sound (h : Gam q G C s0 A s) {o : Opd} (ho : C.rdOpd A o = true) :
    ∀ a ∈ o.addr s, C.sg.Rd q (C.Fa + C.Fb * (n64 q + 1) + G) s0 a := by
  have hn : 0 < n64 q := n64_pos q
  intro a ha
  cases o with
  | reg r => simp [Opd.addr] at ha
  | imm v => simp [Opd.addr] at ha
  | sym y off =>
    simp only [Opd.addr, List.mem_singleton] at ha
    simp only [Chk.rdOpd, Bool.and_eq_true, decide_eq_true_eq] at ho
    obtain ⟨rfl, hy⟩ := ho
    have e : a = s0.sym y := by rw [ha, h.sym]; simp
    subst e
    refine .inr (.inr (.inl ?_))
    cases y with
    | q => exact .inl ⟨0, hn, (cell_zero _).symm⟩
    | half => exact .inr (.inl ⟨0, hn, (cell_zero _).symm⟩)
    | r2 => exact .inr (.inr (.inl ⟨0, hn, (cell_zero _).symm⟩))
    | r3 => exact .inr (.inr (.inr (.inl ⟨0, hn, (cell_zero _).symm⟩)))
    | lboMask => exact .inr (.inr (.inr (.inr (.inl rfl))))
    | np => exact absurd rfl hy
  | mem b off =>
    simp only [Opd.addr, List.mem_singleton] at ha
    rw [Chk.rdOpd] at ho
    cases hg : A.get b with
    | none => rw [hg] at ho; exact absurd ho Bool.false_ne_true
    | some p =>
      rw [hg] at ho
      simp only [Bool.and_eq_true, Bool.or_eq_true, decide_eq_true_eq] at ho
      rw [h.get hg] at ha
      obtain ⟨h1, ⟨rfl, h2⟩ | ⟨rfl, h2⟩⟩ := ho
      · have := arr_sound (q := q) (G := G) (s0 := s0) h1 (i := 0) (by omega)
        rwa [show cell (p.den (n64 q) s0) 0 = a from ha.symm] at this
      · have := arr_sound (q := q) (G := G) (s0 := s0) h1 (i := 1) (by omega)
        rwa [show cell (p.den (n64 q) s0) 1 = a from ha.symm] at this

theorem dst_cell (h : Gam q G C s0 A s) {r : Reg} {o i : Nat} (hr : C.dst (A.get r) o = true) (hi : o + i ≤ n64 q) :
    C.sg.InDst q s0 (cell (s.reg r) i) := by
  obtain ⟨h1, h2⟩ := dst_sound hr
  rw [h.get h1, Ptr.den, cell_add]
  exact ⟨_, h2, o + i, by simp only [Extent.cells]; omega, rfl⟩

theorem wrOpd_sound (h : Gam q G C s0 A s) {o : Opd} (ho : C.wrOpd A o = true) : ∀ a ∈ o.addr s, C.sg.InDst q s0 a := by
  have hn : 0 < n64 q := n64_pos q
  intro a ha
  cases o with
  | reg r => simp [Opd.addr] at ha
  | imm v => simp [Opd.addr] at ha
  | sym y off => exact absurd ho Bool.false_ne_true
  | mem b off =>
    simp only [Opd.addr, List.mem_singleton] at ha
    simp only [Chk.wrOpd, Bool.and_eq_true, Bool.or_eq_true, decide_eq_true_eq] at ho
    obtain ⟨h1, rfl | rfl⟩ := ho
    · rw [show a = cell (s.reg b) 0 from ha]; exact dst_cell h h1 (by omega)
    · rw [show a = cell (s.reg b) 1 from ha]; exact dst_cell h h1 (by omega)

theorem accOk_sound (h : Gam q G C s0 A s) {i : Line} (ha : C.accOk A i = true) :
    i.wf ∧ Only (C.sg.Rd q (C.Fa + C.Fb * (n64 q + 1) + G) s0) (C.sg.InDst q s0) (i.acc s) := by
  cases i with
  | ins i =>
    cases i with
    | mulx a b c => exact absurd ha Bool.false_ne_true
    | op2 o d b =>
      refine ⟨trivial, ?_⟩
      simp only [Chk.accOk, Bool.and_eq_true, Bool.or_eq_true, Bool.not_eq_true'] at ha
      obtain ⟨⟨h1, h2⟩, h3⟩ := ha
      intro x hx
      simp only [Line.acc, Ins.acc, List.mem_append] at hx
      rcases hx with (hx | hx) | hx
      · split at hx
        · rename_i ho
          obtain ⟨a, ha, rfl⟩ := List.mem_map.1 hx
          exact rdOpd_sound h (h1.resolve_left (by rw [ho]; decide)) a ha
        · simp at hx
      · obtain ⟨a, ha, rfl⟩ := List.mem_map.1 hx
        exact rdOpd_sound h h2 a ha
      · split at hx
        · rename_i ho
          obtain ⟨a, ha, rfl⟩ := List.mem_map.1 hx
          exact wrOpd_sound h (h3.resolve_left (by rw [ho]; decide)) a ha
        · simp at hx
  | misc m =>
    refine ⟨trivial, ?_⟩
    cases m with
    | op32 o d b =>
      cases b with
      | low b =>
        have := rdOpd_sound h (o := .mem b 0) ha (s.reg b) (by simp [Opd.addr])
        exact Only.cons (a := .read _) this Only.nil
      | _ => exact Only.nil
    | storeHi =>
      have := dst_cell (i := 0) h (r := .rdi) (o := 0) ha (by omega)
      rw [cell_zero] at this
      exact Only.cons (a := .read _) (.inr (.inl this)) (Only.cons (a := .write _) this Only.nil)
    | load a b c d => exact absurd ha Bool.false_ne_true
    | repMovsq => exact absurd ha Bool.false_ne_true
    | _ => exact Only.nil
  | push r => exact absurd ha Bool.false_ne_true
  | pop r => exact absurd ha Bool.false_ne_true
  | call r => exact absurd ha Bool.false_ne_true
  | ret => exact absurd ha Bool.false_ne_true
  | _ => exact ⟨trivial, Only.nil⟩

/-- A line without jumps and calls. -/
theorem stepA_sound (h : Gam q G C s0 A s) (hF : 8 * (C.Fa + C.Fb * (n64 q + 1) + G) < 2 ^ 64)
    (hd : ∀ a, C.sg.InDst q s0 a → ¬ InStk (s0.reg .rsp) (C.Fa + C.Fb * (n64 q + 1) + G) a) {i : Line} {A' : AState}
    (hA : C.stepA A i = some A') :
    i.plain = true ∧ Only (C.sg.Rd q (C.Fa + C.Fb * (n64 q + 1) + G) s0) (C.sg.Wr q (C.Fa + C.Fb * (n64 q + 1) + G) s0) (i.acc s) ∧
      Gam q G C s0 A' (i.exec s) := by
  unfold Chk.stepA at hA
  split at hA
  · -- push
    rename_i r
    split at hA
    · rename_i hle
      rw [Option.some.injEq] at hA
      subst hA
      have hi := idx_le (n := n64 q) hle h.hb
      have e : s.reg .rsp - 8 = stk (s0.reg .rsp) (A.a + 1 + A.b * (n64 q + 1)) := by
        rw [h.rsp, stk_push]; congr 1; omega
      have hin : InStk (s0.reg .rsp) (C.Fa + C.Fb * (n64 q + 1) + G) (s.reg .rsp - 8) := by rw [e]; exact inStk_of (by omega) (by omega)
      refine ⟨rfl, Only.cons (a := .write _) (.inr hin) Only.nil, ?_, ?_, ?_, h.sym, ?_, hle, h.hb⟩
      · show upd s.reg .rsp (s.reg .rsp - 8) .rsp = _
        rw [upd_same]; exact e
      · intro x hx
        obtain ⟨h1, h2⟩ := h.regs x hx
        refine ⟨h1, ?_⟩
        show upd s.reg .rsp (s.reg .rsp - 8) x.1 = _
        rw [upd_ne _ _ h1]; exact h2
      · have old : ∀ x ∈ A.cells, 1 ≤ x.1.1 ∧ x.1.1 ≤ A.a + 1 ∧ x.1.2 ≤ A.b ∧
            (Line.exec (.push r) s).mem (stk (s0.reg .rsp) (x.1.1 + x.1.2 * (n64 q + 1))) = x.2.den (n64 q) s0 := by
          intro x hx
          obtain ⟨h1, h2, h3, h4⟩ := h.cells x hx
          refine ⟨h1, by omega, h3, ?_⟩
          show upd s.mem (s.reg .rsp - 8) (s.reg r) _ = _
          rw [upd_ne]
          · exact h4
          · rw [e]
            intro e'
            have h5 := idx_le (n := n64 q) h2 h3
            have := stk_inj (by omega) (by omega) e'
            omega
        cases hg : A.get r with
        | none => exact old
        | some p =>
          intro x hx
          rcases List.mem_cons.1 hx with rfl | hx
          · refine ⟨by simp, le_refl _, le_refl _, ?_⟩
            show upd s.mem (s.reg .rsp - 8) (s.reg r) _ = _
            rw [← e, upd_same]
            exact h.get hg
          · exact old x hx
      · intro a ha
        show upd s.mem (s.reg .rsp - 8) (s.reg r) a = _
        rw [upd_ne]
        · exact h.mem a ha
        · rintro rfl; exact ha (.inr hin)
    · cases hA
  · -- pop
    rename_i r
    split at hA
    · rename_i hle
      obtain ⟨hle, hr⟩ := hle
      rw [Option.some.injEq] at hA
      subst hA
      have hi := idx_le (n := n64 q) h.ha h.hb
      have hin : InStk (s0.reg .rsp) (C.Fa + C.Fb * (n64 q + 1) + G) (s.reg .rsp) := by rw [h.rsp]; exact inStk_of (by omega) (by omega)
      refine ⟨rfl, Only.cons (a := .read _) (.inr (.inr (.inr (.inl hin)))) Only.nil, ?_⟩
      have hcut : Gam q G C s0 (A.cut (A.a - 1) A.b) { s with reg := upd s.reg .rsp (s.reg .rsp + 8) } := by
        refine h.cut (by have := h.ha; omega) h.hb (fun x hx => upd_ne _ _ hx) rfl rfl ?_
        show upd s.reg .rsp (s.reg .rsp + 8) .rsp = _
        rw [upd_same, h.rsp, show A.a + A.b * (n64 q + 1) = (A.a - 1 + A.b * (n64 q + 1)) + 1 by omega, stk_pop]
      refine hcut.set hd hr (fun x hx => ?_) rfl rfl ?_
      · exact upd_ne _ _ hx
      · intro p hp
        show upd (upd s.reg .rsp (s.reg .rsp + 8)) r (s.mem (s.reg .rsp)) r = _
        rw [upd_same]
        rw [Option.map_eq_some_iff] at hp
        obtain ⟨x, hx, rfl⟩ := hp
        have hx' := List.find?_some hx
        simp only [decide_eq_true_eq] at hx'
        have := (h.cells x (List.mem_of_find?_eq_some hx)).2.2.2
        rw [hx', ← h.rsp] at this
        exact this
    · cases hA
  · -- lea
    rename_i r y
    split at hA
    · rename_i hr
      rw [Option.some.injEq] at hA
      subst hA
      refine ⟨rfl, Only.nil, h.set hd hr (fun x hx => upd_ne _ _ hx) rfl rfl ?_⟩
      intro p hp
      cases hp
      show upd s.reg r (s.sym y) r = _
      rw [upd_same, h.sym]; rfl
    · cases hA
  · -- lea with an offset
    rename_i d b off
    split at hA
    · rename_i hr
      rw [Option.some.injEq] at hA
      subst hA
      refine ⟨rfl, Only.nil, h.set hd hr (fun x hx => upd_ne _ _ hx) rfl rfl ?_⟩
      intro p hp
      split at hp
      · rename_i ho
        subst ho
        obtain ⟨p', h1, h2⟩ := Option.bind_eq_some_iff.1 hp
        show upd s.reg d (s.reg b + BitVec.ofNat 64 8) d = _
        rw [upd_same, up_den h2, ← h.get h1]; rfl
      · cases hp
    · cases hA
  · -- mov between registers
    rename_i d r
    split at hA
    · rename_i hdr
      subst hdr
      split at hA
      · rename_i a b hg
        split at hA
        · rename_i hle
          rw [Option.some.injEq] at hA
          subst hA
          refine ⟨rfl, Only.nil, h.cut hle.1 hle.2 (fun x hx => upd_ne _ _ hx) rfl rfl ?_⟩
          show upd s.reg .rsp (s.reg r) .rsp = _
          rw [upd_same, h.get hg, Ptr.den, cell_zero]
        · cases hA
      · cases hA
    · rename_i hdr
      rw [Option.some.injEq] at hA
      subst hA
      refine ⟨rfl, Only.nil, h.set hd hdr (fun x hx => upd_ne _ _ hx) rfl rfl ?_⟩
      intro p hp
      show upd s.reg d (s.reg r) d = _
      rw [upd_same]
      split at hp
      · rename_i hr
        subst hr
        cases hp
        rw [h.rsp, Ptr.den, cell_zero]
      · exact h.get hp
  · -- add
    rename_i d v
    split at hA
    · rename_i hdr
      rw [Option.some.injEq] at hA
      subst hA
      refine ⟨rfl, Only.nil, h.set hd hdr (fun x hx => upd_ne _ _ hx) rfl rfl ?_⟩
      intro p hp
      show upd s.reg d (s.reg d + v) d = _
      rw [upd_same]
      split at hp
      · rename_i hv
        subst hv
        obtain ⟨p', h1, h2⟩ := Option.bind_eq_some_iff.1 hp
        rw [up_den h2, ← h.get h1]
      · cases hp
    · cases hA
  · -- sub
    rename_i d v
    split at hA
    · rename_i hdr
      rw [Option.some.injEq] at hA
      subst hA
      refine ⟨rfl, Only.nil, h.set hd hdr (fun x hx => upd_ne _ _ hx) rfl rfl ?_⟩
      intro p hp
      show upd s.reg d (s.reg d - v) d = _
      rw [upd_same]
      split at hp
      · rename_i hv
        subst hv
        obtain ⟨p', h1, h2⟩ := Option.bind_eq_some_iff.1 hp
        rw [down_den h2, ← h.get h1]
      · cases hp
    · cases hA
  · -- the rest
    split at hA
    · rename_i hc
      rw [Option.some.injEq] at hA
      subst hA
      simp only [Bool.and_eq_true, Bool.not_eq_true', List.contains_eq_mem, decide_eq_false_iff_not] at hc
      obtain ⟨⟨h1, h2⟩, h3⟩ := hc
      obtain ⟨hw, ha⟩ := accOk_sound h h1
      refine ⟨h2, ha.mono (fun _ h => h) (fun _ h => .inl h), ?_⟩
      refine h.keep hd (fun r hr => Line.dests_exec hr s) h3 (exec_sym _ _) fun a h' => Line.exec_off _ hw s a fun hx => h' (ha _ hx)
    · cases hA

/-- What is known after a call of a routine that is `Safe`. -/
theorem call_sound {ra : BitVec 64} (h : Gam q G C s0 A s) (hF : 8 * (C.Fa + C.Fb * (n64 q + 1) + G) < 2 ^ 64)
    (hd : ∀ a, C.sg.InDst q s0 a → ¬ InStk (s0.reg .rsp) (C.Fa + C.Fb * (n64 q + 1) + G) a) {sg : Sig} {acc : State → List Access}
    {g : State → Option State} (hg : Safe q G sg acc g) (h1 : A.a + 1 ≤ C.Fa) (h2 : C.dstOk A sg.dst = true)
    (h3 : sg.src.all (fun x => C.srcOk x.2 (A.get x.1)) = true) :
    C.sg.Wr q (C.Fa + C.Fb * (n64 q + 1) + G) s0 (s.reg .rsp - 8) ∧
    Only (C.sg.Rd q (C.Fa + C.Fb * (n64 q + 1) + G) s0) (C.sg.Wr q (C.Fa + C.Fb * (n64 q + 1) + G) s0) (acc (pushVal ra s)) ∧
    ∀ s', g (pushVal ra s) = some s' → Gam q G C s0 (A.after sg) s' := by
  set F := C.Fa + C.Fb * (n64 q + 1) + G with hFdef
  have hi := idx_le (n := n64 q) h1 h.hb
  have e : s.reg .rsp - 8 = stk (s0.reg .rsp) (A.a + 1 + A.b * (n64 q + 1)) := by
    rw [h.rsp, stk_push]; congr 1; omega
  have hin : InStk (s0.reg .rsp) F (s.reg .rsp - 8) := by rw [e]; exact inStk_of (by omega) (by omega)
  have hrsp : (pushVal ra s).reg .rsp = stk (s0.reg .rsp) (A.a + 1 + A.b * (n64 q + 1)) := by rw [push_rsp, ← stk_one]; exact e
  have hreg : ∀ r, r ≠ .rsp → (pushVal ra s).reg r = s.reg r := fun r hr => push_reg _ _ hr
  have hmem : ∀ a, a ≠ s.reg .rsp - 8 → (pushVal ra s).mem a = s.mem a := fun a ha => upd_ne _ _ ha
  have hsym : (pushVal ra s).sym = s0.sym := h.sym
  have hdeep : ∀ a, InStk ((pushVal ra s).reg .rsp) G a → InStk (s0.reg .rsp) F a := fun a ha => by
    rw [hrsp] at ha; exact ha.deep (by omega)
  -- the cells of the frame above the new stack pointer
  have habove : ∀ k, 1 ≤ k → k ≤ A.a + A.b * (n64 q + 1) → ¬ InStk ((pushVal ra s).reg .rsp) G (stk (s0.reg .rsp) k) := by
    rintro k hk1 hk ⟨j, hj, e'⟩
    rw [hrsp, stk_stk] at e'
    have := stk_inj (by omega) (by omega) e'
    omega
  have hrdi : (pushVal ra s).reg .rdi = s.reg .rdi := hreg _ (by decide)
  -- where the result of the call goes
  have hdst : (∀ a, sg.InDst q (pushVal ra s) a → C.sg.InDst q s0 a) ∨
      ∃ a b, A.get .rdi = some (.sp a b 0) ∧ sg.dst = some .elem ∧ 1 ≤ b ∧ a ≤ A.a ∧ b ≤ A.b := by
    cases hs : sg.dst with
    | none => left; rintro a ⟨e, he, _⟩; rw [hs] at he; cases he
    | some x =>
      rw [hs] at h2
      cases x with
      | limbs =>
        left
        rintro a ⟨e, he, i, hi, rfl⟩
        rw [hs] at he; cases he
        rw [hrdi]
        simp only [Extent.cells] at hi
        exact dst_cell h h2 (by omega)
      | elem =>
        rw [Chk.dstOk, Bool.or_eq_true] at h2
        rcases h2 with h2 | h2
        · left
          rintro a ⟨e, he, i, hi, rfl⟩
          rw [hs] at he; cases he
          rw [hrdi]
          simp only [Extent.cells] at hi
          exact dst_cell h h2 (by omega)
        · right
          split at h2
          · rename_i a b hg
            simp only [Bool.and_eq_true, decide_eq_true_eq] at h2
            exact ⟨a, b, hg, rfl, h2.1.1, h2.1.2, h2.2⟩
          · exact absurd h2 Bool.false_ne_true
  -- a temporary
  have htemp : ∀ a b, A.get .rdi = some (.sp a b 0) → sg.dst = some .elem → 1 ≤ b → a ≤ A.a → b ≤ A.b → ∀ x, sg.InDst q (pushVal ra s) x →
      ∃ k, a + (b - 1) * (n64 q + 1) + 1 ≤ k ∧ k ≤ a + b * (n64 q + 1) ∧ x = stk (s0.reg .rsp) k := by
    rintro a b hg hs hb ha hb' x ⟨e, he, i, hi, rfl⟩
    rw [hs] at he; cases he
    simp only [Extent.cells] at hi
    have hb2 : b * (n64 q + 1) = (b - 1) * (n64 q + 1) + (n64 q + 1) := by
      conv_lhs => rw [show b = b - 1 + 1 by omega, Nat.add_mul, Nat.one_mul]
    rw [hrdi, h.get hg, Ptr.den, cell_zero, cell_stk _ (by omega)]
    exact ⟨_, by omega, by omega, rfl⟩
  have hdw : ∀ a, sg.InDst q (pushVal ra s) a → C.sg.Wr q F s0 a := by
    intro x hx
    rcases hdst with h' | ⟨a, b, g1, g2, g3, g4, g5⟩
    · exact .inl (h' x hx)
    · obtain ⟨k, k1, k2, rfl⟩ := htemp a b g1 g2 g3 g4 g5 x hx
      have := idx_le (n := n64 q) g4 g5
      exact .inr (inStk_of (by omega) (by omega))
  obtain ⟨r1, r2⟩ := hg (pushVal ra s) (by omega) (by
    intro x hx hk
    rcases hdst with h' | ⟨a, b, g1, g2, g3, g4, g5⟩
    · exact hd x (h' x hx) (hdeep x hk)
    · obtain ⟨k, k1, k2, rfl⟩ := htemp a b g1 g2 g3 g4 g5 x hx
      have := idx_le (n := n64 q) g4 g5
      exact habove k (by omega) (by omega) hk)
  have hwr : ∀ a, sg.Wr q G (pushVal ra s) a → C.sg.Wr q F s0 a := fun a ha => ha.elim (hdw a) fun ha => .inr (hdeep a ha)
  refine ⟨.inr hin, r1.mono ?_ hwr, ?_⟩
  · rintro a (⟨x, hx, i, hi, rfl⟩ | ha | ha | ha | ha)
    · have hx' := List.all_eq_true.1 h3 x hx
      cases hg : A.get x.1 with
      | none => simp [hg, Chk.srcOk] at hx'
      | some p =>
        have hne := (h.regs _ (AState.get_mem hg)).1
        rw [hreg _ hne, h.get hg]
        rw [hg] at hx'
        by_cases hp : ∃ y, p = .tab y
        · obtain ⟨y, rfl⟩ := hp
          simp only [Chk.srcOk, Bool.and_eq_true, decide_eq_true_eq] at hx'
          rw [hx'.1] at hi
          refine .inr (.inr (.inl ?_))
          rcases hx'.2 with rfl | rfl | rfl | rfl
          · exact .inl ⟨i, hi, rfl⟩
          · exact .inr (.inl ⟨i, hi, rfl⟩)
          · exact .inr (.inr (.inl ⟨i, hi, rfl⟩))
          · exact .inr (.inr (.inr (.inl ⟨i, hi, rfl⟩)))
        · have hx2 : C.arr p = true ∧ p.off = match x.2 with | .limbs => 1 | .elem => 0 := by
            cases p with
            | tab y => exact absurd ⟨y, rfl⟩ hp
            | _ => simpa [Chk.srcOk] using hx'
          refine arr_sound hx2.1 ?_
          rw [hx2.2]
          cases hx3 : x.2 <;> rw [hx3] at hi <;> simp only [Extent.cells] at hi ⊢ <;> omega
    · rcases hdw a ha with h' | h'
      · exact .inr (.inl h')
      · exact .inr (.inr (.inr (.inl h')))
    · rw [hsym] at ha; exact .inr (.inr (.inl ha))
    · exact .inr (.inr (.inr (.inl (hdeep a ha))))
    · rw [ha, hrsp, ← e]; exact .inr (.inr (.inr (.inl hin)))
  · intro s' hs'
    obtain ⟨b1, b2, b3, b4, b5⟩ := r2 s' hs'
    refine ⟨?_, ?_, ?_, b4.trans hsym, ?_, h.ha, h.hb⟩
    · rw [b1, hrsp, show A.a + 1 + A.b * (n64 q + 1) = A.a + A.b * (n64 q + 1) + 1 by omega, stk_pop]; rfl
    · intro x hx
      simp only [AState.after, List.mem_filter, Bool.or_eq_true, List.contains_eq_mem, decide_eq_true_eq, Bool.and_eq_true] at hx
      obtain ⟨hx, hx'⟩ := hx
      obtain ⟨c1, c2⟩ := h.regs x hx
      refine ⟨c1, ?_⟩
      rcases hx' with hx' | ⟨hx', hx''⟩
      · rw [b2 _ hx', hreg _ c1, c2]
      · rw [hx''] at c2 ⊢
        rw [b3 hx', hrdi, c2]
    · intro x hx
      have hx0 : x ∈ A.cells := by
        simp only [AState.after] at hx
        split at hx
        · exact (List.mem_filter.1 hx).1
        · exact hx
      obtain ⟨c1, c2, c3, c4⟩ := h.cells x hx0
      have c5 := idx_le (n := n64 q) c2 c3
      refine ⟨c1, c2, c3, ?_⟩
      rw [b5, hmem, c4]
      · rw [e]
        intro e'
        have := stk_inj (by omega) (by omega) e'
        omega
      · rintro (h' | h')
        · rcases hdst with hk | ⟨a, b, g1, g2, g3, g4, g5⟩
          · exact hd _ (hk _ h') (inStk_of (by omega) (by omega))
          · obtain ⟨k, k1, k2, e'⟩ := htemp a b g1 g2 g3 g4 g5 _ h'
            have g6 := idx_le (n := n64 q) g4 g5
            have e2 := stk_inj (by omega) (by omega) e'
            simp only [AState.after, g1, g2, List.mem_filter, clearOf, Bool.or_eq_true, Bool.and_eq_true, decide_eq_true_eq] at hx
            rcases hx.2 with ⟨d1, d2⟩ | ⟨d1, d2⟩
            · have := idx_le (n := n64 q) d2 (show x.1.2 ≤ b - 1 by omega)
              omega
            · have := idx_le (n := n64 q) (Nat.le_of_lt d2) d1
              have := Nat.mul_le_mul_right (n64 q + 1) d1
              omega
        · exact habove _ (by omega) c5 h'
    · intro a ha
      rw [b5 a fun h' => ha (hwr a h'), hmem a fun e' => ha (e' ▸ .inr hin)]
      exact h.mem a ha

/-- What `check` accepts is safe. -/
theorem check_sound {env : String → Option (State → Option State)} {T : String → State → List Access} {ra : BitVec 64}
    (hF : 8 * (C.Fa + C.Fb * (n64 q + 1) + G) < 2 ^ 64)
    (hd : ∀ a, C.sg.InDst q s0 a → ¬ InStk (s0.reg .rsp) (C.Fa + C.Fb * (n64 q + 1) + G) a)
    (hc : ∀ x ∈ C.sigs, Safe q G x.2 (T x.1) fun t => (env x.1).bind (· t)) (k : Nat) : ∀ {A : AState} {s : State} (p : List Item),
    (∀ x ∈ p, x.Fine q) → C.check k A p = true → Gam q G C s0 A s →
    Okay env T ra (C.sg.Rd q (C.Fa + C.Fb * (n64 q + 1) + G) s0) (C.sg.Wr q (C.Fa + C.Fb * (n64 q + 1) + G) s0)
      (Back q (C.Fa + C.Fb * (n64 q + 1) + G) C.sg s0) (codeOf (bitLen q) (n64 q) p) s := by
  induction k with
  | zero => intro A s p _ h; simp [Chk.check] at h
  | succ k ih =>
    intro A s p hp h hg
    match p with
    | [] => simp [Chk.check] at h
    | x :: p =>
      have hp' : ∀ x ∈ p, x.Fine q := fun y hy => hp y (List.mem_cons_of_mem _ hy)
      have hpd : ∀ l, ∀ x ∈ dropIt l p, x.Fine q := fun l y hy => hp' y (dropIt_mem l hy)
      cases x with
      | alloc =>
        simp only [Chk.check, Bool.and_eq_true, decide_eq_true_eq] at h
        show Okay _ _ _ _ _ _ (op .sub rsp (.imm (BitVec.ofNat 64 (8 * (n64 q + 1)))) :: codeOf (bitLen q) (n64 q) p) s
        refine Okay.plain rfl Only.nil (ih p hp' h.2 ⟨?_, ?_, ?_, hg.sym, hg.mem, hg.ha, h.1⟩)
        · show upd s.reg .rsp (s.reg .rsp - BitVec.ofNat 64 (8 * (n64 q + 1))) .rsp = _
          rw [upd_same, hg.rsp, stk_sub]
          congr 1
          show _ = A.a + (A.b + 1) * (n64 q + 1)
          rw [Nat.add_mul, Nat.one_mul]; omega
        · intro x hx
          obtain ⟨h1, h2⟩ := hg.regs x hx
          exact ⟨h1, by rw [← h2]; exact upd_ne _ _ h1⟩
        · intro x hx
          obtain ⟨h1, h2, h3, h4⟩ := hg.cells x hx
          exact ⟨h1, h2, Nat.le_succ_of_le h3, h4⟩
      | blk c rd wr outs =>
        simp only [Chk.check, Bool.and_eq_true, List.all_eq_true, Bool.or_eq_true, Bool.not_eq_true'] at h
        obtain ⟨⟨⟨h1, h2⟩, h3⟩, h4⟩ := h
        obtain ⟨f1, f2⟩ := hp _ List.mem_cons_self
        refine Okay.blk (K := blkK) (s := s) (outs := outs) ?_ ?_ ?_ (c (bitLen q) (n64 q)) f1 (f2 s) s (Bases.refl _ _) (fun _ _ => rfl)
        · rintro a (⟨r, hr, i, hi, rfl⟩ | ha)
          · have := h1 r hr
            cases hv : A.get r with
            | none => rw [hv] at this; exact absurd this Bool.false_ne_true
            | some v =>
              rw [hv] at this
              simp only [Bool.and_eq_true, decide_eq_true_eq] at this
              rw [hg.get hv]
              exact arr_sound this.1 (by omega)
          · rw [hg.sym] at ha; exact .inr (.inr (.inl ha))
        · rintro a ⟨hw, i, hi, rfl⟩
          exact .inl (dst_cell hg (h2.resolve_left (by rw [hw]; decide)) (by omega))
        · intro s' hb hm
          have hg' : Gam q G C s0 (A.kill [.rax, .rcx]) s' := by
            refine hg.keep hd (fun r hr => hb.1 r ?_) (by decide) hb.2 fun a ha => hm a ?_
            · cases r <;> simp_all [blkK]
            · rintro ⟨hw, i, hi, rfl⟩
              exact ha (dst_cell hg (h2.resolve_left (by rw [hw]; decide)) (by omega))
          refine ⟨ih p hp' h4 hg', fun l hl => ?_⟩
          show Okay _ _ _ _ _ _ (dropTo l (codeOf (bitLen q) (n64 q) p)) s'
          rw [dropIt_code l p hp']
          exact ih _ (hpd l) (h3 l hl) hg'
      | ln i =>
        show Okay _ _ _ _ _ _ (i :: codeOf (bitLen q) (n64 q) p) s
        rcases plain_cases i with hpl | ⟨l, rfl⟩ | ⟨c, l, rfl⟩ | ⟨f, rfl⟩ | rfl
        · have h' : (match C.stepA A i with | none => false | some A' => C.check k A' p) = true := by
            cases i <;> first | exact h | exact absurd hpl Bool.false_ne_true
          cases hA : C.stepA A i with
          | none => rw [hA] at h'; exact absurd h' Bool.false_ne_true
          | some A' =>
            rw [hA] at h'
            obtain ⟨-, h2, h3⟩ := stepA_sound hg hF hd hA
            exact Okay.plain hpl h2 (ih p hp' h' h3)
        · exact Okay.label (ih p hp' h hg)
        · simp only [Chk.check, Bool.and_eq_true, Bool.or_eq_true, decide_eq_true_eq] at h
          refine Okay.jump ?_ (h.2.imp_right fun h' => ih p hp' h' hg)
          rw [dropIt_code l p hp']
          exact ih _ (hpd l) h.1 hg
        · rw [Chk.check] at h
          split at h
          · exact absurd h Bool.false_ne_true
          · rename_i f' sg hf
            simp only [Bool.and_eq_true, decide_eq_true_eq] at h
            obtain ⟨⟨⟨h1, h2⟩, h3⟩, h4⟩ := h
            have hf' := List.find?_some hf
            simp only [decide_eq_true_eq] at hf'
            subst hf'
            have hsafe := hc _ (List.mem_of_find?_eq_some hf)
            obtain ⟨g1, g2, g3⟩ := call_sound (ra := ra) hg hF hd hsafe h1 h2 h3
            exact Okay.call g1 g2 fun s' hs' => ih p hp' h4 (g3 s' hs')
        · simp only [Chk.check, Chk.retOk, Bool.and_eq_true, decide_eq_true_eq, List.all_eq_true, Bool.or_eq_true, Bool.not_eq_true'] at h
          obtain ⟨⟨⟨h1, h2⟩, h3⟩, h4⟩ := h
          have hrsp : s.reg .rsp = s0.reg .rsp := by rw [hg.rsp, h1, h2]; simp [stk]
          refine Okay.ret (.inr (.inr (.inr (.inr hrsp)))) ⟨?_, fun r hr => ?_, fun hdi => ?_, hg.sym, hg.mem⟩
          · show upd s.reg .rsp (s.reg .rsp + 8) .rsp = _
            rw [upd_same, hrsp]
          · show upd s.reg .rsp (s.reg .rsp + 8) r = _
            rw [upd_ne _ _ (by rintro rfl; exact absurd hr (by decide)), hg.get (h3 r hr), Ptr.den, cell_zero]
          · show upd s.reg .rsp (s.reg .rsp + 8) .rdi = _
            rw [upd_ne _ _ (by decide), hg.get (h4.resolve_left (by rw [hdi]; decide)), Ptr.den, cell_zero]

/-- The routine as a whole. -/
theorem safe_of_check {env : String → Option (State → Option State)} {T : String → State → List Access} {ra : BitVec 64}
    (hc : ∀ x ∈ C.sigs, Safe q G x.2 (T x.1) fun t => (env x.1).bind (· t)) {k : Nat} {p : List Item} (hp : ∀ x ∈ p, x.Fine q)
    (h : C.check k atEntry p = true) : Safe q (C.Fa + C.Fb * (n64 q + 1) + G) C.sg (touched env T ra (codeOf (bitLen q) (n64 q) p))
      (run env ra (codeOf (bitLen q) (n64 q) p)) := by
  intro s0 hF hd
  have hg : Gam q G C s0 atEntry s0 := by
    refine ⟨by simp [atEntry, stk], ?_, by simp [atEntry], rfl, fun _ _ => rfl, Nat.zero_le _, Nat.zero_le _⟩
    intro x hx
    simp only [atEntry, List.map_cons, List.map_nil, List.mem_cons, List.not_mem_nil, or_false] at hx
    rcases hx with rfl | rfl | rfl | rfl | rfl | rfl | rfl | rfl | rfl <;> exact ⟨by decide, (cell_zero _).symm⟩
  exact check_sound hF hd hc k p hp h hg

end

end FF.X86
