import Verif.Props.ConcTso
import Verif.Props.AsmMont
import Verif.Props.AsmTouch
import Verif.ElField
import Verif.Primes

/-!
# C91: programs of raw field operations on several x86-64 threads

The operations of the class `RawFr` on arrays of `N64` limbs below the modulus (`El q`, as in C72 and C74), in the printed x86-64 code.  Any number of threads, each
with a straight program of calls; a thread writes only elements that no other one uses.  Unlike the tagged calls (C89) these are right for every
modulus and every placement of results on operands, so nothing is missing.
-/

namespace FF.Props

open FF.Conc
open FF.X86 (State Access Reg Line Only InArr InStk Within Linked noCalls noAcc pushVal upd touched rd cell stk Alias Sep rawFrame StackFree)

/-! ## Specification -/

/-- `add`, `sub`, `neg`, `mul`, `square`, `copy` of the class, `src/fr.hpp.ejs:230-253`, and the routine that clears an array. -/
inductive RawOp
  | add | sub | neg | mul | square | copy | zero
deriving DecidableEq

/-- How many of the operands a routine uses. -/
def RawOp.arity : RawOp → Nat
  | .zero => 0
  | .neg | .square | .copy => 1
  | .add | .sub | .mul => 2

/-- What it computes. -/
def RawOp.den {K : Type} [Zero K] [Add K] [Sub K] [Neg K] [Mul K] : RawOp → K → K → K
  | .add, x, y => x + y
  | .sub, x, y => x - y
  | .neg, x, _ => -x
  | .mul, x, y => x * y
  | .square, x, _ => x * x
  | .copy, x, _ => x
  | .zero, _, _ => 0

/-- A call: the numbers of the elements for result and operands. -/
structure RawInstr where
  op : RawOp
  r : Nat
  a : Nat
  b : Nat

/-- The elements that a call uses. -/
def RawInstr.uses (i : RawInstr) (p : Nat) : Prop := i.r = p ∨ (1 ≤ i.op.arity ∧ i.a = p) ∨ (i.op.arity = 2 ∧ i.b = p)

/-- The elements that it reads. -/
def RawInstr.reads (i : RawInstr) (p : Nat) : Prop := (1 ≤ i.op.arity ∧ i.a = p) ∨ (i.op.arity = 2 ∧ i.b = p)

/-- The elements that a program reads before it has set them: only these have to hold an array below the modulus when it starts. -/
def RawNeeds : List RawInstr → Nat → Prop
  | [], _ => False
  | i :: is, p => i.reads p ∨ (p ≠ i.r ∧ RawNeeds is p)

/-- The elements after a program. -/
def rawSpec {K : Type} [Zero K] [Add K] [Sub K] [Neg K] [Mul K] : List RawInstr → (Nat → K) → Nat → K
  | [], σ => σ
  | i :: is, σ => rawSpec is (fun p => if p = i.r then i.op.den (σ i.a) (σ i.b) else σ p)

/-- The element `p` is a result of the program. -/
def RawSets (prog : List RawInstr) (p : Nat) : Prop := ∃ i ∈ prog, i.r = p
/-- The element `p` is a result or an operand of the program. -/
def RawNames (prog : List RawInstr) (p : Nat) : Prop := ∃ i ∈ prog, i.uses p

/-! ## Listings -/

/-- The names of the entry points, `src/fr.asm.ejs:33-41`. -/
def RawOp.entry : RawOp → String
  | .add => "Fr_rawAdd" | .sub => "Fr_rawSub" | .neg => "Fr_rawNeg" | .mul => "Fr_rawMMul" | .square => "Fr_rawMSquare" | .copy => "Fr_rawCopy"
  | .zero => "Fr_rawZero"

/-- Their listings: `src/add.asm.ejs:182-234`, `src/sub.asm.ejs`, `src/neg.asm.ejs`, `src/montgomerybuilder.js`, `src/copy.asm.ejs` (see `AsmRaw.lean`, `AsmBuilder.lean`). -/
def RawOp.code (q : Nat) : RawOp → List Line
  | .add => X86.rawAddLL (n64 q)
  | .sub => X86.rawSubLL (n64 q)
  | .neg => X86.rawNegL (n64 q)
  | .mul => (X86.template (n64 q) (canOpt q) (X86.upperMul (n64 q) (canOpt q))).getD []
  | .square => (X86.template (n64 q) (canOpt q) (X86.upperSquare (n64 q) (canOpt q))).getD []
  | .copy => X86.rawCopy (n64 q)
  | .zero => X86.rawZero (n64 q)

/-- The labels in the printed file (`add.asm.ejs`, `sub.asm.ejs`, `neg.asm.ejs`, `montgomery.asm.ejs`, `copy.asm.ejs`). -/
def rawTable : List (String × RawOp) :=
  [("Fr_rawAdd", .add), ("Fr_rawSub", .sub), ("Fr_rawNeg", .neg), ("Fr_rawMMul", .mul), ("Fr_rawMSquare", .square), ("Fr_rawCopy", .copy), ("Fr_rawZero", .zero)]

/-- The routine with this label. -/
def rawNamed (f : String) : Option RawOp := (rawTable.find? fun x => x.1 == f).map (·.2)

theorem rawNamed_entry (o : RawOp) : rawNamed o.entry = some o := by cases o <;> decide

/-- The link table. -/
def linkRaw (q : Nat) (f : String) : Option (List Line) := (rawNamed f).map (·.code q)

/-- The program of a thread (the code of the user): for each call the addresses of result and operands, and the call; at the end it returns. -/
def rawCaller (loc : Nat → BitVec 64) : List RawInstr → List Line
  | [] => [.ret]
  | i :: is => X86.op .mov X86.rdi (.imm (loc i.r)) :: X86.op .mov X86.rsi (.imm (loc i.a)) :: X86.op .mov X86.rdx (.imm (loc i.b)) :: .call i.op.entry ::
      rawCaller loc is

def rawEnv (q : Nat) (ra : BitVec 64) (f : String) : Option (State → Option State) := (rawNamed f).map fun o => X86.run noCalls ra (o.code q)

def rawAcc (q : Nat) (ra : BitVec 64) (f : String) (s : State) : List Access :=
  match rawNamed f with
  | some o => touched noCalls noAcc ra (o.code q) s
  | none => []

/-- The state in which a call enters the routine. -/
def rawEntry (loc : Nat → BitVec 64) (ra : BitVec 64) (i : RawInstr) (s : State) : State :=
  pushVal ra { s with reg := upd (upd (upd s.reg .rdi (loc i.r)) .rsi (loc i.a)) .rdx (loc i.b) }

/-! ## Where things are -/

/-- A cell of the modulus or the word `np`. -/
def InRawData (q : Nat) (y : X86.Sym → BitVec 64) (a : BitVec 64) : Prop := InArr (y .q) (n64 q) a ∨ a = y .np

/-- `k` elements that do not meet each other, the tables and the stack; the tables hold what the generator prints, `src/fr.asm.ejs:70-81`. -/
structure RawLayout (q k : Nat) (loc : Nat → BitVec 64) (s : State) : Prop where
  fits : 8 * (n64 q + 8) ≤ 2 ^ 64
  apart : ∀ p < k, ∀ p' < k, p ≠ p' → Sep (loc p) (loc p') (n64 q)
  elemTables : ∀ p < k, ∀ a, InArr (loc p) (n64 q) a → ¬ InRawData q s.sym a
  elemStack : ∀ p < k, ∀ a, InArr (loc p) (n64 q) a → ¬ InStk (s.reg .rsp) (rawFrame q + 1) a
  tablesStack : ∀ a, InRawData q s.sym a → ¬ InStk (s.reg .rsp) (rawFrame q + 1) a
  table : rd s.mem (s.sym .q) (n64 q) = rawq q
  np : s.mem (s.sym .np) = np q

/-- Nothing that matters has changed. -/
theorem RawLayout.keep {q k : Nat} {loc : Nat → BitVec 64} {s t : State} (h : RawLayout q k loc s) (hs : t.sym = s.sym) (hr : t.reg .rsp = s.reg .rsp)
    (hm : ∀ a, InRawData q s.sym a → t.mem a = s.mem a) : RawLayout q k loc t := by
  refine ⟨h.fits, h.apart, by rw [hs]; exact h.elemTables, by rw [hr]; exact h.elemStack, by rw [hs, hr]; exact h.tablesStack, ?_, ?_⟩
  · rw [hs, ← h.table]
    exact X86.rd_congr fun i hi => hm _ (.inl ⟨i, hi, rfl⟩)
  · rw [hs, hm _ (.inr rfl), h.np]

/-! ## One call -/

section
variable {q k : Nat} {ra : BitVec 64} {loc : Nat → BitVec 64}

/-- The cells a program may read, for the stack pointer `S` and the labels `y`. -/
def RawReads (q : Nat) (loc : Nat → BitVec 64) (prog : List RawInstr) (S : BitVec 64) (y : X86.Sym → BitVec 64) (a : BitVec 64) : Prop :=
  (∃ p, RawNames prog p ∧ InArr (loc p) (n64 q) a) ∨ InRawData q y a ∨ InStk S (rawFrame q + 1) a ∨ a = S

/-- The cells it may write. -/
def RawWrites (q : Nat) (loc : Nat → BitVec 64) (prog : List RawInstr) (S : BitVec 64) (a : BitVec 64) : Prop :=
  (∃ p, RawSets prog p ∧ InArr (loc p) (n64 q) a) ∨ InStk S (rawFrame q + 1) a

/-- After the call: the result, everything else kept but the stack. -/
structure Called (q : Nat) (ra : BitVec 64) (loc : Nat → BitVec 64) (i : RawInstr) (s t : State) (out : Limbs) : Prop where
  run : X86.run noCalls ra (i.op.code q) (rawEntry loc ra i s) = some t
  out : rd t.mem (loc i.r) (n64 q) = out
  frame : ∀ a, ¬ InArr (loc i.r) (n64 q) a → ¬ InStk (s.reg .rsp) (rawFrame q + 1) a → t.mem a = s.mem a
  rsp : t.reg .rsp = s.reg .rsp
  sym : t.sym = s.sym
  only : Only (RawReads q loc [i] (s.reg .rsp) s.sym) (RawWrites q loc [i] (s.reg .rsp)) (touched noCalls noAcc ra (i.op.code q) (rawEntry loc ra i s))

theorem inStk_entry {i : RawInstr} {s : State} {F j : Nat} (h : j ≤ F) : InStk (s.reg .rsp) (F + 1) (stk ((rawEntry loc ra i s).reg .rsp) j) := by
  refine ⟨j, by omega, ?_⟩
  have e : (rawEntry loc ra i s).reg .rsp = stk (s.reg .rsp) 1 := X86.push_rsp _ _
  rw [e, X86.stk_stk, Nat.add_comm]

theorem entry_mem {i : RawInstr} {s : State} {a : BitVec 64} (h : ¬ InStk (s.reg .rsp) (rawFrame q + 1) a) : (rawEntry loc ra i s).mem a = s.mem a :=
  X86.upd_ne _ _ fun e => h (by rw [e]; exact ⟨0, Nat.succ_pos _, rfl⟩)

variable [Fact q.Prime] [ho : Fact (q % 2 = 1)]

theorem zero_limbs : (0 : El q).v = List.replicate (n64 q) 0 := by
  have h0 : val (List.replicate (n64 q) 0) = 0 := val_replicate_zero _
  have h : FRep q (List.replicate (n64 q) 0) 0 := ⟨by simp, by rw [h0]; exact (Fact.out : q.Prime).pos, by rw [h0]; simp⟩
  exact (RawFr.zero_rep ho.out).inj h

theorem raw_call (i : RawInstr) {s : State} (hl : RawLayout q k loc s) (hi : ∀ p, i.uses p → p < k) {σ : Nat → El q}
    (hσ : ∀ p, i.reads p → rd s.mem (loc p) (n64 q) = (σ p).v) : ∃ t, Called q ra loc i s t (i.op.den (σ i.a) (σ i.b)).v := by
  obtain ⟨op, r, a, b⟩ := i
  set i : RawInstr := ⟨op, r, a, b⟩ with hie
  set s1 := rawEntry loc ra i s with hs1
  have hrk : r < k := hi r (.inl rfl)
  have hdi : s1.reg .rdi = loc r := rfl
  have hsi : s1.reg .rsi = loc a := rfl
  have hdx : s1.reg .rdx = loc b := rfl
  have hsy : s1.sym = s.sym := rfl
  have hsp : s1.reg .rsp + 8 = s.reg .rsp := BitVec.sub_add_cancel _ _
  have hmem : ∀ {x}, ¬ InStk (s.reg .rsp) (rawFrame q + 1) x → s1.mem x = s.mem x := entry_mem
  have hel : ∀ p, i.reads p → rd s1.mem (loc p) (n64 q) = (σ p).v := fun p hp => by
    rw [← hσ p hp]
    exact X86.rd_congr fun j hj => hmem (hl.elemStack p (hi p (.inr hp)) _ ⟨j, hj, rfl⟩)
  have htab : rd s1.mem (s1.sym .q) (n64 q) = rawq q := by
    rw [← hl.table]
    exact X86.rd_congr fun j hj => hmem (hl.tablesStack _ (.inl ⟨j, hj, rfl⟩))
  have hnp : s1.mem (s1.sym .np) = np q := by rw [← hl.np]; exact hmem (hl.tablesStack _ (.inr rfl))
  have hR : Ready q s1 := ⟨by have := hl.fits; omega, htab, fun x z hx hz e =>
    hl.elemTables r hrk _ ⟨z, hz, rfl⟩ (.inl ⟨x, hx, e.symm⟩)⟩
  have hfree : ∀ {x}, ¬ InStk (s.reg .rsp) (rawFrame q + 1) x → StackFree (rawFrame q) s1 x := fun {x} hx j hj e =>
    hx (by rw [e]; exact inStk_entry (ra := ra) (loc := loc) (i := i) (j := j + 1) hj)
  have hM : MontReady q s1 := ⟨hl.fits, htab, hnp, fun x hx => hfree (hl.tablesStack _ (.inl ⟨x, hx, rfl⟩)), hfree (hl.tablesStack _ (.inr rfl)),
    fun x hx => hfree (hl.elemStack r hrk _ ⟨x, hx, rfl⟩)⟩
  have hali : ∀ p < k, Alias (loc p) (loc r) (n64 q) := fun p hp => by
    by_cases c : p = r
    · exact .inl (by rw [c])
    · exact .inr (hl.apart p hp r hrk c)
  have hoff : ∀ p < k, ∀ x < n64 q, StackFree (rawFrame q) s1 (cell (loc p) x) := fun p hp x hx => hfree (hl.elemStack p hp _ ⟨x, hx, rfl⟩)
  -- footprints
  have fR : ∀ {l : List (BitVec 64 × Nat)}, (∀ x ∈ l, (∃ p, i.uses p ∧ x = (loc p, n64 q)) ∨ x = (s1.sym .q, n64 q) ∨ x = (s1.sym .np, 1) ∨
      x = (s1.reg .rsp, 1) ∨ x = frame s1 (rawFrame q)) → ∀ c, Within l c → RawReads q loc [i] (s.reg .rsp) s.sym c := by
    rintro l hl c ⟨x, hx, hc⟩
    rcases hl x hx with ⟨p, hp, rfl⟩ | rfl | rfl | rfl | rfl
    · exact .inl ⟨p, ⟨i, by simp, hp⟩, hc⟩
    · exact .inr (.inl (.inl hc))
    · obtain ⟨j, hj, rfl⟩ := hc
      obtain rfl : j = 0 := by simp only at hj; omega
      exact .inr (.inl (.inr (by simp [cell, hsy])))
    · obtain ⟨j, hj, rfl⟩ := hc
      obtain rfl : j = 0 := by simp only at hj; omega
      refine .inr (.inr (.inl ?_))
      have := inStk_entry (ra := ra) (loc := loc) (i := i) (s := s) (F := rawFrame q) (j := 0) (Nat.zero_le _)
      simpa [cell, stk] using this
    · obtain ⟨j, hj, rfl⟩ := hc
      simp only at hj
      refine .inr (.inr (.inl ?_))
      rw [X86.stk_cell _ _ _ (by omega)]
      exact inStk_entry (by omega)
  have fW : ∀ {l : List (BitVec 64 × Nat)}, (∀ x ∈ l, x = (loc r, n64 q) ∨ x = locals s1 (rawFrame q)) → ∀ c, Within l c →
      RawWrites q loc [i] (s.reg .rsp) c := by
    rintro l hl c ⟨x, hx, hc⟩
    rcases hl x hx with rfl | rfl
    · exact .inl ⟨r, ⟨i, by simp, rfl⟩, hc⟩
    · obtain ⟨j, hj, rfl⟩ := hc
      simp only at hj
      refine .inr ?_
      rw [X86.stk_cell _ _ _ (by omega)]
      exact inStk_entry (by omega)
  -- the end of a leaf and of a Montgomery routine
  have ret : ∀ {t out}, X86.run noCalls ra (op.code q) s1 = some t → Returns (n64 q) s1 t out →
      Only (RawReads q loc [i] (s.reg .rsp) s.sym) (RawWrites q loc [i] (s.reg .rsp)) (touched noCalls noAcc ra (op.code q) s1) →
      Called q ra loc i s t out := fun {t out} h1 h2 h3 =>
    ⟨h1, h2.out, fun x hx hs => by rw [h2.frame x fun j hj e => hx ⟨j, hj, e⟩, hmem hs], by rw [h2.rsp, hsp], by rw [X86.run_sym_noCalls h1, hsy], h3⟩
  have mont : ∀ {t out}, X86.run noCalls ra (op.code q) s1 = some t → MontReturns (n64 q) (rawFrame q) s1 t out →
      Only (RawReads q loc [i] (s.reg .rsp) s.sym) (RawWrites q loc [i] (s.reg .rsp)) (touched noCalls noAcc ra (op.code q) s1) →
      Called q ra loc i s t out := fun {t out} h1 h2 h3 =>
    ⟨h1, h2.out, fun x hx hs => by rw [h2.frame x (hfree hs) fun j hj e => hx ⟨j, hj, e⟩, hmem hs], by rw [h2.rsp, hsp], by rw [X86.run_sym_noCalls h1, hsy], h3⟩
  cases op
  case add =>
    have ra' : i.reads a := .inl ⟨Nat.le_of_ble_eq_true rfl, rfl⟩
    have rb' : i.reads b := .inr ⟨rfl, rfl⟩
    have ha := hi a (.inr ra'); have hb := hi b (.inr rb')
    obtain ⟨t, h1, h2, -⟩ := C54_add ra hR (hali a ha) (hali b hb)
    rw [hsi, hdx, hel a ra', hel b rb'] at h2
    refine ⟨t, ret h1 h2 ((C83_rawAddLL _ s1 ra).mono (fR ?_) (fW ?_))⟩
    · simp [RawInstr.uses, RawOp.arity, hsi, hdx, hdi, hie]
    · simp [hdi]
  case sub =>
    have ra' : i.reads a := .inl ⟨Nat.le_of_ble_eq_true rfl, rfl⟩
    have rb' : i.reads b := .inr ⟨rfl, rfl⟩
    have ha := hi a (.inr ra'); have hb := hi b (.inr rb')
    obtain ⟨t, h1, h2, -⟩ := C54_sub ra hR (hali a ha) (hali b hb)
    rw [hsi, hdx, hel a ra', hel b rb'] at h2
    refine ⟨t, ret h1 h2 ((C83_rawSubLL _ s1 ra).mono (fR ?_) (fW ?_))⟩
    · simp [RawInstr.uses, RawOp.arity, hsi, hdx, hdi, hie]
    · simp [hdi]
  case neg =>
    have ra' : i.reads a := .inl ⟨Nat.le_of_ble_eq_true rfl, rfl⟩
    have ha := hi a (.inr ra')
    obtain ⟨t, h1, h2, -⟩ := C54_neg ra hR (hali a ha)
    rw [hsi, hel a ra'] at h2
    refine ⟨t, ret h1 h2 ((C83_rawNegL _ s1 ra).mono (fR ?_) (fW ?_))⟩
    · simp [RawInstr.uses, RawOp.arity, hsi, hie]
    · simp [hdi]
  case copy =>
    have ra' : i.reads a := .inl ⟨Nat.le_of_ble_eq_true rfl, rfl⟩
    have ha := hi a (.inr ra')
    obtain ⟨t, h1, h2⟩ := (C54_copy (s := s1) (n := n64 q) ra (by have := hl.fits; omega)).1 (hali a ha)
    rw [hsi, hel a ra'] at h2
    refine ⟨t, ret h1 h2 ((C83_rawCopy _ s1 ra).mono (fR ?_) (fW ?_))⟩
    · simp [RawInstr.uses, RawOp.arity, hsi, hie]
    · simp [hdi]
  case zero =>
    obtain ⟨t, h1, h2⟩ := C54_zero (s := s1) (n := n64 q) ra (by have := hl.fits; omega)
    refine ⟨t, ret h1 (zero_limbs (q := q) ▸ h2) ((C83_rawZero _ s1 ra).mono (fR ?_) (fW ?_))⟩
    · simp
    · simp [hdi]
  case mul =>
    have ra' : i.reads a := .inl ⟨Nat.le_of_ble_eq_true rfl, rfl⟩
    have rb' : i.reads b := .inr ⟨rfl, rfl⟩
    have ha := hi a (.inr ra'); have hb := hi b (.inr rb')
    obtain ⟨p, t, h0, h1, h2⟩ := C55_mul noCalls ra ho.out hM (hoff a ha) (hoff b hb) (by rw [hdx, hel b rb']; exact (σ b).lt)
    rw [hsi, hdx, hel a ra', hel b rb'] at h2
    have hc : RawOp.code q .mul = p := by simp only [RawOp.code, h0, Option.getD_some]
    refine ⟨t, mont (by rw [hc]; exact h1) h2 ?_⟩
    rw [hc]
    refine (C83_mul _ s1 ra _ (n64_pos q) h0).mono (fR ?_) (fW ?_)
    · simp [RawInstr.uses, RawOp.arity, hsi, hdx, hie, rawFrame]
    · simp [hdi, rawFrame]
  case square =>
    have ra' : i.reads a := .inl ⟨Nat.le_of_ble_eq_true rfl, rfl⟩
    have ha := hi a (.inr ra')
    obtain ⟨p, t, h0, h1, h2⟩ := C55_square noCalls ra ho.out hM (hoff a ha) (by rw [hsi, hel a ra']; exact (σ a).lt)
    rw [hsi, hel a ra'] at h2
    have hc : RawOp.code q .square = p := by simp only [RawOp.code, h0, Option.getD_some]
    refine ⟨t, mont (by rw [hc]; exact h1) h2 ?_⟩
    rw [hc]
    refine (C83_square _ s1 ra _ (n64_pos q) h0).mono (fR ?_) (fW ?_)
    · simp [RawInstr.uses, RawOp.arity, hsi, hie, rawFrame]
    · simp [hdi, rawFrame]

/-! ## One program -/

omit [Fact q.Prime] ho in
theorem Called.layout {i : RawInstr} {s t : State} {out : Limbs} (h : Called q ra loc i s t out) (hl : RawLayout q k loc s) (hi : i.r < k) : RawLayout q k loc t :=
  hl.keep h.sym h.rsp fun a ha => h.frame a (fun h => hl.elemTables _ hi a h ha) (hl.tablesStack a ha)

omit [Fact q.Prime] ho in
theorem Called.kept {i : RawInstr} {s t : State} {out : Limbs} (h : Called q ra loc i s t out) (hl : RawLayout q k loc s) (hi : i.r < k) :
    ∀ p < k, p ≠ i.r → rd t.mem (loc p) (n64 q) = rd s.mem (loc p) (n64 q) := fun p hp c =>
  X86.rd_congr fun j hj => h.frame _ (fun ⟨z, hz, e⟩ => hl.apart p hp i.r hi c j z hj hz e) (hl.elemStack p hp _ ⟨j, hj, rfl⟩)

omit ho in
/-- What is not set keeps its value in the specification. -/
theorem rawSpec_kept {K : Type} [Zero K] [Add K] [Sub K] [Neg K] [Mul K] (prog : List RawInstr) (σ : Nat → K) {p : Nat} (h : ¬ RawSets prog p) : rawSpec prog σ p = σ p := by
  induction prog generalizing σ with
  | nil => rfl
  | cons i is ih =>
    rw [rawSpec, ih _ fun ⟨j, hj, e⟩ => h ⟨j, by simp [hj], e⟩, if_neg fun e => h ⟨i, by simp, e.symm⟩]

omit [Fact q.Prime] ho in
theorem RawNeeds.lt {prog : List RawInstr} (h : ∀ x ∈ prog, ∀ p, x.uses p → p < k) {p : Nat} (hp : RawNeeds prog p) : p < k := by
  induction prog with
  | nil => exact hp.elim
  | cons i is ih =>
    rcases hp with hp | hp
    · exact h i (by simp) p (.inr hp)
    · exact ih (fun x hx => h x (by simp [hx])) hp.2

/-- A program alone: it returns, the elements are those of the specification, it accesses its elements, the tables and its stack. -/
theorem rawCaller_run (prog : List RawInstr) (hi : ∀ i ∈ prog, ∀ p, i.uses p → p < k) (s : State) (hl : RawLayout q k loc s) (σ : Nat → El q)
    (hσ : ∀ p, RawNeeds prog p → rd s.mem (loc p) (n64 q) = (σ p).v) : ∃ t, X86.run (rawEnv q ra) ra (rawCaller loc prog) s = some t ∧
      ((∀ p, RawSets prog p → rd t.mem (loc p) (n64 q) = (rawSpec prog σ p).v) ∧
        ∀ p < k, ¬ RawSets prog p → rd t.mem (loc p) (n64 q) = rd s.mem (loc p) (n64 q)) ∧
      Only (RawReads q loc prog (s.reg .rsp) s.sym) (RawWrites q loc prog (s.reg .rsp)) (touched (rawEnv q ra) (rawAcc q ra) ra (rawCaller loc prog) s) := by
  induction prog generalizing s σ with
  | nil =>
    refine ⟨{ s with reg := upd s.reg .rsp (s.reg .rsp + 8) }, by rw [rawCaller, X86.run], ⟨fun p ⟨_, h, _⟩ => absurd h (by simp), fun _ _ _ => rfl⟩, ?_⟩
    rw [rawCaller, X86.touched_ret]
    intro x hx
    rw [List.mem_singleton] at hx
    subst hx
    exact .inr (.inr (.inr rfl))
  | cons i is ih =>
    have hi1 := hi i (by simp)
    have hr : i.r < k := hi1 _ (.inl rfl)
    obtain ⟨t1, h1⟩ := raw_call (ra := ra) i hl hi1 fun p hp => hσ p (.inl hp)
    have hk1 := h1.kept hl hr
    have his : ∀ j ∈ is, ∀ p, j.uses p → p < k := fun j hj => hi j (by simp [hj])
    obtain ⟨t, e1, ⟨e2, e2'⟩, e3⟩ := ih his t1 (h1.layout hl hr) (fun p => if p = i.r then i.op.den (σ i.a) (σ i.b) else σ p) fun p hp => by
      by_cases c : p = i.r
      · subst c; simpa using h1.out
      · simp only [c, if_false]
        rw [← hσ p (.inr ⟨c, hp⟩)]
        exact hk1 p (RawNeeds.lt his hp) c
    have hE : rawEnv q ra i.op.entry = some (X86.run noCalls ra (i.op.code q)) := by rw [rawEnv, rawNamed_entry]; rfl
    have hT : ∀ s, rawAcc q ra i.op.entry s = touched noCalls noAcc ra (i.op.code q) s := fun s => by unfold rawAcc; rw [rawNamed_entry]
    refine ⟨t, ?_, ⟨fun p hp => ?_, fun p hp c => ?_⟩, ?_⟩
    rotate_left
    · by_cases c : RawSets is p
      · exact e2 p c
      · obtain ⟨j, hj, rfl⟩ := hp
        rcases List.mem_cons.1 hj with rfl | hj
        · rw [e2' _ hr c, h1.out, rawSpec, rawSpec_kept _ _ c, if_pos rfl]
        · exact absurd ⟨j, hj, rfl⟩ c
    · rw [e2' p hp fun ⟨j, hj, e⟩ => c ⟨j, by simp [hj], e⟩]
      exact hk1 p hp fun e => c ⟨i, by simp, e.symm⟩
    rotate_left
    · rw [rawCaller, X86.run_plain rfl, X86.run_plain rfl, X86.run_plain rfl]
      exact (X86.run_call hE h1.run _).trans e1
    · have hcode : touched (rawEnv q ra) (rawAcc q ra) ra (rawCaller loc (i :: is)) s = .write (s.reg .rsp - 8) ::
          (touched noCalls noAcc ra (i.op.code q) (rawEntry loc ra i s) ++ touched (rawEnv q ra) (rawAcc q ra) ra (rawCaller loc is) t1) := by
        rw [rawCaller, X86.touched_plain rfl, X86.touched_plain rfl, X86.touched_plain rfl]
        have := touched_call (ra := ra) (rawEnv q ra) (rawAcc q ra)
          (s := { s with reg := upd (upd (upd s.reg .rdi (loc i.r)) .rsi (loc i.a)) .rdx (loc i.b) }) hE (t := t1) h1.run (rawCaller loc is)
        rw [hT] at this
        exact this
      rw [h1.rsp, h1.sym] at e3
      rw [hcode]
      have up : ∀ (prog : List RawInstr), (∀ j ∈ prog, j ∈ i :: is) → ∀ x : Access, x.ok (RawReads q loc prog (s.reg .rsp) s.sym) (RawWrites q loc prog (s.reg .rsp)) →
          x.ok (RawReads q loc (i :: is) (s.reg .rsp) s.sym) (RawWrites q loc (i :: is) (s.reg .rsp)) := by
        intro prog hp x hx
        cases x with
        | read a => exact Or.imp_left (fun ⟨p, ⟨j, hj, h⟩, h'⟩ => ⟨p, ⟨j, hp j hj, h⟩, h'⟩) hx
        | write a => exact Or.imp_left (fun ⟨p, ⟨j, hj, h⟩, h'⟩ => ⟨p, ⟨j, hp j hj, h⟩, h'⟩) hx
      intro x hx
      rw [List.mem_cons, List.mem_append] at hx
      rcases hx with rfl | hx | hx
      · exact .inr ⟨0, Nat.succ_pos _, rfl⟩
      · exact up [i] (by simp) x (h1.only x hx)
      · exact up is (fun j hj => by simp [hj]) x (e3 x hx)

end

section
variable {q : Nat} {ra : BitVec 64} {loc : Nat → BitVec 64}

theorem RawOp.wf (o : RawOp) : ∀ i ∈ o.code q, i.wf := by
  have ht : ∀ {u : Nat → List (X86.Ins X86.Arg)}, (∀ i, ∀ x ∈ u i, x.dstVar) → ∀ i ∈ (X86.template (n64 q) (canOpt q) u).getD [], i.wf := by
    intro u hu i hi
    cases h : X86.template (n64 q) (canOpt q) u with
    | none => rw [h] at hi; cases hi
    | some p => rw [h] at hi; exact X86.template_wf h hu i hi
  cases o
  case add => exact X86.wf_rawAddLL _
  case sub => exact X86.wf_rawSubLL _
  case neg => exact X86.wf_rawNegL _
  case copy => exact X86.wf_rawCopy _
  case zero => exact X86.wf_rawZero _
  case mul => exact ht (X86.upperMul_dst _ _)
  case square => exact ht (X86.upperSquare_dst _ _)

theorem linkRaw_wf : ∀ f b, linkRaw q f = some b → ∀ i ∈ b, i.wf := by
  intro f b h
  unfold linkRaw at h
  cases ho : rawNamed f with
  | none => rw [ho] at h; cases h
  | some o => rw [ho] at h; cases h; exact o.wf

theorem rawCaller_wf (prog : List RawInstr) : ∀ i ∈ rawCaller loc prog, i.wf := by
  induction prog with
  | nil => intro i hi; simp only [rawCaller, List.mem_singleton] at hi; subst hi; trivial
  | cons i is ih =>
    simp only [rawCaller, List.forall_mem_cons]
    exact ⟨trivial, trivial, trivial, trivial, ih⟩

theorem linked_raw : Linked (linkRaw q) ra (rawEnv q ra) (rawAcc q ra) := by
  intro f g hg
  unfold rawEnv at hg
  cases ho : rawNamed f with
  | none => rw [ho] at hg; cases hg
  | some o =>
    rw [ho] at hg
    cases hg
    refine ⟨o.code q, by rw [linkRaw, ho]; rfl, fun s t ht k => ?_⟩
    have e : rawAcc q ra f s = touched noCalls noAcc ra (o.code q) s := by unfold rawAcc; rw [ho]
    rw [e]
    exact X86.run_alone X86.linked_noCalls _ ht k

end

/-! ## Threads -/

/-- What the threads need: a memory with the elements and the tables, a stack each, and no element that one thread sets and another one uses. -/
structure RawThreads {ι : Type} (q k : Nat) (loc : Nat → BitVec 64) (prog : ι → List RawInstr) (s : ι → State) (m0 : Conc.Mem) (y : X86.Sym → BitVec 64) : Prop where
  mem : ∀ i, (s i).mem = m0
  sym : ∀ i, (s i).sym = y
  layout : ∀ i, RawLayout q k loc (s i)
  range : ∀ i, ∀ x ∈ prog i, ∀ p, x.uses p → p < k
  /-- The return address of a thread is not in an element. -/
  ret : ∀ i, ∀ p < k, ¬ InArr (loc p) (n64 q) ((s i).reg .rsp)
  /-- The stacks are apart, with the return address. -/
  stackOff : ∀ i j, i ≠ j → ∀ a, InStk ((s i).reg .rsp) (rawFrame q + 1) a → ¬ InStk ((s j).reg .rsp) (rawFrame q + 1) a ∧ a ≠ (s j).reg .rsp
  elems : ∀ i j, i ≠ j → ∀ p, RawSets (prog i) p → ¬ RawNames (prog j) p

section
variable {ι : Type} {q k : Nat} {ra : BitVec 64} {loc : Nat → BitVec 64} {prog : ι → List RawInstr} {s : ι → State} {m0 : Conc.Mem} {y : X86.Sym → BitVec 64}

theorem RawNames.lt {prog : List RawInstr} (h : ∀ x ∈ prog, ∀ p, x.uses p → p < k) {p : Nat} (hp : RawNames prog p) : p < k := by
  obtain ⟨i, hi, h'⟩ := hp
  exact h i hi p h'

theorem RawSets.names {prog : List RawInstr} {p : Nat} (h : RawSets prog p) : RawNames prog p := by
  obtain ⟨i, hi, h⟩ := h
  exact ⟨i, hi, .inl h⟩

/-- What one thread writes, another one does not use. -/
theorem RawThreads.own (h : RawThreads q k loc prog s m0 y) {i j : ι} (hij : i ≠ j) {a : BitVec 64} (hw : RawWrites q loc (prog i) ((s i).reg .rsp) a) :
    ¬ RawReads q loc (prog j) ((s j).reg .rsp) (s j).sym a ∧ ¬ RawWrites q loc (prog j) ((s j).reg .rsp) a := by
  have sep : ∀ {p p'}, RawSets (prog i) p → RawNames (prog j) p' → InArr (loc p) (n64 q) a → ¬ InArr (loc p') (n64 q) a := by
    rintro p p' hp hp' ⟨x, hx, rfl⟩ ⟨z, hz, e⟩
    by_cases c : p = p'
    · subst c; exact h.elems i j hij p hp hp'
    · exact (h.layout i).apart p (hp.names.lt (h.range i)) p' (hp'.lt (h.range j)) c x z hx hz e
  rcases hw with ⟨p, hp, ha⟩ | hw
  · have hpk := hp.names.lt (h.range i)
    refine ⟨?_, ?_⟩
    · rintro (⟨p', hp', ha'⟩ | hd | hs | e)
      · exact sep hp hp' ha ha'
      · exact (h.layout j).elemTables p hpk a ha hd
      · exact (h.layout j).elemStack p hpk a ha hs
      · exact h.ret j p hpk (e ▸ ha)
    · rintro (⟨p', hp', ha'⟩ | hs)
      · exact sep hp hp'.names ha ha'
      · exact (h.layout j).elemStack p hpk a ha hs
  · refine ⟨?_, ?_⟩
    · rintro (⟨p', hp', ha'⟩ | hd | hs | e)
      · exact (h.layout i).elemStack p' (hp'.lt (h.range j)) a ha' hw
      · exact (h.layout i).tablesStack a (by rw [h.sym i, ← h.sym j]; exact hd) hw
      · exact (h.stackOff i j hij a hw).1 hs
      · exact (h.stackOff i j hij a hw).2 e
    · rintro (⟨p', hp', ha'⟩ | hs)
      · exact (h.layout i).elemStack p' (hp'.names.lt (h.range j)) a ha' hw
      · exact (h.stackOff i j hij a hw).1 hs

/-- What the thread accesses alone. -/
abbrev rawThreadAcc (q : Nat) (ra : BitVec 64) (loc : Nat → BitVec 64) (prog : ι → List RawInstr) (s : ι → State) (i : ι) : List Access :=
  touched (rawEnv q ra) (rawAcc q ra) ra (rawCaller loc (prog i)) (s i)

variable [Fact q.Prime] [Fact (q % 2 = 1)]

/-- Each thread alone. -/
structure RawAlone (q k : Nat) [Fact q.Prime] [Fact (q % 2 = 1)] (ra : BitVec 64) (loc : Nat → BitVec 64) (prog : ι → List RawInstr) (s : ι → State) (m0 : Conc.Mem)
    (σ : Nat → El q) (n : ι → Nat) (t : ι → State) : Prop where
  ok : ∀ i, (X86.lineMachine (linkRaw q) ra).ok (X86.core [rawCaller loc (prog i)] (s i))
  run : ∀ i, X86.run (rawEnv q ra) ra (rawCaller loc (prog i)) (s i) = some (t i)
  alone : ∀ i, Alone (X86.lineMachine (linkRaw q) ra) (X86.core [rawCaller loc (prog i)] (s i)) m0 (n i) (rawThreadAcc q ra loc prog s i) (X86.core [] (t i)) (t i).mem
  only : ∀ i, Only (RawReads q loc (prog i) ((s i).reg .rsp) (s i).sym) (RawWrites q loc (prog i) ((s i).reg .rsp)) (rawThreadAcc q ra loc prog s i)
  apart : ∀ i j, i ≠ j → Apart (rawThreadAcc q ra loc prog s i) (rawThreadAcc q ra loc prog s j)
  rep : ∀ i, ∀ p, RawSets (prog i) p → rd (t i).mem (loc p) (n64 q) = (rawSpec (prog i) σ p).v

theorem RawThreads.alone (h : RawThreads q k loc prog s m0 y) {σ : Nat → El q} (hσ : ∀ i p, RawNeeds (prog i) p → rd m0 (loc p) (n64 q) = (σ p).v) :
    ∃ n t, RawAlone q k ra loc prog s m0 σ n t := by
  have hv := fun i => rawCaller_run (ra := ra) (prog i) (h.range i) (s i) (h.layout i) σ (by rw [h.mem i]; exact hσ i)
  choose t h1 h2 hw using hv
  have hA := fun i => X86.run_alone (linked_raw (q := q) (ra := ra)) _ (h1 i) []
  choose n hn using hA
  refine ⟨n, t, fun i => ⟨fun p hp => ?_, fun f b hb => linkRaw_wf f b hb⟩, h1, fun i => ?_, hw, ?_, fun i => (h2 i).1⟩
  · have e : p = rawCaller loc (prog i) := by simpa [X86.core] using hp
    rw [e]
    exact rawCaller_wf _
  · have := hn i
    rw [h.mem i] at this
    exact this
  · have half : ∀ i j, i ≠ j → ∀ a, Access.write a ∈ rawThreadAcc q ra loc prog s i → ¬ Touches (rawThreadAcc q ra loc prog s j) a := fun i j hij a ha ht =>
      ht.elim (fun ht => (h.own hij (hw i _ ha)).1 (hw j _ ht)) (fun ht => (h.own hij (hw i _ ha)).2 (hw j _ ht))
    exact fun i j hij a => ⟨half i j hij a, half j i hij.symm a⟩

/-- An element that a program sets is not written by the others. -/
theorem RawThreads.quiet (h : RawThreads q k loc prog s m0 y) {σ : Nat → El q} {n : ι → Nat} {t : ι → State} (hA : RawAlone q k ra loc prog s m0 σ n t) {i : ι} {p : Nat}
    (hp : RawSets (prog i) p) {a : BitVec 64} (ha : InArr (loc p) (n64 q) a) (j : ι) (hj : j ≠ i) : Access.write a ∉ rawThreadAcc q ra loc prog s j := fun hw =>
  (h.own hj (hA.only j _ hw)).1 (.inl ⟨p, hp.names, ha⟩)

/-- An element that no program sets is not written. -/
theorem RawThreads.kept (h : RawThreads q k loc prog s m0 y) {σ : Nat → El q} {n : ι → Nat} {t : ι → State} (hA : RawAlone q k ra loc prog s m0 σ n t) {p : Nat}
    (hp : p < k) (hs : ∀ i, ¬ RawSets (prog i) p) {a : BitVec 64} (ha : InArr (loc p) (n64 q) a) (i : ι) : Access.write a ∉ rawThreadAcc q ra loc prog s i := by
  intro hw
  rcases hA.only i _ hw with ⟨p', hp', ha'⟩ | hst
  · obtain ⟨x, hx, rfl⟩ := ha
    obtain ⟨z, hz, e⟩ := ha'
    by_cases c : p = p'
    · subst c; exact hs i hp'
    · exact (h.layout i).apart p hp p' (hp'.names.lt (h.range i)) c x z hx hz e
  · exact (h.layout i).elemStack p hp a ha hst

/-- The tables are not written. -/
theorem RawThreads.tables (h : RawThreads q k loc prog s m0 y) {σ : Nat → El q} {n : ι → Nat} {t : ι → State} (hA : RawAlone q k ra loc prog s m0 σ n t)
    {a : BitVec 64} (ha : InRawData q y a) (i : ι) : Access.write a ∉ rawThreadAcc q ra loc prog s i := by
  intro hw
  rw [← h.sym i] at ha
  rcases hA.only i _ hw with ⟨p', hp', ha'⟩ | hst
  · exact (h.layout i).elemTables p' (hp'.names.lt (h.range i)) a ha' ha
  · exact (h.layout i).tablesStack a ha hst

variable [DecidableEq ι] [Fintype ι]

/-- C91: every schedule of the instructions of any number of such threads comes to an end after the same number of instructions, without a data race, and leaves in
every element the limbs that the program which sets it computes; an element that no program sets, and the tables, keep their contents all the time. -/
theorem C91_programs (h : RawThreads q k loc prog s m0 y) {σ : Nat → El q} (hσ : ∀ i p, RawNeeds (prog i) p → rd m0 (loc p) (n64 q) = (σ p).v) :
    ∃ (L : Nat) (t : ι → State), (∀ i, X86.run (rawEnv q ra) ra (rawCaller loc (prog i)) (s i) = some (t i)) ∧
      ∀ N cs m, Together (X86.lineMachine (linkRaw q) ra) (fun i => X86.core [rawCaller loc (prog i)] (s i)) m0 N cs m →
        AsAlone (X86.lineMachine (linkRaw q) ra) (rawThreadAcc q ra loc prog s) (fun i => X86.core [] (t i)) (fun i => (t i).mem) m0 L N cs m ∧
        (∀ i, cs i = X86.core [] (t i) → ∀ p, RawSets (prog i) p → rd m (loc p) (n64 q) = (rawSpec (prog i) σ p).v) ∧
        (∀ p < k, (∀ i, ¬ RawSets (prog i) p) → rd m (loc p) (n64 q) = rd m0 (loc p) (n64 q)) ∧ ∀ a, InRawData q y a → m a = m0 a := by
  obtain ⟨n, t, hA⟩ := h.alone (ra := ra) hσ
  refine ⟨∑ i, n i, t, hA.run, fun N cs m hT => ?_⟩
  have hL := together_alone (k0 := n) hA.ok hA.alone (fun i m => ⟨rfl, rfl⟩) hA.apart hT
  refine ⟨hL, fun i hi p hp => ?_, fun p hp hs => ?_, fun a ha => hL.rest a (h.tables hA ha)⟩
  · rw [X86.rd_congr fun x hx => hL.result i hi _ (h.quiet hA hp ⟨x, hx, rfl⟩)]
    exact hA.rep i p hp
  · exact X86.rd_congr fun x hx => hL.rest _ (h.kept hA hp hs ⟨x, hx, rfl⟩)

/-- C91 with store buffers (C90): a thread sees its own results from the moment it has returned, the others when its buffer is empty. -/
theorem C91_buffered (h : RawThreads q k loc prog s m0 y) {σ : Nat → El q} (hσ : ∀ i p, RawNeeds (prog i) p → rd m0 (loc p) (n64 q) = (σ p).v) :
    ∃ (L : Nat) (t : ι → State), (∀ i, X86.run (rawEnv q ra) ra (rawCaller loc (prog i)) (s i) = some (t i)) ∧
      ∀ N cs b m, Buffered (X86.lineMachine (linkRaw q) ra) (fun i => X86.core [rawCaller loc (prog i)] (s i)) m0 N cs b m →
        AsAloneBuf (X86.lineMachine (linkRaw q) ra) (rawThreadAcc q ra loc prog s) (fun i => X86.core [] (t i)) (fun i => (t i).mem) m0 L N cs b m ∧
        (∀ i, cs i = X86.core [] (t i) → ∀ p, RawSets (prog i) p → rd (seen m (b i)) (loc p) (n64 q) = (rawSpec (prog i) σ p).v ∧
          (b i = [] → rd m (loc p) (n64 q) = (rawSpec (prog i) σ p).v)) ∧
        (∀ p < k, (∀ i, ¬ RawSets (prog i) p) → rd m (loc p) (n64 q) = rd m0 (loc p) (n64 q)) ∧ ∀ a, InRawData q y a → m a = m0 a := by
  obtain ⟨n, t, hA⟩ := h.alone (ra := ra) hσ
  refine ⟨∑ i, n i, t, hA.run, fun N cs b m hT => ?_⟩
  have hL := buffered_alone (k0 := n) hA.ok hA.alone (fun i m => ⟨rfl, rfl⟩) hA.apart hT
  refine ⟨hL, fun i hi p hp => ?_, fun p hp hs => ?_, fun a ha => hL.rest a (h.tables hA ha)⟩
  · have hs : rd (seen m (b i)) (loc p) (n64 q) = (rawSpec (prog i) σ p).v := by
      rw [X86.rd_congr fun x hx => hL.sees i hi _ (h.quiet hA hp ⟨x, hx, rfl⟩)]
      exact hA.rep i p hp
    refine ⟨hs, fun hb => ?_⟩
    rw [hb] at hs
    exact hs
  · exact X86.rd_congr fun x hx => hL.rest _ (h.kept hA hp hs ⟨x, hx, rfl⟩)

end

/-! ## The hypotheses are met -/

section
variable {ι : Type} {q k : Nat} {loc : Nat → BitVec 64}

theorem limb_cell (p : BitVec 64) (i : Nat) : cell (p + 8) i = cell p (i + 1) := by
  simp only [cell, BitVec.add_assoc]
  congr 1
  rw [Nat.mul_add, Nat.add_comm, BitVec.ofNat_add]
  rfl

theorem limb_arr {p : BitVec 64} {n : Nat} {a : BitVec 64} (h : InArr (p + 8) n a) : InArr p (n + 1) a := by
  obtain ⟨i, hi, rfl⟩ := h
  exact ⟨i + 1, by omega, limb_cell p i⟩

/-- The limbs of tagged elements (behind their tag words) are raw elements. -/
theorem RawThreads.ofTagged {s : ι → State} {m0 : Conc.Mem} {y : X86.Sym → BitVec 64} {prog : ι → List Instr} (h : Threads q k loc prog s m0 y)
    {prog' : ι → List RawInstr} (hr : ∀ i, ∀ x ∈ prog' i, ∀ p, x.uses p → p < k) (he : ∀ i j, i ≠ j → ∀ p, RawSets (prog' i) p → ¬ RawNames (prog' j) p) :
    RawThreads q k (fun p => loc p + 8) prog' s m0 y := by
  have hF : rawFrame q ≤ tagStack q := by
    have : rawFrame q ≤ n64 q + 5 := frame_small (n64_pos q) (canOpt q)
    unfold tagStack; omega
  have hS : ∀ {S a}, InStk S (rawFrame q + 1) a → InStk S (tagStack q + 1) a := fun ⟨j, hj, e⟩ => ⟨j, by omega, e⟩
  have hD : ∀ {y a}, InRawData q y a → X86.InData q y a := fun h => h.elim (fun h => .inl h) fun h => .inr (.inr (.inr (.inr (.inr h))))
  refine ⟨h.mem, h.sym, fun i => ?_, hr, fun i p hp ha => h.ret i p hp (limb_arr ha), fun i j hij a ha => ?_, he⟩
  · have hl := h.layout i
    refine ⟨by have := hl.fits; omega, fun p hp p' hp' c x z hx hz e => ?_, fun p hp a ha hd => hl.elemTables p hp a (limb_arr ha) (hD hd),
      fun p hp a ha hs => hl.elemStack p hp a (limb_arr ha) (hS hs), fun a ha hs => hl.tablesStack a (hD ha) (hS hs), hl.mod, hl.np⟩
    rw [limb_cell, limb_cell] at e
    exact hl.apart p hp p' hp' c _ _ (by omega) (by omega) e
  · have := h.stackOff i j hij a (hS ha)
    exact ⟨fun hb => this.1 (hS hb), this.2⟩

end

/-- `e0 := e2 * e2; e0 := e0 - e2` on one thread, `e1 := e2 + e2; e1 := -e1; e1 := e1²` on another one. -/
def demoRaw (i : Fin 2) : List RawInstr := if i = 0 then [⟨.mul, 0, 2, 2⟩, ⟨.sub, 0, 0, 2⟩] else [⟨.add, 1, 2, 2⟩, ⟨.neg, 1, 1, 1⟩, ⟨.square, 1, 1, 1⟩]

/-- The limbs behind the tags of the machine of C89. -/
def demoLoc (p : Nat) : BitVec 64 := machLoc p + 8

theorem demo_raw : RawThreads bnR 3 demoLoc demoRaw demoStart (demoStart 0).mem (demoStart 0).sym := by
  refine RawThreads.ofTagged demo_threads ?_ ?_
  · intro i x hx p hp
    fin_cases i <;> simp [demoRaw] at hx <;> rcases hx with rfl | rfl | rfl <;> simp [RawInstr.uses, RawOp.arity] at hp <;> omega
  · intro i j hij p hp hq
    revert hij hp hq
    fin_cases i <;> fin_cases j <;> simp [demoRaw, RawSets, RawNames, RawInstr.uses, RawOp.arity] <;> omega

local instance : Fact (bnR % 2 = 1) := ⟨by decide +kernel⟩

/-- What the elements hold at the start. -/
def demoEl (p : Nat) : El bnR :=
  match p with
  | 0 => 0
  | 1 => ⟨toLimbs 4 (bnR - 3), by decide +kernel, by decide +kernel⟩
  | _ => .ofZ 77

theorem demo_el : ∀ p < 3, rd (demoStart 0).mem (demoLoc p) (n64 bnR) = (demoEl p).v := by
  intro p hp
  interval_cases p <;> decide +kernel

/-- Whatever the schedule, `e0` is the array of `77² - 77` at the end and `e1` that of `154²`; the same with store buffers. -/
example : ∃ L, (∀ N cs m, Together (X86.lineMachine (linkRaw bnR) 99) (fun i => X86.core [rawCaller demoLoc (demoRaw i)] (demoStart i)) (demoStart 0).mem N cs m →
    N ≤ L ∧ (N = L → rd m (demoLoc 0) (n64 bnR) = (El.ofZ (q := bnR) (77 ^ 2 - 77)).v ∧ rd m (demoLoc 1) (n64 bnR) = (El.ofZ (q := bnR) (154 ^ 2)).v)) := by
  obtain ⟨L, t, _, h⟩ := C91_programs (ra := 99) demo_raw (σ := demoEl) fun i p hp => demo_el p (hp.lt (demo_raw.range i))
  refine ⟨L, fun N cs m hT => ?_⟩
  obtain ⟨h1, h2, -⟩ := h N cs m hT
  refine ⟨h1.steps, fun e => ?_⟩
  have h3 := h2 0 (h1.done.mp e 0) 0 ⟨⟨.mul, 0, 2, 2⟩, by simp [demoRaw], rfl⟩
  have h4 := h2 1 (h1.done.mp e 1) 1 ⟨⟨.add, 1, 2, 2⟩, by simp [demoRaw], rfl⟩
  have k1 : rawSpec (demoRaw 0) demoEl 0 = demoEl 2 * demoEl 2 - demoEl 2 := by simp [rawSpec, demoRaw, RawOp.den]
  have k2 : rawSpec (demoRaw 1) demoEl 1 = -(demoEl 2 + demoEl 2) * -(demoEl 2 + demoEl 2) := by simp [rawSpec, demoRaw, RawOp.den]
  have hom : ∀ x : El bnR, (x * x - x).toZ = x.toZ * x.toZ - x.toZ ∧ (-(x + x) * -(x + x)).toZ = -(x.toZ + x.toZ) * -(x.toZ + x.toZ) := fun x =>
    ⟨by have := map_sub (El.hom bnR) (x * x) x; rwa [map_mul] at this, by
      have := map_mul (El.hom bnR) (-(x + x)) (-(x + x)); rwa [map_neg, map_add] at this⟩
  have hz : (demoEl 2).toZ = 77 := El.toZ_ofZ _
  rw [h3, h4, k1, k2]
  refine ⟨congrArg El.v (El.toZ_inj ?_), congrArg El.v (El.toZ_inj ?_)⟩
  · rw [(hom _).1, hz, El.toZ_ofZ]; ring
  · rw [(hom _).2, hz, El.toZ_ofZ]; ring

end FF.Props
