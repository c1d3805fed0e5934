import Verif.Arm

/-!
# Symbolic execution of straight AArch64 code

The generators of `src/armbuilder.js` allocate physical registers, reuse them and pair loads.  `chk` relates a straight piece of
generated code to a list of operations over *virtual* registers that are never reused: it keeps, for every physical register, the
value it holds (`Val`), and compares the generated instructions one by one with the operations.  `chk_sound` says that a successful
comparison is a simulation, for all contents of registers and memory.
-/

namespace FF.Arm

open FF.X86 (upd cell rd upd_same upd_ne)

/-- Base addresses: the value a register had at the start, or a table. -/
inductive Base
  | arg (r : Nat)
  | tab (y : Sym)
  deriving DecidableEq

/-- Values: a virtual register, a cell of an array in the initial memory, a base address, zero, a constant. -/
inductive Val
  | v (t i : Nat)
  | mem (b : Base) (i : Nat)
  | base (b : Base)
  | zr
  | imm (w : Nat)
  deriving DecidableEq

def Base.addr (s : State) : Base → BitVec 64
  | .arg r => s.reg r
  | .tab y => s.sym y

/-- Contents of the virtual registers. -/
abbrev Env := Nat × Nat → BitVec 64

def Val.eval (s : State) (ρ : Env) : Val → BitVec 64
  | .v t i => ρ (t, i)
  | .mem b i => s.mem (cell (b.addr s) i)
  | .base b => b.addr s
  | .zr => 0
  | .imm w => BitVec.ofNat 64 w

/-- An operation over virtual registers; `d = none` for `cmp`. -/
structure VIns where
  o : Alu
  d : Option (Nat × Nat)
  x : Val
  y : Val

/-- Virtual registers and flags. -/
structure U where
  ρ : Env
  fl : Flags

def VIns.exec (s : State) (i : VIns) (u : U) : U :=
  let r := i.o.eval (i.x.eval s u.ρ) (i.y.eval s u.ρ) u.fl
  ⟨match i.d with
    | none => u.ρ
    | some d => upd u.ρ d r.1, r.2⟩

def vexes (s : State) (l : List VIns) (u : U) : U := l.foldl (fun u i => i.exec s u) u

theorem vexes_append (s : State) (l₁ l₂ : List VIns) (u : U) : vexes s (l₁ ++ l₂) u = vexes s l₂ (vexes s l₁ u) := by
  simp [vexes, List.foldl_append]

/-- What the physical registers hold. -/
abbrev Regs := List Val

/-- The cells of the result array written so far and the values in them. -/
abbrev Stores := List (Nat × Val)

/-- At the start every register holds its own value. -/
def regs0 : Regs := (List.range 31).map fun r => .base (.arg r)

/-- Comparison of values (the same as `=`, in a form that is quick to compute). -/
def Base.same : Base → Base → Bool
  | .arg r, .arg r' => Nat.beq r r'
  | .tab .q, .tab .q => true
  | .tab .np, .tab .np => true
  | .tab .lboMask, .tab .lboMask => true
  | _, _ => false

def Val.same : Val → Val → Bool
  | .v t i, .v t' i' => Nat.beq i i' && Nat.beq t t'
  | .mem b i, .mem b' i' => Nat.beq i i' && b.same b'
  | .base b, .base b' => b.same b'
  | .zr, .zr => true
  | .imm w, .imm w' => Nat.beq w w'
  | _, _ => false

theorem Base.same_spec {b b' : Base} (h : b.same b' = true) : b = b' := by
  rcases b with r | y <;> rcases b' with r' | y'
  · simp only [Base.same] at h; rw [Nat.eq_of_beq_eq_true h]
  · simp [Base.same] at h
  · simp [Base.same] at h
  · cases y <;> cases y' <;> first | rfl | simp [Base.same] at h

theorem Val.same_spec {v v' : Val} (h : v.same v' = true) : v = v' := by
  cases v <;> cases v' <;> simp only [Val.same, Bool.and_eq_true, Bool.false_eq_true] at h
  · rw [Nat.eq_of_beq_eq_true h.1, Nat.eq_of_beq_eq_true h.2]
  · rw [Nat.eq_of_beq_eq_true h.1, Base.same_spec h.2]
  · rw [Base.same_spec h]
  · rfl
  · rw [Nat.eq_of_beq_eq_true h]

def opdVal (M : Regs) : Opd → Val
  | .reg r => M.getD r .zr
  | .zr => .zr
  | .imm w => .imm w

/-- Operands that are registers `x0 … x30`. -/
def opdOk : Opd → Bool
  | .reg r => Nat.blt r 31
  | _ => true

/-- The value is the virtual register. -/
def Val.isV (t i : Nat) : Val → Bool
  | .v t' i' => Nat.beq i i' && Nat.beq t t'
  | _ => false

/-- No register and no stored cell holds the virtual register. -/
def fresh (d : Nat × Nat) (M : Regs) (st : Stores) : Bool :=
  M.all (fun v => !v.isV d.1 d.2) && st.all (fun e => !e.2.isV d.1 d.2)

/-- Cell `i` of the array `b` has not been written. -/
def loadOk (n : Nat) (bs : List Base) (st : Stores) (b : Base) (i : Nat) : Bool :=
  st.isEmpty || (decide (b ∈ bs) && decide (i < n) && st.all (fun e => decide (e.1 ≠ i)))

/-- Cell `i` of the result array may be written. -/
def storeOk (n : Nat) (st : Stores) (i : Nat) : Bool := decide (i < n) && st.all (fun e => decide (e.1 ≠ i))

def loadBase (M : Regs) (b : Nat) : Option Base :=
  match M.getD b .zr with
  | .base B => some B
  | _ => none

/-- One instruction. -/
def step (n : Nat) (bs : List Base) (vs : List VIns) (M : Regs) (st : Stores) : Ins → Option (List VIns × Regs × Stores)
  | .alu o d x y =>
      match vs with
      | ⟨o', some t, x', y'⟩ :: vs =>
          if decide (o = o') && (opdVal M x).same x' && (opdVal M y).same y' && opdOk x && opdOk y && Nat.blt d 31 && fresh t M st then
            some (vs, M.set d (.v t.1 t.2), st)
          else none
      | _ => none
  | .cmp x y =>
      match vs with
      | ⟨.subs, none, x', y'⟩ :: vs =>
          if (opdVal M x).same x' && (opdVal M y).same y' && opdOk x && opdOk y then some (vs, M, st) else none
      | _ => none
  | .adr d y => if Nat.blt d 31 then some (vs, M.set d (.base (.tab y)), st) else none
  | .ldr d b off =>
      match loadBase M b with
      | some B =>
          if Nat.blt d 31 && Nat.blt b 31 && Nat.beq (off % 8) 0 && loadOk n bs st B (off / 8) then
            some (vs, M.set d (.mem B (off / 8)), st)
          else none
      | none => none
  | .ldp d e b off =>
      match loadBase M b with
      | some B =>
          if Nat.blt d 31 && Nat.blt e 31 && Nat.blt b 31 && Nat.beq (off % 8) 0 && loadOk n bs st B (off / 8) &&
              loadOk n bs st B (off / 8 + 1) then
            some (vs, (M.set d (.mem B (off / 8))).set e (.mem B (off / 8 + 1)), st)
          else none
      | none => none
  | .str x b off =>
      if (M.getD b .zr).same (.base (.arg 0)) && Nat.blt b 31 && opdOk x && Nat.beq (off % 8) 0 && storeOk n st (off / 8) then
        some (vs, M, st ++ [(off / 8, opdVal M x)])
      else none
  | .stp x y b off =>
      if (M.getD b .zr).same (.base (.arg 0)) && Nat.blt b 31 && opdOk x && opdOk y && Nat.beq (off % 8) 0 && storeOk n st (off / 8) &&
          storeOk n st (off / 8 + 1) then
        some (vs, M, st ++ [(off / 8, opdVal M x), (off / 8 + 1, opdVal M y)])
      else none
  | _ => none

/-- A straight piece of code. -/
def chk (n : Nat) (bs : List Base) : List Ins → List VIns → Regs → Stores → Option (Regs × Stores)
  | [], [], M, st => some (M, st)
  | [], _ :: _, _, _ => none
  | i :: p, vs, M, st =>
      match step n bs vs M st i with
      | none => none
      | some (vs', M', st') => chk n bs p vs' M' st'

/-- Cells of the arrays `bs` are not cells of the result array at another index. -/
def NoClash (n : Nat) (bs : List Base) (s : State) : Prop :=
  ∀ b ∈ bs, ∀ i j, i < n → j < n → i ≠ j → cell (b.addr s) i ≠ cell (s.reg 0) j

/-- The machine state `t` is described by the virtual registers `u`. -/
structure Sim (n : Nat) (s : State) (M : Regs) (st : Stores) (t : State) (u : U) : Prop where
  len : M.length = 31
  reg : ∀ r, r < 31 → t.reg r = (M.getD r .zr).eval s u.ρ
  fl : t.fl = u.fl
  sp : t.sp = s.sp
  sym : t.sym = s.sym
  code : t.code = s.code
  bound : ∀ e ∈ st, e.1 < n
  frame : ∀ a, (∀ e ∈ st, a ≠ cell (s.reg 0) e.1) → t.mem a = s.mem a
  out : ∀ e ∈ st, t.mem (cell (s.reg 0) e.1) = e.2.eval s u.ρ

theorem Sim.start (n : Nat) (s : State) (ρ : Env) : Sim n s regs0 [] s ⟨ρ, s.fl⟩ where
  len := by simp [regs0]
  reg := by
    intro r hr
    simp [regs0, hr, Val.eval, Base.addr]
  fl := rfl
  sp := rfl
  sym := rfl
  code := rfl
  bound := by simp
  frame := fun _ _ => rfl
  out := by simp

theorem Sim.get {n : Nat} {s : State} {M : Regs} {st : Stores} {t : State} {u : U} (h : Sim n s M st t u) {x : Opd}
    (hx : opdOk x) : x.get t = (opdVal M x).eval s u.ρ := by
  cases x with
  | reg r => exact h.reg r (by simpa [opdOk, Nat.blt_eq] using hx)
  | zr => rfl
  | imm w => rfl

theorem eval_fresh {s : State} {ρ : Env} {d : Nat × Nat} {v : Val} (h : v ≠ .v d.1 d.2) (x : BitVec 64) :
    v.eval s (upd ρ d x) = v.eval s ρ := by
  cases v with
  | v t i =>
    show upd ρ d x (t, i) = ρ (t, i)
    refine upd_ne _ _ ?_
    rintro rfl
    exact h rfl
  | _ => rfl

theorem isV_self (t i : Nat) : (Val.v t i).isV t i = true := by simp [Val.isV]

theorem fresh_spec {d : Nat × Nat} {M : Regs} {st : Stores} (h : fresh d M st) :
    (∀ v ∈ M, v ≠ .v d.1 d.2) ∧ ∀ e ∈ st, e.2 ≠ .v d.1 d.2 := by
  simp only [fresh, Bool.and_eq_true, List.all_eq_true] at h
  refine ⟨fun v hv hh => ?_, fun e he hh => ?_⟩
  · have := h.1 v hv
    rw [hh, isV_self] at this
    exact absurd this (by simp)
  · have := h.2 e he
    rw [hh, isV_self] at this
    exact absurd this (by simp)

theorem getD_set (M : Regs) (d r : Nat) (v : Val) (hd : d < M.length) :
    (M.set d v).getD r .zr = if r = d then v else M.getD r .zr := by
  by_cases h : r = d
  · subst h
    simp [List.getD, hd]
  · rw [if_neg h]
    simp [List.getD, List.getElem?_set_ne (Ne.symm h)]

theorem getD_mem {M : Regs} {r : Nat} (hl : M.length = 31) (h : r < 31) : M.getD r .zr ∈ M := by
  have : r < M.length := by omega
  simp [List.getD, this]

/-- Setting a register. -/
theorem Sim.set {n : Nat} {s : State} {M : Regs} {st : Stores} {t : State} {u : U} (h : Sim n s M st t u) {d : Nat} {v : Val}
    {w : BitVec 64} (hd : d < 31) (hw : w = v.eval s u.ρ) :
    Sim n s (M.set d v) st { t with reg := upd t.reg d w } u where
  len := by rw [List.length_set, h.len]
  reg := by
    intro r hr
    rw [getD_set _ _ _ _ (by rw [h.len]; exact hd)]
    show upd t.reg d w r = _
    by_cases hrd : r = d
    · subst hrd; rw [if_pos rfl, upd_same, hw]
    · rw [if_neg hrd, upd_ne _ _ hrd]; exact h.reg r hr
  fl := h.fl
  sp := h.sp
  sym := h.sym
  code := h.code
  bound := h.bound
  frame := h.frame
  out := h.out

/-- Writing a fresh virtual register. -/
theorem Sim.virt {n : Nat} {s : State} {M : Regs} {st : Stores} {t : State} {u : U} (h : Sim n s M st t u) {d : Nat × Nat}
    (hf : fresh d M st) (w : BitVec 64) (f : Flags) : Sim n s M st { t with fl := f } ⟨upd u.ρ d w, f⟩ where
  len := h.len
  reg := by
    intro r hr
    rw [eval_fresh ((fresh_spec hf).1 _ (getD_mem h.len hr))]
    exact h.reg r hr
  fl := rfl
  sp := h.sp
  sym := h.sym
  code := h.code
  bound := h.bound
  frame := h.frame
  out := by
    intro e he
    rw [eval_fresh ((fresh_spec hf).2 _ he)]
    exact h.out e he

theorem load_spec {n : Nat} {bs : List Base} {s : State} {M : Regs} {st : Stores} {t : State} {u : U} (hc : NoClash n bs s)
    (h : Sim n s M st t u) {b : Nat} {B : Base} {i : Nat} (hb : loadBase M b = some B) (hbl : b < 31)
    (hl : loadOk n bs st B i) : t.mem (t.reg b + BitVec.ofNat 64 (8 * i)) = s.mem (cell (B.addr s) i) := by
  have hB : M.getD b .zr = .base B := by
    unfold loadBase at hb
    split at hb
    · cases hb; assumption
    · exact absurd hb (by simp)
  have hr : t.reg b = B.addr s := by rw [h.reg b hbl, hB]; rfl
  rw [hr]
  refine h.frame _ ?_
  intro e he
  simp only [loadOk, Bool.or_eq_true, Bool.and_eq_true, decide_eq_true_eq, List.all_eq_true] at hl
  rcases hl with hl | ⟨⟨h1, h2⟩, h3⟩
  · rw [List.isEmpty_iff.mp hl] at he; exact absurd he (by simp)
  · exact hc B h1 i e.1 h2 (h.bound e he) (fun h => h3 e he h.symm)

/-- Writing a cell of the result array. -/
theorem Sim.store {n : Nat} {s : State} {M : Regs} {st : Stores} {t : State} {u : U} (hn : 8 * n ≤ 2 ^ 64)
    (h : Sim n s M st t u) {i : Nat} {v : Val} {w : BitVec 64} (hs : storeOk n st i) (hw : w = v.eval s u.ρ) :
    Sim n s M (st ++ [(i, v)]) { t with mem := upd t.mem (cell (s.reg 0) i) w } u where
  len := h.len
  reg := h.reg
  fl := h.fl
  sp := h.sp
  sym := h.sym
  code := h.code
  bound := by
    intro e he
    simp only [storeOk, Bool.and_eq_true, decide_eq_true_eq] at hs
    rcases List.mem_append.mp he with he | he
    · exact h.bound e he
    · rw [List.mem_singleton.mp he]; exact hs.1
  frame := by
    intro a ha
    show upd t.mem _ w a = _
    rw [upd_ne _ _ (ha (i, v) (by simp))]
    exact h.frame a fun e he => ha e (List.mem_append_left _ he)
  out := by
    intro e he
    simp only [storeOk, Bool.and_eq_true, decide_eq_true_eq, List.all_eq_true] at hs
    show upd t.mem _ w _ = _
    rcases List.mem_append.mp he with he | he
    · rw [upd_ne]
      · exact h.out e he
      · intro hh
        have hb := h.bound e he
        exact hs.2 e he (FF.X86.cell_inj (by omega) (by omega) hh)
    · rw [List.mem_singleton.mp he, upd_same, hw]

theorem off_eq {off : Nat} (h : off % 8 = 0) : off = 8 * (off / 8) := by omega

theorem step_sound {n : Nat} {bs : List Base} {s : State} (hn : 8 * n ≤ 2 ^ 64) (hc : NoClash n bs s) {i : Ins} {vs vs' : List VIns}
    {M M' : Regs} {st st' : Stores} {t : State} {u : U} (hs : step n bs vs M st i = some (vs', M', st')) (h : Sim n s M st t u) :
    ∃ l, vs = l ++ vs' ∧ Sim n s M' st' (i.exec t) (vexes s l u) := by
  cases i with
  | alu o d x y =>
    simp only [step] at hs
    split at hs
    · rename_i o' t' x' y' vs₁
      split at hs
      · rename_i hh
        simp only [Bool.and_eq_true, decide_eq_true_eq] at hh
        obtain ⟨⟨⟨⟨⟨⟨rfl, e1⟩, e2⟩, hx⟩, hy⟩, hd⟩, hf⟩ := hh
        have hd := Nat.blt_eq.mp hd
        obtain rfl := Val.same_spec e1
        obtain rfl := Val.same_spec e2
        cases hs
        refine ⟨[_], rfl, ?_⟩
        have hS := (h.virt hf (o.eval (x.get t) (y.get t) t.fl).1 (o.eval (x.get t) (y.get t) t.fl).2).set (d := d)
          (v := .v t'.1 t'.2) (w := (o.eval (x.get t) (y.get t) t.fl).1) hd (by
            show _ = upd u.ρ t' _ (t'.1, t'.2)
            exact (upd_same _ _ _).symm)
        have e : vexes s [⟨o, some t', opdVal M x, opdVal M y⟩] u
            = ⟨upd u.ρ t' (o.eval (x.get t) (y.get t) t.fl).1, (o.eval (x.get t) (y.get t) t.fl).2⟩ := by
          rw [h.get hx, h.get hy, h.fl]; rfl
        rw [e]
        exact hS
      · exact absurd hs (by simp)
    · exact absurd hs (by simp)
  | cmp x y =>
    simp only [step] at hs
    split at hs
    · rename_i x' y' vs₁ _
      split at hs
      · rename_i hh
        simp only [Bool.and_eq_true] at hh
        obtain ⟨⟨⟨e1, e2⟩, hx⟩, hy⟩ := hh
        obtain rfl := Val.same_spec e1
        obtain rfl := Val.same_spec e2
        cases hs
        refine ⟨[_], rfl, ?_⟩
        have e : vexes s [⟨.subs, none, opdVal M x, opdVal M y⟩] u
            = ⟨u.ρ, (Alu.subs.eval (x.get t) (y.get t) t.fl).2⟩ := by
          rw [h.get hx, h.get hy, h.fl]; rfl
        rw [e]
        exact ⟨h.len, h.reg, rfl, h.sp, h.sym, h.code, h.bound, h.frame, h.out⟩
      · exact absurd hs (by simp)
    · exact absurd hs (by simp)
  | adr d y =>
    simp only [step] at hs
    split at hs
    · rename_i hd
      cases hs
      refine ⟨[], rfl, h.set (Nat.blt_eq.mp hd) ?_⟩
      rw [h.sym]; rfl
    · exact absurd hs (by simp)
  | ldr d b off =>
    simp only [step] at hs
    split at hs
    · rename_i B hb
      split at hs
      · rename_i hh
        simp only [Bool.and_eq_true] at hh
        obtain ⟨⟨⟨hd, hbl⟩, h8⟩, hl⟩ := hh
        have hd := Nat.blt_eq.mp hd
        have hbl := Nat.blt_eq.mp hbl
        have h8 := Nat.eq_of_beq_eq_true h8
        cases hs
        refine ⟨[], rfl, h.set hd ?_⟩
        have := load_spec hc h hb hbl hl
        rw [← off_eq h8] at this
        exact this
      · exact absurd hs (by simp)
    · exact absurd hs (by simp)
  | ldp d e b off =>
    simp only [step] at hs
    split at hs
    · rename_i B hb
      split at hs
      · rename_i hh
        simp only [Bool.and_eq_true] at hh
        obtain ⟨⟨⟨⟨⟨hd, he⟩, hbl⟩, h8⟩, hl⟩, hl'⟩ := hh
        have hd := Nat.blt_eq.mp hd
        have he := Nat.blt_eq.mp he
        have hbl := Nat.blt_eq.mp hbl
        have h8 := Nat.eq_of_beq_eq_true h8
        cases hs
        refine ⟨[], rfl, ?_⟩
        have h1 := load_spec hc h hb hbl hl
        rw [← off_eq h8] at h1
        have h2 := load_spec hc h hb hbl hl'
        rw [Nat.mul_add, ← off_eq h8] at h2
        exact (h.set (v := .mem B (off / 8)) hd h1).set he h2
      · exact absurd hs (by simp)
    · exact absurd hs (by simp)
  | str x b off =>
    simp only [step] at hs
    split at hs
    · rename_i hh
      simp only [Bool.and_eq_true] at hh
      obtain ⟨⟨⟨⟨hb, hbl⟩, hx⟩, h8⟩, hst⟩ := hh
      have hbl := Nat.blt_eq.mp hbl
      have h8 := Nat.eq_of_beq_eq_true h8
      cases hs
      refine ⟨[], rfl, ?_⟩
      have := h.store hn hst (h.get hx)
      unfold cell at this
      rw [← off_eq h8] at this
      have e : t.reg b = s.reg 0 := by rw [h.reg b hbl, Val.same_spec hb]; rfl
      show Sim n s M _ { t with mem := upd t.mem (t.reg b + BitVec.ofNat 64 off) _ } u
      rw [e]
      exact this
    · exact absurd hs (by simp)
  | stp x y b off =>
    simp only [step] at hs
    split at hs
    · rename_i hh
      simp only [Bool.and_eq_true] at hh
      obtain ⟨⟨⟨⟨⟨⟨hb, hbl⟩, hx⟩, hy⟩, h8⟩, hst⟩, hst'⟩ := hh
      have hbl := Nat.blt_eq.mp hbl
      have h8 := Nat.eq_of_beq_eq_true h8
      cases hs
      refine ⟨[], rfl, ?_⟩
      have h1 := h.store hn hst (h.get hx)
      have hst2 : storeOk n (st ++ [(off / 8, opdVal M x)]) (off / 8 + 1) := by
        simp only [storeOk, Bool.and_eq_true, decide_eq_true_eq, List.all_eq_true] at hst' ⊢
        refine ⟨hst'.1, ?_⟩
        intro e he
        rcases List.mem_append.mp he with he | he
        · exact hst'.2 e he
        · rw [List.mem_singleton.mp he]; exact (Nat.succ_ne_self _).symm
      have h2 := h1.store hn hst2 (h.get hy)
      rw [List.append_assoc] at h2
      unfold cell at h2
      rw [Nat.mul_add, ← off_eq h8] at h2
      have e : t.reg b = s.reg 0 := by rw [h.reg b hbl, Val.same_spec hb]; rfl
      show Sim n s M _ { t with mem := upd (upd t.mem (t.reg b + BitVec.ofNat 64 off) _) (t.reg b + BitVec.ofNat 64 (off + 8)) _ } u
      rw [e]
      exact h2
    · exact absurd hs (by simp)
  | push1 r => exact absurd hs (by simp [step])
  | push2 r r' => exact absurd hs (by simp [step])
  | pop1 r => exact absurd hs (by simp [step])
  | pop2 r r' => exact absurd hs (by simp [step])

theorem chk_sound {n : Nat} {bs : List Base} {s : State} (hn : 8 * n ≤ 2 ^ 64) (hc : NoClash n bs s) : ∀ (p : List Ins)
    (vs : List VIns) (M M' : Regs) (st st' : Stores) (t : State) (u : U), chk n bs p vs M st = some (M', st') → Sim n s M st t u →
    Sim n s M' st' (exes p t) (vexes s vs u) := by
  intro p
  induction p with
  | nil =>
    intro vs M M' st st' t u hk h
    cases vs with
    | nil => simp only [chk, Option.some.injEq, Prod.mk.injEq] at hk; obtain ⟨rfl, rfl⟩ := hk; exact h
    | cons v vs => simp [chk] at hk
  | cons i p ih =>
    intro vs M M' st st' t u hk h
    unfold chk at hk
    split at hk
    · exact absurd hk (by simp)
    · rename_i vs' M₁ st₁ hs
      obtain ⟨l, rfl, hS⟩ := step_sound hn hc hs h
      rw [vexes_append]
      exact ih vs' M₁ M' st₁ st' _ _ hk hS

end FF.Arm
