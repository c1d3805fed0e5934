import Verif.AsmLib
import Verif.Tagged

/-!
# The building blocks of the tagged routines

An element occupies `n + 1` cells: the tag cell, whose low half is `shortVal` and whose bits 63 and 62 are the type, and
the limbs.
-/

namespace FF.X86

/-- The element of `n` limbs at an address, `src/fr_element.hpp.ejs`. -/
def elemAt (n : Nat) (m : BitVec 64 → BitVec 64) (p : BitVec 64) : Elem where
  shortVal := (m p).setWidth 32
  long := (m p).getLsbD 63
  mont := (m p).getLsbD 62
  longVal := rd m (cell p 1) n

theorem elemAt_congr {n : Nat} {m m' : BitVec 64 → BitVec 64} {p : BitVec 64} (h : ∀ a, InArr p (n + 1) a → m' a = m a) :
    elemAt n m' p = elemAt n m p := by
  have h0 : m' p = m p := h _ ⟨0, by omega, (cell_zero p).symm⟩
  have h1 : rd m' (cell p 1) n = rd m (cell p 1) n := rd_off fun a ha => h a (ha.shift (by omega))
  simp only [elemAt, h0, h1]

/-! ## One line at a time -/

/-- A line that does not transfer control. -/
def Line.plain : Line → Bool
  | .label _ | .jump _ _ | .call _ | .ret => false
  | _ => true

section blocks

variable {q n F : Nat} {ra : BitVec 64} {t : State} {env : String → Option (State → Option State)}

theorem run_plain {l : Line} (h : l.plain = true) (p : List Line) (s : State) :
    run env ra (l :: p) s = run env ra p (l.exec s) := by
  cases l <;> first | (exact absurd h (by decide)) | (rw [run]; all_goals intros; all_goals contradiction)

/-- A piece of code without transfers of control. -/
def exes (l : List Line) (s : State) : State := l.foldl (fun s i => i.exec s) s

theorem run_exes (l : List Line) (h : l.all Line.plain = true) (p : List Line) (s : State) :
    run env ra (l ++ p) s = run env ra p (exes l s) := by
  induction l generalizing s with
  | nil => rfl
  | cons i l ih =>
    simp only [List.all_cons, Bool.and_eq_true] at h
    rw [List.cons_append, run_plain h.1, ih h.2]
    rfl

/-- Evaluates straight code. -/
macro "asm" h:term : tactic => `(tactic| (rw [$h:term]; simp [exes, Line.exec, i2, step, Ins.exec, Op2.eval, Op2.writes,
  Opd.get, Opd.set, Misc.exec, Op32.eval, Op32.writes, Opd32.get, upd_apply, pushVal, popReg]))

/-- `mov`/`add`/… into a register. -/
theorem run_opReg (o : Op2) (d : Reg) (b : Opd) (h : o.writes = true) (p : List Line) (s : State) :
    run env ra (op o (.reg d) b :: p) s =
      run env ra p { s with reg := upd s.reg d (o.eval (s.reg d) (b.get s) s.fl).1, fl := (o.eval (s.reg d) (b.get s) s.fl).2 } := by
  rw [run_plain rfl]
  simp only [i2, Line.exec, step, Ins.exec, h, if_true]
  rfl

theorem run_movReg (d : Reg) (b : Opd) (p : List Line) (s : State) :
    run env ra (op .mov (.reg d) b :: p) s = run env ra p { s with reg := upd s.reg d (b.get s) } := run_opReg _ _ _ rfl p s

theorem run_movMem (b : Reg) (o : Nat) (r : Reg) (p : List Line) (s : State) :
    run env ra (op .mov (.mem b o) (.reg r) :: p) s =
      run env ra p { s with mem := upd s.mem (s.reg b + BitVec.ofNat 64 o) (s.reg r) } := by
  rw [run_plain rfl]; rfl

theorem run_cmp (a b : Opd) (p : List Line) (s : State) :
    run env ra (op .cmp a b :: p) s = run env ra p { s with fl := subFlags (a.get s) (b.get s) 0 (a.get s - b.get s) } := by
  rw [run_plain rfl]; rfl

theorem run_misc (m : Misc) (p : List Line) (s : State) : run env ra (.misc m :: p) s = run env ra p (m.exec s) :=
  run_plain rfl p s

theorem run_lea (r : Reg) (y : Sym) (p : List Line) (s : State) :
    run env ra (.lea r y :: p) s = run env ra p { s with reg := upd s.reg r (s.sym y) } := run_plain rfl p s

/-! ## Changing the tag -/

theorem hi_word (x : BitVec 64) (ty : BitVec 8) :
    (((setLow8 x ty).setWidth 32 <<< 24).setWidth 64).setWidth 32 = ty.setWidth 32 <<< 24 := by
  apply BitVec.eq_of_toNat_eq
  simp only [BitVec.toNat_setWidth, BitVec.toNat_shiftLeft, setLow8, BitVec.toNat_ofNat, Nat.shiftLeft_eq]
  have := x.isLt
  have := ty.isLt
  omega

theorem setHi32_low (x : BitVec 64) (h : BitVec 32) : (setHi32 x h).setWidth 32 = x.setWidth 32 := by
  unfold setHi32
  apply BitVec.eq_of_getLsbD_eq
  intro i hi
  simp only [BitVec.getLsbD_setWidth, BitVec.getLsbD_append]
  simp [hi, show i < 64 by omega]

theorem setHi32_bit (x : BitVec 64) (h : BitVec 32) (i : Nat) : (setHi32 x h).getLsbD (i + 32) = h.getLsbD i := by
  unfold setHi32
  rw [BitVec.getLsbD_append]
  simp

/-- Only the registers in the list may differ. -/
def Regs (l : List Reg) (t t' : State) : Prop := ∀ r, r ∉ l → t'.reg r = t.reg r

theorem setType_run (ty : BitVec 8) (hn : 8 * (n + 1) ≤ 2 ^ 64) :
    ∃ t', (∀ p, run env ra (setTypeDest ty ++ p) t = run env ra p t') ∧ Called 0 (t.reg .rdi) (n + 1) t t' ∧
      Regs [.r11] t t' ∧ elemAt n t'.mem (t.reg .rdi) =
        { elemAt n t.mem (t.reg .rdi) with long := ty.getLsbD 7, mont := ty.getLsbD 6 } := by
  set t' : State := Misc.exec .storeHi (Misc.exec (.shlR11d 24) (Misc.exec (.movR11b ty) t)) with ht
  have hR : Regs [.r11] t t' := by
    intro r hr
    simp only [List.mem_singleton] at hr
    simp [ht, Misc.exec, upd_apply, hr]
  have hM : t'.mem = upd t.mem (t.reg .rdi) (setHi32 (t.mem (t.reg .rdi)) (ty.setWidth 32 <<< 24)) := by
    have e : t'.mem = upd t.mem (t.reg .rdi) (setHi32 (t.mem (t.reg .rdi))
      ((((setLow8 (t.reg .r11) ty).setWidth 32 <<< 24).setWidth 64).setWidth 32)) := by
      simp [ht, Misc.exec, upd_apply]
    rw [e, hi_word]
  refine ⟨t', fun p => ?_, ⟨fun a _ ha => ?_, fun r hr => hR r ?_, hR _ (by decide), hR _ (by decide), rfl⟩, hR, ?_⟩
  · show run env ra (.misc _ :: .misc _ :: .misc _ :: p) t = _
    rw [run_misc, run_misc, run_misc]
  · rw [hM, upd_ne]
    exact fun e => ha ⟨0, by omega, by rw [e, cell_zero]⟩
  · simp only [List.mem_singleton]
    rintro rfl; exact absurd hr (by decide)
  · have h1 : rd t'.mem (cell (t.reg .rdi) 1) n = rd t.mem (cell (t.reg .rdi) 1) n := by
      refine rd_congr fun i hi => ?_
      rw [hM, upd_ne]
      rw [cell_add]
      intro e
      have := cell_inj (i := 1 + i) (j := 0) (by omega) (by omega) (e.trans (cell_zero _).symm)
      omega
    have h0 : t'.mem (t.reg .rdi) = setHi32 (t.mem (t.reg .rdi)) (ty.setWidth 32 <<< 24) := by rw [hM, upd_same]
    have b1 : (ty.setWidth 32 <<< 24).getLsbD 31 = ty.getLsbD 7 := by simp
    have b2 : (ty.setWidth 32 <<< 24).getLsbD 30 = ty.getLsbD 6 := by simp
    simp only [elemAt, h1, h0]
    rw [setHi32_low, show 63 = 31 + 32 from rfl, show 62 = 30 + 32 from rfl, setHi32_bit, setHi32_bit, b1, b2]

/-! ## Steps that change registers only -/

/-- Memory, stack pointer and callee-saved registers are as before. -/
structure Move (t t' : State) : Prop where
  mem : t'.mem = t.mem
  sym : t'.sym = t.sym
  rsp : t'.reg .rsp = t.reg .rsp
  saved : ∀ r ∈ Props.calleeSaved, t'.reg r = t.reg r

theorem Move.of {l : List Reg} {t' : State} (hm : t'.mem = t.mem) (hs : t'.sym = t.sym) (hr : Regs l t t')
    (hl : ∀ r ∈ l, r ≠ .rsp ∧ r ∉ Props.calleeSaved) : Move t t' :=
  ⟨hm, hs, hr _ fun h => (hl _ h).1 rfl, fun r h => hr r fun h' => (hl r h').2 h⟩

theorem Ok.move {t' : State} (h : Ok q F t) (hm : Move t t') : Ok q F t' :=
  ⟨h.fits, h.data.congr hm.sym (fun _ _ => by rw [hm.mem]), by rw [hm.sym, hm.rsp]; exact h.off⟩
theorem Off.move {t' : State} {p : BitVec 64} {m : Nat} (h : Off F t p m) (hm : Move t t') : Off F t' p m := by
  unfold Off; rw [hm.rsp]; exact h
theorem Dst.move {t' : State} {p : BitVec 64} {m : Nat} (h : Dst q F t p m) (hm : Move t t') : Dst q F t' p m :=
  ⟨by rw [hm.rsp]; exact h.off, by rw [hm.sym]; exact h.data⟩

theorem Called.through {p p' : BitVec 64} {m m' : Nat} {t1 t2 t3 : State} (h1 : Move t t1) (h2 : Called F p' m t1 t2)
    (h3 : Move t2 t3) (hp : ∀ a, InArr p' m a → InArr p m' a) (hdi : t3.reg .rdi = t.reg .rdi) : Called F p m' t t3 :=
  ⟨fun a ha hb => by
      rw [h3.mem, h2.frame a (by rw [h1.rsp]; exact ha) (fun h => hb (hp a h)), h1.mem],
    fun r hr => by rw [h3.saved r hr, h2.saved r hr, h1.saved r hr], hdi, by rw [h3.rsp, h2.rsp, h1.rsp],
    by rw [h3.sym, h2.sym, h1.sym]⟩

theorem Called.trans {p : BitVec 64} {m : Nat} {t1 t2 : State} (h1 : Called F p m t t1) (h2 : Called F p m t1 t2) :
    Called F p m t t2 :=
  ⟨fun a ha hb => by rw [h2.frame a (by rw [h1.rsp]; exact ha) hb, h1.frame a ha hb],
    fun r hr => by rw [h2.saved r hr, h1.saved r hr], by rw [h2.rdi, h1.rdi], by rw [h2.rsp, h1.rsp],
    by rw [h2.sym, h1.sym]⟩

theorem Alias.tail {a b : BitVec 64} (h : Alias a b (n + 1)) : Alias (cell a 1) (cell b 1) n := by
  rcases h with rfl | h
  · exact .inl rfl
  · refine .inr fun i j hi hj => ?_
    rw [cell_add, cell_add]
    exact h (1 + i) (1 + j) (by omega) (by omega)

theorem Off.tail {p : BitVec 64} (h : Off F t p (n + 1)) : Off F t (cell p 1) n := fun a ha => h a (ha.shift (by omega))
theorem Dst.tail {p : BitVec 64} (h : Dst q F t p (n + 1)) : Dst q F t (cell p 1) n :=
  ⟨fun a ha => h.off a (ha.shift (by omega)), fun a ha => h.data a (ha.shift (by omega))⟩

/-- A call that writes only the limbs of the element at `p`. -/
theorem elemAt_tail {t' : State} {p : BitVec 64} {l : Limbs} (hn : 8 * (n + 1) ≤ 2 ^ 64) (hd : ∀ a, InArr p (n + 1) a → ¬ InStk (t.reg .rsp) F a)
    (h : ∀ a, ¬ InStk (t.reg .rsp) F a → ¬ InArr (cell p 1) n a → t'.mem a = t.mem a) (hl : rd t'.mem (cell p 1) n = l) :
    elemAt n t'.mem p = { elemAt n t.mem p with longVal := l } := by
  have h0 : t'.mem p = t.mem p := by
    refine h p (hd p ⟨0, by omega, (cell_zero p).symm⟩) ?_
    rintro ⟨i, hi, e⟩
    rw [cell_add] at e
    have := cell_inj (i := 0) (j := 1 + i) (by omega) (by omega) ((cell_zero _).trans e)
    omega
  simp only [elemAt, h0, hl]

/-- An element that a call does not touch. -/
theorem elemAt_called {t' : State} {p r : BitVec 64} (h : Called F r (n + 1) t t') (hs : Sep p r (n + 1))
    (ho : Off F t p (n + 1)) : elemAt n t'.mem p = elemAt n t.mem p :=
  elemAt_congr fun a ha => h.frame a (ho a ha) (by
    obtain ⟨i, hi, rfl⟩ := ha
    rintro ⟨j, hj, e⟩
    exact hs i j hi hj e)

/-! ## Straight code that stores nothing -/

/-- The registers such a line may change; `none` for the other lines. -/
def Line.scratch : Line → Option (List Reg)
  | .ins (.op2 o (.reg r) _) => some (if o.writes then [r] else [])
  | .ins (.op2 .cmp _ _) => some []
  | .lea r _ => some [r]
  | .misc (.bt _ _) => some []
  | .misc (.movsx d _) => some [d]
  | .misc (.op32 o d _) => some (if o.writes then [d] else [])
  | .misc (.neg r) => some [r]
  | .misc (.neg32 r) => some [r]
  | .misc (.not r) => some [r]
  | .misc (.imul32 _) => some [.rax, .rdx]
  | .misc (.imul64 _) => some [.rax, .rdx]
  | .misc (.lea d _ _) => some [d]
  | .misc (.shl r _) => some [r]
  | .misc (.shr r _) => some [r]
  | .misc (.sar r _) => some [r]
  | .misc (.shlCl r) => some [r]
  | .misc (.shrCl r) => some [r]
  | .misc .movClDl => some [.rcx]
  | .misc (.movCh _) => some [.rcx]
  | .misc .subChCl => some [.rcx]
  | .misc .rolCx8 => some [.rcx]
  | .misc (.load d _ _ _) => some [d]
  | _ => none

/-- No line of the code changes a register outside `l`, and none stores. -/
def within (l : List Reg) : List Line → Bool
  | [] => true
  | i :: p => (match i.scratch with | some rs => rs.all (fun r => l.contains r) | none => false) && within l p

theorem scratch_exec {i : Line} {rs : List Reg} (h : i.scratch = some rs) (s : State) :
    (i.exec s).mem = s.mem ∧ Regs rs s (i.exec s) ∧ i.plain = true := by
  unfold Line.scratch at h
  split at h <;> cases h
  case h_1 o r b =>
    refine ⟨?_, fun r' hr => ?_, rfl⟩
    · cases ho : o.writes <;> simp [Line.exec, step, Ins.exec, ho, Opd.set]
    · cases ho : o.writes
      · simp [Line.exec, step, Ins.exec, ho]
      · rw [ho] at hr
        simp at hr
        simp [Line.exec, step, Ins.exec, ho, Opd.set, upd_apply, hr]
  case h_6 o d b =>
    refine ⟨?_, fun r' hr => ?_, rfl⟩
    · cases ho : o.writes <;> simp [Line.exec, Misc.exec, ho]
    · cases ho : o.writes
      · simp [Line.exec, Misc.exec, ho]
      · rw [ho] at hr
        simp at hr
        simp [Line.exec, Misc.exec, ho, upd_apply, hr]
  all_goals
    refine ⟨rfl, fun r' hr => ?_, rfl⟩
    simp at hr
    simp [Line.exec, Misc.exec, step, Ins.exec, Op2.writes, upd_apply, hr]

theorem within_exes {l : List Reg} {p : List Line} (h : within l p = true) (s : State) :
    (exes p s).mem = s.mem ∧ (exes p s).sym = s.sym ∧ Regs l s (exes p s) ∧ p.all Line.plain = true := by
  induction p generalizing s with
  | nil => exact ⟨rfl, rfl, fun _ _ => rfl, rfl⟩
  | cons i p ih =>
    simp only [within, Bool.and_eq_true] at h
    obtain ⟨h1, h2⟩ := h
    cases hi : i.scratch with
    | none => rw [hi] at h1; exact absurd h1 (by simp)
    | some rs =>
      rw [hi] at h1
      obtain ⟨a1, a2, a3⟩ := scratch_exec hi s
      obtain ⟨b1, b2, b3, b4⟩ := ih h2 (i.exec s)
      refine ⟨b1.trans a1, b2.trans (exec_sym _ _), fun r hr => (b3 r hr).trans (a2 r fun h' => hr ?_), by simp [a3, b4]⟩
      simp only [List.all_eq_true] at h1
      simpa using h1 r h'

/-- The registers that straight code may use freely. -/
def free : List Reg := [.rax, .rcx, .rdx, .rdi, .rsi, .r8, .r9, .r10, .r11]

theorem exes_move {p : List Line} (h : within free p = true) : Move t (exes p t) := by
  obtain ⟨h1, h2, h3, _⟩ := within_exes h t
  exact .of h1 h2 h3 (by decide)

theorem run_within {l : List Reg} {c : List Line} (h : within l c = true) (p : List Line) (s : State) :
    run env ra (c ++ p) s = run env ra p (exes c s) := run_exes c (within_exes h s).2.2.2 p s

/-! ## A raw routine on the limbs of three elements -/

/-- Ready for a tagged routine: tables, stack and result element as they should be. -/
structure TArgs (q F : Nat) (t : State) : Prop where
  ok : Ok q F t
  big : callCells q ≤ F
  dst : Dst q F t (t.reg .rdi) (n64 q + 1)

/-- An operand element. -/
structure TOpnd (q F : Nat) (t : State) (p : BitVec 64) : Prop where
  ali : Alias p (t.reg .rdi) (n64 q + 1)
  off : Off F t p (n64 q + 1)

theorem TArgs.small (h : TArgs q F t) : 8 * (n64 q + 1) ≤ 2 ^ 64 := by have := h.ok.fits; omega

theorem TArgs.args {t' : State} (h : TArgs q F t) (hm : Move t t') (hd : t'.reg .rdi = cell (t.reg .rdi) 1) : Args q F t' :=
  ⟨h.ok.move hm, h.big, by rw [hd]; exact h.dst.tail.move hm⟩

theorem TOpnd.opnd {t' : State} {p p' : BitVec 64} (h : TOpnd q F t p) (hm : Move t t')
    (hd : t'.reg .rdi = cell (t.reg .rdi) 1) (hp : p' = cell p 1) : Opnd q F t' p' := by
  subst hp
  exact ⟨by rw [hd]; exact h.ali.tail, h.off.tail.move hm⟩

/-- What such a call leaves: the limbs of the result element replaced. -/
theorem wrap {t1 t2 t3 : State} {l : Limbs} (h : TArgs q F t) (h1 : Move t t1) (hd : t1.reg .rdi = cell (t.reg .rdi) 1)
    (h2 : Called F (t1.reg .rdi) (n64 q) t1 t2) (h3 : Move t2 t3) (hd3 : t3.reg .rdi = t.reg .rdi)
    (hl : rd t2.mem (t1.reg .rdi) (n64 q) = l) :
    Called F (t.reg .rdi) (n64 q + 1) t t3 ∧
      elemAt (n64 q) t3.mem (t.reg .rdi) = { elemAt (n64 q) t.mem (t.reg .rdi) with longVal := l } := by
  refine ⟨.through h1 h2 h3 (fun a ha => by rw [hd] at ha; exact ha.shift (by omega)) hd3, ?_⟩
  refine elemAt_tail h.small h.dst.off (fun a ha hb => ?_) (by rw [h3.mem, ← hd, hl])
  rw [h3.mem, h2.frame a (by rw [h1.rsp]; exact ha) (by rw [hd]; exact hb), h1.mem]

theorem cell_one_sub (a : BitVec 64) : cell a 1 - 8 = a := BitVec.add_sub_cancel _ _

/-- `callLL` for a raw routine whose meaning on limbs is `G`. -/
theorem callLL_run {f : String} {G : Limbs → Limbs → Limbs} {P : Limbs → Prop}
    (hf : ∀ t, Args q F t → Opnd q F t (t.reg .rsi) → Opnd q F t (t.reg .rdx) → P (rd t.mem (t.reg .rdx) (n64 q)) →
      ∃ t', (∀ p, run env ra (.call f :: p) t = run env ra p t') ∧ Called F (t.reg .rdi) (n64 q) t t' ∧
        rd t'.mem (t.reg .rdi) (n64 q) = G (rd t.mem (t.reg .rsi) (n64 q)) (rd t.mem (t.reg .rdx) (n64 q)))
    (h : TArgs q F t) (ha : TOpnd q F t (t.reg .rsi)) (hb : TOpnd q F t (t.reg .rdx))
    (hP : P (elemAt (n64 q) t.mem (t.reg .rdx)).longVal) :
    ∃ t', (∀ p, run env ra (callLL f ++ p) t = run env ra p t') ∧ Called F (t.reg .rdi) (n64 q + 1) t t' ∧
      elemAt (n64 q) t'.mem (t.reg .rdi) = { elemAt (n64 q) t.mem (t.reg .rdi) with
        longVal := G (elemAt (n64 q) t.mem (t.reg .rsi)).longVal (elemAt (n64 q) t.mem (t.reg .rdx)).longVal } := by
  obtain ⟨t1, ht1⟩ : ∃ t1, t1 = exes [op .add rdi (.imm 8), op .add rsi (.imm 8), op .add rdx (.imm 8)] t := ⟨_, rfl⟩
  have d1 : t1.reg .rdi = cell (t.reg .rdi) 1 := by asm ht1; rfl
  have d2 : t1.reg .rsi = cell (t.reg .rsi) 1 := by asm ht1; rfl
  have d3 : t1.reg .rdx = cell (t.reg .rdx) 1 := by asm ht1; rfl
  have m1 : Move t t1 := ht1 ▸ exes_move rfl
  obtain ⟨t2, e2, c2, o2⟩ := hf t1 (h.args m1 d1) (ha.opnd m1 d1 d2) (hb.opnd m1 d1 d3) (by rw [d3, m1.mem]; exact hP)
  obtain ⟨t3, ht3⟩ : ∃ t3, t3 = exes [op .sub rdi (.imm 8), op .sub rsi (.imm 8)] t2 := ⟨_, rfl⟩
  have d4 : t3.reg .rdi = t2.reg .rdi - 8 := by asm ht3
  have m3 : Move t2 t3 := ht3 ▸ exes_move rfl
  refine ⟨t3, fun p => ?_, wrap h m1 d1 c2 m3 ?_ (o2.trans ?_)⟩
  · show run env ra ([op .add rdi (.imm 8), op .add rsi (.imm 8), op .add rdx (.imm 8)] ++ .call f ::
      ([op .sub rdi (.imm 8), op .sub rsi (.imm 8)] ++ p)) t = _
    rw [run_exes _ rfl, ← ht1, e2, run_exes _ rfl, ← ht3]
  · rw [d4, c2.rdi, d1, cell_one_sub]
  · rw [d2, d3, m1.mem]; rfl

end blocks

end FF.X86
