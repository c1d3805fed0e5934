import Verif.AsmTouchMont
import Verif.AsmTouchShift
import Verif.AsmCopyn

/-!
# C83: the raw x86-64 routines access nothing but their operands

For every limb count `n`, every state of the machine (every address, every value of the operands, overlapping or not) and every path
through the code: the cells read are those of the operands, of the result, of the tables of the modulus and of the stack of the routine
(the return address and what it saved below it); the cells written are those of the result and of the stack below the return address.

`touched` lists the accesses along the execution that `run` describes; `C83_reads` and `C83_writes` tie it to that execution.
-/

namespace FF.Props

open FF.X86

/-- What a routine computes depends only on the cells it reads: with other contents elsewhere (the cells `D`), it ends with the same registers and
flags, and with the same memory outside `D`, after the same accesses. -/
theorem C83_reads {D : BitVec 64 → Prop} {ra : BitVec 64} {p : List Line} {s t : State} (m : BitVec 64 → BitVec 64)
    (hm : ∀ a, ¬ D a → m a = s.mem a) (hD : ∀ a, Access.read a ∈ touched noCalls noAcc ra p s → ¬ D a)
    (ht : X86.run noCalls ra p s = some t) :
    ∃ t', X86.run noCalls ra p { s with mem := m } = some t' ∧ t'.reg = t.reg ∧ t'.fl = t.fl ∧ (∀ a, ¬ D a → t'.mem a = t.mem a) ∧
      touched noCalls noAcc ra p { s with mem := m } = touched noCalls noAcc ra p s := by
  obtain ⟨⟨t', h1, h2⟩, h3⟩ := run_like (D := D) p (s := s) (s' := { s with mem := m }) ⟨rfl, rfl, rfl, hm⟩ hD ht
  exact ⟨t', h1, h2.reg, h2.fl, h2.mem, h3⟩

/-- A routine changes only the cells it writes. -/
theorem C83_writes {ra : BitVec 64} {p : List Line} (hw : ∀ i ∈ p, i.wf) {s t : State} (ht : X86.run noCalls ra p s = some t) (a : BitVec 64)
    (ha : Access.write a ∉ touched noCalls noAcc ra p s) : t.mem a = s.mem a :=
  run_off p hw a ht ha

/-- Unfolds a listing and looks at the text of every line. -/
local macro "touch" K:term : tactic => `(tactic| (
  refine touched_good (K := $K) (by decide) (by simp [within_cons, inArr_self]) _ ?_
  simp only [X86.rawCopy, X86.copy, X86.rawZero, X86.rawSwap, X86.rawCopyS2L, rawAddLL, X86.rawAddLS, rawSubLL, X86.rawSubLS, X86.rawSubSL, X86.rawNegLS,
    rawNegL, X86.rawIsEq, X86.rawIsZero, loopLL, cmpQ, cmpQ', cmpStep, loopQ, List.forall_mem_append, all_code, all_flatMap, all_range']
  simp +contextual [Line.good, i2, Op2.reads, Op2.writes, Opd.rd, Opd.wr, within_cons, within_nil, inArr_at, inArr_down, inArr_zero, inArr_up,
    inArr_off, inArr_eight, inArr_self, *]))

section
variable (n : Nat) (s : State) (ra : BitVec 64)

/-- `rawCopy`. -/
theorem C83_rawCopy :
    Only (Within [(s.reg .rsi, n), (s.reg .rsp, 1)]) (Within [(s.reg .rdi, n)]) (touched noCalls noAcc ra (X86.rawCopy n) s) := by
  touch [.rsp, .rdi, .rsi]

/-- `copy`. -/
theorem C83_copy :
    Only (Within [(s.reg .rsi, n + 1), (s.reg .rsp, 1)]) (Within [(s.reg .rdi, n + 1)]) (touched noCalls noAcc ra (X86.copy n) s) := by
  touch [.rsp, .rdi, .rsi]

/-- `rawZero`. -/
theorem C83_rawZero :
    Only (Within [(s.reg .rsp, 1)]) (Within [(s.reg .rdi, n)]) (touched noCalls noAcc ra (X86.rawZero n) s) := by
  touch [.rsp, .rdi]

/-- `rawSwap`. -/
theorem C83_rawSwap :
    Only (Within [(s.reg .rsi, n), (s.reg .rdi, n), (s.reg .rsp, 1)]) (Within [(s.reg .rsi, n), (s.reg .rdi, n)]) (touched noCalls noAcc ra (X86.rawSwap n) s) := by
  touch [.rsp, .rdi, .rsi]

/-- `rawCopyS2L`. A small number as an element of `n + 1` cells. -/
theorem C83_rawCopyS2L (h : 0 < n) :
    Only (Within [(s.sym .q, n), (s.reg .rsp, 1)]) (Within [(s.reg .rdi, n + 1)]) (touched noCalls noAcc ra (X86.rawCopyS2L n) s) := by
  touch [.rsp, .rdi]

/-- `rawAddLL`. -/
theorem C83_rawAddLL :
    Only (Within [(s.reg .rsi, n), (s.reg .rdx, n), (s.reg .rdi, n), (s.sym .q, n), (s.reg .rsp, 1)]) (Within [(s.reg .rdi, n)]) (touched noCalls noAcc ra (X86.rawAddLL n) s) := by
  touch [.rsp, .rdi, .rsi, .rdx]

/-- `rawAddLS`. The second operand is a number, not an address. -/
theorem C83_rawAddLS (h : 0 < n) :
    Only (Within [(s.reg .rsi, n), (s.reg .rdi, n), (s.sym .q, n), (s.reg .rsp, 1)]) (Within [(s.reg .rdi, n)]) (touched noCalls noAcc ra (X86.rawAddLS n) s) := by
  touch [.rsp, .rdi, .rsi]

/-- `rawSubLL`. -/
theorem C83_rawSubLL :
    Only (Within [(s.reg .rsi, n), (s.reg .rdx, n), (s.reg .rdi, n), (s.sym .q, n), (s.reg .rsp, 1)]) (Within [(s.reg .rdi, n)]) (touched noCalls noAcc ra (X86.rawSubLL n) s) := by
  touch [.rsp, .rdi, .rsi, .rdx]

/-- `rawSubLS`. -/
theorem C83_rawSubLS (h : 0 < n) :
    Only (Within [(s.reg .rsi, n), (s.reg .rdi, n), (s.sym .q, n), (s.reg .rsp, 1)]) (Within [(s.reg .rdi, n)]) (touched noCalls noAcc ra (X86.rawSubLS n) s) := by
  touch [.rsp, .rdi, .rsi]

/-- `rawSubSL`. -/
theorem C83_rawSubSL (h : 0 < n) :
    Only (Within [(s.reg .rdx, n), (s.reg .rdi, n), (s.sym .q, n), (s.reg .rsp, 1)]) (Within [(s.reg .rdi, n)]) (touched noCalls noAcc ra (X86.rawSubSL n) s) := by
  touch [.rsp, .rdi, .rdx]

/-- `rawNegLS`. -/
theorem C83_rawNegLS (h : 0 < n) :
    Only (Within [(s.reg .rsi, n), (s.reg .rdi, n), (s.sym .q, n), (s.reg .rsp, 1)]) (Within [(s.reg .rdi, n)]) (touched noCalls noAcc ra (X86.rawNegLS n) s) := by
  touch [.rsp, .rdi, .rsi]

/-- `rawNegL`. -/
theorem C83_rawNegL :
    Only (Within [(s.reg .rsi, n), (s.sym .q, n), (s.reg .rsp, 1)]) (Within [(s.reg .rdi, n)]) (touched noCalls noAcc ra (X86.rawNegL n) s) := by
  touch [.rsp, .rdi, .rsi]

/-- `rawIsEq`. -/
theorem C83_rawIsEq :
    Only (Within [(s.reg .rsi, n), (s.reg .rdi, n), (s.reg .rsp, 1)]) (Within []) (touched noCalls noAcc ra (X86.rawIsEq n) s) := by
  touch [.rsp, .rdi, .rsi]

/-- `rawIsZero`. -/
theorem C83_rawIsZero :
    Only (Within [(s.reg .rdi, n), (s.reg .rsp, 1)]) (Within []) (touched noCalls noAcc ra (X86.rawIsZero n) s) := by
  touch [.rsp, .rdi]

/-! ## The Montgomery routines

`frameCells n opt` cells below the return address hold the saved registers and the variables that have no register.  Also for the numbers of limbs
for which the register manager prints a wrong product (C55). -/

/-- The stack: the return address and `F` cells below it. -/
abbrev frame (s : State) (F : Nat) : BitVec 64 × Nat := (stk (s.reg .rsp) F, F + 1)
/-- The same without the return address. -/
abbrev locals (s : State) (F : Nat) : BitVec 64 × Nat := (stk (s.reg .rsp) F, F)

theorem inFrame {S : BitVec 64} {F j : Nat} (h : j ≤ F) : InArr (stk S F) (F + 1) (stk S j) :=
  ⟨F - j, by omega, by rw [stk_cell _ _ _ (by omega)]; congr 1; omega⟩
theorem inLocals {S : BitVec 64} {F j : Nat} (h : j < F) : InArr (stk S F) F (stk S (j + 1)) :=
  ⟨F - (j + 1), by omega, by rw [stk_cell _ _ _ (by omega)]; congr 1; omega⟩

/-- `rawMMul`. -/
theorem C83_mul (opt : Bool) (h : 0 < n) {p : List Line} (hp : template n opt (upperMul n opt) = some p) :
    Only (Within [(s.reg .rsi, n), (s.reg .rdx, n), (s.sym .q, n), (s.sym .np, 1), frame s (frameCells n opt)]) (Within [(s.reg .rdi, n), locals s (frameCells n opt)])
      (touched noCalls noAcc ra p s) := by
  refine touched_template hp s (fun j hj => ?_) (fun j hj => ?_) (fun i hi => ?_) ?_ (fun i hi => ?_) fun s' h1 h2 h3 => rounds_ok h h3
    (upperMul_ok h (fun i hi => by rw [h1]; simp [within_cons, inArr_at, hi]) (fun i hi => by rw [h2]; simp [within_cons, inArr_at, hi]))
  · simp [within_cons, inFrame hj]
  · simp [within_cons, inLocals hj]
  · simp [within_cons, inArr_at, hi]
  · simp [within_cons, inArr_self]
  · simp [within_cons, inArr_at, hi]

/-- `rawMSquare`. -/
theorem C83_square (opt : Bool) (h : 0 < n) {p : List Line} (hp : template n opt (upperSquare n opt) = some p) :
    Only (Within [(s.reg .rsi, n), (s.sym .q, n), (s.sym .np, 1), frame s (frameCells n opt)]) (Within [(s.reg .rdi, n), locals s (frameCells n opt)])
      (touched noCalls noAcc ra p s) := by
  refine touched_template hp s (fun j hj => ?_) (fun j hj => ?_) (fun i hi => ?_) ?_ (fun i hi => ?_) fun s' h1 h2 h3 => rounds_ok h h3
    (upperSquare_ok h (fun i hi => by rw [h1]; simp [within_cons, inArr_at, hi]))
  · simp [within_cons, inFrame hj]
  · simp [within_cons, inLocals hj]
  · simp [within_cons, inArr_at, hi]
  · simp [within_cons, inArr_self]
  · simp [within_cons, inArr_at, hi]

/-- `rawMMul1`; the second operand is a number. -/
theorem C83_mul1 (opt : Bool) (h : 0 < n) {p : List Line} (hp : template n opt (upperMul1 n opt) = some p) :
    Only (Within [(s.reg .rsi, n), (s.sym .q, n), (s.sym .np, 1), frame s (frameCells n opt)]) (Within [(s.reg .rdi, n), locals s (frameCells n opt)])
      (touched noCalls noAcc ra p s) := by
  refine touched_template hp s (fun j hj => ?_) (fun j hj => ?_) (fun i hi => ?_) ?_ (fun i hi => ?_) fun s' h1 h2 h3 => rounds_ok h h3
    (upperMul1_ok h (fun i hi => by rw [h1]; simp [within_cons, inArr_at, hi]))
  · simp [within_cons, inFrame hj]
  · simp [within_cons, inLocals hj]
  · simp [within_cons, inArr_at, hi]
  · simp [within_cons, inArr_self]
  · simp [within_cons, inArr_at, hi]

/-- `rawFromMontgomery`. -/
theorem C83_from (opt : Bool) (h : 0 < n) {p : List Line} (hp : template n opt (upperFrom n opt) = some p) :
    Only (Within [(s.reg .rsi, n), (s.sym .q, n), (s.sym .np, 1), frame s (frameCells n opt)]) (Within [(s.reg .rdi, n), locals s (frameCells n opt)])
      (touched noCalls noAcc ra p s) := by
  refine touched_template hp s (fun j hj => ?_) (fun j hj => ?_) (fun i hi => ?_) ?_ (fun i hi => ?_) fun s' h1 h2 h3 => rounds_ok h h3
    (upperFrom_ok (fun i hi => by rw [h1]; simp [within_cons, inArr_at, hi]))
  · simp [within_cons, inFrame hj]
  · simp [within_cons, inLocals hj]
  · simp [within_cons, inArr_at, hi]
  · simp [within_cons, inArr_self]
  · simp [within_cons, inArr_at, hi]

/-- `rawToMontgomery`: a product by `R2`, so its accesses are those of `rawMMul` and the saved `rdx`. -/
theorem C83_toMontgomery (opt : Bool) (h : 0 < n) {p : List Line} (hp : template n opt (upperMul n opt) = some p) :
    Only (Within [(s.reg .rsi, n), (s.sym .r2, n), (s.sym .q, n), (s.sym .np, 1), frame s (frameCells n opt + 2)])
      (Within [(s.reg .rdi, n), locals s (frameCells n opt + 2)])
      (touched (callMMul ra p) (fun _ => touched noCalls noAcc ra p) ra rawToMontgomeryCode s) := by
  have e : touched (callMMul ra p) (fun _ => touched noCalls noAcc ra p) ra rawToMontgomeryCode s =
      .write (s.reg .rsp - 8) :: .write (s.reg .rsp - 8 - 8) :: (touched noCalls noAcc ra p (toMontEntry ra s) ++
        match X86.run noCalls ra p (toMontEntry ra s) with
        | none => []
        | some t => [.read (t.reg .rsp), .read (t.reg .rsp + 8)]) := by
    rw [rawToMontgomeryCode, touched_plain rfl, touched_plain rfl, touched]
    simp only [callMMul, if_true]
    have e1 : pushVal ra ((Line.lea .rdx .r2).exec ((Line.push .rdx).exec s)) = toMontEntry ra s := rfl
    rw [e1]
    cases X86.run noCalls ra p (toMontEntry ra s) with
    | none => simp [Line.acc, Line.exec, pushVal, upd]
    | some t =>
      simp only
      rw [touched_plain rfl, touched_ret]
      simp [Line.acc, Line.exec, pushVal, popReg, upd]
  have h1 : s.reg .rsp - 8 = stk (s.reg .rsp) (0 + 1) := by simp [stk]
  have h2 : s.reg .rsp - 8 - 8 = stk (s.reg .rsp) (1 + 1) := by
    rw [show stk (s.reg .rsp) (1 + 1) = stk (stk (s.reg .rsp) 1) 1 from (stk_stk _ _ _).symm]; simp [stk]
  have hs : (toMontEntry ra s).reg .rsp = stk (s.reg .rsp) 2 := by rw [toMontEntry_rsp]; rfl
  rw [e]
  refine Only.cons ?_ (Only.cons ?_ (Only.append ?_ ?_))
  · rw [Access.ok, h1]; simp [within_cons, inLocals]
  · rw [Access.ok, h2]; simp [within_cons, inLocals]
  · refine (C83_mul n (toMontEntry ra s) ra opt h hp).mono ?_ ?_
    · intro a
      rw [toMontEntry_reg ra s (by decide) (by decide), toMontEntry_rdx]
      have : (toMontEntry ra s).sym = s.sym := rfl
      rw [this]
      simp only [within_cons, within_nil, or_false, frame, hs]
      rintro (h | h | h | h | ⟨i, hi, rfl⟩)
      · exact .inl h
      · exact .inr (.inl h)
      · exact .inr (.inr (.inl h))
      · exact .inr (.inr (.inr (.inl h)))
      · refine .inr (.inr (.inr (.inr ⟨i, by omega, ?_⟩)))
        rw [stk_stk, Nat.add_comm 2]
    · intro a
      rw [toMontEntry_reg ra s (by decide) (by decide)]
      simp only [within_cons, within_nil, or_false, locals, hs]
      rintro (h | ⟨i, hi, rfl⟩)
      · exact .inl h
      · refine .inr ⟨i, by omega, ?_⟩
        rw [stk_stk, Nat.add_comm 2]
  · cases ht : X86.run noCalls ra p (toMontEntry ra s) with
    | none => exact Only.nil
    | some t =>
      have hr := (run_template hp (fun s' => rounds_ok h (fun _ _ => trivial) (upperMul_ok h (fun _ _ => trivial) fun _ _ => trivial)) ht).1
      rw [hs] at hr
      have e1 : t.reg .rsp = stk (s.reg .rsp) 1 := by rw [hr, ← stk_stk _ 1 1]; exact BitVec.sub_add_cancel _ _
      have e2 : t.reg .rsp + 8 = stk (s.reg .rsp) 0 := by rw [e1, stk_zero]; exact BitVec.sub_add_cancel _ _
      refine Only.cons ?_ (Only.cons ?_ Only.nil)
      · rw [Access.ok, e1]; simp [within_cons, inFrame]
      · rw [Access.ok, e2]; simp [within_cons, inFrame]

/-! ## The shifts and the array copy -/

/-- `rawShr`, for a shift by any number. -/
theorem C83_rawShr {bl : Nat} (hbl : bl ≤ 64 * n) (hn : 8 * n ≤ 2 ^ 57) :
    Only (Within [(s.reg .rsi, n), (s.reg .rsp, 1)]) (Within [(s.reg .rdi, n)]) (touched noCalls noAcc ra (rawShrCode bl n) s) := by
  refine rawShr_touch hbl hn ?_ (fun i hi => ?_) (fun i hi => ?_)
  · simp [within_cons, inArr_self]
  · exact within_cons.2 (.inl ⟨i, hi, rfl⟩)
  · exact within_cons.2 (.inl ⟨i, hi, rfl⟩)

/-- `rawShl`, for a shift by any number. -/
theorem C83_rawShl {bl : Nat} (hbl : bl ≤ 64 * n) (hn : 8 * n ≤ 2 ^ 57) :
    Only (Within [(s.reg .rsi, n), (s.reg .rdi, n), (s.sym .q, n), (s.sym .lboMask, 1), (s.reg .rsp, 1)]) (Within [(s.reg .rdi, n)])
      (touched noCalls noAcc ra (rawShlCode bl n) s) := by
  refine rawShl_touch hbl hn ?_ (fun i hi => ?_) ?_ (fun i hi => ?_) (fun i hi => ⟨?_, ?_⟩)
  · simp [within_cons, inArr_self]
  · exact within_cons.2 (.inl ⟨i, hi, rfl⟩)
  · simp [within_cons, inArr_self]
  · exact within_cons.2 (.inr (within_cons.2 (.inr (within_cons.2 (.inl ⟨i, hi, rfl⟩)))))
  · exact within_cons.2 (.inr (within_cons.2 (.inl ⟨i, hi, rfl⟩)))
  · exact within_cons.2 (.inl ⟨i, hi, rfl⟩)

/-- `copyn`, with the length in all of `rdx`; the C declaration passes an `int` (C78). -/
theorem C83_copyn (hl : (n + 1) * (s.reg .rdx).toNat < 2 ^ 64) :
    Only (Within [(s.reg .rsi, (n + 1) * (s.reg .rdx).toNat), (s.reg .rsp, 1)]) (Within [(s.reg .rdi, (n + 1) * (s.reg .rdx).toNat)])
      (touched noCalls noAcc ra (X86.copyn n) s) := by
  have e : touched noCalls noAcc ra (X86.copyn n) s = movsqAcc (copynCount n s) (s.reg .rsi) (s.reg .rdi) ++ [.read (s.reg .rsp)] := by
    unfold X86.copyn
    rw [touched_label]
    repeat rw [touched_plain rfl]
    rw [touched_ret]
    simp [Line.acc, Ins.acc, Misc.acc, Line.exec, step, Ins.exec, i2, Op2.eval, Op2.writes, Op2.reads, Opd.get, Opd.set, Opd.addr, Misc.exec, upd, copynCount]
  have hm : ∀ (k : Nat) (x y : BitVec 64) (a : Access), a ∈ movsqAcc k x y → a.ok (InArr x k) (InArr y k) := by
    intro k
    induction k with
    | zero => intro x y a ha; simp [movsqAcc] at ha
    | succ k ih =>
      intro x y a ha
      rw [movsqAcc, List.mem_cons, List.mem_cons] at ha
      have up : ∀ {x b : BitVec 64}, InArr (x + 8) k b → InArr x (k + 1) b := by
        rintro x b ⟨i, hi, rfl⟩; exact ⟨i + 1, by omega, cell_succ x i⟩
      rcases ha with rfl | rfl | ha
      · exact inArr_self (by omega)
      · exact inArr_self (by omega)
      · have := ih _ _ a ha
        cases a
        · exact up this
        · exact up this
  rw [e, copynCount, Nat.mod_eq_of_lt hl]
  refine Only.append (fun a ha => ?_) (Only.cons (by simp [Access.ok, within_cons, inArr_self]) Only.nil)
  have := hm _ _ _ a ha
  cases a
  · exact within_cons.2 (.inl this)
  · exact within_cons.2 (.inl this)

/-! ## Examples -/

/-- The accesses of a copy of two limbs, one by one. -/
example : touched noCalls noAcc ra (X86.rawCopy 2) s =
    [.read (s.reg .rsi + 0), .write (s.reg .rdi + 0), .read (s.reg .rsi + 8), .write (s.reg .rdi + 8), .read (s.reg .rsp)] := by
  simp [X86.rawCopy, List.range_succ, touched, code, Line.acc, Ins.acc, Line.exec, step, Ins.exec, i2, Op2.writes, Op2.reads, Opd.addr, Opd.set, upd]

/-- The result is written, so the region of the writes cannot be smaller. -/
example : ¬ Only (fun _ => True) (Within []) (touched noCalls noAcc ra (X86.rawCopy 1) s) := by
  intro h
  have := h (.write (s.reg .rdi + 0)) (by
    simp [X86.rawCopy, List.range_succ, touched, code, Line.acc, Ins.acc, Line.exec, step, Ins.exec, i2, Op2.writes, Op2.reads, Opd.addr, Opd.set, upd])
  exact within_nil.1 this

/-- The Montgomery routines of the field of four limbs are printed, and keep part of their variables on the stack. -/
example : (template 4 true (upperMul 4 true)).isSome = true ∧ (template 4 true (upperSquare 4 true)).isSome = true ∧
    (template 4 true (upperMul1 4 true)).isSome = true ∧ (template 4 true (upperFrom 4 true)).isSome = true := by decide +kernel

example : frameCells 4 true = 4 ∧ frameCells 12 true = 13 := by decide +kernel

/-- The shifts of a 254-bit field. -/
example : 254 ≤ 64 * 4 ∧ 8 * 4 ≤ 2 ^ 57 := by decide

end

end FF.Props
