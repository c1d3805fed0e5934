import Verif.AsmTouch
import Verif.AsmMontCall

/-!
# The memory accesses of the Montgomery routines

The operands the register manager prints are those of the program over variables, registers of its own and its stack slots.
-/

namespace FF.X86

section
variable {env : String → Option (State → Option State)} {T : String → State → List Access} {ra : BitVec 64} {R W : BitVec 64 → Prop}

theorem touched_pushes (l : List Reg) (p : List Line) : ∀ s : State, (∀ j < l.length, W (stk (s.reg .rsp) (j + 1))) →
    (∀ s' : State, (∀ r, r ≠ .rsp → s'.reg r = s.reg r) → s'.sym = s.sym → s'.reg .rsp = stk (s.reg .rsp) l.length →
      Only R W (touched env T ra p s')) → Only R W (touched env T ra (l.map .push ++ p) s) := by
  induction l with
  | nil => intro s _ h; exact h s (fun _ _ => rfl) rfl (by simp [stk])
  | cons r l ih =>
    intro s hw h
    rw [List.map_cons, List.cons_append, touched_plain rfl]
    have e : s.reg .rsp - 8 = stk (s.reg .rsp) 1 := rfl
    have e1 : ((Line.push r).exec s).reg .rsp = stk (s.reg .rsp) 1 := by simp [Line.exec, pushVal, upd, stk]
    have e2 : ∀ x, x ≠ .rsp → ((Line.push r).exec s).reg x = s.reg x := fun x hx => by simp [Line.exec, pushVal, upd, hx]
    refine Only.append (Only.cons (by simp only [Access.ok, e]; exact hw 0 (by simp)) Only.nil) (ih _ ?_ ?_)
    · intro j hj
      rw [e1, stk_stk, Nat.add_comm 1]
      exact hw (j + 1) (by simpa using hj)
    · intro s' h1 h2 h3
      refine h s' (fun x hx => (h1 x hx).trans (e2 x hx)) (h2.trans rfl) ?_
      rw [h3, e1, stk_stk, List.length_cons, Nat.add_comm]

theorem touched_pops (l : List Reg) (hl : Reg.rsp ∉ l) : ∀ s : State, (∀ j ≤ l.length, R (cell (s.reg .rsp) j)) →
    Only R W (touched env T ra (l.map .pop ++ [.ret]) s) := by
  induction l with
  | nil => intro s h; rw [List.map_nil, List.nil_append, touched_ret]; exact Only.cons (by have := h 0 (by simp); simpa [cell, Access.ok] using this) Only.nil
  | cons r l ih =>
    intro s h
    have hr : Reg.rsp ≠ r := fun e => hl (e ▸ List.mem_cons_self)
    have e1 : ((Line.pop r).exec s).reg .rsp = s.reg .rsp + 8 := by simp [Line.exec, popReg, upd, hr]
    rw [List.map_cons, List.cons_append, touched_plain rfl]
    refine Only.append (Only.cons (by have := h 0 (by simp); simpa [cell, Access.ok] using this) Only.nil) (ih (fun h' => hl (List.mem_cons_of_mem _ h')) _ ?_)
    intro j hj
    have := h (j + 1) (by simpa using hj)
    rw [e1]
    have e : cell (s.reg .rsp + 8) j = cell (s.reg .rsp) (j + 1) := by
      simp only [cell]; rw [BitVec.add_assoc]; congr 1
      rw [show 8 * (j + 1) = 8 + 8 * j by omega, BitVec.ofNat_add]; rfl
    rw [e]; exact this

end

/-! ## What the register manager prints -/

/-- The base registers of the Montgomery routines. -/
abbrev montK : List Reg := [.rsp, .rdi, .rsi, .rcx]

section
variable {s : State} {R W : BitVec 64 → Prop} {N need : Nat}

/-- A source argument: a variable that exists, or an allowed operand. -/
def Arg.rd (need : Nat) (s : State) (R : BitVec 64 → Prop) : Arg → Prop
  | .idx n => n < need
  | .hw o => o.rd montK s R
/-- A destination argument. -/
def Arg.wr (need : Nat) (s : State) (W : BitVec 64 → Prop) : Arg → Prop
  | .idx n => n < need
  | .hw o => o.wr montK s W

/-- An instruction over variables with allowed arguments. -/
def Ins.argsOk (need : Nat) (s : State) (R W : BitVec 64 → Prop) : Ins Arg → Prop
  | .op2 o d b => (o.reads = true → d.rd need s R) ∧ b.rd need s R ∧ (o.writes = true → d.wr need s W)
  | .mulx hi lo src => src.rd need s R ∧ hi.wr need s W ∧ lo.wr need s W

/-- The cached variable is one of those on the stack. -/
def WrOk (N need : Nat) (wr : Wr) : Prop := ∀ x, wr = some x → N ≤ x.1 ∧ x.1 < need

/-- The stack slots may be read and written. -/
def SlotsOk (N need : Nat) (s : State) (R W : BitVec 64 → Prop) : Prop :=
  ∀ i, N ≤ i → i < need → R (s.reg .rsp + BitVec.ofNat 64 (8 * (i - N))) ∧ W (s.reg .rsp + BitVec.ofNat 64 (8 * (i - N)))

theorem regOf_free (n : Nat) : regOf n ∉ montK := by
  unfold regOf; split <;> decide

theorem slot_rd (h : SlotsOk N need s R W) {i : Nat} (h1 : N ≤ i) (h2 : i < need) : (slot N i).rd montK s R := ⟨by decide, (h i h1 h2).1⟩
theorem slot_wr (h : SlotsOk N need s R W) {i : Nat} (h1 : N ≤ i) (h2 : i < need) : (slot N i).wr montK s W := ⟨by decide, (h i h1 h2).2⟩

theorem good_spill (h : SlotsOk N need s R W) {i : Nat} (h1 : N ≤ i) (h2 : i < need) :
    (Line.ins (.op2 .mov (slot N i) (.reg .rbx))).good montK s R W :=
  ⟨fun h' => absurd h' Bool.false_ne_true, trivial, fun _ => slot_wr h h1 h2⟩

theorem good_fill (h : SlotsOk N need s R W) {i : Nat} (h1 : N ≤ i) (h2 : i < need) :
    (Line.ins (.op2 .mov (.reg .rbx) (slot N i))).good montK s R W :=
  ⟨fun h' => absurd h' Bool.false_ne_true, slot_rd h h1 h2, fun _ => by simp [Opd.wr]⟩

theorem loadWr_good (h : SlotsOk N need s R W) {wr : Wr} (hw : WrOk N need wr) {i : Nat} (h1 : N ≤ i) (h2 : i < need) (lv : Bool) :
    (∀ c ∈ (loadWr N wr i lv).1, (Line.ins c).good montK s R W) ∧ (loadWr N wr i lv).2.1 = i := by
  unfold loadWr
  split
  · rename_i r m
    have := hw _ rfl
    split
    · rename_i e; exact ⟨by simp, e⟩
    · refine ⟨fun c hc => ?_, rfl⟩
      simp only [List.mem_append] at hc
      rcases hc with hc | hc
      · split at hc
        · rw [List.mem_singleton] at hc; subst hc; exact good_spill h this.1 this.2
        · simp at hc
      · split at hc
        · rw [List.mem_singleton] at hc; subst hc; exact good_fill h h1 h2
        · simp at hc
  · refine ⟨fun c hc => ?_, rfl⟩
    dsimp only at hc
    split at hc
    · rw [List.mem_singleton] at hc; subst hc; exact good_fill h h1 h2
    · simp at hc

theorem param_good (h : SlotsOk N need s R W) {wr : Wr} (hw : WrOk N need wr) {a : Arg} (ha : ∀ n, a = .idx n → n < need) (dl : Option Arg) (acc : Acc) :
    (∀ c ∈ (param N dl wr a acc).1, (Line.ins c).good montK s R W) ∧ WrOk N need (param N dl wr a acc).2.2 ∧
      (a.rd need s R → (param N dl wr a acc).2.1.rd montK s R) ∧ (a.wr need s W → (param N dl wr a acc).2.1.wr montK s W) := by
  unfold param
  cases a with
  | hw o => exact ⟨by simp, hw, fun h => h, fun h => h⟩
  | idx n =>
    have hn := ha n rfl
    dsimp only
    split
    · exact ⟨by simp, hw, fun _ => trivial, fun _ => regOf_free n⟩
    · rename_i h1
      split
      · obtain ⟨l1, l2⟩ := loadWr_good h hw (Nat.not_lt.1 h1) hn acc.i
        refine ⟨l1, ?_, fun _ => trivial, fun _ => by simp [Opd.wr]⟩
        intro x hx
        cases hx
        rw [l2]; exact ⟨Nat.not_lt.1 h1, hn⟩
      · exact ⟨by simp, hw, fun _ => slot_rd h (Nat.not_lt.1 h1) hn, fun _ => slot_wr h (Nat.not_lt.1 h1) hn⟩

theorem rd_idx {a : Arg} (h : a.rd need s R) : ∀ n, a = .idx n → n < need := by rintro n rfl; exact h
theorem wr_idx {a : Arg} (h : a.wr need s W) : ∀ n, a = .idx n → n < need := by rintro n rfl; exact h

theorem emit_good (h : SlotsOk N need s R W) {wr wr' : Wr} (hw : WrOk N need wr) {i : Ins Arg} (hi : i.argsOk need s R W) {c : List (Ins Opd)}
    (he : emit N wr i = some (c, wr')) : (∀ x ∈ c, (Line.ins x).good montK s R W) ∧ WrOk N need wr' := by
  cases i with
  | op2 o d b =>
    obtain ⟨h1, h2, h3⟩ := hi
    have hd : ∀ n, d = .idx n → n < need := by
      cases hr : o.reads with
      | true => exact rd_idx (h1 hr)
      | false => exact wr_idx (h3 (by cases o <;> first | rfl | (exact absurd hr Bool.true_eq_false.mp)))
    unfold emit at he
    dsimp only at he
    split at he
    · cases he
    · split at he
      · cases he
      · rename_i ad as _ _ _ dl _
        cases he
        obtain ⟨a1, a2, a3, a4⟩ := param_good h hw hd dl ad
        obtain ⟨b1, b2, b3, b4⟩ := param_good h a2 (rd_idx h2) dl as
        refine ⟨fun x hx => ?_, b2⟩
        simp only [List.mem_append, List.mem_singleton] at hx
        rcases hx with (hx | hx) | hx
        · exact a1 x hx
        · exact b1 x hx
        · subst hx; exact ⟨fun h' => a3 (h1 h'), b3 h2, fun h' => a4 (h3 h')⟩
  | mulx hi lo src =>
    obtain ⟨h1, h2, h3⟩ := hi
    unfold emit at he
    dsimp only at he
    split at he
    · cases he
    · rename_i dl _
      cases he
      obtain ⟨a1, a2, a3, a4⟩ := param_good h hw (wr_idx h2) dl ⟨false, true, true⟩
      obtain ⟨b1, b2, b3, b4⟩ := param_good h a2 (wr_idx h3) dl ⟨false, true, true⟩
      obtain ⟨c1, c2, c3, c4⟩ := param_good h b2 (rd_idx h1) dl ⟨true, false, false⟩
      refine ⟨fun x hx => ?_, c2⟩
      simp only [List.mem_append, List.mem_singleton] at hx
      rcases hx with ((hx | hx) | hx) | hx
      · exact a1 x hx
      · exact b1 x hx
      · exact c1 x hx
      · subst hx; exact ⟨c3 h1, a4 h2, b4 h3⟩

theorem emitAll_good (h : SlotsOk N need s R W) (l : List (Ins Arg)) : ∀ {wr wr' : Wr} {c : List (Ins Opd)}, WrOk N need wr →
    (∀ i ∈ l, i.argsOk need s R W) → emitAll N wr l = some (c, wr') → (∀ x ∈ c, (Line.ins x).good montK s R W) ∧ WrOk N need wr' := by
  induction l with
  | nil => intro wr wr' c hw _ he; cases he; exact ⟨by simp, hw⟩
  | cons i l ih =>
    intro wr wr' c hw hi he
    unfold emitAll at he
    split at he
    · cases he
    · rename_i c1 w1 he1
      split at he
      · cases he
      · rename_i c2 w2 he2
        cases he
        obtain ⟨a1, a2⟩ := emit_good h hw (hi i List.mem_cons_self) he1
        obtain ⟨b1, b2⟩ := ih a2 (fun j hj => hi j (List.mem_cons_of_mem _ hj)) he2
        exact ⟨List.forall_mem_append.2 ⟨a1, b1⟩, b2⟩

theorem flushWr_good (h : SlotsOk N need s R W) {wr : Wr} (hw : WrOk N need wr) (rm : Bool) :
    (∀ x ∈ (flushWr N wr rm).1, (Line.ins x).good montK s R W) ∧ WrOk N need (flushWr N wr rm).2 := by
  unfold flushWr
  split
  · exact ⟨by simp, fun x hx => by cases hx⟩
  · rename_i r m
    have := hw _ rfl
    constructor
    · intro x hx
      dsimp only at hx
      split at hx
      · rw [List.mem_singleton] at hx; subst hx; exact good_spill h this.1 this.2
      · simp at hx
    · intro x hx
      dsimp only at hx
      split at hx
      · cases hx
      · cases hx; exact this

theorem emitCmps_good (h : SlotsOk N need s R W) : ∀ (n : Nat) {wr wr' : Wr} {c : List Line}, WrOk N need wr →
    (∀ i < n, (Ins.op2 .cmp (V (T0 + i)) (mq i)).argsOk need s R W) → emitCmps N wr n = some (c, wr') →
    (∀ x ∈ c, x.good montK s R W) ∧ WrOk N need wr'
  | 0, wr, wr', c, hw, _, he => by cases he; exact ⟨by simp, hw⟩
  | n + 1, wr, wr', c, hw, hi, he => by
    unfold emitCmps at he
    split at he
    · cases he
    · rename_i c1 w1 he1
      split at he
      · cases he
      · rename_i c2 w2 he2
        cases he
        obtain ⟨a1, a2⟩ := emit_good h hw (hi n (Nat.lt_succ_self n)) he1
        obtain ⟨b1, b2⟩ := emitCmps_good h n a2 (fun j hj => hi j (by omega)) he2
        refine ⟨?_, b2⟩
        simp only [List.forall_mem_append, all_code]
        exact ⟨⟨a1, by simp [Line.good]⟩, b1⟩

theorem emitTest_good (h : SlotsOk N need s R W) {wr wr' : Wr} (hw : WrOk N need wr) {n : Nat} {opt : Bool} (hn : T0 + n < need) {c : List Line}
    (he : emitTest N wr n opt = some (c, wr')) : (∀ x ∈ c, x.good montK s R W) ∧ WrOk N need wr' := by
  unfold emitTest at he
  split at he
  · cases he; exact ⟨by simp, hw⟩
  · split at he
    · cases he
    · rename_i c1 w1 he1
      cases he
      obtain ⟨a1, a2⟩ := emit_good h hw (i := .op2 .test (V (T0 + n)) (V (T0 + n))) ⟨fun _ => hn, hn, fun _ => hn⟩ he1
      refine ⟨?_, a2⟩
      simp only [List.forall_mem_append, all_code]
      exact ⟨a1, by simp [Line.good]⟩

theorem emitAll_mov {N : Nat} {l : List (Ins Arg)} {c : List (Ins Opd)} {w : Wr} (h : emitAll N none (o2 .mov vrcx vrdx :: l) = some (c, w)) :
    ∃ c', c = .op2 .mov (.reg .rcx) (.reg .rdx) :: c' ∧ emitAll N none l = some (c', w) := by
  unfold emitAll at h
  simp only [emit, Op2.acc, scanArg, param, Option.bind] at h
  split at h
  · cases h
  · rename_i c1 w1 he
    cases h
    exact ⟨_, rfl, he⟩

theorem touched_sub {env : String → Option (State → Option State)} {T : String → State → List Access} {ra : BitVec 64} {N need : Nat} (hN : N ≤ need)
    (p : List Line) (s : State)
    (h : ∀ s' : State, (∀ r, r ≠ .rsp → s'.reg r = s.reg r) → s'.sym = s.sym → s'.reg .rsp = stk (s.reg .rsp) (need - N) →
      Only R W (touched env T ra p s')) :
    Only R W (touched env T ra ((if N < need then [.ins (.op2 .sub (.reg .rsp) (.imm (BitVec.ofNat 64 (8 * (need - N)))))] else []) ++ p) s) := by
  split
  · rw [List.singleton_append, touched_plain rfl]
    refine Only.append (by simp [Line.acc, Ins.acc, Opd.addr, Op2.reads, Op2.writes, Only]) (h _ ?_ ?_ ?_)
    · intro r hr; simp [Line.exec, step, Ins.exec, Op2.writes, Opd.set, upd, hr]
    · rfl
    · simp [Line.exec, step, Ins.exec, Op2.writes, Opd.set, Opd.get, Op2.eval, upd, stk]
  · exact h s (fun _ _ => rfl) rfl (by rw [show need - N = 0 by omega, stk_zero])

theorem touched_add {env : String → Option (State → Option State)} {T : String → State → List Access} {ra : BitVec 64} {N need : Nat} (hN : N ≤ need)
    (p : List Line) (s : State)
    (h : ∀ s' : State, s'.reg .rsp = cell (s.reg .rsp) (need - N) → Only R W (touched env T ra p s')) :
    Only R W (touched env T ra ((if N < need then [.ins (.op2 .add (.reg .rsp) (.imm (BitVec.ofNat 64 (8 * (need - N)))))] else []) ++ p) s) := by
  split
  · rw [List.singleton_append, touched_plain rfl]
    refine Only.append (by simp [Line.acc, Ins.acc, Opd.addr, Op2.reads, Op2.writes, Only]) (h _ ?_)
    simp [Line.exec, step, Ins.exec, Op2.writes, Opd.set, Opd.get, Op2.eval, upd, cell]
  · exact h s (by rw [show need - N = 0 by omega]; simp [cell])

theorem stk_cell (S : BitVec 64) (F i : Nat) (h : i ≤ F) : cell (stk S F) i = stk S (F - i) := by
  rw [show F = (F - i) + i by omega, ← stk_stk, Nat.add_sub_cancel]
  simp only [cell, stk]
  rw [BitVec.sub_add_cancel]

theorem pushed_free (need : Nat) : Reg.rsp ∉ pushedRegs need := by
  unfold pushedRegs
  dsimp only
  split
  · decide
  · intro h; exact absurd (List.mem_of_mem_take h) (by decide)

/-- The end of the listing: the footer of the register manager. -/
def montTail (need : Nat) : List Line :=
  (if nUsed need < need then [.ins (.op2 .add (.reg .rsp) (.imm (BitVec.ofNat 64 (8 * (need - nUsed need)))))] else []) ++
    ((pushedRegs need).map .pop ++ [.ret])

theorem montTail_drop (need : Nat) (l : String) : dropTo l (montTail need) = [] := by
  have hp : ∀ (rs : List Reg), dropTo l (rs.map .pop ++ [.ret]) = [] := by
    intro rs; induction rs with
    | nil => rfl
    | cons r rs ih => exact ih
  rw [montTail]
  split
  · exact hp _
  · exact hp _

theorem code_ret (c : List (Ins Opd)) : Line.ret ∉ code c := by
  rw [code, List.mem_map]; rintro ⟨_, _, h⟩; cases h

theorem emitCmps_ret {N : Nat} : ∀ (n : Nat) {wr wr' : Wr} {c : List Line}, emitCmps N wr n = some (c, wr') → Line.ret ∉ c
  | 0, wr, wr', c, he => by cases he; simp
  | n + 1, wr, wr', c, he => by
    unfold emitCmps at he
    split at he
    · cases he
    · split at he
      · cases he
      · rename_i h2
        cases he
        simp only [List.mem_append, not_or]
        exact ⟨⟨code_ret _, by simp⟩, emitCmps_ret n h2⟩

/-- The listing: header, `mov rcx, rdx`, a part with fixed base registers, footer. -/
theorem template_parts {n : Nat} {opt : Bool} {upper : Nat → List (Ins Arg)} {p : List Line} (ht : template n opt upper = some p) :
    ∃ B : List Line, p = (pushedRegs (needed n opt)).reverse.map .push ++
      ((if nUsed (needed n opt) < needed n opt then
        [.ins (.op2 .sub (.reg .rsp) (.imm (BitVec.ofNat 64 (8 * (needed n opt - nUsed (needed n opt))))))] else []) ++
      (.ins (.op2 .mov (.reg .rcx) (.reg .rdx)) :: (B ++ montTail (needed n opt)))) ∧ Line.ret ∉ B ∧
      ∀ (s3 : State) (R W : BitVec 64 → Prop), SlotsOk (nUsed (needed n opt)) (needed n opt) s3 R W →
        (∀ i < n, R (s3.sym .q + BitVec.ofNat 64 (8 * i))) → R (s3.sym .np) → (∀ i < n, W (s3.reg .rdi + BitVec.ofNat 64 (8 * i))) →
        (∀ i ∈ rounds upper n opt, i.argsOk (needed n opt) s3 R W) → ∀ i ∈ B, i.good montK s3 R W := by
  unfold template at ht
  simp only [Option.bind_eq_some_iff, Prod.exists] at ht
  obtain ⟨c1, w1, e1, ct, w2, e2, cc, w3, e3, cs, w4, e4, co, w5, e5, ht⟩ := ht
  rw [Option.some.injEq] at ht
  subst ht
  rw [prologue, List.cons_append] at e1
  obtain ⟨c1', rfl, e1'⟩ := emitAll_mov e1
  clear e1
  have hneed' : 4 + n + 1 ≤ needed n opt := by unfold needed; omega
  refine ⟨code c1' ++ (code (flushWr (nUsed (needed n opt)) w1 false).1 ++ (ct ++ (cc ++ ([.label "sq"] ++ (code (flushWr (nUsed (needed n opt)) w3 true).1 ++ (code cs ++
      (code (flushWr (nUsed (needed n opt)) w4 true).1 ++ ([.label "done"] ++ (code (flushWr (nUsed (needed n opt)) (flushWr (nUsed (needed n opt)) w4 true).2 true).1 ++
      code co))))))))), ?_, ?_, ?_⟩
  · rw [montTail, show code (.op2 .mov (.reg .rcx) (.reg .rdx) :: c1') = [.ins (.op2 .mov (.reg .rcx) (.reg .rdx))] ++ code c1' from rfl]
    simp only [List.append_assoc, List.cons_append, List.nil_append]
  · have hct : Line.ret ∉ ct := by
      unfold emitTest at e2
      split at e2
      · cases e2; simp
      · split at e2
        · cases e2
        · cases e2
          simp only [List.mem_append, not_or]
          exact ⟨code_ret _, by simp⟩
    simp only [List.mem_append, not_or]
    exact ⟨code_ret _, code_ret _, hct, emitCmps_ret _ e3, by simp, code_ret _, code_ret _, code_ret _, by simp, code_ret _, code_ret _⟩
  · intro s3 R W hS hq3 hnp hd3 hu3
    obtain ⟨a1, a2⟩ := emitAll_good hS _ (wr := none) (fun x hx => by cases hx) (by
      simp only [List.forall_mem_append, List.forall_mem_cons]
      refine ⟨⟨by simp [Ins.argsOk, Op2.reads, Op2.writes, Arg.rd, Arg.wr, Opd.rd, hnp]; omega,
        by simp [Ins.argsOk, Op2.reads, Op2.writes, Arg.rd, Arg.wr]; omega, by simp⟩, hu3⟩) e1'
    obtain ⟨b1, b2⟩ := flushWr_good hS a2 false
    obtain ⟨d1, d2⟩ := emitTest_good hS b2 (show 4 + n < needed n opt by omega) e2
    obtain ⟨f1, f2⟩ := emitCmps_good hS n d2 (fun i hi => ⟨fun _ => (show 4 + i < needed n opt by omega), hq3 i hi, fun h => absurd h Bool.false_ne_true⟩) e3
    obtain ⟨i1, i2⟩ := flushWr_good hS f2 true
    obtain ⟨j1, j2⟩ := emitAll_good hS _ i2 (by
      simp only [subs, List.forall_mem_map, List.mem_range'_1]
      intro i hi
      exact ⟨fun _ => (show 4 + i < needed n opt by omega), hq3 i (by omega), fun _ => (show 4 + i < needed n opt by omega)⟩) e4
    obtain ⟨l1, l2⟩ := flushWr_good hS j2 true
    obtain ⟨m1, -⟩ := flushWr_good hS l2 true
    obtain ⟨o1, -⟩ := emitAll_good hS _ (wr := none) (fun x hx => by cases hx) (by
      simp only [stores, List.forall_mem_map, List.mem_range'_1]
      intro i hi
      exact ⟨fun h => absurd h Bool.false_ne_true, (show 4 + i < needed n opt by omega), fun _ => ⟨by decide, hd3 i (by omega)⟩⟩) e5
    simp only [List.forall_mem_append, all_code]
    exact ⟨a1, b1, d1, f1, by simp [Line.good], i1, j1, l1, by simp [Line.good], m1, o1⟩

theorem movRcx_regs (s2 : State) : (∀ r, r ≠ .rcx → ((Line.ins (.op2 .mov (.reg .rcx) (.reg .rdx))).exec s2).reg r = s2.reg r) ∧
    ((Line.ins (.op2 .mov (.reg .rcx) (.reg .rdx))).exec s2).reg .rcx = s2.reg .rdx ∧
    ((Line.ins (.op2 .mov (.reg .rcx) (.reg .rdx))).exec s2).sym = s2.sym := by
  refine ⟨fun r hr => ?_, ?_, rfl⟩
  · simp [Line.exec, step, Ins.exec, Op2.writes, Opd.set, upd, hr]
  · simp [Line.exec, step, Ins.exec, Op2.writes, Opd.set, Opd.get, Op2.eval, upd]

theorem nUsed_le (need : Nat) : nUsed need ≤ need := by unfold nUsed; split <;> omega

theorem slots_frame {n : Nat} {opt : Bool} {s s' : State} (hs : s'.reg .rsp = stk (s.reg .rsp) (frameCells n opt))
    (hR : ∀ j ≤ frameCells n opt, R (stk (s.reg .rsp) j)) (hW : ∀ j < frameCells n opt, W (stk (s.reg .rsp) (j + 1))) :
    SlotsOk (nUsed (needed n opt)) (needed n opt) s' R W := by
  have hF : frameCells n opt = (pushedRegs (needed n opt)).length + (needed n opt - nUsed (needed n opt)) := Nat.add_comm _ _
  intro i h1 h2
  have e : s'.reg .rsp + BitVec.ofNat 64 (8 * (i - nUsed (needed n opt))) = stk (s.reg .rsp) (frameCells n opt - (i - nUsed (needed n opt))) := by
    rw [hs, ← stk_cell _ _ _ (by omega)]; rfl
  rw [e]
  refine ⟨hR _ (by omega), ?_⟩
  rw [show frameCells n opt - (i - nUsed (needed n opt)) = (frameCells n opt - (i - nUsed (needed n opt)) - 1) + 1 by omega]
  exact hW _ (by omega)

theorem touched_template {env : String → Option (State → Option State)} {T : String → State → List Access} {ra : BitVec 64} {n : Nat} {opt : Bool}
    {upper : Nat → List (Ins Arg)} {p : List Line} (ht : template n opt upper = some p) (s : State)
    (hR : ∀ j ≤ frameCells n opt, R (stk (s.reg .rsp) j)) (hW : ∀ j < frameCells n opt, W (stk (s.reg .rsp) (j + 1)))
    (hq : ∀ i < n, R (s.sym .q + BitVec.ofNat 64 (8 * i))) (hnp : R (s.sym .np))
    (hd : ∀ i < n, W (s.reg .rdi + BitVec.ofNat 64 (8 * i)))
    (hu : ∀ s' : State, s'.reg .rsi = s.reg .rsi → s'.reg .rcx = s.reg .rdx → (∀ i < n, R (s'.sym .q + BitVec.ofNat 64 (8 * i))) →
      ∀ i ∈ rounds upper n opt, i.argsOk (needed n opt) s' R W) :
    Only R W (touched env T ra p s) := by
  obtain ⟨B, rfl, -, hB⟩ := template_parts ht
  have hF : frameCells n opt = (pushedRegs (needed n opt)).length + (needed n opt - nUsed (needed n opt)) := Nat.add_comm _ _
  have hlen : ((pushedRegs (needed n opt)).reverse).length = (pushedRegs (needed n opt)).length := List.length_reverse
  refine touched_pushes _ _ s (fun j hj => hW j (by omega)) fun s1 h1 h2 h3 => ?_
  refine touched_sub (nUsed_le _) _ s1 fun s2 g1 g2 g3 => ?_
  have hrsp : s2.reg .rsp = stk (s.reg .rsp) (frameCells n opt) := by rw [g3, h3, stk_stk, hlen, hF]
  have hreg : ∀ r, r ≠ .rsp → s2.reg r = s.reg r := fun r hr => (g1 r hr).trans (h1 r hr)
  rw [touched_plain rfl]
  refine Only.append (by simp [Line.acc, Ins.acc, Opd.addr, Op2.reads, Op2.writes, Only]) ?_
  obtain ⟨k1, k2, k3⟩ := movRcx_regs s2
  generalize (Line.ins (.op2 .mov (.reg .rcx) (.reg .rdx))).exec s2 = s3 at *
  have k3 : s3.sym = s.sym := k3.trans (g2.trans h2)
  have hS := slots_frame ((k1 _ (by decide)).trans hrsp) hR hW
  have hq3 : ∀ i < n, R (s3.sym .q + BitVec.ofNat 64 (8 * i)) := by rw [k3]; exact hq
  have hd3 : ∀ i < n, W (s3.reg .rdi + BitVec.ofNat 64 (8 * i)) := by rw [k1 _ (by decide), hreg _ (by decide)]; exact hd
  have hu3 := hu s3 (by rw [k1 _ (by decide), hreg _ (by decide)]) (by rw [k2, hreg _ (by decide)]) hq3
  refine touched_body (env := env) (T := T) (ra := ra) (K := montK) (s := s3) (R := R) (W := W) (by decide)
    (by rw [k1 _ (by decide), hrsp]; exact hR _ (Nat.le_refl _)) _ (montTail_drop _) ?_ B (hB s3 R W hS hq3 (by rw [k3]; exact hnp) hd3 hu3) s3 (Bases.refl _ _)
  intro s' hs'
  refine touched_add (nUsed_le _) _ s' fun s'' hs'' => touched_pops _ (pushed_free _) s'' ?_
  intro j hj
  have hr' : s'.reg .rsp = stk (s.reg .rsp) (frameCells n opt) := by rw [hs'.1 _ (by decide), k1 _ (by decide), hrsp]
  rw [hs'', hr', stk_cell _ _ _ (by omega), stk_cell _ _ _ (by omega)]
  exact hR _ (by omega)

/-! ## What a Montgomery routine returns with -/

theorem pushes_run {env : String → Option (State → Option State)} {ra : BitVec 64} (l : List Reg) (p : List Line) : ∀ s : State,
    ∃ s' : State, run env ra (l.map .push ++ p) s = run env ra p s' ∧ (∀ r, r ≠ .rsp → s'.reg r = s.reg r) ∧ s'.sym = s.sym ∧
      s'.reg .rsp = stk (s.reg .rsp) l.length := by
  induction l with
  | nil => intro s; exact ⟨s, rfl, fun _ _ => rfl, rfl, by simp [stk]⟩
  | cons r l ih =>
    intro s
    obtain ⟨s', h1, h2, h3, h4⟩ := ih ((Line.push r).exec s)
    refine ⟨s', ?_, fun x hx => (h2 x hx).trans ?_, h3.trans rfl, ?_⟩
    · rw [List.map_cons, List.cons_append, run_plain rfl, h1]
    · simp [Line.exec, pushVal, upd, hx]
    · rw [h4, show ((Line.push r).exec s).reg .rsp = stk (s.reg .rsp) 1 by simp [Line.exec, pushVal, upd, stk], stk_stk, List.length_cons, Nat.add_comm]

theorem pops_run {env : String → Option (State → Option State)} {ra : BitVec 64} (l : List Reg) (hl : Reg.rsp ∉ l) : ∀ s : State,
    ∃ t : State, run env ra (l.map .pop ++ [.ret]) s = some t ∧ (∀ r, r ≠ .rsp → r ∉ l → t.reg r = s.reg r) ∧ t.sym = s.sym ∧
      t.reg .rsp = cell (s.reg .rsp) (l.length + 1) := by
  induction l with
  | nil => intro s; exact ⟨_, run_ret _ _ _ _, fun r h _ => by simp [upd, h], rfl, by simp [upd, cell]⟩
  | cons r l ih =>
    intro s
    have hr : Reg.rsp ≠ r := fun e => hl (e ▸ List.mem_cons_self)
    obtain ⟨t, h1, h2, h3, h4⟩ := ih (fun h' => hl (List.mem_cons_of_mem _ h')) ((Line.pop r).exec s)
    refine ⟨t, ?_, fun x hx hm => ?_, h3.trans rfl, ?_⟩
    · rw [List.map_cons, List.cons_append, run_plain rfl, h1]
    · rw [List.mem_cons, not_or] at hm
      rw [h2 x hx hm.2]
      simp [Line.exec, popReg, upd, hx, hm.1]
    · rw [h4, show ((Line.pop r).exec s).reg .rsp = cell (s.reg .rsp) 1 by simp [Line.exec, popReg, upd, hr, cell], cell_add, List.length_cons]
      congr 1; omega

/-- A Montgomery routine returns behind its return address, with `rdi` and `rsi` as they were. -/
theorem run_template {env : String → Option (State → Option State)} {ra : BitVec 64} {n : Nat} {opt : Bool}
    {upper : Nat → List (Ins Arg)} {p : List Line} (ht : template n opt upper = some p) {s t : State}
    (hu : ∀ s' : State, ∀ i ∈ rounds upper n opt, i.argsOk (needed n opt) s' (fun _ => True) (fun _ => True)) (hr : run env ra p s = some t) :
    t.reg .rsp = s.reg .rsp + 8 ∧ t.reg .rdi = s.reg .rdi ∧ t.reg .rsi = s.reg .rsi ∧ t.sym = s.sym := by
  obtain ⟨B, rfl, hret, hB⟩ := template_parts ht
  have hF : frameCells n opt = (pushedRegs (needed n opt)).length + (needed n opt - nUsed (needed n opt)) := Nat.add_comm _ _
  have hlen : ((pushedRegs (needed n opt)).reverse).length = (pushedRegs (needed n opt)).length := List.length_reverse
  obtain ⟨s1, e1, h1, h2, h3⟩ := pushes_run (env := env) (ra := ra) (pushedRegs (needed n opt)).reverse
    ((if nUsed (needed n opt) < needed n opt then
        [.ins (.op2 .sub (.reg .rsp) (.imm (BitVec.ofNat 64 (8 * (needed n opt - nUsed (needed n opt))))))] else []) ++
      (.ins (.op2 .mov (.reg .rcx) (.reg .rdx)) :: (B ++ montTail (needed n opt)))) s
  rw [e1] at hr
  obtain ⟨s2, e2, g1, g2, g3⟩ : ∃ s2 : State, run env ra ((if nUsed (needed n opt) < needed n opt then
        [.ins (.op2 .sub (.reg .rsp) (.imm (BitVec.ofNat 64 (8 * (needed n opt - nUsed (needed n opt))))))] else []) ++
      (.ins (.op2 .mov (.reg .rcx) (.reg .rdx)) :: (B ++ montTail (needed n opt)))) s1 =
      run env ra (.ins (.op2 .mov (.reg .rcx) (.reg .rdx)) :: (B ++ montTail (needed n opt))) s2 ∧ (∀ r, r ≠ .rsp → s2.reg r = s1.reg r) ∧
      s2.sym = s1.sym ∧ s2.reg .rsp = stk (s1.reg .rsp) (needed n opt - nUsed (needed n opt)) := by
    have := nUsed_le (needed n opt)
    split
    · refine ⟨(Line.ins (.op2 .sub (.reg .rsp) (.imm (BitVec.ofNat 64 (8 * (needed n opt - nUsed (needed n opt))))))).exec s1,
          by rw [List.singleton_append, run_plain rfl], fun r hr => ?_, rfl, ?_⟩
      · simp [Line.exec, step, Ins.exec, Op2.writes, Opd.set, upd, hr]
      · simp [Line.exec, step, Ins.exec, Op2.writes, Opd.set, Opd.get, Op2.eval, upd, stk]
    · exact ⟨s1, rfl, fun _ _ => rfl, rfl, by rw [show needed n opt - nUsed (needed n opt) = 0 by omega, stk_zero]⟩
  rw [e2, run_plain rfl] at hr
  have hrsp : s2.reg .rsp = stk (s.reg .rsp) (frameCells n opt) := by rw [g3, h3, stk_stk, hlen, hF]
  have hreg : ∀ r, r ≠ .rsp → s2.reg r = s.reg r := fun r hr => (g1 r hr).trans (h1 r hr)
  obtain ⟨k1, k2, k3⟩ := movRcx_regs s2
  generalize (Line.ins (.op2 .mov (.reg .rcx) (.reg .rdx))).exec s2 = s3 at *
  obtain ⟨s4, b1, b2⟩ := run_body (env := env) (ra := ra) (K := montK) (s := s3) _ (montTail_drop _) B
    (hB s3 (fun _ => True) (fun _ => True) (fun _ _ _ => ⟨trivial, trivial⟩) (fun _ _ => trivial) trivial (fun _ _ => trivial) (hu s3)) (Bases.refl _ _) hr
  rcases b2 with b2 | b2
  · obtain ⟨s5, e5, c1, c2, c3⟩ : ∃ s5 : State, run env ra (montTail (needed n opt)) s4 = run env ra ((pushedRegs (needed n opt)).map .pop ++ [.ret]) s5 ∧
        (∀ r, r ≠ .rsp → s5.reg r = s4.reg r) ∧ s5.sym = s4.sym ∧ s5.reg .rsp = cell (s4.reg .rsp) (needed n opt - nUsed (needed n opt)) := by
      have := nUsed_le (needed n opt)
      rw [montTail]
      split
      · refine ⟨(Line.ins (.op2 .add (.reg .rsp) (.imm (BitVec.ofNat 64 (8 * (needed n opt - nUsed (needed n opt))))))).exec s4,
          by rw [List.singleton_append, run_plain rfl], fun r hr => ?_, rfl, ?_⟩
        · simp [Line.exec, step, Ins.exec, Op2.writes, Opd.set, upd, hr]
        · simp [Line.exec, step, Ins.exec, Op2.writes, Opd.set, Opd.get, Op2.eval, upd, cell]
      · exact ⟨s4, rfl, fun _ _ => rfl, rfl, by rw [show needed n opt - nUsed (needed n opt) = 0 by omega]; simp [cell]⟩
    obtain ⟨t', e6, d1, d2, d3⟩ := pops_run (env := env) (ra := ra) (pushedRegs (needed n opt)) (pushed_free _) s5
    rw [e5, e6] at b2
    cases b2
    have hdi : Reg.rdi ∉ pushedRegs (needed n opt) := by
      unfold pushedRegs; dsimp only; split
      · decide
      · intro h; exact absurd (List.mem_of_mem_take h) (by decide)
    have hsi : Reg.rsi ∉ pushedRegs (needed n opt) := by
      unfold pushedRegs; dsimp only; split
      · decide
      · intro h; exact absurd (List.mem_of_mem_take h) (by decide)
    refine ⟨?_, ?_, ?_, ?_⟩
    · rw [d3, c3, b1.1 _ (by decide), k1 _ (by decide), hrsp, cell_add, hF]
      rw [show needed n opt - nUsed (needed n opt) + ((pushedRegs (needed n opt)).length + 1) =
        ((pushedRegs (needed n opt)).length + (needed n opt - nUsed (needed n opt))) + 1 by omega, ← cell_add, stk_cell _ _ _ (Nat.le_refl _), Nat.sub_self, stk_zero]
      rfl
    · rw [d1 _ (by decide) hdi, c1 _ (by decide), b1.1 _ (by decide), k1 _ (by decide), hreg _ (by decide)]
    · rw [d1 _ (by decide) hsi, c1 _ (by decide), b1.1 _ (by decide), k1 _ (by decide), hreg _ (by decide)]
    · rw [d2, c2, b1.2, k3, g2, h2]
  · exact absurd b2.1 hret

/-! ## The four programs -/

theorem all_flatMap' {α : Type} {n : Nat} {f : Nat → List α} {P : α → Prop} :
    (∀ b ∈ (List.range' 0 n).flatMap f, P b) ↔ ∀ a < n, ∀ b ∈ f a, P b := by
  rw [all_flatMap]; simp only [List.mem_range'_1]
  constructor
  · intro h a ha; exact h a ⟨by omega, by omega⟩
  · intro h a ha; exact h a (by omega)

/-- Bounds of variable numbers. -/
local macro "idxs" : tactic => `(tactic| (
  repeat' (first | (apply And.intro) | (intro _))
  all_goals omega))

/-- The arguments of the instructions of a program. -/
local macro "argsOk" : tactic => `(tactic| (
  simp +contextual [Ins.argsOk, Arg.rd, Arg.wr, Opd.rd, Opd.wr, Op2.reads, Op2.writes, needed, T0, *]))

theorem second_ok {n : Nat} (hn : 0 < n) {opt : Bool} (hq : ∀ i < n, R (s.sym .q + BitVec.ofNat 64 (8 * i))) :
    ∀ i ∈ second n opt, i.argsOk (needed n opt) s R W := by
  have h0 : R (s.sym .q) := by have := hq 0 hn; simpa using this
  cases opt <;>
  · simp only [second, List.forall_mem_append, all_flatMap, all_range']
    argsOk
    idxs

theorem clearTop_ok {n : Nat} {opt : Bool} : ∀ i ∈ clearTop n opt, i.argsOk (needed n opt) s R W := by
  cases opt <;>
  · simp only [clearTop]
    argsOk
    idxs

theorem first_ok {n : Nat} (hn : 0 < n) {opt : Bool} {x0 : Arg} {x : Nat → Arg} (h0 : x0.rd (needed n opt) s R) (hx : ∀ i < n, (x i).rd (needed n opt) s R) :
    ∀ i ∈ firstProduct n opt x0 x, i.argsOk (needed n opt) s R W := by
  simp only [firstProduct, List.forall_mem_append, all_flatMap, all_range', List.forall_mem_cons]
  refine ⟨⟨⟨⟨⟨h0, ?_, ?_⟩, by simp⟩, fun a h1 h2 => ⟨⟨hx a h2, ?_, ?_⟩, ⟨fun _ => ?_, ?_, fun _ => ?_⟩, by simp⟩⟩, ?_⟩, ?_⟩
  all_goals (try simp only [Arg.rd, Arg.wr, needed, T0])
  all_goals first | omega | skip
  · argsOk
    idxs
  · cases opt
    · argsOk
      omega
    · simp

theorem next_ok {n : Nat} {opt : Bool} {x : Nat → Arg} (hx : ∀ i < n, (x i).rd (needed n opt) s R) :
    ∀ i ∈ nextProduct n opt x, i.argsOk (needed n opt) s R W := by
  simp only [nextProduct, List.forall_mem_append, all_flatMap', List.forall_mem_cons]
  refine ⟨⟨clearTop_ok, fun a h2 => ⟨⟨hx a h2, ?_, ?_⟩, ⟨fun _ => ?_, ?_, fun _ => ?_⟩, ⟨fun _ => ?_, ?_, fun _ => ?_⟩, by simp⟩⟩, ?_⟩
  all_goals (try simp only [Arg.rd, Arg.wr, needed, T0])
  all_goals first | omega | skip
  cases opt <;>
  · argsOk
    idxs

theorem rounds_ok {n : Nat} (hn : 0 < n) {opt : Bool} {upper : Nat → List (Ins Arg)} (hq : ∀ i < n, R (s.sym .q + BitVec.ofNat 64 (8 * i)))
    (hu : ∀ i < n, ∀ x ∈ upper i, x.argsOk (needed n opt) s R W) : ∀ i ∈ rounds upper n opt, i.argsOk (needed n opt) s R W := by
  simp only [rounds, all_flatMap', List.forall_mem_append]
  exact fun i hi => ⟨hu i hi, second_ok hn hq⟩

theorem load_ok {need : Nat} {o : Opd} (h : o.rd montK s R) : (Ins.op2 .mov vrdx (.hw o)).argsOk need s R W :=
  ⟨fun h' => absurd h' Bool.false_ne_true, h, fun _ => by simp [Arg.wr, Opd.wr]⟩

theorem upperMul_ok {n : Nat} (hn : 0 < n) {opt : Bool} (ha : ∀ i < n, R (s.reg .rsi + BitVec.ofNat 64 (8 * i)))
    (hb : ∀ i < n, R (s.reg .rcx + BitVec.ofNat 64 (8 * i))) : ∀ i < n, ∀ x ∈ upperMul n opt i, x.argsOk (needed n opt) s R W := by
  intro i hi
  simp only [upperMul, List.forall_mem_append, List.forall_mem_cons]
  refine ⟨⟨load_ok ⟨by decide, ha i hi⟩, by simp⟩, ?_⟩
  split
  · exact first_ok hn ⟨by decide, hb 0 hn⟩ fun i hi => ⟨by decide, hb i hi⟩
  · exact next_ok fun i hi => ⟨by decide, hb i hi⟩

theorem upperSquare_ok {n : Nat} (hn : 0 < n) {opt : Bool} (ha : ∀ i < n, R (s.reg .rsi + BitVec.ofNat 64 (8 * i))) :
    ∀ i < n, ∀ x ∈ upperSquare n opt i, x.argsOk (needed n opt) s R W := by
  intro i hi
  simp only [upperSquare, List.forall_mem_append, List.forall_mem_cons]
  refine ⟨⟨load_ok ⟨by decide, ha i hi⟩, by simp⟩, ?_⟩
  split
  · exact first_ok hn trivial fun i hi => ⟨by decide, ha i hi⟩
  · exact next_ok fun i hi => ⟨by decide, ha i hi⟩

theorem upperMul1_ok {n : Nat} (hn : 0 < n) {opt : Bool} (ha : ∀ i < n, R (s.reg .rsi + BitVec.ofNat 64 (8 * i))) :
    ∀ i < n, ∀ x ∈ upperMul1 n opt i, x.argsOk (needed n opt) s R W := by
  intro i hi
  unfold upperMul1
  split
  · simp only [List.forall_mem_append, List.forall_mem_cons]
    exact ⟨⟨load_ok trivial, by simp⟩, first_ok hn ⟨by decide, ha 0 hn⟩ fun i hi => ⟨by decide, ha i hi⟩⟩
  · exact clearTop_ok

theorem upperFrom_ok {n : Nat} {opt : Bool} (ha : ∀ i < n, R (s.reg .rsi + BitVec.ofNat 64 (8 * i))) :
    ∀ i < n, ∀ x ∈ upperFrom n opt i, x.argsOk (needed n opt) s R W := by
  intro i hi
  unfold upperFrom
  split
  · simp only [List.forall_mem_append, all_flatMap']
    cases opt <;>
    · argsOk
      try idxs
  · exact clearTop_ok

end

end FF.X86
