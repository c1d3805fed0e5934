import Verif.AsmBuilderProof

/-!
# Printing keeps the meaning: instruction kinds and sequences
-/

namespace FF.X86

/-- The pointers and labels have not changed. -/
structure Base (s0 s : State) : Prop where
  rsi : s.reg .rsi = s0.reg .rsi
  rcx : s.reg .rcx = s0.reg .rcx
  rdi : s.reg .rdi = s0.reg .rdi
  sym : s.sym = s0.sym

theorem Base.ok {g : Cfg} {s0 s : State} (h : Base s0 s) {o : Opd} (ho : HwOk g s0 o) : HwOk g s o :=
  ho.congr (by rintro r (rfl | rfl | rfl) <;> [exact h.rsi; exact h.rcx; exact h.rdi]) h.sym

/-- `is`, printed when variable `c` is cached, keeps the relation and leaves variable `c'` cached. -/
def Sim (g : Cfg) (s0 : State) (c : Option Nat) (is : List (Ins Arg)) (c' : Option Nat) : Prop :=
  ∀ (wr : Wr) (st : VState) (s : State), wr.map Prod.fst = c → Rel g wr st s → Base s0 st.s →
    ∃ l wr', emitAll g.N wr is = some (l, wr') ∧ wr'.map Prod.fst = c' ∧ Rel g wr' (vsteps is st) (steps l s) ∧
      Base s0 (vsteps is st).s

theorem Sim.nil {g : Cfg} {s0 : State} {c : Option Nat} : Sim g s0 c [] c :=
  fun wr _ _ h hr hb => ⟨[], wr, rfl, h, hr, hb⟩

theorem emitAll_append (N : Nat) (wr : Wr) (l l' : List (Ins Arg)) :
    emitAll N wr (l ++ l') = (emitAll N wr l).bind fun (c, w) => (emitAll N w l').map fun (c', w') => (c ++ c', w') := by
  induction l generalizing wr with
  | nil => cases h : emitAll N wr l' <;> simp [emitAll, h]
  | cons i l ih =>
    simp only [List.cons_append, emitAll]
    cases h : emit N wr i with
    | none => rfl
    | some p =>
      simp only [ih]
      cases h2 : emitAll N p.2 l with
      | none => rfl
      | some p2 =>
        simp only [Option.bind_some]
        cases h3 : emitAll N p2.2 l' with
        | none => rfl
        | some p3 => simp

theorem Sim.append {g : Cfg} {s0 : State} {c c' c'' : Option Nat} {l l' : List (Ins Arg)} (h : Sim g s0 c l c')
    (h' : Sim g s0 c' l' c'') : Sim g s0 c (l ++ l') c'' := by
  intro wr st s hw hr hb
  obtain ⟨p, wr1, e1, w1, r1, b1⟩ := h wr st s hw hr hb
  obtain ⟨p', wr2, e2, w2, r2, b2⟩ := h' wr1 _ _ w1 r1 b1
  refine ⟨p ++ p', wr2, ?_, w2, ?_, ?_⟩
  · rw [emitAll_append, e1]; simp [e2]
  · rw [vsteps_append, steps_append]; exact r2
  · rw [vsteps_append]; exact b2

theorem Sim.cons {g : Cfg} {s0 : State} {c c' c'' : Option Nat} {i : Ins Arg} {l' : List (Ins Arg)}
    (h : Sim g s0 c [i] c') (h' : Sim g s0 c' l' c'') : Sim g s0 c (i :: l') c'' := Sim.append h h'

theorem Sim.loop {g : Cfg} {s0 : State} (C : Nat → Option Nat) (f : Nat → List (Ins Arg)) (k m : Nat)
    (h : ∀ j, k ≤ j → j < k + m → Sim g s0 (C j) (f j) (C (j + 1))) :
    Sim g s0 (C k) ((List.range' k m).flatMap f) (C (k + m)) := by
  induction m generalizing k with
  | zero => exact Sim.nil
  | succ m ih =>
    rw [List.range'_succ, List.flatMap_cons, show k + (m + 1) = k + 1 + m by omega]
    exact (h k (le_refl _) (by omega)).append (ih (k + 1) (fun j hj hj' => h j (by omega) (by omega)))

/-- One instruction. -/
theorem Sim.one {g : Cfg} {s0 : State} {c c' : Option Nat} {i : Ins Arg}
    (h : ∀ (wr : Wr) (st : VState) (s : State), wr.map Prod.fst = c → Rel g wr st s → Base s0 st.s →
      ∃ l wr', emit g.N wr i = some (l, wr') ∧ wr'.map Prod.fst = c' ∧ Rel g wr' (vstep i st) (steps l s) ∧
        Base s0 (vstep i st).s) : Sim g s0 c [i] c' := by
  intro wr st s hw hr hb
  obtain ⟨l, wr', e, w, r, b⟩ := h wr st s hw hr hb
  exact ⟨l, wr', by simp [emitAll, e], w, r, b⟩

/-- The cached variable after an access to variable `a`. -/
def cc (N a : Nat) (c : Option Nat) : Option Nat := if N ≤ a then some a else c

theorem base_idx (s0 : State) {o : Op2} {n : Nat} {a : Arg} {st : VState} (h : Base s0 st.s) :
    Base s0 (vstep (.op2 o (.idx n) a) st).s := by
  simp only [vstep, Ins.exec]
  split <;> exact ⟨h.rsi, h.rcx, h.rdi, h.sym⟩

theorem placedLow {g : Cfg} {wr : Wr} {s : State} {n : Nat} (h : n < g.N) (h' : n < g.need) :
    Placed g wr s (.idx n) (.reg (regOf n)) := ⟨h', Or.inl ⟨h, rfl⟩⟩

theorem placedSlot {g : Cfg} {wr : Wr} {s : State} {n : Nat} (h : g.N ≤ n) (h' : n < g.need)
    (hw : wr.map Prod.fst ≠ some n) : Placed g wr s (.idx n) (slot g.N n) :=
  ⟨h', Or.inr ⟨h, Or.inr ⟨rfl, fun m hm => hw (by rw [hm]; rfl)⟩⟩⟩

theorem placedRbx {g : Cfg} {s : State} {n : Nat} {m : Bool} (h : g.N ≤ n) (h' : n < g.need) :
    Placed g (some (n, m)) s (.idx n) (.reg .rbx) := ⟨h', Or.inr ⟨h, Or.inl ⟨rfl, m, rfl⟩⟩⟩

theorem markedLow {g : Cfg} {wr : Wr} {n : Nat} (h : n < g.N) : Marked g wr (.idx n) := fun h' => by omega

theorem markedTrue {g : Cfg} {k n : Nat} : Marked g (some (k, true)) (.idx n) := by
  intro _ m hm
  simp only [Option.some.injEq, Prod.mk.injEq] at hm
  exact hm.2.symm

theorem markedSlot {g : Cfg} {wr : Wr} {n : Nat} (hw : wr.map Prod.fst ≠ some n) : Marked g wr (.idx n) :=
  fun _ m hm => absurd (by rw [hm]; rfl) hw

theorem loadWr_same (N n : Nat) (m lv : Bool) : loadWr N (some (n, m)) n lv = ([], (n, m)) := by simp [loadWr]

variable {g : Cfg} {s0 : State} {c : Option Nat}

/-- `mov` of a register variable to a variable. -/
theorem sim_mov (hg : g.Ok) {a b : Nat} (ha : a < g.need) (hb : b < g.N) (hb' : b < g.need)
    (hc : g.N ≤ a → c ≠ some a) : Sim g s0 c [o2 .mov (V a) (V b)] c := by
  refine Sim.one fun wr st s hw hr hbase => ?_
  by_cases h : g.N ≤ a
  · refine ⟨[.op2 .mov (slot g.N a) (.reg (regOf b))], wr, ?_, hw, ?_, base_idx s0 hbase⟩
    · simp [emit, Op2.acc, scanArg, param, h, hb, Nat.not_le.mpr hb, Nat.not_lt.mpr h]
    · exact hr.op2 hg .mov (placedSlot h ha (by rw [hw]; exact hc h)) (placedLow hb hb')
        (fun _ => markedSlot (by rw [hw]; exact hc h))
  · refine ⟨[.op2 .mov (.reg (regOf a)) (.reg (regOf b))], wr, ?_, hw, ?_, base_idx s0 hbase⟩
    · simp [emit, Op2.acc, scanArg, param, h, hb, Nat.not_le.mpr hb, Nat.lt_of_not_le h]
    · exact hr.op2 hg .mov (placedLow (by omega) ha) (placedLow hb hb') (fun _ => markedLow (by omega))

/-- The additions with carry. -/
theorem sim_ad (hg : g.Ok) {o : Op2} (ho : o = .adcx ∨ o = .adox) {a b : Nat} (ha : a < g.need) (hb : b < g.need)
    (hc : a < g.N → g.N ≤ b → c ≠ some b) : Sim g s0 c [o2 o (V a) (V b)] (cc g.N a c) := by
  refine Sim.one fun wr st s hw hr hbase => ?_
  have hacc : o.acc = some (⟨true, true, true⟩, ⟨true, false, false⟩) := by rcases ho with rfl | rfl <;> rfl
  by_cases h : g.N ≤ a
  · obtain ⟨e1, r1⟩ := loadWr_val hg h ha hr
    set L := loadWr g.N wr a true with hL
    obtain ⟨lc, la, lm⟩ := L
    simp only at e1 r1
    subst e1
    have r2 : Rel g (some (la, true)) st (steps lc s) := r1.mark (fun _ => rfl)
    by_cases hbl : b < g.N
    · refine ⟨lc ++ [.op2 o (.reg .rbx) (.reg (regOf b))], some (la, true), ?_, ?_, ?_, base_idx s0 hbase⟩
      · simp [emit, hacc, scanArg, param, h, hbl, Nat.not_le.mpr hbl, Nat.not_lt.mpr h, ← hL]
      · simp [cc, h]
      · rw [steps_append]
        exact r2.op2 hg o (placedRbx h ha) (placedLow hbl hb) (fun _ => markedTrue)
    · have hbN : g.N ≤ b := by omega
      by_cases hab : b = la
      · subst hab
        refine ⟨lc ++ [.op2 o (.reg .rbx) (.reg .rbx)], some (b, true), ?_, ?_, ?_, base_idx s0 hbase⟩
        · simp [emit, hacc, scanArg, param, h, Nat.not_lt.mpr h, ← hL, loadWr_same]
        · simp [cc, h]
        · rw [steps_append]
          exact r2.op2 hg o (placedRbx h ha) (placedRbx h ha) (fun _ => markedTrue)
      · refine ⟨lc ++ [.op2 o (.reg .rbx) (slot g.N b)], some (la, true), ?_, ?_, ?_, base_idx s0 hbase⟩
        · have hba : ¬ la = b := fun h => hab h.symm
          simp [emit, hacc, scanArg, param, h, hbN, hba, Nat.not_lt.mpr hbN, Nat.not_lt.mpr h, ← hL]
        · simp [cc, h]
        · rw [steps_append]
          exact r2.op2 hg o (placedRbx h ha) (placedSlot hbN hb (by simp; omega)) (fun _ => markedTrue)
  · have hal : a < g.N := by omega
    have hcc : cc g.N a c = c := by simp [cc, h]
    rw [hcc]
    by_cases hbl : b < g.N
    · refine ⟨[.op2 o (.reg (regOf a)) (.reg (regOf b))], wr, ?_, hw, ?_, base_idx s0 hbase⟩
      · simp [emit, hacc, scanArg, param, hal, hbl, Nat.not_le.mpr hbl, Nat.not_le.mpr hal]
      · exact hr.op2 hg o (placedLow hal ha) (placedLow hbl hb) (fun _ => markedLow hal)
    · have hbN : g.N ≤ b := by omega
      refine ⟨[.op2 o (.reg (regOf a)) (slot g.N b)], wr, ?_, hw, ?_, base_idx s0 hbase⟩
      · simp [emit, hacc, scanArg, param, hal, hbN, Nat.not_lt.mpr hbN, Nat.not_le.mpr hal]
      · exact hr.op2 hg o (placedLow hal ha) (placedSlot hbN hb (by rw [hw]; exact hc hal hbN)) (fun _ => markedLow hal)

/-- Memory operands (not registers). -/
def Opd.isMem : Opd → Bool
  | .mem _ _ => true
  | .sym _ _ => true
  | _ => false

theorem vstep_overwrite_mov (n : Nat) (x : BitVec 64) (o : Opd) (st : VState) :
    vstep (.op2 .mov (.idx n) (.hw o)) { st with v := upd st.v n x } = vstep (.op2 .mov (.idx n) (.hw o)) st := by
  simp only [vstep, Ins.exec, Op2.eval, Op2.writes, if_true, Arg.set, Arg.get]
  congr 1
  funext k
  simp only [upd_apply]
  split <;> rfl

/-- A variable and a memory operand. -/
theorem sim_opmem (hg : g.Ok) {o : Op2} (ho : o = .mov ∨ o = .cmp ∨ o = .sub ∨ o = .sbb) {a : Nat} (ha : a < g.need)
    {m : Opd} (hm : m.isMem = true) (hok : HwOk g s0 m) : Sim g s0 c [o2 o (V a) (.hw m)] (cc g.N a c) := by
  refine Sim.one fun wr st s hw hr hbase => ?_
  by_cases h : g.N ≤ a
  · by_cases hmov : o = .mov
    · subst hmov
      obtain ⟨e1, x, r1⟩ := loadWr_noval hg h ha hr
      set L := loadWr g.N wr a false with hL
      obtain ⟨lc, la, lm⟩ := L
      simp only at e1 r1
      subst e1
      refine ⟨lc ++ [.op2 .mov (.reg .rbx) m], some (la, true), ?_, ?_, ?_, base_idx s0 hbase⟩
      · cases m <;> simp [Opd.isMem] at hm <;> simp [emit, Op2.acc, scanArg, param, h, Nat.not_lt.mpr h, ← hL]
      · simp [cc, h]
      · rw [steps_append, ← vstep_overwrite_mov la x m st]
        exact r1.op2 hg .mov (placedRbx h ha) ⟨rfl, hbase.ok hok⟩ (fun _ => markedTrue)
    · obtain ⟨e1, r1⟩ := loadWr_val hg h ha hr
      have hacc : ∃ w, o.acc = some (⟨true, w, false⟩, ⟨true, false, false⟩) ∧ (o.writes = true → w = true) := by
        rcases ho with rfl | rfl | rfl | rfl
        · exact absurd rfl hmov
        · exact ⟨_, rfl, by decide⟩
        · exact ⟨_, rfl, by decide⟩
        · exact ⟨_, rfl, by decide⟩
      obtain ⟨w, hacc, hwr⟩ := hacc
      set L := loadWr g.N wr a true with hL
      obtain ⟨lc, la, lm⟩ := L
      simp only at e1 r1
      subst e1
      have r2 : Rel g (some (la, lm || w)) st (steps lc s) := r1.mark (fun h => by rw [h]; rfl)
      refine ⟨lc ++ [.op2 o (.reg .rbx) m], some (la, lm || w), ?_, ?_, ?_, base_idx s0 hbase⟩
      · cases m <;> simp [Opd.isMem] at hm <;> simp [emit, hacc, scanArg, param, h, Nat.not_lt.mpr h, ← hL]
      · simp [cc, h]
      · rw [steps_append]
        exact r2.op2 hg o (placedRbx h ha) ⟨rfl, hbase.ok hok⟩ (fun hh => by rw [hwr hh, Bool.or_true]; exact markedTrue)
  · have hal : a < g.N := by omega
    have hcc : cc g.N a c = c := by simp [cc, h]
    rw [hcc]
    refine ⟨[.op2 o (.reg (regOf a)) m], wr, ?_, hw, ?_, base_idx s0 hbase⟩
    · cases m <;> simp [Opd.isMem] at hm <;> rcases ho with rfl | rfl | rfl | rfl <;>
        simp [emit, Op2.acc, scanArg, param, hal, Nat.not_le.mpr hal]
    · exact hr.op2 hg o (placedLow hal ha) ⟨rfl, hbase.ok hok⟩ (fun _ => markedLow hal)

/-- A store of a variable. -/
theorem sim_store (hg : g.Ok) {a : Nat} (ha : a < g.need) {m : Opd} (hm : m.isMem = true) (hok : HwOk g s0 m) :
    Sim g s0 c [o2 .mov (.hw m) (V a)] (cc g.N a c) := by
  refine Sim.one fun wr st s hw hr hbase => ?_
  have hb : Base s0 (vstep (o2 .mov (.hw m) (V a)) st).s := by
    cases m <;> simp [Opd.isMem] at hm <;> exact ⟨hbase.rsi, hbase.rcx, hbase.rdi, hbase.sym⟩
  by_cases h : g.N ≤ a
  · obtain ⟨e1, r1⟩ := loadWr_val hg h ha hr
    set L := loadWr g.N wr a true with hL
    obtain ⟨lc, la, lm⟩ := L
    simp only at e1 r1
    subst e1
    refine ⟨lc ++ [.op2 .mov m (.reg .rbx)], some (la, lm), ?_, ?_, ?_, hb⟩
    · cases m <;> simp [Opd.isMem] at hm <;> simp [emit, Op2.acc, scanArg, param, h, Nat.not_lt.mpr h, ← hL]
    · simp [cc, h]
    · rw [steps_append]
      exact r1.op2 hg .mov ⟨rfl, hbase.ok hok⟩ (placedRbx h ha) (fun _ => trivial)
  · have hal : a < g.N := by omega
    have hcc : cc g.N a c = c := by simp [cc, h]
    rw [hcc]
    refine ⟨[.op2 .mov m (.reg (regOf a))], wr, ?_, hw, ?_, hb⟩
    · cases m <;> simp [Opd.isMem] at hm <;> simp [emit, Op2.acc, scanArg, param, hal, Nat.not_le.mpr hal]
    · exact hr.op2 hg .mov ⟨rfl, hbase.ok hok⟩ (placedLow hal ha) (fun _ => trivial)

/-- `test` of a variable with itself. -/
theorem sim_test (hg : g.Ok) {a : Nat} (ha : a < g.need) : Sim g s0 c [o2 .test (V a) (V a)] (cc g.N a c) := by
  refine Sim.one fun wr st s hw hr hbase => ?_
  by_cases h : g.N ≤ a
  · obtain ⟨e1, r1⟩ := loadWr_val hg h ha hr
    set L := loadWr g.N wr a true with hL
    obtain ⟨lc, la, lm⟩ := L
    simp only at e1 r1
    subst e1
    refine ⟨lc ++ [.op2 .test (.reg .rbx) (.reg .rbx)], some (la, lm), ?_, ?_, ?_, base_idx s0 hbase⟩
    · simp [emit, Op2.acc, scanArg, param, h, Nat.not_lt.mpr h, ← hL, loadWr_same]
    · simp [cc, h]
    · rw [steps_append]
      exact r1.op2 hg .test (placedRbx h ha) (placedRbx h ha) (fun h => by simp [Op2.writes] at h)
  · have hal : a < g.N := by omega
    have hcc : cc g.N a c = c := by simp [cc, h]
    rw [hcc]
    refine ⟨[.op2 .test (.reg (regOf a)) (.reg (regOf a))], wr, ?_, hw, ?_, base_idx s0 hbase⟩
    · simp [emit, Op2.acc, scanArg, param, hal, Nat.not_le.mpr hal]
    · exact hr.op2 hg .test (placedLow hal ha) (placedLow hal ha) (fun h => by simp [Op2.writes] at h)

/-- `xor` of a register variable with itself. -/
theorem sim_xor (hg : g.Ok) {a : Nat} (hal : a < g.N) (ha : a < g.need) : Sim g s0 c [o2 .xor (V a) (V a)] c := by
  refine Sim.one fun wr st s hw hr hbase => ?_
  refine ⟨[.op2 .xor (.reg (regOf a)) (.reg (regOf a))], wr, ?_, hw, ?_, base_idx s0 hbase⟩
  · simp [emit, Op2.acc, scanArg, param, hal, Nat.not_le.mpr hal]
  · exact hr.op2 hg .xor (placedLow hal ha) (placedLow hal ha) (fun _ => markedLow hal)

theorem base_rdx {a : Arg} {st : VState} (h : Base s0 st.s) : Base s0 (vstep (o2 .mov vrdx a) st).s :=
  ⟨by rw [← h.rsi]; simp [vstep, Ins.exec, Op2.eval, Op2.writes, Arg.set, Opd.set, upd_apply],
   by rw [← h.rcx]; simp [vstep, Ins.exec, Op2.eval, Op2.writes, Arg.set, Opd.set, upd_apply],
   by rw [← h.rdi]; simp [vstep, Ins.exec, Op2.eval, Op2.writes, Arg.set, Opd.set, upd_apply], h.sym⟩

/-- `mov rdx, operand`. -/
theorem sim_movRdx_hw (hg : g.Ok) {m : Opd} (hok : HwOk g s0 m) : Sim g s0 c [o2 .mov vrdx (.hw m)] c := by
  refine Sim.one fun wr st s hw hr hbase => ?_
  refine ⟨[.op2 .mov (.reg .rdx) m], wr, ?_, hw, ?_, base_rdx hbase⟩
  · cases m <;> simp [emit, Op2.acc, scanArg, param]
  · exact hr.op2 hg .mov (d := vrdx) (a := .hw m) (p := .reg .rdx) (p' := m) ⟨rfl, Or.inr rfl⟩ ⟨rfl, hbase.ok hok⟩
      (fun _ => trivial)

/-- `mov rdx, variable`. -/
theorem sim_movRdx (hg : g.Ok) {a : Nat} (hal : a < g.N) (ha : a < g.need) : Sim g s0 c [o2 .mov vrdx (V a)] c := by
  refine Sim.one fun wr st s hw hr hbase => ?_
  refine ⟨[.op2 .mov (.reg .rdx) (.reg (regOf a))], wr, ?_, hw, ?_, base_rdx hbase⟩
  · simp [emit, Op2.acc, scanArg, param, hal, Nat.not_le.mpr hal]
  · exact hr.op2 hg .mov (d := vrdx) (p := .reg .rdx) ⟨rfl, Or.inr rfl⟩ (placedLow hal ha) (fun _ => trivial)

theorem vstep_overwrite_mulx (hi n : Nat) (x : BitVec 64) (o : Opd) (st : VState) :
    vstep (.mulx (.idx hi) (.idx n) (.hw o)) { st with v := upd st.v n x } =
      vstep (.mulx (.idx hi) (.idx n) (.hw o)) st := by
  simp only [vstep, Ins.exec, Arg.set, Arg.get]
  congr 1
  funext k
  simp only [upd_apply]
  split
  · rfl
  · split <;> rfl

/-- `mulx` to variables. -/
theorem sim_mulx (hg : g.Ok) {hi lo : Nat} (hhi : hi < g.N) (hhi' : hi < g.need) (hlo : lo < g.need)
    {m : Opd} (hok : HwOk g s0 m) : Sim g s0 c [.mulx (V hi) (V lo) (.hw m)] (cc g.N lo c) := by
  refine Sim.one fun wr st s hw hr hbase => ?_
  have hb : Base s0 (vstep (.mulx (V hi) (V lo) (.hw m)) st).s := hbase
  by_cases h : g.N ≤ lo
  · obtain ⟨e1, x, r1⟩ := loadWr_noval hg h hlo hr
    set L := loadWr g.N wr lo false with hL
    obtain ⟨lc, la, lm⟩ := L
    simp only at e1 r1
    subst e1
    refine ⟨lc ++ [.mulx (.reg (regOf hi)) (.reg .rbx) m], some (la, true), ?_, ?_, ?_, hb⟩
    · cases m <;> simp [emit, scanArg, param, h, Nat.not_lt.mpr h, hhi, Nat.not_le.mpr hhi, ← hL]
    · simp [cc, h]
    · rw [steps_append, ← vstep_overwrite_mulx hi la x m st]
      exact r1.mulx hg (placedLow hhi hhi') (placedRbx h hlo) ⟨rfl, hbase.ok hok⟩ (markedLow hhi) markedTrue
  · have hal : lo < g.N := by omega
    have hcc : cc g.N lo c = c := by simp [cc, h]
    rw [hcc]
    refine ⟨[.mulx (.reg (regOf hi)) (.reg (regOf lo)) m], wr, ?_, hw, ?_, hb⟩
    · cases m <;> simp [emit, scanArg, param, hal, Nat.not_le.mpr hal, hhi, Nat.not_le.mpr hhi]
    · exact hr.mulx hg (placedLow hhi hhi') (placedLow hal hlo) ⟨rfl, hbase.ok hok⟩ (markedLow hhi) (markedLow hal)

/-- `mulx hi, rdx, variable`. -/
theorem sim_mulx_rdx (hg : g.Ok) {hi a : Nat} (hhi : hi < g.N) (hhi' : hi < g.need) (hal : a < g.N) (ha : a < g.need) :
    Sim g s0 c [.mulx (V hi) vrdx (V a)] c := by
  refine Sim.one fun wr st s hw hr hbase => ?_
  refine ⟨[.mulx (.reg (regOf hi)) (.reg .rdx) (.reg (regOf a))], wr, ?_, hw, ?_, ?_⟩
  · simp [emit, scanArg, param, hal, Nat.not_le.mpr hal, hhi, Nat.not_le.mpr hhi]
  · exact hr.mulx hg (placedLow hhi hhi') ⟨rfl, Or.inr rfl⟩ (placedLow hal ha) (markedLow hhi) trivial
  · exact ⟨by rw [← hbase.rsi]; simp [vstep, Ins.exec, Arg.set, Opd.set, upd_apply],
      by rw [← hbase.rcx]; simp [vstep, Ins.exec, Arg.set, Opd.set, upd_apply],
      by rw [← hbase.rdi]; simp [vstep, Ins.exec, Arg.set, Opd.set, upd_apply], hbase.sym⟩

end FF.X86
