import Verif.AsmBuilder
import Verif.AsmShift
import Verif.AsmTagRun

/-!
# The memory accesses of the generated assembly

`run` (X86) says what a listing computes; the machine there may read and write every address.  `touched` follows the same execution and
lists the accesses on the way, so that "the routine only accesses its operands" can be said.
-/

namespace FF.X86

/-- An access to an 8-byte cell (or to one half of it). -/
inductive Access
  | read (a : BitVec 64)
  | write (a : BitVec 64)
  deriving DecidableEq

/-- The cell a memory operand denotes. -/
def Opd.addr : Opd → State → List (BitVec 64)
  | .reg _, _ => []
  | .mem b off, s => [s.reg b + BitVec.ofNat 64 off]
  | .sym y off, s => [s.sym y + BitVec.ofNat 64 off]
  | .imm _, _ => []

/-- `mov` does not read its destination. -/
def Op2.reads : Op2 → Bool
  | .mov => false
  | _ => true

/-- The accesses of a two-operand instruction or of `mulx`. -/
def Ins.acc : Ins Opd → State → List Access
  | .op2 o d b, s =>
      (if o.reads then (d.addr s).map .read else []) ++ (b.addr s).map .read ++ (if o.writes then (d.addr s).map .write else [])
  | .mulx hi lo src, s => (src.addr s).map .read ++ (lo.addr s).map .write ++ (hi.addr s).map .write

/-- The cells of a copy upwards. -/
def movsqAcc : Nat → BitVec 64 → BitVec 64 → List Access
  | 0, _, _ => []
  | n + 1, src, dst => .read src :: .write dst :: movsqAcc n (src + 8) (dst + 8)

/-- The accesses of the instructions of `Misc`. -/
def Misc.acc : Misc → State → List Access
  | .op32 _ _ (.low b), s => [.read (s.reg b)]
  | .storeHi, s => [.read (s.reg .rdi), .write (s.reg .rdi)]
  | .load _ b i off, s => [.read (s.reg b + 8 * s.reg i + BitVec.ofNat 64 off)]
  | .repMovsq, s => movsqAcc (s.reg .rcx).toNat (s.reg .rsi) (s.reg .rdi)
  | _, _ => []

/-- The accesses of a line; `ret` reads the return address, `call` stores it. -/
def Line.acc : Line → State → List Access
  | .ins i, s => i.acc s
  | .push _, s => [.write (s.reg .rsp - 8)]
  | .pop _, s => [.read (s.reg .rsp)]
  | .misc m, s => m.acc s
  | .call _, s => [.write (s.reg .rsp - 8)]
  | .ret, s => [.read (s.reg .rsp)]
  | _, _ => []

/-- The accesses of a routine up to its `ret`, along the execution `run` describes.  `T` gives those of the routines it calls. -/
def touched (env : String → Option (State → Option State)) (T : String → State → List Access) (ra : BitVec 64) (p : List Line)
    (s : State) : List Access :=
  match p with
  | [] => []
  | .label _ :: p => touched env T ra p s
  | .ret :: _ => Line.ret.acc s
  | .jump c l :: p => if c.holds s.fl then touched env T ra (dropTo l p) s else touched env T ra p s
  | .call f :: p =>
      (Line.call f).acc s ++ T f (pushVal ra s) ++
        match env f with
        | none => []
        | some g =>
          match g (pushVal ra s) with
          | none => []
          | some s' => touched env T ra p s'
  | i :: p => i.acc s ++ touched env T ra p (i.exec s)
  termination_by p.length
  decreasing_by
    all_goals simp_wf
    all_goals first | omega | (have := dropTo_length l p; omega)

/-- No accesses of called routines. -/
def noAcc : String → State → List Access := fun _ _ => []

/-- Every read is of a cell with `R`, every write of a cell with `W`. -/
def Access.ok (R W : BitVec 64 → Prop) : Access → Prop
  | .read a => R a
  | .write a => W a

/-- All accesses are allowed ones. -/
def Only (R W : BitVec 64 → Prop) (l : List Access) : Prop := ∀ x ∈ l, x.ok R W

theorem Only.nil {R W : BitVec 64 → Prop} : Only R W [] := by intro x h; simp at h
theorem Only.append {R W : BitVec 64 → Prop} {l m : List Access} (h : Only R W l) (h' : Only R W m) : Only R W (l ++ m) := by
  intro x hx; rcases List.mem_append.1 hx with hx | hx
  · exact h x hx
  · exact h' x hx
theorem Only.cons {R W : BitVec 64 → Prop} {a : Access} {m : List Access} (h : a.ok R W) (h' : Only R W m) : Only R W (a :: m) := by
  intro x hx; rcases List.mem_cons.1 hx with rfl | hx
  · exact h
  · exact h' x hx
theorem Only.mono {R W R' W' : BitVec 64 → Prop} {l : List Access} (h : Only R W l) (hr : ∀ a, R a → R' a) (hw : ∀ a, W a → W' a) :
    Only R' W' l := by
  intro x hx
  have := h x hx
  cases x
  · exact hr _ this
  · exact hw _ this

/-! ## The accesses are those of the instructions

What an instruction does to registers and flags depends only on the cells it reads, and it changes only the cells it writes. -/

/-- Two states that differ in the memory only, and there only on the cells `D`. -/
structure Like (D : BitVec 64 → Prop) (s s' : State) : Prop where
  reg : s'.reg = s.reg
  fl : s'.fl = s.fl
  sym : s'.sym = s.sym
  mem : ∀ a, ¬ D a → s'.mem a = s.mem a

section
variable {D : BitVec 64 → Prop} {s s' : State}

theorem Opd.addr_like (h : Like D s s') (o : Opd) : o.addr s' = o.addr s := by
  cases o <;> simp only [Opd.addr, h.reg, h.sym]

theorem Opd.get_like (h : Like D s s') (o : Opd) (ho : ∀ a ∈ o.addr s, ¬ D a) : o.get s' = o.get s := by
  cases o with
  | reg r => simp only [Opd.get, h.reg]
  | imm v => rfl
  | mem b off => simp only [Opd.get, h.reg]; exact h.mem _ (ho _ (by simp [Opd.addr]))
  | sym y off => simp only [Opd.get, h.sym]; exact h.mem _ (ho _ (by simp [Opd.addr]))

theorem upd_like {m m' : BitVec 64 → BitVec 64} (h : ∀ a, ¬ D a → m' a = m a) (b v : BitVec 64) :
    ∀ a, ¬ D a → upd m' b v a = upd m b v a := by
  intro a ha; simp only [upd]; split
  · rfl
  · exact h a ha

theorem Opd.set_like (h : Like D s s') (o : Opd) (v : BitVec 64) : Like D (o.set v s) (o.set v s') := by
  cases o with
  | reg r => exact ⟨by simp only [Opd.set, h.reg], h.fl, h.sym, h.mem⟩
  | imm v => exact h
  | mem b off => exact ⟨h.reg, h.fl, h.sym, by simp only [Opd.set, h.reg]; exact upd_like h.mem _ _⟩
  | sym y off => exact ⟨h.reg, h.fl, h.sym, by simp only [Opd.set, h.sym]; exact upd_like h.mem _ _⟩

theorem Ins.acc_like (h : Like D s s') (i : Ins Opd) : i.acc s' = i.acc s := by
  cases i <;> simp only [Ins.acc, Opd.addr_like h]

theorem step_like (h : Like D s s') (i : Ins Opd) (hi : ∀ a, Access.read a ∈ i.acc s → ¬ D a) : Like D (step i s) (step i s') := by
  cases i with
  | mulx hi lo src =>
    have e : src.get s' = src.get s := Opd.get_like h _ fun a ha => hi a (by simp [Ins.acc, ha])
    simp only [step, Ins.exec, h.reg, e]
    exact Opd.set_like (Opd.set_like h _ _) _ _
  | op2 o d b =>
    have e : b.get s' = b.get s := Opd.get_like h _ fun a ha => hi a (by simp [Ins.acc, ha])
    have e' : o.eval (d.get s') (b.get s') s'.fl = o.eval (d.get s) (b.get s) s.fl := by
      rw [e, h.fl]
      by_cases ho : o.reads = true
      · rw [Opd.get_like h d fun a ha => hi a (by simp [Ins.acc, ha, ho])]
      · cases o <;> first | rfl | exact absurd rfl ho
    have h' : Like D { s with fl := (o.eval (d.get s) (b.get s) s.fl).2 } { s' with fl := (o.eval (d.get s) (b.get s) s.fl).2 } :=
      ⟨h.reg, rfl, h.sym, h.mem⟩
    simp only [step, Ins.exec, e']
    split
    · exact Opd.set_like h' _ _
    · exact h'

theorem movsq_like (n : Nat) : ∀ {m m' : BitVec 64 → BitVec 64} (x y : BitVec 64), (∀ a, ¬ D a → m' a = m a) →
    (∀ a, Access.read a ∈ movsqAcc n x y → ¬ D a) → ∀ a, ¬ D a → movsq n m' x y a = movsq n m x y a := by
  induction n with
  | zero => intro m m' x y h _; exact h
  | succ n ih =>
    intro m m' x y h hr
    rw [movsq, movsq, h x (hr x (by simp [movsqAcc]))]
    exact ih _ _ (upd_like h _ _) fun a ha => hr a (by rw [movsqAcc]; exact List.mem_cons_of_mem _ (List.mem_cons_of_mem _ ha))

theorem Line.acc_like (h : Like D s s') (i : Line) : i.acc s' = i.acc s := by
  cases i with
  | ins i => exact Ins.acc_like h i
  | misc m => cases m with
    | op32 o d b => cases b <;> simp only [Line.acc, Misc.acc, h.reg]
    | _ => simp only [Line.acc, Misc.acc, h.reg]
  | _ => simp only [Line.acc, h.reg]

theorem Line.exec_like (h : Like D s s') (i : Line) (hi : ∀ a, Access.read a ∈ i.acc s → ¬ D a) : Like D (i.exec s) (i.exec s') := by
  cases i with
  | ins i => exact step_like h i hi
  | push r => exact ⟨by simp only [Line.exec, pushVal, h.reg], h.fl, h.sym, by simp only [Line.exec, pushVal, h.reg]; exact upd_like h.mem _ _⟩
  | pop r =>
    have := h.mem _ (hi (s.reg .rsp) (by simp [Line.acc]))
    exact ⟨by simp only [Line.exec, popReg, h.reg, this], h.fl, h.sym, h.mem⟩
  | misc m => cases m with
    | op32 o d b =>
      have e : b.get s' = b.get s := by
        cases b with
        | low b => simp only [Opd32.get, h.reg]; rw [h.mem _ (hi _ (by simp [Line.acc, Misc.acc]))]
        | _ => simp only [Opd32.get, h.reg]
      simp only [Line.exec, Misc.exec, h.reg, h.fl, e]
      split
      · exact ⟨rfl, rfl, h.sym, h.mem⟩
      · exact ⟨rfl, rfl, h.sym, h.mem⟩
    | storeHi =>
      refine ⟨h.reg, h.fl, h.sym, ?_⟩
      simp only [Line.exec, Misc.exec, h.reg]
      rw [h.mem _ (hi (s.reg .rdi) (by simp [Line.acc, Misc.acc]))]
      exact upd_like h.mem _ _
    | load d b j off =>
      refine ⟨?_, h.fl, h.sym, h.mem⟩
      simp only [Line.exec, Misc.exec, h.reg]
      rw [h.mem _ (hi _ (by simp [Line.acc, Misc.acc]))]
    | repMovsq =>
      refine ⟨by simp only [Line.exec, Misc.exec, h.reg], h.fl, h.sym, ?_⟩
      simp only [Line.exec, Misc.exec, h.reg]
      exact movsq_like _ _ _ h.mem hi
    | _ =>
      refine ⟨?_, ?_, ?_, ?_⟩
      · simp only [Line.exec, Misc.exec, h.reg, clCount]
      · simp only [Line.exec, Misc.exec, h.reg, h.fl, clCount]
      · exact h.sym
      · exact h.mem
  | _ =>
    refine ⟨?_, ?_, ?_, ?_⟩
    · simp only [Line.exec, h.reg, h.fl, h.sym]
    · simp only [Line.exec, h.reg, h.fl]
    · exact h.sym
    · exact h.mem

/-! What is not written keeps its value. -/

theorem Opd.set_mem (o : Opd) (v : BitVec 64) (s : State) (a : BitVec 64) (h : a ∉ o.addr s) : (o.set v s).mem a = s.mem a := by
  cases o <;> simp_all [Opd.set, Opd.addr, upd]

theorem movsq_off (n : Nat) : ∀ (m : BitVec 64 → BitVec 64) (x y a : BitVec 64), Access.write a ∉ movsqAcc n x y → movsq n m x y a = m a := by
  induction n with
  | zero => intro m x y a _; rfl
  | succ n ih =>
    intro m x y a h
    simp only [movsqAcc, List.mem_cons, reduceCtorEq, Access.write.injEq, false_or, not_or] at h
    rw [movsq, ih _ _ _ _ h.2, upd, if_neg h.1]

/-- `lo` and `hi` of `mulx` are registers. -/
def Line.wf : Line → Prop
  | .ins (.mulx (.reg _) (.reg _) _) => True
  | .ins (.mulx _ _ _) => False
  | _ => True

theorem Line.exec_off (i : Line) (hw : i.wf) (s : State) (a : BitVec 64) (h : Access.write a ∉ i.acc s) : (i.exec s).mem a = s.mem a := by
  cases i with
  | ins i =>
    cases i with
    | mulx hi lo src =>
      cases hi <;> cases lo <;> first | exact hw.elim | rfl
    | op2 o d b =>
      simp only [Line.exec, step, Ins.exec]
      split
      · rename_i ho
        rw [Opd.set_mem]
        intro ha
        exact h (by simp only [Line.acc, Ins.acc, ho, if_true, List.mem_append, List.mem_map]; right; exact ⟨a, by cases d <;> exact ha, rfl⟩)
      · rfl
  | push r =>
    simp only [Line.acc, List.mem_singleton, Access.write.injEq] at h
    simp only [Line.exec, pushVal, upd, if_neg h]
  | misc m =>
    cases m with
    | storeHi =>
      simp only [Line.acc, Misc.acc, List.mem_cons, reduceCtorEq, Access.write.injEq, false_or, List.not_mem_nil, or_false] at h
      simp only [Line.exec, Misc.exec, upd, if_neg h]
    | repMovsq => exact movsq_off _ _ _ _ _ h
    | op32 o d b => simp only [Line.exec, Misc.exec]; split <;> rfl
    | _ => rfl
  | _ => rfl

end

/-! ## Equations of `touched` -/

section
variable {env : String → Option (State → Option State)} {T : String → State → List Access} {ra : BitVec 64}

theorem touched_plain {i : Line} (h : i.plain = true) (p : List Line) (s : State) :
    touched env T ra (i :: p) s = i.acc s ++ touched env T ra p (i.exec s) := by
  cases i <;> first | (exact absurd h Bool.false_ne_true) | (rw [touched]; all_goals intros; all_goals contradiction)

theorem touched_nil (s : State) : touched env T ra [] s = [] := by rw [touched]
theorem touched_label (l : String) (p : List Line) (s : State) : touched env T ra (.label l :: p) s = touched env T ra p s := by rw [touched]
theorem touched_ret (p : List Line) (s : State) : touched env T ra (.ret :: p) s = [.read (s.reg .rsp)] := by rw [touched]; rfl
theorem touched_jump (c : Cond) (l : String) (p : List Line) (s : State) :
    touched env T ra (.jump c l :: p) s = if c.holds s.fl then touched env T ra (dropTo l p) s else touched env T ra p s := by rw [touched]

theorem plain_cases (i : Line) : i.plain = true ∨ (∃ l, i = .label l) ∨ (∃ c l, i = .jump c l) ∨ (∃ f, i = .call f) ∨ i = .ret := by
  cases i <;> simp [Line.plain]

theorem dropTo_mem (l : String) {p : List Line} {i : Line} (h : i ∈ dropTo l p) : i ∈ p := by
  induction p with
  | nil => simp [dropTo] at h
  | cons x p ih =>
    cases x with
    | label m =>
      rw [dropTo] at h
      split at h
      · exact List.mem_cons_of_mem _ h
      · exact List.mem_cons_of_mem _ (ih h)
    | _ => exact List.mem_cons_of_mem _ (ih h)

/-- The result of a routine depends only on the cells it reads. -/
theorem run_like {D : BitVec 64 → Prop} (p : List Line) : ∀ {s s' t : State}, Like D s s' →
    (∀ a, Access.read a ∈ touched noCalls noAcc ra p s → ¬ D a) → run noCalls ra p s = some t →
    (∃ t', run noCalls ra p s' = some t' ∧ Like D t t') ∧ touched noCalls noAcc ra p s' = touched noCalls noAcc ra p s := by
  induction hn : p.length using Nat.strong_induction_on generalizing p with
  | _ N ih =>
    intro s s' t h hr ht
    match p with
    | [] => rw [run] at ht; cases ht
    | i :: p =>
      rcases plain_cases i with hp | ⟨l, rfl⟩ | ⟨c, l, rfl⟩ | ⟨f, rfl⟩ | rfl
      · rw [run_plain hp] at ht
        rw [touched_plain hp] at hr
        rw [run_plain hp, touched_plain hp, touched_plain hp, Line.acc_like h]
        obtain ⟨h1, h2⟩ := ih p.length (by subst hn; simp) p rfl (Line.exec_like h i fun a ha => hr a (List.mem_append_left _ ha))
          (fun a ha => hr a (List.mem_append_right _ ha)) ht
        exact ⟨h1, by rw [h2]⟩
      · rw [run] at ht ⊢
        rw [touched_label] at hr ⊢
        rw [touched_label]
        exact ih p.length (by subst hn; simp) p rfl h hr ht
      · rw [run] at ht ⊢
        rw [touched_jump] at hr ⊢
        rw [touched_jump, h.fl]
        split
        · rename_i hc
          rw [if_pos hc] at ht hr
          exact ih (dropTo l p).length (by subst hn; have := dropTo_length l p; simp only [List.length_cons]; omega) _ rfl h hr ht
        · rename_i hc
          rw [if_neg hc] at ht hr
          exact ih p.length (by subst hn; simp) p rfl h hr ht
      · rw [run] at ht; simp [noCalls] at ht
      · rw [run] at ht ⊢
        cases ht
        rw [touched_ret, touched_ret, h.reg]
        exact ⟨⟨_, rfl, ⟨rfl, h.fl, h.sym, h.mem⟩⟩, rfl⟩

/-- A routine changes only the cells it writes. -/
theorem run_off (p : List Line) (hw : ∀ i ∈ p, i.wf) (a : BitVec 64) : ∀ {s t : State}, run noCalls ra p s = some t →
    Access.write a ∉ touched noCalls noAcc ra p s → t.mem a = s.mem a := by
  induction hn : p.length using Nat.strong_induction_on generalizing p with
  | _ N ih =>
    intro s t ht ha
    match p with
    | [] => rw [run] at ht; cases ht
    | i :: p =>
      have hw' : ∀ i ∈ p, i.wf := fun j hj => hw j (List.mem_cons_of_mem _ hj)
      rcases plain_cases i with hp | ⟨l, rfl⟩ | ⟨c, l, rfl⟩ | ⟨f, rfl⟩ | rfl
      · rw [run_plain hp] at ht
        rw [touched_plain hp, List.mem_append, not_or] at ha
        rw [ih p.length (by subst hn; simp) p hw' rfl ht ha.2, i.exec_off (hw i List.mem_cons_self) s a ha.1]
      · rw [run] at ht
        rw [touched_label] at ha
        exact ih p.length (by subst hn; simp) p hw' rfl ht ha
      · rw [run] at ht
        rw [touched_jump] at ha
        split at ht
        · rename_i hc
          rw [if_pos hc] at ha
          exact ih (dropTo l p).length (by subst hn; have := dropTo_length l p; simp only [List.length_cons]; omega) _
            (fun j hj => hw' j (dropTo_mem l hj)) rfl ht ha
        · rename_i hc
          rw [if_neg hc] at ha
          exact ih p.length (by subst hn; simp) p hw' rfl ht ha
      · rw [run] at ht; simp [noCalls] at ht
      · rw [run] at ht
        cases ht; rfl

/-! ## Code with fixed base registers -/

/-- The registers `K` and the labels have the values they have in `s`. -/
def Bases (K : List Reg) (s s' : State) : Prop := (∀ r ∈ K, s'.reg r = s.reg r) ∧ s'.sym = s.sym

theorem Bases.refl (K : List Reg) (s : State) : Bases K s s := ⟨fun _ _ => rfl, rfl⟩
theorem Bases.trans {K : List Reg} {s s' s'' : State} (h : Bases K s s') (h' : Bases K s' s'') : Bases K s s'' :=
  ⟨fun r hr => (h'.1 r hr).trans (h.1 r hr), h'.2.trans h.2⟩
theorem Bases.mono {K K' : List Reg} {s s' : State} (h : Bases K s s') (hk : ∀ r ∈ K', r ∈ K) : Bases K' s s' :=
  ⟨fun r hr => h.1 r (hk r hr), h.2⟩

/-- A source operand: it is not in memory, or at a fixed base and allowed. -/
def Opd.rd (K : List Reg) (s : State) (R : BitVec 64 → Prop) : Opd → Prop
  | .mem b off => b ∈ K ∧ R (s.reg b + BitVec.ofNat 64 off)
  | .sym y off => R (s.sym y + BitVec.ofNat 64 off)
  | _ => True

/-- A destination: a register that is not a base, or an allowed cell. -/
def Opd.wr (K : List Reg) (s : State) (W : BitVec 64 → Prop) : Opd → Prop
  | .reg r => r ∉ K
  | o => o.rd K s W

/-- A line whose effect on the base registers and whose accesses can be seen from its text. -/
def Line.good (K : List Reg) (s : State) (R W : BitVec 64 → Prop) : Line → Prop
  | .ins (.op2 o d b) => (o.reads = true → d.rd K s R) ∧ b.rd K s R ∧ (o.writes = true → d.wr K s W)
  | .ins (.mulx hi lo src) => src.rd K s R ∧ hi.wr K s W ∧ lo.wr K s W
  | .setcDl | .setcDh | .orDlDh => Reg.rdx ∉ K
  | .movAl _ | .shlRax _ => Reg.rax ∉ K
  | .lea r _ => r ∉ K
  | .misc (.load d b i off) => d ∉ K ∧ b ∈ K ∧ i ∈ K ∧ R (s.reg b + 8 * s.reg i + BitVec.ofNat 64 off)
  | .misc m => (∀ s', m.acc s' = []) ∧ ∃ rs, (Line.misc m).scratch = some rs ∧ ∀ r ∈ rs, r ∉ K
  | .label _ | .jump _ _ | .ret => True
  | .push _ | .pop _ | .call _ => False

section
variable {K : List Reg} {s s' : State} {R W : BitVec 64 → Prop}

theorem Opd.rd_addr {o : Opd} {P : BitVec 64 → Prop} (h : o.rd K s P) (hs : Bases K s s') : ∀ a ∈ o.addr s', P a := by
  cases o with
  | mem b off => intro a ha; simp only [Opd.addr, List.mem_singleton] at ha; rw [ha, hs.1 b h.1]; exact h.2
  | sym y off => intro a ha; simp only [Opd.addr, List.mem_singleton] at ha; rw [ha, hs.2]; exact h
  | _ => intro a ha; simp [Opd.addr] at ha

theorem Opd.wr_addr {o : Opd} {P : BitVec 64 → Prop} (h : o.wr K s P) (hs : Bases K s s') : ∀ a ∈ o.addr s', P a := by
  cases o with
  | reg r => intro a ha; simp [Opd.addr] at ha
  | _ => exact Opd.rd_addr h hs

theorem Opd.wr_set {o : Opd} {P : BitVec 64 → Prop} (h : o.wr K s P) (v : BitVec 64) (hs : Bases K s s') : Bases K s (o.set v s') := by
  cases o with
  | reg r =>
    refine ⟨fun x hx => ?_, hs.2⟩
    have : x ≠ r := fun e => h (e ▸ hx)
    simp only [Opd.set, upd, if_neg this]
    exact hs.1 x hx
  | _ => exact hs

theorem Line.good_safe {i : Line} (h : i.good K s R W) (hp : i.plain = true) (hs : Bases K s s') :
    Only R W (i.acc s') ∧ Bases K s (i.exec s') := by
  have hreg : ∀ (r : Reg) (v : BitVec 64) (f : Flags), r ∉ K → Bases K s { s' with reg := upd s'.reg r v, fl := f } := by
    intro r v f hr
    refine ⟨fun x hx => ?_, hs.2⟩
    have : x ≠ r := fun e => hr (e ▸ hx)
    simp only [upd, if_neg this]
    exact hs.1 x hx
  cases i with
  | ins i =>
    cases i with
    | op2 o d b =>
      obtain ⟨h1, h2, h3⟩ := h
      constructor
      · intro x hx
        simp only [Line.acc, Ins.acc, List.mem_append] at hx
        rcases hx with (hx | hx) | hx
        · split at hx
          · rename_i ho
            obtain ⟨a, ha, rfl⟩ := List.mem_map.1 hx
            exact Opd.rd_addr (h1 ho) hs a ha
          · simp at hx
        · obtain ⟨a, ha, rfl⟩ := List.mem_map.1 hx
          exact Opd.rd_addr h2 hs a ha
        · split at hx
          · rename_i ho
            obtain ⟨a, ha, rfl⟩ := List.mem_map.1 hx
            exact Opd.wr_addr (h3 ho) hs a ha
          · simp at hx
      · simp only [Line.exec, step, Ins.exec]
        split
        · rename_i ho
          exact Opd.wr_set (s' := { s' with fl := _ }) (h3 ho) _ hs
        · exact hs
    | mulx hi lo src =>
      obtain ⟨h1, h2, h3⟩ := h
      constructor
      · intro x hx
        simp only [Line.acc, Ins.acc, List.mem_append] at hx
        rcases hx with (hx | hx) | hx
        · obtain ⟨a, ha, rfl⟩ := List.mem_map.1 hx
          exact Opd.rd_addr h1 hs a ha
        · obtain ⟨a, ha, rfl⟩ := List.mem_map.1 hx
          exact Opd.wr_addr h3 hs a ha
        · obtain ⟨a, ha, rfl⟩ := List.mem_map.1 hx
          exact Opd.wr_addr h2 hs a ha
      · simp only [Line.exec, step, Ins.exec]
        exact Opd.wr_set h2 _ (Opd.wr_set h3 _ hs)
  | misc m =>
    cases m with
    | load d b j off =>
      obtain ⟨h1, h2, h3, h4⟩ := h
      refine ⟨Only.cons ?_ Only.nil, hreg d _ _ h1⟩
      simp only [Access.ok]
      rw [hs.1 b h2, hs.1 j h3]
      exact h4
    | _ =>
      obtain ⟨h1, rs, h2, h3⟩ := h
      obtain ⟨-, h4, -⟩ := scratch_exec h2 s'
      refine ⟨by rw [Line.acc, h1]; exact Only.nil, fun r hr => ?_, ?_⟩
      · exact (h4 r fun h' => h3 r h' hr).trans (hs.1 r hr)
      · rw [exec_sym]; exact hs.2
  | push r => exact h.elim
  | pop r => exact h.elim
  | lea r y => exact ⟨Only.nil, hreg r _ _ h⟩
  | setcDl => exact ⟨Only.nil, hreg _ _ _ h⟩
  | setcDh => exact ⟨Only.nil, hreg _ _ _ h⟩
  | orDlDh => exact ⟨Only.nil, hreg _ _ _ h⟩
  | movAl b => exact ⟨Only.nil, hreg _ _ _ h⟩
  | shlRax k => exact ⟨Only.nil, hreg _ _ _ h⟩
  | _ => exact absurd hp Bool.false_ne_true

end

theorem dropTo_append (l : String) (p q : List Line) :
    (∃ p', dropTo l (p ++ q) = p' ++ q ∧ p'.length < p.length ∧ ∀ i ∈ p', i ∈ p) ∨ dropTo l (p ++ q) = dropTo l q := by
  induction p with
  | nil => exact .inr rfl
  | cons x p ih =>
    have h' : ∀ (_ : dropTo l (x :: p ++ q) = dropTo l (p ++ q)),
        (∃ p', dropTo l (x :: p ++ q) = p' ++ q ∧ p'.length < (x :: p).length ∧ ∀ i ∈ p', i ∈ x :: p) ∨ dropTo l (x :: p ++ q) = dropTo l q := by
      intro e
      rcases ih with ⟨p', h1, h2, h3⟩ | h
      · exact .inl ⟨p', by rw [e, h1], by simp only [List.length_cons]; omega, fun i hi => List.mem_cons_of_mem _ (h3 i hi)⟩
      · exact .inr (by rw [e, h])
    cases x with
    | label m =>
      by_cases hm : m = l
      · exact .inl ⟨p, by rw [List.cons_append, dropTo, if_pos hm], by simp, fun i hi => List.mem_cons_of_mem _ hi⟩
      · exact h' (by rw [List.cons_append, dropTo, if_neg hm])
    | _ => exact h' rfl

/-- Code that keeps its base registers, followed by code without labels. -/
theorem touched_body {K : List Reg} {s : State} {R W : BitVec 64 → Prop} (hK : Reg.rsp ∈ K) (hr : R (s.reg .rsp)) (tail : List Line)
    (ht : ∀ l, dropTo l tail = []) (hT : ∀ s', Bases K s s' → Only R W (touched env T ra tail s')) (p : List Line)
    (hp : ∀ i ∈ p, i.good K s R W) :
    ∀ s', Bases K s s' → Only R W (touched env T ra (p ++ tail) s') := by
  induction hn : p.length using Nat.strong_induction_on generalizing p with
  | _ N ih =>
    intro s' h
    match p with
    | [] => exact hT s' h
    | i :: p =>
      have hp' : ∀ i ∈ p, i.good K s R W := fun j hj => hp j (List.mem_cons_of_mem _ hj)
      rcases plain_cases i with hpl | ⟨l, rfl⟩ | ⟨c, l, rfl⟩ | ⟨f, rfl⟩ | rfl
      · rw [List.cons_append, touched_plain hpl]
        have := Line.good_safe (hp i List.mem_cons_self) hpl h
        exact this.1.append (ih p.length (by subst hn; simp) p hp' rfl _ this.2)
      · rw [List.cons_append, touched_label]
        exact ih p.length (by subst hn; simp) p hp' rfl _ h
      · rw [List.cons_append, touched_jump]
        split
        · rcases dropTo_append l p tail with ⟨p', e, hl, hm⟩ | e
          · rw [e]
            exact ih p'.length (by subst hn; simp only [List.length_cons]; omega) p' (fun j hj => hp' j (hm j hj)) rfl _ h
          · rw [e, ht, touched_nil]; exact Only.nil
        · exact ih p.length (by subst hn; simp) p hp' rfl _ h
      · exact (hp _ List.mem_cons_self).elim
      · rw [List.cons_append, touched_ret]
        exact Only.cons (by rw [h.1 _ hK]; exact hr) Only.nil

/-- A whole routine that keeps its base registers. -/
theorem touched_good {K : List Reg} {s : State} {R W : BitVec 64 → Prop} (hK : Reg.rsp ∈ K) (hr : R (s.reg .rsp)) (p : List Line)
    (hp : ∀ i ∈ p, i.good K s R W) : Only R W (touched env T ra p s) := by
  have := touched_body (env := env) (T := T) (ra := ra) hK hr [] (fun _ => rfl) (fun s' _ => by rw [touched_nil]; exact Only.nil) p hp s (Bases.refl K s)
  rwa [List.append_nil] at this

/-- Such code either ends with a `ret` of its own or goes on with what follows, the base registers as they were. -/
theorem run_body {K : List Reg} {s : State} {R W : BitVec 64 → Prop} (tail : List Line) (ht : ∀ l, dropTo l tail = []) (p : List Line)
    (hp : ∀ i ∈ p, i.good K s R W) : ∀ {s' t : State}, Bases K s s' → run env ra (p ++ tail) s' = some t →
    ∃ s'', Bases K s s'' ∧ (run env ra tail s'' = some t ∨ (.ret ∈ p ∧ t = { s'' with reg := upd s''.reg .rsp (s''.reg .rsp + 8) })) := by
  induction hn : p.length using Nat.strong_induction_on generalizing p with
  | _ N ih =>
    intro s' t h hr
    match p with
    | [] => exact ⟨s', h, .inl hr⟩
    | i :: p =>
      have hp' : ∀ i ∈ p, i.good K s R W := fun j hj => hp j (List.mem_cons_of_mem _ hj)
      have up : ∀ p' : List Line, (∀ i ∈ p', i ∈ p) → (∃ s'', Bases K s s'' ∧ (run env ra tail s'' = some t ∨ (.ret ∈ p' ∧
          t = { s'' with reg := upd s''.reg .rsp (s''.reg .rsp + 8) }))) → ∃ s'', Bases K s s'' ∧ (run env ra tail s'' = some t ∨ (.ret ∈ i :: p ∧
          t = { s'' with reg := upd s''.reg .rsp (s''.reg .rsp + 8) })) := by
        rintro p' hm ⟨s'', h1, h2⟩
        exact ⟨s'', h1, h2.imp_right fun h => ⟨List.mem_cons_of_mem _ (hm _ h.1), h.2⟩⟩
      rcases plain_cases i with hpl | ⟨l, rfl⟩ | ⟨c, l, rfl⟩ | ⟨f, rfl⟩ | rfl
      · rw [List.cons_append, run_plain hpl] at hr
        have := Line.good_safe (hp i List.mem_cons_self) hpl h
        exact up p (fun _ h => h) (ih p.length (by subst hn; simp) p hp' rfl this.2 hr)
      · rw [List.cons_append, run] at hr
        exact up p (fun _ h => h) (ih p.length (by subst hn; simp) p hp' rfl h hr)
      · rw [List.cons_append, run] at hr
        split at hr
        · rcases dropTo_append l p tail with ⟨p', e, hl, hm⟩ | e
          · rw [e] at hr
            exact up p' hm (ih p'.length (by subst hn; simp only [List.length_cons]; omega) p' (fun j hj => hp' j (hm j hj)) rfl h hr)
          · rw [e, ht, run] at hr; cases hr
        · exact up p (fun _ h => h) (ih p.length (by subst hn; simp) p hp' rfl h hr)
      · exact (hp _ List.mem_cons_self).elim
      · rw [List.cons_append, run] at hr
        cases hr
        exact ⟨s', h, .inr ⟨List.mem_cons_self, rfl⟩⟩

end

/-! ## Regions -/

/-- One of the cells of the arrays of `l`, each given by its address and its number of cells. -/
def Within (l : List (BitVec 64 × Nat)) (a : BitVec 64) : Prop := ∃ x ∈ l, InArr x.1 x.2 a

theorem within_nil {a : BitVec 64} : Within [] a ↔ False := by simp [Within]
theorem within_cons {x : BitVec 64 × Nat} {l : List (BitVec 64 × Nat)} {a : BitVec 64} : Within (x :: l) a ↔ InArr x.1 x.2 a ∨ Within l a := by
  simp [Within]

theorem inArr_at {p : BitVec 64} {n i : Nat} (h : i < n) : InArr p n (p + BitVec.ofNat 64 (8 * i)) := ⟨i, h, rfl⟩
theorem inArr_up {p : BitVec 64} {n i : Nat} (h : i + 1 < n) : InArr p n (p + BitVec.ofNat 64 (8 * (i + 1))) := ⟨i + 1, h, rfl⟩
theorem inArr_down {p : BitVec 64} {n i : Nat} (h : i < n) : InArr p n (p + BitVec.ofNat 64 (8 * (n - i - 1))) := ⟨n - i - 1, by omega, rfl⟩
theorem inArr_down' {p : BitVec 64} {n i : Nat} (h : i < n) : InArr p n (p + BitVec.ofNat 64 (8 * (n - 1 - i))) := ⟨n - 1 - i, by omega, rfl⟩
theorem inArr_off {p : BitVec 64} {n i : Nat} (h : i < n) : InArr p (n + 1) (p + BitVec.ofNat 64 (8 + 8 * i)) :=
  ⟨1 + i, by omega, by rw [cell, Nat.mul_add]⟩
theorem inArr_zero {p : BitVec 64} {n : Nat} (h : 0 < n) : InArr p n (p + BitVec.ofNat 64 0) := ⟨0, h, rfl⟩
theorem inArr_self {p : BitVec 64} {n : Nat} (h : 0 < n) : InArr p n p := ⟨0, h, by simp [cell]⟩
theorem inArr_eight {p : BitVec 64} {n : Nat} (h : 1 < n) : InArr p n (p + BitVec.ofNat 64 8) := ⟨1, h, rfl⟩

theorem all_flatMap {α β : Type} {l : List α} {f : α → List β} {P : β → Prop} : (∀ b ∈ l.flatMap f, P b) ↔ ∀ a ∈ l, ∀ b ∈ f a, P b := by
  simp only [List.mem_flatMap]; constructor
  · intro h a ha b hb; exact h b ⟨a, ha, hb⟩
  · rintro h b ⟨a, ha, hb⟩; exact h a ha b hb
theorem all_code {l : List (Ins Opd)} {P : Line → Prop} : (∀ b ∈ code l, P b) ↔ ∀ a ∈ l, P (.ins a) := by
  simp [code]
theorem all_range' {n : Nat} {P : Nat → Prop} : (∀ a ∈ List.range' 1 (n - 1), P a) ↔ ∀ a, 0 < a → a < n → P a := by
  simp only [List.mem_range'_1]
  constructor
  · intro h a h1 h2; exact h a ⟨h1, by omega⟩
  · intro h a ha; exact h a (by omega) (by omega)

end FF.X86
