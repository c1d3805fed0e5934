import Verif.AsmBuilder
import Verif.AsmRawProof
import Verif.AsmMontVal
import Mathlib.Tactic.IntervalCases

/-!
# The register manager keeps the meaning of the program

`Rel` relates the machine with variables to the real machine; each kind of instruction the generator prints is shown
to preserve it, as long as no variable is accessed in its stack slot while it is cached in `rbx`.
-/

namespace FF.X86

/-- Number of variables in registers, number of variables, address of the stack slots, initial registers. -/
structure Cfg where
  N : Nat
  need : Nat
  sp : BitVec 64
  reg0 : Reg → BitVec 64

/-- The configurations the generator uses. -/
structure Cfg.Ok (g : Cfg) : Prop where
  le : g.N ≤ 11
  spill : g.N < g.need → g.N = 10
  small : 8 * (g.need - g.N) ≤ 2 ^ 64
  low : 4 ≤ g.N

/-- An address is not a stack slot. -/
def Cfg.Off (g : Cfg) (a : BitVec 64) : Prop := ∀ k < g.need - g.N, a ≠ cell g.sp k

/-- The registers the printed code may write. -/
def Cfg.Alloc (g : Cfg) (r : Reg) : Prop :=
  r = .rcx ∨ r = .rdx ∨ (∃ k, k < g.N ∧ k < g.need ∧ r = regOf k) ∨ (g.N < g.need ∧ r = .rbx)

/-- The variables live where the register manager says; everything else is equal. -/
structure Rel (g : Cfg) (wr : Wr) (st : VState) (s : State) : Prop where
  low : ∀ n < g.N, n < g.need → s.reg (regOf n) = st.v n
  slots : ∀ n, g.N ≤ n → n < g.need → wr ≠ some (n, true) → s.mem (cell g.sp (n - g.N)) = st.v n
  cache : ∀ n m, wr = some (n, m) → g.N ≤ n ∧ n < g.need ∧ s.reg .rbx = st.v n
  rcx : s.reg .rcx = st.s.reg .rcx
  rdx : s.reg .rdx = st.s.reg .rdx
  rdi : s.reg .rdi = st.s.reg .rdi
  rsi : s.reg .rsi = st.s.reg .rsi
  rsp : s.reg .rsp = g.sp
  fl : s.fl = st.s.fl
  sym : s.sym = st.s.sym
  mem : ∀ a, g.Off a → s.mem a = st.s.mem a
  keep : ∀ r, ¬ g.Alloc r → s.reg r = g.reg0 r

/-- Hardware operands the generator may print: they are not allocated registers nor stack slots. -/
def HwOk (g : Cfg) (s : State) : Opd → Prop
  | .reg r => r = .rcx ∨ r = .rdx
  | .mem b off => (b = .rsi ∨ b = .rcx ∨ b = .rdi) ∧ g.Off (s.reg b + BitVec.ofNat 64 off)
  | .sym y off => g.Off (s.sym y + BitVec.ofNat 64 off)
  | .imm _ => False

/-- The operand printed for an argument. -/
def Placed (g : Cfg) (wr : Wr) (s : State) : Arg → Opd → Prop
  | .hw o, p => p = o ∧ HwOk g s o
  | .idx n, p =>
      n < g.need ∧ ((n < g.N ∧ p = .reg (regOf n)) ∨
        (g.N ≤ n ∧ ((p = .reg .rbx ∧ ∃ m, wr = some (n, m)) ∨ (p = X86.slot g.N n ∧ ∀ m, wr ≠ some (n, m)))))

theorem regOf_inj {a b : Nat} (ha : a < 11) (hb : b < 11) (h : regOf a = regOf b) : a = b := by
  revert h
  interval_cases a <;> interval_cases b <;> simp [regOf]

theorem regOf_ne (a : Nat) : regOf a ≠ .rcx ∧ regOf a ≠ .rdx ∧ regOf a ≠ .rdi ∧ regOf a ≠ .rsi ∧ regOf a ≠ .rsp := by
  unfold regOf
  split <;> simp

theorem regOf_rbx {a : Nat} (ha : a < 10) : regOf a ≠ .rbx := by
  interval_cases a <;> simp [regOf]

theorem slot_get (N n : Nat) (s : State) : (slot N n).get s = s.mem (cell (s.reg .rsp) (n - N)) := rfl

theorem Rel.get {g : Cfg} {wr : Wr} {st : VState} {s : State} (h : Rel g wr st s) {a : Arg} {p : Opd}
    (hp : Placed g wr st.s a p) : p.get s = a.get st := by
  cases a with
  | hw o =>
    obtain ⟨rfl, ho⟩ := hp
    cases p with
    | reg r =>
      rcases ho with rfl | rfl
      · exact h.rcx
      · exact h.rdx
    | mem b off =>
      obtain ⟨hb, ho⟩ := ho
      have hr : s.reg b = st.s.reg b := by
        rcases hb with rfl | rfl | rfl
        · exact h.rsi
        · exact h.rcx
        · exact h.rdi
      simp only [Opd.get, Arg.get, hr]
      exact h.mem _ ho
    | sym y off =>
      simp only [Opd.get, Arg.get, h.sym]
      exact h.mem _ ho
    | imm v => exact ho.elim
  | idx n =>
    obtain ⟨hn, ⟨h1, rfl⟩ | ⟨h1, ⟨rfl, m, hm⟩ | ⟨rfl, hm⟩⟩⟩ := hp
    · exact h.low n h1 hn
    · exact (h.cache n m hm).2.2
    · rw [slot_get, h.rsp]
      exact h.slots n h1 hn (hm true)

/-- A destination that is cached must be marked modified. -/
def Marked (g : Cfg) (wr : Wr) : Arg → Prop
  | .hw _ => True
  | .idx n => g.N ≤ n → ∀ m, wr = some (n, m) → m = true

theorem Rel.set {g : Cfg} (hg : g.Ok) {wr : Wr} {st : VState} {s : State} (h : Rel g wr st s) {a : Arg} {p : Opd}
    (hp : Placed g wr st.s a p) (hm : Marked g wr a) (x : BitVec 64) : Rel g wr (a.set x st) (p.set x s) := by
  have hle := hg.le
  cases a with
  | hw o =>
    obtain ⟨rfl, ho⟩ := hp
    cases p with
    | reg r =>
      have hr : (∀ n, regOf n ≠ r) ∧ r ≠ .rbx ∧ r ≠ .rsp ∧ r ≠ .rdi ∧ r ≠ .rsi := by
        rcases ho with rfl | rfl
        · exact ⟨fun n => (regOf_ne n).1, by decide, by decide, by decide, by decide⟩
        · exact ⟨fun n => (regOf_ne n).2.1, by decide, by decide, by decide, by decide⟩
      obtain ⟨hr1, hr2, hr3, hr4, hr5⟩ := hr
      refine ⟨fun n hn hn' => ?_, h.slots, fun n m hw => ?_, ?_, ?_, ?_, ?_, ?_, h.fl, h.sym, h.mem,
        fun r' hr' => ?_⟩
      · simp only [Opd.set, Arg.set, upd_apply, if_neg (hr1 n)]; exact h.low n hn hn'
      · simp only [Opd.set, Arg.set, upd_apply, if_neg hr2.symm]; exact h.cache n m hw
      · simp only [Opd.set, Arg.set, upd_apply]; split
        · rfl
        · exact h.rcx
      · simp only [Opd.set, Arg.set, upd_apply]; split
        · rfl
        · exact h.rdx
      · simp only [Opd.set, Arg.set, upd_apply, if_neg hr4.symm]; exact h.rdi
      · simp only [Opd.set, Arg.set, upd_apply, if_neg hr5.symm]; exact h.rsi
      · simp only [Opd.set, upd_apply, if_neg hr3.symm]; exact h.rsp
      · simp only [Opd.set, upd_apply]
        rw [if_neg (by rintro rfl; exact hr' (ho.elim .inl (fun h => .inr (.inl h))))]
        exact h.keep r' hr'
    | mem b off =>
      obtain ⟨hb, ho⟩ := ho
      have hr : s.reg b = st.s.reg b := by
        rcases hb with rfl | rfl | rfl
        · exact h.rsi
        · exact h.rcx
        · exact h.rdi
      refine ⟨h.low, fun n hn hn' hw => ?_, h.cache, h.rcx, h.rdx, h.rdi, h.rsi, h.rsp, h.fl, h.sym, fun a ha => ?_,
        h.keep⟩
      · simp only [Opd.set, hr, upd_apply]
        rw [if_neg (fun hc => ho (n - g.N) (by omega) hc.symm)]
        exact h.slots n hn hn' hw
      · simp only [Opd.set, Arg.set, hr, upd_apply]
        split
        · rfl
        · exact h.mem a ha
    | sym y off =>
      refine ⟨h.low, fun n hn hn' hw => ?_, h.cache, h.rcx, h.rdx, h.rdi, h.rsi, h.rsp, h.fl, h.sym, fun a ha => ?_,
        h.keep⟩
      · simp only [Opd.set, h.sym, upd_apply]
        rw [if_neg (fun hc => ho (n - g.N) (by omega) hc.symm)]
        exact h.slots n hn hn' hw
      · simp only [Opd.set, Arg.set, h.sym, upd_apply]
        split
        · rfl
        · exact h.mem a ha
    | imm v => exact ho.elim
  | idx n =>
    obtain ⟨hn, ⟨h1, rfl⟩ | ⟨h1, ⟨rfl, m, hw⟩ | ⟨rfl, hw⟩⟩⟩ := hp
    · -- a register
      obtain ⟨r1, r2, r3, r4, r5⟩ := regOf_ne n
      refine ⟨fun k hk hk' => ?_, fun k hk hk' hw => ?_, fun k m hw => ?_, ?_, ?_, ?_, ?_, ?_, h.fl, h.sym, h.mem,
        fun r' hr' => ?_⟩
      · simp only [Opd.set, Arg.set, upd_apply]
        by_cases hkn : k = n
        · subst hkn; simp
        · rw [if_neg (fun hc => hkn (regOf_inj (by omega) (by omega) hc)), if_neg hkn]
          exact h.low k hk hk'
      · simp only [Opd.set, Arg.set, upd_apply]
        rw [if_neg (by omega)]
        exact h.slots k hk hk' hw
      · obtain ⟨c1, c2, c3⟩ := h.cache k m hw
        have h10 := hg.spill (by omega)
        refine ⟨c1, c2, ?_⟩
        simp only [Opd.set, Arg.set, upd_apply]
        rw [if_neg (regOf_rbx (by omega)).symm, if_neg (by omega)]
        exact c3
      · simp only [Opd.set, Arg.set, upd_apply, if_neg r1.symm]; exact h.rcx
      · simp only [Opd.set, Arg.set, upd_apply, if_neg r2.symm]; exact h.rdx
      · simp only [Opd.set, Arg.set, upd_apply, if_neg r3.symm]; exact h.rdi
      · simp only [Opd.set, Arg.set, upd_apply, if_neg r4.symm]; exact h.rsi
      · simp only [Opd.set, upd_apply, if_neg r5.symm]; exact h.rsp
      · simp only [Opd.set, upd_apply]
        rw [if_neg (by rintro rfl; exact hr' (.inr (.inr (.inl ⟨n, h1, hn, rfl⟩))))]
        exact h.keep r' hr'
    · -- the cache
      have hmt := hm h1 m hw
      subst hmt
      have h10 := hg.spill (by omega)
      refine ⟨fun k hk hk' => ?_, fun k hk hk' hw' => ?_, fun k m' hw' => ?_, ?_, ?_, ?_, ?_, ?_, h.fl, h.sym, h.mem,
        fun r' hr' => ?_⟩
      · simp only [Opd.set, Arg.set, upd_apply]
        rw [if_neg (regOf_rbx (by omega)), if_neg (by omega)]
        exact h.low k hk hk'
      · simp only [Opd.set, Arg.set, upd_apply]
        have : k ≠ n := by rintro rfl; exact hw' hw
        rw [if_neg this]
        exact h.slots k hk hk' hw'
      · rw [hw] at hw'
        obtain ⟨rfl, rfl⟩ : n = k ∧ true = m' := by simpa using hw'
        exact ⟨h1, hn, by simp [Opd.set, Arg.set, upd_apply]⟩
      · simp only [Opd.set, Arg.set, upd_apply]; exact h.rcx
      · simp only [Opd.set, Arg.set, upd_apply]; exact h.rdx
      · simp only [Opd.set, Arg.set, upd_apply]; exact h.rdi
      · simp only [Opd.set, Arg.set, upd_apply]; exact h.rsi
      · simp only [Opd.set, upd_apply]; exact h.rsp
      · simp only [Opd.set, upd_apply]
        rw [if_neg (by rintro rfl; exact hr' (.inr (.inr (.inr ⟨by omega, rfl⟩))))]
        exact h.keep r' hr'
    · -- a stack slot
      have hsm := hg.small
      have e : (X86.slot g.N n).set x s = { s with mem := upd s.mem (cell g.sp (n - g.N)) x } := by
        simp only [X86.slot, Opd.set, h.rsp, cell]
      rw [e]
      refine ⟨fun k hk hk' => ?_, fun k hk hk' hw' => ?_, fun k m' hw' => ?_, h.rcx, h.rdx, h.rdi, h.rsi, h.rsp, h.fl,
        h.sym, fun a ha => ?_, h.keep⟩
      · simp only [Arg.set, upd_apply]
        rw [if_neg (by omega)]
        exact h.low k hk hk'
      · simp only [Arg.set, upd_apply]
        by_cases hkn : k = n
        · subst hkn; simp
        · rw [if_neg (fun hc => hkn ?_), if_neg hkn]
          · exact h.slots k hk hk' hw'
          · have := cell_inj (by omega) (by omega) hc
            omega
      · obtain ⟨c1, c2, c3⟩ := h.cache k m' hw'
        refine ⟨c1, c2, ?_⟩
        simp only [Arg.set, upd_apply]
        have : k ≠ n := by rintro rfl; exact hw m' hw'
        rw [if_neg this]
        exact c3
      · simp only [Arg.set, upd_apply]
        rw [if_neg (ha (n - g.N) (by omega))]
        exact h.mem a ha

theorem Rel.setFl {g : Cfg} {wr : Wr} {st : VState} {s : State} (h : Rel g wr st s) (f : Flags) :
    Rel g wr { st with s := { st.s with fl := f } } { s with fl := f } :=
  ⟨h.low, h.slots, h.cache, h.rcx, h.rdx, h.rdi, h.rsi, h.rsp, rfl, h.sym, h.mem, h.keep⟩

theorem HwOk.congr {g : Cfg} {s s' : State} (hr : ∀ r, r = .rsi ∨ r = .rcx ∨ r = .rdi → s'.reg r = s.reg r)
    (hs : s'.sym = s.sym) {o : Opd} (h : HwOk g s o) : HwOk g s' o := by
  cases o with
  | reg r => exact h
  | mem b off => exact ⟨h.1, by rw [hr b h.1]; exact h.2⟩
  | sym y off => show g.Off _; rw [hs]; exact h
  | imm v => exact h

/-- A two-operand instruction with placed arguments. -/
theorem Rel.op2 {g : Cfg} (hg : g.Ok) {wr : Wr} {st : VState} {s : State} (h : Rel g wr st s) (o : Op2) {d a : Arg}
    {p p' : Opd} (hd : Placed g wr st.s d p) (ha : Placed g wr st.s a p') (hm : o.writes = true → Marked g wr d) :
    Rel g wr (vstep (.op2 o d a) st) (step (.op2 o p p') s) := by
  simp only [vstep, step, Ins.exec]
  rw [h.get hd, h.get ha, h.fl]
  cases hw : o.writes with
  | false => simp only [Bool.false_eq_true, if_false]; exact h.setFl _
  | true =>
    simp only [if_true]
    refine (h.setFl _).set hg ?_ (hm hw) _
    cases d with
    | hw o' => exact ⟨hd.1, hd.2.congr (fun _ _ => rfl) rfl⟩
    | idx n => exact hd

/-- `mulx` with placed arguments; the high word goes to a variable and the low word to a variable or `rdx`. -/
theorem Rel.mulx {g : Cfg} (hg : g.Ok) {wr : Wr} {st : VState} {s : State} (h : Rel g wr st s) {hi : Nat} {lo a : Arg}
    {p p' p'' : Opd} (hh : Placed g wr st.s (.idx hi) p) (hl : Placed g wr st.s lo p') (ha : Placed g wr st.s a p'')
    (hm : Marked g wr (.idx hi)) (hm' : Marked g wr lo) :
    Rel g wr (vstep (.mulx (.idx hi) lo a) st) (step (.mulx p p' p'') s) := by
  simp only [vstep, step, Ins.exec]
  rw [h.get ha, h.rdx]
  exact (h.set hg hl hm' _).set hg (a := .idx hi) (p := p) hh hm _

/-- Marking the cache as modified. -/
theorem Rel.mark {g : Cfg} {n : Nat} {m m' : Bool} {st : VState} {s : State} (h : Rel g (some (n, m)) st s)
    (hm : m = true → m' = true) : Rel g (some (n, m')) st s := by
  refine ⟨h.low, fun k hk hk' hw => h.slots k hk hk' (fun hc => hw ?_), fun k m'' hw => ?_, h.rcx, h.rdx, h.rdi, h.rsi,
    h.rsp, h.fl, h.sym, h.mem, h.keep⟩
  · simp only [Option.some.injEq, Prod.mk.injEq] at hc ⊢
    exact ⟨hc.1, hm hc.2⟩
  · obtain ⟨rfl, _⟩ : n = k ∧ m' = m'' := by simpa using hw
    exact h.cache n m rfl

theorem steps_nil (s : State) : steps [] s = s := rfl
theorem steps_cons (i : Ins Opd) (l : List (Ins Opd)) (s : State) : steps (i :: l) s = steps l (step i s) := rfl

/-- Writing the cached variable back to its slot. -/
theorem Rel.flush {g : Cfg} (hg : g.Ok) {n : Nat} {m : Bool} {st : VState} {s : State} (h : Rel g (some (n, m)) st s) :
    Rel g (some (n, false)) st (steps (if m then [.op2 .mov (slot g.N n) (.reg .rbx)] else []) s) := by
  cases m with
  | false => exact h
  | true =>
    obtain ⟨c1, c2, c3⟩ := h.cache n true rfl
    have hsm := hg.small
    have e : steps (if true then [.op2 .mov (slot g.N n) (.reg .rbx)] else []) s =
        { s with mem := upd s.mem (cell g.sp (n - g.N)) (st.v n) } := by
      simp only [if_true, steps_cons, steps_nil, step, Ins.exec, Op2.eval, Op2.writes, Opd.get, c3, slot, Opd.set, h.rsp,
        cell]
    rw [e]
    refine ⟨h.low, fun k hk hk' hw' => ?_, fun k m' hw' => ?_, h.rcx, h.rdx, h.rdi, h.rsi, h.rsp, h.fl,
      h.sym, fun a ha => ?_, h.keep⟩
    · simp only [upd_apply]
      by_cases hkn : k = n
      · subst hkn; simp
      · rw [if_neg (fun hc => hkn ?_)]
        · exact h.slots k hk hk' (by simp; omega)
        · have := cell_inj (by omega) (by omega) hc
          omega
    · obtain ⟨rfl, rfl⟩ : n = k ∧ false = m' := by simpa using hw'
      exact ⟨c1, c2, c3⟩
    · simp only [upd_apply]
      rw [if_neg (ha (n - g.N) (by omega))]
      exact h.mem a ha

/-- Forgetting an unmodified cache entry. -/
theorem Rel.drop {g : Cfg} {n : Nat} {st : VState} {s : State} (h : Rel g (some (n, false)) st s) : Rel g none st s :=
  ⟨h.low, fun k hk hk' _ => h.slots k hk hk' (by simp), fun k m hw => by simp at hw, h.rcx, h.rdx, h.rdi, h.rsi,
    h.rsp, h.fl, h.sym, h.mem, h.keep⟩

/-- Caching a variable. -/
theorem Rel.load {g : Cfg} (hg : g.Ok) {n : Nat} (hn : g.N ≤ n) (hn' : n < g.need) {st : VState} {s : State}
    (h : Rel g none st s) :
    Rel g (some (n, false)) st (steps [.op2 .mov (.reg .rbx) (slot g.N n)] s) := by
  have h10 := hg.spill (by omega)
  have e : steps [.op2 .mov (.reg .rbx) (slot g.N n)] s = { s with reg := upd s.reg .rbx (st.v n) } := by
    simp only [steps_cons, steps_nil, step, Ins.exec, Op2.eval, Op2.writes, if_true, slot_get, h.rsp, Opd.set]
    rw [h.slots n hn hn' (by simp)]
  rw [e]
  refine ⟨fun k hk hk' => ?_, fun k hk hk' hw' => h.slots k hk hk' (by simp), fun k m' hw' => ?_, ?_, ?_, ?_, ?_, ?_,
    h.fl, h.sym, h.mem, fun r' hr' => ?_⟩
  · simp only [upd_apply]
    rw [if_neg (regOf_rbx (by omega))]
    exact h.low k hk hk'
  · obtain ⟨rfl, rfl⟩ : n = k ∧ false = m' := by simpa using hw'
    exact ⟨hn, hn', by simp [upd_apply]⟩
  · simp only [upd_apply]; exact h.rcx
  · simp only [upd_apply]; exact h.rdx
  · simp only [upd_apply]; exact h.rdi
  · simp only [upd_apply]; exact h.rsi
  · simp only [upd_apply]; exact h.rsp
  · simp only [upd_apply]
    rw [if_neg (by rintro rfl; exact hr' (.inr (.inr (.inr ⟨by omega, rfl⟩))))]
    exact h.keep r' hr'

/-- Reserving the cache for a variable that is about to be overwritten. -/
theorem Rel.reserve {g : Cfg} {n : Nat} (hn : g.N ≤ n) (hn' : n < g.need) {st : VState} {s : State}
    (h : Rel g none st s) : Rel g (some (n, true)) { st with v := upd st.v n (s.reg .rbx) } s := by
  refine ⟨fun k hk hk' => ?_, fun k hk hk' hw' => ?_, fun k m' hw' => ?_, h.rcx, h.rdx, h.rdi, h.rsi, h.rsp, h.fl,
    h.sym, h.mem, h.keep⟩
  · simp only [upd_apply]
    rw [if_neg (by omega)]
    exact h.low k hk hk'
  · have : k ≠ n := by rintro rfl; exact hw' rfl
    simp only [upd_apply, if_neg this]
    exact h.slots k hk hk' (by simp)
  · obtain ⟨rfl, rfl⟩ : n = k ∧ true = m' := by simpa using hw'
    exact ⟨hn, hn', by simp [upd_apply]⟩

/-- `_loadWr` with the value. -/
theorem loadWr_val {g : Cfg} (hg : g.Ok) {n : Nat} (hn : g.N ≤ n) (hn' : n < g.need) {wr : Wr} {st : VState}
    {s : State} (h : Rel g wr st s) :
    (loadWr g.N wr n true).2.1 = n ∧
    Rel g (some (loadWr g.N wr n true).2) st (steps (loadWr g.N wr n true).1 s) := by
  cases wr with
  | none => exact ⟨rfl, h.load hg hn hn'⟩
  | some w =>
    obtain ⟨r, m⟩ := w
    by_cases hr : r = n
    · subst hr
      simp only [loadWr, if_true, steps_nil]
      exact ⟨trivial, h⟩
    · simp only [loadWr, if_neg hr, if_true, steps_append]
      exact ⟨trivial, (h.flush hg).drop.load hg hn hn'⟩

/-- `_loadWr` without the value. -/
theorem loadWr_noval {g : Cfg} (hg : g.Ok) {n : Nat} (hn : g.N ≤ n) (hn' : n < g.need) {wr : Wr} {st : VState}
    {s : State} (h : Rel g wr st s) :
    (loadWr g.N wr n false).2.1 = n ∧
    ∃ x, Rel g (some (n, true)) { st with v := upd st.v n x } (steps (loadWr g.N wr n false).1 s) := by
  cases wr with
  | none => exact ⟨rfl, _, h.reserve hn hn'⟩
  | some w =>
    obtain ⟨r, m⟩ := w
    by_cases hr : r = n
    · subst hr
      simp only [loadWr, if_true, steps_nil]
      refine ⟨trivial, st.v r, ?_⟩
      have : upd st.v r (st.v r) = st.v := by funext k; simp only [upd_apply]; split <;> simp_all
      rw [this]
      exact h.mark (fun _ => rfl)
    · simp only [loadWr, if_neg hr, Bool.false_eq_true, if_false, List.append_nil]
      exact ⟨trivial, _, (h.flush hg).drop.reserve hn hn'⟩

end FF.X86
