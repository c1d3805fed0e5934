import Verif.AsmRawRun

/-!
# `copyn` of the generated assembly: an array of elements
-/

namespace FF.X86

/-- `copyn`, `src/copy.asm.ejs:89-100`, for elements of a tag word and `n` limbs. -/
def copyn (n : Nat) : List Line :=
  [.label "copyn_loop", .ins (i2 .mov (.reg .r8) (.reg .rsi)), .ins (i2 .mov (.reg .r9) (.reg .rdi)),
   .ins (i2 .mov (.reg .rax) (.imm (BitVec.ofNat 64 (n + 1)))), .misc (.mul64 .rdx), .ins (i2 .mov (.reg .rcx) (.reg .rax)), .misc .cld,
   .misc .repMovsq, .ins (i2 .mov (.reg .rsi) (.reg .r8)), .ins (i2 .mov (.reg .rdi) (.reg .r9)), .ret]

theorem cell_succ (a : BitVec 64) (i : Nat) : cell (a + 8) i = cell a (i + 1) := by
  rw [show a + 8 = cell a 1 from rfl, cell_add, Nat.add_comm]

/-- Writing the destination upwards leaves the words of the source that are still to be read. -/
def Upward (src dst : BitVec 64) (n : Nat) : Prop := ∀ i j, j < i → i < n → cell src i ≠ cell dst j

theorem movsq_spec (n : Nat) (hn : 8 * n ≤ 2 ^ 64) : ∀ (m : BitVec 64 → BitVec 64) (src dst : BitVec 64), Upward src dst n →
    (∀ i, i < n → movsq n m src dst (cell dst i) = m (cell src i)) ∧
    ∀ a, (∀ i, i < n → a ≠ cell dst i) → movsq n m src dst a = m a := by
  induction n with
  | zero => intro m src dst _; exact ⟨fun i h => by omega, fun a _ => rfl⟩
  | succ n ih =>
    intro m src dst h
    obtain ⟨h1, h2⟩ := ih (by omega) (upd m dst (m src)) (src + 8) (dst + 8) (fun i j hj hi => by
      rw [cell_succ, cell_succ]; exact h _ _ (by omega) (by omega))
    constructor
    · intro i hi
      rw [movsq]
      cases i with
      | zero =>
        rw [h2 _ (fun j hj => ?_), cell_zero, cell_zero, upd_same]
        rw [cell_succ]
        intro e
        have := cell_inj (by omega) (by omega) e
        omega
      | succ i =>
        rw [← cell_succ, h1 i (by omega), cell_succ, upd_ne]
        rw [← cell_zero dst]
        exact h _ _ (by omega) hi
    · intro a ha
      rw [movsq, h2 a (fun i hi => by rw [cell_succ]; exact ha _ (by omega)), upd_ne]
      rw [← cell_zero dst]
      exact ha 0 (by omega)

/-- The number of words `copyn` moves. -/
def copynCount (n : Nat) (s : State) : Nat := ((n + 1) * (s.reg .rdx).toNat) % 2 ^ 64

theorem copyn_run (env : String → Option (State → Option State)) (ra : BitVec 64) (n : Nat) (s : State) :
    ∃ s', run env ra (copyn n) s = some s' ∧ s'.mem = movsq (copynCount n s) s.mem (s.reg .rsi) (s.reg .rdi) ∧ s'.sym = s.sym ∧
      s'.reg .rsp = s.reg .rsp + 8 ∧ ∀ r, r ≠ .rax → r ≠ .rcx → r ≠ .rdx → r ≠ .r8 → r ≠ .r9 → r ≠ .rsp → s'.reg r = s.reg r := by
  refine ⟨_, by unfold copyn; rw [run, run, run, run, run, run, run, run, run, run, run] <;> first | rfl | simp, ?_, ?_, ?_, ?_⟩
  · simp [Line.exec, step, Ins.exec, i2, Op2.eval, Op2.writes, Opd.get, Opd.set, Misc.exec, upd, copynCount]
  · simp [Line.exec, step, Ins.exec, i2, Op2.eval, Op2.writes, Opd.get, Opd.set, Misc.exec]
  · simp [Line.exec, step, Ins.exec, i2, Op2.eval, Op2.writes, Opd.get, Opd.set, Misc.exec, upd]
  · intro r h1 h2 h3 h4 h5 h6
    by_cases h7 : r = .rsi <;> by_cases h8 : r = .rdi <;>
      simp_all [Line.exec, step, Ins.exec, i2, Op2.eval, Op2.writes, Opd.get, Opd.set, Misc.exec, upd]

end FF.X86
