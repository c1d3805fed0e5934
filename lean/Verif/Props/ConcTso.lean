import Verif.StoreBuffer
import Verif.Props.ConcProgram

/-!
# C90: the same under the memory model of x86-64

C88 and C89 with store buffers (`StoreBuffer.lean`): a store of a thread is seen by the others only later.  With them there are outcomes that no order of the
instructions explains (`C90_buffers_matter`); the field routines do not have them.
-/

namespace FF.Props

open FF.Conc

section
open FF.X86 (Routine State Access Reg elemAt InArr Line)
variable {ι : Type} [DecidableEq ι] [Fintype ι]
variable {q k : Nat} {ra : BitVec 64} {r : ι → Routine q ra} {s t : ι → State} {m0 : Conc.Mem}

/-- C90: threads in any of the routines of the library, from states with one memory, with calls that return when made alone and accesses that do not meet: every
execution, at any moment, is as the threads are alone. -/
theorem C90_x86 (hm : ∀ i, (s i).mem = m0) (ht : ∀ i, (r i).run (s i) = some (t i))
    (hd : ∀ i j, i ≠ j → Apart ((r i).touched (s i)) ((r j).touched (s j))) :
    ∃ L, ∀ N cs b m, Buffered (X86.lineMachine (X86.codes q) ra) (fun i => X86.core [(r i).code] (s i)) m0 N cs b m →
      AsAloneBuf (X86.lineMachine (X86.codes q) ra) (fun i => (r i).touched (s i)) (fun i => X86.core [] (t i)) (fun i => (t i).mem) m0 L N cs b m := by
  have h := fun i => X86.run_alone (r i).linked (r i).code (ht i) []
  choose k hk using h
  refine ⟨∑ i, k i, fun N cs b m hT => buffered_alone (k0 := k) (fun i => ?_) (fun i => ?_) (fun i m => ⟨rfl, rfl⟩) hd hT⟩
  · refine ⟨fun p hp => ?_, fun f b hb => X86.codes_wf f b hb⟩
    have e : p = (r i).code := by simpa [X86.core] using hp
    rw [e]
    exact (r i).wf
  · have := hk i
    rw [hm i] at this
    exact this

/-- C90 for arithmetic: each thread sees its right result from the moment it has returned, the others when its buffer is empty.  Missing as in C61: the calls
that are wrong alone (`ArithOp.Right`). -/
theorem C90_arith_partial {o : ι → ArithOp} {x y : ι → ZMod q} (hq : Modulus q) (hm : ∀ i, (s i).mem = m0) (hc : ∀ i, Calls q (o i) (s i) (x i) (y i))
    (hown : ∀ i j, i ≠ j → ∀ a, Owns q (s i) a → ¬ Uses q (o j).ops (s j) a) :
    ∃ (L : Nat) (t : ι → State), (∀ i, ((o i).routine q ra).run (s i) = some (t i)) ∧
      ∀ N cs b m, Buffered (X86.lineMachine (X86.codes q) ra) (fun i => X86.core [((o i).routine q ra).code] (s i)) m0 N cs b m →
        AsAloneBuf (X86.lineMachine (X86.codes q) ra) (fun i => ((o i).routine q ra).touched (s i)) (fun i => X86.core [] (t i)) (fun i => (t i).mem) m0 L N cs b m ∧
        ∀ i, cs i = X86.core [] (t i) → Rep q (elemAt (n64 q) (seen m (b i)) ((s i).reg .rdi)) ((o i).eval (x i) (y i)) ∧
          (b i = [] → Rep q (elemAt (n64 q) m ((s i).reg .rdi)) ((o i).eval (x i) (y i))) := by
  have hv := fun i => (hc i).denotes (ra := ra) hq
  choose t e h1 h2 h3 using hv
  have hcf := fun i => (hc i).confined (ra := ra)
  obtain ⟨L, hL⟩ := C90_x86 (r := fun i => (o i).routine q ra) hm h1
    (fun i j hij => C88_apart le_rfl le_rfl (hcf i) (hcf j) (hown i j hij) (hown j i hij.symm))
  refine ⟨L, t, h1, fun N cs b m hT => ⟨hL N cs b m hT, fun i hi => ?_⟩⟩
  have hs : Rep q (elemAt (n64 q) (seen m (b i)) ((s i).reg .rdi)) ((o i).eval (x i) (y i)) := by
    have hE : elemAt (n64 q) (seen m (b i)) ((s i).reg .rdi) = elemAt (n64 q) (t i).mem ((s i).reg .rdi) := by
      refine X86.elemAt_congr fun a ha => (hL N cs b m hT).sees i hi a fun j hj hw => ?_
      exact hown j i hj a (((hcf j).writes a hw).imp_left (·.2)) (.inr (.inl ha))
    have hR : elemAt (n64 q) (t i).mem ((t i).reg .rdi) = e i := (h2 i).elem
    rw [(h2 i).rdi] at hR
    rw [hE, hR]
    exact h3 i
  refine ⟨hs, fun hb => ?_⟩
  rw [hb] at hs
  exact hs

/-- C90 for programs of calls.  Missing: the calls that are wrong alone (`ClearAll`, as in C79). -/
theorem C90_programs_partial {loc : Nat → BitVec 64} {prog : ι → List Instr} {y : X86.Sym → BitVec 64} (hq : Modulus q) (h : Threads q k loc prog s m0 y)
    (hc : ∀ i, ClearAll q ra (loader loc ra) (prog i) (s i)) {σ : Nat → ZMod q} (hσ : ∀ p < k, Rep q (elemAt (n64 q) m0 (loc p)) (σ p)) :
    ∃ (L : Nat) (t : ι → State), (∀ i, X86.run (callerEnv q ra) ra (callerCode loc (prog i)) (s i) = some (t i)) ∧
      ∀ N cs b m, Buffered (X86.lineMachine (linkAll q) ra) (fun i => X86.core [callerCode loc (prog i)] (s i)) m0 N cs b m →
        AsAloneBuf (X86.lineMachine (linkAll q) ra) (threadAcc q ra loc prog s) (fun i => X86.core [] (t i)) (fun i => (t i).mem) m0 L N cs b m ∧
        (∀ i, cs i = X86.core [] (t i) → ∀ p, Sets (prog i) p → Rep q (elemAt (n64 q) (seen m (b i)) (loc p)) (runSpec (prog i) σ p) ∧
          (b i = [] → Rep q (elemAt (n64 q) m (loc p)) (runSpec (prog i) σ p))) ∧
        (∀ p < k, (∀ i, ¬ Sets (prog i) p) → Rep q (elemAt (n64 q) m (loc p)) (σ p)) := by
  obtain ⟨n, t, hA⟩ := h.alone (ra := ra) hq hc hσ
  refine ⟨∑ i, n i, t, hA.run, fun N cs b m hT => ?_⟩
  have hL := buffered_alone (k0 := n) hA.ok hA.alone (fun i m => ⟨rfl, rfl⟩) hA.apart hT
  refine ⟨hL, fun i hi p hp => ?_, fun p hp hs => ?_⟩
  · have hs : Rep q (elemAt (n64 q) (seen m (b i)) (loc p)) (runSpec (prog i) σ p) := by
      rw [X86.elemAt_congr fun a ha => hL.sees i hi a (h.quiet hA hp ha)]
      exact hA.rep i p (hp.lt (h.range i))
    refine ⟨hs, fun hb => ?_⟩
    rw [hb] at hs
    exact hs
  · rw [X86.elemAt_congr fun a ha => hL.rest a (h.kept hA hp hs ha)]
    exact hσ p hp

/-- In full for moduli for which every routine is right and results that are not placed on operands where that matters: when every thread has returned and
the buffers are empty, the memory holds the values. -/
theorem C90_programs_placed_partial {loc : Nat → BitVec 64} {prog : ι → List Instr} {y : X86.Sym → BitVec 64} (hq : Modulus q) (h : Threads q k loc prog s m0 y)
    (hp : ∀ i, ∀ x ∈ prog i, x.placedX86) (h6 : n64 q ≠ 6) (h7 : n64 q ≠ 7) (hb : bitLen q < 2 ^ 31) {σ : Nat → ZMod q}
    (hσ : ∀ p < k, Rep q (elemAt (n64 q) m0 (loc p)) (σ p)) :
    ∃ L, ∀ N cs b m, Buffered (X86.lineMachine (linkAll q) ra) (fun i => X86.core [callerCode loc (prog i)] (s i)) m0 N cs b m →
      N ≤ L ∧ (N < L → ∃ i c m', (X86.lineMachine (linkAll q) ra).step (cs i) (seen m (b i)) = some (c, m')) ∧
      (N = L → (∀ i, b i = []) → ∀ p < k, (∀ i, Sets (prog i) p → Rep q (elemAt (n64 q) m (loc p)) (runSpec (prog i) σ p)) ∧
        ((∀ i, ¬ Sets (prog i) p) → Rep q (elemAt (n64 q) m (loc p)) (σ p))) := by
  obtain ⟨L, t, _, hL⟩ := C90_programs_partial (ra := ra) hq h (fun i => clearAll_of_placed (fun x hx => ⟨hp i x hx, right_of_width h6 h7 hb _⟩) _) hσ
  refine ⟨L, fun N cs b m hT => ?_⟩
  obtain ⟨h1, h2, h3⟩ := hL N cs b m hT
  refine ⟨h1.steps, fun hN => ?_, fun hN he p hp => ⟨fun i hs => (h2 i (h1.done.mp hN i) p hs).2 (he i), h3 p hp⟩⟩
  by_contra hcon
  have : N = L := h1.done.mpr fun i => (h1.goes i).resolve_right fun ⟨c, m', e⟩ => hcon ⟨i, c, m', e⟩
  omega

/-- The raw ARM64 routines with such buffers.  Missing: the AArch64 memory model also reorders loads and speculates. -/
theorem C90_arm_partial {p : ι → List Arm.Line} {s t : ι → Arm.State} (hm : ∀ i, (s i).mem = m0) (ht : ∀ i, Arm.run (p i) (s i) = some (t i))
    (hd : ∀ i j, i ≠ j → Apart (Arm.touched (p i) (s i)) (Arm.touched (p j) (s j))) :
    ∃ L, ∀ N cs b m, Buffered Arm.lineMachine (fun i => Arm.core (some (p i)) (s i)) m0 N cs b m →
      AsAloneBuf Arm.lineMachine (fun i => Arm.touched (p i) (s i)) (fun i => Arm.core none (t i)) (fun i => (t i).mem) m0 L N cs b m := by
  have h := fun i => Arm.run_alone (p i) (ht i)
  choose k hk using h
  refine ⟨∑ i, k i, fun N cs b m hT => buffered_alone (k0 := k) (fun i => trivial) (fun i => ?_) (fun i m => ⟨rfl, rfl⟩) hd hT⟩
  have := hk i
  rw [hm i] at this
  exact this

/-! ## The hypotheses are met, and buffers make a difference -/

/-- The threads of C89, in every execution with store buffers. -/
example : ∃ L, ∀ N cs b m, Buffered (X86.lineMachine (linkAll bnR) 99) (fun i => X86.core [callerCode machLoc (demoThreads i)] (demoStart i)) (demoStart 0).mem N cs b m →
    N ≤ L ∧ (N = L → (∀ i, b i = []) →
      Rep bnR (elemAt (n64 bnR) m (machLoc 0)) (Op.den .lt (77 * 77) 77) ∧ Rep bnR (elemAt (n64 bnR) m (machLoc 1)) (Op.den .shl (77 + 77) 77)) := by
  obtain ⟨L, h⟩ := C90_programs_placed_partial (ra := 99) bnR_modulus demo_threads
    (by
      intro i x hx
      fin_cases i <;> simp only [demoThreads] at hx <;> simp at hx <;> rcases hx with rfl | rfl <;> simp [Instr.placedX86])
    (by rw [n64_bnR]; decide) (by rw [n64_bnR]; decide) (by decide +kernel)
    (σ := fun p => ((match p with | 0 => bnR - 5 | 1 => bnR - 3 | _ => 77 : Nat) : ZMod bnR)) (by
      intro p hp
      interval_cases p <;> exact Rep_iff.mpr (by decide +kernel))
  refine ⟨L, fun N cs b m hT => ?_⟩
  obtain ⟨h1, _, h2⟩ := h N cs b m hT
  refine ⟨h1, fun e he => ?_⟩
  have h3 := (h2 e he 0 (by decide)).1 0 ⟨⟨.mul, 0, 2, 2⟩, by simp [demoThreads], rfl⟩
  have h4 := (h2 e he 1 (by decide)).1 1 ⟨⟨.add, 1, 2, 2⟩, by simp [demoThreads], rfl⟩
  simp [runSpec, demoThreads, Op.den] at h3 h4
  exact ⟨h3, h4⟩

end

/-! ### A store and a load -/

section
open FF.X86 (State Line upd)

/-- A thread stores 1 to the cell at `rdi` and then loads the one at `rsi`. -/
def litCode : List Line := [X86.op .mov (.mem .rdi 0) X86.rax, X86.op .mov X86.rbx (.mem .rsi 0), .ret]

/-- The cell that the thread stores to; the other thread loads it. -/
def litCell (i : Bool) : BitVec 64 := if i then 8 else 16

def litStart (i : Bool) : State where
  reg := fun r => match r with | .rdi => litCell i | .rsi => litCell !i | .rax => 1 | _ => 7
  fl := ⟨false, false, false, false⟩
  mem := fun _ => 0
  sym := fun _ => 0

/-- The thread after `p` instructions, with `v` loaded. -/
def litCore (i : Bool) (v : BitVec 64) : Nat → X86.Core
  | 0 => X86.core [litCode] (litStart i)
  | 1 => X86.core [litCode.drop 1] (litStart i)
  | 2 => X86.core [litCode.drop 2] { litStart i with reg := upd (litStart i).reg .rbx v }
  | _ => X86.core [] { litStart i with reg := upd (upd (litStart i).reg .rbx v) .rsp 15 }

abbrev litM : Machine := X86.lineMachine (fun _ => none) 0

theorem lit0 (i : Bool) (v : BitVec 64) (m : Conc.Mem) : litM.step (litCore i v 0) m = some (litCore i v 1, put m (litCell i) 1) := by
  cases i <;> rfl
theorem lit1 (i : Bool) (v : BitVec 64) (m : Conc.Mem) : litM.step (litCore i v 1) m = some (litCore i (m (litCell !i)) 2, m) := by
  cases i <;> rfl
theorem lit2 (i : Bool) (v : BitVec 64) (m : Conc.Mem) : litM.step (litCore i v 2) m = some (litCore i v 3, m) := by
  cases i <;> rfl
theorem lit3 (i : Bool) (v : BitVec 64) (p : Nat) (m : Conc.Mem) : litM.step (litCore i v (p + 3)) m = none := by
  cases i <;> rfl

/-- Without buffers one of the two threads sees the store of the other one. -/
theorem lit_together {N : Nat} {cs : Bool → litM.Core} {m : Conc.Mem} (h : Together litM (fun i => litCore i 0 0) (fun _ => 0) N cs m) :
    ∃ (p : Bool → Nat) (v : Bool → BitVec 64), (∀ i, cs i = litCore i (v i) (p i)) ∧ (∀ i, 1 ≤ p i → m (litCell i) = 1) ∧
      ((∀ i, 2 ≤ p i) → v true = 1 ∨ v false = 1) := by
  induction h with
  | nil => exact ⟨fun _ => 0, fun _ => 0, fun _ => rfl, fun _ h => absurd h (Nat.not_succ_le_zero 0), fun h => absurd (h true) (by decide)⟩
  | @snoc cs m N h i c m1 h' ih =>
    obtain ⟨p, v, h1, h2, h3⟩ := ih
    rw [h1 i] at h'
    have key : ∀ (w : BitVec 64) (n : Nat) (j : Bool), (Function.update cs i (litCore i w n) : Bool → litM.Core) j =
        litCore j (Function.update v i w j) (Function.update p i n j) := by
      intro w n j
      by_cases e : j = i
      · subst e
        exact (Function.update_self ..).trans (by rw [Function.update_self, Function.update_self])
      · exact (Function.update_of_ne e ..).trans (by rw [Function.update_of_ne e, Function.update_of_ne e]; exact h1 j)
    have hne : litCell (!i) ≠ litCell i := by cases i <;> decide
    rcases hp : p i with _ | _ | _ | n
    · rw [hp, lit0] at h'
      cases h'
      refine ⟨Function.update p i 1, Function.update v i (v i), key _ _, fun j hj => ?_, fun hall => ?_⟩
      · by_cases e : j = i
        · subst e; simp [put]
        · rw [Function.update_of_ne e] at hj
          have e' : j = !i := by cases i <;> cases j <;> simp_all
          subst e'
          simp only [put, if_neg hne]
          exact h2 _ hj
      · have := hall i; simp at this
    · rw [hp, lit1] at h'
      cases h'
      refine ⟨Function.update p i 2, Function.update v i (m (litCell !i)), key _ _, fun j hj => ?_, fun hall => ?_⟩
      · by_cases e : j = i
        · subst e; exact h2 _ (by omega)
        · rw [Function.update_of_ne e] at hj; exact h2 j hj
      · have h4 := hall (!i)
        rw [Function.update_of_ne (by cases i <;> decide)] at h4
        have := h2 (!i) (by omega)
        cases i
        · right; simpa using this
        · left; simpa using this
    · rw [hp, lit2] at h'
      cases h'
      refine ⟨Function.update p i 3, Function.update v i (v i), key _ _, fun j hj => ?_, fun hall => ?_⟩
      · by_cases e : j = i
        · subst e; exact h2 _ (by omega)
        · rw [Function.update_of_ne e] at hj; exact h2 j hj
      · rw [Function.update_eq_self]
        refine h3 fun j => ?_
        by_cases e : j = i
        · subst e; omega
        · have := hall j; rwa [Function.update_of_ne e] at this
    · rw [hp, lit3] at h'
      cases h'

/-- Store buffers matter for threads that do share cells: both threads can return without having seen the store of the other one, which no interleaving of
the instructions explains. -/
theorem C90_buffers_matter :
    (∃ N cs m, Buffered litM (fun i : Bool => litCore i 0 0) (fun _ => 0) N cs (fun _ => []) m ∧ (∀ i, (cs i).stack = [] ∧ (cs i).reg .rbx = 0)) ∧
    ∀ N cs m, Together litM (fun i : Bool => litCore i 0 0) (fun _ => 0) N cs m → ¬ ∀ i, (cs i).stack = [] ∧ (cs i).reg .rbx = 0 := by
  constructor
  · have b0 := Buffered.nil (M := litM) (cs0 := fun i : Bool => litCore i 0 0) (m0 := fun _ => 0)
    have b1 := b0.instr true (lit0 true 0 _)
    have b2 := b1.instr false (c := litCore false 0 1) (lit0 false 0 _)
    have b3 := b2.instr true (c := litCore true 0 2) (lit1 true 0 _)
    have b4 := b3.instr false (c := litCore false 0 2) (lit1 false 0 _)
    have b5 := b4.instr true (c := litCore true 0 3) (lit2 true 0 _)
    have b6 := b5.instr false (c := litCore false 0 3) (lit2 false 0 _)
    have b7 := b6.drain true (u := []) (a := 8) (v := 1) (w := []) rfl nofun
    have b8 := b7.drain false (u := []) (a := 16) (v := 1) (w := []) rfl nofun
    have e : ∀ b : Bool → Buf, Function.update (Function.update b true ([] ++ [])) false ([] ++ []) = fun _ => [] := fun b => by
      funext i; cases i <;> rfl
    rw [e] at b8
    exact ⟨6, _, _, b8, fun i => by cases i <;> exact ⟨rfl, rfl⟩⟩
  · intro N cs m h hc
    obtain ⟨p, v, h1, h2, h3⟩ := lit_together h
    have hp : ∀ i, 3 ≤ p i := fun i => by
      have := (hc i).1
      rw [h1 i] at this
      rcases hp : p i with _ | _ | _ | n
      · rw [hp] at this; cases this
      · rw [hp] at this; cases this
      · rw [hp] at this; cases this
      · omega
    have hv : ∀ i, v i = 0 := fun i => by
      have := (hc i).2
      obtain ⟨n, hn⟩ := Nat.exists_eq_add_of_le' (hp i)
      rw [h1 i, hn] at this
      exact this
    rcases h3 fun i => by have := hp i; omega with h | h <;> rw [hv] at h <;> exact absurd h (by decide)

end

end FF.Props
