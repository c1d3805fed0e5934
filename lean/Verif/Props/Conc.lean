import Verif.ArmConc
import Verif.AsmConcLib
import Verif.Props.AsmTagged
import Verif.Props.AsmToInt
import Verif.Props.AsmTouchTag
import Verif.Props.Arm
import Verif.Props.ArmTouch

/-!
# C88: calls of several threads at the same time do not disturb each other

Any number of threads, each with its own registers and stack, on one memory; the schedule picks at every instruction the thread that executes
it.  The routines have no private static data, take no lock and share the tables of the modulus: a thread may run in any of them, also in the
same one as another thread, and may take operands that others take too.  Needed is only that no thread writes (its result, its part of the
stack) what another one uses.
-/

namespace FF.Props

open FF.Conc

section general
variable {ι : Type} [DecidableEq ι] [Fintype ι]

/-! ## x86-64 -/

section x86
open FF.X86 (Routine State Access Reg elemAt InData)
variable {q : Nat} {ra : BitVec 64} {r : ι → Routine q ra} {s t : ι → State} {m0 : Conc.Mem}

/-- Threads in any of the routines of the library (`Routine.rawAddLL`, …, `Routine.shr` in `AsmConcLib.lean`), from states with one memory, with calls that
return when made alone and accesses that do not meet: every interleaving, at any moment, is as the threads are alone. -/
theorem C88_x86 (hm : ∀ i, (s i).mem = m0) (ht : ∀ i, (r i).run (s i) = some (t i))
    (hd : ∀ i j, i ≠ j → Apart ((r i).touched (s i)) ((r j).touched (s j))) :
    ∃ L, ∀ N cs m, Together (X86.lineMachine (X86.codes q) ra) (fun i => X86.core [(r i).code] (s i)) m0 N cs m →
      AsAlone (X86.lineMachine (X86.codes q) ra) (fun i => (r i).touched (s i)) (fun i => X86.core [] (t i)) (fun i => (t i).mem) m0 L N cs m := by
  have h := fun i => X86.run_alone (r i).linked (r i).code (ht i) []
  choose k hk using h
  refine ⟨∑ i, k i, fun N cs m hT => together_alone (k0 := k) (fun i => ?_) (fun i => ?_) (fun i m => ⟨rfl, rfl⟩) hd hT⟩
  · refine ⟨fun p hp => ?_, fun f b hb => X86.codes_wf f b hb⟩
    have e : p = (r i).code := by simpa [X86.core] using hp
    rw [e]
    exact (r i).wf
  · have := hk i
    rw [hm i] at this
    exact this

/-! ### Ownership -/

/-- The cells that a call of a tagged routine with the operands `ops` may read: operands, result, tables, stack, return address. -/
def Uses (q : Nat) (ops : List Reg) (s : State) (a : BitVec 64) : Prop :=
  (∃ b ∈ ops, ElemAt q s b a) ∨ ElemAt q s .rdi a ∨ InData q s.sym a ∨ FrameCell (tagStack q) s a ∨ a = s.reg .rsp

/-- The cells that it may write: result and stack. -/
def Owns (q : Nat) (s : State) (a : BitVec 64) : Prop := ElemAt q s .rdi a ∨ FrameCell (tagStack q) s a

omit [DecidableEq ι] [Fintype ι] in
/-- The footprints of C85 give the hypothesis of `C88_x86`: the two calls need not be of the same routine. -/
theorem C88_apart {p p' : Routine q ra} {u v : State} {F F' : Nat} {ops ops' : List Reg} {b b' : Bool} (hF : F ≤ tagStack q) (hF' : F' ≤ tagStack q)
    (h : Confined q F ops b p.touched p.run u) (h' : Confined q F' ops' b' p'.touched p'.run v)
    (hu : ∀ a, Owns q u a → ¬ Uses q ops' v a) (hv : ∀ a, Owns q v a → ¬ Uses q ops u a) : Apart (p.touched u) (p'.touched v) := by
  have fr : ∀ {F : Nat} {s : State} {a : BitVec 64}, F ≤ tagStack q → FrameCell F s a → FrameCell (tagStack q) s a :=
    fun h ⟨j, h1, h2⟩ => ⟨j, by omega, h2⟩
  have uses : ∀ {F : Nat} {ops : List Reg} {b : Bool} {g : State → List Access} {f : State → Option State} {s : State}, F ≤ tagStack q →
      Confined q F ops b g f s → ∀ a, Touches (g s) a → Uses q ops s a := by
    intro F ops b g f s hF hc a ha
    rcases ha with ha | ha
    · rcases hc.reads a ha with h | h | h | h | h
      · exact .inl h
      · exact .inr (.inl h.2)
      · exact .inr (.inr (.inl h))
      · exact .inr (.inr (.inr (.inl (fr hF h))))
      · exact .inr (.inr (.inr (.inr h)))
    · rcases hc.writes a ha with h | h
      · exact .inr (.inl h.2)
      · exact .inr (.inr (.inr (.inl (fr hF h))))
  have owns : ∀ {F : Nat} {ops : List Reg} {b : Bool} {g : State → List Access} {f : State → Option State} {s : State}, F ≤ tagStack q →
      Confined q F ops b g f s → ∀ a, Access.write a ∈ g s → Owns q s a :=
    fun hF hc a ha => (hc.writes a ha).imp (·.2) (fr hF)
  exact fun a => ⟨fun hw ht => hu a (owns hF h a hw) (uses hF' h' a ht), fun hw ht => hv a (owns hF' h' a hw) (uses hF h a ht)⟩

/-! ### Arithmetic -/

/-- The five operations. -/
inductive ArithOp
  | add | sub | mul | square | neg

namespace ArithOp

/-- The routine. -/
def routine (q : Nat) (ra : BitVec 64) : ArithOp → Routine q ra
  | add => Routine.add q ra | sub => Routine.sub q ra | mul => Routine.mul q ra | square => Routine.square q ra | neg => Routine.neg q ra

/-- Where the operands are. -/
def ops : ArithOp → List Reg
  | add | sub | mul => [.rsi, .rdx]
  | square | neg => [.rsi]

/-- The operation on residues. -/
def eval (x y : ZMod q) : ArithOp → ZMod q
  | add => x + y | sub => x - y | mul => x * y | square => x * x | neg => -x

/-- The calls for which C61 has the right result: all but the listed in-place ones, and the conversions of C55 for the widths for which they are wrong. -/
def Right (q : Nat) (s : State) : ArithOp → Prop
  | add => X86.MixOk q (opAt q s .rsi) (opAt q s .rdx) ∧ ¬ TagConvClash q s
  | sub => X86.MixOk q (opAt q s .rsi) (opAt q s .rdx) ∧ ¬ TagConvClash q s ∧ ¬ TagNegClash q s
  | mul => X86.MulOk q (opAt q s .rsi) (opAt q s .rdx)
  | square | neg => True

end ArithOp

/-- A thread about to call `o` on elements that denote `x` and `y`. -/
structure Calls (q : Nat) (o : ArithOp) (s : State) (x y : ZMod q) : Prop where
  ready : TagReady q s
  opnd : ∀ b ∈ o.ops, TagOperand q s b
  left : Rep q (opAt q s .rsi) x
  right : .rdx ∈ o.ops → Rep q (opAt q s .rdx) y
  ok : o.Right q s

omit [DecidableEq ι] [Fintype ι] in
theorem Calls.denotes {o : ArithOp} {s : State} {x y : ZMod q} (hq : Modulus q) (h : Calls q o s x y) :
    TagDenotes (o.routine q ra).env ra (o.routine q ra).code q s (o.eval x y) := by
  obtain ⟨h1, h2, h3, h4, h5⟩ := h
  cases o with
  | add => exact C61_add_partial ra hq h5.1 h1 (h2 _ (by simp [ArithOp.ops])) (h2 _ (by simp [ArithOp.ops])) h3 (h4 (by simp [ArithOp.ops])) h5.2
  | sub => exact C61_sub_partial ra hq h5.1 h1 (h2 _ (by simp [ArithOp.ops])) (h2 _ (by simp [ArithOp.ops])) h3 (h4 (by simp [ArithOp.ops])) h5.2.1 h5.2.2
  | mul => exact C61_mul_partial ra hq h5 h1 (h2 _ (by simp [ArithOp.ops])) (h2 _ (by simp [ArithOp.ops])) h3 (h4 (by simp [ArithOp.ops]))
  | square => exact C61_square ra hq h1 (h2 _ (by simp [ArithOp.ops])) h3
  | neg => exact C61_neg ra hq h1 (h2 _ (by simp [ArithOp.ops])) h3

omit [DecidableEq ι] [Fintype ι] in
theorem Calls.confined {o : ArithOp} {s : State} {x y : ZMod q} (h : Calls q o s x y) :
    Confined q (tagStack q) o.ops true (o.routine q ra).touched (o.routine q ra).run s := by
  have hF : 8 * tagStack q < 2 ^ 64 := by have := h.ready.fits; omega
  have hr : ResultOffStack q (tagStack q) s := fun a ha hf => by
    obtain ⟨j, h1, h2⟩ := hf
    exact h.ready.stackDst a ha ⟨j, h1, h2⟩
  have hs := frame_small (n64_pos q) (canOpt q)
  have h1 : 6 + 1 * (n64 q + 1) + (1 + X86.rawFrame q) ≤ tagStack q := by unfold X86.rawFrame tagStack; omega
  have h2 : 2 + X86.rawFrame q ≤ tagStack q := by unfold X86.rawFrame tagStack; omega
  cases o with
  | add => exact confined_of_safe (sg := X86.sigE2) rfl rfl (X86.safe_add.mono h1) hF s fun _ => hr
  | sub => exact confined_of_safe (sg := X86.sigE2) rfl rfl (X86.safe_sub.mono h1) hF s fun _ => hr
  | mul => exact confined_of_safe (sg := X86.sigE2) rfl rfl ((X86.safe_rawOnly (p := X86.mulCode) (by decide +kernel)).mono h2) hF s fun _ => hr
  | square => exact confined_of_safe (sg := X86.sigCopy) rfl rfl ((X86.safe_rawOnly (p := X86.squareCode) (by decide +kernel)).mono h2) hF s fun _ => hr
  | neg => exact confined_of_safe (sg := X86.sigCopy) rfl rfl ((X86.safe_rawOnly (p := X86.negCode) (by decide +kernel)).mono h2) hF s fun _ => hr

/-- Threads that compute sums, differences, products, squares and negatives at the same time, from elements that they may share into elements of
their own: there is no data race, every schedule comes to an end after the same number of instructions, and each result is right from the moment
its thread has returned.  Missing as in C61: the calls that are wrong alone (`ArithOp.Right`). -/
theorem C88_arith_partial {o : ι → ArithOp} {x y : ι → ZMod q} (hq : Modulus q) (hm : ∀ i, (s i).mem = m0) (hc : ∀ i, Calls q (o i) (s i) (x i) (y i))
    (hown : ∀ i j, i ≠ j → ∀ a, Owns q (s i) a → ¬ Uses q (o j).ops (s j) a) :
    ∃ (L : Nat) (t : ι → State), (∀ i, ((o i).routine q ra).run (s i) = some (t i)) ∧
      ∀ N cs m, Together (X86.lineMachine (X86.codes q) ra) (fun i => X86.core [((o i).routine q ra).code] (s i)) m0 N cs m →
        AsAlone (X86.lineMachine (X86.codes q) ra) (fun i => ((o i).routine q ra).touched (s i)) (fun i => X86.core [] (t i)) (fun i => (t i).mem) m0 L N cs m ∧
        ∀ i, cs i = X86.core [] (t i) → Rep q (elemAt (n64 q) m ((s i).reg .rdi)) ((o i).eval (x i) (y i)) := by
  have hv := fun i => (hc i).denotes (ra := ra) hq
  choose t e h1 h2 h3 using hv
  have hcf := fun i => (hc i).confined (ra := ra)
  obtain ⟨L, hL⟩ := C88_x86 (r := fun i => (o i).routine q ra) hm h1
    (fun i j hij => C88_apart le_rfl le_rfl (hcf i) (hcf j) (hown i j hij) (hown j i hij.symm))
  refine ⟨L, t, h1, fun N cs m hT => ⟨hL N cs m hT, fun i hi => ?_⟩⟩
  have hE : elemAt (n64 q) m ((s i).reg .rdi) = elemAt (n64 q) (t i).mem ((s i).reg .rdi) := by
    refine X86.elemAt_congr fun a ha => (hL N cs m hT).result i hi a fun j hj hw => ?_
    exact hown j i hj a (((hcf j).writes a hw).imp_left (·.2)) (.inr (.inl ha))
  have hR : elemAt (n64 q) (t i).mem ((t i).reg .rdi) = e i := (h2 i).elem
  rw [(h2 i).rdi] at hR
  rw [hE, hR]
  exact h3 i

/-! ### Conversion to a machine integer -/

/-- Threads that convert elements, which they may share, to `int` at the same time: each returns its integer, whatever the schedule.  The threads own only
their part of the stack.  Missing as in C68: values that do not fit, for which `toInt` should fail, and those for which it is wrong alone. -/
theorem C88_toInt_partial {x : ι → ZMod q} (hq : Modulus q) (hm : ∀ i, (s i).mem = m0) (h7 : ∀ i, X86.FromOk q (opAt q (s i) .rdi)) (hr : ∀ i, TagReady q (s i))
    (hx : ∀ i, Rep q (opAt q (s i) .rdi) (x i)) (h1 : ∀ i, -2147483648 ≤ sval (x i)) (h2 : ∀ i, sval (x i) ≤ 2147483647)
    (h3 : ∀ i, -sval (x i) ≤ (q % 2 ^ 64 : Nat)) (hown : ∀ i j, i ≠ j → ∀ a, FrameCell (tagStack q) (s i) a → ¬ Uses q [.rdi] (s j) a) :
    ∃ (L : Nat) (t : ι → State), (∀ i, (((t i).reg .rax).setWidth 32).toInt = sval (x i)) ∧
      ∀ N cs m, Together (X86.lineMachine (X86.codes q) ra) (fun i => X86.core [X86.toIntCode (n64 q)] (s i)) m0 N cs m →
        AsAlone (X86.lineMachine (X86.codes q) ra) (fun i => (Routine.toInt q ra).touched (s i)) (fun i => X86.core [] (t i)) (fun i => (t i).mem) m0 L N cs m := by
  have hv := fun i => C68_toInt_fits_partial ra hq (h7 i) (hr i) (hx i) (h1 i) (h2 i) (h3 i)
  choose v hv hw using hv
  have ht := fun i => hv i fun _ => none
  choose t ht using ht
  have hs := frame_small (n64_pos q) (canOpt q)
  have hF : stackCells q 5 1 + 0 ≤ tagStack q := by unfold stackCells tagStack; omega
  have hc : ∀ i, Confined q (tagStack q) [.rdi] false (Routine.toInt q ra).touched (Routine.toInt q ra).run (s i) := fun i => by
    have hG : ∀ s', Confined q 0 [] false (fun _ => []) (fun _ => none) s' := fun s' => ⟨nofun, nofun, nofun, nofun, nofun⟩
    have := C85_toInt (ra := ra) (s := s i) hG nofun (by have := (hr i).fits; omega)
    have fr : ∀ {a}, FrameCell (stackCells q 5 1 + 0) (s i) a → FrameCell (tagStack q) (s i) a := fun ⟨j, h1, h2⟩ => ⟨j, by omega, h2⟩
    exact ⟨fun a ha => (this.reads a ha).imp_right (Or.imp_right (Or.imp_right (Or.imp_left fr))), fun a ha => (this.writes a ha).imp_right fr, this.rsp, this.saved,
      fun t ht a ha hn => this.mem t ht a ha fun h => hn (fr h)⟩
  have hU : ∀ i a, Touches ((Routine.toInt q ra).touched (s i)) a → Uses q [.rdi] (s i) a := by
    rintro i a (ha | ha)
    · rcases (hc i).reads a ha with h | h | h | h | h
      · exact .inl h
      · exact .inr (.inl h.2)
      · exact .inr (.inr (.inl h))
      · exact .inr (.inr (.inr (.inl h)))
      · exact .inr (.inr (.inr (.inr h)))
    · rcases (hc i).writes a ha with h | h
      · exact .inr (.inl h.2)
      · exact .inr (.inr (.inr (.inl h)))
  have hO : ∀ i a, Access.write a ∈ (Routine.toInt q ra).touched (s i) → FrameCell (tagStack q) (s i) a := fun i a ha =>
    ((hc i).writes a ha).resolve_left fun h => by cases h.1
  obtain ⟨L, hL⟩ := C88_x86 (r := fun _ => Routine.toInt q ra) hm (fun i => (ht i).1)
    (fun i j hij a => ⟨fun hw ht => hown i j hij a (hO i a hw) (hU j a ht), fun hw ht => hown j i hij.symm a (hO j a hw) (hU i a ht)⟩)
  exact ⟨L, t, fun i => by rw [(ht i).2.1]; exact hw i, hL⟩

end x86

/-! ## ARM64 -/

section arm
open FF.X86 (Access)
open FF.X86 (Only Within InArr)
open FF.Arm (State Line)
variable {p : ι → List Line} {s t : ι → State} {m0 : Conc.Mem}

/-- The same for the ARM64 routines (they call nothing). -/
theorem C88_arm (hm : ∀ i, (s i).mem = m0) (ht : ∀ i, Arm.run (p i) (s i) = some (t i))
    (hd : ∀ i j, i ≠ j → Apart (Arm.touched (p i) (s i)) (Arm.touched (p j) (s j))) :
    ∃ L, ∀ N cs m, Together Arm.lineMachine (fun i => Arm.core (some (p i)) (s i)) m0 N cs m →
      AsAlone Arm.lineMachine (fun i => Arm.touched (p i) (s i)) (fun i => Arm.core none (t i)) (fun i => (t i).mem) m0 L N cs m := by
  have h := fun i => Arm.run_alone (p i) (ht i)
  choose k hk using h
  refine ⟨∑ i, k i, fun N cs m hT => together_alone (k0 := k) (fun i => trivial) (fun i => ?_) (fun i m => ⟨rfl, rfl⟩) hd hT⟩
  have := hk i
  rw [hm i] at this
  exact this

omit [DecidableEq ι] [Fintype ι] in
/-- From the footprints of C84. -/
theorem C88_arm_apart {l l' : List Access} {R W R' W' : List (BitVec 64 × Nat)} (h : Only (Within R) (Within W) l) (h' : Only (Within R') (Within W') l')
    (hu : ∀ a, Within W a → ¬ Within (R' ++ W') a) (hv : ∀ a, Within W' a → ¬ Within (R ++ W) a) : Apart l l' := by
  have uses : ∀ {R W : List (BitVec 64 × Nat)} {l : List Access}, Only (Within R) (Within W) l → ∀ a, Touches l a → Within (R ++ W) a := by
    intro R W l h a ha
    rcases ha with ha | ha
    · obtain ⟨x, h1, h2⟩ := h _ ha
      exact ⟨x, List.mem_append_left _ h1, h2⟩
    · obtain ⟨x, h1, h2⟩ := h _ ha
      exact ⟨x, List.mem_append_right _ h1, h2⟩
  exact fun a => ⟨fun hw ht => hu a (h _ hw) (uses h' a ht), fun hw ht => hv a (h' _ hw) (uses h a ht)⟩

/-- Threads that add limb arrays modulo `q` on ARM64: each result is right from the moment its thread has returned. -/
theorem C88_arm_add {q : Nat} (hm : ∀ i, (s i).mem = m0) (h : ∀ i, ArmReady q (s i)) (ha : ∀ i, ArmClear (s i) ((s i).reg 1) (n64 q))
    (hb : ∀ i, ArmClear (s i) ((s i).reg 2) (n64 q)) (hx : ∀ i, val (X86.rd m0 ((s i).reg 1) (n64 q)) < q) (hy : ∀ i, val (X86.rd m0 ((s i).reg 2) (n64 q)) < q)
    (hown : ∀ i j, i ≠ j → ∀ a, Within [((s i).reg 0, n64 q), armFrame (s i)] a →
      ¬ Within [((s j).reg 0, n64 q), ((s j).reg 1, n64 q), ((s j).reg 2, n64 q), ((s j).sym .q, n64 q), armFrame (s j)] a) :
    ∃ (L : Nat) (t : ι → State), (∀ i, Arm.run (Arm.rawAdd (n64 q) false) (s i) = some (t i)) ∧
      ∀ N cs m, Together Arm.lineMachine (fun i => Arm.core (some (Arm.rawAdd (n64 q) false)) (s i)) m0 N cs m →
        AsAlone Arm.lineMachine (fun i => Arm.touched (Arm.rawAdd (n64 q) false) (s i)) (fun i => Arm.core none (t i)) (fun i => (t i).mem) m0 L N cs m ∧
        ∀ i, cs i = Arm.core none (t i) → val (X86.rd m ((s i).reg 0) (n64 q)) =
          (val (X86.rd m0 ((s i).reg 1) (n64 q)) + val (X86.rd m0 ((s i).reg 2) (n64 q))) % q := by
  have hv := fun i => C69_add (h i) (ha i) (hb i)
  choose t h1 h2 h3 using hv
  have hn := FF.n64_pos q
  have hcf := fun i => C84_rawAdd (n := n64 q) hn (h i).width (s i)
  have sub : ∀ i a, Within ([((s i).reg 1, n64 q), ((s i).reg 2, n64 q), ((s i).sym .q, n64 q), armFrame (s i)] ++ [((s i).reg 0, n64 q), armFrame (s i)]) a →
      Within [((s i).reg 0, n64 q), ((s i).reg 1, n64 q), ((s i).reg 2, n64 q), ((s i).sym .q, n64 q), armFrame (s i)] a := by
    rintro i a ⟨x, h, h'⟩
    refine ⟨x, ?_, h'⟩
    simp only [List.mem_append, List.mem_cons, List.not_mem_nil, or_false] at h ⊢
    tauto
  obtain ⟨L, hL⟩ := C88_arm (p := fun _ => Arm.rawAdd (n64 q) false) hm h1
    (fun i j hij => C88_arm_apart (hcf i) (hcf j) (fun a h h' => hown i j hij a h (sub j a h')) (fun a h h' => hown j i hij.symm a h (sub i a h')))
  refine ⟨L, t, h1, fun N cs m hT => ⟨hL N cs m hT, fun i hi => ?_⟩⟩
  have hE : X86.rd m ((s i).reg 0) (n64 q) = X86.rd (t i).mem ((s i).reg 0) (n64 q) := by
    refine X86.rd_off fun a ha => (hL N cs m hT).result i hi a fun j hj hw => ?_
    exact hown j i hj a (hcf j _ hw) ⟨((s i).reg 0, n64 q), by simp, ha⟩
  have := h3 i (by rw [hm]; exact hx i) (by rw [hm]; exact hy i)
  rw [hE, this, hm]

end arm
end general

/-! ## Examples -/

section demo
open FF.X86 (State Reg InData InArr upd)

/-- The demo machine of C61 with the stack of another thread. -/
def tagDemo2 (e0 e1 e2 : Elem) (i j k : Nat) : State := { tagDemo e0 e1 e2 i j k with reg := upd (tagDemo e0 e1 e2 i j k).reg .rsp 8192 }

theorem stk_range {S a : BitVec 64} {s : State} (hS : s.reg .rsp = S) (h0 : 4096 ≤ S.toNat) (h : FrameCell (tagStack bnR) s a) :
    S.toNat - 288 ≤ a.toNat ∧ a.toNat < S.toNat := by
  obtain ⟨j, h1, rfl⟩ := h
  rw [tagStack, n64_bnR] at h1
  have := S.isLt
  rw [hS, BitVec.toNat_sub, BitVec.toNat_ofNat]
  omega

theorem tagDemo2_ready {e0 e1 e2 : Elem} {i j k : Nat} (hi : i < 3) (h : TagReady bnR (tagDemo e0 e1 e2 i j k)) : TagReady bnR (tagDemo2 e0 e1 e2 i j k) := by
  have low : ∀ {a : BitVec 64}, a.toNat < 2048 → ¬ X86.InStk 8192 (tagStack bnR) a := fun {a} h c => by
    have := stk_range (S := 8192) (s := tagDemo2 e0 e1 e2 i j k) (a := a) rfl (by decide) c
    have e : (8192 : BitVec 64).toNat = 8192 := rfl
    omega
  refine ⟨h.fits, h.mod, h.half, h.r2, h.r3, h.mask, h.np, fun a ha => low ?_, fun a ha => low ?_, h.tablesDst⟩
  · have := data_low (s := tagDemo2 e0 e1 e2 i j k) rfl ha
    omega
  · rw [n64_bnR] at ha
    refine (arr_low ?_ (by decide) ha).1
    have : ((tagDemo2 e0 e1 e2 i j k).reg .rdi).toNat = 144 + 40 * i := addr hi
    omega

theorem tagDemo2_opnd {e0 e1 e2 : Elem} {i j k l : Nat} {b : Reg} (hl : l < 3) (hb : (tagDemo2 e0 e1 e2 i j k).reg b = BitVec.ofNat 64 (144 + 40 * l))
    (hb' : (tagDemo e0 e1 e2 i j k).reg b = BitVec.ofNat 64 (144 + 40 * l)) (h : TagOperand bnR (tagDemo e0 e1 e2 i j k) b) :
    TagOperand bnR (tagDemo2 e0 e1 e2 i j k) b := by
  refine ⟨?_, fun a ha c => ?_⟩
  · rw [hb]
    exact hb' ▸ h.ali
  · have h1 := stk_range (S := 8192) (s := tagDemo2 e0 e1 e2 i j k) (a := a) rfl (by decide) c
    have e : (8192 : BitVec 64).toNat = 8192 := rfl
    rw [n64_bnR] at ha
    have := (arr_low (by rw [hb, addr hl]; omega) (by decide) ha).1
    omega

/-- Two threads convert the same element. -/
example : ∃ (L : Nat) (t : Bool → State), (∀ i, (((t i).reg .rax).setWidth 32).toInt = -3) ∧
    ∀ N cs m, Together (X86.lineMachine (X86.codes bnR) 0) (fun i : Bool => X86.core [X86.toIntCode (n64 bnR)]
      (if i then tagDemo (sS (-5)) (sL (bnR - 3)) (sM 77) 1 1 1 else tagDemo2 (sS (-5)) (sL (bnR - 3)) (sM 77) 1 1 1))
      (tagDemo (sS (-5)) (sL (bnR - 3)) (sM 77) 1 1 1).mem N cs m → N ≤ L ∧ (N = L ↔ ∀ i, cs i = X86.core [] (t i)) := by
  have : NeZero bnR := ⟨by decide +kernel⟩
  have hv : sval ((bnR - 3 : Nat) : ZMod bnR) = -3 := by
    unfold sval; rw [ZMod.val_natCast]; decide +kernel
  have el : ∀ {s : State} {b : Reg} {a : BitVec 64}, s.reg b = 184 → ElemAt bnR s b a → 184 ≤ a.toNat ∧ a.toNat < 224 := by
    intro s b a hb ha
    have h : InArr (s.reg b) 5 a := by
      obtain ⟨i, h1, h2⟩ := ha
      rw [n64_bnR] at h1
      exact ⟨i, h1, h2⟩
    have e : (184 : BitVec 64).toNat = 184 := rfl
    have := arr_low (by rw [hb, e]; omega) le_rfl h
    rw [hb, e] at this
    omega
  have e1 : (4096 : BitVec 64).toNat = 4096 := rfl
  have e2 : (8192 : BitVec 64).toNat = 8192 := rfl
  have us : ∀ {s : State} {S : BitVec 64} {a : BitVec 64}, s.reg .rsp = S → s.reg .rdi = 184 → s.sym = (tagDemo (sS (-5)) (sL (bnR - 3)) (sM 77) 1 1 1).sym → 4096 ≤ S.toNat →
      Uses bnR [.rdi] s a → (184 ≤ a.toNat ∧ a.toNat < 224) ∨ a.toNat < 144 ∨ (S.toNat - 288 ≤ a.toNat ∧ a.toNat < S.toNat) ∨ a = S := by
    rintro s S a h1 h2 h3 h4 (⟨b, hb, h⟩ | h | h | h | h)
    · simp only [List.mem_cons, List.not_mem_nil, or_false] at hb
      subst hb
      exact .inl (el h2 h)
    · exact .inl (el h2 h)
    · exact .inr (.inl (data_low h3 h))
    · exact .inr (.inr (.inl (stk_range h1 h4 h)))
    · exact .inr (.inr (.inr (by rw [h, h1])))
  obtain ⟨L, t, h1, h2⟩ := C88_toInt_partial (ι := Bool) (ra := 0)
    (s := fun i => if i then tagDemo (sS (-5)) (sL (bnR - 3)) (sM 77) 1 1 1 else tagDemo2 (sS (-5)) (sL (bnR - 3)) (sM 77) 1 1 1)
    (m0 := (tagDemo (sS (-5)) (sL (bnR - 3)) (sM 77) 1 1 1).mem) (x := fun _ => ((bnR - 3 : Nat) : ZMod bnR)) bnR_modulus
    (fun i => by cases i <;> rfl) (fun i => .of_ne (by rw [n64_bnR]; decide) _)
    (fun i => by cases i; exact tagDemo2_ready (by decide) (tagDemo_ready (by decide) (by decide +kernel)); exact tagDemo_ready (by decide) (by decide +kernel))
    (fun i => by cases i <;> exact Rep_iff.mpr (by decide +kernel)) (fun _ => by rw [hv]; decide) (fun _ => by rw [hv]; decide)
    (fun _ => by rw [hv]; decide +kernel) (by
      intro i j hij a h h'
      cases i <;> cases j <;> first | exact absurd rfl hij | skip
      · have := stk_range (S := 8192) rfl (by decide) h
        rcases us (S := 4096) rfl rfl rfl (by decide) h' with h | h | h | rfl <;> omega
      · have := stk_range (S := 4096) rfl (by decide) h
        rcases us (s := tagDemo2 (sS (-5)) (sL (bnR - 3)) (sM 77) 1 1 1) (S := 8192) rfl rfl rfl (by decide) h' with h | h | h | rfl <;> omega)
  exact ⟨L, t, fun i => (h1 i).trans hv, fun N cs m hT => ⟨(h2 N cs m hT).steps, (h2 N cs m hT).done⟩⟩

/-- One thread squares the third element into the first one, another one multiplies it by itself into the second one. -/
example : ∃ (L : Nat) (t : Bool → State), (∀ i, ((if i then ArithOp.square else ArithOp.mul).routine bnR 0).run
      (if i then tagDemo (sS (-5)) (sL (bnR - 3)) (sM 77) 0 2 2 else tagDemo2 (sS (-5)) (sL (bnR - 3)) (sM 77) 1 2 2) = some (t i)) ∧
    ∀ N cs m, Together (X86.lineMachine (X86.codes bnR) 0) (fun i : Bool => X86.core [((if i then ArithOp.square else ArithOp.mul).routine bnR 0).code]
      (if i then tagDemo (sS (-5)) (sL (bnR - 3)) (sM 77) 0 2 2 else tagDemo2 (sS (-5)) (sL (bnR - 3)) (sM 77) 1 2 2))
      (tagDemo (sS (-5)) (sL (bnR - 3)) (sM 77) 0 2 2).mem N cs m → N ≤ L ∧ (N = L →
      Rep bnR (X86.elemAt (n64 bnR) m 144) (((77 : Nat) : ZMod bnR) * ((77 : Nat) : ZMod bnR)) ∧
      Rep bnR (X86.elemAt (n64 bnR) m 184) (((77 : Nat) : ZMod bnR) * ((77 : Nat) : ZMod bnR))) := by
  have c1 : Calls bnR .square (tagDemo (sS (-5)) (sL (bnR - 3)) (sM 77) 0 2 2) ((77 : Nat) : ZMod bnR) ((77 : Nat) : ZMod bnR) := by
    refine ⟨tagDemo_ready (by decide) (by decide +kernel), fun b hb => ?_, Rep_iff.mpr (by decide +kernel), fun _ => Rep_iff.mpr (by decide +kernel), trivial⟩
    simp only [ArithOp.ops, List.mem_singleton] at hb
    subst hb
    exact (tagDemo_opnds (by decide) (by decide) (by decide)).1
  have c2 : Calls bnR .mul (tagDemo2 (sS (-5)) (sL (bnR - 3)) (sM 77) 1 2 2) ((77 : Nat) : ZMod bnR) ((77 : Nat) : ZMod bnR) := by
    refine ⟨tagDemo2_ready (by decide) (tagDemo_ready (by decide) (by decide +kernel)), fun b hb => ?_, Rep_iff.mpr (by decide +kernel),
      fun _ => Rep_iff.mpr (by decide +kernel), .of bnR_mul1 _ _⟩
    have ho := tagDemo_opnds (e0 := sS (-5)) (e1 := sL (bnR - 3)) (e2 := sM 77) (i := 1) (j := 2) (k := 2) (by decide) (by decide) (by decide)
    simp only [ArithOp.ops, List.mem_cons, List.not_mem_nil, or_false] at hb
    rcases hb with rfl | rfl
    · exact tagDemo2_opnd (l := 2) (by decide) rfl rfl ho.1
    · exact tagDemo2_opnd (l := 2) (by decide) rfl rfl ho.2
  have el : ∀ {s : State} {b : Reg} {l : Nat} {a : BitVec 64}, l < 3 → s.reg b = BitVec.ofNat 64 (144 + 40 * l) → ElemAt bnR s b a →
      144 + 40 * l ≤ a.toNat ∧ a.toNat < 184 + 40 * l := by
    intro s b l a hl hb ha
    have h : InArr (s.reg b) 5 a := by
      obtain ⟨i, h1, h2⟩ := ha
      rw [n64_bnR] at h1
      exact ⟨i, h1, h2⟩
    have := arr_low (by rw [hb, addr hl]; omega) le_rfl h
    rw [hb, addr hl] at this
    omega
  have e1 : (4096 : BitVec 64).toNat = 4096 := rfl
  have e2 : (8192 : BitVec 64).toNat = 8192 := rfl
  obtain ⟨L, t, h1, h2⟩ := C88_arith_partial (ι := Bool) (ra := 0) (o := fun i => if i then .square else .mul)
    (s := fun i => if i then tagDemo (sS (-5)) (sL (bnR - 3)) (sM 77) 0 2 2 else tagDemo2 (sS (-5)) (sL (bnR - 3)) (sM 77) 1 2 2)
    (m0 := (tagDemo (sS (-5)) (sL (bnR - 3)) (sM 77) 0 2 2).mem) (x := fun _ => ((77 : Nat) : ZMod bnR)) (y := fun _ => ((77 : Nat) : ZMod bnR)) bnR_modulus
    (fun i => by cases i <;> rfl) (fun i => by cases i <;> assumption)
    (by
      have o1 : ∀ a, Owns bnR (tagDemo (sS (-5)) (sL (bnR - 3)) (sM 77) 0 2 2) a → (144 ≤ a.toNat ∧ a.toNat < 184) ∨ (3808 ≤ a.toNat ∧ a.toNat < 4096) :=
        fun a h => h.imp (el (l := 0) (by decide) rfl) (stk_range (S := 4096) rfl (by decide))
      have o2 : ∀ a, Owns bnR (tagDemo2 (sS (-5)) (sL (bnR - 3)) (sM 77) 1 2 2) a → (184 ≤ a.toNat ∧ a.toNat < 224) ∨ (7904 ≤ a.toNat ∧ a.toNat < 8192) :=
        fun a h => h.imp (el (l := 1) (by decide) rfl) (stk_range (S := 8192) rfl (by decide))
      have u1 : ∀ a, Uses bnR [.rsi] (tagDemo (sS (-5)) (sL (bnR - 3)) (sM 77) 0 2 2) a →
          (224 ≤ a.toNat ∧ a.toNat < 264) ∨ (144 ≤ a.toNat ∧ a.toNat < 184) ∨ a.toNat < 144 ∨ (3808 ≤ a.toNat ∧ a.toNat < 4096) ∨ a.toNat = 4096 := by
        intro a h
        refine h.imp ?_ (Or.imp (el (l := 0) (by decide) rfl) (Or.imp (data_low rfl) (Or.imp (stk_range (S := 4096) rfl (by decide)) fun e => by rw [e]; rfl)))
        rintro ⟨b, hb, h⟩
        simp only [List.mem_cons, List.not_mem_nil, or_false] at hb
        subst hb
        exact el (l := 2) (by decide) rfl h
      have u2 : ∀ a, Uses bnR [.rsi, .rdx] (tagDemo2 (sS (-5)) (sL (bnR - 3)) (sM 77) 1 2 2) a →
          (224 ≤ a.toNat ∧ a.toNat < 264) ∨ (184 ≤ a.toNat ∧ a.toNat < 224) ∨ a.toNat < 144 ∨ (7904 ≤ a.toNat ∧ a.toNat < 8192) ∨ a.toNat = 8192 := by
        intro a h
        refine h.imp ?_ (Or.imp (el (l := 1) (by decide) rfl) (Or.imp (data_low rfl) (Or.imp (stk_range (S := 8192) rfl (by decide)) fun e => by rw [e]; rfl)))
        rintro ⟨b, hb, h⟩
        simp only [List.mem_cons, List.not_mem_nil, or_false] at hb
        rcases hb with rfl | rfl <;> exact el (l := 2) (by decide) rfl h
      intro i j hij a h h'
      cases i <;> cases j <;> first | exact absurd rfl hij | skip
      · have := o2 a h
        have := u1 a h'
        omega
      · have := o1 a h
        have := u2 a h'
        omega)
  refine ⟨L, t, h1, fun N cs m hT => ⟨(h2 N cs m hT).1.steps, fun hN => ?_⟩⟩
  have hd := (h2 N cs m hT).1.done.mp hN
  exact ⟨(h2 N cs m hT).2 true (hd true), (h2 N cs m hT).2 false (hd false)⟩

end demo

section shared
open FF.Arm (State)

/-- Two threads that copy the words 1 and 2 (at 8 and 16) to the same place: the hypothesis of `C88_arm` fails. -/
def clash (i : Bool) : State :=
  ⟨fun r => if r = 1 then (if i then 8 else 16) else 0, 4096, ⟨false, false, false, false⟩, fun a => if a = 8 then 1 else if a = 16 then 2 else 0, fun _ => 0, fun _ => 0⟩

/-- Without it the outcome depends on the schedule. -/
theorem C88_shared_violated : ∀ w ∈ [(1 : BitVec 64), 2], ∃ cs m,
    Together Arm.lineMachine (fun i => Arm.core (some (Arm.rawCopy 1)) (clash i)) (clash true).mem 6 cs m ∧ (∀ i, (cs i).text = none) ∧ m 0 = w := by
  intro w hw
  simp only [List.mem_cons, List.not_mem_nil, or_false] at hw
  rcases hw with rfl | rfl
  · exact ⟨_, _, .snoc (.snoc (.snoc (.snoc (.snoc (.snoc .nil false rfl) false rfl) false rfl) true rfl) true rfl) true rfl, by decide, by decide⟩
  · exact ⟨_, _, .snoc (.snoc (.snoc (.snoc (.snoc (.snoc .nil true rfl) true rfl) true rfl) false rfl) false rfl) false rfl, by decide, by decide⟩

/-- The same two threads with places of their own. -/
def noClash (i : Bool) : State := { clash i with reg := X86.upd (clash i).reg 0 (if i then 24 else 32) }

example : ∃ L, ∀ N cs m, Together Arm.lineMachine (fun i => Arm.core (some (Arm.rawCopy 1)) (noClash i)) (clash true).mem N cs m →
    N ≤ L ∧ (N = L → m 24 = 1 ∧ m 32 = 2) := by
  have hp : Arm.rawCopy 1 = [.ins (.ldr 2 1 0), .ins (.str (.reg 2) 0 0), .ret] := rfl
  have e : ∀ i, Arm.touched (Arm.rawCopy 1) (noClash i) = [.read (if i then 8 else 16), .write (if i then 24 else 32)] := by
    intro i
    rw [hp]
    cases i <;> simp [Arm.touched, Arm.Ins.acc, Arm.Ins.exec, X86.upd, noClash, clash]
  have hr : ∀ i, Arm.run (Arm.rawCopy 1) (noClash i) = some ((Arm.Ins.str (.reg 2) 0 0).exec ((Arm.Ins.ldr 2 1 0).exec (noClash i))) := by
    intro i
    rw [hp]
    simp [Arm.run]
  obtain ⟨L, hL⟩ := C88_arm (p := fun _ : Bool => Arm.rawCopy 1) (s := noClash) (m0 := (clash true).mem) (fun i => rfl) hr (by
      intro i j hij a
      rw [e, e]
      cases i <;> cases j <;> first | exact absurd rfl hij | skip
      all_goals
        simp only [Touches, List.mem_cons, List.not_mem_nil, or_false, reduceCtorEq, false_or, X86.Access.write.injEq, X86.Access.read.injEq]
        constructor <;> (rintro rfl; decide))
  refine ⟨L, fun N cs m hT => ⟨(hL N cs m hT).steps, fun hN => ?_⟩⟩
  have hd := (hL N cs m hT).done.mp hN
  refine ⟨(hL N cs m hT).result true (hd true) 24 fun j _ => ?_, (hL N cs m hT).result false (hd false) 32 fun j _ => ?_⟩ <;> rw [e] <;> revert j <;> decide

/-- The demo machine of C69 as two threads: the second one has another stack and puts its result behind that of the first one. -/
def armDemo2 (x y : Nat) (i : Bool) : State :=
  { armDemo x y with sp := if i then 65536 else 131072, reg := X86.upd (armDemo x y).reg 0 (if i then 192 else 256) }

theorem armDemo2_clear {x y : Nat} {i : Bool} {a : BitVec 64} {n : Nat} (hn : n ≤ 4)
    (h : ∀ l : Fin 4, ∀ k : Fin 17, X86.cell a l ≠ (if i then 65536 else 131072) - BitVec.ofNat 64 (8 * k)) : ArmClear (armDemo2 x y i) a n :=
  fun l hl k _ hk => h ⟨l, by omega⟩ ⟨k, by omega⟩

theorem armDemo2_ready (x y : Nat) (i : Bool) : ArmReady bnR (armDemo2 x y i) := by
  have h := armDemo_ready x y
  refine ⟨h.width, h.table, h.np, h.mask, ?_, ?_, ?_, ?_⟩
  · exact armDemo2_clear (a := if i then 192 else 256) (by rw [n64_bnR]) (by cases i <;> decide +kernel)
  · exact armDemo2_clear (a := 0) (by rw [n64_bnR]) (by cases i <;> decide +kernel)
  · exact armDemo2_clear (a := 32) (by decide) (by cases i <;> decide +kernel)
  · exact armDemo2_clear (a := 40) (by decide) (by cases i <;> decide +kernel)

example : ∃ L, ∀ N cs m, Together Arm.lineMachine (fun i => Arm.core (some (Arm.rawAdd (n64 bnR) false)) (armDemo2 (bnR - 1) (bnR - 2) i))
    (armDemo (bnR - 1) (bnR - 2)).mem N cs m → N ≤ L ∧ (N = L → val (X86.rd m 192 (n64 bnR)) = bnR - 3 ∧ val (X86.rd m 256 (n64 bnR)) = bnR - 3) := by
  have e1 : val (X86.rd (armDemo (bnR - 1) (bnR - 2)).mem 64 (n64 bnR)) = bnR - 1 := by rw [n64_bnR]; decide +kernel
  have e2 : val (X86.rd (armDemo (bnR - 1) (bnR - 2)).mem 128 (n64 bnR)) = bnR - 2 := by rw [n64_bnR]; decide +kernel
  obtain ⟨L, t, h1, h2⟩ := C88_arm_add (s := armDemo2 (bnR - 1) (bnR - 2)) (m0 := (armDemo (bnR - 1) (bnR - 2)).mem) (q := bnR) (fun _ => rfl)
    (armDemo2_ready _ _) (fun i => armDemo2_clear (a := 64) (by rw [n64_bnR]) (by cases i <;> decide +kernel))
    (fun i => armDemo2_clear (a := 128) (by rw [n64_bnR]) (by cases i <;> decide +kernel))
    (fun i => (show val (X86.rd _ 64 _) < _ by rw [e1]; decide +kernel)) (fun i => (show val (X86.rd _ 128 _) < _ by rw [e2]; decide +kernel)) (by
      have g : ∀ {b a : BitVec 64} {n : Nat}, b.toNat + 8 * n < 2 ^ 64 → X86.InArr b n a → b.toNat ≤ a.toNat ∧ a.toNat < b.toNat + 8 * n := by
        rintro b a n hb ⟨i, hi, rfl⟩
        rw [X86.cell, BitVec.toNat_add, BitVec.toNat_ofNat]
        omega
      intro i j hij a h h'
      rw [n64_bnR] at h h'
      simp only [X86.within_cons, X86.within_nil, or_false] at h h'
      cases i <;> cases j <;> first | exact absurd rfl hij | skip
      · have h : X86.InArr 256 4 a ∨ X86.InArr 130944 16 a := h
        have h' : X86.InArr 192 4 a ∨ X86.InArr 64 4 a ∨ X86.InArr 128 4 a ∨ X86.InArr 0 4 a ∨ X86.InArr 65408 16 a := h'
        have h := h.imp (g (by decide)) (g (by decide))
        have h' := h'.imp (g (by decide)) (Or.imp (g (by decide)) (Or.imp (g (by decide)) (Or.imp (g (by decide)) (g (by decide)))))
        simp only [BitVec.reduceToNat] at h h'
        omega
      · have h : X86.InArr 192 4 a ∨ X86.InArr 65408 16 a := h
        have h' : X86.InArr 256 4 a ∨ X86.InArr 64 4 a ∨ X86.InArr 128 4 a ∨ X86.InArr 0 4 a ∨ X86.InArr 130944 16 a := h'
        have h := h.imp (g (by decide)) (g (by decide))
        have h' := h'.imp (g (by decide)) (Or.imp (g (by decide)) (Or.imp (g (by decide)) (Or.imp (g (by decide)) (g (by decide)))))
        simp only [BitVec.reduceToNat] at h h'
        omega)
  refine ⟨L, fun N cs m hT => ⟨(h2 N cs m hT).1.steps, fun hN => ?_⟩⟩
  have hd := (h2 N cs m hT).1.done.mp hN
  have v : ∀ i, val (X86.rd m ((armDemo2 (bnR - 1) (bnR - 2) i).reg 0) (n64 bnR)) = bnR - 3 := fun i => by
    refine ((h2 N cs m hT).2 i (hd i)).trans ?_
    show (val (X86.rd _ 64 _) + val (X86.rd _ 128 _)) % _ = _
    rw [e1, e2]
    decide +kernel
  exact ⟨v true, v false⟩

end shared
end FF.Props
