import Verif.AsmTouchMont
import Verif.AsmTouchShift
import Verif.AsmShiftTag

/-!
# What a caller may rely on about the accesses of a routine

`Safe` puts in one statement which memory a routine reads and writes and what it returns with: the stack pointer, the callee-saved registers and
the memory outside its result and its stack frame.  It is proved here for the raw routines the tagged ones call.
-/

namespace FF.X86

/-! ## Statement -/

/-- The array a pointer stands for: the limbs of an element, or the element with its header cell. -/
inductive Extent
  | limbs | elem
  deriving DecidableEq

/-- The number of cells. -/
def Extent.cells (n : Nat) : Extent → Nat
  | .limbs => n
  | .elem => n + 1

/-- The arguments of a routine: what is written through `rdi`, which registers point to arrays that are read, and whether `rdi` is
returned unchanged. -/
structure Sig where
  dst : Option Extent
  src : List (Reg × Extent)
  di : Bool

/-- A cell of the result array. -/
def Sig.InDst (q : Nat) (sg : Sig) (s : State) (a : BitVec 64) : Prop := ∃ e, sg.dst = some e ∧ InArr (s.reg .rdi) (e.cells (n64 q)) a

/-- A cell the routine may read: one of an operand, of the result, of the tables of the modulus, of the stack frame of `G` cells, or the return
address. -/
def Sig.Rd (q G : Nat) (sg : Sig) (s : State) (a : BitVec 64) : Prop :=
  (∃ x ∈ sg.src, InArr (s.reg x.1) (x.2.cells (n64 q)) a) ∨ sg.InDst q s a ∨ InData q s.sym a ∨ InStk (s.reg .rsp) G a ∨ a = s.reg .rsp

/-- A cell the routine may write: one of the result or of the stack frame. -/
def Sig.Wr (q G : Nat) (sg : Sig) (s : State) (a : BitVec 64) : Prop := sg.InDst q s a ∨ InStk (s.reg .rsp) G a

/-- What the routine returns with. -/
structure Back (q G : Nat) (sg : Sig) (s t : State) : Prop where
  rsp : t.reg .rsp = s.reg .rsp + 8
  saved : ∀ r ∈ Props.calleeSaved, t.reg r = s.reg r
  rdi : sg.di = true → t.reg .rdi = s.reg .rdi
  sym : t.sym = s.sym
  mem : ∀ a, ¬ sg.Wr q G s a → t.mem a = s.mem a

/-- A routine with the accesses `acc` and the result `g`: from every state in which the result array does not meet the `G` cells of its stack frame. -/
def Safe (q G : Nat) (sg : Sig) (acc : State → List Access) (g : State → Option State) : Prop :=
  ∀ s : State, 8 * G < 2 ^ 64 → (∀ a, sg.InDst q s a → ¬ InStk (s.reg .rsp) G a) →
    Only (sg.Rd q G s) (sg.Wr q G s) (acc s) ∧ ∀ t, g s = some t → Back q G sg s t

theorem Safe.mono {q G G' : Nat} {sg : Sig} {acc : State → List Access} {g : State → Option State} (h : Safe q G sg acc g) (hG : G ≤ G') :
    Safe q G' sg acc g := by
  intro s hs hd
  obtain ⟨h1, h2⟩ := h s (by omega) fun a ha hk => hd a ha (hk.mono hG)
  refine ⟨h1.mono ?_ ?_, fun t ht => ?_⟩
  · rintro a (h | h | h | h | h)
    · exact .inl h
    · exact .inr (.inl h)
    · exact .inr (.inr (.inl h))
    · exact .inr (.inr (.inr (.inl (h.mono hG))))
    · exact .inr (.inr (.inr (.inr h)))
  · rintro a (h | h)
    · exact .inl h
    · exact .inr (h.mono hG)
  · obtain ⟨b1, b2, b3, b4, b5⟩ := h2 t ht
    exact ⟨b1, b2, b3, b4, fun a ha => b5 a fun h => ha (h.imp_right fun h => h.mono hG)⟩

/-! ## Code with fixed base registers changes only what it may write -/

section
variable {K : List Reg} {s s' : State} {R W : BitVec 64 → Prop} {env : String → Option (State → Option State)} {ra : BitVec 64}

theorem Opd.set_off {o : Opd} (h : ∀ a ∈ o.addr s', W a) (v : BitVec 64) {a : BitVec 64} (ha : ¬ W a) : (o.set v s').mem a = s'.mem a :=
  Opd.set_mem o v s' a fun h' => ha (h a h')

theorem Line.good_mem {i : Line} (h : i.good K s R W) (hp : i.plain = true) (hs : Bases K s s') {a : BitVec 64} (ha : ¬ W a) :
    (i.exec s').mem a = s'.mem a := by
  cases i with
  | ins i =>
    cases i with
    | op2 o d b =>
      obtain ⟨_, _, h3⟩ := h
      simp only [Line.exec, step, Ins.exec]
      split
      · rename_i ho
        have hs' : Bases K s { s' with fl := (o.eval (d.get s') (b.get s') s'.fl).2 } := hs
        exact Opd.set_off (Opd.wr_addr (h3 ho) hs') _ ha
      · rfl
    | mulx hi lo src =>
      obtain ⟨_, h2, h3⟩ := h
      simp only [Line.exec, step, Ins.exec]
      rw [Opd.set_off (Opd.wr_addr h2 (Opd.wr_set h3 _ hs)) _ ha, Opd.set_off (Opd.wr_addr h3 hs) _ ha]
  | misc m =>
    cases m with
    | load d b j off => rfl
    | _ =>
      obtain ⟨_, rs, h2, _⟩ := h
      exact congrFun (scratch_exec h2 s').1 a
  | push r => exact h.elim
  | pop r => exact h.elim
  | lea r y => rfl
  | setcDl => rfl
  | setcDh => rfl
  | orDlDh => rfl
  | movAl b => rfl
  | shlRax k => rfl
  | _ => exact absurd hp Bool.false_ne_true

/-- `run_body` with the memory. -/
theorem run_body_mem (tail : List Line) (ht : ∀ l, dropTo l tail = []) (p : List Line)
    (hp : ∀ i ∈ p, i.good K s R W) : ∀ {s' t : State}, Bases K s s' → run env ra (p ++ tail) s' = some t →
    ∃ s'', Bases K s s'' ∧ (∀ a, ¬ W a → s''.mem a = s'.mem a) ∧
      (run env ra tail s'' = some t ∨ (.ret ∈ p ∧ t = { s'' with reg := upd s''.reg .rsp (s''.reg .rsp + 8) })) := by
  induction hn : p.length using Nat.strong_induction_on generalizing p with
  | _ N ih =>
    intro s' t h hr
    match p with
    | [] => exact ⟨s', h, fun _ _ => rfl, .inl hr⟩
    | i :: p =>
      have hp' : ∀ i ∈ p, i.good K s R W := fun j hj => hp j (List.mem_cons_of_mem _ hj)
      have up : ∀ (p' : List Line) (s1 : State), (∀ a, ¬ W a → s1.mem a = s'.mem a) → (∀ i ∈ p', i ∈ p) → (∃ s'', Bases K s s'' ∧
          (∀ a, ¬ W a → s''.mem a = s1.mem a) ∧ (run env ra tail s'' = some t ∨ (.ret ∈ p' ∧
          t = { s'' with reg := upd s''.reg .rsp (s''.reg .rsp + 8) }))) → ∃ s'', Bases K s s'' ∧ (∀ a, ¬ W a → s''.mem a = s'.mem a) ∧
          (run env ra tail s'' = some t ∨ (.ret ∈ i :: p ∧ t = { s'' with reg := upd s''.reg .rsp (s''.reg .rsp + 8) })) := by
        rintro p' s1 h0 hm ⟨s'', h1, h2, h3⟩
        exact ⟨s'', h1, fun a ha => (h2 a ha).trans (h0 a ha), h3.imp_right fun h => ⟨List.mem_cons_of_mem _ (hm _ h.1), h.2⟩⟩
      rcases plain_cases i with hpl | ⟨l, rfl⟩ | ⟨c, l, rfl⟩ | ⟨f, rfl⟩ | rfl
      · rw [List.cons_append, run_plain hpl] at hr
        have := Line.good_safe (hp i List.mem_cons_self) hpl h
        exact up p _ (fun a ha => Line.good_mem (hp i List.mem_cons_self) hpl h ha) (fun _ h => h) (ih p.length (by subst hn; simp) p hp' rfl this.2 hr)
      · rw [List.cons_append, run] at hr
        exact up p _ (fun _ _ => rfl) (fun _ h => h) (ih p.length (by subst hn; simp) p hp' rfl h hr)
      · rw [List.cons_append, run] at hr
        split at hr
        · rcases dropTo_append l p tail with ⟨p', e, hl, hm⟩ | e
          · rw [e] at hr
            exact up p' _ (fun _ _ => rfl) hm (ih p'.length (by subst hn; simp only [List.length_cons]; omega) p' (fun j hj => hp' j (hm j hj)) rfl h hr)
          · rw [e, ht, run] at hr; cases hr
        · exact up p _ (fun _ _ => rfl) (fun _ h => h) (ih p.length (by subst hn; simp) p hp' rfl h hr)
      · exact (hp _ List.mem_cons_self).elim
      · rw [List.cons_append, run] at hr
        cases hr
        exact ⟨s', h, fun _ _ => rfl, .inr ⟨List.mem_cons_self, rfl⟩⟩

/-- The base registers of the raw routines without calls. -/
def rawK : List Reg := [.rsp, .rdi, .rbx, .rbp, .r12, .r13, .r14, .r15]

/-- A routine that keeps its base registers. -/
theorem safe_good {q G : Nat} {sg : Sig} {p : List Line} (K : List Reg) (hK : ∀ r ∈ rawK, r ∈ K)
    (hp : ∀ s : State, ∀ i ∈ p, i.good K s (sg.Rd q G s) (sg.Wr q G s)) :
    Safe q G sg (touched noCalls noAcc ra p) (run noCalls ra p) := by
  intro s _ _
  refine ⟨touched_good (K := K) (hK _ (by decide)) (.inr (.inr (.inr (.inr rfl)))) p (hp s), fun t ht => ?_⟩
  rw [← List.append_nil p] at ht
  obtain ⟨s', h1, h2, h3⟩ := run_body_mem (K := K) (s := s) [] (fun _ => rfl) p (hp s) (Bases.refl _ _) ht
  rcases h3 with h3 | ⟨_, rfl⟩
  · rw [run] at h3; cases h3
  · refine ⟨?_, fun r hr => ?_, fun _ => ?_, h1.2, h2⟩
    · simp [upd, h1.1 _ (hK _ (by decide : Reg.rsp ∈ rawK))]
    · have hne : r ≠ .rsp := by rintro rfl; exact absurd hr (by decide)
      have hr' : r ∈ rawK := List.mem_cons_of_mem _ (List.mem_cons_of_mem _ hr)
      simp [upd, hne, h1.1 _ (hK _ hr')]
    · simp [upd, h1.1 _ (hK _ (by decide : Reg.rdi ∈ rawK))]

end

/-! ## The raw routines without a frame -/

theorem Opd.rd_mono {K : List Reg} {s : State} {R R' : BitVec 64 → Prop} (h : ∀ a, R a → R' a) {o : Opd} (ho : o.rd K s R) : o.rd K s R' := by
  cases o with
  | mem b off => exact ⟨ho.1, h _ ho.2⟩
  | sym y off => exact h _ ho
  | _ => trivial
theorem Opd.wr_mono {K : List Reg} {s : State} {R R' : BitVec 64 → Prop} (h : ∀ a, R a → R' a) {o : Opd} (ho : o.wr K s R) : o.wr K s R' := by
  cases o with
  | reg r => exact ho
  | mem b off => exact ⟨ho.1, h _ ho.2⟩
  | sym y off => exact h _ ho
  | imm v => trivial

theorem Line.good_mono {K : List Reg} {s : State} {R R' W W' : BitVec 64 → Prop} (hR : ∀ a, R a → R' a) (hW : ∀ a, W a → W' a) {i : Line}
    (h : i.good K s R W) : i.good K s R' W' := by
  cases i with
  | ins i =>
    cases i with
    | op2 o d b => exact ⟨fun ho => Opd.rd_mono hR (h.1 ho), Opd.rd_mono hR h.2.1, fun ho => Opd.wr_mono hW (h.2.2 ho)⟩
    | mulx hi lo src => exact ⟨Opd.rd_mono hR h.1, Opd.wr_mono hW h.2.1, Opd.wr_mono hW h.2.2⟩
  | misc m =>
    cases m with
    | load d b j off => exact ⟨h.1, h.2.1, h.2.2.1, hR _ h.2.2.2⟩
    | _ => exact h
  | _ => exact h

/-- Result limbs from two arrays. -/
def sigLL : Sig := ⟨some .limbs, [(.rsi, .limbs), (.rdx, .limbs)], true⟩
/-- Result limbs from an array, at `rsi`. -/
def sigLS : Sig := ⟨some .limbs, [(.rsi, .limbs)], true⟩
/-- Result limbs from an array, at `rdx`. -/
def sigSL : Sig := ⟨some .limbs, [(.rdx, .limbs)], true⟩
/-- A result element from a number. -/
def sigS2L : Sig := ⟨some .elem, [], true⟩
/-- A result element from an element. -/
def sigCopy : Sig := ⟨some .elem, [(.rsi, .elem)], true⟩

/-- The arrays of a signature and the table of the modulus. -/
def Sig.areas (n : Nat) (sg : Sig) (s : State) : List (BitVec 64 × Nat) :=
  (s.sym .q, n) :: ((match sg.dst with | none => [] | some e => [(s.reg .rdi, e.cells n)]) ++ sg.src.map fun x => (s.reg x.1, x.2.cells n))
/-- The result array. -/
def Sig.result (n : Nat) (sg : Sig) (s : State) : List (BitVec 64 × Nat) :=
  match sg.dst with | none => [] | some e => [(s.reg .rdi, e.cells n)]

theorem Sig.rd_areas {q G : Nat} {sg : Sig} {s : State} {a : BitVec 64} (h : Within (sg.areas (n64 q) s) a) : sg.Rd q G s a := by
  rw [Sig.areas, within_cons] at h
  rcases h with h | ⟨x, hx, h⟩
  · exact .inr (.inr (.inl (.inl h)))
  · rcases List.mem_append.1 hx with hx | hx
    · cases hd : sg.dst with
      | none => rw [hd] at hx; simp at hx
      | some e => rw [hd] at hx; simp at hx; subst hx; exact .inr (.inl ⟨e, hd, h⟩)
    · obtain ⟨y, hy, rfl⟩ := List.mem_map.1 hx
      exact .inl ⟨y, hy, h⟩

theorem Sig.wr_result {q G : Nat} {sg : Sig} {s : State} {a : BitVec 64} (h : Within (sg.result (n64 q) s) a) : sg.Wr q G s a := by
  obtain ⟨x, hx, h⟩ := h
  rw [Sig.result] at hx
  cases hd : sg.dst with
  | none => rw [hd] at hx; simp at hx
  | some e => rw [hd] at hx; simp at hx; subst hx; exact .inl ⟨e, hd, h⟩

theorem safe_areas {q : Nat} {sg : Sig} {p : List Line} {ra : BitVec 64} (K : List Reg) (hK : ∀ r ∈ rawK, r ∈ K)
    (hp : ∀ s : State, ∀ i ∈ p, i.good K s (Within (sg.areas (n64 q) s)) (Within (sg.result (n64 q) s))) :
    Safe q 0 sg (touched noCalls noAcc ra p) (run noCalls ra p) :=
  safe_good K hK fun s i hi => Line.good_mono (fun _ h => Sig.rd_areas h) (fun _ h => Sig.wr_result h) (hp s i hi)

local macro "safeRaw" K:term : tactic => `(tactic| (
  refine safe_areas $K (by decide) ?_
  simp only [X86.rawCopy, X86.copy, X86.rawZero, X86.rawCopyS2L, rawAddLL, X86.rawAddLS, rawSubLL, X86.rawSubLS, X86.rawSubSL, X86.rawNegLS,
    rawNegL, X86.rawIsEq, X86.rawIsZero, loopLL, cmpQ, cmpQ', cmpStep, loopQ, List.forall_mem_append, all_code, all_flatMap, all_range']
  simp +contextual [sigLL, sigLS, sigSL, sigS2L, sigCopy, Sig.areas, Sig.result, Extent.cells, Line.good, i2, Op2.reads, Op2.writes, Opd.rd, Opd.wr,
    within_cons, within_nil, inArr_at, inArr_down, inArr_zero, inArr_up, inArr_off, inArr_eight, inArr_self, *]))

section
variable {q : Nat} {ra : BitVec 64}

theorem safe_rawAddLL : Safe q 0 sigLL (touched noCalls noAcc ra (rawAddLL (n64 q))) (run noCalls ra (rawAddLL (n64 q))) := by
  safeRaw [.rsp, .rdi, .rbx, .rbp, .r12, .r13, .r14, .r15, .rsi, .rdx]
theorem safe_rawSubLL : Safe q 0 sigLL (touched noCalls noAcc ra (rawSubLL (n64 q))) (run noCalls ra (rawSubLL (n64 q))) := by
  safeRaw [.rsp, .rdi, .rbx, .rbp, .r12, .r13, .r14, .r15, .rsi, .rdx]
theorem safe_rawNegL : Safe q 0 sigLS (touched noCalls noAcc ra (rawNegL (n64 q))) (run noCalls ra (rawNegL (n64 q))) := by
  safeRaw [.rsp, .rdi, .rbx, .rbp, .r12, .r13, .r14, .r15, .rsi]
theorem safe_copy : Safe q 0 sigCopy (touched noCalls noAcc ra (X86.copy (n64 q))) (run noCalls ra (X86.copy (n64 q))) := by
  safeRaw [.rsp, .rdi, .rbx, .rbp, .r12, .r13, .r14, .r15, .rsi]
theorem safe_rawAddLS (h : 0 < n64 q) : Safe q 0 sigLS (touched noCalls noAcc ra (X86.rawAddLS (n64 q))) (run noCalls ra (X86.rawAddLS (n64 q))) := by
  safeRaw [.rsp, .rdi, .rbx, .rbp, .r12, .r13, .r14, .r15, .rsi]
theorem safe_rawSubLS (h : 0 < n64 q) : Safe q 0 sigLS (touched noCalls noAcc ra (X86.rawSubLS (n64 q))) (run noCalls ra (X86.rawSubLS (n64 q))) := by
  safeRaw [.rsp, .rdi, .rbx, .rbp, .r12, .r13, .r14, .r15, .rsi]
theorem safe_rawNegLS (h : 0 < n64 q) : Safe q 0 sigLS (touched noCalls noAcc ra (X86.rawNegLS (n64 q))) (run noCalls ra (X86.rawNegLS (n64 q))) := by
  safeRaw [.rsp, .rdi, .rbx, .rbp, .r12, .r13, .r14, .r15, .rsi]
theorem safe_rawSubSL (h : 0 < n64 q) : Safe q 0 sigSL (touched noCalls noAcc ra (X86.rawSubSL (n64 q))) (run noCalls ra (X86.rawSubSL (n64 q))) := by
  safeRaw [.rsp, .rdi, .rbx, .rbp, .r12, .r13, .r14, .r15, .rdx]
theorem safe_rawCopyS2L (h : 0 < n64 q) : Safe q 0 sigS2L (touched noCalls noAcc ra (X86.rawCopyS2L (n64 q))) (run noCalls ra (X86.rawCopyS2L (n64 q))) := by
  safeRaw [.rsp, .rdi, .rbx, .rbp, .r12, .r13, .r14, .r15]

end

end FF.X86
