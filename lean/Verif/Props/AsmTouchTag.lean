import Verif.AsmTouchLike

/-!
# C85: the tagged x86-64 routines access nothing but their operands, and keep the calling convention

For every modulus, every state of the machine (every tag, every value, operands overlapping or not, also the values for which C61, C63, C64, C66
and C68 show a wrong result) and every path through the code and the routines it calls.
-/

namespace FF.Props

open FF.X86

/-! ## Specification -/

/-- A cell of the element at register `r`: the header and the limbs. -/
def ElemAt (q : Nat) (s : State) (r : Reg) (a : BitVec 64) : Prop := ∃ i < n64 q + 1, a = s.reg r + BitVec.ofNat 64 (8 * i)

/-- One of the `F` cells below the return address. -/
def FrameCell (F : Nat) (s : State) (a : BitVec 64) : Prop := ∃ j < F, a = s.reg .rsp - BitVec.ofNat 64 (8 * (j + 1))

/-- The routine with the accesses `acc` and the outcome `g` takes the elements at `ops`, writes the element at `rdi` if `res`, and needs `F` cells of
stack.  `res` requires that the result is not in that part of the stack. -/
structure Confined (q F : Nat) (ops : List Reg) (res : Bool) (acc : State → List Access) (g : State → Option State) (s : State) : Prop where
  /-- It reads an operand, the result, a table of the modulus, its frame or the return address. -/
  reads : ∀ a, Access.read a ∈ acc s → (∃ r ∈ ops, ElemAt q s r a) ∨ (res = true ∧ ElemAt q s .rdi a) ∨ InData q s.sym a ∨ FrameCell F s a ∨
    a = s.reg .rsp
  /-- It writes the result or its frame. -/
  writes : ∀ a, Access.write a ∈ acc s → (res = true ∧ ElemAt q s .rdi a) ∨ FrameCell F s a
  /-- It returns to its caller: the return address is popped. -/
  rsp : ∀ t, g s = some t → t.reg .rsp = s.reg .rsp + 8
  /-- It keeps the registers the System V convention gives to the caller. -/
  saved : ∀ t, g s = some t → ∀ r ∈ [Reg.rbx, .rbp, .r12, .r13, .r14, .r15], t.reg r = s.reg r
  /-- It changes no other cell. -/
  mem : ∀ t, g s = some t → ∀ a, ¬ (res = true ∧ ElemAt q s .rdi a) → ¬ FrameCell F s a → t.mem a = s.mem a

/-- The element at `rdi` is not in the `F` cells below the return address. -/
def ResultOffStack (q F : Nat) (s : State) : Prop := ∀ a, ElemAt q s .rdi a → ¬ FrameCell F s a

theorem confined_of_safe {q F : Nat} {sg : Sig} {ops : List Reg} {res : Bool} {acc : State → List Access} {g : State → Option State}
    (hs : sg.src = ops.map fun r => (r, .elem)) (hd : sg.dst = if res then some .elem else none) (h : Safe q F sg acc g) (hF : 8 * F < 2 ^ 64) (s : State)
    (hr : res = true → ResultOffStack q F s) : Confined q F ops res acc g s := by
  have hi : ∀ a, sg.InDst q s a ↔ (res = true ∧ ElemAt q s .rdi a) := by
    intro a
    unfold Sig.InDst
    rw [hd]
    cases res with
    | false => simp
    | true =>
      constructor
      · rintro ⟨e, he, h⟩; cases he; exact ⟨rfl, h⟩
      · rintro ⟨_, h⟩; exact ⟨_, rfl, h⟩
  obtain ⟨h1, h2⟩ := h s hF fun a ha => hr ((hi a).1 ha).1 a ((hi a).1 ha).2
  refine ⟨fun a ha => ?_, fun a ha => ?_, fun t ht => (h2 t ht).rsp, fun t ht => (h2 t ht).saved, fun t ht a ha hk => (h2 t ht).mem a ?_⟩
  · rcases h1 _ ha with ⟨x, hx, h⟩ | h | h | h | h
    · rw [hs] at hx
      obtain ⟨r, hr, rfl⟩ := List.mem_map.1 hx
      exact .inl ⟨r, hr, h⟩
    · exact .inr (.inl ((hi a).1 h))
    · exact .inr (.inr (.inl h))
    · exact .inr (.inr (.inr (.inl h)))
    · exact .inr (.inr (.inr (.inr h)))
  · rcases h1 _ ha with h | h
    · exact .inl ((hi a).1 h)
    · exact .inr h
  · rintro (h | h)
    · exact ha ((hi a).1 h)
    · exact hk h

/-- The cells of the frame the Montgomery routines need below theirs (C83), the word of the call of a conversion, and the rest: `w` words and `e`
elements on the stack. -/
def stackCells (q w e : Nat) : Nat := w + e * (n64 q + 1) + (1 + frameCells (n64 q) (canOpt q))

section
variable {q : Nat} (ra : BitVec 64) (s : State)

/-! ## The list of accesses is complete -/

/-- What a tagged routine computes depends only on the cells it and its callees read: with other contents elsewhere (the cells `D`), it ends with the same
registers and flags, and with the same memory outside `D`, after the same accesses. -/
theorem C85_reads {D : BitVec 64 → Prop} {p : List Line} {t : State} (m : BitVec 64 → BitVec 64)
    (hm : ∀ a, ¬ D a → m a = s.mem a) (hD : ∀ a, Access.read a ∈ touched (lib q ra) (accLib q ra) ra p s → ¬ D a)
    (ht : X86.run (lib q ra) ra p s = some t) :
    ∃ t', X86.run (lib q ra) ra p { s with mem := m } = some t' ∧ t'.reg = t.reg ∧ t'.fl = t.fl ∧ (∀ a, ¬ D a → t'.mem a = t.mem a) ∧
      touched (lib q ra) (accLib q ra) ra p { s with mem := m } = touched (lib q ra) (accLib q ra) ra p s := by
  obtain ⟨⟨t', h1, h2⟩, h3⟩ := run_likes tells_lib (D := D) p (s := s) (s' := { s with mem := m }) ⟨rfl, rfl, rfl, hm⟩ hD ht
  exact ⟨t', h1, h2.reg, h2.fl, h2.mem, h3⟩

/-- The same for the comparisons that store their answer. -/
theorem C85_reads_cmp {D : BitVec 64 → Prop} {p : List Line} {t : State} (m : BitVec 64 → BitVec 64)
    (hm : ∀ a, ¬ D a → m a = s.mem a) (hD : ∀ a, Access.read a ∈ touched (libCmp q ra) (accCmp q ra) ra p s → ¬ D a)
    (ht : X86.run (libCmp q ra) ra p s = some t) :
    ∃ t', X86.run (libCmp q ra) ra p { s with mem := m } = some t' ∧ t'.reg = t.reg ∧ t'.fl = t.fl ∧ (∀ a, ¬ D a → t'.mem a = t.mem a) ∧
      touched (libCmp q ra) (accCmp q ra) ra p { s with mem := m } = touched (libCmp q ra) (accCmp q ra) ra p s := by
  obtain ⟨⟨t', h1, h2⟩, h3⟩ := run_likes tells_libCmp (D := D) p (s := s) (s' := { s with mem := m }) ⟨rfl, rfl, rfl, hm⟩ hD ht
  exact ⟨t', h1, h2.reg, h2.fl, h2.mem, h3⟩

/-- The same for the shifts. -/
theorem C85_reads_shift {D : BitVec 64 → Prop} {p : List Line} {t : State} (m : BitVec 64 → BitVec 64)
    (hm : ∀ a, ¬ D a → m a = s.mem a) (hD : ∀ a, Access.read a ∈ touched (libShift q ra) (accShift q ra) ra p s → ¬ D a)
    (ht : X86.run (libShift q ra) ra p s = some t) :
    ∃ t', X86.run (libShift q ra) ra p { s with mem := m } = some t' ∧ t'.reg = t.reg ∧ t'.fl = t.fl ∧ (∀ a, ¬ D a → t'.mem a = t.mem a) ∧
      touched (libShift q ra) (accShift q ra) ra p { s with mem := m } = touched (libShift q ra) (accShift q ra) ra p s := by
  obtain ⟨⟨t', h1, h2⟩, h3⟩ := run_likes tells_libShift (D := D) p (s := s) (s' := { s with mem := m }) ⟨rfl, rfl, rfl, hm⟩ hD ht
  exact ⟨t', h1, h2.reg, h2.fl, h2.mem, h3⟩

/-! ## Conversions -/

theorem C85_toMontgomery (hF : 8 * stackCells q 0 0 < 2 ^ 64) (hr : ResultOffStack q (stackCells q 0 0) s) :
    Confined q (stackCells q 0 0) [.rsi] true (touched (libRaw q ra) (accRaw q ra) ra toMontgomery) (X86.run (libRaw q ra) ra toMontgomery) s :=
  confined_of_safe (sg := sigCopy) rfl rfl (safe_toMontgomery.mono (by unfold stackCells rawFrame; omega)) hF s fun _ => hr

theorem C85_toNormal (hF : 8 * stackCells q 0 0 < 2 ^ 64) (hr : ResultOffStack q (stackCells q 0 0) s) :
    Confined q (stackCells q 0 0) [.rsi] true (touched (libRaw q ra) (accRaw q ra) ra toNormal) (X86.run (libRaw q ra) ra toNormal) s :=
  confined_of_safe (sg := sigCopy) rfl rfl (safe_toNormal.mono (by unfold stackCells rawFrame; omega)) hF s fun _ => hr

theorem C85_toLongNormal (hF : 8 * stackCells q 0 0 < 2 ^ 64) (hr : ResultOffStack q (stackCells q 0 0) s) :
    Confined q (stackCells q 0 0) [.rsi] true (touched (libRaw q ra) (accRaw q ra) ra toLongNormal) (X86.run (libRaw q ra) ra toLongNormal) s :=
  confined_of_safe (sg := sigCopy) rfl rfl (safe_toLongNormal.mono (by unfold stackCells rawFrame; omega)) hF s fun _ => hr

/-! ## Arithmetic -/

theorem C85_add (hF : 8 * stackCells q 6 1 < 2 ^ 64) (hr : ResultOffStack q (stackCells q 6 1) s) :
    Confined q (stackCells q 6 1) [.rsi, .rdx] true (touched (lib q ra) (accLib q ra) ra (addCode (n64 q))) (X86.run (lib q ra) ra (addCode (n64 q))) s :=
  confined_of_safe (sg := sigE2) rfl rfl safe_add hF s fun _ => hr

theorem C85_sub (hF : 8 * stackCells q 6 1 < 2 ^ 64) (hr : ResultOffStack q (stackCells q 6 1) s) :
    Confined q (stackCells q 6 1) [.rsi, .rdx] true (touched (lib q ra) (accLib q ra) ra (subCode (n64 q))) (X86.run (lib q ra) ra (subCode (n64 q))) s :=
  confined_of_safe (sg := sigE2) rfl rfl safe_sub hF s fun _ => hr

theorem C85_neg (hF : 8 * stackCells q 1 0 < 2 ^ 64) (hr : ResultOffStack q (stackCells q 1 0) s) :
    Confined q (stackCells q 1 0) [.rsi] true (touched (lib q ra) (accLib q ra) ra negCode) (X86.run (lib q ra) ra negCode) s :=
  confined_of_safe (sg := sigCopy) rfl rfl (safe_neg.mono (by unfold stackCells rawFrame; omega)) hF s fun _ => hr

theorem C85_square (hF : 8 * stackCells q 1 0 < 2 ^ 64) (hr : ResultOffStack q (stackCells q 1 0) s) :
    Confined q (stackCells q 1 0) [.rsi] true (touched (lib q ra) (accLib q ra) ra squareCode) (X86.run (lib q ra) ra squareCode) s :=
  confined_of_safe (sg := sigCopy) rfl rfl (safe_square.mono (by unfold stackCells rawFrame; omega)) hF s fun _ => hr

theorem C85_mul (hF : 8 * stackCells q 1 0 < 2 ^ 64) (hr : ResultOffStack q (stackCells q 1 0) s) :
    Confined q (stackCells q 1 0) [.rsi, .rdx] true (touched (lib q ra) (accLib q ra) ra mulCode) (X86.run (lib q ra) ra mulCode) s :=
  confined_of_safe (sg := sigE2) rfl rfl (safe_mul.mono (by unfold stackCells rawFrame; omega)) hF s fun _ => hr

/-! ## Comparisons

The answer in `rax` of `rgt`, `rlt` and `req`: no result in memory, so no hypothesis on `rdi`. -/

theorem C85_rgt (hF : 8 * stackCells q 6 2 < 2 ^ 64) :
    Confined q (stackCells q 6 2) [.rsi, .rdx] false (touched (lib q ra) (accLib q ra) ra (rgtCode (n64 q))) (X86.run (lib q ra) ra (rgtCode (n64 q))) s :=
  confined_of_safe (sg := sigR2) rfl rfl safe_rgt hF s nofun

theorem C85_rlt (hF : 8 * stackCells q 6 2 < 2 ^ 64) :
    Confined q (stackCells q 6 2) [.rsi, .rdx] false (touched (lib q ra) (accLib q ra) ra (rltCode (n64 q))) (X86.run (lib q ra) ra (rltCode (n64 q))) s :=
  confined_of_safe (sg := sigR2) rfl rfl safe_rlt hF s nofun

theorem C85_req (hF : 8 * stackCells q 6 1 < 2 ^ 64) :
    Confined q (stackCells q 6 1) [.rsi, .rdx] false (touched (lib q ra) (accLib q ra) ra (reqCode (n64 q))) (X86.run (lib q ra) ra (reqCode (n64 q))) s :=
  confined_of_safe (sg := sigR2) rfl rfl safe_req hF s nofun

/-- `gt`, `lt`, `eq`. -/
theorem C85_cmp (hF : 8 * stackCells q 7 2 < 2 ^ 64) (hr : ResultOffStack q (stackCells q 7 2) s) {f : String} (hf : f ∈ ["rgt", "rlt", "req"]) :
    Confined q (stackCells q 7 2) [.rsi, .rdx] true (touched (libCmp q ra) (accCmp q ra) ra (cmpStore f)) (X86.run (libCmp q ra) ra (cmpStore f)) s := by
  refine confined_of_safe (sg := sigE2) rfl rfl (safe_cmp ?_) hF s fun _ => hr
  simp only [List.mem_cons, List.not_mem_nil, or_false] at hf
  rcases hf with rfl | rfl | rfl <;> decide +kernel

/-- `leq`, `geq`, `neq`. -/
theorem C85_cmpNot (hF : 8 * stackCells q 7 2 < 2 ^ 64) (hr : ResultOffStack q (stackCells q 7 2) s) {f : String} (hf : f ∈ ["rgt", "rlt", "req"]) :
    Confined q (stackCells q 7 2) [.rsi, .rdx] true (touched (libCmp q ra) (accCmp q ra) ra (cmpStoreNot f))
      (X86.run (libCmp q ra) ra (cmpStoreNot f)) s := by
  refine confined_of_safe (sg := sigE2) rfl rfl (safe_cmp ?_) hF s fun _ => hr
  simp only [List.mem_cons, List.not_mem_nil, or_false] at hf
  rcases hf with rfl | rfl | rfl <;> decide +kernel

/-! ## Logical operations

Without a stack frame, so the result may be anywhere but over the code's own return address, which is read last. -/

theorem C85_land : Confined q 0 [.rsi, .rdx] true (touched noCalls noAcc ra (landCode (n64 q))) (X86.run noCalls ra (landCode (n64 q))) s :=
  confined_of_safe (sg := sigE2) rfl rfl safe_land (by decide) s fun _ _ _ h => by obtain ⟨j, hj, _⟩ := h; omega

theorem C85_lor : Confined q 0 [.rsi, .rdx] true (touched noCalls noAcc ra (lorCode (n64 q))) (X86.run noCalls ra (lorCode (n64 q))) s :=
  confined_of_safe (sg := sigE2) rfl rfl safe_lor (by decide) s fun _ _ _ h => by obtain ⟨j, hj, _⟩ := h; omega

theorem C85_lnot : Confined q 0 [.rsi] true (touched noCalls noAcc ra (lnotCode (n64 q))) (X86.run noCalls ra (lnotCode (n64 q))) s :=
  confined_of_safe (sg := sigCopy) rfl rfl safe_lnot (by decide) s fun _ _ _ h => by obtain ⟨j, hj, _⟩ := h; omega

theorem C85_isTrue : Confined q 0 [.rdi] false (touched noCalls noAcc ra (isTrueCode (n64 q))) (X86.run noCalls ra (isTrueCode (n64 q))) s :=
  confined_of_safe (sg := sigR1) rfl rfl safe_isTrue (by decide) s nofun

/-! ## Bitwise operations -/

theorem C85_band (hF : 8 * stackCells q 6 2 < 2 ^ 64) (hr : ResultOffStack q (stackCells q 6 2) s) :
    Confined q (stackCells q 6 2) [.rsi, .rdx] true (touched (lib q ra) (accLib q ra) ra (bandCode (n64 q))) (X86.run (lib q ra) ra (bandCode (n64 q))) s :=
  confined_of_safe (sg := sigE2) rfl rfl safe_band hF s fun _ => hr

theorem C85_bor (hF : 8 * stackCells q 6 2 < 2 ^ 64) (hr : ResultOffStack q (stackCells q 6 2) s) :
    Confined q (stackCells q 6 2) [.rsi, .rdx] true (touched (lib q ra) (accLib q ra) ra (borCode (n64 q))) (X86.run (lib q ra) ra (borCode (n64 q))) s :=
  confined_of_safe (sg := sigE2) rfl rfl safe_bor hF s fun _ => hr

theorem C85_bxor (hF : 8 * stackCells q 6 2 < 2 ^ 64) (hr : ResultOffStack q (stackCells q 6 2) s) :
    Confined q (stackCells q 6 2) [.rsi, .rdx] true (touched (lib q ra) (accLib q ra) ra (bxorCode (n64 q))) (X86.run (lib q ra) ra (bxorCode (n64 q))) s :=
  confined_of_safe (sg := sigE2) rfl rfl safe_bxor hF s fun _ => hr

theorem C85_bnot (hF : 8 * stackCells q 6 1 < 2 ^ 64) (hr : ResultOffStack q (stackCells q 6 1) s) :
    Confined q (stackCells q 6 1) [.rsi] true (touched (lib q ra) (accLib q ra) ra (bnotCode (n64 q))) (X86.run (lib q ra) ra (bnotCode (n64 q))) s :=
  confined_of_safe (sg := sigCopy) rfl rfl safe_bnot hF s fun _ => hr

/-! ## Shifts -/

theorem C85_shl (hn : 8 * n64 q ≤ 2 ^ 57) (hF : 8 * stackCells q 7 3 < 2 ^ 64) (hr : ResultOffStack q (stackCells q 7 3) s) :
    Confined q (stackCells q 7 3) [.rsi, .rdx] true (touched (libShift q ra) (accShift q ra) ra (shlCode (bitLen q) (n64 q)))
      (X86.run (libShift q ra) ra (shlCode (bitLen q) (n64 q))) s :=
  confined_of_safe (sg := sigE2) rfl rfl (safe_shl hn) hF s fun _ => hr

theorem C85_shr (hn : 8 * n64 q ≤ 2 ^ 57) (hF : 8 * stackCells q 7 3 < 2 ^ 64) (hr : ResultOffStack q (stackCells q 7 3) s) :
    Confined q (stackCells q 7 3) [.rsi, .rdx] true (touched (libShift q ra) (accShift q ra) ra (shrCode (bitLen q) (n64 q)))
      (X86.run (libShift q ra) ra (shrCode (bitLen q) (n64 q))) s :=
  confined_of_safe (sg := sigE2) rfl rfl (safe_shr hn) hF s fun _ => hr

/-! ## Conversion to a machine integer -/

/-- `toInt`, with any `fail` that keeps the calling convention, reads no argument and needs at most `G` cells of stack; one that does not return
(`fun _ => none`) is the `assert(false)` of `src/fr.cpp.ejs:165-167`. -/
theorem C85_toInt {G : Nat} {g : State → Option State} {acc : State → List Access} (hf : ∀ s', Confined q G [] false acc g s')
    (hs : ∀ s' t, g s' = some t → t.sym = s'.sym) (hF : 8 * (stackCells q 5 1 + G) < 2 ^ 64) :
    Confined q (stackCells q 5 1 + G) [.rdi] false (touched (libFail q ra g) (accFail q ra acc) ra (toIntCode (n64 q)))
      (X86.run (libFail q ra g) ra (toIntCode (n64 q))) s := by
  refine confined_of_safe (sg := sigI1) rfl rfl ((safe_toInt (G := G) ?_).mono ?_) hF s nofun
  · intro s' _ _
    have h := hf s'
    refine ⟨fun x hx => ?_, fun t ht => ⟨h.rsp t ht, h.saved t ht, nofun, hs s' t ht, fun a ha => h.mem t ht a (by simp) fun hk => ha (.inr hk)⟩⟩
    cases x with
    | read a =>
      rcases h.reads a hx with ⟨r, hr, _⟩ | ⟨h, _⟩ | h | h | h
      · cases hr
      · cases h
      · exact .inr (.inr (.inl h))
      · exact .inr (.inr (.inr (.inl h)))
      · exact .inr (.inr (.inr (.inr h)))
    | write a =>
      rcases h.writes a hx with ⟨h, _⟩ | h
      · cases h
      · exact .inr h
  · unfold stackCells rawFrame
    have := max_le_add_of_nonneg (Nat.zero_le G) (Nat.zero_le (1 + frameCells (n64 q) (canOpt q)))
    omega

end

/-! ## Examples -/

/-- Four limbs: an addition needs 16 cells of stack, a shift 27. -/
example : stackCells bnR 6 1 = 16 ∧ stackCells bnR 7 3 = 27 ∧ 8 * stackCells bnR 7 3 < 2 ^ 64 ∧ 8 * n64 bnR ≤ 2 ^ 57 := by decide +kernel

/-- A result far from the stack. -/
example (s : State) (hd : s.reg .rdi = 0x1000) (hp : s.reg .rsp = 0x100000) : ResultOffStack bnR 27 s := by
  rintro a ⟨i, hi, rfl⟩ ⟨j, hj, h⟩
  have hi : i < 5 := hi
  rw [hd, hp] at h
  have := congrArg BitVec.toNat h
  have e1 : (0x1000 : BitVec 64).toNat = 0x1000 := rfl
  have e2 : (0x100000 : BitVec 64).toNat = 0x100000 := rfl
  simp only [BitVec.toNat_add, BitVec.toNat_sub, BitVec.toNat_ofNat, e1, e2] at this
  omega

/-- A `fail` that does not return meets the hypotheses of `C85_toInt`. -/
example (q : Nat) (s : State) : Confined q 0 [] false (fun _ => []) (fun _ => none) s := ⟨nofun, nofun, nofun, nofun, nofun⟩

/-- The frame is used: the addition saves `rbp` below the return address first. -/
example (q : Nat) (ra : BitVec 64) (s : State) : Access.write (s.reg .rsp - 8) ∈ touched (lib q ra) (accLib q ra) ra (addCode (n64 q)) s := by
  unfold addCode addSub enter
  simp only [List.cons_append, List.append_assoc]
  rw [touched_plain rfl]
  exact List.mem_append_left _ (by simp [Line.acc])

/-- So a claim of no stack is false when the result is elsewhere. -/
example (q : Nat) (ra : BitVec 64) (s : State) (h : ¬ ElemAt q s .rdi (s.reg .rsp - 8)) :
    ¬ Confined q 0 [.rsi, .rdx] true (touched (lib q ra) (accLib q ra) ra (addCode (n64 q))) (X86.run (lib q ra) ra (addCode (n64 q))) s := by
  intro hc
  rcases hc.writes (s.reg .rsp - 8) (by
    unfold addCode addSub enter
    simp only [List.cons_append, List.append_assoc]
    rw [touched_plain rfl]
    exact List.mem_append_left _ (by simp [Line.acc])) with h' | ⟨j, hj, _⟩
  · exact h h'.2
  · omega

end FF.Props
