import Verif.AsmTouchTagFine

/-!
# The accesses of the tagged routines

The tables of callees with their accesses, and `Safe` for every tagged routine.
-/

namespace FF.X86

/-! ## The accesses of the callees -/

/-- The accesses of the raw routines, in the order of `libRaw`. -/
def accRaw (q : Nat) (ra : BitVec 64) : String → State → List Access := fun f =>
  if f = "rawCopyS2L" then touched noCalls noAcc ra (X86.rawCopyS2L (n64 q))
  else if f = "copy" then touched noCalls noAcc ra (X86.copy (n64 q))
  else if f = "rawAddLL" then touched noCalls noAcc ra (rawAddLL (n64 q))
  else if f = "rawAddLS" then touched noCalls noAcc ra (X86.rawAddLS (n64 q))
  else if f = "rawSubLL" then touched noCalls noAcc ra (rawSubLL (n64 q))
  else if f = "rawSubLS" then touched noCalls noAcc ra (X86.rawSubLS (n64 q))
  else if f = "rawSubSL" then touched noCalls noAcc ra (X86.rawSubSL (n64 q))
  else if f = "rawNegL" then touched noCalls noAcc ra (rawNegL (n64 q))
  else if f = "rawNegLS" then touched noCalls noAcc ra (X86.rawNegLS (n64 q))
  else if f = "rawMMul" then accTemplate ra (template (n64 q) (canOpt q) (upperMul (n64 q) (canOpt q)))
  else if f = "rawMMul1" then accTemplate ra (template (n64 q) (canOpt q) (upperMul1 (n64 q) (canOpt q)))
  else if f = "rawMSquare" then accTemplate ra (template (n64 q) (canOpt q) (upperSquare (n64 q) (canOpt q)))
  else if f = "rawFromMontgomery" then accTemplate ra (template (n64 q) (canOpt q) (upperFrom (n64 q) (canOpt q)))
  else fun _ => []

/-- The conversions added, as in `lib`. -/
def accLib (q : Nat) (ra : BitVec 64) : String → State → List Access := fun f =>
  if f = "toMontgomery" then touched (libRaw q ra) (accRaw q ra) ra toMontgomery
  else if f = "toNormal" then touched (libRaw q ra) (accRaw q ra) ra toNormal
  else if f = "toLongNormal" then touched (libRaw q ra) (accRaw q ra) ra toLongNormal
  else accRaw q ra f

/-- The comparisons added, as in `libCmp`. -/
def accCmp (q : Nat) (ra : BitVec 64) : String → State → List Access := fun f =>
  if f = "rgt" then touched (lib q ra) (accLib q ra) ra (rgtCode (n64 q))
  else if f = "rlt" then touched (lib q ra) (accLib q ra) ra (rltCode (n64 q))
  else if f = "req" then touched (lib q ra) (accLib q ra) ra (reqCode (n64 q))
  else accLib q ra f

/-- The shifts added, as in `libShift`. -/
def accShift (q : Nat) (ra : BitVec 64) : String → State → List Access := fun f =>
  if f = "rawShl" then touched noCalls noAcc ra (rawShlCode (bitLen q) (n64 q))
  else if f = "rawShr" then touched noCalls noAcc ra (rawShrCode (bitLen q) (n64 q))
  else accLib q ra f

/-- `fail` added, as in `libFail`. -/
def accFail (q : Nat) (ra : BitVec 64) (acc : State → List Access) : String → State → List Access := fun f =>
  if f = "fail" then acc else accLib q ra f

/-! ## Their contracts -/

/-- Result element from two elements. -/
def sigE2 : Sig := ⟨some .elem, [(.rsi, .elem), (.rdx, .elem)], true⟩
/-- Answer in `rax` from two elements. -/
def sigR2 : Sig := ⟨none, [(.rsi, .elem), (.rdx, .elem)], true⟩
/-- Answer in `rax` from the element at `rdi`. -/
def sigR1 : Sig := ⟨none, [(.rdi, .elem)], true⟩
/-- The same with `rdi` not kept. -/
def sigI1 : Sig := ⟨none, [(.rdi, .elem)], false⟩
/-- No arguments. -/
def sigFail : Sig := ⟨none, [], false⟩

/-- The raw routines. -/
def rawSigs : List (String × Sig) :=
  [("rawCopyS2L", sigS2L), ("copy", sigCopy), ("rawAddLL", sigLL), ("rawAddLS", sigLS), ("rawSubLL", sigLL), ("rawSubLS", sigLS),
   ("rawSubSL", sigSL), ("rawNegL", sigLS), ("rawNegLS", sigLS), ("rawMMul", sigLL), ("rawMMul1", sigLS), ("rawMSquare", sigLS),
   ("rawFromMontgomery", sigLS)]
/-- The conversions. -/
def convSigs : List (String × Sig) := [("toMontgomery", sigCopy), ("toNormal", sigCopy), ("toLongNormal", sigCopy)]

/-- The stack cells of the Montgomery routines. -/
def rawFrame (q : Nat) : Nat := frameCells (n64 q) (canOpt q)

section
variable {q : Nat} {ra : BitVec 64}

theorem raw_safe : ∀ x ∈ rawSigs, Safe q (rawFrame q) x.2 (accRaw q ra x.1) fun t => (libRaw q ra x.1).bind (· t) := by
  have hn := FF.n64_pos q
  simp only [rawSigs, List.forall_mem_cons]
  refine ⟨(safe_rawCopyS2L hn).mono (Nat.zero_le _), safe_copy.mono (Nat.zero_le _), safe_rawAddLL.mono (Nat.zero_le _),
    (safe_rawAddLS hn).mono (Nat.zero_le _), safe_rawSubLL.mono (Nat.zero_le _), (safe_rawSubLS hn).mono (Nat.zero_le _),
    (safe_rawSubSL hn).mono (Nat.zero_le _), safe_rawNegL.mono (Nat.zero_le _), (safe_rawNegLS hn).mono (Nat.zero_le _),
    safe_rawMMul hn, safe_rawMMul1 hn, safe_rawMSquare hn, safe_rawFrom hn, List.forall_mem_nil _⟩

/-! ## Conversions -/

theorem safe_conv {p : List Line} (h : Chk.check ⟨sigCopy, 1, 0, rawSigs⟩ 100 atEntry (lns p) = true) :
    Safe q (1 + rawFrame q) sigCopy (touched (libRaw q ra) (accRaw q ra) ra p) (run (libRaw q ra) ra p) := by
  have := safe_of_check (C := ⟨sigCopy, 1, 0, rawSigs⟩) (raw_safe (q := q) (ra := ra)) (ra := ra) ((lns_fine q p).2 trivial) h
  rw [lns_code] at this
  simpa using this

theorem safe_toMontgomery : Safe q (1 + rawFrame q) sigCopy (touched (libRaw q ra) (accRaw q ra) ra toMontgomery) (run (libRaw q ra) ra toMontgomery) :=
  safe_conv (by decide +kernel)
theorem safe_toNormal : Safe q (1 + rawFrame q) sigCopy (touched (libRaw q ra) (accRaw q ra) ra toNormal) (run (libRaw q ra) ra toNormal) :=
  safe_conv (by decide +kernel)
theorem safe_toLongNormal : Safe q (1 + rawFrame q) sigCopy (touched (libRaw q ra) (accRaw q ra) ra toLongNormal) (run (libRaw q ra) ra toLongNormal) :=
  safe_conv (by decide +kernel)

theorem raw_lib : ∀ x ∈ rawSigs, lib q ra x.1 = libRaw q ra x.1 ∧ accLib q ra x.1 = accRaw q ra x.1 := by
  simp only [rawSigs, List.forall_mem_cons]
  exact ⟨⟨rfl, rfl⟩, ⟨rfl, rfl⟩, ⟨rfl, rfl⟩, ⟨rfl, rfl⟩, ⟨rfl, rfl⟩, ⟨rfl, rfl⟩, ⟨rfl, rfl⟩, ⟨rfl, rfl⟩, ⟨rfl, rfl⟩, ⟨rfl, rfl⟩, ⟨rfl, rfl⟩, ⟨rfl, rfl⟩,
    ⟨rfl, rfl⟩, List.forall_mem_nil _⟩

theorem rawLib_safe : ∀ x ∈ rawSigs, Safe q (rawFrame q) x.2 (accLib q ra x.1) fun t => (lib q ra x.1).bind (· t) := by
  intro x hx
  rw [(raw_lib x hx).1, (raw_lib x hx).2]
  exact raw_safe x hx

theorem lib_safe : ∀ x ∈ convSigs ++ rawSigs, Safe q (1 + rawFrame q) x.2 (accLib q ra x.1) fun t => (lib q ra x.1).bind (· t) := by
  rw [List.forall_mem_append]
  refine ⟨?_, fun x hx => (rawLib_safe x hx).mono (Nat.le_add_left _ _)⟩
  simp only [convSigs, List.forall_mem_cons]
  exact ⟨safe_toMontgomery, safe_toNormal, safe_toLongNormal, List.forall_mem_nil _⟩

/-! ## Arithmetic -/

theorem safe_raws {sg : Sig} {p : List Line} (h : Chk.check ⟨sg, 2, 0, rawSigs⟩ 200 atEntry (lns p) = true) :
    Safe q (2 + rawFrame q) sg (touched (lib q ra) (accLib q ra) ra p) (run (lib q ra) ra p) := by
  have := safe_of_check (C := ⟨sg, 2, 0, rawSigs⟩) (rawLib_safe (q := q) (ra := ra)) (ra := ra) ((lns_fine q p).2 trivial) h
  rw [lns_code] at this
  simpa using this

theorem safe_libs {sg : Sig} {a b : Nat} {p : List Item} {c : List Line} (hp : ∀ x ∈ p, x.Fine q) (hc : codeOf (bitLen q) (n64 q) p = c)
    (h : Chk.check ⟨sg, a, b, convSigs ++ rawSigs⟩ 600 atEntry p = true) :
    Safe q (a + b * (n64 q + 1) + (1 + rawFrame q)) sg (touched (lib q ra) (accLib q ra) ra c) (run (lib q ra) ra c) := by
  have := safe_of_check (C := ⟨sg, a, b, convSigs ++ rawSigs⟩) (lib_safe (q := q) (ra := ra)) (ra := ra) hp h
  rw [hc] at this
  exact this

theorem safe_add : Safe q (6 + 1 * (n64 q + 1) + (1 + rawFrame q)) sigE2 (touched (lib q ra) (accLib q ra) ra (addCode (n64 q)))
    (run (lib q ra) ra (addCode (n64 q))) :=
  safe_libs (p := addI) (addSubI_fine _ _ _ _ _) (addSubI_code _ _ _ _ _ _) (by decide +kernel)
theorem safe_sub : Safe q (6 + 1 * (n64 q + 1) + (1 + rawFrame q)) sigE2 (touched (lib q ra) (accLib q ra) ra (subCode (n64 q)))
    (run (lib q ra) ra (subCode (n64 q))) :=
  safe_libs (p := subI) (addSubI_fine _ _ _ _ _) (addSubI_code _ _ _ _ _ _) (by decide +kernel)
theorem safe_neg : Safe q (2 + rawFrame q) sigCopy (touched (lib q ra) (accLib q ra) ra negCode) (run (lib q ra) ra negCode) :=
  safe_raws (by decide +kernel)
theorem safe_square : Safe q (2 + rawFrame q) sigCopy (touched (lib q ra) (accLib q ra) ra squareCode) (run (lib q ra) ra squareCode) :=
  safe_raws (by decide +kernel)
theorem safe_mul : Safe q (2 + rawFrame q) sigE2 (touched (lib q ra) (accLib q ra) ra mulCode) (run (lib q ra) ra mulCode) :=
  safe_raws (by decide +kernel)

/-! ## Comparisons -/

theorem safe_rgt : Safe q (6 + 2 * (n64 q + 1) + (1 + rawFrame q)) sigR2 (touched (lib q ra) (accLib q ra) ra (rgtCode (n64 q)))
    (run (lib q ra) ra (rgtCode (n64 q))) :=
  safe_libs rgtI_fine (rgtI_code _ _) (by decide +kernel)
theorem safe_rlt : Safe q (6 + 2 * (n64 q + 1) + (1 + rawFrame q)) sigR2 (touched (lib q ra) (accLib q ra) ra (rltCode (n64 q)))
    (run (lib q ra) ra (rltCode (n64 q))) :=
  safe_libs rltI_fine (rltI_code _ _) (by decide +kernel)
theorem safe_req : Safe q (6 + 1 * (n64 q + 1) + (1 + rawFrame q)) sigR2 (touched (lib q ra) (accLib q ra) ra (reqCode (n64 q)))
    (run (lib q ra) ra (reqCode (n64 q))) :=
  safe_libs reqI_fine (reqI_code _ _) (by decide +kernel)

/-- The comparisons that answer in `rax`. -/
def cmpSigs : List (String × Sig) := [("rgt", sigR2), ("rlt", sigR2), ("req", sigR2)]

theorem cmp_safe : ∀ x ∈ cmpSigs, Safe q (6 + 2 * (n64 q + 1) + (1 + rawFrame q)) x.2 (accCmp q ra x.1) fun t => (libCmp q ra x.1).bind (· t) := by
  simp only [cmpSigs, List.forall_mem_cons]
  exact ⟨safe_rgt, safe_rlt, safe_req.mono (by omega), List.forall_mem_nil _⟩

theorem safe_cmp {p : List Line} (h : Chk.check ⟨sigE2, 1, 0, cmpSigs⟩ 100 atEntry (lns p) = true) :
    Safe q (7 + 2 * (n64 q + 1) + (1 + rawFrame q)) sigE2 (touched (libCmp q ra) (accCmp q ra) ra p) (run (libCmp q ra) ra p) := by
  have := safe_of_check (C := ⟨sigE2, 1, 0, cmpSigs⟩) (cmp_safe (q := q) (ra := ra)) (ra := ra) ((lns_fine q p).2 trivial) h
  rw [lns_code] at this
  exact this.mono (by show 1 + 0 * _ + _ ≤ _; omega)

/-! ## Logical operations -/

theorem safe_alone {env : String → Option (State → Option State)} {T : String → State → List Access} {sg : Sig} {p : List Item} {c : List Line}
    (hp : ∀ x ∈ p, x.Fine q) (hc : codeOf (bitLen q) (n64 q) p = c) (h : Chk.check ⟨sg, 0, 0, []⟩ 100 atEntry p = true) :
    Safe q 0 sg (touched env T ra c) (run env ra c) := by
  have := safe_of_check (C := ⟨sg, 0, 0, []⟩) (q := q) (G := 0) (env := env) (T := T) (ra := ra) (List.forall_mem_nil _) hp h
  rw [hc] at this
  exact this.mono (by show 0 + 0 * _ + 0 ≤ _; omega)

section
variable {env : String → Option (State → Option State)} {T : String → State → List Access}
theorem safe_land : Safe q 0 sigE2 (touched env T ra (landCode (n64 q))) (run env ra (landCode (n64 q))) :=
  safe_alone (logicalI_fine .and) (logicalI_code _ _ _) (by decide +kernel)
theorem safe_lor : Safe q 0 sigE2 (touched env T ra (lorCode (n64 q))) (run env ra (lorCode (n64 q))) :=
  safe_alone (logicalI_fine .or) (logicalI_code _ _ _) (by decide +kernel)
theorem safe_lnot : Safe q 0 sigCopy (touched env T ra (lnotCode (n64 q))) (run env ra (lnotCode (n64 q))) :=
  safe_alone lnotI_fine (lnotI_code _ _) (by decide +kernel)
theorem safe_isTrue : Safe q 0 sigR1 (touched env T ra (isTrueCode (n64 q))) (run env ra (isTrueCode (n64 q))) :=
  safe_alone isTrueI_fine (isTrueI_code _ _) (by decide +kernel)
end

/-! ## Bitwise operations -/

theorem safe_band : Safe q (6 + 2 * (n64 q + 1) + (1 + rawFrame q)) sigE2 (touched (lib q ra) (accLib q ra) ra (bandCode (n64 q)))
    (run (lib q ra) ra (bandCode (n64 q))) :=
  safe_libs (bitI_fine .and .and) (bitI_code _ _ _ _) (by decide +kernel)
theorem safe_bor : Safe q (6 + 2 * (n64 q + 1) + (1 + rawFrame q)) sigE2 (touched (lib q ra) (accLib q ra) ra (borCode (n64 q)))
    (run (lib q ra) ra (borCode (n64 q))) :=
  safe_libs (bitI_fine .or .or) (bitI_code _ _ _ _) (by decide +kernel)
theorem safe_bxor : Safe q (6 + 2 * (n64 q + 1) + (1 + rawFrame q)) sigE2 (touched (lib q ra) (accLib q ra) ra (bxorCode (n64 q)))
    (run (lib q ra) ra (bxorCode (n64 q))) :=
  safe_libs (bitI_fine .xor .xor) (bitI_code _ _ _ _) (by decide +kernel)
theorem safe_bnot : Safe q (6 + 1 * (n64 q + 1) + (1 + rawFrame q)) sigCopy (touched (lib q ra) (accLib q ra) ra (bnotCode (n64 q)))
    (run (lib q ra) ra (bnotCode (n64 q))) :=
  safe_libs bnotI_fine (bnotI_code _ _) (by decide +kernel)

/-! ## Shifts -/

/-- The raw shifts. -/
def shiftSigs : List (String × Sig) := [("rawShl", sigLS), ("rawShr", sigLS)]

theorem conv_shift : ∀ x ∈ convSigs ++ rawSigs, libShift q ra x.1 = lib q ra x.1 ∧ accShift q ra x.1 = accLib q ra x.1 := by
  simp only [rawSigs, convSigs, List.cons_append, List.nil_append, List.forall_mem_cons]
  exact ⟨⟨rfl, rfl⟩, ⟨rfl, rfl⟩, ⟨rfl, rfl⟩, ⟨rfl, rfl⟩, ⟨rfl, rfl⟩, ⟨rfl, rfl⟩, ⟨rfl, rfl⟩, ⟨rfl, rfl⟩, ⟨rfl, rfl⟩, ⟨rfl, rfl⟩, ⟨rfl, rfl⟩, ⟨rfl, rfl⟩,
    ⟨rfl, rfl⟩, ⟨rfl, rfl⟩, ⟨rfl, rfl⟩, ⟨rfl, rfl⟩, List.forall_mem_nil _⟩

theorem shift_safe (hn : 8 * n64 q ≤ 2 ^ 57) :
    ∀ x ∈ shiftSigs ++ (convSigs ++ rawSigs), Safe q (1 + rawFrame q) x.2 (accShift q ra x.1) fun t => (libShift q ra x.1).bind (· t) := by
  rw [List.forall_mem_append]
  refine ⟨?_, fun x hx => by rw [(conv_shift x hx).1, (conv_shift x hx).2]; exact lib_safe x hx⟩
  simp only [shiftSigs, List.forall_mem_cons]
  exact ⟨(safe_rawShl hn).mono (Nat.zero_le _), (safe_rawShr hn).mono (Nat.zero_le _), List.forall_mem_nil _⟩

theorem safe_shifts (hn : 8 * n64 q ≤ 2 ^ 57) {p : List Item} {c : List Line} (hp : ∀ x ∈ p, x.Fine q) (hc : codeOf (bitLen q) (n64 q) p = c)
    (h : Chk.check ⟨sigE2, 7, 3, shiftSigs ++ (convSigs ++ rawSigs)⟩ 600 atEntry p = true) :
    Safe q (7 + 3 * (n64 q + 1) + (1 + rawFrame q)) sigE2 (touched (libShift q ra) (accShift q ra) ra c) (run (libShift q ra) ra c) := by
  have := safe_of_check (C := ⟨sigE2, 7, 3, shiftSigs ++ (convSigs ++ rawSigs)⟩) (shift_safe (q := q) (ra := ra) hn) (ra := ra) hp h
  rw [hc] at this
  exact this

theorem safe_shl (hn : 8 * n64 q ≤ 2 ^ 57) : Safe q (7 + 3 * (n64 q + 1) + (1 + rawFrame q)) sigE2
    (touched (libShift q ra) (accShift q ra) ra (shlCode (bitLen q) (n64 q))) (run (libShift q ra) ra (shlCode (bitLen q) (n64 q))) :=
  safe_shifts hn shlI_fine (shlI_code _ _) (by decide +kernel)
theorem safe_shr (hn : 8 * n64 q ≤ 2 ^ 57) : Safe q (7 + 3 * (n64 q + 1) + (1 + rawFrame q)) sigE2
    (touched (libShift q ra) (accShift q ra) ra (shrCode (bitLen q) (n64 q))) (run (libShift q ra) ra (shrCode (bitLen q) (n64 q))) :=
  safe_shifts hn shrI_fine (shrI_code _ _) (by decide +kernel)

/-! ## Conversion to a machine integer -/

theorem conv_fail (g : State → Option State) (acc : State → List Access) :
    ∀ x ∈ convSigs ++ rawSigs, libFail q ra g x.1 = lib q ra x.1 ∧ accFail q ra acc x.1 = accLib q ra x.1 := by
  simp only [rawSigs, convSigs, List.cons_append, List.nil_append, List.forall_mem_cons]
  exact ⟨⟨rfl, rfl⟩, ⟨rfl, rfl⟩, ⟨rfl, rfl⟩, ⟨rfl, rfl⟩, ⟨rfl, rfl⟩, ⟨rfl, rfl⟩, ⟨rfl, rfl⟩, ⟨rfl, rfl⟩, ⟨rfl, rfl⟩, ⟨rfl, rfl⟩, ⟨rfl, rfl⟩, ⟨rfl, rfl⟩,
    ⟨rfl, rfl⟩, ⟨rfl, rfl⟩, ⟨rfl, rfl⟩, ⟨rfl, rfl⟩, List.forall_mem_nil _⟩

theorem safe_toInt {G : Nat} {g : State → Option State} {acc : State → List Access} (hf : Safe q G sigFail acc g) :
    Safe q (5 + 1 * (n64 q + 1) + max G (1 + rawFrame q)) sigI1 (touched (libFail q ra g) (accFail q ra acc) ra (toIntCode (n64 q)))
      (run (libFail q ra g) ra (toIntCode (n64 q))) := by
  have hs : ∀ x ∈ [("fail", sigFail)] ++ (convSigs ++ rawSigs), Safe q (max G (1 + rawFrame q)) x.2 (accFail q ra acc x.1)
      fun t => (libFail q ra g x.1).bind (· t) := by
    rw [List.forall_mem_append]
    refine ⟨?_, fun x hx => ?_⟩
    · simp only [List.forall_mem_cons]
      exact ⟨hf.mono (le_max_left _ _), List.forall_mem_nil _⟩
    · rw [(conv_fail g acc x hx).1, (conv_fail g acc x hx).2]
      exact (lib_safe x hx).mono (le_max_right _ _)
  have := safe_of_check (C := ⟨sigI1, 5, 1, [("fail", sigFail)] ++ (convSigs ++ rawSigs)⟩) hs (ra := ra) (k := 400) toIntI_fine (by decide +kernel)
  rw [toIntI_code] at this
  exact this

end

end FF.X86
