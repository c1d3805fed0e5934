import Verif.AsmLogic

/-!
# Bitwise operations in the generated assembly

The listings of `src/binops.asm.ejs` for `n` limbs, with the `and_`, `or_`, `xor_`, `bnot_` prefixes of the labels dropped.
The labels `tmp_k` of a block have the same names in every copy of the block; a jump goes to the next occurrence of its
label, which is the one of its own copy.
-/

namespace FF.X86

/-! ## Listings -/

/-- `binOpSubQIfBigger`, `src/binops.asm.ejs:1-19` (`off` is 8), and `binOpSubQIfBiggerRaw`, `21-39` (`off` is 0). -/
def subQIfBigger (n off : Nat) : List Line :=
  down (fun i => [op .mov rax (.mem .rdi (off + 8 * i)), op .cmp rax (.sym .q (8 * i)), .jump .carry "done",
    .jump .nzero "subQ"]) n ++
  [.label "subQ"] ++ ((List.range n).flatMap fun i => [op .mov rax (.sym .q (8 * i)),
    op (if i = 0 then .sub else .sbb) (.mem .rdi (off + 8 * i)) rax]) ++
  [.label "done"]

/-- `and rax, [lboMask]` in the last round only. -/
def maskLast (n i : Nat) : List Line := if i = n - 1 then [op .and rax (.sym .lboMask 0)] else []

/-- `binOpL1L2(op)`, `src/binops.asm.ejs:126-141`. -/
def bitL1L2 (o : Op2) (n : Nat) : List Line :=
  ((List.range n).flatMap fun i => [op .mov rax (.mem .rsi (8 + 8 * i)), op o rax (.mem .rdx (8 + 8 * i))] ++ maskLast n i ++
    [op .mov (.mem .rdi (8 + 8 * i)) rax]) ++ subQIfBigger n 8 ++ leave

/-- The rounds of `binOpS1L2` (`src/binops.asm.ejs:72-81`) and `binOpL1S2` (`101-111`): the short operand is in `rax`. -/
def bitShortRounds (o : Op2) (p : Reg) (n : Nat) : List Line :=
  [op o rax (.mem p 8), op .mov (.mem .rdi 8) rax] ++
  (List.range' 1 (n - 1)).flatMap fun i => [op .xor rax rax, op o rax (.mem p (8 + 8 * i))] ++ maskLast n i ++
    [op .mov (.mem .rdi (8 + 8 * i)) rax]

/-- `binOpS1L2(op)`, `src/binops.asm.ejs:67-94`. -/
def bitS1L2 (o : Op2) (n : Nat) : List Line :=
  [.misc (.op32 .mov .rax (.low .rsi)), .misc (.op32 .cmp .rax (.imm 0)), .jump .sign "solveNeg"] ++
  bitShortRounds o .rdx n ++ subQIfBigger n 8 ++ leave ++
  [.label "solveNeg"] ++ convA n "toLongNormal" ++ setTypeDest 0x80 ++ bitL1L2 o n

/-- `binOpL1S2(op)`, `src/binops.asm.ejs:96-124`. -/
def bitL1S2 (o : Op2) (n : Nat) : List Line :=
  [op .mov rcx (.mem .rdx 0), .misc (.op32 .cmp .rcx (.imm 0)), .jump .sign "solveNeg", .misc (.movsx .rax .rcx)] ++
  bitShortRounds o .rsi n ++ subQIfBigger n 8 ++ leave ++
  [.label "solveNeg"] ++ convB n "toLongNormal" ++ setTypeDest 0x80 ++ bitL1L2 o n

/-- `binOpS1S2(op)`, `src/binops.asm.ejs:41-65`. -/
def bitS1S2 (o : Op2) (o' : Op32) (n : Nat) : List Line :=
  [.misc (.op32 .cmp .rax (.imm 0)), .jump .sign "solveNeg", .misc (.op32 .cmp .rcx (.imm 0)), .jump .sign "solveNeg",
    op .xor rdx rdx, .misc (.op32 .mov .rdx (.reg .rax)), .misc (.op32 o' .rdx (.reg .rcx)), op .mov (.mem .rdi 0) rdx] ++ leave ++
  [.label "solveNeg"] ++ setTypeDest 0x80 ++ convB n "toLongNormal" ++ convA n "toLongNormal" ++ bitL1L2 o n

/-- The dispatch on the tags, `src/binops.asm.ejs:156-230`, around the code of the four cases. -/
def bitDispatch (n : Nat) (ss ls sl ll : List Line) : List Line :=
  enter ++ [op .mov rax (.mem .rsi 0), op .mov rcx (.mem .rdx 0), .misc (.bt .rax 63), .jump .carry "l1",
    .misc (.bt .rcx 63), .jump .carry "s1l2",
    .label "s1s2"] ++ ss ++
  [.label "l1", .misc (.bt .rcx 63), .jump .carry "l1l2",
   .label "l1s2", .misc (.bt .rax 62), .jump .carry "l1ms2",
   .label "l1ns2"] ++ setTypeDest 0x80 ++ ls ++
  [.label "l1ms2"] ++ setTypeDest 0x80 ++ convA n "toNormal" ++ ls ++
  [.label "s1l2", .misc (.bt .rcx 62), .jump .carry "s1l2m",
   .label "s1l2n"] ++ setTypeDest 0x80 ++ sl ++
  [.label "s1l2m"] ++ setTypeDest 0x80 ++ convB n "toNormal" ++ sl ++
  [.label "l1l2", .misc (.bt .rax 62), .jump .carry "l1ml2", .misc (.bt .rcx 62), .jump .carry "l1nl2m",
   .label "l1nl2n"] ++ setTypeDest 0x80 ++ ll ++
  [.label "l1nl2m"] ++ setTypeDest 0x80 ++ convB n "toNormal" ++ ll ++
  [.label "l1ml2", .misc (.bt .rcx 62), .jump .carry "l1ml2m",
   .label "l1ml2n"] ++ setTypeDest 0x80 ++ convA n "toNormal" ++ ll ++
  [.label "l1ml2m"] ++ setTypeDest 0x80 ++ convA n "toNormal" ++ convB n "toNormal" ++ ll

/-- `<name>_band`, `<name>_bor`, `<name>_bxor`, `src/binops.asm.ejs:144-235`. -/
def bitCode (o : Op2) (o' : Op32) (n : Nat) : List Line :=
  bitDispatch n (bitS1S2 o o' n) (bitL1S2 o n) (bitS1L2 o n) (bitL1L2 o n)

/-- `<name>_band`, `src/binops.asm.ejs:233`. -/
def bandCode (n : Nat) : List Line := bitCode .and .and n
/-- `<name>_bor`, `src/binops.asm.ejs:234`. -/
def borCode (n : Nat) : List Line := bitCode .or .or n
/-- `<name>_bxor`, `src/binops.asm.ejs:235`. -/
def bxorCode (n : Nat) : List Line := bitCode .xor .xor n

/-- `<name>_bnot`, `src/binops.asm.ejs:247-282`. -/
def bnotCode (n : Nat) : List Line :=
  enter ++ setTypeDest 0x80 ++ [op .mov rax (.mem .rsi 0), .misc (.bt .rax 63), .jump .carry "l1",
    .label "s"] ++ convA n "toLongNormal" ++ [.jump .always "l1n",
    .label "l1", .misc (.bt .rax 62), .jump .ncarry "l1n",
    .label "l1m"] ++ convA n "toNormal" ++
  [.label "l1n"] ++ ((List.range n).flatMap fun i => [op .mov rax (.mem .rsi (8 + 8 * i)), .misc (.not .rax)] ++ maskLast n i ++
    [op .mov (.mem .rdi (8 + 8 * i)) rax]) ++ subQIfBigger n 8 ++ leave

/-! ## Labels -/

/-- The labels of a piece of code. -/
def labels : List Line → List String
  | [] => []
  | .label l :: p => l :: labels p
  | _ :: p => labels p

theorem labels_append (X Y : List Line) : labels (X ++ Y) = labels X ++ labels Y := by
  induction X with
  | nil => rfl
  | cons x X ih => cases x <;> simp [labels, ih]

theorem dropTo_skip {l : String} {X : List Line} (h : l ∉ labels X) (p : List Line) : dropTo l (X ++ p) = dropTo l p := by
  induction X with
  | nil => rfl
  | cons x X ih =>
    cases x with
    | label m =>
      simp only [labels, List.mem_cons, not_or] at h
      rw [List.cons_append, dropTo, if_neg (fun e => h.1 e.symm), ih h.2]
    | _ => exact ih h

theorem labels_flatMap {f : Nat → List Line} (hf : ∀ i, labels (f i) = []) : ∀ is : List Nat, labels (is.flatMap f) = []
  | [] => rfl
  | i :: is => by rw [List.flatMap_cons, labels_append, hf, labels_flatMap hf is]; rfl

theorem labels_down {g : Nat → List Line} (hg : ∀ i, labels (g i) = []) : ∀ n, labels (down g n) = []
  | 0 => rfl
  | n + 1 => by rw [down, labels_append, hg, labels_down hg n]; rfl

/-! ## Loops that store one cell in each round -/

section store

variable {q n : Nat} {ra : BitVec 64} {t : State} {env : String → Option (State → Option State)}

/-- The cells `d[j]`, `P j`, have received their value `V j`; everything else is as at the start. -/
structure Part (K : Reg → Prop) (d : BitVec 64) (V : Nat → BitVec 64) (P : Nat → Prop) (t t' : State) : Prop where
  new : ∀ j, P j → t'.mem (cell d j) = V j
  old : ∀ a, (∀ j, P j → a ≠ cell d j) → t'.mem a = t.mem a
  regs : ∀ r, K r → t'.reg r = t.reg r
  sym : t'.sym = t.sym

/-- What one round does. -/
structure Round (K : Reg → Prop) (d : BitVec 64) (i : Nat) (v : BitVec 64) (t t' : State) : Prop where
  mem : t'.mem = upd t.mem (cell d i) v
  regs : ∀ r, K r → t'.reg r = t.reg r
  sym : t'.sym = t.sym

variable {K : Reg → Prop} {d : BitVec 64} {V : Nat → BitVec 64}

theorem Part.refl {P : Nat → Prop} (hP : ∀ j, ¬ P j) (t : State) : Part K d V P t t :=
  ⟨fun j h => (hP j h).elim, fun _ _ => rfl, fun _ _ => rfl, rfl⟩

theorem Part.step {P P' : Nat → Prop} {i : Nat} {t' t'' : State} (hn : 8 * n ≤ 2 ^ 64) (hP : ∀ j, P j → j < n) (hi : i < n)
    (h : Part K d V P t t') (hr : Round K d i (V i) t' t'') (hP' : ∀ j, P' j ↔ j = i ∨ P j) : Part K d V P' t t'' := by
  refine ⟨fun j hj => ?_, fun a ha => ?_, fun r hk => (hr.regs r hk).trans (h.regs r hk), hr.sym.trans h.sym⟩
  · rw [hr.mem]
    by_cases e : j = i
    · rw [e, upd_same]
    · have hj' := ((hP' j).1 hj).resolve_left e
      rw [upd_ne, h.new j hj']
      intro e'
      exact e (cell_inj (by have := hP j hj'; omega) (by omega) e')
  · rw [hr.mem, upd_ne _ _ (ha i ((hP' i).2 (.inl rfl))), h.old a fun j hj => ha j ((hP' j).2 (.inr hj))]

/-- Rounds `k, k+1, …, k+m-1`. -/
theorem asc_run {body : Nat → List Line} {k₀ : Nat} (hn : 8 * n ≤ 2 ^ 64)
    (hb : ∀ i t', k₀ ≤ i → i < n → Part K d V (· < i) t t' → ∃ t'', (∀ p, run env ra (body i ++ p) t' = run env ra p t'') ∧ Round K d i (V i) t' t'') :
    ∀ m k t', k₀ ≤ k → k + m ≤ n → Part K d V (· < k) t t' →
      ∃ t'', (∀ p, run env ra ((List.range' k m).flatMap body ++ p) t' = run env ra p t'') ∧ Part K d V (· < k + m) t t''
  | 0, k, t', _, _, h => ⟨t', fun _ => rfl, h⟩
  | m + 1, k, t', h0, hk, h => by
    obtain ⟨t1, r1, h1⟩ := hb k t' h0 (by omega) h
    obtain ⟨t2, r2, h2⟩ := asc_run hn hb m (k + 1) t1 (by omega) (by omega)
      (h.step hn (i := k) (fun j (hj : j < k) => by omega) (by omega) h1 fun j => by omega)
    refine ⟨t2, fun p => ?_, ?_⟩
    · rw [List.range'_succ, List.flatMap_cons, List.append_assoc, r1, r2]
    · rwa [show k + (m + 1) = k + 1 + m by omega]

/-- Rounds `k-1, …, 0`, the cells from `k` to `n-1` being stored. -/
theorem desc_run {body : Nat → List Line} (hn : 8 * n ≤ 2 ^ 64)
    (hb : ∀ i t', i < n → Part K d V (fun j => i < j ∧ j < n) t t' →
      ∃ t'', (∀ p, run env ra (body i ++ p) t' = run env ra p t'') ∧ Round K d i (V i) t' t'') :
    ∀ k t', k ≤ n → Part K d V (fun j => k ≤ j ∧ j < n) t t' →
      ∃ t'', (∀ p, run env ra (down body k ++ p) t' = run env ra p t'') ∧ Part K d V (· < n) t t''
  | 0, t', _, h => ⟨t', fun _ => rfl, by simpa using h⟩
  | k + 1, t', hk, h => by
    obtain ⟨t1, r1, h1⟩ := hb k t' (by omega) h
    obtain ⟨t2, r2, h2⟩ := desc_run hn hb k t1 (by omega)
      (h.step hn (i := k) (fun j hj => hj.2) (by omega) h1 fun j => by omega)
    exact ⟨t2, fun p => by rw [down, List.append_assoc, r1, r2], h2⟩

theorem Part.rd {t' : State} (h : Part K d V (· < n) t t') : rd t'.mem d n = firsts V n := by
  rw [X86.rd, firsts]
  refine List.map_congr_left fun i hi => ?_
  simp only [List.mem_range'_1] at hi
  exact h.new i (by omega)

/-- A source cell that is not yet overwritten. -/
theorem Part.src {P : Nat → Prop} {t' : State} {x : BitVec 64} {i : Nat} (h : Part K d V P t t') (hx : ∀ j, P j → cell x i ≠ cell d j) :
    t'.mem (cell x i) = t.mem (cell x i) := h.old _ hx

/-! ## Subtracting the modulus -/

theorem cell_off (p : BitVec 64) (o i : Nat) : p + BitVec.ofNat 64 (8 * o + 8 * i) = cell (cell p o) i := by
  rw [cell_add, cell]; congr 2; omega

theorem subQ_iter (s₀ : State) (o i : Nat) :
    Iter subF (.arr (cell (s₀.reg .rdi) o)) (.arr (s₀.sym .q)) (cell (s₀.reg .rdi) o) none notRax s₀.reg s₀.sym
      [i2 .mov rax (.sym .q (8 * i)), i2 (if i = 0 then .sub else .sbb) (.mem .rdi (8 * o + 8 * i)) rax] i (decide (i = 0)) := by
  intro s hr hs
  obtain ⟨e1, e2, e3⟩ := arith_sub.sel i (s.mem (cell (cell (s₀.reg .rdi) o) i)) (s.mem (cell (s₀.sym .q) i)) s.fl
  have hd : s.reg .rdi = s₀.reg .rdi := hr _ (by simp [notRax])
  simp only [steps, List.foldl_cons, List.foldl_nil]
  rw [step_op2 _ _ _ _ e3, step_mov]
  simp only [Opd.get, Opd.set, upd_same, hs, addr_eq, cell_off, upd_ne _ _ (show Reg.rdi ≠ Reg.rax by decide), hd, Src.at]
  exact ⟨by rw [e1], e2, fun r hr => upd_ne _ _ hr, trivial, by simp⟩

/-- `binOpSubQIfBigger`: the array at `[rdi + 8 o]` is reduced once if it is at least the modulus. -/
theorem subQ_run (hd : Data q t) (hn : 8 * n64 q ≤ 2 ^ 64) (h0 : 0 < n64 q) (o : Nat) (hs : Sep (t.sym .q) (cell (t.reg .rdi) o) (n64 q))
    (p : List Line) :
    ∃ t', run env ra (subQIfBigger (n64 q) (8 * o) ++ p) t = run env ra p t' ∧
      rd t'.mem (cell (t.reg .rdi) o) (n64 q) = condSub q false (rd t.mem (cell (t.reg .rdi) o) (n64 q)) ∧
      (∀ a, ¬ InArr (cell (t.reg .rdi) o) (n64 q) a → t'.mem a = t.mem a) ∧ (∀ r, notRax r → t'.reg r = t.reg r) ∧ t'.sym = t.sym := by
  obtain ⟨n, hn'⟩ : ∃ n, n64 q = n + 1 := ⟨n64 q - 1, by omega⟩
  set B : List (Ins Opd) := (List.range (n64 q)).flatMap fun i => [i2 .mov rax (.sym .q (8 * i)),
    i2 (if i = 0 then .sub else .sbb) (.mem .rdi (8 * o + 8 * i)) rax] with hB
  have hcode : ((List.range (n64 q)).flatMap fun i => [op .mov rax (.sym .q (8 * i)),
    op (if i = 0 then .sub else .sbb) (.mem .rdi (8 * o + 8 * i)) rax]) = code B := by
    rw [hB, code, List.map_flatMap]; rfl
  have hnl : ∀ l p, dropTo l (code B ++ p) = dropTo l p := fun l p => dropTo_code l B p
  obtain ⟨t1, a1, e1⟩ := downCmp_run (env := env) (ra := ra) (t := t)
    (pre := fun i => [op .mov rax (.mem .rdi (8 * o + 8 * i)), op .cmp rax (.sym .q (8 * i))]) (lc := "done") (ln := "subQ")
    (last := [.jump .nzero "subQ"]) (p := .label "subQ" :: (code B ++ .label "done" :: p))
    (L := fun i => t.mem (cell (cell (t.reg .rdi) o) i))
    (R := fun i => t.mem (cell (t.sym .q) i)) (fin := fun x => if x == .lt then p else code B ++ .label "done" :: p)
    (fun _ => rfl) (fun _ _ _ => rfl) (fun _ _ => rfl)
    (fun i t' hA => by
      refine ⟨hA.trans ⟨rfl, rfl, fun r hr => upd_ne _ _ hr⟩, ?_, ?_⟩
      · show decide ((t'.mem (t'.reg .rdi + BitVec.ofNat 64 (8 * o + 8 * i))).toNat < (t'.mem (cell (t'.sym .q) i)).toNat + 0) = _
        rw [cell_off, hA.mem, hA.sym, hA.regs .rdi (by simp [notRax])]; rfl
      · show decide (t'.mem (t'.reg .rdi + BitVec.ofNat 64 (8 * o + 8 * i)) - t'.mem (cell (t'.sym .q) i) = 0) = _
        rw [cell_off, hA.mem, hA.sym, hA.regs .rdi (by simp [notRax]), zf_sub])
    (by show p = _; rw [dropTo_label, if_neg (by decide), hnl, dropTo_self])
    (by show code B ++ _ = _; rw [dropTo_self])
    (fun t' hz hlt => by
      rw [List.cons_append, run_jump, Cond.holds, List.nil_append, dropTo_self, run_label, ite_self,
        if_neg (by simpa [compare_lt_iff_lt] using hlt)]) n t ⟨rfl, rfl, fun _ _ => rfl⟩
  have e : subQIfBigger (n64 q) (8 * o) ++ p = down (fun i => (fun i => [op .mov rax (.mem .rdi (8 * o + 8 * i)), op .cmp rax (.sym .q (8 * i))]) i ++
      .jump .carry "done" :: if i > 0 then [.jump .nzero "subQ"] else [.jump .nzero "subQ"]) (n + 1) ++
      .label "subQ" :: (code B ++ .label "done" :: p) := by
    rw [subQIfBigger, hcode, hn']
    simp only [ite_self, List.append_assoc, List.cons_append, List.nil_append]
  have hL : firsts (fun i => t.mem (cell (cell (t.reg .rdi) o) i)) (n + 1) = rd t.mem (cell (t.reg .rdi) o) (n64 q) := by
    rw [firsts, X86.rd, hn']
  have hR : firsts (fun i => t.mem (cell (t.sym .q) i)) (n + 1) = rawq q := by
    rw [← hd.mod, firsts, X86.rd, hn']
  rw [e, e1, hL, hR, condSub, Bool.false_or, cmpGe]
  by_cases hc : (mpn_cmp (rd t.mem (cell (t.reg .rdi) o) (n64 q)) (rawq q) == .lt) = true
  · rw [if_pos hc]
    refine ⟨t1, rfl, ?_, fun a _ => by rw [a1.mem], a1.regs, a1.sym⟩
    rw [a1.mem, if_neg (by simp only [bne, hc]; decide)]
  · rw [if_neg hc, run_code, run_label]
    have er : t1.reg .rdi = t.reg .rdi := a1.regs _ (by simp [notRax])
    have L := loop_run (F := subF) (fst := fun i => decide (i = 0)) (n64 q) 0 (by omega) (fun i _ _ => subQ_iter t1 o i)
      (fun i hi => by simp; omega)
      (Alias.ok hn (.inl rfl) 0 (n64 q) (by omega)) (Alias.ok hn (.inr (by rw [a1.sym, er]; exact hs)) 0 (n64 q) (by omega)) t1 (fun _ _ => rfl) rfl (by omega)
    rw [← List.range_eq_range', ← hB] at L
    simp only [decide_true, if_true] at L
    refine ⟨_, rfl, ?_, fun a ha => ?_, fun r hr => (L.regs r hr).trans (a1.regs r hr), L.sym.trans a1.sym⟩
    · have := L.out
      rw [(pass_subF _ _ _ (by rw [lims_length, lims_length])).1, ← rd_eq_lims, ← rd_eq_lims, ← rd_eq_lims, er, a1.sym, a1.mem, hd.mod] at this
      rw [this, if_pos (by simp only [bne, hc]; decide), mpn_sub_n]; rfl
    · rw [L.frame a (fun i _ h e => ha ⟨i, by omega, by rw [← er]; exact e⟩), a1.mem]

end store

end FF.X86
