import Verif.Props.AsmProgram
import Verif.Props.Conc

/-!
# C89: programs of calls on several x86-64 threads

Any number of threads, each with a program of calls of the tagged library (C79), on elements in one memory, of which a thread writes only elements that no
other one uses.  The programs are listings too: three instructions that load the argument registers and a call of the entry point.  The schedule
picks at every instruction, of the programs and of the library, the thread that executes it.
-/

namespace FF.Props

open FF.Conc
open FF.X86 (State Access Reg Line Only InArr InStk InData Linked lib libRaw libCmp libShift noCalls codes pushVal upd elemAt touched)

/-! ## The programs as listings -/

/-- The names of the entry points, `src/fr.hpp.ejs`. -/
def Op.entry : Op → String
  | .copy => "Fr_copy" | .toNormal => "Fr_toNormal" | .toLongNormal => "Fr_toLongNormal" | .toMontgomery => "Fr_toMontgomery"
  | .add => "Fr_add" | .sub => "Fr_sub" | .mul => "Fr_mul" | .square => "Fr_square" | .neg => "Fr_neg"
  | .eq => "Fr_eq" | .neq => "Fr_neq" | .lt => "Fr_lt" | .gt => "Fr_gt" | .leq => "Fr_leq" | .geq => "Fr_geq"
  | .land => "Fr_land" | .lor => "Fr_lor" | .lnot => "Fr_lnot"
  | .band => "Fr_band" | .bor => "Fr_bor" | .bxor => "Fr_bxor" | .bnot => "Fr_bnot"
  | .shl => "Fr_shl" | .shr => "Fr_shr"

/-- The labels of the entry points in the printed file: `copy.asm.ejs:12`, `montgomery.asm.ejs`, `add.asm.ejs:110`, `sub.asm.ejs:117`, `mul.asm.ejs`,
`neg.asm.ejs`, `cmpops.asm.ejs`, `logicalops.asm.ejs`, `binops.asm.ejs`. -/
def opTable : List (String × Op) :=
  [("Fr_copy", .copy), ("Fr_toNormal", .toNormal), ("Fr_toLongNormal", .toLongNormal), ("Fr_toMontgomery", .toMontgomery), ("Fr_add", .add), ("Fr_sub",
    .sub), ("Fr_mul", .mul), ("Fr_square", .square), ("Fr_neg", .neg), ("Fr_eq", .eq), ("Fr_neq", .neq), ("Fr_lt", .lt), ("Fr_gt", .gt), ("Fr_leq", .leq),
    ("Fr_geq", .geq), ("Fr_land", .land), ("Fr_lor", .lor), ("Fr_lnot", .lnot), ("Fr_band", .band), ("Fr_bor", .bor), ("Fr_bxor", .bxor), ("Fr_bnot",
    .bnot), ("Fr_shl", .shl), ("Fr_shr", .shr)]

/-- The routine with this label. -/
def opNamed (f : String) : Option Op := (opTable.find? fun x => x.1 == f).map (·.2)

theorem opNamed_label {f : String} {o : Op} (h : opNamed f = some o) : o.entry = f := by
  have ht : ∀ x ∈ opTable, x.2.entry = x.1 := by decide
  unfold opNamed at h
  cases hx : opTable.find? fun x => x.1 == f with
  | none => rw [hx] at h; cases h
  | some x =>
    rw [hx] at h
    cases h
    rw [ht x (List.mem_of_find?_eq_some hx)]
    simpa using List.find?_some hx

theorem opNamed_entry (o : Op) : opNamed o.entry = some o := by cases o <;> decide

/-- The link table: the entry points, and the routines that they call. -/
def linkAll (q : Nat) (f : String) : Option (List Line) :=
  match codes q f with
  | some b => some b
  | none => (opNamed f).map (·.codeX86 q)

/-- The program of a thread (the code of the user, not in the repository): for each call the addresses of result and operands, and the call; at the end it returns. -/
def callerCode (loc : Nat → BitVec 64) : List Instr → List Line
  | [] => [.ret]
  | i :: is => X86.op .mov X86.rdi (.imm (loc i.r)) :: X86.op .mov X86.rsi (.imm (loc i.a)) :: X86.op .mov X86.rdx (.imm (loc i.b)) :: .call i.op.entry ::
      callerCode loc is

/-! ## What they do, and what they access -/

/-- The accesses of the callees of a routine. -/
def Op.accX86 (q : Nat) (ra : BitVec 64) : Op → String → State → List Access
  | .copy => X86.noAcc
  | .toNormal | .toLongNormal | .toMontgomery | .mul | .square | .neg => X86.accRaw q ra
  | .eq | .neq | .lt | .gt | .leq | .geq => X86.accCmp q ra
  | .shl | .shr => X86.accShift q ra
  | _ => X86.accLib q ra

def callerEnv (q : Nat) (ra : BitVec 64) (f : String) : Option (State → Option State) :=
  (opNamed f).map fun o => X86.run (o.envX86 q ra) ra (o.codeX86 q)

def callerAcc (q : Nat) (ra : BitVec 64) (f : String) (s : State) : List Access :=
  match opNamed f with
  | some o => touched (o.envX86 q ra) (o.accX86 q ra) ra (o.codeX86 q) s
  | none => []

/-- The state in which a call enters the routine. -/
def loader (loc : Nat → BitVec 64) (ra : BitVec 64) : List Instr → State → State
  | [], s => s
  | i :: _, s => pushVal ra { s with reg := upd (upd (upd s.reg .rdi (loc i.r)) .rsi (loc i.a)) .rdx (loc i.b) }

section
variable {q k : Nat} {ra : BitVec 64} {loc : Nat → BitVec 64}

theorem loader_enters (i : Instr) (is : List Instr) (s : State) (hl : Layout q k loc s) : Enters q k loc i s (loader loc ra (i :: is) s) := by
  have hs : InStk (s.reg .rsp) (tagStack q + 1) (s.reg .rsp - 8) := ⟨0, Nat.succ_pos _, rfl⟩
  refine ⟨rfl, rfl, fun _ => rfl, rfl, rfl, fun p hp a ha => ?_, fun a ha => ?_⟩
  · exact X86.upd_ne _ _ (fun e => hl.elemStack p hp a ha (by rw [e]; exact hs))
  · exact X86.upd_ne _ _ (fun e => hl.tablesStack a ha (by rw [e]; exact hs))

theorem caller_run (prog : List Instr) (s : State) : X86.run (callerEnv q ra) ra (callerCode loc prog) s =
    (callAll q ra (loader loc ra) prog s).map fun t => { t with reg := upd t.reg .rsp (t.reg .rsp + 8) } := by
  induction prog generalizing s with
  | nil => rw [callerCode, X86.run]; rfl
  | cons i is ih =>
    rw [callerCode, X86.run_plain rfl, X86.run_plain rfl, X86.run_plain rfl, X86.run, callerEnv, opNamed_entry, callAll]
    simp only [Option.map_some]
    show (match X86.run _ _ _ (loader loc ra (i :: is) s) with | none => none | some s' => X86.run _ _ _ s') = _
    cases X86.run (i.op.envX86 q ra) ra (i.op.codeX86 q) (loader loc ra (i :: is) s) with
    | none => rfl
    | some s' => exact ih s'

theorem touched_call (env : String → Option (State → Option State)) (T : String → State → List Access) {f : String} {g : State → Option State} {s t : State}
    (hf : env f = some g) (ht : g (pushVal ra s) = some t) (p : List Line) :
    touched env T ra (.call f :: p) s = .write (s.reg .rsp - 8) :: (T f (pushVal ra s) ++ touched env T ra p t) := by
  rw [touched, hf]
  simp only [ht]
  simp [Line.acc]

theorem Op.linked (o : Op) : Linked (codes q) ra (o.envX86 q ra) (o.accX86 q ra) := by
  cases o <;> first | exact X86.linked_noCalls | exact X86.linked_libRaw | exact X86.linked_lib | exact X86.linked_libCmp | exact X86.linked_libShift

theorem Op.wf (o : Op) : ∀ i ∈ o.codeX86 q, i.wf := by
  cases o
  case copy => exact X86.wf_copy (n64 q)
  case add => exact X86.wf_add
  case sub => exact X86.wf_sub
  case land => exact X86.wf_land
  case lor => exact X86.wf_lor
  case lnot => exact X86.wf_lnot
  case band => exact X86.wf_band
  case bor => exact X86.wf_bor
  case bxor => exact X86.wf_bxor
  case bnot => exact X86.wf_bnot
  case shl => exact X86.wf_shl
  case shr => exact X86.wf_shr
  case toNormal => exact (X86.Routine.toNormal q 0).wf
  case toLongNormal => exact (X86.Routine.toLongNormal q 0).wf
  case toMontgomery => exact (X86.Routine.toMontgomery q 0).wf
  case mul => exact (X86.Routine.mul q 0).wf
  case square => exact (X86.Routine.square q 0).wf
  case neg => exact (X86.Routine.neg q 0).wf
  case eq => exact (X86.Routine.cmp q 0 "req").wf
  case lt => exact (X86.Routine.cmp q 0 "rlt").wf
  case gt => exact (X86.Routine.cmp q 0 "rgt").wf
  case neq => exact (X86.Routine.cmpNot q 0 "req").wf
  case leq => exact (X86.Routine.cmpNot q 0 "rgt").wf
  case geq => exact (X86.Routine.cmpNot q 0 "rlt").wf

theorem linkAll_wf : ∀ f b, linkAll q f = some b → ∀ i ∈ b, i.wf := by
  intro f b h
  unfold linkAll at h
  split at h
  · rename_i c hc
    cases h
    exact X86.codes_wf f b hc
  · cases ho : opNamed f with
    | none => rw [ho] at h; cases h
    | some o => rw [ho] at h; cases h; exact o.wf

theorem caller_wf (prog : List Instr) : ∀ i ∈ callerCode loc prog, i.wf := by
  induction prog with
  | nil => intro i hi; simp only [callerCode, List.mem_singleton] at hi; subst hi; trivial
  | cons i is ih =>
    simp only [callerCode, List.forall_mem_cons]
    exact ⟨trivial, trivial, trivial, trivial, ih⟩

end

/-- More listings in the link table do not matter. -/
theorem Alone.link {cs cs' : String → Option (List Line)} {ra : BitVec 64} (h : ∀ f b, cs f = some b → cs' f = some b) {c c' : (X86.lineMachine cs ra).Core}
    {m m' : Conc.Mem} {n : Nat} {l : List Access} (ha : Alone (X86.lineMachine cs ra) c m n l c' m') : Alone (X86.lineMachine cs' ra) c m n l c' m' := by
  induction ha with
  | nil => exact .nil _ _
  | cons h1 _ ih =>
    refine Alone.cons (M := X86.lineMachine cs' ra) ?_ ih
    have e : ∀ c m c1 m1, X86.cstep cs ra c m = some (c1, m1) → X86.cstep cs' ra c m = some (c1, m1) := by
      intro c m c1 m1 h1
      unfold X86.cstep at h1 ⊢
      rcases hc : c.stack with _ | ⟨_ | ⟨i, p⟩, k⟩
      · rw [hc] at h1; exact h1
      · rw [hc] at h1; exact h1
      · rw [hc] at h1
        cases i with
        | call f =>
          simp only [Option.map_eq_some_iff] at h1 ⊢
          obtain ⟨b, hb, h2⟩ := h1
          exact ⟨b, h _ _ hb, h2⟩
        | _ => exact h1
    exact e _ _ _ _ h1

theorem linked_caller {q : Nat} {ra : BitVec 64} : Linked (linkAll q) ra (callerEnv q ra) (callerAcc q ra) := by
  have hm : ∀ f b, codes q f = some b → linkAll q f = some b := fun f b h => by unfold linkAll; rw [h]
  have hn : ∀ o : Op, codes q o.entry = none := fun o => by cases o <;> rfl
  intro f g hg
  unfold callerEnv at hg
  cases ho : opNamed f with
  | none => rw [ho] at hg; cases hg
  | some o =>
    rw [ho] at hg
    cases hg
    have hf : o.entry = f := opNamed_label ho
    refine ⟨o.codeX86 q, ?_, fun s t ht k => ?_⟩
    · unfold linkAll
      rw [← hf, hn, opNamed_entry]
      rfl
    · obtain ⟨n, h⟩ := X86.run_alone (o.linked (q := q) (ra := ra)) (o.codeX86 q) ht k
      refine ⟨n, ?_⟩
      have e : callerAcc q ra f s = touched (o.envX86 q ra) (o.accX86 q ra) ra (o.codeX86 q) s := by
        unfold callerAcc
        rw [ho]
      rw [e]
      exact Alone.link hm h

/-! ## Footprints -/

section
variable {q k : Nat} {ra : BitVec 64} {loc : Nat → BitVec 64}

/-- The operands of a routine. -/
def Op.opRegs (o : Op) : List Reg := if o.binary then [.rsi, .rdx] else [.rsi]

/-- C85 for the entry points, with the stack of C61. -/
theorem Op.confined (o : Op) {s : State} (hr : TagReady q s) (hb : o = .shl ∨ o = .shr → bitLen q < 2 ^ 31) :
    Confined q (tagStack q) o.opRegs true (touched (o.envX86 q ra) (o.accX86 q ra) ra (o.codeX86 q)) (X86.run (o.envX86 q ra) ra (o.codeX86 q)) s := by
  have hF : 8 * tagStack q < 2 ^ 64 := by have := hr.fits; omega
  have ho : ResultOffStack q (tagStack q) s := fun a ha hf => by
    obtain ⟨j, h1, h2⟩ := hf
    exact hr.stackDst a ha ⟨j, h1, h2⟩
  have hs := frame_small (n64_pos q) (canOpt q)
  have h0 : X86.rawFrame q ≤ n64 q + 5 := hs
  have h1 : ∀ w e, w ≤ 7 → e ≤ 3 → w + e * (n64 q + 1) + (1 + X86.rawFrame q) ≤ tagStack q := by
    intro w e hw he
    have : e * (n64 q + 1) ≤ 3 * (n64 q + 1) := Nat.mul_le_mul_right _ he
    unfold tagStack
    omega
  have h2 : 2 + X86.rawFrame q ≤ tagStack q := by unfold tagStack; omega
  have h8 : bitLen q < 2 ^ 31 → 8 * n64 q ≤ 2 ^ 57 := fun h => by unfold n64; omega
  cases o
  case copy => exact confined_of_safe (sg := X86.sigCopy) rfl rfl (X86.safe_copy.mono (Nat.zero_le _)) hF s fun _ => ho
  case toNormal => exact confined_of_safe (sg := X86.sigCopy) rfl rfl (X86.safe_toNormal.mono (by omega)) hF s fun _ => ho
  case toLongNormal => exact confined_of_safe (sg := X86.sigCopy) rfl rfl (X86.safe_toLongNormal.mono (by omega)) hF s fun _ => ho
  case toMontgomery => exact confined_of_safe (sg := X86.sigCopy) rfl rfl (X86.safe_toMontgomery.mono (by omega)) hF s fun _ => ho
  case add => exact confined_of_safe (sg := X86.sigE2) rfl rfl (X86.safe_add.mono (h1 _ _ (by decide) (by decide))) hF s fun _ => ho
  case sub => exact confined_of_safe (sg := X86.sigE2) rfl rfl (X86.safe_sub.mono (h1 _ _ (by decide) (by decide))) hF s fun _ => ho
  case mul => exact confined_of_safe (sg := X86.sigE2) rfl rfl ((X86.safe_rawOnly (p := X86.mulCode) (by decide +kernel)).mono h2) hF s fun _ => ho
  case square => exact confined_of_safe (sg := X86.sigCopy) rfl rfl ((X86.safe_rawOnly (p := X86.squareCode) (by decide +kernel)).mono h2) hF s fun _ => ho
  case neg => exact confined_of_safe (sg := X86.sigCopy) rfl rfl ((X86.safe_rawOnly (p := X86.negCode) (by decide +kernel)).mono h2) hF s fun _ => ho
  case eq => exact confined_of_safe (sg := X86.sigE2) rfl rfl ((X86.safe_cmp (p := X86.cmpStore "req") (by decide +kernel)).mono (h1 _ _ (by decide) (by decide))) hF s fun _ => ho
  case lt => exact confined_of_safe (sg := X86.sigE2) rfl rfl ((X86.safe_cmp (p := X86.cmpStore "rlt") (by decide +kernel)).mono (h1 _ _ (by decide) (by decide))) hF s fun _ => ho
  case gt => exact confined_of_safe (sg := X86.sigE2) rfl rfl ((X86.safe_cmp (p := X86.cmpStore "rgt") (by decide +kernel)).mono (h1 _ _ (by decide) (by decide))) hF s fun _ => ho
  case neq => exact confined_of_safe (sg := X86.sigE2) rfl rfl ((X86.safe_cmp (p := X86.cmpStoreNot "req") (by decide +kernel)).mono (h1 _ _ (by decide) (by decide))) hF s fun _ => ho
  case leq => exact confined_of_safe (sg := X86.sigE2) rfl rfl ((X86.safe_cmp (p := X86.cmpStoreNot "rgt") (by decide +kernel)).mono (h1 _ _ (by decide) (by decide))) hF s fun _ => ho
  case geq => exact confined_of_safe (sg := X86.sigE2) rfl rfl ((X86.safe_cmp (p := X86.cmpStoreNot "rlt") (by decide +kernel)).mono (h1 _ _ (by decide) (by decide))) hF s fun _ => ho
  case land => exact confined_of_safe (sg := X86.sigE2) rfl rfl (X86.safe_land.mono (Nat.zero_le _)) hF s fun _ => ho
  case lor => exact confined_of_safe (sg := X86.sigE2) rfl rfl (X86.safe_lor.mono (Nat.zero_le _)) hF s fun _ => ho
  case lnot => exact confined_of_safe (sg := X86.sigCopy) rfl rfl (X86.safe_lnot.mono (Nat.zero_le _)) hF s fun _ => ho
  case band => exact confined_of_safe (sg := X86.sigE2) rfl rfl (X86.safe_band.mono (h1 _ _ (by decide) (by decide))) hF s fun _ => ho
  case bor => exact confined_of_safe (sg := X86.sigE2) rfl rfl (X86.safe_bor.mono (h1 _ _ (by decide) (by decide))) hF s fun _ => ho
  case bxor => exact confined_of_safe (sg := X86.sigE2) rfl rfl (X86.safe_bxor.mono (h1 _ _ (by decide) (by decide))) hF s fun _ => ho
  case bnot => exact confined_of_safe (sg := X86.sigCopy) rfl rfl (X86.safe_bnot.mono (h1 _ _ (by decide) (by decide))) hF s fun _ => ho
  case shl => exact confined_of_safe (sg := X86.sigE2) rfl rfl ((X86.safe_shl (h8 (hb (.inl rfl)))).mono (h1 _ _ (by decide) (by decide))) hF s fun _ => ho
  case shr => exact confined_of_safe (sg := X86.sigE2) rfl rfl ((X86.safe_shr (h8 (hb (.inr rfl)))).mono (h1 _ _ (by decide) (by decide))) hF s fun _ => ho

/-- The element `p` is a result of the program. -/
def Sets (prog : List Instr) (p : Nat) : Prop := ∃ i ∈ prog, i.r = p

/-- The element `p` is a result or an operand of the program. -/
def Names (prog : List Instr) (p : Nat) : Prop := ∃ i ∈ prog, i.r = p ∨ i.a = p ∨ (i.op.binary = true ∧ i.b = p)

/-- The cells a program may read, for the stack pointer `S` and the labels `y`. -/
def ProgReads (q : Nat) (loc : Nat → BitVec 64) (prog : List Instr) (S : BitVec 64) (y : X86.Sym → BitVec 64) (a : BitVec 64) : Prop :=
  (∃ p, Names prog p ∧ InArr (loc p) (n64 q + 1) a) ∨ InData q y a ∨ InStk S (tagStack q + 1) a ∨ a = S

/-- The cells it may write. -/
def ProgWrites (q : Nat) (loc : Nat → BitVec 64) (prog : List Instr) (S : BitVec 64) (a : BitVec 64) : Prop :=
  (∃ p, Sets prog p ∧ InArr (loc p) (n64 q + 1) a) ∨ InStk S (tagStack q + 1) a

theorem ClearAll.shift {i : Instr} {is : List Instr} {prep : List Instr → State → State} {s : State} (h : ClearAll q ra prep (i :: is) s)
    (ho : i.op = .shl ∨ i.op = .shr) : bitLen q < 2 ^ 31 := by
  obtain ⟨op, r, a, b⟩ := i
  rcases ho with ho | ho <;> (simp only at ho; subst ho; exact h.2.1.elim (fun h => h.2) (fun h => h.2))

theorem caller_touches (hq : Modulus q) (prog : List Instr) (hi : ∀ i ∈ prog, i.inRange k) (s : State) (hc : ClearAll q ra (loader loc ra) prog s)
    (hl : Layout q k loc s) (σ : Nat → ZMod q) (h : ∀ p < k, Rep q (elemAt (n64 q) s.mem (loc p)) (σ p)) :
    Only (ProgReads q loc prog (s.reg .rsp) s.sym) (ProgWrites q loc prog (s.reg .rsp)) (touched (callerEnv q ra) (callerAcc q ra) ra (callerCode loc prog) s) := by
  induction prog generalizing s σ with
  | nil =>
    rw [callerCode, X86.touched_ret]
    intro x hx
    rw [List.mem_singleton] at hx
    subst hx
    exact .inr (.inr (.inr rfl))
  | cons i is ih =>
    have hi1 := hi i (by simp)
    have he := loader_enters (ra := ra) i is s hl
    obtain ⟨s2, e, h1, h2, h3⟩ := call_denotes (x := σ i.a) (y := σ i.b) ra hq hl hi1 hc.1 hc.2.1 he (h _ hi1.2.1) fun hb => h _ (hi1.2.2 hb)
    obtain ⟨g1, g2, g3, g4, g5⟩ := he.returns hl hi1.1 h2
    have hrec := ih (fun j hj => hi j (by simp [hj])) s2 (hc.2.2 s2 h1) g1 (fun p => if p = i.r then i.op.den (σ i.a) (σ i.b) else σ p) (by
        intro p hp
        by_cases c : p = i.r
        · subst c; rw [g4]; simpa using h3
        · simp only [c, if_false]; rw [g5 p hp c]; exact h p hp)
    rw [g2, g3] at hrec
    have hcf := i.op.confined (ra := ra) (he.ready hl hi1.1) hc.shift
    have hS : ∀ a, FrameCell (tagStack q) (loader loc ra (i :: is) s) a → InStk (s.reg .rsp) (tagStack q + 1) a := by
      rintro a ⟨j, hj, rfl⟩
      refine ⟨j + 1, by omega, ?_⟩
      rw [he.rsp]
      show _ - BitVec.ofNat 64 8 - _ = X86.stk _ _
      rw [X86.stk, BitVec.sub_sub, ← BitVec.ofNat_add]
      congr 2
      omega
    have nR : ∀ {p}, i.r = p ∨ i.a = p ∨ (i.op.binary = true ∧ i.b = p) → Names (i :: is) p := fun h => ⟨i, by simp, h⟩
    have hstk : InStk (s.reg .rsp) (tagStack q + 1) (s.reg .rsp - 8) := ⟨0, Nat.succ_pos _, rfl⟩
    have hcall : Only (ProgReads q loc (i :: is) (s.reg .rsp) s.sym) (ProgWrites q loc (i :: is) (s.reg .rsp))
        (touched (i.op.envX86 q ra) (i.op.accX86 q ra) ra (i.op.codeX86 q) (loader loc ra (i :: is) s)) := by
      intro x hx
      cases x with
      | read a =>
        rcases hcf.reads a hx with ⟨b, hb, h⟩ | h | h | h | h
        · left
          unfold Op.opRegs at hb
          have hb' : b = .rsi ∨ (i.op.binary = true ∧ b = .rdx) := by
            split at hb
            · rename_i hbin
              simp only [List.mem_cons, List.not_mem_nil, or_false] at hb
              exact hb.imp_right fun e => ⟨hbin, e⟩
            · exact .inl (by simpa using hb)
          rcases hb' with rfl | ⟨hbin, rfl⟩
          · exact ⟨i.a, nR (.inr (.inl rfl)), by rw [← he.rsi]; exact h⟩
          · exact ⟨i.b, nR (.inr (.inr ⟨hbin, rfl⟩)), by rw [← he.rdx hbin]; exact h⟩
        · exact .inl ⟨i.r, nR (.inl rfl), by rw [← he.rdi]; exact h.2⟩
        · exact .inr (.inl (by rw [← he.sym]; exact h))
        · exact .inr (.inr (.inl (hS a h)))
        · exact .inr (.inr (.inl (by rw [h, he.rsp]; exact hstk)))
      | write a =>
        rcases hcf.writes a hx with h | h
        · exact .inl ⟨i.r, ⟨i, by simp, rfl⟩, by rw [← he.rdi]; exact h.2⟩
        · exact .inr (hS a h)
    have hEnv : callerEnv q ra i.op.entry = some (X86.run (i.op.envX86 q ra) ra (i.op.codeX86 q)) := by rw [callerEnv, opNamed_entry]; rfl
    have hT : ∀ t, callerAcc q ra i.op.entry t = touched (i.op.envX86 q ra) (i.op.accX86 q ra) ra (i.op.codeX86 q) t := fun t => by
      unfold callerAcc
      rw [opNamed_entry]
    have hcode : touched (callerEnv q ra) (callerAcc q ra) ra (callerCode loc (i :: is)) s = .write (s.reg .rsp - 8) ::
        (touched (i.op.envX86 q ra) (i.op.accX86 q ra) ra (i.op.codeX86 q) (loader loc ra (i :: is) s) ++
          touched (callerEnv q ra) (callerAcc q ra) ra (callerCode loc is) s2) := by
      rw [callerCode, X86.touched_plain rfl, X86.touched_plain rfl, X86.touched_plain rfl]
      have := touched_call (ra := ra) (callerEnv q ra) (callerAcc q ra)
        (s := { s with reg := upd (upd (upd s.reg .rdi (loc i.r)) .rsi (loc i.a)) .rdx (loc i.b) }) hEnv (t := s2) h1 (callerCode loc is)
      rw [hT] at this
      exact this
    rw [hcode]
    intro x hx
    rw [List.mem_cons, List.mem_append] at hx
    rcases hx with rfl | hx | hx
    · exact .inr hstk
    · exact hcall x hx
    · have hm : ∀ p, Names is p → Names (i :: is) p := fun p ⟨j, hj, h⟩ => ⟨j, by simp [hj], h⟩
      have hm' : ∀ p, Sets is p → Sets (i :: is) p := fun p ⟨j, hj, h⟩ => ⟨j, by simp [hj], h⟩
      have := hrec x hx
      cases x with
      | read a => exact Or.imp_left (fun ⟨p, h, h'⟩ => ⟨p, hm p h, h'⟩) this
      | write a => exact Or.imp_left (fun ⟨p, h, h'⟩ => ⟨p, hm' p h, h'⟩) this

end

/-! ## Threads -/

/-- What the threads need: a memory with the elements and the tables, a stack each, and no element that one thread sets and another one names. -/
structure Threads {ι : Type} (q k : Nat) (loc : Nat → BitVec 64) (prog : ι → List Instr) (s : ι → State) (m0 : Conc.Mem) (y : X86.Sym → BitVec 64) : Prop where
  mem : ∀ i, (s i).mem = m0
  sym : ∀ i, (s i).sym = y
  layout : ∀ i, Layout q k loc (s i)
  range : ∀ i, ∀ x ∈ prog i, x.inRange k
  /-- The return address of a thread is not in an element. -/
  ret : ∀ i, ∀ p < k, ¬ InArr (loc p) (n64 q + 1) ((s i).reg .rsp)
  /-- The stacks are apart, with the return address. -/
  stackOff : ∀ i j, i ≠ j → ∀ a, InStk ((s i).reg .rsp) (tagStack q + 1) a → ¬ InStk ((s j).reg .rsp) (tagStack q + 1) a ∧ a ≠ (s j).reg .rsp
  elems : ∀ i j, i ≠ j → ∀ p, Sets (prog i) p → ¬ Names (prog j) p

section
variable {ι : Type} [DecidableEq ι] [Fintype ι] {q k : Nat} {ra : BitVec 64} {loc : Nat → BitVec 64} {prog : ι → List Instr} {s : ι → State} {m0 : Conc.Mem}
  {y : X86.Sym → BitVec 64}

theorem Sets.lt {prog : List Instr} (h : ∀ x ∈ prog, x.inRange k) {p : Nat} (hp : Sets prog p) : p < k := by
  obtain ⟨i, hi, rfl⟩ := hp
  exact (h i hi).1

theorem Names.lt {prog : List Instr} (h : ∀ x ∈ prog, x.inRange k) {p : Nat} (hp : Names prog p) : p < k := by
  obtain ⟨i, hi, rfl | rfl | ⟨hb, rfl⟩⟩ := hp
  · exact (h i hi).1
  · exact (h i hi).2.1
  · exact (h i hi).2.2 hb

theorem Sets.names {prog : List Instr} {p : Nat} (h : Sets prog p) : Names prog p := by
  obtain ⟨i, hi, h⟩ := h
  exact ⟨i, hi, .inl h⟩

omit [DecidableEq ι] [Fintype ι] in
/-- What one thread writes, another one does not use. -/
theorem Threads.own (h : Threads q k loc prog s m0 y) {i j : ι} (hij : i ≠ j) {a : BitVec 64} (hw : ProgWrites q loc (prog i) ((s i).reg .rsp) a) :
    ¬ ProgReads q loc (prog j) ((s j).reg .rsp) (s j).sym a ∧ ¬ ProgWrites q loc (prog j) ((s j).reg .rsp) a := by
  have sep : ∀ {p p'}, Sets (prog i) p → Names (prog j) p' → InArr (loc p) (n64 q + 1) a → ¬ InArr (loc p') (n64 q + 1) a := by
    rintro p p' hp hp' ⟨x, hx, rfl⟩ ⟨z, hz, e⟩
    by_cases c : p = p'
    · subst c; exact h.elems i j hij p hp hp'
    · exact (h.layout i).apart p (hp.lt (h.range i)) p' (hp'.lt (h.range j)) c x z hx hz e
  rcases hw with ⟨p, hp, ha⟩ | hw
  · refine ⟨?_, ?_⟩
    · rintro (⟨p', hp', ha'⟩ | hd | hs | e)
      · exact sep hp hp' ha ha'
      · exact (h.layout j).elemTables p (hp.lt (h.range i)) a ha hd
      · exact (h.layout j).elemStack p (hp.lt (h.range i)) a ha hs
      · exact h.ret j p (hp.lt (h.range i)) (e ▸ ha)
    · rintro (⟨p', hp', ha'⟩ | hs)
      · exact sep hp hp'.names ha ha'
      · exact (h.layout j).elemStack p (hp.lt (h.range i)) a ha hs
  · refine ⟨?_, ?_⟩
    · rintro (⟨p', hp', ha'⟩ | hd | hs | e)
      · exact (h.layout i).elemStack p' (hp'.lt (h.range j)) a ha' hw
      · exact (h.layout i).tablesStack a (by rw [h.sym i, ← h.sym j]; exact hd) hw
      · exact (h.stackOff i j hij a hw).1 hs
      · exact (h.stackOff i j hij a hw).2 e
    · rintro (⟨p', hp', ha'⟩ | hs)
      · exact (h.layout i).elemStack p' (hp'.names.lt (h.range j)) a ha' hw
      · exact (h.stackOff i j hij a hw).1 hs

/-- What the thread accesses alone. -/
abbrev threadAcc (q : Nat) (ra : BitVec 64) (loc : Nat → BitVec 64) (prog : ι → List Instr) (s : ι → State) (i : ι) : List Access :=
  touched (callerEnv q ra) (callerAcc q ra) ra (callerCode loc (prog i)) (s i)

/-- Each thread alone. -/
structure AloneResult (q k : Nat) (ra : BitVec 64) (loc : Nat → BitVec 64) (prog : ι → List Instr) (s : ι → State) (m0 : Conc.Mem) (σ : Nat → ZMod q) (n : ι → Nat)
    (t : ι → State) : Prop where
  ok : ∀ i, (X86.lineMachine (linkAll q) ra).ok (X86.core [callerCode loc (prog i)] (s i))
  run : ∀ i, X86.run (callerEnv q ra) ra (callerCode loc (prog i)) (s i) = some (t i)
  alone : ∀ i, Alone (X86.lineMachine (linkAll q) ra) (X86.core [callerCode loc (prog i)] (s i)) m0 (n i) (threadAcc q ra loc prog s i) (X86.core [] (t i)) (t i).mem
  only : ∀ i, Only (ProgReads q loc (prog i) ((s i).reg .rsp) (s i).sym) (ProgWrites q loc (prog i) ((s i).reg .rsp)) (threadAcc q ra loc prog s i)
  apart : ∀ i j, i ≠ j → Apart (threadAcc q ra loc prog s i) (threadAcc q ra loc prog s j)
  rep : ∀ i, ∀ p < k, Rep q (elemAt (n64 q) (t i).mem (loc p)) (runSpec (prog i) σ p)

omit [DecidableEq ι] [Fintype ι] in
theorem Threads.alone (hq : Modulus q) (h : Threads q k loc prog s m0 y) (hc : ∀ i, ClearAll q ra (loader loc ra) (prog i) (s i)) {σ : Nat → ZMod q}
    (hσ : ∀ p < k, Rep q (elemAt (n64 q) m0 (loc p)) (σ p)) : ∃ n t, AloneResult q k ra loc prog s m0 σ n t := by
  have hv := fun i => C79_inplace_partial ra hq (prog i) (h.range i) (loader loc ra) loader_enters (s i) (hc i) (h.layout i) σ
    (by rw [h.mem i]; exact hσ)
  choose t h1 _ _ h4 using hv
  have ht : ∀ i, X86.run (callerEnv q ra) ra (callerCode loc (prog i)) (s i) = some { t i with reg := upd (t i).reg .rsp ((t i).reg .rsp + 8) } := fun i => by
    rw [caller_run, h1 i]
    rfl
  have hw := fun i => caller_touches hq (prog i) (h.range i) (s i) (hc i) (h.layout i) σ (by rw [h.mem i]; exact hσ)
  have hA := fun i => X86.run_alone (linked_caller (q := q) (ra := ra)) _ (ht i) []
  choose n hn using hA
  refine ⟨n, _, fun i => ⟨fun p hp => ?_, fun f b hb => linkAll_wf f b hb⟩, ht, fun i => ?_, hw, ?_, h4⟩
  · have e : p = callerCode loc (prog i) := by simpa [X86.core] using hp
    rw [e]
    exact caller_wf _
  · have := hn i
    rw [h.mem i] at this
    exact this
  · have half : ∀ i j, i ≠ j → ∀ a, Access.write a ∈ threadAcc q ra loc prog s i → ¬ Touches (threadAcc q ra loc prog s j) a := fun i j hij a ha ht =>
      ht.elim (fun ht => (h.own hij (hw i _ ha)).1 (hw j _ ht)) (fun ht => (h.own hij (hw i _ ha)).2 (hw j _ ht))
    exact fun i j hij a => ⟨half i j hij a, half j i hij.symm a⟩

omit [DecidableEq ι] [Fintype ι] in
/-- An element that a program sets is not written by the others. -/
theorem Threads.quiet (h : Threads q k loc prog s m0 y) {σ : Nat → ZMod q} {n : ι → Nat} {t : ι → State} (hA : AloneResult q k ra loc prog s m0 σ n t) {i : ι} {p : Nat}
    (hp : Sets (prog i) p) {a : BitVec 64} (ha : InArr (loc p) (n64 q + 1) a) (j : ι) (hj : j ≠ i) : Access.write a ∉ threadAcc q ra loc prog s j := fun hw =>
  (h.own hj (hA.only j _ hw)).1 (.inl ⟨p, hp.names, ha⟩)

omit [DecidableEq ι] [Fintype ι] in
/-- An element that no program sets is not written. -/
theorem Threads.kept (h : Threads q k loc prog s m0 y) {σ : Nat → ZMod q} {n : ι → Nat} {t : ι → State} (hA : AloneResult q k ra loc prog s m0 σ n t) {p : Nat}
    (hp : p < k) (hs : ∀ i, ¬ Sets (prog i) p) {a : BitVec 64} (ha : InArr (loc p) (n64 q + 1) a) (i : ι) : Access.write a ∉ threadAcc q ra loc prog s i := by
  intro hw
  rcases hA.only i _ hw with ⟨p', hp', ha'⟩ | hst
  · obtain ⟨x, hx, rfl⟩ := ha
    obtain ⟨z, hz, e⟩ := ha'
    by_cases c : p = p'
    · subst c; exact hs i hp'
    · exact (h.layout i).apart p hp p' (hp'.lt (h.range i)) c x z hx hz e
  · exact (h.layout i).elemStack p hp a ha hst

/-- C89: every schedule of the instructions of any number of such threads comes to an end after the same number of instructions, without a data race, and leaves in
every element what the program that sets it computes on residues; an element that no program sets keeps its value all the time.  Missing: the calls that
are wrong alone (`ClearAll`, as in C79). -/
theorem C89_programs_partial (hq : Modulus q) (h : Threads q k loc prog s m0 y) (hc : ∀ i, ClearAll q ra (loader loc ra) (prog i) (s i)) {σ : Nat → ZMod q}
    (hσ : ∀ p < k, Rep q (elemAt (n64 q) m0 (loc p)) (σ p)) :
    ∃ (L : Nat) (t : ι → State), (∀ i, X86.run (callerEnv q ra) ra (callerCode loc (prog i)) (s i) = some (t i)) ∧
      ∀ N cs m, Together (X86.lineMachine (linkAll q) ra) (fun i => X86.core [callerCode loc (prog i)] (s i)) m0 N cs m →
        AsAlone (X86.lineMachine (linkAll q) ra) (threadAcc q ra loc prog s) (fun i => X86.core [] (t i)) (fun i => (t i).mem) m0 L N cs m ∧
        (∀ i, cs i = X86.core [] (t i) → ∀ p, Sets (prog i) p → Rep q (elemAt (n64 q) m (loc p)) (runSpec (prog i) σ p)) ∧
        (∀ p < k, (∀ i, ¬ Sets (prog i) p) → Rep q (elemAt (n64 q) m (loc p)) (σ p)) := by
  obtain ⟨n, t, hA⟩ := h.alone (ra := ra) hq hc hσ
  refine ⟨∑ i, n i, t, hA.run, fun N cs m hT => ?_⟩
  have hL := together_alone (k0 := n) hA.ok hA.alone (fun i m => ⟨rfl, rfl⟩) hA.apart hT
  refine ⟨hL, fun i hi p hp => ?_, fun p hp hs => ?_⟩
  · rw [X86.elemAt_congr fun a ha => hL.result i hi a (h.quiet hA hp ha)]
    exact hA.rep i p (hp.lt (h.range i))
  · rw [X86.elemAt_congr fun a ha => hL.rest a (h.kept hA hp hs ha)]
    exact hσ p hp

/-- C89 for moduli for which every routine is right (all but some of six and seven limbs) and results that are not placed on operands where that matters. -/
theorem C89_programs_placed_partial (hq : Modulus q) (h : Threads q k loc prog s m0 y) (hp : ∀ i, ∀ x ∈ prog i, x.placedX86) (h6 : n64 q ≠ 6) (h7 : n64 q ≠ 7)
    (hb : bitLen q < 2 ^ 31) {σ : Nat → ZMod q} (hσ : ∀ p < k, Rep q (elemAt (n64 q) m0 (loc p)) (σ p)) :
    ∃ L, ∀ N cs m, Together (X86.lineMachine (linkAll q) ra) (fun i => X86.core [callerCode loc (prog i)] (s i)) m0 N cs m →
      N ≤ L ∧ (N < L → ∃ i c m', (X86.lineMachine (linkAll q) ra).step (cs i) m = some (c, m')) ∧
      (N = L → ∀ p < k, (∀ i, Sets (prog i) p → Rep q (elemAt (n64 q) m (loc p)) (runSpec (prog i) σ p)) ∧
        ((∀ i, ¬ Sets (prog i) p) → Rep q (elemAt (n64 q) m (loc p)) (σ p))) := by
  obtain ⟨L, t, _, hL⟩ := C89_programs_partial (ra := ra) hq h (fun i => clearAll_of_placed (fun x hx => ⟨hp i x hx, right_of_width h6 h7 hb _⟩) _) hσ
  refine ⟨L, fun N cs m hT => ?_⟩
  obtain ⟨h1, h2, h3⟩ := hL N cs m hT
  refine ⟨h1.steps, fun hN => ?_, fun hN p hp => ⟨fun i hs => h2 i (h1.done.mp hN i) p hs, h3 p hp⟩⟩
  by_contra hcon
  have : N = L := h1.done.mpr fun i => (h1.goes i).resolve_right fun ⟨c, m', e⟩ => hcon ⟨i, c, m', e⟩
  omega

end

/-! ## The hypotheses are met -/

/-- `e0 := e2 * e2; e0 := e0 < e2` on one thread, `e1 := e2 + e2; e1 := e1 << e2` on another one. -/
def demoThreads (i : Fin 2) : List Instr := if i = 0 then [⟨.mul, 0, 2, 2⟩, ⟨.lt, 0, 0, 2⟩] else [⟨.add, 1, 2, 2⟩, ⟨.shl, 1, 1, 2⟩]

/-- The stacks of the threads are at 4096 and 8192. -/
def demoStart (i : Fin 2) : State :=
  let s := tagMach bnR (sS (-5)) (sL (bnR - 3)) (sM 77) 0 0 0
  { s with reg := upd s.reg .rsp (BitVec.ofNat 64 (4096 * (i.val + 1))) }

theorem demo_threads : Threads bnR 3 machLoc demoThreads demoStart (demoStart 0).mem (demoStart 0).sym := by
  have hn : n64 bnR = 4 := n64_bnR
  have hL : Layout bnR 3 machLoc (tagMach bnR (sS (-5)) (sL (bnR - 3)) (sM 77) 0 0 0) := tagMach_layout (by rw [n64_bnR]; decide) (by decide)
  have hme : ∀ i, (demoStart i).mem = (tagMach bnR (sS (-5)) (sL (bnR - 3)) (sM 77) 0 0 0).mem := fun _ => rfl
  have hsy : ∀ i, (demoStart i).sym = (tagMach bnR (sS (-5)) (sL (bnR - 3)) (sM 77) 0 0 0).sym := fun _ => rfl
  have hrsp : ∀ i, (demoStart i).reg .rsp = BitVec.ofNat 64 (4096 * (i.val + 1)) := fun i => by simp [demoStart, upd]
  have hst : ∀ i : Fin 2, ∀ a, InStk ((demoStart i).reg .rsp) (tagStack bnR + 1) a → 4096 * (i.val + 1) - 1000 < a.toNat ∧ a.toNat < 4096 * (i.val + 1) := by
    rintro i a ⟨j, h1, rfl⟩
    rw [tagStack, hn] at h1
    rw [hrsp, X86.stk, BitVec.toNat_sub, BitVec.toNat_ofNat, BitVec.toNat_ofNat]
    have := i.isLt
    omega
  have harr : ∀ p < 3, ∀ a, InArr (machLoc p) (n64 bnR + 1) a → 128 * (5 + p) ≤ a.toNat ∧ a.toNat < 128 * (5 + p) + 128 :=
    fun p hp a ha => mach_arr (i := 5 + p) rfl (by omega) (by omega) ha
  have hr : ∀ i, ∀ x ∈ demoThreads i, x.inRange 3 := by
    intro i x hx
    fin_cases i <;> simp only [demoThreads] at hx <;> simp at hx <;> rcases hx with rfl | rfl <;> simp [Instr.inRange, Op.binary]
  refine ⟨fun _ => rfl, fun _ => rfl, fun i => ⟨hL.fits, hL.apart, hL.elemTables, fun p hp a ha hs => ?_, fun a hd hs => ?_, hL.mod, hL.half, hL.r2, hL.r3,
    ?_, ?_⟩, hr, fun i p hp ha => ?_, fun i j hij a ha => ?_, fun i j hij p hp hq => ?_⟩
  · have := harr p hp a ha; have := hst i a hs; omega
  · rw [hsy] at hd
    have := mach_data (q := bnR) (by rw [hn]; decide) hd; have := hst i a hs; omega
  · rw [hme, hsy]; exact hL.mask
  · rw [hme, hsy]; exact hL.np
  · have := harr p hp _ ha
    rw [hrsp, BitVec.toNat_ofNat] at this
    have := i.isLt
    omega
  · have h1 := hst i a ha
    have h3 : i.val ≠ j.val := fun e => hij (Fin.ext e)
    refine ⟨fun hb => ?_, fun e => ?_⟩
    · have := hst j a hb; omega
    · rw [e, hrsp, BitVec.toNat_ofNat] at h1
      have := i.isLt; have := j.isLt
      omega
  · revert hij hp hq
    fin_cases i <;> fin_cases j <;> simp [demoThreads, Sets, Names] <;> omega

/-- Whatever the schedule, `e0` is the comparison of `77 * 77` with `77` at the end and `e1` is `154 << 77`. -/
example : ∃ L, ∀ N cs m, Together (X86.lineMachine (linkAll bnR) 99) (fun i => X86.core [callerCode machLoc (demoThreads i)] (demoStart i)) (demoStart 0).mem N cs m →
    N ≤ L ∧ (N = L → Rep bnR (elemAt (n64 bnR) m (machLoc 0)) (Op.den .lt (77 * 77) 77) ∧ Rep bnR (elemAt (n64 bnR) m (machLoc 1)) (Op.den .shl (77 + 77) 77)) := by
  obtain ⟨L, h⟩ := C89_programs_placed_partial (ra := 99) bnR_modulus demo_threads
    (by
      intro i x hx
      fin_cases i <;> simp only [demoThreads] at hx <;> simp at hx <;> rcases hx with rfl | rfl <;> simp [Instr.placedX86])
    (by rw [n64_bnR]; decide) (by rw [n64_bnR]; decide) (by decide +kernel)
    (σ := fun p => ((match p with | 0 => bnR - 5 | 1 => bnR - 3 | _ => 77 : Nat) : ZMod bnR)) (by
      intro p hp
      interval_cases p <;> exact Rep_iff.mpr (by decide +kernel))
  refine ⟨L, fun N cs m hT => ?_⟩
  obtain ⟨h1, _, h2⟩ := h N cs m hT
  refine ⟨h1, fun e => ?_⟩
  have h3 := (h2 e 0 (by decide)).1 0 ⟨⟨.mul, 0, 2, 2⟩, by simp [demoThreads], rfl⟩
  have h4 := (h2 e 1 (by decide)).1 1 ⟨⟨.add, 1, 2, 2⟩, by simp [demoThreads], rfl⟩
  simp [runSpec, demoThreads, Op.den] at h3 h4
  exact ⟨h3, h4⟩

end FF.Props
