import Verif.AsmTouchMont

/-!
# The destinations of `mulx` are registers

In the raw listings there is no `mulx`; in the Montgomery routines the register manager prints a register for a destination (or fails).
-/

namespace FF.X86

/-- A variable or a register. -/
def Arg.isVar : Arg → Prop
  | .idx _ => True
  | .hw (.reg _) => True
  | _ => False

/-- The destinations of `mulx` are variables or registers. -/
def Ins.dstVar : Ins Arg → Prop
  | .mulx hi lo _ => hi.isVar ∧ lo.isVar
  | _ => True

section
variable {N : Nat}

theorem loadWr_wf (wr : Wr) (i : Nat) (lv : Bool) : ∀ c ∈ (loadWr N wr i lv).1, (Line.ins c).wf := by
  unfold loadWr
  split
  · split
    · simp
    · simp only [List.forall_mem_append]
      constructor <;> · split <;> simp [Line.wf]
  · dsimp only; split <;> simp [Line.wf]

theorem param_wf (dl : Option Arg) (wr : Wr) (a : Arg) (acc : Acc) : ∀ c ∈ (param N dl wr a acc).1, (Line.ins c).wf := by
  unfold param
  split
  · simp
  · split
    · simp
    · split
      · exact loadWr_wf _ _ _
      · simp

theorem param_reg {dl : Option Arg} (wr : Wr) {a : Arg} (acc : Acc) (h : a.isVar) (hd : ∀ n, a = .idx n → N ≤ n → dl = some a) :
    ∃ r, (param N dl wr a acc).2.1 = .reg r := by
  unfold param
  cases a with
  | hw o => cases o with
    | reg r => exact ⟨r, rfl⟩
    | _ => exact h.elim
  | idx n =>
    dsimp only
    split
    · exact ⟨_, rfl⟩
    · rename_i hn
      rw [if_pos (hd n rfl (Nat.not_lt.1 hn))]
      exact ⟨_, rfl⟩

/-- An argument that has to be a register and is none is the one that is loaded. -/
theorem scan_dst {a : Arg} (h : a.isVar) {p p' : Option Arg × Option Arg} (hs : scanArg N a ⟨false, true, true⟩ p = some p') :
    (∀ n, a = .idx n → N ≤ n → p'.2 = some a) ∧ ∀ b, p.2 = some b → p'.2 = some b := by
  unfold scanArg at hs
  cases a with
  | hw o => cases o with
    | reg r =>
      cases hs
      refine ⟨fun n hn => ?_, fun b hb => hb⟩
      cases hn
    | _ => exact h.elim
  | idx n =>
    dsimp only at hs
    split at hs
    · simp only [Bool.or_true, if_true] at hs
      split at hs
      · cases hs
      · rename_i hn hp
        cases hs
        refine ⟨fun _ _ _ => rfl, fun b hb => ?_⟩
        rw [hb] at hp
        exact absurd rfl hp
    · rename_i hn
      cases hs
      exact ⟨fun m hm h' => by cases hm; exact absurd h' hn, fun b hb => hb⟩

theorem scan_src {a : Arg} {p p' : Option Arg × Option Arg} {b : Arg} (hb : p.2 = some b) {acc : Acc} (hs : scanArg N a acc p = some p') : p'.2 = some b := by
  obtain ⟨p1, p2⟩ := p
  dsimp only at hb
  subst hb
  unfold scanArg at hs
  dsimp only [Option.isSome_some] at hs
  split at hs
  · cases hs; rfl
  · split at hs
    · rw [if_pos rfl] at hs; cases hs
    · cases hs; rfl
  · split at hs
    · split at hs
      · rw [if_pos rfl] at hs; cases hs
      · cases hs; rfl
    · cases hs; rfl

theorem emit_wf {wr wr' : Wr} {i : Ins Arg} (hi : i.dstVar) {c : List (Ins Opd)} (he : emit N wr i = some (c, wr')) : ∀ x ∈ c, (Line.ins x).wf := by
  cases i with
  | op2 o d b =>
    unfold emit at he
    dsimp only at he
    split at he
    · cases he
    · split at he
      · cases he
      · cases he
        simp only [List.forall_mem_append]
        exact ⟨⟨param_wf _ _ _ _, param_wf _ _ _ _⟩, by simp [Line.wf]⟩
  | mulx hi' lo src =>
    unfold emit at he
    dsimp only at he
    split at he
    · cases he
    · rename_i p3 dl hd
      cases he
      simp only [Option.bind_eq_some_iff] at hd
      obtain ⟨p2, ⟨p1, h1, h2⟩, h3⟩ := hd
      obtain ⟨a1, -⟩ := scan_dst hi.1 h1
      obtain ⟨b1, b2⟩ := scan_dst hi.2 h2
      obtain ⟨r1, e1⟩ := param_reg (N := N) (dl := dl) wr ⟨false, true, true⟩ hi.1 fun n hn hN => scan_src (b2 _ (a1 n hn hN)) h3
      obtain ⟨r2, e2⟩ := param_reg (N := N) (dl := dl) (param N dl wr hi' ⟨false, true, true⟩).2.2 ⟨false, true, true⟩ hi.2
        fun n hn hN => scan_src (b1 n hn hN) h3
      simp only [List.forall_mem_append, List.forall_mem_singleton]
      refine ⟨⟨⟨param_wf _ _ _ _, param_wf _ _ _ _⟩, param_wf _ _ _ _⟩, ?_⟩
      rw [e1, e2]
      trivial

theorem emitAll_wf (l : List (Ins Arg)) : ∀ {wr wr' : Wr} {c : List (Ins Opd)}, (∀ i ∈ l, i.dstVar) → emitAll N wr l = some (c, wr') →
    ∀ x ∈ c, (Line.ins x).wf := by
  induction l with
  | nil => intro wr wr' c _ he; cases he; simp
  | cons i l ih =>
    intro wr wr' c hi he
    unfold emitAll at he
    split at he
    · cases he
    · rename_i he1
      split at he
      · cases he
      · rename_i he2
        cases he
        exact List.forall_mem_append.2 ⟨emit_wf (hi i List.mem_cons_self) he1, ih (fun j hj => hi j (List.mem_cons_of_mem _ hj)) he2⟩

theorem flushWr_wf (wr : Wr) (rm : Bool) : ∀ x ∈ (flushWr N wr rm).1, (Line.ins x).wf := by
  unfold flushWr
  split
  · simp
  · dsimp only; split <;> simp [Line.wf]

theorem emitCmps_wf : ∀ (n : Nat) {wr wr' : Wr} {c : List Line}, emitCmps N wr n = some (c, wr') → ∀ x ∈ c, x.wf
  | 0, wr, wr', c, he => by cases he; simp
  | n + 1, wr, wr', c, he => by
    unfold emitCmps at he
    split at he
    · cases he
    · rename_i he1
      split at he
      · cases he
      · rename_i he2
        cases he
        simp only [List.forall_mem_append, all_code]
        exact ⟨⟨emit_wf (i := .op2 _ _ _) trivial he1, by simp [Line.wf]⟩, emitCmps_wf n he2⟩

theorem emitTest_wf {wr wr' : Wr} {n : Nat} {opt : Bool} {c : List Line} (he : emitTest N wr n opt = some (c, wr')) : ∀ x ∈ c, x.wf := by
  unfold emitTest at he
  split at he
  · cases he; simp
  · split at he
    · cases he
    · rename_i he1
      cases he
      simp only [List.forall_mem_append, all_code]
      exact ⟨emit_wf (i := .op2 _ _ _) trivial he1, by simp [Line.wf]⟩

theorem template_wf {n : Nat} {opt : Bool} {upper : Nat → List (Ins Arg)} {p : List Line} (ht : template n opt upper = some p)
    (hu : ∀ i, ∀ x ∈ upper i, x.dstVar) : ∀ x ∈ p, x.wf := by
  unfold template at ht
  simp only [Option.bind_eq_some_iff, Prod.exists] at ht
  obtain ⟨c1, w1, e1, ct, w2, e2, cc, w3, e3, cs, w4, e4, co, w5, e5, ht⟩ := ht
  rw [Option.some.injEq] at ht
  subst ht
  have h1 := emitAll_wf _ (by
    simp only [rounds, second, prologue, List.forall_mem_append, all_flatMap, all_range']
    refine ⟨by simp [Ins.dstVar], fun i _ => ⟨hu i, ⟨⟨⟨by simp [Ins.dstVar, Arg.isVar], fun a _ _ => by simp [Ins.dstVar, Arg.isVar]⟩, by simp [Ins.dstVar]⟩, ?_⟩⟩⟩
    split <;> simp [Ins.dstVar]) e1
  have h4 := emitAll_wf _ (by simp [subs, Ins.dstVar]) e4
  have h5 := emitAll_wf _ (by simp [stores, Ins.dstVar]) e5
  simp only [List.forall_mem_append, all_code]
  refine ⟨⟨⟨⟨⟨⟨⟨⟨⟨⟨⟨⟨⟨⟨⟨?_, ?_⟩, h1⟩, flushWr_wf _ _⟩, emitTest_wf e2⟩, emitCmps_wf _ e3⟩, ?_⟩, flushWr_wf _ _⟩, h4⟩, flushWr_wf _ _⟩, ?_⟩, flushWr_wf _ _⟩, h5⟩, ?_⟩, ?_⟩, ?_⟩
  · simp [Line.wf]
  · split <;> simp [Line.wf]
  · simp [Line.wf]
  · simp [Line.wf]
  · split <;> simp [Line.wf]
  · simp [Line.wf]
  · simp [Line.wf]

theorem clearTop_dst {n : Nat} {opt : Bool} : ∀ i ∈ clearTop n opt, i.dstVar := by
  cases opt <;> simp [clearTop, Ins.dstVar, Arg.isVar]

theorem first_dst {n : Nat} {opt : Bool} {x0 : Arg} {x : Nat → Arg} : ∀ i ∈ firstProduct n opt x0 x, i.dstVar := by
  simp only [firstProduct, List.forall_mem_append, all_flatMap]
  refine ⟨⟨⟨by simp [Ins.dstVar, Arg.isVar], fun a _ => by simp [Ins.dstVar, Arg.isVar]⟩, by simp [Ins.dstVar]⟩, ?_⟩
  cases opt <;> simp [Ins.dstVar]

theorem next_dst {n : Nat} {opt : Bool} {x : Nat → Arg} : ∀ i ∈ nextProduct n opt x, i.dstVar := by
  simp only [nextProduct, List.forall_mem_append, all_flatMap]
  refine ⟨⟨clearTop_dst, fun a _ => by simp [Ins.dstVar, Arg.isVar]⟩, ?_⟩
  cases opt <;> simp [Ins.dstVar]

theorem upperMul_dst (n : Nat) (opt : Bool) (i : Nat) : ∀ x ∈ upperMul n opt i, x.dstVar := by
  unfold upperMul
  refine List.forall_mem_append.2 ⟨by simp [Ins.dstVar], ?_⟩
  split
  · exact first_dst
  · exact next_dst
theorem upperSquare_dst (n : Nat) (opt : Bool) (i : Nat) : ∀ x ∈ upperSquare n opt i, x.dstVar := by
  unfold upperSquare
  refine List.forall_mem_append.2 ⟨by simp [Ins.dstVar], ?_⟩
  split
  · exact first_dst
  · exact next_dst
theorem upperMul1_dst (n : Nat) (opt : Bool) (i : Nat) : ∀ x ∈ upperMul1 n opt i, x.dstVar := by
  unfold upperMul1
  split
  · exact List.forall_mem_append.2 ⟨by simp [Ins.dstVar], first_dst⟩
  · exact clearTop_dst
theorem upperFrom_dst (n : Nat) (opt : Bool) (i : Nat) : ∀ x ∈ upperFrom n opt i, x.dstVar := by
  unfold upperFrom
  split
  · simp only [List.forall_mem_append, all_flatMap]
    refine ⟨⟨fun a _ => by simp [Ins.dstVar], by simp [Ins.dstVar]⟩, ?_⟩
    cases opt <;> simp [Ins.dstVar]
  · exact clearTop_dst

end

/-! ## The raw listings -/

set_option linter.unusedSimpArgs false in
local macro "wfs" : tactic => `(tactic| (
  simp only [X86.rawCopy, X86.copy, X86.rawZero, X86.rawSwap, X86.rawCopyS2L, rawAddLL, X86.rawAddLS, rawSubLL, X86.rawSubLS, X86.rawSubSL, X86.rawNegLS,
    rawNegL, X86.rawIsEq, X86.rawIsZero, loopLL, cmpQ, cmpQ', cmpStep, loopQ, List.forall_mem_append, all_code, all_flatMap, all_range']
  simp +contextual [Line.wf, i2]))

section
variable (n : Nat)
theorem wf_rawCopy : ∀ i ∈ X86.rawCopy n, i.wf := by wfs
theorem wf_copy : ∀ i ∈ X86.copy n, i.wf := by wfs
theorem wf_rawZero : ∀ i ∈ X86.rawZero n, i.wf := by wfs
theorem wf_rawSwap : ∀ i ∈ X86.rawSwap n, i.wf := by wfs
theorem wf_rawCopyS2L : ∀ i ∈ X86.rawCopyS2L n, i.wf := by wfs
theorem wf_rawAddLL : ∀ i ∈ X86.rawAddLL n, i.wf := by wfs
theorem wf_rawAddLS : ∀ i ∈ X86.rawAddLS n, i.wf := by wfs
theorem wf_rawSubLL : ∀ i ∈ X86.rawSubLL n, i.wf := by wfs
theorem wf_rawSubLS : ∀ i ∈ X86.rawSubLS n, i.wf := by wfs
theorem wf_rawSubSL : ∀ i ∈ X86.rawSubSL n, i.wf := by wfs
theorem wf_rawNegLS : ∀ i ∈ X86.rawNegLS n, i.wf := by wfs
theorem wf_rawNegL : ∀ i ∈ X86.rawNegL n, i.wf := by wfs
theorem wf_rawIsEq : ∀ i ∈ X86.rawIsEq n, i.wf := by wfs
theorem wf_rawIsZero : ∀ i ∈ X86.rawIsZero n, i.wf := by wfs
end

end FF.X86
