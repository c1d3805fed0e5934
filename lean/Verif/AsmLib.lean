import Verif.AsmTagged
import Verif.Props.AsmMont

/-!
# Calling the raw routines

What a caller of a raw routine sees, in one form for all of them.  `stk S k` is the stack cell `k` pushes below `S`.
-/

namespace FF.X86

/-! ## The library -/

/-- The raw routines by name; the `ra` is the return address their callers push. -/
def libRaw (q : Nat) (ra : BitVec 64) : String → Option (State → Option State) := fun f =>
  if f = "rawCopyS2L" then some (run noCalls ra (rawCopyS2L (n64 q)))
  else if f = "copy" then some (run noCalls ra (copy (n64 q)))
  else if f = "rawAddLL" then some (run noCalls ra (rawAddLL (n64 q)))
  else if f = "rawAddLS" then some (run noCalls ra (rawAddLS (n64 q)))
  else if f = "rawSubLL" then some (run noCalls ra (rawSubLL (n64 q)))
  else if f = "rawSubLS" then some (run noCalls ra (rawSubLS (n64 q)))
  else if f = "rawSubSL" then some (run noCalls ra (rawSubSL (n64 q)))
  else if f = "rawNegL" then some (run noCalls ra (rawNegL (n64 q)))
  else if f = "rawNegLS" then some (run noCalls ra (rawNegLS (n64 q)))
  else if f = "rawMMul" then (template (n64 q) (canOpt q) (upperMul (n64 q) (canOpt q))).map (run noCalls ra)
  else if f = "rawMMul1" then (template (n64 q) (canOpt q) (upperMul1 (n64 q) (canOpt q))).map (run noCalls ra)
  else if f = "rawMSquare" then (template (n64 q) (canOpt q) (upperSquare (n64 q) (canOpt q))).map (run noCalls ra)
  else if f = "rawFromMontgomery" then (template (n64 q) (canOpt q) (upperFrom (n64 q) (canOpt q))).map (run noCalls ra)
  else none

/-- The conversions added. -/
def lib (q : Nat) (ra : BitVec 64) : String → Option (State → Option State) := fun f =>
  if f = "toMontgomery" then some (run (libRaw q ra) ra toMontgomery)
  else if f = "toNormal" then some (run (libRaw q ra) ra toNormal)
  else if f = "toLongNormal" then some (run (libRaw q ra) ra toLongNormal)
  else libRaw q ra f

/-! ## Addresses -/

/-- The stack cell `k` pushes below `S`. -/
def stk (S : BitVec 64) (k : Nat) : BitVec 64 := S - BitVec.ofNat 64 (8 * k)
/-- One of the first `F` cells below `S`. -/
def InStk (S : BitVec 64) (F : Nat) (a : BitVec 64) : Prop := ∃ j < F, a = stk S (j + 1)
/-- A cell of the array of `m` cells at `p`. -/
def InArr (p : BitVec 64) (m : Nat) (a : BitVec 64) : Prop := ∃ i < m, a = cell p i
/-- A cell of one of the tables `q half R2 R3 lboMask np`, `src/fr.asm.ejs:70-81`. -/
def InData (q : Nat) (y : Sym → BitVec 64) (a : BitVec 64) : Prop :=
  InArr (y .q) (n64 q) a ∨ InArr (y .half) (n64 q) a ∨ InArr (y .r2) (n64 q) a ∨ InArr (y .r3) (n64 q) a ∨
    a = y .lboMask ∨ a = y .np

theorem stk_zero (S : BitVec 64) : stk S 0 = S := by simp [stk]
theorem stk_stk (S : BitVec 64) (i j : Nat) : stk (stk S i) j = stk S (i + j) := by
  unfold stk; rw [sub_sub_ofNat, ← Nat.mul_add]
theorem stk_one (S : BitVec 64) : S - 8 = stk S 1 := rfl
theorem stk_push (S : BitVec 64) (k : Nat) : stk S k - 8 = stk S (k + 1) := by rw [stk_one, stk_stk]
theorem stk_pop (S : BitVec 64) (k : Nat) : stk S (k + 1) + 8 = stk S k := by
  rw [← stk_push]; exact BitVec.sub_add_cancel _ _
theorem stk_sub (S : BitVec 64) (k m : Nat) : stk S k - BitVec.ofNat 64 (8 * m) = stk S (k + m) := stk_stk S k m

theorem cell_stk (S : BitVec 64) {k i : Nat} (h : i ≤ k) : cell (stk S k) i = stk S (k - i) := by
  have : cell (stk S k) i = cell (stk S (k - i) - BitVec.ofNat 64 (8 * i)) i := by
    rw [stk_sub, Nat.sub_add_cancel h]
  rw [this]
  exact BitVec.sub_add_cancel _ _

theorem stk_inj {S : BitVec 64} {i j : Nat} (hi : 8 * i < 2 ^ 64) (hj : 8 * j < 2 ^ 64) (h : stk S i = stk S j) :
    i = j := by
  have h1 : BitVec.ofNat 64 (8 * i) = BitVec.ofNat 64 (8 * j) := by
    unfold stk at h
    have := congrArg (fun x => S - x) h
    simpa using this
  have := congrArg BitVec.toNat h1
  rw [BitVec.toNat_ofNat, BitVec.toNat_ofNat, Nat.mod_eq_of_lt hi, Nat.mod_eq_of_lt hj] at this
  omega

theorem stackFree_iff {F : Nat} {s : State} {a : BitVec 64} : StackFree F s a ↔ ¬ InStk (s.reg .rsp) F a := by
  unfold StackFree InStk stk
  push Not
  rfl

theorem InStk.mono {S : BitVec 64} {F F' : Nat} {a : BitVec 64} (h : InStk S F a) (hF : F ≤ F') : InStk S F' a :=
  let ⟨j, h1, h2⟩ := h; ⟨j, by omega, h2⟩

theorem InStk.deep {S : BitVec 64} {k F F' : Nat} {a : BitVec 64} (h : InStk (stk S k) F a) (hF : k + F ≤ F') : InStk S F' a :=
  let ⟨j, h1, h2⟩ := h; ⟨k + j, by omega, by rw [h2, stk_stk]; rfl⟩

theorem InArr.mono {p : BitVec 64} {m m' : Nat} {a : BitVec 64} (h : InArr p m a) (hm : m ≤ m') : InArr p m' a :=
  let ⟨j, h1, h2⟩ := h; ⟨j, by omega, h2⟩

theorem InArr.shift {p : BitVec 64} {k m m' : Nat} {a : BitVec 64} (h : InArr (cell p k) m a) (hm : k + m ≤ m') : InArr p m' a :=
  let ⟨j, h1, h2⟩ := h; ⟨k + j, by omega, by rw [h2, cell_add]⟩

/-! ## Ready to call -/

/-- The tables hold the constants of the modulus, `src/fr.asm.ejs:70-81`. -/
structure Data (q : Nat) (s : State) : Prop where
  mod : rd s.mem (s.sym .q) (n64 q) = rawq q
  half : rd s.mem (s.sym .half) (n64 q) = half q
  r2 : rd s.mem (s.sym .r2) (n64 q) = rawR2 q
  r3 : rd s.mem (s.sym .r3) (n64 q) = rawR3 q
  mask : s.mem (s.sym .lboMask) = lboMask q
  np : s.mem (s.sym .np) = np q

/-- The tables are right and do not lie in the `F` stack cells below the stack pointer. -/
structure Ok (q F : Nat) (s : State) : Prop where
  fits : 8 * (F + n64 q + 8) ≤ 2 ^ 64
  data : Data q s
  off : ∀ a, InData q s.sym a → ¬ InStk (s.reg .rsp) F a

/-- The array may be overwritten: it meets neither the stack cells in use nor the tables. -/
structure Dst (q F : Nat) (s : State) (p : BitVec 64) (m : Nat) : Prop where
  off : ∀ a, InArr p m a → ¬ InStk (s.reg .rsp) F a
  data : ∀ a, InArr p m a → ¬ InData q s.sym a

/-- The array does not lie in the stack cells in use. -/
def Off (F : Nat) (s : State) (p : BitVec 64) (m : Nat) : Prop := ∀ a, InArr p m a → ¬ InStk (s.reg .rsp) F a

/-- The effect of a call as seen by the caller: `F` stack cells and the array of `m` cells at `p` may change. -/
structure Called (F : Nat) (p : BitVec 64) (m : Nat) (t t' : State) : Prop where
  frame : ∀ a, ¬ InStk (t.reg .rsp) F a → ¬ InArr p m a → t'.mem a = t.mem a
  saved : ∀ r ∈ Props.calleeSaved, t'.reg r = t.reg r
  rdi : t'.reg .rdi = t.reg .rdi
  rsp : t'.reg .rsp = t.reg .rsp
  sym : t'.sym = t.sym

theorem Called.mono {F F' : Nat} {p : BitVec 64} {m m' : Nat} {t t' : State} (h : Called F p m t t') (hF : F ≤ F')
    (hm : m ≤ m') : Called F' p m' t t' :=
  ⟨fun a h1 h2 => h.frame a (fun h => h1 (h.mono hF)) (fun h => h2 (h.mono hm)), h.saved, h.rdi, h.rsp, h.sym⟩

theorem rd_off {m m' : BitVec 64 → BitVec 64} {p : BitVec 64} {n : Nat} (h : ∀ a, InArr p n a → m' a = m a) :
    rd m' p n = rd m p n := rd_congr fun i hi => h _ ⟨i, hi, rfl⟩

theorem Data.congr {q : Nat} {s s' : State} (h : Data q s) (hs : s'.sym = s.sym)
    (hm : ∀ a, InData q s.sym a → s'.mem a = s.mem a) : Data q s' := by
  refine ⟨?_, ?_, ?_, ?_, ?_, ?_⟩ <;> rw [hs]
  · rw [rd_off (fun a ha => hm a (.inl ha)), h.mod]
  · rw [rd_off (fun a ha => hm a (.inr (.inl ha))), h.half]
  · rw [rd_off (fun a ha => hm a (.inr (.inr (.inl ha)))), h.r2]
  · rw [rd_off (fun a ha => hm a (.inr (.inr (.inr (.inl ha))))), h.r3]
  · rw [hm _ (.inr (.inr (.inr (.inr (.inl rfl))))), h.mask]
  · rw [hm _ (.inr (.inr (.inr (.inr (.inr rfl))))), h.np]

theorem Ok.mono {q F F' : Nat} {s : State} (h : Ok q F s) (hF : F' ≤ F) : Ok q F' s :=
  ⟨by have := h.fits; omega, h.data, fun a ha hs => h.off a ha (hs.mono hF)⟩
theorem Dst.mono {q F F' : Nat} {s : State} {p : BitVec 64} {m m' : Nat} (h : Dst q F s p m) (hF : F' ≤ F) (hm : m' ≤ m) :
    Dst q F' s p m' :=
  ⟨fun a ha hs => h.off a (ha.mono hm) (hs.mono hF), fun a ha => h.data a (ha.mono hm)⟩
theorem Off.mono {F F' : Nat} {s : State} {p : BitVec 64} {m m' : Nat} (h : Off F s p m) (hF : F' ≤ F) (hm : m' ≤ m) :
    Off F' s p m' := fun a ha hs => h a (ha.mono hm) (hs.mono hF)

/-! ## The label table is never changed -/

theorem set_sym (d : Opd) (v : BitVec 64) (s : State) : (d.set v s).sym = s.sym := by cases d <;> rfl

theorem exec_sym (l : Line) (s : State) : (l.exec s).sym = s.sym := by
  cases l with
  | ins i =>
    cases i with
    | op2 o d b =>
      show (if o.writes = true then d.set _ _ else _ : State).sym = _
      split
      · rw [set_sym]
      · rfl
    | mulx hi lo src =>
      show (hi.set _ (lo.set _ s)).sym = _
      rw [set_sym, set_sym]
  | misc m =>
    cases m with
    | op32 o d b =>
      show (if o.writes = true then _ else _ : State).sym = _
      split <;> rfl
    | _ => rfl
  | _ => rfl

theorem run_sym {env : String → Option (State → Option State)} {ra : BitVec 64}
    (he : ∀ f g s s', env f = some g → g s = some s' → s'.sym = s.sym) (k : Nat) :
    ∀ (p : List Line) (s s' : State), p.length < k → run env ra p s = some s' → s'.sym = s.sym := by
  induction k with
  | zero => intro p s s' h; omega
  | succ k ih =>
    intro p s s' h hr
    cases p with
    | nil => rw [run] at hr; exact absurd hr (by simp)
    | cons i p =>
      simp only [List.length_cons] at h
      have hp : p.length < k := by omega
      cases i with
      | label l => rw [run] at hr; exact ih p s s' hp hr
      | ret => rw [run] at hr; obtain rfl := Option.some.inj hr; rfl
      | jump c l =>
        rw [run] at hr
        have := dropTo_length l p
        split at hr
        · exact ih _ s s' (by omega) hr
        · exact ih p s s' hp hr
      | call f =>
        rw [run] at hr
        cases hf : env f with
        | none => rw [hf] at hr; exact absurd hr (by simp)
        | some g =>
          rw [hf] at hr
          simp only at hr
          cases hg : g (pushVal ra s) with
          | none => rw [hg] at hr; exact absurd hr (by simp)
          | some s1 =>
            rw [hg] at hr
            simp only at hr
            rw [ih p s1 s' hp hr, he f g _ _ hf hg]
            rfl
      | _ =>
        rw [run] at hr
        · rw [ih p _ s' hp hr, exec_sym]
        all_goals simp

theorem run_sym_noCalls {ra : BitVec 64} {p : List Line} {s s' : State} (h : run noCalls ra p s = some s') : s'.sym = s.sym :=
  run_sym (fun f g _ _ hf _ => absurd hf (by simp [noCalls])) (p.length + 1) p s s' (Nat.lt_succ_self _) h

/-! ## From the callee's view to the caller's -/

theorem run_call {env : String → Option (State → Option State)} {ra : BitVec 64} {f : String}
    {g : State → Option State} {t t' : State} (he : env f = some g) (hg : g (pushVal ra t) = some t') (p : List Line) :
    run env ra (.call f :: p) t = run env ra p t' := by
  rw [run, he]; simp only; rw [hg]

theorem push_rsp (v : BitVec 64) (t : State) : (pushVal v t).reg .rsp = stk (t.reg .rsp) 1 := by
  simp [pushVal, upd_apply, stk]
theorem push_reg (v : BitVec 64) (t : State) {r : Reg} (h : r ≠ .rsp) : (pushVal v t).reg r = t.reg r := by
  simp [pushVal, upd_apply, h]
theorem push_mem (v : BitVec 64) (t : State) {a : BitVec 64} (h : a ≠ stk (t.reg .rsp) 1) : (pushVal v t).mem a = t.mem a := by
  show upd t.mem (t.reg .rsp - 8) v a = _
  exact upd_ne _ _ h
theorem push_sym (v : BitVec 64) (t : State) : (pushVal v t).sym = t.sym := rfl

theorem off_one {F : Nat} {S a : BitVec 64} (h : ¬ InStk S F a) (hF : 0 < F) : a ≠ stk S 1 :=
  fun e => h ⟨0, hF, e⟩

theorem push_rd (v : BitVec 64) (t : State) {F : Nat} {p : BitVec 64} {m : Nat} (h : Off F t p m) (hF : 0 < F) :
    rd (pushVal v t).mem p m = rd t.mem p m :=
  rd_off fun a ha => push_mem v t (off_one (h a ha) hF)

theorem Ok.push {q F : Nat} {t : State} (h : Ok q (F + 1) t) (v : BitVec 64) : Ok q F (pushVal v t) := by
  refine ⟨by have := h.fits; omega, h.data.congr rfl (fun a ha => push_mem v t (off_one (h.off a ha) (Nat.succ_pos _))),
    fun a ha hs => h.off a ha ?_⟩
  rw [push_rsp] at hs
  exact hs.deep (by omega)

theorem Dst.push {q F : Nat} {t : State} {p : BitVec 64} {m : Nat} (h : Dst q (F + 1) t p m) (v : BitVec 64) :
    Dst q F (pushVal v t) p m := by
  refine ⟨fun a ha hs => h.off a ha ?_, h.data⟩
  rw [push_rsp] at hs
  exact hs.deep (by omega)

theorem Off.push {F : Nat} {t : State} {p : BitVec 64} {m : Nat} (h : Off (F + 1) t p m) (v : BitVec 64) :
    Off F (pushVal v t) p m := by
  intro a ha hs
  rw [push_rsp] at hs
  exact h a ha (hs.deep (by omega))

theorem Ok.called {q F F' : Nat} {t t' : State} {p : BitVec 64} {m : Nat} (h : Ok q F t) (hc : Called F' p m t t')
    (hF : F' ≤ F) (hd : ∀ a, InArr p m a → ¬ InData q t.sym a) : Ok q F t' := by
  refine ⟨h.fits, h.data.congr hc.sym (fun a ha => hc.frame a (fun hs => h.off a ha (hs.mono hF)) (fun h' => hd a h' ha)), ?_⟩
  rw [hc.sym, hc.rsp]; exact h.off

theorem Dst.called {q F F' : Nat} {t t' : State} {p p' : BitVec 64} {m m' : Nat} (h : Dst q F t p m)
    (hc : Called F' p' m' t t') : Dst q F t' p m := by
  refine ⟨?_, ?_⟩
  · rw [hc.rsp]; exact h.off
  · rw [hc.sym]; exact h.data

theorem Off.called {F F' : Nat} {t t' : State} {p p' : BitVec 64} {m m' : Nat} (h : Off F t p m)
    (hc : Called F' p' m' t t') : Off F t' p m := by
  unfold Off; rw [hc.rsp]; exact h

theorem Called.of {F n : Nat} {ra : BitVec 64} {t t' : State}
    (h1 : ∀ a, StackFree F (pushVal ra t) a → (∀ i, i < n → a ≠ cell ((pushVal ra t).reg .rdi) i) → t'.mem a = (pushVal ra t).mem a)
    (h2 : ∀ r ∈ Props.calleeSaved, t'.reg r = (pushVal ra t).reg r) (h3 : t'.reg .rdi = (pushVal ra t).reg .rdi)
    (h4 : t'.reg .rsp = (pushVal ra t).reg .rsp + 8) (h5 : t'.sym = (pushVal ra t).sym) : Called (F + 1) (t.reg .rdi) n t t' := by
  refine ⟨fun a ha hb => ?_, fun r hr => ?_, ?_, ?_, h5⟩
  · rw [h1 a, push_mem]
    · exact off_one ha (Nat.succ_pos _)
    · rw [stackFree_iff, push_rsp]
      exact fun h => ha (h.deep (by omega))
    · rw [push_reg _ _ (by decide)]
      exact fun i hi e => hb ⟨i, hi, e⟩
  · rw [h2 r hr, push_reg]
    rintro rfl; exact absurd hr (by decide)
  · rw [h3, push_reg _ _ (by decide)]
  · rw [h4, push_rsp]; rw [show (1 : Nat) = 0 + 1 from rfl, stk_pop, stk_zero]

section raw

variable {q F : Nat} {ra : BitVec 64} {t : State} {env : String → Option (State → Option State)}

theorem sep_q {m : Nat} (hd : Dst q F t (t.reg .rdi) m) :
    ∀ i j, i < n64 q → j < m → cell ((pushVal ra t).sym .q) i ≠ cell ((pushVal ra t).reg .rdi) j := by
  intro i j hi hj e
  rw [push_reg _ _ (by decide)] at e
  exact hd.data _ ⟨j, hj, rfl⟩ (.inl ⟨i, hi, e.symm⟩)

theorem called_raw {m : Nat} {K : Reg → Prop} {t' : State} {out : Limbs} {p : List Line}
    (hr : run noCalls ra p (pushVal ra t) = some t')
    (h : RawPost m K (pushVal ra t) t' out) (hK : ∀ r, r ≠ .rax → r ≠ .rdx → r ≠ .rsi → r ≠ .rsp → K r) :
    Called 1 (t.reg .rdi) m t t' ∧ rd t'.mem (t.reg .rdi) m = out := by
  have hR := Props.Returns.of h hK
  refine ⟨Called.of (F := 0) (fun a _ hb => hR.frame a hb) hR.saved hR.rdi hR.rsp (run_sym_noCalls hr), ?_⟩
  rw [← h.out, push_reg _ _ (by decide)]

/-- The stack cells a call of any raw routine uses. -/
def callCells (q : Nat) : Nat := frameCells (n64 q) (canOpt q) + 1

/-- Ready for a call: tables, stack and result array as they should be. -/
structure Args (q F : Nat) (t : State) : Prop where
  ok : Ok q F t
  big : callCells q ≤ F
  dst : Dst q F t (t.reg .rdi) (n64 q)

/-- An operand array: it is the result array or does not meet it, and lies off the stack. -/
structure Opnd (q F : Nat) (t : State) (p : BitVec 64) : Prop where
  ali : Alias p (t.reg .rdi) (n64 q)
  off : Off F t p (n64 q)

theorem Args.pos (h : Args q F t) : 0 < F := by have := h.big; unfold callCells at this; omega
theorem Args.table (h : Args q F t) : rd (pushVal ra t).mem ((pushVal ra t).sym .q) (n64 q) = rawq q := by
  obtain ⟨F, rfl⟩ : ∃ F', F = F' + 1 := ⟨F - 1, by have := h.pos; omega⟩
  exact (h.ok.push ra).data.mod
theorem Args.small (h : Args q F t) : 8 * n64 q ≤ 2 ^ 64 := by have := h.ok.fits; omega

theorem Opnd.push {p : BitVec 64} (h : Opnd q F t p) : Alias p ((pushVal ra t).reg .rdi) (n64 q) := by
  rw [push_reg _ _ (by decide)]; exact h.ali

theorem call_rawAddLL (he : env "rawAddLL" = libRaw q ra "rawAddLL") (h : Args q F t) (ha : Opnd q F t (t.reg .rsi))
    (hb : Opnd q F t (t.reg .rdx)) :
    ∃ t', (∀ p, run env ra (.call "rawAddLL" :: p) t = run env ra p t') ∧ Called F (t.reg .rdi) (n64 q) t t' ∧
      rd t'.mem (t.reg .rdi) (n64 q) = FF.rawAdd q (rd t.mem (t.reg .rsi) (n64 q)) (rd t.mem (t.reg .rdx) (n64 q)) := by
  obtain ⟨t', h1, h2⟩ := rawAddLL_run noCalls ra (pushVal ra t) h.small h.table (sep_q h.dst)
    (by rw [push_reg _ _ (by decide : Reg.rsi ≠ .rsp)]; exact ha.push)
    (by rw [push_reg _ _ (by decide : Reg.rdx ≠ .rsp)]; exact hb.push)
  obtain ⟨c1, c2⟩ := called_raw h1 h2 (fun r h1 _ _ h2 => ⟨h1, h2⟩)
  refine ⟨t', run_call (he.trans (by rfl)) h1, c1.mono h.pos le_rfl, c2.trans ?_⟩
  rw [push_reg _ _ (by decide), push_reg _ _ (by decide), push_rd _ _ ha.off h.pos, push_rd _ _ hb.off h.pos]

theorem call_rawSubLL (he : env "rawSubLL" = libRaw q ra "rawSubLL") (h : Args q F t) (ha : Opnd q F t (t.reg .rsi))
    (hb : Opnd q F t (t.reg .rdx)) :
    ∃ t', (∀ p, run env ra (.call "rawSubLL" :: p) t = run env ra p t') ∧ Called F (t.reg .rdi) (n64 q) t t' ∧
      rd t'.mem (t.reg .rdi) (n64 q) = FF.rawSub q (rd t.mem (t.reg .rsi) (n64 q)) (rd t.mem (t.reg .rdx) (n64 q)) := by
  obtain ⟨t', h1, h2⟩ := rawSubLL_run noCalls ra (pushVal ra t) h.small h.table (sep_q h.dst)
    (by rw [push_reg _ _ (by decide : Reg.rsi ≠ .rsp)]; exact ha.push)
    (by rw [push_reg _ _ (by decide : Reg.rdx ≠ .rsp)]; exact hb.push)
  obtain ⟨c1, c2⟩ := called_raw h1 h2 (fun r h1 _ _ h2 => ⟨h1, h2⟩)
  refine ⟨t', run_call (he.trans (by rfl)) h1, c1.mono h.pos le_rfl, c2.trans ?_⟩
  rw [push_reg _ _ (by decide), push_reg _ _ (by decide), push_rd _ _ ha.off h.pos, push_rd _ _ hb.off h.pos]

theorem call_rawAddLS (he : env "rawAddLS" = libRaw q ra "rawAddLS") (h : Args q F t) (ha : Opnd q F t (t.reg .rsi)) :
    ∃ t', (∀ p, run env ra (.call "rawAddLS" :: p) t = run env ra p t') ∧ Called F (t.reg .rdi) (n64 q) t t' ∧
      rd t'.mem (t.reg .rdi) (n64 q) = FF.rawAddLS q (rd t.mem (t.reg .rsi) (n64 q)) (t.reg .rdx) := by
  obtain ⟨t', h1, h2⟩ := rawAddLS_run noCalls ra (pushVal ra t) h.small h.table (sep_q h.dst)
    (by rw [push_reg _ _ (by decide : Reg.rsi ≠ .rsp)]; exact ha.push)
  obtain ⟨c1, c2⟩ := called_raw h1 h2 (fun r h1 h2 _ h3 => ⟨h1, h2, h3⟩)
  refine ⟨t', run_call (he.trans (by rfl)) h1, c1.mono h.pos le_rfl, c2.trans ?_⟩
  rw [push_reg _ _ (by decide), push_reg _ _ (by decide), push_rd _ _ ha.off h.pos]

theorem call_rawSubLS (he : env "rawSubLS" = libRaw q ra "rawSubLS") (h : Args q F t) (ha : Opnd q F t (t.reg .rsi)) :
    ∃ t', (∀ p, run env ra (.call "rawSubLS" :: p) t = run env ra p t') ∧ Called F (t.reg .rdi) (n64 q) t t' ∧
      rd t'.mem (t.reg .rdi) (n64 q) = FF.rawSubLS q (rd t.mem (t.reg .rsi) (n64 q)) (t.reg .rdx) := by
  obtain ⟨t', h1, h2⟩ := rawSubLS_run noCalls ra (pushVal ra t) h.small h.table (sep_q h.dst)
    (by rw [push_reg _ _ (by decide : Reg.rsi ≠ .rsp)]; exact ha.push)
  obtain ⟨c1, c2⟩ := called_raw h1 h2 (fun r h1 h2 _ h3 => ⟨h1, h2, h3⟩)
  refine ⟨t', run_call (he.trans (by rfl)) h1, c1.mono h.pos le_rfl, c2.trans ?_⟩
  rw [push_reg _ _ (by decide), push_reg _ _ (by decide), push_rd _ _ ha.off h.pos]

theorem call_rawSubSL (he : env "rawSubSL" = libRaw q ra "rawSubSL") (h : Args q F t) (ha : Opnd q F t (t.reg .rdx)) :
    ∃ t', (∀ p, run env ra (.call "rawSubSL" :: p) t = run env ra p t') ∧ Called F (t.reg .rdi) (n64 q) t t' ∧
      rd t'.mem (t.reg .rdi) (n64 q) = FF.rawSubSL q (t.reg .rsi) (rd t.mem (t.reg .rdx) (n64 q)) := by
  obtain ⟨t', h1, h2⟩ := rawSubSL_run noCalls ra (pushVal ra t) h.small h.table (sep_q h.dst)
    (by rw [push_reg _ _ (by decide : Reg.rdx ≠ .rsp)]; exact ha.push)
  obtain ⟨c1, c2⟩ := called_raw h1 h2 (fun r h1 _ h2 h3 => ⟨h1, h2, h3⟩)
  refine ⟨t', run_call (he.trans (by rfl)) h1, c1.mono h.pos le_rfl, c2.trans ?_⟩
  rw [push_reg _ _ (by decide), push_reg _ _ (by decide), push_rd _ _ ha.off h.pos]

theorem call_rawNegL (he : env "rawNegL" = libRaw q ra "rawNegL") (h : Args q F t) (ha : Opnd q F t (t.reg .rsi)) :
    ∃ t', (∀ p, run env ra (.call "rawNegL" :: p) t = run env ra p t') ∧ Called F (t.reg .rdi) (n64 q) t t' ∧
      rd t'.mem (t.reg .rdi) (n64 q) = FF.rawNeg q (rd t.mem (t.reg .rsi) (n64 q)) := by
  obtain ⟨t', h1, h2⟩ := rawNegL_run noCalls ra (pushVal ra t) h.small h.table (sep_q h.dst)
    (by rw [push_reg _ _ (by decide : Reg.rsi ≠ .rsp)]; exact ha.push)
  obtain ⟨c1, c2⟩ := called_raw h1 h2 (fun r h1 _ _ h2 => ⟨h1, h2⟩)
  refine ⟨t', run_call (he.trans (by rfl)) h1, c1.mono h.pos le_rfl, c2.trans ?_⟩
  rw [push_reg _ _ (by decide), push_rd _ _ ha.off h.pos]

theorem call_rawNegLS (he : env "rawNegLS" = libRaw q ra "rawNegLS") (h : Args q F t) (ha : Opnd q F t (t.reg .rsi)) :
    ∃ t', (∀ p, run env ra (.call "rawNegLS" :: p) t = run env ra p t') ∧ Called F (t.reg .rdi) (n64 q) t t' ∧
      rd t'.mem (t.reg .rdi) (n64 q) = FF.rawNegLS q (decide (t.reg .rsi = t.reg .rdi)) (rd t.mem (t.reg .rsi) (n64 q)) (t.reg .rdx) := by
  obtain ⟨t', h1, h2⟩ := rawNegLS_run noCalls ra (pushVal ra t) h.small h.table (sep_q h.dst)
    (by rw [push_reg _ _ (by decide : Reg.rsi ≠ .rsp)]; exact ha.push)
  obtain ⟨c1, c2⟩ := called_raw h1 h2 (fun r h1 h2 _ h3 => ⟨h1, h2, h3⟩)
  refine ⟨t', run_call (he.trans (by rfl)) h1, c1.mono h.pos le_rfl, c2.trans ?_⟩
  rw [push_reg _ _ (by decide), push_reg _ _ (by decide), push_reg _ _ (by decide), push_rd _ _ ha.off h.pos]

theorem not_stk_of {F F' : Nat} {a : BitVec 64} (h : ¬ InStk (t.reg .rsp) F a) (hF : F' + 1 ≤ F) :
    StackFree F' (pushVal ra t) a := by
  rw [stackFree_iff, push_rsp]
  exact fun h' => h (h'.deep (by omega))

theorem Args.mont (h : Args q F t) : Props.MontReady q (pushVal ra t) := by
  have hb := h.big
  unfold callCells at hb
  obtain ⟨F, rfl⟩ : ∃ F', F = F' + 1 := ⟨F - 1, by omega⟩
  have hd := (h.ok.push ra).data
  refine ⟨by have := h.ok.fits; omega, hd.mod, hd.np, fun i hi => ?_, ?_, fun i hi => ?_⟩
  · exact not_stk_of (h.ok.off _ (.inl ⟨i, hi, rfl⟩)) hb
  · exact not_stk_of (h.ok.off _ (.inr (.inr (.inr (.inr (.inr rfl)))))) hb
  · rw [push_reg _ _ (by decide)]
    exact not_stk_of (h.dst.off _ ⟨i, hi, rfl⟩) hb

theorem Off.mont {b : Reg} (h : Args q F t) (ho : Off F t (t.reg b) (n64 q)) (hb : b ≠ .rsp) : Props.OffStack q (pushVal ra t) b := by
  intro i hi
  rw [push_reg _ _ hb]
  exact not_stk_of (ho _ ⟨i, hi, rfl⟩) h.big

theorem called_mont {t' : State} {out : Limbs} {p : List Line} (h : Args q F t)
    (hr : run noCalls ra p (pushVal ra t) = some t')
    (hR : Props.MontReturns (n64 q) (frameCells (n64 q) (canOpt q)) (pushVal ra t) t' out) :
    Called F (t.reg .rdi) (n64 q) t t' ∧ rd t'.mem (t.reg .rdi) (n64 q) = out := by
  refine ⟨(Called.of hR.frame hR.saved hR.rdi hR.rsp (run_sym_noCalls hr)).mono h.big le_rfl, ?_⟩
  rw [← hR.out, push_reg _ _ (by decide)]

theorem call_rawMMul (he : env "rawMMul" = libRaw q ra "rawMMul") (hq : q % 2 = 1) (h : Args q F t)
    (ha : Off F t (t.reg .rsi) (n64 q)) (hb : Off F t (t.reg .rdx) (n64 q))
    (hbq : val (rd t.mem (t.reg .rdx) (n64 q)) < q) :
    ∃ t', (∀ p, run env ra (.call "rawMMul" :: p) t = run env ra p t') ∧ Called F (t.reg .rdi) (n64 q) t t' ∧
      rd t'.mem (t.reg .rdi) (n64 q) = FF.rawMMul q (rd t.mem (t.reg .rsi) (n64 q)) (rd t.mem (t.reg .rdx) (n64 q)) := by
  have e1 : rd (pushVal ra t).mem ((pushVal ra t).reg .rsi) (n64 q) = rd t.mem (t.reg .rsi) (n64 q) := by
    rw [push_reg _ _ (by decide), push_rd _ _ ha h.pos]
  have e2 : rd (pushVal ra t).mem ((pushVal ra t).reg .rdx) (n64 q) = rd t.mem (t.reg .rdx) (n64 q) := by
    rw [push_reg _ _ (by decide), push_rd _ _ hb h.pos]
  obtain ⟨p, t', h1, h2, h3⟩ := Props.C55_mul noCalls ra hq (h.mont (ra := ra)) (ha.mont h (by decide)) (hb.mont h (by decide))
    (by rw [e2]; exact hbq)
  obtain ⟨c1, c2⟩ := called_mont h h2 h3
  refine ⟨t', run_call (he.trans (by simp [libRaw, h1])) h2, c1, ?_⟩
  rw [c2, e1, e2]

theorem call_rawMSquare (he : env "rawMSquare" = libRaw q ra "rawMSquare") (hq : q % 2 = 1) (h : Args q F t)
    (ha : Off F t (t.reg .rsi) (n64 q)) (haq : val (rd t.mem (t.reg .rsi) (n64 q)) < q) :
    ∃ t', (∀ p, run env ra (.call "rawMSquare" :: p) t = run env ra p t') ∧ Called F (t.reg .rdi) (n64 q) t t' ∧
      rd t'.mem (t.reg .rdi) (n64 q) = FF.rawMSquare q (rd t.mem (t.reg .rsi) (n64 q)) := by
  have e1 : rd (pushVal ra t).mem ((pushVal ra t).reg .rsi) (n64 q) = rd t.mem (t.reg .rsi) (n64 q) := by
    rw [push_reg _ _ (by decide), push_rd _ _ ha h.pos]
  obtain ⟨p, t', h1, h2, h3⟩ := Props.C55_square noCalls ra hq (h.mont (ra := ra)) (ha.mont h (by decide))
    (by rw [e1]; exact haq)
  obtain ⟨c1, c2⟩ := called_mont h h2 h3
  refine ⟨t', run_call (he.trans (by simp [libRaw, h1])) h2, c1, ?_⟩
  rw [c2, e1]

theorem call_rawMMul1 (he : env "rawMMul1" = libRaw q ra "rawMMul1") (hq : q % 2 = 1)
    (h7 : Props.OneWord q (val (rd t.mem (t.reg .rsi) (n64 q))) (t.reg .rdx).toNat) (h : Args q F t)
    (ha : Off F t (t.reg .rsi) (n64 q)) (haq : val (rd t.mem (t.reg .rsi) (n64 q)) < q) :
    ∃ t', (∀ p, run env ra (.call "rawMMul1" :: p) t = run env ra p t') ∧ Called F (t.reg .rdi) (n64 q) t t' ∧
      rd t'.mem (t.reg .rdi) (n64 q) = FF.rawMMul1 q (rd t.mem (t.reg .rsi) (n64 q)) (t.reg .rdx) := by
  have e1 : rd (pushVal ra t).mem ((pushVal ra t).reg .rsi) (n64 q) = rd t.mem (t.reg .rsi) (n64 q) := by
    rw [push_reg _ _ (by decide), push_rd _ _ ha h.pos]
  obtain ⟨p, t', h1, h2, h3⟩ := Props.C55_mul1_partial noCalls ra hq
    (by rw [e1, push_reg _ _ (by decide)]; exact h7) (h.mont (ra := ra)) (ha.mont h (by decide))
    (by rw [e1]; exact haq)
  obtain ⟨c1, c2⟩ := called_mont h h2 h3
  refine ⟨t', run_call (he.trans (by simp [libRaw, h1])) h2, c1, ?_⟩
  rw [c2, e1, push_reg _ _ (by decide)]

theorem call_rawFromMontgomery (he : env "rawFromMontgomery" = libRaw q ra "rawFromMontgomery") (hq : q % 2 = 1)
    (h7' : n64 q ≠ 7) (h : Args q F t) (ha : Off F t (t.reg .rsi) (n64 q)) :
    ∃ t', (∀ p, run env ra (.call "rawFromMontgomery" :: p) t = run env ra p t') ∧ Called F (t.reg .rdi) (n64 q) t t' ∧
      rd t'.mem (t.reg .rdi) (n64 q) = FF.rawFromMontgomery q (rd t.mem (t.reg .rsi) (n64 q)) := by
  have e1 : rd (pushVal ra t).mem ((pushVal ra t).reg .rsi) (n64 q) = rd t.mem (t.reg .rsi) (n64 q) := by
    rw [push_reg _ _ (by decide), push_rd _ _ ha h.pos]
  obtain ⟨p, t', h1, h2, h3⟩ := Props.C55_from_partial noCalls ra hq h7' (h.mont (ra := ra)) (ha.mont h (by decide))
  obtain ⟨c1, c2⟩ := called_mont h h2 h3
  refine ⟨t', run_call (he.trans (by simp [libRaw, h1])) h2, c1, ?_⟩
  rw [c2, e1]

/-- `copy` copies the tag as well. -/
theorem call_copy (he : env "copy" = libRaw q ra "copy") (h : Ok q F t) (hF : 0 < F)
    (ha : Alias (t.reg .rsi) (t.reg .rdi) (n64 q + 1)) (ho : Off F t (t.reg .rsi) (n64 q + 1)) :
    ∃ t', (∀ p, run env ra (.call "copy" :: p) t = run env ra p t') ∧ Called F (t.reg .rdi) (n64 q + 1) t t' ∧
      rd t'.mem (t.reg .rdi) (n64 q + 1) = rd t.mem (t.reg .rsi) (n64 q + 1) := by
  obtain ⟨t', h1, h2⟩ := copy_run noCalls ra (pushVal ra t) (n64 q) (by have := h.fits; omega)
    (by rw [push_reg _ _ (by decide), push_reg _ _ (by decide)]; exact ha)
  obtain ⟨c1, c2⟩ := called_raw h1 h2 (fun r h1 _ _ h2 => ⟨h1, h2⟩)
  refine ⟨t', run_call (he.trans (by rfl)) h1, c1.mono hF le_rfl, c2.trans ?_⟩
  rw [push_reg _ _ (by decide), push_rd _ _ ho hF]

/-- `rawCopyS2L` writes the tag as well; besides `rax` it changes only `rsi`. -/
theorem call_rawCopyS2L (he : env "rawCopyS2L" = libRaw q ra "rawCopyS2L") (h : Ok q F t) (hF : 0 < F)
    (hd : Dst q F t (t.reg .rdi) (n64 q + 1)) :
    ∃ t', (∀ p, run env ra (.call "rawCopyS2L" :: p) t = run env ra p t') ∧ Called F (t.reg .rdi) (n64 q + 1) t t' ∧
      t'.mem (t.reg .rdi) = longTag ∧ rd t'.mem (cell (t.reg .rdi) 1) (n64 q) = FF.rawCopyS2L q (t.reg .rsi) ∧
      t'.reg .r8 = t.reg .r8 := by
  have ht : rd (pushVal ra t).mem ((pushVal ra t).sym .q) (n64 q) = rawq q := by
    obtain ⟨F, rfl⟩ : ∃ F', F = F' + 1 := ⟨F - 1, by omega⟩
    exact (h.push ra).data.mod
  obtain ⟨t', h1, h2⟩ := rawCopyS2L_run noCalls ra (pushVal ra t) (by have := h.fits; omega) ht (sep_q hd)
  refine ⟨t', run_call (he.trans (by rfl)) h1, ?_, ?_, ?_, ?_⟩
  · refine (Called.of (F := 0) (fun a _ => h2.frame a) (fun r hr => h2.regs r ?_ ?_ ?_)
      (h2.regs _ (by decide) (by decide) (by decide)) h2.rsp (run_sym_noCalls h1)).mono hF le_rfl
    all_goals rintro rfl; exact absurd hr (by decide)
  · rw [← h2.tag, push_reg _ _ (by decide)]
  · have := h2.out
    rwa [push_reg _ _ (by decide), push_reg _ _ (by decide)] at this
  · rw [h2.regs _ (by decide) (by decide) (by decide), push_reg _ _ (by decide)]

end raw

end FF.X86
