import Verif.AsmShiftMain
import Verif.AsmNot

/-!
# The tagged shifts of the generated assembly: listings, frame and the calls of the raw shifts
-/

namespace FF.X86

/-! ## Listings, `src/binops.asm.ejs:476-680` -/

/-- The first lines of `<name>_shr` and `<name>_shl`, `src/binops.asm.ejs:546-550` and `569-573`. -/
def enter4 : List Line := [.push .rbp, .push .rsi, .push .rdi, .push .rdx, op .mov rbp rsp]

/-- Their last lines, e.g. `src/binops.asm.ejs:599-604`. -/
def leave4 : List Line := [op .mov rsp rbp, .pop .rdx, .pop .rdi, .pop .rsi, .pop .rbp, .ret]

/-- `parseShiftValue(pos, neg, big)`, `src/binops.asm.ejs:478-530`. -/
def parseShift (bl n : Nat) (pos neg big : String) : List Line :=
  [op .mov rcx (.mem .rdx 0), .misc (.bt .rcx 63), .jump .ncarry "S2", .misc (.bt .rcx 62), .jump .ncarry "L2"] ++
  convB n "toNormal" ++
  [.label "L2", op .mov rcx (.mem .rdx 8), op .cmp rcx (.imm (BitVec.ofNat 64 bl)), .jump .ncarry "L2neg", op .xor rax rax] ++
  ((List.range' 1 (n - 1)).flatMap fun i => [op .cmp (.mem .rdx (8 + 8 * i)) rax, .jump .nzero "L2neg"]) ++
  [op .mov rdx rcx, .jump .always pos,
   .label "L2neg", op .mov rcx (.sym .q 0), op .sub rcx (.mem .rdx 8), op .cmp rcx (.imm (BitVec.ofNat 64 bl)), .jump .ncarry big,
   op .mov rax (.sym .q 0), op .sub rax (.mem .rdx 8)] ++
  ((List.range' 1 (n - 1)).flatMap fun i => [op .mov rax (.sym .q (8 * i)), op .sbb rax (.mem .rdx (8 + 8 * i)), .jump .nzero big]) ++
  [op .mov rdx rcx, .jump .always neg,
   .label "S2", .misc (.op32 .cmp .rcx (.imm 0)), .jump .less "S2neg", .misc (.op32 .cmp .rcx (.imm (BitVec.ofNat 32 bl))),
   .jump .ncarry big, .misc (.movsx .rdx .rcx), .jump .always pos,
   .label "S2neg", .misc (.neg32 .rcx), .misc (.op32 .cmp .rcx (.imm (BitVec.ofNat 32 bl))),
   .jump .ncarry big, .misc (.movsx .rdx .rcx), .jump .always neg]

/-- `do_shlln` and `do_shrln`, `src/binops.asm.ejs:613-623` and `657-667`. -/
def shiftLong (f : String) : List Line :=
  setTypeDest 0x80 ++ ([op .add rdi (.imm 8), op .add rsi (.imm 8), .call f] ++ leave4)

/-- `do_shl`, `src/binops.asm.ejs:579-623`. -/
def doShl (n : Nat) : List Line :=
  [.label "do_shl", op .mov rcx (.mem .rsi 0), .misc (.bt .rcx 63), .jump .carry "do_shll",
   .label "do_shls", .misc (.movsx .rax .rcx), op .cmp rax (.imm 0), .jump .zero "setzero", .jump .less "do_shlcl",
   op .cmp rdx (.imm 31), .jump .ncarry "do_shlcl",
   .misc .movClDl, .misc (.shlCl .rax), op .mov rcx rax, .misc (.shr .rcx 31), .jump .nzero "do_shlcl",
   op .mov (.mem .rdi 0) rax] ++ leave4 ++
  [.label "do_shlcl"] ++ convA n "toLongNormal" ++ [.jump .always "do_shlln",
   .label "do_shll", .misc (.bt .rcx 62), .jump .ncarry "do_shlln"] ++ convA n "toNormal" ++
  [.label "do_shlln"] ++ shiftLong "rawShl"

/-- `do_shr`, `src/binops.asm.ejs:629-667`.  Behind `do_shrcl` the code runs on into `do_shrl`. -/
def doShr (n : Nat) : List Line :=
  [.label "do_shr", op .mov rcx (.mem .rsi 0), .misc (.bt .rcx 63), .jump .carry "do_shrl",
   .label "do_shrs", .misc (.movsx .rax .rcx), op .cmp rax (.imm 0), .jump .zero "setzero", .jump .less "do_shrcl",
   op .cmp rdx (.imm 31), .jump .ncarry "setzero",
   .misc .movClDl, .misc (.shrCl .rax), op .mov (.mem .rdi 0) rax] ++ leave4 ++
  [.label "do_shrcl"] ++ convA n "toLongNormal" ++
  [.label "do_shrl", .misc (.bt .rcx 62), .jump .ncarry "do_shrln"] ++ convA n "toNormal" ++
  [.label "do_shrln"] ++ shiftLong "rawShr"

/-- `setzero`, `src/binops.asm.ejs:669-677`. -/
def setZero : List Line := [.label "setzero", op .xor rax rax, op .mov (.mem .rdi 0) rax] ++ leave4

/-- `<name>_shl`, `src/binops.asm.ejs:568-677`. -/
def shlCode (bl n : Nat) : List Line :=
  enter4 ++ (parseShift bl n "do_shl" "do_shr" "setzero" ++ (doShl n ++ (doShr n ++ setZero)))

/-- `<name>_shr`, `src/binops.asm.ejs:545-677`: it jumps into the code behind `<name>_shl`. -/
def shrCode (bl n : Nat) : List Line :=
  enter4 ++ (parseShift bl n "do_shr" "do_shl" "setzero" ++ shlCode bl n)

/-- The library as seen by the two shifts. -/
def libShift (q : Nat) (ra : BitVec 64) : String → Option (State → Option State) := fun f =>
  if f = "rawShl" then some (run noCalls ra (rawShlCode (bitLen q) (n64 q)))
  else if f = "rawShr" then some (run noCalls ra (rawShrCode (bitLen q) (n64 q)))
  else lib q ra f

section shiftTag

variable {q F F' k n : Nat} {ra : BitVec 64} {s t : State} {env : String → Option (State → Option State)} {r a b : Elem}

/-! ## The frame -/

/-- The state in which a routine with the usual frame would have been entered: one more word on the stack and the second
pushed word in `rbp`. -/
def virt (s : State) : State := { pushVal (s.reg .rbp) s with reg := upd (pushVal (s.reg .rbp) s).reg .rbp (s.reg .rsi) }

theorem virt_reg (s : State) {r : Reg} (h1 : r ≠ .rbp) (h2 : r ≠ .rsp) : (virt s).reg r = s.reg r := by
  show upd (pushVal (s.reg .rbp) s).reg .rbp _ r = _
  rw [upd_ne _ _ h1, push_reg _ _ h2]
theorem virt_rsp (s : State) : (virt s).reg .rsp = stk (s.reg .rsp) 1 := by
  show upd (pushVal (s.reg .rbp) s).reg .rbp (s.reg .rsi) .rsp = _
  rw [upd_ne _ _ (by decide), push_rsp]
theorem virt_mem (s : State) : (virt s).mem = (pushVal (s.reg .rbp) s).mem := rfl

theorem TArgs.virt (h : TArgs q (F + 1) s) (hb : callCells q ≤ F) : TArgs q F (X86.virt s) := by
  have h' := h.push hb (s.reg .rbp)
  have e : (X86.virt s).reg .rsp = (pushVal (s.reg .rbp) s).reg .rsp := by rw [virt_rsp, push_rsp]
  refine ⟨⟨h'.ok.fits, h'.ok.data.congr rfl fun _ _ => rfl, by rw [e]; exact h'.ok.off⟩, hb, ?_⟩
  rw [virt_reg _ (by decide) (by decide)]
  refine ⟨?_, h.dst.data⟩
  rw [e]
  have := h'.dst.off
  rwa [push_reg _ _ (by decide)] at this

theorem TOpnd.virt {p : BitVec 64} (h : TOpnd q (F + 1) s p) : TOpnd q F (X86.virt s) p := by
  refine ⟨by rw [virt_reg _ (by decide) (by decide)]; exact h.ali, ?_⟩
  have := h.off.push (s.reg .rbp)
  unfold Off at *
  rw [virt_rsp]
  rwa [push_rsp] at this

/-- The saved result pointer. -/
def SavedDi (s t : State) : Prop := t.mem (stk (s.reg .rsp) 3) = s.reg .rdi

theorem enter4_run (h : TArgs q (F + 1) s) (hF : 3 ≤ F) :
    ∃ t, (∀ p, run env ra (enter4 ++ p) s = run env ra p t) ∧ In q F (virt s) t ∧ SavedDi s t ∧ t.reg .rsp = stk ((virt s).reg .rsp) 3 ∧
      t.reg .rdi = s.reg .rdi ∧ t.reg .rsi = s.reg .rsi ∧ t.reg .rdx = s.reg .rdx ∧
      (∀ a, ¬ InStk (s.reg .rsp) (F + 1) a → t.mem a = s.mem a) := by
  have e1 : ∀ k, k ≤ 4 → 8 * k < 2 ^ 64 := fun k hk => by have := h.ok.fits; omega
  have hm : (exes enter4 s).mem = upd (upd (upd (upd s.mem (s.reg .rsp - 8) (s.reg .rbp)) (s.reg .rsp - 8 - 8) (s.reg .rsi))
      (s.reg .rsp - 8 - 8 - 8) (s.reg .rdi)) (s.reg .rsp - 8 - 8 - 8 - 8) (s.reg .rdx) := rfl
  rw [stk_one, stk_push, stk_push, stk_push] at hm
  have hf : ∀ a, ¬ InStk (s.reg .rsp) (F + 1) a → (exes enter4 s).mem a = s.mem a := by
    intro a ha
    rw [hm, upd_ne _ _ fun e => ha ⟨3, by omega, e⟩, upd_ne _ _ fun e => ha ⟨2, by omega, e⟩, upd_ne _ _ fun e => ha ⟨1, by omega, e⟩,
      upd_ne _ _ fun e => ha ⟨0, by omega, e⟩]
  have hsp : (exes enter4 s).reg .rsp = stk ((virt s).reg .rsp) 3 := by
    show s.reg .rsp - 8 - 8 - 8 - 8 = _
    rw [stk_one (s.reg .rsp), stk_push, stk_push, stk_push, virt_rsp, stk_stk]
  have ne : ∀ i j, i ≤ 4 → j ≤ 4 → i ≠ j → stk (s.reg .rsp) i ≠ stk (s.reg .rsp) j := fun i j hi hj h e => h (stk_inj (e1 _ hi) (e1 _ hj) e)
  refine ⟨exes enter4 s, fun p => run_exes _ rfl p s, ⟨hsp, ?_, fun a ha _ => ?_, ?_, rfl⟩, ?_, hsp, rfl, rfl, rfl, hf⟩
  · rw [virt_rsp, stk_stk, hm, upd_ne _ _ (ne _ _ (by decide) (by decide) (by decide)), upd_ne _ _ (ne _ _ (by decide) (by decide) (by decide)), upd_same]
    rfl
  · rw [virt_rsp] at ha
    have q2 : a ≠ stk (s.reg .rsp) 2 := fun e => ha ⟨0, by omega, by rw [e, stk_stk]⟩
    have q3 : a ≠ stk (s.reg .rsp) 3 := fun e => ha ⟨1, by omega, by rw [e, stk_stk]⟩
    have q4 : a ≠ stk (s.reg .rsp) 4 := fun e => ha ⟨2, by omega, by rw [e, stk_stk]⟩
    rw [hm, upd_ne _ _ q4, upd_ne _ _ q3, upd_ne _ _ q2]
    rfl
  · intro r hr hb
    rw [virt_reg _ hb (by rintro rfl; exact absurd hr (by decide))]
    simp [Props.calleeSaved, hb] at hr
    rcases hr with rfl | rfl | rfl | rfl | rfl <;> rfl
  · rw [SavedDi, hm, upd_ne _ _ (ne _ _ (by decide) (by decide) (by decide)), upd_same]

theorem leave4_run (h : TArgs q (F + 1) s) (hi : In q F (virt s) t) (hk : SavedDi s t) (p : List Line) :
    ∃ s', run env ra (leave4 ++ p) t = some s' ∧ TRet q (F + 1) s s' (elemAt (n64 q) t.mem (s.reg .rdi)) := by
  have hfit := h.ok.fits
  obtain ⟨t1, ht1⟩ : ∃ t1, t1 = exes [op .mov rsp rbp, .pop .rdx, .pop .rdi, .pop .rsi, .pop .rbp] t := ⟨_, rfl⟩
  have hbp0 : t.reg .rbp = stk (s.reg .rsp) 4 := by rw [hi.rbp, virt_rsp, stk_stk]
  have hm : t1.mem = t.mem := by rw [ht1]; rfl
  have hsp : t1.reg .rsp = s.reg .rsp := by
    have : t1.reg .rsp = t.reg .rbp + 8 + 8 + 8 + 8 := by rw [ht1]; rfl
    rw [this, hbp0, stk_pop, stk_pop, stk_pop, show (1 : Nat) = 0 + 1 from rfl, stk_pop, stk_zero]
  have off1 : ∀ p, ¬ InArr (s.reg .rdi) (n64 q + 1) p ↔ ¬ InArr ((virt s).reg .rdi) (n64 q + 1) p := fun p => by
    rw [virt_reg _ (by decide) (by decide)]
  have hbp : t1.reg .rbp = s.reg .rbp := by
    have : t1.reg .rbp = t.mem (t.reg .rbp + 8 + 8 + 8) := by rw [ht1]; rfl
    rw [this, hbp0, stk_pop, stk_pop, stk_pop, hi.frame, virt_mem]
    · exact upd_same _ _ _
    · rw [virt_rsp]; exact stk_off (by omega)
    · rw [← off1]; exact fun h' => h.dst.off _ h' ⟨0, by omega, rfl⟩
  have hdi : t1.reg .rdi = s.reg .rdi := by
    have : t1.reg .rdi = t.mem (t.reg .rbp + 8) := by rw [ht1]; rfl
    rw [this, hbp0, stk_pop, hk]
  have hs : ∀ r ∈ Props.calleeSaved, t1.reg r = s.reg r := by
    intro r hr
    by_cases hb : r = .rbp
    · rw [hb]; exact hbp
    · rw [← virt_reg s hb (by rintro rfl; exact absurd hr (by decide)), ← hi.saved r hr hb, ht1]
      simp [Props.calleeSaved, hb] at hr
      rcases hr with rfl | rfl | rfl | rfl | rfl <;> rfl
  have fr : ∀ a, ¬ InStk (s.reg .rsp) (F + 1) a → ¬ InArr (s.reg .rdi) (n64 q + 1) a → t1.mem a = s.mem a := by
    intro a ha hb
    rw [hm, hi.frame a _ ((off1 a).1 hb), virt_mem, push_mem _ _ (off_one ha (by omega))]
    rw [virt_rsp]
    exact fun h' => ha (h'.deep (by omega))
  obtain ⟨s', r1, r2⟩ := ret_of (env := env) (ra := ra) (q := q) (F := F + 1) (s := s) (t := t1) (p := p)
    ⟨fr, hs, hdi, hsp, by
      have : t1.sym = t.sym := by rw [ht1]; rfl
      rw [this, hi.sym]; rfl⟩ rfl
  refine ⟨s', ?_, by rw [← hm]; exact r2⟩
  show run env ra ([op .mov rsp rbp, .pop .rdx, .pop .rdi, .pop .rsi, .pop .rbp] ++ .ret :: p) t = _
  rw [run_exes _ rfl, ← ht1, r1]

/-! ## The saved result pointer survives -/

theorem SavedDi.move {t' : State} (h : SavedDi s t) (hm : Move t t') : SavedDi s t' := by rw [SavedDi, hm.mem]; exact h

theorem kept_off (hfit : 8 * (F + 4) ≤ 2 ^ 64) (hsp : t.reg .rsp = stk ((virt s).reg .rsp) k) (hk : 3 ≤ k) (hF : k + F' ≤ F) :
    ¬ InStk (t.reg .rsp) F' (stk (s.reg .rsp) 3) := by
  rw [hsp, virt_rsp]
  rintro ⟨j, hj, e⟩
  rw [stk_stk, stk_stk] at e
  have := stk_inj (by omega) (by omega) e
  omega

theorem kept_arr (h : TArgs q (F + 1) s) (hF : 2 ≤ F) : ¬ InArr (s.reg .rdi) (n64 q + 1) (stk (s.reg .rsp) 3) :=
  fun h' => h.dst.off _ h' ⟨2, by omega, rfl⟩

/-- A conversion of the second operand, with the pointer still there. -/
theorem convB4 {f : String} {R : Elem → Elem → Prop} {P : Elem → Prop} (o : Ops q F k (virt s) t r a b) (hK : SavedDi s t) (h : TArgs q F (virt s))
    (hf : ConvSpec q F' ra env f R P) (h3 : 3 ≤ k) (hF : k + n64 q + 3 + F' ≤ F) (hb : callCells q ≤ F') (hP : P b) :
    ∃ t' b', (∀ p, run env ra (convB (n64 q) f ++ p) t = run env ra p t') ∧ R b b' ∧ Ops q F (k + n64 q + 1) (virt s) t' r a b' ∧ SavedDi s t' := by
  obtain ⟨t', e1, c1, d1⟩ := convB_run hf h o.offB o.inn o.rsp (by omega) hF hb (by rw [o.b]; exact hP)
  have keep : ∀ p, Off (F - k) t p (n64 q + 1) → elemAt (n64 q) t'.mem p = elemAt (n64 q) t.mem p := fun p hp =>
    elemAt_congr fun x hx => c1.deep x (hp x hx)
  refine ⟨t', _, e1, o.b ▸ c1.elem, ⟨c1.inn, c1.rsp, c1.rdi.trans o.rdi, ?_, ?_, ?_, ?_, ?_, ?_, ?_⟩, ?_⟩
  · rw [d1]; exact off_deeper (j := n64 q + 1) o.offA o.rsp c1.rsp (by omega)
  · rw [c1.tmp]; exact tmp_off h (by omega) c1.rsp
  · rw [d1]; exact o.aliA
  · rw [c1.tmp]; exact tmp_ali h (by omega)
  · rw [keep _ (res_off h o.rsp (by omega)), o.r]
  · rw [d1, keep _ o.offA, o.a]
  · rw [c1.tmp]
  · rw [SavedDi, c1.deep _ (kept_off (F := F) (by have := h.ok.fits; omega) o.rsp h3 (by omega))]
    exact hK

/-- Ready to shift: the operand at `rsi`, the count in `rdx`. -/
structure Sh (q F k : Nat) (s t : State) (r a : Elem) (c : BitVec 64) : Prop where
  op : Op1 q F k (virt s) t r a
  di : SavedDi s t
  cnt : t.reg .rdx = c

variable {c : BitVec 64}

theorem Sh.move {t' : State} (o : Sh q F k s t r a c) (hm : Move t t') (h1 : t'.reg .rdi = t.reg .rdi) (h2 : t'.reg .rsi = t.reg .rsi)
    (h3 : t'.reg .rdx = t.reg .rdx) : Sh q F k s t' r a c :=
  ⟨o.op.move hm h1 h2, o.di.move hm, h3.trans o.cnt⟩

/-- A conversion of the operand. -/
theorem Sh.convA {f : String} {R : Elem → Elem → Prop} {P : Elem → Prop} (w : Sh q F k s t r a c) (h : TArgs q F (virt s))
    (hf : ConvSpec q F' ra env f R P) (h3 : 3 ≤ k) (hF : k + n64 q + 3 + F' ≤ F) (hb : callCells q ≤ F') (hP : P a) :
    ∃ t' a', (∀ p, run env ra (X86.convA (n64 q) f ++ p) t = run env ra p t') ∧ R a a' ∧ Sh q F (k + n64 q + 1) s t' r a' c := by
  have o := w.op
  obtain ⟨t', e1, c1, d1⟩ := convA_run hf h o.offA o.inn o.rsp (by omega) hF hb (by rw [o.a]; exact hP)
  have keep : ∀ p, Off (F - k) t p (n64 q + 1) → elemAt (n64 q) t'.mem p = elemAt (n64 q) t.mem p := fun p hp =>
    elemAt_congr fun x hx => c1.deep x (hp x hx)
  refine ⟨t', _, e1, o.a ▸ c1.elem, ⟨⟨c1.inn, c1.rsp, c1.rdi.trans o.rdi, ?_⟩, ?_, ?_, ?_⟩, ?_, d1.trans w.cnt⟩
  · rw [keep _ (res_off h o.rsp (by omega)), o.r]
  · rw [c1.tmp]; exact tmp_off h (by omega) c1.rsp
  · rw [c1.tmp]; exact tmp_ali h (by omega)
  · rw [c1.tmp]
  · rw [SavedDi, c1.deep _ (kept_off (F := F) (by have := h.ok.fits; omega) o.rsp h3 (by omega))]
    exact w.di

/-! ## The raw shifts as callees -/

/-- A raw shift: what it leaves for the caller. -/
def ShiftSpec (q F : Nat) (ra : BitVec 64) (env : String → Option (State → Option State)) (f : String)
    (G : Limbs → BitVec 64 → Limbs) : Prop :=
  ∀ t, Args q F t → Opnd q F t (t.reg .rsi) → ∃ t', (∀ p, run env ra (.call f :: p) t = run env ra p t') ∧
    Called F (t.reg .rdi) (n64 q) t t' ∧ rd t'.mem (t.reg .rdi) (n64 q) = G (rd t.mem (t.reg .rsi) (n64 q)) (t.reg .rdx)

/-- The limbs the portable `rawShl` leaves when its two arrays are distinct. -/
def shlLimbs (q : Nat) (a : Limbs) (b : BitVec 64) : Limbs :=
  if b.toNat = 0 then a else if bitLen q ≤ b.toNat then FF.rawZero q else rawShl q a b.toNat

theorem stRawShl_some {al : Bool} {l : Limbs} (x : Limbs) (b : BitVec 64) (h : stRawShl q al x b = some l) : l = shlLimbs q x b := by
  unfold stRawShl at h
  unfold shlLimbs
  split_ifs at h ⊢ <;> simp_all

theorem stRawShl_apart (x : Limbs) (b : BitVec 64) : stRawShl q false x b = some (shlLimbs q x b) := by
  unfold stRawShl shlLimbs
  split_ifs <;> simp_all

theorem shift_called {f : String} {p : List Line} {t' : State} {out : Limbs} (he : env f = some (run noCalls ra p))
    (hr : run noCalls ra p (pushVal ra t) = some t') (h : RawPost (n64 q) keepShift (pushVal ra t) t' out) :
    (∀ p, run env ra (.call f :: p) t = run env ra p t') ∧ Called 1 (t.reg .rdi) (n64 q) t t' ∧ rd t'.mem (t.reg .rdi) (n64 q) = out := by
  refine ⟨run_call he hr, Called.of (F := 0) (fun a _ hb => h.frame a hb) (fun r hr => h.regs r (.inr (.inr hr))) (h.regs _ (.inl rfl)) h.rsp
    (run_sym_noCalls hr), ?_⟩
  rw [← h.out, push_reg _ _ (by decide)]

theorem rawShr_spec (hF : 0 < F) (hbl : bitLen q < 2 ^ 31) : ShiftSpec q F ra (libShift q ra) "rawShr" (stRawShr q) := by
  intro t h ha
  have hn : 8 * n64 q ≤ 2 ^ 64 := by have := h.ok.fits; omega
  obtain ⟨t', r1, r2⟩ := rawShr_run (env := noCalls) (ra := ra) (q := q) (s := pushVal ra t) hn hbl
    (by rw [push_reg _ _ (by decide), push_reg _ _ (by decide)]; exact ha.ali)
  obtain ⟨c1, c2, c3⟩ := shift_called (env := libShift q ra) (f := "rawShr") rfl r1 r2
  refine ⟨t', c1, c2.mono hF le_rfl, c3.trans ?_⟩
  rw [push_reg _ _ (by decide), push_reg _ _ (by decide), push_rd ra t ha.off hF, stRawShr]
  have hb : 0 < bitLen q := Nat.pos_of_ne_zero (by simp [bitLen])
  split_ifs
  · rename_i h2; rw [h2]; simp [rawShr, rd_length]
  · omega
  · rfl
  · omega
  · rfl
  · omega

theorem rawShl_spec (hF : 0 < F) (hbl : bitLen q < 2 ^ 31) : ShiftSpec q F ra (libShift q ra) "rawShl" (shlLimbs q) := by
  intro t h ha
  have hn : 8 * n64 q ≤ 2 ^ 64 := by have := h.ok.fits; omega
  have hsd : ∀ x, InArr ((pushVal ra t).reg .rdi) (n64 q) x → ¬ InData q (pushVal ra t).sym x := by
    rw [push_reg _ _ (by decide)]; exact h.dst.data
  obtain ⟨G, rfl⟩ : ∃ G, F = G + 1 := ⟨F - 1, by omega⟩
  obtain ⟨t', r1, r2⟩ := rawShl_run (env := noCalls) (ra := ra) (q := q) (s := pushVal ra t) hn hbl
    (by rw [push_reg _ _ (by decide), push_reg _ _ (by decide)]; exact ha.ali) (h.ok.push ra).data hsd
  obtain ⟨c1, c2, c3⟩ := shift_called (env := libShift q ra) (f := "rawShl") rfl r1 r2
  refine ⟨t', c1, c2.mono hF le_rfl, c3.trans ?_⟩
  rw [push_reg _ _ (by decide), push_reg _ _ (by decide), push_rd ra t ha.off hF, shlLimbs]
  split_ifs with h1 h2 h3 h3
  · rfl
  · omega
  · rfl
  · rfl
  · omega

/-- `do_shlln` and `do_shrln`: the tag, the call and the end. -/
theorem shiftLong_run {f : String} {G : Limbs → BitVec 64 → Limbs} (h' : TArgs q (F + 1) s) (h : TArgs q F (virt s))
    (hf : ShiftSpec q F' ra env f G) (hk : 3 ≤ k) (hF : k + F' ≤ F) (hb : callCells q ≤ F') (w : Sh q F k s t r a c) (p : List Line) :
    ∃ s', run env ra (shiftLong f ++ p) t = some s' ∧
      TRet q (F + 1) s s' { r with long := true, mont := false, longVal := G a.longVal c } := by
  have hfit := h.ok.fits
  have o := w.op
  have ed : (virt s).reg .rdi = s.reg .rdi := virt_reg _ (by decide) (by decide)
  have a0 : TArgs q F' t := o.inn.args h o.rsp hF hb o.rdi
  obtain ⟨t1, e1, c1, g1, l1⟩ := setType_elem (env := env) (ra := ra) 0x80 a0
  have i1 : In q F (virt s) t1 := o.inn.tcalled h o.rsp (by omega) hF o.rdi c1
  have k1 : SavedDi s t1 := by
    rw [SavedDi, c1.frame _ (kept_off (F := F) (by omega) o.rsp hk hF) (by rw [o.rdi, ed]; exact kept_arr h' (by omega))]
    exact w.di
  obtain ⟨t2, ht2⟩ : ∃ t2, t2 = exes [op .add rdi (.imm 8), op .add rsi (.imm 8)] t1 := ⟨_, rfl⟩
  have m2 : Move t1 t2 := ht2 ▸ exes_move rfl
  have d2 : t2.reg .rdi = cell (t1.reg .rdi) 1 := by rw [ht2]; rfl
  have s2 : t2.reg .rsi = cell (t1.reg .rsi) 1 := by rw [ht2]; rfl
  have x2 : t2.reg .rdx = c := by
    have : t2.reg .rdx = t1.reg .rdx := by asm ht2
    rw [this, g1 _ (by simp), w.cnt]
  have a1 : TArgs q F' t1 := a0.called c1 le_rfl
  have hsi : t1.reg .rsi = t.reg .rsi := g1 _ (by simp)
  have op0 : TOpnd q F' t (t.reg .rsi) := ⟨by rw [o.rdi]; exact o.aliA, o.offA.mono (by omega) le_rfl⟩
  have op1 : TOpnd q F' t1 (t1.reg .rsi) := by rw [hsi]; exact op0.called c1
  obtain ⟨t3, e3, c3, l3⟩ := hf t2 (a1.args m2 d2) (op1.opnd m2 d2 s2)
  have lim : rd t1.mem (cell (t.reg .rsi) 1) (n64 q) = a.longVal := by
    rcases o.aliA with e | hs
    · have : (elemAt (n64 q) t1.mem (t.reg .rdi)).longVal = (elemAt (n64 q) t.mem (t.reg .rdi)).longVal := by rw [l1]
      rw [o.rdi, ← e, o.a] at this
      exact this
    · have := elemAt_called c1 (by rw [o.rdi]; exact hs) op0.off
      rw [o.a] at this
      rw [← this]; rfl
  have m2' : t2.mem = t1.mem := m2.mem
  have sp2 : t2.reg .rsp = stk ((virt s).reg .rsp) k := m2.rsp.trans (c1.rsp.trans o.rsp)
  have dcell : t2.reg .rdi = cell (s.reg .rdi) 1 := by rw [d2, c1.rdi, o.rdi, ed]
  rw [x2, s2, m2', hsi, lim] at l3
  have i3 : In q F (virt s) t3 := (i1.move m2).called h sp2 (by omega) hF c3 fun x hx => .inl (by
    rw [dcell] at hx; rw [ed]; exact hx.shift (by omega))
  have k3 : SavedDi s t3 := by
    rw [SavedDi, c3.frame _ (kept_off (F := F) (by omega) sp2 hk hF) (by
      rw [dcell]; exact fun h'' => kept_arr h' (by omega) (h''.shift (by omega)))]
    exact k1.move m2
  obtain ⟨s', r1, r2⟩ := leave4_run (env := env) (ra := ra) h' i3 k3 p
  refine ⟨s', ?_, ?_⟩
  · rw [shiftLong, List.append_assoc, e1]
    show run env ra ([op .add rdi (.imm 8), op .add rsi (.imm 8)] ++ .call f :: (leave4 ++ p)) t1 = _
    rw [run_exes _ rfl, ← ht2, e3, r1]
  · have el : elemAt (n64 q) t3.mem (s.reg .rdi) = { elemAt (n64 q) t2.mem (s.reg .rdi) with longVal := G a.longVal c } := by
      refine elemAt_tail (t := t2) (F := F') h.small (fun x hx => ?_) (fun x h1 h2 => c3.frame x h1 (by rw [dcell]; exact h2)) (by rw [← dcell]; exact l3)
      rw [m2.rsp]
      have := a1.dst.off x
      rw [c1.rdi, o.rdi, ed] at this
      exact this hx
    rw [el, m2', ← ed, ← o.rdi, l1, o.rdi, o.r] at r2
    exact r2

end shiftTag

end FF.X86
