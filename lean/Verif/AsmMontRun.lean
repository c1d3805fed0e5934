import Verif.AsmMontTail

/-!
# A whole Montgomery routine on the machine
-/

namespace FF.X86

variable {g : Cfg} {s0 : State} {n : Nat} {opt : Bool}

/-! ## The body, between header and footer -/

theorem flush_rel (hg : g.Ok) {wr : Wr} {st : VState} {s : State} (h : Rel g wr st s) (r : Bool) :
    Rel g (flushWr g.N wr r).2 st (steps (flushWr g.N wr r).1 s) ∧ Clean (flushWr g.N wr r).2 := by
  cases wr with
  | none => exact ⟨h, fun _ hp => by simp [flushWr] at hp⟩
  | some p =>
    obtain ⟨k, m⟩ := p
    have h1 := h.flush hg
    cases r with
    | true => exact ⟨h1.drop, fun _ hp => by simp [flushWr] at hp⟩
    | false =>
      refine ⟨h1, fun p hp => ?_⟩
      have : some (k, false) = some p := hp
      simp only [Option.some.injEq] at this
      rw [← this]

theorem flush_clean {N : Nat} {wr : Wr} (h : Clean wr) : flushWr N wr true = ([], none) := by
  cases wr with
  | none => rfl
  | some p =>
    obtain ⟨k, m⟩ := p
    have : m = false := h _ rfl
    subst this
    rfl

theorem flush_none (N : Nat) (wr : Wr) : (flushWr N wr true).2 = none := by cases wr <;> rfl

theorem Sim.fix {is : List (Ins Arg)} {c' : Option Nat} (h : Sim g s0 none is c') {l : List (Ins Opd)} {wr' : Wr}
    (he : emitAll g.N none is = some (l, wr')) {st : VState} {s : State} (hr : Rel g none st s) (hb : Base s0 st.s) :
    Rel g wr' (vsteps is st) (steps l s) ∧ Base s0 (vsteps is st).s := by
  obtain ⟨l', w', e, _, r, b⟩ := h none st s rfl hr hb
  rw [he] at e
  obtain ⟨rfl, rfl⟩ : l = l' ∧ wr' = w' := by simpa using e
  exact ⟨r, b⟩

theorem flatMap_singleton {α β : Type} (f : α → β) (l : List α) : l.flatMap (fun i => [f i]) = l.map f := by
  induction l <;> simp_all [List.flatMap]

theorem sim_subs (h : Shape g n opt) (hq : ∀ j < n, HwOk g s0 (.sym .q (8 * j))) : ∃ c, Sim g s0 none (subs n) c := by
  have hn := h.need
  have L := Sim.loop (g := g) (s0 := s0) (fun j => Nat.rec none (fun j c => cc g.N (T0 + j) c) j)
    (fun i => [.op2 (if i = 0 then .sub else .sbb) (V (T0 + i)) (mq i)]) 0 n (fun j _ hj => by
      refine sim_opmem h.ok ?_ (by simp only [T0]; omega) rfl (hq j (by omega))
      split <;> simp)
  rw [flatMap_singleton] at L
  exact ⟨_, L⟩

theorem sim_stores (h : Shape g n opt) (hd : ∀ j < n, HwOk g s0 (.mem .rdi (8 * j))) :
    ∃ c, Sim g s0 none (stores n) c := by
  have hn := h.need
  have L := Sim.loop (g := g) (s0 := s0) (fun j => Nat.rec none (fun j c => cc g.N (T0 + j) c) j)
    (fun i => [.op2 .mov (mrdi i) (V (T0 + i))]) 0 n (fun j _ hj =>
      sim_store h.ok (by simp only [T0]; omega) rfl (hd j (by omega)))
  rw [flatMap_singleton] at L
  exact ⟨_, L⟩

/-- The machine as the body starts. -/
def initV (g : Cfg) (s : State) : VState :=
  ⟨fun k => if k < g.N then s.reg (regOf k) else s.mem (cell g.sp (k - g.N)), s⟩

theorem rel_init {s : State} (hsp : s.reg .rsp = g.sp) (hreg : g.reg0 = s.reg) : Rel g none (initV g s) s where
  low k hk _ := by simp [initV, hk]
  slots k hk _ _ := by simp [initV, Nat.not_lt.mpr hk]
  cache k m h := by simp at h
  rcx := rfl
  rdx := rfl
  rdi := rfl
  rsi := rfl
  rsp := hsp
  fl := rfl
  sym := rfl
  mem _ _ := rfl
  keep _ _ := by rw [hreg]

/-- The state seen by the rounds: `mov rcx, rdx` has been executed. -/
def entry (s : State) : State := { s with reg := upd s.reg .rcx (s.reg .rdx) }

theorem sim_prologue (h : Shape g n opt) (hnp : HwOk g s0 (.sym .np 0)) :
    Sim g s0 none [o2 .mov (V 2) (.hw (.sym .np 0)), o2 .xor (V 3) (V 3)] none := by
  have h4 := h.N_gt
  have h5 := h.N_le
  refine Sim.cons (c' := none) ?_ (sim_xor h.ok (by omega) (by omega))
  have := sim_opmem (g := g) (s0 := s0) (c := none) h.ok (o := .mov) (Or.inl rfl) (a := 2) (by omega) (m := .sym .np 0) rfl hnp
  rwa [cc_lt (by omega)] at this

/-- `is`, printed when nothing is cached, keeps the relation from the states in which the rounds start. -/
def SimC (g : Cfg) (s0 : State) (q : Nat) (is : List (Ins Arg)) : Prop :=
  ∀ (st : VState) (s : State), Rel g none st s → Base s0 st.s → Ctx s0 q st →
    ∃ l wr', emitAll g.N none is = some (l, wr') ∧ Rel g wr' (vsteps is st) (steps l s) ∧ Base s0 (vsteps is st).s

theorem Sim.ctx {is : List (Ins Arg)} {c : Option Nat} (h : Sim g s0 none is c) (q : Nat) : SimC g s0 q is := by
  intro st s hr hb _
  obtain ⟨l, w, e, _, r, b⟩ := h none st s rfl hr hb
  exact ⟨l, w, e, r, b⟩

/-- What the body leaves. -/
structure BodyPost (g : Cfg) (n q : Nat) (P : ℤ) (s s' : State) : Prop where
  out : ∃ R K : ℤ, sumW (fun k => (s'.mem (cell (s.reg .rdi) k)).toNat) n = R ∧ R < q ∧ (W : ℤ) ^ n * R = P + q * K
  frame : ∀ a, g.Off a → (∀ k < n, a ≠ cell (s.reg .rdi) k) → s'.mem a = s.mem a
  keep : ∀ r, ¬ g.Alloc r → s'.reg r = s.reg r
  sym : s'.sym = s.sym

theorem body_run (h : Shape g n opt) (hn : 8 * n ≤ 2 ^ 64) {s : State} {q : Nat} (hsp : s.reg .rsp = g.sp) (hreg : g.reg0 = s.reg)
    (hq : ∀ j < n, g.Off (cell (s.sym .q) j)) (hnpo : g.Off (s.sym .np)) (hd : ∀ j < n, g.Off (cell (s.reg .rdi) j))
    (hnp : s.mem (s.sym .np) = np q) (hQ : sumW (fun k => (s.mem (cell (s.sym .q) k)).toNat) n = q)
    {upper : Nat → List (Ins Arg)} {P : ℤ} (hP0 : 0 ≤ P) (hP : P < q * (W : ℤ) ^ n)
    (hsim : SimC g (entry s) q (rounds upper n opt))
    (hval : ∀ st, Ctx (entry s) q st → Total n opt q (entry s) P (vsteps (rounds upper n opt) st))
    (hneed : g.need = needed n opt)
    (env : String → Option (State → Option State)) (ra : BitVec 64) :
    ∃ B, template n opt upper = some ((pushedRegs g.need).reverse.map .push
        ++ (if g.N < g.need then [.ins (.op2 .sub (.reg .rsp) (.imm (BitVec.ofNat 64 (8 * (g.need - g.N)))))] else [])
        ++ B ++ (if g.N < g.need then [.ins (.op2 .add (.reg .rsp) (.imm (BitVec.ofNat 64 (8 * (g.need - g.N)))))] else [])
        ++ (pushedRegs g.need).map .pop ++ [.ret]) ∧
      ∀ p, ∃ s', run env ra (B ++ p) s = run env ra p s' ∧ BodyPost g n q P s s' := by
  have hN : g.N = nUsed (needed n opt) := by rw [h.used, hneed]
  -- hardware operands
  have oq : ∀ j < n, HwOk g (entry s) (.sym .q (8 * j)) := fun j hj => hq j hj
  have od : ∀ j < n, HwOk g (entry s) (.mem .rdi (8 * j)) := fun j hj =>
    ⟨Or.inr (Or.inr rfl), by
      have : (entry s).reg .rdi = s.reg .rdi := by simp [entry, upd_apply]
      rw [this]; exact hd j hj⟩
  have onp : HwOk g (entry s) (.sym .np 0) := by
    show g.Off (s.sym .np + BitVec.ofNat 64 0)
    rw [show s.sym .np + BitVec.ofNat 64 0 = s.sym .np by simp]; exact hnpo
  -- prologue and rounds
  have r0 := rel_init hsp hreg
  set st0 := initV g s with hst0
  have hs0 : st0.s = s := rfl
  have r1 : Rel g none (vstep (o2 .mov vrcx vrdx) st0) (step (.op2 .mov (.reg .rcx) (.reg .rdx)) s) :=
    r0.op2 h.ok .mov (d := vrcx) (a := vrdx) (p := .reg .rcx) (p' := .reg .rdx) ⟨rfl, Or.inl rfl⟩ ⟨rfl, Or.inr rfl⟩
      (fun _ => trivial)
  have b1 : Base (entry s) (vstep (o2 .mov vrcx vrdx) st0).s := ⟨rfl, rfl, rfl, rfl⟩
  have em : emit g.N none (o2 .mov vrcx vrdx) = some ([.op2 .mov (.reg .rcx) (.reg .rdx)], none) := by
    simp [emit, Op2.acc, scanArg, param]
  obtain ⟨l0, w0, e0, hw0, r2, b2⟩ := sim_prologue h onp none _ _ rfl r1 b1
  obtain rfl : w0 = none := by cases w0 <;> simp_all
  have hctx := prologue_val st0 (q := q) (by
    show s.mem (s.sym .np + BitVec.ofNat 64 0) = np q
    rw [show s.sym .np + BitVec.ofNat 64 0 = s.sym .np by simp]; exact hnp)
  have hv : vsteps [o2 .mov (V 2) (.hw (.sym .np 0)), o2 .xor (V 3) (V 3)] (vstep (o2 .mov vrcx vrdx) st0)
      = vsteps prologue st0 := rfl
  rw [hv] at r2 b2
  obtain ⟨l2, w1, e2, r2, b2⟩ := hsim _ _ r2 b2 hctx
  rw [← steps_append] at r2
  obtain ⟨l1, hl1⟩ : ∃ l1, l1 = l0 ++ l2 := ⟨_, rfl⟩
  rw [← hl1] at r2
  have eAll : emitAll g.N none (prologue ++ rounds upper n opt) = some ([.op2 .mov (.reg .rcx) (.reg .rdx)] ++ l1, w1) := by
    show emitAll g.N none (o2 .mov vrcx vrdx :: ([o2 .mov (V 2) (.hw (.sym .np 0)), o2 .xor (V 3) (V 3)] ++ rounds upper n opt)) = _
    rw [emitAll, em]
    simp only
    rw [emitAll_append, e0, Option.bind_some]
    simp only
    rw [e2, hl1]
    rfl
  obtain ⟨tc, M, hM0, hM, hT⟩ := hval _ hctx
  generalize vsteps (rounds upper n opt) (vsteps prologue st0) = st2 at *
  -- flush
  obtain ⟨r3, hc3⟩ := flush_rel h.ok r2 false
  have hqv : sumW (qv st2.s) n = q := by
    rw [← hQ]
    refine sumW_congr (fun k _ => ?_)
    show (st2.s.mem (st2.s.sym .q + BitVec.ofNat 64 (8 * k))).toNat = _
    rw [tc.but.mem, tc.but.sym]
    rfl
  -- emission of the tail
  obtain ⟨ct, w2, cc, w3, et, ec, hcl3, hcmp⟩ := compare_run h oq env ra _ st2 _ hc3 r3 b2
  obtain ⟨cS, hsubs⟩ := sim_subs (s0 := entry s) h oq
  obtain ⟨cO, hsto⟩ := sim_stores (s0 := entry s) h od
  obtain ⟨ls, w4, es, _⟩ := hsubs none _ _ rfl (hc3.rel r3) b2
  obtain ⟨lo, w5, eo, _⟩ := hsto none _ _ rfl (hc3.rel r3) b2
  refine ⟨code ([.op2 .mov (.reg .rcx) (.reg .rdx)] ++ l1) ++ code (flushWr g.N w1 false).1 ++ ct ++ cc
    ++ [.label "sq"] ++ code (flushWr g.N w3 true).1 ++ code ls ++ code (flushWr g.N w4 true).1
    ++ [.label "done"] ++ code (flushWr g.N (flushWr g.N w4 true).2 true).1 ++ code lo, ?_, fun p => ?_⟩
  · unfold template
    dsimp only
    rw [← hneed, ← h.used, eAll, Option.bind_some]
    dsimp only
    rw [et, Option.bind_some]
    dsimp only
    rw [ec, Option.bind_some]
    dsimp only
    rw [flush_none, es, Option.bind_some]
    dsimp only
    rw [eo, Option.bind_some]
    simp only [List.append_assoc]
  · -- running
    rw [flush_none]
    rw [show flushWr g.N none true = ([], none) from rfl, flush_clean hcl3]
    set f4 := (flushWr g.N w4 true).1 with hf4
    set pp : List Line := .label "sq" :: (code ls ++ (code f4 ++ (.label "done" :: (code lo ++ p)))) with hpp
    have hsq : dropTo "sq" pp = code ls ++ (code f4 ++ (.label "done" :: (code lo ++ p))) := by simp [hpp, dropTo]
    have hdone : dropTo "done" pp = code lo ++ p := by
      rw [hpp]
      simp only [dropTo, dropTo_code]
      simp
    -- the last part: from a state whose variables hold the reduced total
    have fin : ∀ (st : VState) (s3 : State), Rel g none st s3 → Base (entry s) st.s → SameBut (entry s) st.s →
        (∃ K, tv st.v n < q ∧ (W : ℤ) ^ n * tv st.v n = P + q * K) → BodyPost g n q P s (steps lo s3) := by
      intro st s3 hr hb hbut ⟨K, hlt, hK⟩
      obtain ⟨r4, _⟩ := hsto.fix eo hr hb
      have sv := stores_val n hn st
      generalize vsteps (stores n) st = st5 at *
      have hrdi : st.s.reg .rdi = s.reg .rdi := hb.rdi
      rw [← hrdi] at hd
      refine ⟨⟨tv st.v n, K, ?_, hlt, hK⟩, fun a ha hk => ?_, fun r hr' => ?_, ?_⟩
      · refine sumW_congr (fun k hk => ?_)
        rw [← hrdi, r4.mem _ (hd k hk), sv.out k hk]
      · rw [r4.mem a ha, sv.frame a (by rw [hrdi]; exact hk), hbut.mem]; rfl
      · rw [r4.keep r hr', hreg]
      · rw [r4.sym, sv.sym, hbut.sym]; rfl
    obtain ⟨s', st', e3, r3', v3, en3⟩ := hcmp pp (fun s => by rw [hsq, hpp, run_label])
    have hbut' : SameBut (entry s) st'.s := tc.but.trans en3.but
    have hb' : Base (entry s) st'.s := ⟨hbut'.reg _ (by decide), hbut'.reg _ (by decide), hbut'.reg _ (by decide), hbut'.sym⟩
    have hrun0 : run env ra (code ([.op2 .mov (.reg .rcx) (.reg .rdx)] ++ l1) ++ code (flushWr g.N w1 false).1 ++ ct ++ cc
          ++ [.label "sq"] ++ code [] ++ code ls ++ code f4 ++ [.label "done"] ++ code [] ++ code lo ++ p) s
        = run env ra (if tv st2.v (n + ext opt) < sumW (qv st2.s) n then dropTo "done" pp else dropTo "sq" pp) s' := by
      rw [← e3, hpp]
      simp only [List.append_assoc]
      rw [run_code, steps_append, run_code]
      rfl
    rw [hrun0, hqv]
    have hWn : (0 : ℤ) < (W : ℤ) ^ n := pow_pos WZ_pos n
    have hq0 : (0 : ℤ) < q := by
      rcases Nat.eq_zero_or_pos q with h0 | h0
      · subst h0; simp at hP; omega
      · exact_mod_cast h0
    have hqW : (q : ℤ) < (W : ℤ) ^ n := by rw [← hQ]; exact sumW_lt (fun _ _ => limb_lt _)
    have hT2 : tv st2.v (n + ext opt) < 2 * q := by nlinarith
    -- the total is the low limbs plus the top one
    have htop : ∃ t : ℤ, 0 ≤ t ∧ tv st2.v (n + ext opt) = tv st2.v n + (W : ℤ) ^ n * t := by
      cases opt with
      | true => exact ⟨0, le_refl _, by simp [ext]⟩
      | false => exact ⟨(st2.v (T0 + n)).toNat, Int.natCast_nonneg _, by
          show tv st2.v n + (st2.v (T0 + n)).toNat * (W : ℤ) ^ n = _
          ring⟩
    obtain ⟨t, ht0, htop⟩ := htop
    have l1' := tv_nonneg st2.v n
    have l2' := tv_lt st2.v n
    by_cases hlt : tv st2.v (n + ext opt) < q
    · rw [if_pos hlt, hdone, run_code]
      refine ⟨_, rfl, fin st' s' r3' hb' hbut' ⟨M, ?_⟩⟩
      have ht : t = 0 := by
        by_contra hne
        have : 1 ≤ t := by omega
        nlinarith
      rw [v3]
      rw [ht, mul_zero, add_zero] at htop
      exact ⟨by rw [← htop]; exact hlt, by rw [← htop]; exact hT⟩
    · rw [if_neg hlt, hsq, run_code, run_code, run_label, run_code]
      obtain ⟨r6, b6⟩ := hsubs.fix es r3' hb'
      obtain ⟨r7, _⟩ := flush_rel h.ok r6 true
      rw [flush_none] at r7
      have sv := subs_val n st'
      generalize vsteps (subs n) st' = st6 at *
      refine ⟨_, rfl, fin st6 _ r7 b6 (hbut'.trans sv.env.but) ⟨M - (W : ℤ) ^ n, ?_⟩⟩
      have hv6 := sv.val
      rw [qv_env en3, hqv, v3] at hv6
      have m1 := tv_nonneg st6.v n
      have m2 := tv_lt st6.v n
      have key : tv st6.v n = tv st2.v (n + ext opt) - q := by
        obtain ⟨b, hb⟩ : ∃ b : ℤ, tv st6.v n = tv st2.v n - q + (W : ℤ) ^ n * b := by
          split at hv6
          · exact ⟨0, by rw [hv6]; ring⟩
          · exact ⟨_, hv6⟩
        have hbt : b = t := by
          have h1 : (W : ℤ) ^ n * (b - t) < (W : ℤ) ^ n * 1 := by nlinarith
          have h2 : (W : ℤ) ^ n * (-1) < (W : ℤ) ^ n * (b - t) := by nlinarith
          have h3 := lt_of_mul_lt_mul_left h1 hWn.le
          have h4 := lt_of_mul_lt_mul_left h2 hWn.le
          omega
        rw [hb, hbt, htop]; ring
      rw [key]
      refine ⟨by omega, ?_⟩
      rw [mul_sub, hT]; ring

end FF.X86
