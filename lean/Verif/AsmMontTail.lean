import Verif.AsmMontSim
import Verif.AsmMontRounds

/-!
# The end of a Montgomery routine: comparison with the modulus, subtraction, stores
-/

namespace FF.X86

variable {g : Cfg} {s0 : State} {n : Nat} {opt : Bool}

/-- The cached variable, if any, equals its slot. -/
def Clean (wr : Wr) : Prop := ∀ p, wr = some p → p.2 = false

theorem Clean.rel {wr : Wr} (hc : Clean wr) {st : VState} {s : State} (h : Rel g wr st s) : Rel g none st s := by
  cases wr with
  | none => exact h
  | some p =>
    obtain ⟨k, m⟩ := p
    have : m = false := hc _ rfl
    subst this
    exact h.drop

theorem loadWr_clean {N : Nat} {wr : Wr} (hc : Clean wr) (a : Nat) (v : Bool) : (loadWr N wr a v).2.2 = false := by
  cases wr with
  | none => rfl
  | some p =>
    obtain ⟨k, m⟩ := p
    have : m = false := hc _ rfl
    subst this
    unfold loadWr
    dsimp only
    split <;> rfl

theorem cmp_clean {N : Nat} {wr wr' : Wr} {a j : Nat} {l : List (Ins Opd)} (hc : Clean wr)
    (he : emit N wr (.op2 .cmp (V a) (mq j)) = some (l, wr')) : Clean wr' := by
  by_cases h : N ≤ a
  · simp [emit, Op2.acc, scanArg, param, h, Nat.not_lt.mpr h] at he
    obtain ⟨_, rfl⟩ := he
    intro p hp
    obtain rfl := Option.some.inj hp
    exact loadWr_clean hc _ _
  · simp [emit, Op2.acc, scanArg, param, h, Nat.not_le.mp h] at he
    obtain ⟨_, rfl⟩ := he
    exact hc

theorem test_clean {N : Nat} {wr wr' : Wr} {a : Nat} {l : List (Ins Opd)} (hc : Clean wr)
    (he : emit N wr (.op2 .test (V a) (V a)) = some (l, wr')) : Clean wr' := by
  by_cases h : N ≤ a
  · simp [emit, Op2.acc, scanArg, param, h, Nat.not_lt.mpr h] at he
    obtain ⟨_, rfl⟩ := he
    intro p hp
    obtain rfl := Option.some.inj hp
    exact loadWr_clean (fun p hp => by obtain rfl := Option.some.inj hp; exact loadWr_clean hc _ _) _ _
  · simp [emit, Op2.acc, scanArg, param, h, Nat.not_le.mp h] at he
    obtain ⟨_, rfl⟩ := he
    exact hc

/-- Limb `j` of the modulus table. -/
abbrev qv (s : State) (j : Nat) : Nat := ((Opd.sym .q (8 * j)).get s).toNat

theorem qv_env {s s' : State} (h : SameEnv s s') : qv s' = qv s := by funext j; simp only [qv, h.get]

theorem vstep_cmp (a : Nat) (y : Arg) (st : VState) :
    (vstep (o2 .cmp (V a) y) st).v = st.v ∧ SameEnv st.s (vstep (o2 .cmp (V a) y) st).s ∧
      (vstep (o2 .cmp (V a) y) st).s.fl.cf = decide ((st.v a).toNat < (y.get st).toNat) ∧
      (vstep (o2 .cmp (V a) y) st).s.fl.zf = decide (st.v a = y.get st) := by
  refine ⟨rfl, ⟨rfl, rfl, rfl⟩, ?_, ?_⟩
  · rfl
  · simp only [vstep, Ins.exec, Op2.eval, Op2.writes, subFlags, Arg.get, Bool.false_eq_true, if_false]
    exact decide_eq_decide.mpr (sub_eq_zero_iff _ _)

theorem cmps_run (h : Shape g n opt) (hq : ∀ j < n, HwOk g s0 (.sym .q (8 * j)))
    (env : String → Option (State → Option State)) (ra : BitVec 64) (i : Nat) :
    i ≤ n → ∀ (wr : Wr) (st : VState) (s : State), Clean wr → Rel g wr st s → Base s0 st.s →
    ∃ c wr', emitCmps g.N wr i = some (c, wr') ∧ Clean wr' ∧ (∀ l p, dropTo l (c ++ p) = dropTo l p) ∧
      ∀ p, (∀ s, run env ra p s = run env ra (dropTo "sq" p) s) →
        ∃ s' st', run env ra (c ++ p) s =
            run env ra (if tv st.v i < sumW (qv st.s) i then dropTo "done" p else dropTo "sq" p) s' ∧
          Rel g none st' s' ∧ st'.v = st.v ∧ SameEnv st.s st'.s := by
  induction i with
  | zero =>
    intro _ wr st s hc hr hb
    exact ⟨[], wr, rfl, hc, fun _ _ => rfl, fun p hp => ⟨s, st, by simp [tv, sumW, hp s], hc.rel hr, rfl, .refl _⟩⟩
  | succ i ih =>
    intro hi wr st s hc hr hb
    have hneed := h.need
    obtain ⟨l, wr1, e1, _, r1, b1⟩ := sim_opmem (c := wr.map Prod.fst) h.ok (o := .cmp) (Or.inr (Or.inl rfl)) (a := T0 + i)
      (by simp only [T0]; omega) rfl (hq i (by omega)) wr st s rfl hr hb
    have e1' : emit g.N wr (.op2 .cmp (V (T0 + i)) (mq i)) = some (l, wr1) := by
      simp only [emitAll] at e1
      revert e1
      generalize emit g.N wr (.op2 .cmp (V (T0 + i)) (mq i)) = x
      intro e1
      cases x with
      | none => simp at e1
      | some p => simpa using e1
    have hc1 := cmp_clean hc e1'
    obtain ⟨v1, en1, cf1, zf1⟩ := vstep_cmp (T0 + i) (mq i) st
    rw [vsteps_cons, vsteps_nil] at r1 b1
    generalize vstep (o2 .cmp (V (T0 + i)) (mq i)) st = st1 at *
    obtain ⟨c', wr2, e2, hc2, hd, hrun⟩ := ih (by omega) wr1 st1 (steps l s) hc1 r1 b1
    have hd' : ∀ x p, dropTo x ((.jump .carry "done" :: .jump .nzero "sq" :: c') ++ p) = dropTo x p := fun x p => hd x p
    refine ⟨code l ++ [.jump .carry "done", .jump .nzero "sq"] ++ c', wr2, by simp [emitCmps, e1', e2], hc2,
      fun x p => ?_, fun p hp => ?_⟩
    · rw [List.append_assoc, List.append_assoc, dropTo_code]; exact hd' x p
    · have hT : ∀ x, tv x (i + 1) = tv x i + (x (T0 + i)).toNat * (W : ℤ) ^ i := fun x => rfl
      have hQ : sumW (qv st.s) (i + 1) = sumW (qv st.s) i + qv st.s i * (W : ℤ) ^ i := rfl
      have t1 := tv_lt st.v i
      have t2 := tv_nonneg st.v i
      have q1 : sumW (qv st.s) i < (W : ℤ) ^ i := sumW_lt (fun _ _ => limb_lt _)
      have q2 := sumW_nonneg (qv st.s) i
      have hg : (mq i).get st = (Opd.sym .q (8 * i)).get st.s := rfl
      rw [hg] at cf1 zf1
      rw [List.append_assoc, List.append_assoc, run_code]
      simp only [List.cons_append, List.nil_append]
      rw [run_jump, r1.fl, Cond.holds, cf1]
      by_cases hlt : (st.v (T0 + i)).toNat < qv st.s i
      · rw [if_pos (by simpa using hlt)]
        refine ⟨steps l s, st1, ?_, hc1.rel r1, v1, en1⟩
        rw [if_pos]
        · exact congrArg (fun x => run env ra x _) (hd "done" p)
        · rw [hT, hQ]
          have : ((st.v (T0 + i)).toNat : ℤ) + 1 ≤ qv st.s i := by exact_mod_cast hlt
          nlinarith [pow_pos WZ_pos i]
      · rw [if_neg (by simpa using hlt), run_jump, r1.fl, Cond.holds, zf1]
        by_cases heq : st.v (T0 + i) = (Opd.sym .q (8 * i)).get st.s
        · rw [if_neg (by simp [heq])]
          obtain ⟨s', st', e3, r3, v3, en3⟩ := hrun p hp
          refine ⟨s', st', ?_, r3, by rw [v3, v1], en1.trans en3⟩
          rw [e3, v1, qv_env en1, hT, hQ]
          have : (st.v (T0 + i)).toNat = qv st.s i := by rw [heq]
          rw [this]
          simp only [add_lt_add_iff_right]
        · rw [if_pos (by simp [heq])]
          refine ⟨steps l s, st1, ?_, hc1.rel r1, v1, en1⟩
          rw [if_neg]
          · exact congrArg (fun x => run env ra x _) (hd "sq" p)
          · have hgt : qv st.s i < (st.v (T0 + i)).toNat := by
              rcases Nat.lt_or_ge (qv st.s i) (st.v (T0 + i)).toNat with h' | h'
              · exact h'
              · exact absurd (BitVec.eq_of_toNat_eq (Nat.le_antisymm h' (Nat.not_lt.mp hlt))) heq
            rw [hT, hQ, not_lt]
            have : ((qv st.s i : ℕ) : ℤ) + 1 ≤ (st.v (T0 + i)).toNat := by exact_mod_cast hgt
            nlinarith [pow_pos WZ_pos i]

theorem emit_of_all {N : Nat} {wr wr' : Wr} {i : Ins Arg} {l : List (Ins Opd)} (h : emitAll N wr [i] = some (l, wr')) :
    emit N wr i = some (l, wr') := by
  simp only [emitAll] at h
  revert h
  generalize emit N wr i = x
  intro h
  cases x with
  | none => simp at h
  | some p => simpa using h

theorem vstep_test (a : Nat) (st : VState) :
    (vstep (o2 .test (V a) (V a)) st).v = st.v ∧ SameEnv st.s (vstep (o2 .test (V a) (V a)) st).s ∧
      (vstep (o2 .test (V a) (V a)) st).s.fl.zf = decide (st.v a = 0) := by
  refine ⟨rfl, ⟨rfl, rfl, rfl⟩, ?_⟩
  simp [vstep, Ins.exec, Op2.eval, Op2.writes, logicFlags, Arg.get]

/-- The whole comparison of the running total with the modulus. -/
theorem compare_run (h : Shape g n opt) (hq : ∀ j < n, HwOk g s0 (.sym .q (8 * j)))
    (env : String → Option (State → Option State)) (ra : BitVec 64) (wr : Wr) (st : VState) (s : State) (hc : Clean wr)
    (hr : Rel g wr st s) (hb : Base s0 st.s) :
    ∃ ct w2 cc w3, emitTest g.N wr n opt = some (ct, w2) ∧ emitCmps g.N w2 n = some (cc, w3) ∧ Clean w3 ∧
      ∀ p, (∀ s, run env ra p s = run env ra (dropTo "sq" p) s) →
        ∃ s' st', run env ra (ct ++ (cc ++ p)) s =
            run env ra (if tv st.v (n + ext opt) < sumW (qv st.s) n then dropTo "done" p else dropTo "sq" p) s' ∧
          Rel g none st' s' ∧ st'.v = st.v ∧ SameEnv st.s st'.s := by
  cases opt with
  | true =>
    obtain ⟨cc, w3, e2, hc2, hd, hrun⟩ := cmps_run h hq env ra n (le_refl _) wr st s hc hr hb
    exact ⟨[], wr, cc, w3, rfl, e2, hc2, hrun⟩
  | false =>
    have hneed := h.need
    simp only [ext, Bool.false_eq_true, if_false] at hneed
    obtain ⟨l, w1, e1, _, r1, b1⟩ := sim_test (c := wr.map Prod.fst) h.ok (a := T0 + n)
      (by simp only [T0]; omega) wr st s rfl hr hb
    have e1 := emit_of_all e1
    have hc1 := test_clean hc e1
    obtain ⟨v1, en1, zf1⟩ := vstep_test (T0 + n) st
    rw [vsteps_cons, vsteps_nil] at r1 b1
    generalize vstep (o2 .test (V (T0 + n)) (V (T0 + n))) st = st1 at *
    obtain ⟨cc, w3, e2, hc2, hd, hrun⟩ := cmps_run h hq env ra n (le_refl _) w1 st1 (steps l s) hc1 r1 b1
    refine ⟨code l ++ [.jump .nzero "sq"], w1, cc, w3, by simp [emitTest, e1], e2, hc2, fun p hp => ?_⟩
    have hT : tv st.v (n + ext false) = tv st.v n + (st.v (T0 + n)).toNat * (W : ℤ) ^ n := rfl
    rw [List.append_assoc, run_code, List.singleton_append, run_jump, r1.fl, Cond.holds, zf1, hT]
    by_cases h0 : st.v (T0 + n) = 0
    · rw [if_neg (by simp [h0])]
      obtain ⟨s', st', e3, r3, v3, en3⟩ := hrun p hp
      refine ⟨s', st', ?_, r3, by rw [v3, v1], en1.trans en3⟩
      rw [e3, v1, qv_env en1, h0, bvz]
      simp
    · rw [if_pos (by rw [decide_eq_false h0]; rfl)]
      refine ⟨steps l s, st1, ?_, hc1.rel r1, v1, en1⟩
      rw [if_neg, hd]
      have hpos : 0 < (st.v (T0 + n)).toNat := by
        rcases Nat.eq_zero_or_pos (st.v (T0 + n)).toNat with h' | h'
        · exact absurd (BitVec.eq_of_toNat_eq (by rw [h']; rfl)) h0
        · exact h'
      have q1 : sumW (qv st.s) n < (W : ℤ) ^ n := sumW_lt (fun _ _ => limb_lt _)
      have t2 := tv_nonneg st.v n
      have : (1 : ℤ) ≤ (st.v (T0 + n)).toNat := by exact_mod_cast hpos
      nlinarith [pow_pos WZ_pos n]

/-! ## Subtraction and stores, over variables -/

theorem borrow_eq (x y : BitVec 64) (c : Nat) (hc : c ≤ 1) :
    (((x - y - BitVec.ofNat 64 c).toNat : ℕ) : ℤ) = x.toNat - y.toNat - c + W * b2n (decide (x.toNat < y.toNat + c)) := by
  have hx := x.isLt
  have hy := y.isLt
  rw [← W_eq, BitVec.toNat_sub, BitVec.toNat_sub, BitVec.toNat_ofNat]
  by_cases h : x.toNat < y.toNat + c
  · rw [decide_eq_true h]
    have : b2n true = 1 := rfl
    rw [this]
    omega
  · rw [decide_eq_false h]
    have : b2n false = 0 := rfl
    rw [this]
    omega

/-- After `j` limbs of the subtraction. -/
structure SubInv (st0 : VState) (j : Nat) (st : VState) : Prop where
  env : SameEnv st0.s st.s
  high : ∀ k, j ≤ k → st.v (T0 + k) = st0.v (T0 + k)
  val : tv st.v j = tv st0.v j - sumW (qv st0.s) j + (if j = 0 then 0 else (W : ℤ) ^ j * b2n st.s.fl.cf)

theorem subs_val (n : Nat) (st : VState) : SubInv st n (vsteps (subs n) st) := by
  have e : subs n = (List.range' 0 n).flatMap fun i => [.op2 (if i = 0 then .sub else .sbb) (V (T0 + i)) (mq i)] := by
    simp [subs, List.flatMap]
    induction (List.range' 0 n) <;> simp_all
  rw [e]
  have := vloop (fun i => [.op2 (if i = 0 then .sub else .sbb) (V (T0 + i)) (mq i)]) (SubInv st) 0 n st
    ⟨.refl _, fun _ _ => rfl, by simp [tv, sumW]⟩ (by
      intro j _ _ st1 I
      rw [vsteps_cons, vsteps_nil]
      set o : Op2 := if j = 0 then .sub else .sbb with ho
      set c : Nat := if j = 0 then 0 else b2n st1.s.fl.cf with hc
      have hc1 : c ≤ 1 := by rw [hc]; split <;> simp [b2n_le]
      have hg : (mq j).get st1 = (Opd.sym .q (8 * j)).get st.s := by
        show (Opd.sym .q (8 * j)).get st1.s = _
        rw [I.env.get]
      have hs : vstep (.op2 o (V (T0 + j)) (mq j)) st1 =
          ⟨upd st1.v (T0 + j) (st1.v (T0 + j) - (mq j).get st1 - BitVec.ofNat 64 c),
            ⟨st1.s.reg, subFlags (st1.v (T0 + j)) ((mq j).get st1) c
                    (st1.v (T0 + j) - (mq j).get st1 - BitVec.ofNat 64 c), st1.s.mem, st1.s.sym⟩⟩ := by
        by_cases h0 : j = 0
        · simp [ho, hc, h0, vstep, Ins.exec, Op2.eval, Op2.writes, Arg.set, Arg.get]
        · simp [ho, hc, h0, vstep, Ins.exec, Op2.eval, Op2.writes, Arg.set, Arg.get]
      rw [hs, hg]
      refine ⟨⟨I.env.reg, I.env.mem, I.env.sym⟩, fun k hk => ?_, ?_⟩
      · rw [← I.high k (by omega)]
        simp only [upd_apply]
        rw [if_neg (by simp only [T0]; omega)]
      · rw [tv_succ, if_neg (by omega)]
        have hlow : tv (upd st1.v (T0 + j) (st1.v (T0 + j) - (Opd.sym .q (8 * j)).get st.s - BitVec.ofNat 64 c)) j
            = tv st1.v j := tv_congr (fun k hk => by simp only [upd_apply]; rw [if_neg (by simp only [T0]; omega)])
        rw [hlow]
        simp only [upd_same, subFlags]
        rw [borrow_eq _ _ c hc1, I.high j (le_refl _), I.val, tv_succ]
        have : sumW (qv st.s) (j + 1) = sumW (qv st.s) j + qv st.s j * (W : ℤ) ^ j := rfl
        rw [this, pow_succ]
        by_cases h0 : j = 0
        · subst h0; simp [hc, qv]; ring
        · simp [hc, h0]; ring)
  simpa using this

/-- After `j` stores. -/
structure StoreInv (st0 : VState) (j : Nat) (st : VState) : Prop where
  v : st.v = st0.v
  reg : st.s.reg = st0.s.reg
  sym : st.s.sym = st0.s.sym
  out : ∀ k < j, st.s.mem (cell (st0.s.reg .rdi) k) = st0.v (T0 + k)
  frame : ∀ a, (∀ k < j, a ≠ cell (st0.s.reg .rdi) k) → st.s.mem a = st0.s.mem a

theorem stores_val (n : Nat) (hn : 8 * n ≤ 2 ^ 64) (st : VState) : StoreInv st n (vsteps (stores n) st) := by
  have e : stores n = (List.range' 0 n).flatMap fun i => [.op2 .mov (mrdi i) (V (T0 + i))] := by
    simp [stores, List.flatMap]
    induction (List.range' 0 n) <;> simp_all
  rw [e]
  have := vloop (fun i => [.op2 .mov (mrdi i) (V (T0 + i))]) (StoreInv st) 0 n st
    ⟨rfl, rfl, rfl, fun k hk => by omega, fun _ _ => rfl⟩ (by
      intro j _ hj st1 I
      rw [vsteps_cons, vsteps_nil]
      have hs : vstep (.op2 .mov (mrdi j) (V (T0 + j))) st1 =
          ⟨st1.v, ⟨st1.s.reg, st1.s.fl, upd st1.s.mem (cell (st.s.reg .rdi) j) (st.v (T0 + j)), st1.s.sym⟩⟩ := by
        simp [vstep, Ins.exec, Op2.eval, Op2.writes, Arg.set, Opd.set, Arg.get, I.reg, I.v, cell]
      rw [hs]
      refine ⟨I.v, I.reg, I.sym, fun k hk => ?_, fun a ha => ?_⟩
      · simp only [upd_apply]
        by_cases hkj : k = j
        · subst hkj; simp
        · rw [if_neg (fun hc => hkj (cell_inj (by omega) (by omega) hc))]
          exact I.out k (by omega)
      · simp only [upd_apply]
        rw [if_neg (ha j (by omega))]
        exact I.frame a (fun k hk => ha k (by omega)))
  simpa using this

end FF.X86
