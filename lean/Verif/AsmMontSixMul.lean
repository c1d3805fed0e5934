import Verif.AsmMontSix

/-!
# The product by one word for six limbs, variant that is not optimised

As in `AsmMontSix.lean` variable 10 is cached in `rbx` and is also used in its stack slot.  The product is right when the first round
has no carry into variable 10; for a modulus close to `2^384` and a large word it has one, and then the product is wrong.
-/

namespace FF.X86

variable {g : Cfg} {s0 : State}

/-- The first round up to the access that caches variable 10. -/
def sixM : List (Ins Arg) := upperMul1 6 false 0 ++ secondLow 6 ++ [o2 .mov (V 10) (V 3)]

theorem sixM_split : upperMul1 6 false 0 ++ second 6 false = sixM ++ sixB := by
  simp only [sixM, sixB, second, secondLow, T0, List.append_assoc]
  rfl

theorem sixM_var (st : VState) (h3 : st.v 3 = 0) : (vsteps sixM st).v 10 = 0 := by
  have h : (vsteps (upperMul1 6 false 0 ++ secondLow 6) st).v 3 = 0 := by
    rw [vsteps_var ?_ st, h3]
    decide
  rw [sixM, vsteps_append]
  generalize vsteps (upperMul1 6 false 0 ++ secondLow 6) st = s1 at h
  simp [vsteps, vstep, Ins.exec, Op2.eval, Op2.writes, Arg.get, Arg.set, upd_apply, h]

theorem sim_sixM (h : Shape g 6 false) (hq : ∀ j < 6, HwOk g s0 (.sym .q (8 * j))) (hx : ∀ j < 6, HwOk g s0 (.mem .rsi (8 * j))) :
    Sim g s0 none sixM (some 11) := by
  obtain ⟨hN, hd⟩ := sixShape h
  have P0 := (sim_movRdx_hw (c := none) (m := .reg .rcx) h.ok (Or.inl rfl)).append (sim_firstProduct h (hx 0 h.pos) hx)
  rw [cc_ge (by simp only [ext]; omega)] at P0
  have P1 : Sim g s0 none (upperMul1 6 false 0) (some 11) := by
    simp only [upperMul1, if_true]
    exact P0
  have P2 := sim_secondLow h hq (c := some 11) (by simp)
  rw [cc_lt (by omega)] at P2
  exact (P1.append P2).append (sim_mov h.ok (by omega) (by omega) (by omega) (by simp))

/-- What is printed for the rest of the first round. -/
def codeM (m : Bool) : List (Ins Opd) :=
  (if m then [.op2 .mov (slot 10 11) (.reg .rbx)] else []) ++ codeB false

theorem six_codeM (m : Bool) : emitAll 10 (some (11, m)) sixB = some (codeM m, some (10, true)) := by
  cases m <;> decide +kernel

theorem codeM_mem (m : Bool) (s : State) (a : BitVec 64) (h : m = true → a ≠ s.reg .rsp + BitVec.ofNat 64 8) :
    (steps (codeM m) s).mem a = s.mem a := by
  rw [codeM, steps_append, codeB_mem]
  cases m with
  | false => rfl
  | true => simp [steps, step, Ins.exec, Op2.eval, Op2.writes, Opd.set, slot, upd_apply, h rfl]

theorem sixM_val {q : Nat} (hq : q % 2 = 1) (hQ : sumW (fun k => (((Opd.sym .q (8 * k)).get s0).toNat)) 6 = q) (st : VState)
    (hc : Ctx s0 q st)
    (hP : ((s0.reg .rcx).toNat : ℤ) * opv s0 (fun k => .mem .rsi (8 * k)) 6 + (W - 1) * q < (W : ℤ) ^ 7) :
    Ctx s0 q (vsteps (upperMul1 6 false 0 ++ second 6 false) st) ∧
      tv (vsteps (upperMul1 6 false 0 ++ second 6 false) st).v 7 < (W : ℤ) ^ 6 := by
  have hW := WZ_pos
  have hqlt : (q : ℤ) < (W : ℤ) ^ 6 := by rw [← hQ]; exact sumW_lt (fun _ _ => limb_lt _)
  set xo : Nat → Opd := fun k => .mem .rsi (8 * k) with hxo
  have hx : ∀ k, (xo k).noRdx := fun k => (by decide : Reg.rsi ≠ Reg.rdx)
  rw [vsteps_append]
  simp only [upperMul1, if_true]
  obtain ⟨s1, e1, v1, b1, f1, r1⟩ := vstep_movRdx vrcx st
  rw [vsteps_append, vsteps_cons, vsteps_nil, e1]
  have c1 : Ctx s0 q s1 := hc.mov v1 b1 f1
  have u := firstProduct_val 6 (by omega) false (xo 0) xo s1 rfl c1.v3 c1.cf c1.oF
  have hr : s1.s.reg .rdx = s0.reg .rcx := by rw [r1]; exact hc.but.reg .rcx (by decide)
  have e2 := u.eq
  rw [hr] at e2
  change _ = _ * opv s1.s xo 6 at e2
  rw [opv_but c1.but hx 6] at e2
  have c2 := u.ctx c1
  change Ctx s0 q (vsteps (second 6 false) (vsteps (firstProduct 6 false (.hw (xo 0)) fun j => .hw (xo j)) s1)) ∧
    tv (vsteps (second 6 false) (vsteps (firstProduct 6 false (.hw (xo 0)) fun j => .hw (xo j)) s1)).v 7 < _
  generalize vsteps (firstProduct 6 false (.hw (xo 0)) fun j => .hw (xo j)) s1 = s2 at c2 e2 ⊢
  have hQ1 : sumW (fun k => (((Opd.sym .q (8 * k)).get s2.s).toNat)) 6 = q := by
    rw [← hQ]; apply sumW_congr; intro k _; rw [c2.but.get (o := .sym .q (8 * k)) trivial]
  have hbnd : tv s2.v (6 + 1 + ext false) + (W - 1) * q < (W : ℤ) ^ (6 + 1 + ext false) := by
    rw [e2]
    refine hP.trans_le ?_
    exact pow_le_pow_right₀ (by omega) (by simp [ext])
  obtain ⟨m, hm, e3, cf, oF, but, v2, v3⟩ := second_val 6 (by omega) false s2 hq c2.v2 c2.v3 hQ1 c2.cf c2.oF hbnd
  refine ⟨⟨c2.but.trans but, by rw [v2, c2.v2], by rw [v3, c2.v3], cf, oF⟩, ?_⟩
  rw [e2] at e3
  change (W : ℤ) * tv _ 7 = _ at e3
  have hmZ : (m : ℤ) + 1 ≤ W := by exact_mod_cast hm
  have hq0 : (0 : ℤ) ≤ q := Int.natCast_nonneg _
  refine lt_of_mul_lt_mul_left (a := (W : ℤ)) ?_ hW.le
  rw [e3]
  have h1 : (m : ℤ) * q ≤ (W - 1) * q := by nlinarith
  rw [show (W : ℤ) * (W : ℤ) ^ 6 = (W : ℤ) ^ 7 by rw [← pow_succ']]
  linarith

/-- The first round. -/
theorem sixM_round (h : Shape g 6 false) (hq' : ∀ j < 6, HwOk g s0 (.sym .q (8 * j))) (hx : ∀ j < 6, HwOk g s0 (.mem .rsi (8 * j)))
    {q : Nat} (hq : q % 2 = 1) (hQ : sumW (fun k => (((Opd.sym .q (8 * k)).get s0).toNat)) 6 = q)
    (hP : ((s0.reg .rcx).toNat : ℤ) * opv s0 (fun k => .mem .rsi (8 * k)) 6 + (W - 1) * q < (W : ℤ) ^ 7) {st : VState}
    {s : State} (hr : Rel g none st s) (hb : Base s0 st.s) (hc : Ctx s0 q st) :
    ∃ l, emitAll 10 none (upperMul1 6 false 0 ++ second 6 false) = some (l, some (10, true)) ∧
      Six g s0 q 1 (some (10, true)) (vsteps (upperMul1 6 false 0 ++ second 6 false) st) (steps l s) := by
  obtain ⟨hN, hd⟩ := sixShape h
  obtain ⟨c1, t1⟩ := sixM_val hq hQ st hc hP
  have hv10 := sixM_var st hc.v3
  rw [sixM_split] at c1 t1 ⊢
  obtain ⟨l, w, e, hw, r, b⟩ := sim_sixM h hq' hx none st s rfl hr hb
  obtain ⟨m, rfl⟩ : ∃ m, w = some (11, m) := by
    cases w with
    | none => simp at hw
    | some p => obtain ⟨k, m⟩ := p; simp at hw; exact ⟨m, by rw [hw]⟩
  obtain ⟨l', w', e', hw', r', b'⟩ := sim_sixB (s0 := s0) h (some 11) (some (11, m)) _ _ rfl r b
  rw [hN] at e e'
  rw [six_codeM] at e'
  obtain ⟨rfl, rfl⟩ : codeM m = l' ∧ some (10, true) = w' := by simpa using e'
  refine ⟨l ++ codeM m, ?_, ?_⟩
  · rw [emitAll_append, e, Option.bind_some]
    simp only
    rw [six_codeM]; rfl
  · rw [vsteps_append] at c1 t1 ⊢
    rw [steps_append]
    refine ⟨r', b', c1, fun h => absurd h (by omega), fun _ => ⟨rfl, t1, ?_⟩⟩
    rw [codeM_mem]
    · have := r.slots 10 (by omega) (by omega) (by simp)
      rw [hN] at this
      rw [show (0 : Nat) = 10 - 10 from rfl, this, hv10]
    · intro _
      rw [r.rsp]
      unfold cell
      bv_omega

/-- The first `k + 1` rounds. -/
theorem sixM_rounds (h : Shape g 6 false) (hq' : ∀ j < 6, HwOk g s0 (.sym .q (8 * j))) (hx : ∀ j < 6, HwOk g s0 (.mem .rsi (8 * j)))
    {q : Nat} (hq : q % 2 = 1) (hQ : sumW (fun k => (((Opd.sym .q (8 * k)).get s0).toNat)) 6 = q)
    (hP : ((s0.reg .rcx).toNat : ℤ) * opv s0 (fun k => .mem .rsi (8 * k)) 6 + (W - 1) * q < (W : ℤ) ^ 7) {st : VState}
    {s : State} (hr : Rel g none st s) (hb : Base s0 st.s) (hc : Ctx s0 q st) (k : Nat) :
    ∃ l, emitAll 10 none ((List.range' 0 (k + 1)).flatMap fun i => upperMul1 6 false i ++ second 6 false) = some (l, some (10, true)) ∧
      Six g s0 q (k + 1) (some (10, true)) (vsteps ((List.range' 0 (k + 1)).flatMap fun i => upperMul1 6 false i ++ second 6 false) st)
        (steps l s) := by
  induction k with
  | zero =>
    have := sixM_round h hq' hx hq hQ hP hr hb hc
    simpa using this
  | succ k ih =>
    obtain ⟨l, e, J⟩ := ih
    have hup : upperMul1 6 false (k + 1) = upperFrom 6 false (k + 1) := by simp [upperMul1, upperFrom]
    obtain ⟨l', e', J'⟩ := six_round h hq' hx hq hQ (k + 1) J
    rw [← hup] at e' J'
    refine ⟨l ++ l', ?_, ?_⟩
    · rw [List.range'_concat, List.flatMap_append, emitAll_append, e, Option.bind_some]
      simp only [List.flatMap_cons, List.flatMap_nil, List.append_nil, Nat.zero_add, Nat.one_mul]
      rw [e']; rfl
    · rw [List.range'_concat, List.flatMap_append, vsteps_append, steps_append]
      simp only [List.flatMap_cons, List.flatMap_nil, List.append_nil, Nat.zero_add, Nat.one_mul]
      exact J'

/-- All rounds. -/
theorem simC_sixM (h : Shape g 6 false) (hq' : ∀ j < 6, HwOk g s0 (.sym .q (8 * j))) (hx : ∀ j < 6, HwOk g s0 (.mem .rsi (8 * j)))
    {q : Nat} (hq : q % 2 = 1) (hQ : sumW (fun k => (((Opd.sym .q (8 * k)).get s0).toNat)) 6 = q)
    (hP : ((s0.reg .rcx).toNat : ℤ) * opv s0 (fun k => .mem .rsi (8 * k)) 6 + (W - 1) * q < (W : ℤ) ^ 7) :
    SimC g s0 q (rounds (upperMul1 6 false) 6 false) := by
  intro st s hr hb hc
  obtain ⟨l, e, J⟩ := sixM_rounds h hq' hx hq hQ hP hr hb hc 5
  exact ⟨l, some (10, true), by rw [(sixShape h).1]; exact e, J.rel, J.base⟩

end FF.X86
