import Verif.AsmMontCall

/-!
# The conversion from Montgomery form for six limbs, variant that is not optimised

Variable 10, the top word of the total, is cached in `rbx` and is also written and read in its stack slot, so the manager goes
wrong here.  The conversion is right nevertheless: the total stays below `2^384`, so variable 10, its slot and `rbx` are zero
between any two rounds.
-/

namespace FF.X86

deriving instance DecidableEq for Ins

variable {g : Cfg} {s0 : State}

/-- The code does not write `rbx`. -/
def keepsRbx : Ins Opd → Bool
  | .op2 o d _ => !o.writes || decide (d ≠ .reg .rbx)
  | .mulx hi lo _ => decide (hi ≠ .reg .rbx) && decide (lo ≠ .reg .rbx)

theorem set_rbx {d : Opd} (h : d ≠ .reg .rbx) (x : BitVec 64) (s : State) : (d.set x s).reg .rbx = s.reg .rbx := by
  cases d with
  | reg r => simp only [Opd.set, upd_apply]; rw [if_neg (by rintro rfl; exact h rfl)]
  | _ => rfl

theorem step_rbx {i : Ins Opd} (h : keepsRbx i = true) (s : State) : (step i s).reg .rbx = s.reg .rbx := by
  cases i with
  | op2 o d a =>
    simp only [keepsRbx, Bool.or_eq_true, Bool.not_eq_true', decide_eq_true_eq] at h
    simp only [step, Ins.exec]
    split
    · rw [set_rbx (by rcases h with h | h <;> simp_all)]
    · rfl
  | mulx hi lo a =>
    simp only [keepsRbx, Bool.and_eq_true, decide_eq_true_eq] at h
    simp only [step, Ins.exec]
    rw [set_rbx h.1, set_rbx h.2]

theorem steps_rbx {l : List (Ins Opd)} (h : l.all keepsRbx = true) (s : State) : (steps l s).reg .rbx = s.reg .rbx := by
  induction l generalizing s with
  | nil => rfl
  | cons i l ih =>
    simp only [List.all_cons, Bool.and_eq_true] at h
    rw [steps_cons, ih h.2, step_rbx h.1]

/-- A round up to the access that caches variable 10. -/
def sixA (i : Nat) : List (Ins Arg) := upperFrom 6 false i ++ secondLow 6 ++ [o2 .mov (V 10) (V 3)]
/-- The rest of a round. -/
def sixB : List (Ins Arg) := [o2 .adcx (V 10) (V 3), o2 .adox (V 10) (V 11)]

theorem six_split (i : Nat) : upperFrom 6 false i ++ second 6 false = sixA i ++ sixB := by
  simp only [sixA, sixB, second, secondLow, T0, List.append_assoc]
  rfl

theorem sixShape (h : Shape g 6 false) : g.N = 10 ∧ g.need = 12 := by
  have h1 := h.need
  have h2 := h.used
  simp only [ext] at h1
  rw [h1] at h2
  exact ⟨h2, h1⟩

/-- The program does not write variable `k`. -/
def keepsVar (k : Nat) : Ins Arg → Bool
  | .op2 o d _ => !o.writes || decide (d ≠ .idx k)
  | .mulx hi lo _ => decide (hi ≠ .idx k) && decide (lo ≠ .idx k)

theorem set_var {d : Arg} {k : Nat} (h : d ≠ .idx k) (x : BitVec 64) (st : VState) : (d.set x st).v k = st.v k := by
  cases d with
  | idx j => simp only [Arg.set, upd_apply]; rw [if_neg (by rintro rfl; exact h rfl)]
  | _ => rfl

theorem vstep_var {i : Ins Arg} {k : Nat} (h : keepsVar k i = true) (st : VState) : (vstep i st).v k = st.v k := by
  cases i with
  | op2 o d a =>
    simp only [keepsVar, Bool.or_eq_true, Bool.not_eq_true', decide_eq_true_eq] at h
    simp only [vstep, Ins.exec]
    split
    · rw [set_var (by rcases h with h | h <;> simp_all)]
    · rfl
  | mulx hi lo a =>
    simp only [keepsVar, Bool.and_eq_true, decide_eq_true_eq] at h
    simp only [vstep, Ins.exec]
    rw [set_var h.1, set_var h.2]

theorem vsteps_var {l : List (Ins Arg)} {k : Nat} (h : l.all (keepsVar k) = true) (st : VState) : (vsteps l st).v k = st.v k := by
  induction l generalizing st with
  | nil => rfl
  | cons i l ih =>
    simp only [List.all_cons, Bool.and_eq_true] at h
    rw [vsteps_cons, ih h.2, vstep_var h.1]

/-- Variable 10 is zero after the first part. -/
theorem sixA_var (i : Nat) (st : VState) (h3 : st.v 3 = 0) : (vsteps (sixA i) st).v 10 = 0 := by
  have h : (vsteps (upperFrom 6 false i ++ secondLow 6) st).v 3 = 0 := by
    rw [vsteps_var ?_ st, h3]
    by_cases hi : i = 0
    · subst hi; decide
    · rw [upperFrom, if_neg hi]; decide
  rw [sixA, vsteps_append]
  generalize vsteps (upperFrom 6 false i ++ secondLow 6) st = s1 at h
  simp [vsteps, vstep, Ins.exec, Op2.eval, Op2.writes, Arg.get, Arg.set, upd_apply, h]

/-- The first part keeps the meaning when nothing is cached. -/
theorem sim_sixA (h : Shape g 6 false) (hq : ∀ j < 6, HwOk g s0 (.sym .q (8 * j))) (hx : ∀ j < 6, HwOk g s0 (.mem .rsi (8 * j)))
    (i : Nat) : Sim g s0 none (sixA i) none := by
  obtain ⟨hN, hd⟩ := sixShape h
  have P1 : Sim g s0 none (upperFrom 6 false i) none := by
    by_cases hi : i = 0
    · subst hi
      have := sim_copyIn (s0 := s0) (xo := fun j => .mem .rsi (8 * j)) h (fun _ => rfl) hx
      rw [cc_lt (by omega)] at this
      exact this
    · rw [upperFrom, if_neg hi]
      exact sim_clearTop h (by simp)
  have P2 := sim_secondLow h hq (c := none) (by simp)
  rw [cc_lt (by omega)] at P2
  exact (P1.append P2).append (sim_mov h.ok (by omega) (by omega) (by omega) (by simp))

/-- The second part keeps the meaning when nothing, or variable 10, is cached. -/
theorem sim_sixB (h : Shape g 6 false) (c : Option Nat) : Sim g s0 c sixB (some 10) := by
  obtain ⟨hN, hd⟩ := sixShape h
  have a1 := sim_ad (s0 := s0) (c := c) h.ok (Or.inl rfl) (a := 10) (b := 3) (by omega) (by omega) (by omega)
  have a2 := sim_ad (s0 := s0) (c := some 10) h.ok (Or.inr rfl) (a := 10) (b := 11) (by omega) (by omega) (by omega)
  rw [cc_ge (by omega)] at a1 a2
  exact a1.cons a2

/-- What is printed for the later rounds does not depend on variable 10 being cached. -/
theorem six_code (i : Nat) (hi : i ≠ 0) : ∃ l, emitAll 10 none (sixA i) = some (l, none) ∧
    emitAll 10 (some (10, true)) (sixA i) = some (l, some (10, true)) ∧ l.all keepsRbx = true := by
  have : sixA i = sixA 1 := by simp only [sixA, upperFrom, if_neg hi, if_neg (show ¬ 1 = 0 by omega)]
  rw [this]
  have h : ((emitAll 10 none (sixA 1)).map fun p => decide (p.2 = none) && p.1.all keepsRbx &&
      decide (emitAll 10 (some (10, true)) (sixA 1) = some (p.1, some (10, true)))) = some true := by decide +kernel
  cases he : emitAll 10 none (sixA 1) with
  | none => rw [he] at h; simp at h
  | some p =>
    rw [he] at h
    simp only [Option.map_some, Option.some.injEq, Bool.and_eq_true, decide_eq_true_eq] at h
    obtain ⟨l, w⟩ := p
    obtain ⟨⟨rfl, h2⟩, h3⟩ := h
    exact ⟨l, rfl, h3, h2⟩

/-- What is printed for the rest of a round. -/
def codeB (c : Bool) : List (Ins Opd) :=
  (if c then [] else [.op2 .mov (.reg .rbx) (slot 10 10)]) ++
    [.op2 .adcx (.reg .rbx) (.reg (regOf 3)), .op2 .adox (.reg .rbx) (slot 10 11)]

theorem six_codeB : emitAll 10 none sixB = some (codeB false, some (10, true)) ∧
    emitAll 10 (some (10, true)) sixB = some (codeB true, some (10, true)) := by decide +kernel

theorem codeB_mem (c : Bool) (s : State) : (steps (codeB c) s).mem = s.mem := by
  cases c <;> simp [codeB, steps, step, Ins.exec, Op2.eval, Op2.writes, Opd.set]

/-- What holds between two rounds. -/
structure Six (g : Cfg) (s0 : State) (q : Nat) (i : Nat) (wr : Wr) (st : VState) (s : State) : Prop where
  rel : Rel g wr st s
  base : Base s0 st.s
  ctx : Ctx s0 q st
  wr0 : i = 0 → wr = none
  later : i ≠ 0 → wr = some (10, true) ∧ tv st.v 7 < (W : ℤ) ^ 6 ∧ s.mem (cell g.sp 0) = 0

theorem top_zero {st : VState} (h : tv st.v 7 < (W : ℤ) ^ 6) : st.v 10 = 0 := by
  have h1 := tv_nonneg st.v 6
  have h2 : tv st.v 7 = tv st.v 6 + (st.v 10).toNat * (W : ℤ) ^ 6 := rfl
  have h3 : (0 : ℤ) < (W : ℤ) ^ 6 := pow_pos WZ_pos 6
  have h4 : ((st.v 10).toNat : ℤ) < 1 := by nlinarith
  apply BitVec.eq_of_toNat_eq
  change (st.v 10).toNat = 0
  omega

/-- The values of one round. -/
theorem six_val {q : Nat} (hq : q % 2 = 1) (hQ : sumW (fun k => (((Opd.sym .q (8 * k)).get s0).toNat)) 6 = q) (i : Nat) (st : VState)
    (hc : Ctx s0 q st) (hT : i ≠ 0 → tv st.v 7 < (W : ℤ) ^ 6) :
    Ctx s0 q (vsteps (upperFrom 6 false i ++ second 6 false) st) ∧
      tv (vsteps (upperFrom 6 false i ++ second 6 false) st).v 7 < (W : ℤ) ^ 6 := by
  have hW := WZ_pos
  have hqlt : (q : ℤ) < (W : ℤ) ^ 6 := by rw [← hQ]; exact sumW_lt (fun _ _ => limb_lt _)
  obtain ⟨X, hX, u⟩ : ∃ X : ℤ, X < (W : ℤ) ^ 6 ∧ Upper 6 false st X (vsteps (upperFrom 6 false i) st) := by
    by_cases hi : i = 0
    · subst hi
      exact ⟨_, opv_lt st.s (fun k => .mem .rsi (8 * k)) 6, copyIn_val 6 false (fun k => .mem .rsi (8 * k)) st hc.v3 hc.cf hc.oF⟩
    · rw [upperFrom, if_neg hi]
      exact ⟨_, hT hi, clearTop_val 6 false st hc.v3 hc.cf hc.oF⟩
  have c1 := u.ctx hc
  have e1 := u.eq
  rw [vsteps_append]
  generalize vsteps (upperFrom 6 false i) st = s1 at c1 e1 ⊢
  have hQ1 : sumW (fun k => (((Opd.sym .q (8 * k)).get s1.s).toNat)) 6 = q := by
    rw [← hQ]; apply sumW_congr; intro k _; rw [c1.but.get (o := .sym .q (8 * k)) trivial]
  have hq0 : (0 : ℤ) ≤ q := Int.natCast_nonneg _
  have h6 : (0 : ℤ) < (W : ℤ) ^ 6 := pow_pos hW 6
  have hbnd : tv s1.v (6 + 1 + ext false) + (W - 1) * q < (W : ℤ) ^ (6 + 1 + ext false) := by
    rw [e1, show (6 + 1 + ext false) = 6 + 1 + 1 from rfl, pow_succ, pow_succ]
    have h1 : (1 : ℤ) ≤ W := by omega
    have h2 : ((W : ℤ) - 1) * q ≤ (W - 1) * (W : ℤ) ^ 6 := mul_le_mul_of_nonneg_left hqlt.le (by omega)
    have h3 : (W : ℤ) ^ 6 * W * 1 ≤ (W : ℤ) ^ 6 * W * W := mul_le_mul_of_nonneg_left h1 (by positivity)
    nlinarith
  obtain ⟨m, hm, e2, cf, oF, but, v2, v3⟩ := second_val 6 (by omega) false s1 hq c1.v2 c1.v3 hQ1 c1.cf c1.oF hbnd
  refine ⟨⟨c1.but.trans but, by rw [v2, c1.v2], by rw [v3, c1.v3], cf, oF⟩, ?_⟩
  rw [e1] at e2
  change (W : ℤ) * tv _ 7 = _ at e2
  have hmZ : (m : ℤ) + 1 ≤ W := by exact_mod_cast hm
  refine lt_of_mul_lt_mul_left (a := (W : ℤ)) ?_ hW.le
  rw [e2]
  have h1 : (m : ℤ) * q ≤ (W - 1) * q := by nlinarith
  have h2 : ((W : ℤ) - 1) * q ≤ (W - 1) * ((W : ℤ) ^ 6 - 1) := by nlinarith
  nlinarith

/-- One round. -/
theorem six_round (h : Shape g 6 false) (hq' : ∀ j < 6, HwOk g s0 (.sym .q (8 * j))) (hx : ∀ j < 6, HwOk g s0 (.mem .rsi (8 * j)))
    {q : Nat} (hq : q % 2 = 1) (hQ : sumW (fun k => (((Opd.sym .q (8 * k)).get s0).toNat)) 6 = q) (i : Nat) {wr : Wr} {st : VState}
    {s : State} (hs : Six g s0 q i wr st s) :
    ∃ l, emitAll 10 wr (upperFrom 6 false i ++ second 6 false) = some (l, some (10, true)) ∧
      Six g s0 q (i + 1) (some (10, true)) (vsteps (upperFrom 6 false i ++ second 6 false) st) (steps l s) := by
  obtain ⟨hN, hd⟩ := sixShape h
  obtain ⟨c1, t1⟩ := six_val hq hQ i st hs.ctx (fun hi => (hs.later hi).2.1)
  have hv10 := sixA_var i st hs.ctx.v3
  -- it is enough to give the code and the relation
  suffices H : ∃ l, emitAll 10 wr (sixA i ++ sixB) = some (l, some (10, true)) ∧
      Rel g (some (10, true)) (vsteps (sixA i ++ sixB) st) (steps l s) ∧ Base s0 (vsteps (sixA i ++ sixB) st).s ∧
      (steps l s).mem (cell g.sp 0) = 0 by
    rw [six_split] at c1 t1 ⊢
    obtain ⟨l, e, r, b, m⟩ := H
    exact ⟨l, e, r, b, c1, fun h => absurd h (by omega), fun _ => ⟨rfl, t1, m⟩⟩
  by_cases hi : i = 0
  · obtain rfl := hs.wr0 hi
    obtain ⟨l, w, e, hw, r, b⟩ := sim_sixA h hq' hx i none st s rfl hs.rel hs.base
    obtain rfl : w = none := by cases w <;> simp_all
    obtain ⟨l', w', e', hw', r', b'⟩ := sim_sixB (s0 := s0) h none none _ _ rfl r b
    rw [hN] at e e'
    rw [six_codeB.1] at e'
    obtain ⟨rfl, rfl⟩ : codeB false = l' ∧ some (10, true) = w' := by simpa using e'
    refine ⟨l ++ codeB false, ?_, ?_, ?_, ?_⟩
    · rw [emitAll_append, e, Option.bind_some]
      simp only
      rw [six_codeB.1]; rfl
    · rw [vsteps_append, steps_append]; exact r'
    · rw [vsteps_append]; exact b'
    · rw [steps_append, codeB_mem]
      have := r.slots 10 (by omega) (by omega) (by simp)
      rw [hN] at this
      rw [this, hv10]
  · obtain ⟨rfl, hT, hm⟩ := hs.later hi
    have h10 := top_zero hT
    -- the slot is up to date, so nothing need be cached
    have r0 : Rel g none st s :=
      { hs.rel with
        slots := fun k hk hk' _ => by
          by_cases hk10 : k = 10
          · subst hk10; rw [hN, h10]; exact hm
          · exact hs.rel.slots k hk hk' (by simp; omega)
        cache := by simp }
    obtain ⟨l, w, e, hw, r, b⟩ := sim_sixA h hq' hx i none st s rfl r0 hs.base
    obtain ⟨l2, k1, k2, k3⟩ := six_code i hi
    rw [hN, k1] at e
    obtain ⟨rfl, rfl⟩ : l2 = l ∧ none = w := by simpa using e
    have hrbx : (steps l2 s).reg .rbx = 0 := by
      rw [steps_rbx k3, (hs.rel.cache 10 true rfl).2.2, h10]
    have hslot := r.slots 10 (by omega) (by omega) (by simp)
    rw [hN] at hslot
    have r1 : Rel g (some (10, true)) (vsteps (sixA i) st) (steps l2 s) :=
      { r with
        slots := fun k hk hk' _ => r.slots k hk hk' (by simp)
        cache := fun k m hkm => by
          obtain ⟨rfl, rfl⟩ : 10 = k ∧ true = m := by simpa using hkm
          exact ⟨by omega, by omega, by rw [hrbx, hv10]⟩ }
    obtain ⟨l', w', e', hw', r', b'⟩ := sim_sixB (s0 := s0) h (some 10) (some (10, true)) _ _ rfl r1 b
    rw [hN, six_codeB.2] at e'
    obtain ⟨rfl, rfl⟩ : codeB true = l' ∧ some (10, true) = w' := by simpa using e'
    refine ⟨l2 ++ codeB true, ?_, ?_, ?_, ?_⟩
    · rw [emitAll_append, k2, Option.bind_some]
      simp only
      rw [six_codeB.2]; rfl
    · rw [vsteps_append, steps_append]; exact r'
    · rw [vsteps_append]; exact b'
    · rw [steps_append, codeB_mem, show (0 : Nat) = 10 - 10 from rfl, hslot, hv10]

/-- The first `k` rounds. -/
theorem six_rounds (h : Shape g 6 false) (hq' : ∀ j < 6, HwOk g s0 (.sym .q (8 * j))) (hx : ∀ j < 6, HwOk g s0 (.mem .rsi (8 * j)))
    {q : Nat} (hq : q % 2 = 1) (hQ : sumW (fun k => (((Opd.sym .q (8 * k)).get s0).toNat)) 6 = q) {st : VState} {s : State}
    (hs : Six g s0 q 0 none st s) (k : Nat) :
    ∃ l wr, emitAll 10 none ((List.range' 0 k).flatMap fun i => upperFrom 6 false i ++ second 6 false) = some (l, wr) ∧
      Six g s0 q k wr (vsteps ((List.range' 0 k).flatMap fun i => upperFrom 6 false i ++ second 6 false) st) (steps l s) := by
  induction k with
  | zero => exact ⟨[], none, rfl, hs⟩
  | succ k ih =>
    obtain ⟨l, wr, e, J⟩ := ih
    obtain ⟨l', e', J'⟩ := six_round h hq' hx hq hQ k J
    refine ⟨l ++ l', some (10, true), ?_, ?_⟩
    · rw [List.range'_concat, List.flatMap_append, emitAll_append, e, Option.bind_some]
      simp only [List.flatMap_cons, List.flatMap_nil, List.append_nil, Nat.zero_add, Nat.one_mul]
      rw [e']; rfl
    · rw [List.range'_concat, List.flatMap_append, vsteps_append, steps_append]
      simp only [List.flatMap_cons, List.flatMap_nil, List.append_nil, Nat.zero_add, Nat.one_mul]
      exact J'

/-- All rounds. -/
theorem simC_six (h : Shape g 6 false) (hq' : ∀ j < 6, HwOk g s0 (.sym .q (8 * j))) (hx : ∀ j < 6, HwOk g s0 (.mem .rsi (8 * j)))
    {q : Nat} (hq : q % 2 = 1) (hQ : sumW (fun k => (((Opd.sym .q (8 * k)).get s0).toNat)) 6 = q) :
    SimC g s0 q (rounds (upperFrom 6 false) 6 false) := by
  intro st s hr hb hc
  obtain ⟨l, wr, e, J⟩ := six_rounds h hq' hx hq hQ ⟨hr, hb, hc, fun _ => rfl, fun h => absurd rfl h⟩ 6
  exact ⟨l, wr, by rw [(sixShape h).1]; exact e, J.rel, J.base⟩

end FF.X86
