import Verif.AsmMont
import Verif.Montgomery
import Mathlib.Tactic.LinearCombination
import Mathlib.Tactic.Linarith

/-!
# What the Montgomery programs compute over variables

The two carry chains (`adcx`, `adox`) are followed with one equation each; that the last carries are zero comes from
the size of the running total.
-/

namespace FF.X86

/-- `∑_{k<m} f k · W^k`. -/
def sumW (f : Nat → Nat) : Nat → ℤ
  | 0 => 0
  | m + 1 => sumW f m + f m * (W : ℤ) ^ m

/-- The running total held in the variables `4, 5, …`. -/
def tv (v : Nat → BitVec 64) (m : Nat) : ℤ := sumW (fun k => (v (T0 + k)).toNat) m

theorem tv_succ (v : Nat → BitVec 64) (m : Nat) : tv v (m + 1) = tv v m + (v (T0 + m)).toNat * (W : ℤ) ^ m := rfl

theorem sumW_congr {f g : Nat → Nat} {m : Nat} (h : ∀ k < m, f k = g k) : sumW f m = sumW g m := by
  induction m with
  | zero => rfl
  | succ m ih =>
    simp only [sumW]
    rw [ih (fun k hk => h k (by omega)), h m (by omega)]

theorem tv_congr {v w : Nat → BitVec 64} {m : Nat} (h : ∀ k < m, v (T0 + k) = w (T0 + k)) : tv v m = tv w m :=
  sumW_congr (fun k hk => by rw [h k hk])

theorem sumW_nonneg (f : Nat → Nat) (m : Nat) : 0 ≤ sumW f m := by
  induction m with
  | zero => simp [sumW]
  | succ m ih => simp only [sumW]; positivity

theorem WZ_pos : (0 : ℤ) < W := by exact_mod_cast W_pos

theorem sumW_lt {f : Nat → Nat} {m : Nat} (h : ∀ k < m, f k < W) : sumW f m < (W : ℤ) ^ m := by
  induction m with
  | zero => simp [sumW]
  | succ m ih =>
    simp only [sumW]
    have h1 := ih (fun k hk => h k (by omega))
    have h2 : ((f m : ℕ) : ℤ) + 1 ≤ W := by exact_mod_cast h m (by omega)
    have h3 : (0 : ℤ) < (W : ℤ) ^ m := pow_pos WZ_pos m
    rw [pow_succ]
    nlinarith

theorem tv_lt (v : Nat → BitVec 64) (m : Nat) : tv v m < (W : ℤ) ^ m := sumW_lt (fun _ _ => limb_lt _)
theorem tv_nonneg (v : Nat → BitVec 64) (m : Nat) : 0 ≤ tv v m := sumW_nonneg _ _

/-! ## Single instructions -/

theorem carry_eq (x y : BitVec 64) (c : Bool) :
    (((x + y + BitVec.ofNat 64 (b2n c)).toNat : ℕ) : ℤ) + W * b2n (decide (2 ^ 64 ≤ x.toNat + y.toNat + b2n c)) =
      x.toNat + y.toNat + b2n c := by
  have hx := x.isLt
  have hy := y.isLt
  have hc : b2n c ≤ 1 := by cases c <;> simp [b2n]
  rw [← W_eq]
  have : (x + y + BitVec.ofNat 64 (b2n c)).toNat = (x.toNat + y.toNat + b2n c) % 2 ^ 64 := by
    rw [BitVec.toNat_add, BitVec.toNat_add, BitVec.toNat_ofNat]; omega
  rw [this]
  by_cases h : 2 ^ 64 ≤ x.toNat + y.toNat + b2n c
  · simp only [h, decide_true]
    have h1 : b2n true = 1 := rfl
    rw [h1]
    have : (x.toNat + y.toNat + b2n c) % 2 ^ 64 = x.toNat + y.toNat + b2n c - 2 ^ 64 := by omega
    omega
  · simp only [h, decide_false]
    have h1 : b2n false = 0 := rfl
    rw [h1, Nat.mod_eq_of_lt (by omega)]
    push_cast; ring

/-- Same registers, memory and labels (only the flags may differ). -/
structure SameEnv (s s' : State) : Prop where
  reg : s'.reg = s.reg
  mem : s'.mem = s.mem
  sym : s'.sym = s.sym

theorem SameEnv.refl (s : State) : SameEnv s s := ⟨rfl, rfl, rfl⟩
theorem SameEnv.trans {a b c : State} (h : SameEnv a b) (h' : SameEnv b c) : SameEnv a c :=
  ⟨h'.reg.trans h.reg, h'.mem.trans h.mem, h'.sym.trans h.sym⟩

/-- Reading an operand does not depend on the flags. -/
theorem SameEnv.get {s s' : State} (h : SameEnv s s') (o : Opd) : o.get s' = o.get s := by
  cases o <;> simp [Opd.get, h.reg, h.mem, h.sym]

theorem vstep_adcx (a : Nat) (y : Arg) (st : VState) :
    ∃ r st', vstep (o2 .adcx (V a) y) st = st' ∧ st'.v = upd st.v a r ∧ SameEnv st.s st'.s ∧
      st'.s.fl.oF = st.s.fl.oF ∧
      ((r.toNat : ℕ) : ℤ) + W * b2n st'.s.fl.cf = (st.v a).toNat + (y.get st).toNat + b2n st.s.fl.cf :=
  ⟨_, _, rfl, rfl, ⟨rfl, rfl, rfl⟩, rfl, carry_eq _ _ _⟩

theorem vstep_adox (a : Nat) (y : Arg) (st : VState) :
    ∃ r st', vstep (o2 .adox (V a) y) st = st' ∧ st'.v = upd st.v a r ∧ SameEnv st.s st'.s ∧
      st'.s.fl.cf = st.s.fl.cf ∧
      ((r.toNat : ℕ) : ℤ) + W * b2n st'.s.fl.oF = (st.v a).toNat + (y.get st).toNat + b2n st.s.fl.oF :=
  ⟨_, _, rfl, rfl, ⟨rfl, rfl, rfl⟩, rfl, carry_eq _ _ _⟩

theorem mulx_eq (x y : BitVec 64) :
    (((BitVec.ofNat 64 (x.toNat * y.toNat)).toNat : ℕ) : ℤ) +
      W * (BitVec.ofNat 64 (x.toNat * y.toNat / 2 ^ 64)).toNat = x.toNat * y.toNat := by
  have h : x.toNat * y.toNat / 2 ^ 64 < 2 ^ 64 := by
    apply Nat.div_lt_of_lt_mul
    exact Nat.mul_lt_mul'' x.isLt y.isLt
  rw [BitVec.toNat_ofNat, BitVec.toNat_ofNat, Nat.mod_eq_of_lt h, ← W_eq]
  have := Nat.mod_add_div (x.toNat * y.toNat) (2 ^ 64)
  exact_mod_cast this

theorem vstep_mulx (a b : Nat) (y : Arg) (st : VState) :
    ∃ l h st', vstep (.mulx (V a) (V b) y) st = st' ∧ st'.v = upd (upd st.v b l) a h ∧ SameEnv st.s st'.s ∧
      st'.s.fl = st.s.fl ∧
      ((l.toNat : ℕ) : ℤ) + W * (h.toNat : ℕ) = (st.s.reg .rdx).toNat * (y.get st).toNat :=
  ⟨_, _, _, rfl, rfl, ⟨rfl, rfl, rfl⟩, rfl, mulx_eq _ _⟩

theorem vstep_mov (a : Nat) (y : Arg) (st : VState) :
    ∃ st', vstep (o2 .mov (V a) y) st = st' ∧ st'.v = upd st.v a (y.get st) ∧ SameEnv st.s st'.s ∧
      st'.s.fl = st.s.fl := ⟨_, rfl, rfl, ⟨rfl, rfl, rfl⟩, rfl⟩

theorem vsteps_nil (st : VState) : vsteps [] st = st := rfl
theorem vsteps_cons (i : Ins Arg) (l : List (Ins Arg)) (st : VState) :
    vsteps (i :: l) st = vsteps l (vstep i st) := rfl
theorem vsteps_append (l l' : List (Ins Arg)) (st : VState) : vsteps (l ++ l') st = vsteps l' (vsteps l st) := by
  simp [vsteps]

/-- Unrolled loops. -/
theorem vloop (f : Nat → List (Ins Arg)) (Inv : Nat → VState → Prop) (k m : Nat) (st : VState) (h0 : Inv k st)
    (hs : ∀ j, k ≤ j → j < k + m → ∀ st, Inv j st → Inv (j + 1) (vsteps (f j) st)) :
    Inv (k + m) (vsteps ((List.range' k m).flatMap f) st) := by
  induction m generalizing k st with
  | zero => exact h0
  | succ m ih =>
    rw [List.range'_succ, List.flatMap_cons, vsteps_append]
    have := ih (k + 1) (vsteps (f k) st) (hs k (le_refl _) (by omega) st h0)
      (fun j hj hj' => hs j (by omega) (by omega))
    rwa [show k + 1 + m = k + (m + 1) by omega] at this

theorem upd_apply {α β : Type} [DecidableEq α] (f : α → β) (a : α) (b : β) (x : α) :
    upd f a b x = if x = a then b else f x := rfl

/-- Decides comparisons of indices. -/
macro "ifs" : tactic => `(tactic| simp (disch := omega) only [if_pos, if_neg, if_true, if_false, ite_true, ite_false])
/-- Decides comparisons of indices in a hypothesis. -/
macro "ifs" "at" h:ident : tactic =>
  `(tactic| simp (disch := omega) only [if_pos, if_neg, if_true, if_false, ite_true, ite_false] at $h:ident)

/-! ## The accumulated product -/

/-- Invariant of the inner loop of a later round. -/
structure NextInv (st0 : VState) (X : Nat → Nat) (j : Nat) (st : VState) : Prop where
  env : SameEnv st0.s st.s
  keep : ∀ k, j < k → st.v (4 + k) = st0.v (4 + k)
  v2 : st.v 2 = st0.v 2
  v3 : st.v 3 = st0.v 3
  eq : tv st.v (j + 1) + b2n st.s.fl.cf * (W : ℤ) ^ j + b2n st.s.fl.oF * (W : ℤ) ^ (j + 1) =
    tv st0.v (j + 1) + (st0.s.reg .rdx).toNat * sumW X j

theorem next_step (st0 : VState) (xo : Nat → Opd) (j : Nat) (st : VState)
    (h : NextInv st0 (fun k => ((xo k).get st0.s).toNat) j st) :
    NextInv st0 (fun k => ((xo k).get st0.s).toNat) (j + 1)
      (vsteps [.mulx (V 1) (V 0) (.hw (xo j)), o2 .adcx (V (T0 + j)) (V 0), o2 .adox (V (T0 + j + 1)) (V 1)] st) := by
  obtain ⟨env, keep, h2, h3, eq⟩ := h
  obtain ⟨l, hh, s1, e1, v1, n1, f1, m1⟩ := vstep_mulx 1 0 (.hw (xo j)) st
  obtain ⟨r, s2, e2, v2, n2, f2, m2⟩ := vstep_adcx (T0 + j) (V 0) s1
  obtain ⟨r', s3, e3, v3, n3, f3, m3⟩ := vstep_adox (T0 + j + 1) (V 1) s2
  rw [vsteps_cons, e1, vsteps_cons, e2, vsteps_cons, e3, vsteps_nil]
  have hx : (Arg.hw (xo j)).get st = (xo j).get st0.s := env.get _
  rw [hx, env.reg] at m1
  have ek := keep (j + 1) (by omega)
  simp only [Arg.get, v1, f1] at m2
  simp only [Arg.get, v2, v1, f2, f1] at m3
  have key : ∀ i, s3.v i = upd (upd (upd (upd st.v 0 l) 1 hh) (T0 + j) r) (T0 + j + 1) r' i := by
    intro i; rw [v3, v2, v1]
  rw [show 4 + (j + 1) = 4 + j + 1 by omega] at ek
  simp only [T0, upd_apply] at m2 m3 key
  ifs at m2
  ifs at m3
  rw [ek] at m3
  refine ⟨(env.trans n1).trans (n2.trans n3), fun k hk => ?_, ?_, ?_, ?_⟩
  · rw [key]; ifs; exact keep k (by omega)
  · rw [key]; ifs; exact h2
  · rw [key]; ifs; exact h3
  · have t1 : tv s3.v j = tv st.v j := by
      apply tv_congr
      intro k hk
      simp only [T0]
      rw [key]; ifs
    rw [tv_succ, tv_succ, t1, key, key, tv_succ st0.v (j + 1)]
    rw [tv_succ] at eq
    simp only [T0, sumW] at eq ⊢
    rw [show 4 + (j + 1) = 4 + j + 1 by omega, f3]
    ifs
    rw [pow_succ] at eq ⊢
    rw [pow_succ]
    linear_combination eq + (W : ℤ) ^ j * m2 + (W : ℤ) ^ j * (W : ℤ) * m3 + (W : ℤ) ^ j * m1

theorem bvz : (((0 : BitVec 64).toNat : ℕ) : ℤ) = 0 := rfl

theorem b2n_cast (b : Bool) : ((b2n b : ℕ) : ℤ) = 0 ∧ b = false ∨ ((b2n b : ℕ) : ℤ) = 1 ∧ b = true := by
  cases b
  · left; exact ⟨rfl, rfl⟩
  · right; exact ⟨rfl, rfl⟩

theorem carries_zero {x y P : ℤ} {c o : Bool} (hx : 0 ≤ x) (hy : y < P) (hP : 0 < P)
    (h : x + (b2n c : ℕ) * P + (b2n o : ℕ) * P = y) : c = false ∧ o = false := by
  rcases b2n_cast c with ⟨h1, h2⟩ | ⟨h1, h2⟩ <;> rcases b2n_cast o with ⟨h3, h4⟩ | ⟨h3, h4⟩ <;> rw [h1, h3] at h
  · exact ⟨h2, h4⟩
  all_goals (exfalso; linarith)

/-- One limb more when the modulus fills its top limb. -/
def ext (opt : Bool) : Nat := if opt then 0 else 1

/-- What a part of the program leaves in place. -/
structure Kept (st st' : VState) : Prop where
  env : SameEnv st.s st'.s
  v2 : st'.v 2 = st.v 2
  v3 : st'.v 3 = st.v 3

theorem Kept.trans {a b c : VState} (h : Kept a b) (h' : Kept b c) : Kept a c :=
  ⟨h.env.trans h'.env, h'.v2.trans h.v2, h'.v3.trans h.v3⟩

/-- The state after an upper loop: the total is `X`, both carries are clear. -/
structure Upper (n : Nat) (opt : Bool) (st : VState) (X : ℤ) (st' : VState) : Prop where
  kept : Kept st st'
  cf : st'.s.fl.cf = false
  oF : st'.s.fl.oF = false
  eq : tv st'.v (n + 1 + ext opt) = X

theorem mulW_lt {a b : ℤ} {n : Nat} (ha : a < W) (hb0 : 0 ≤ b) (hb : b < (W : ℤ) ^ n) (ha0 : 0 ≤ a) :
    a * b + (W : ℤ) ^ n ≤ (W : ℤ) ^ (n + 1) := by
  have h1 : a * b ≤ (W - 1) * b := by nlinarith
  have h2 : ((W : ℤ) - 1) * b ≤ (W - 1) * (W : ℤ) ^ n := by nlinarith
  rw [pow_succ]; nlinarith

theorem clearTop_val (n : Nat) (opt : Bool) (st : VState) (h3 : st.v 3 = 0) (hcf : st.s.fl.cf = false)
    (hof : st.s.fl.oF = false) : Upper n opt st (tv st.v (n + ext opt)) (vsteps (clearTop n opt) st) := by
  cases opt with
  | true =>
    obtain ⟨s1, e1, v1, n1, f1⟩ := vstep_mov (T0 + n) (V 3) st
    simp only [clearTop, if_true, vsteps_cons, vsteps_nil, e1]
    simp only [Arg.get, h3] at v1
    refine ⟨⟨n1, ?_, ?_⟩, by rw [f1, hcf], by rw [f1, hof], ?_⟩
    · rw [v1]; simp only [T0, upd_apply]; ifs
    · rw [v1]; simp only [T0, upd_apply]; ifs
    · show tv s1.v (n + 1) = tv st.v n
      have : tv s1.v n = tv st.v n := by
        apply tv_congr
        intro k hk
        rw [v1]; simp only [T0, upd_apply]; ifs
      rw [tv_succ, this, v1]
      simp [upd_apply]
  | false =>
    obtain ⟨s1, e1, v1, n1, f1⟩ := vstep_mov (T0 + n + 1) (V 3) st
    simp only [clearTop, Bool.false_eq_true, if_false, vsteps_cons, vsteps_nil, e1]
    simp only [Arg.get, h3] at v1
    refine ⟨⟨n1, ?_, ?_⟩, by rw [f1, hcf], by rw [f1, hof], ?_⟩
    · rw [v1]; simp only [T0, upd_apply]; ifs
    · rw [v1]; simp only [T0, upd_apply]; ifs
    · show tv s1.v (n + 1 + 1) = tv st.v (n + 1)
      have : tv s1.v (n + 1) = tv st.v (n + 1) := by
        apply tv_congr
        intro k hk
        rw [v1]; simp only [T0, upd_apply]; ifs
      rw [tv_succ, this, v1]
      simp [upd_apply, Nat.add_assoc]

/-- A later round adds `rdx * X` to the total. -/
theorem nextProduct_val (n : Nat) (opt : Bool) (xo : Nat → Opd) (st : VState) (h3 : st.v 3 = 0)
    (hcf : st.s.fl.cf = false) (hof : st.s.fl.oF = false)
    (hb : tv st.v (n + ext opt) < 2 * (W : ℤ) ^ n) :
    Upper n opt st (tv st.v (n + ext opt) + (st.s.reg .rdx).toNat * sumW (fun k => ((xo k).get st.s).toNat) n)
      (vsteps (nextProduct n opt (fun j => .hw (xo j))) st) := by
  unfold nextProduct
  rw [vsteps_append, vsteps_append]
  have U := clearTop_val n opt st h3 hcf hof
  generalize vsteps (clearTop n opt) st = s0 at U ⊢
  obtain ⟨⟨env0, v20, v30⟩, cf0, of0, eq0⟩ := U
  have L := vloop (fun j => [.mulx (V 1) (V 0) (.hw (xo j)), o2 .adcx (V (T0 + j)) (V 0),
    o2 .adox (V (T0 + j + 1)) (V 1)]) (NextInv s0 (fun k => ((xo k).get s0.s).toNat)) 0 n s0
    ⟨SameEnv.refl _, fun _ _ => rfl, rfl, rfl, by rw [cf0, of0]; simp [sumW, b2n]⟩
    (fun j _ _ st h => next_step s0 xo j st h)
  rw [Nat.zero_add] at L
  generalize vsteps _ s0 = s1 at L ⊢
  obtain ⟨env1, keep, v21, v31, eq⟩ := L
  have hX : sumW (fun k => ((xo k).get s0.s).toNat) n = sumW (fun k => ((xo k).get st.s).toNat) n :=
    sumW_congr (fun k _ => by rw [env0.get])
  have hrdx : s0.s.reg .rdx = st.s.reg .rdx := by rw [env0.reg]
  rw [hX, hrdx] at eq
  have hXlt : sumW (fun k => ((xo k).get st.s).toNat) n < (W : ℤ) ^ n := sumW_lt (fun _ _ => limb_lt _)
  have hX0 : 0 ≤ sumW (fun k => ((xo k).get st.s).toNat) n := sumW_nonneg _ _
  have ha : (((st.s.reg .rdx).toNat : ℕ) : ℤ) < W := by exact_mod_cast limb_lt _
  have hm := mulW_lt ha hX0 hXlt (by positivity)
  have hP : (0 : ℤ) < (W : ℤ) ^ n := pow_pos WZ_pos n
  have hW2 : (2 : ℤ) < W := by rw [← W_eq]; norm_num
  generalize sumW (fun k => ((xo k).get st.s).toNat) n = X at *
  generalize ((st.s.reg .rdx).toNat : ℤ) = a at *
  have h31 : s1.v 3 = 0 := by rw [v31, v30, h3]
  cases opt with
  | true =>
    obtain ⟨r, s2, e2, v2, n2, f2, m2⟩ := vstep_adcx (T0 + n) (V 3) s1
    simp only [if_true, vsteps_cons, vsteps_nil, e2]
    simp only [Arg.get, h31] at m2
    simp only [ext, if_true, Nat.add_zero] at eq0 hb ⊢
    rw [eq0] at eq
    have t2 : tv s2.v (n + 1) = tv s1.v n + r.toNat * (W : ℤ) ^ n := by
      rw [tv_succ, v2]
      congr 1
      · apply tv_congr
        intro k hk
        simp only [T0, upd_apply]; ifs
      · simp [upd_apply]
    have E : tv s2.v (n + 1) + (b2n s2.s.fl.cf : ℕ) * (W : ℤ) ^ (n + 1) + (b2n s2.s.fl.oF : ℕ) * (W : ℤ) ^ (n + 1) =
        tv st.v n + a * X := by
      rw [t2, f2]
      rw [tv_succ] at eq
      rw [pow_succ] at eq ⊢
      simp only [bvz] at m2
      linear_combination eq + (W : ℤ) ^ n * m2
    have hlt := tv_lt st.v n
    obtain ⟨c1, c2⟩ := carries_zero (tv_nonneg _ _) (by linarith) (pow_pos WZ_pos (n + 1)) E
    refine ⟨⟨(env0.trans env1).trans n2, ?_, ?_⟩, c1, c2, ?_⟩
    · rw [v2]; simp only [T0, upd_apply]; ifs; rw [v21, v20]
    · rw [v2]; simp only [T0, upd_apply]; ifs; rw [v31, v30]
    · rw [c1, c2] at E; simpa [b2n, ext] using E
  | false =>
    obtain ⟨r, s2, e2, v2, n2, f2, m2⟩ := vstep_adcx (T0 + n) (V 3) s1
    obtain ⟨r3, s3, e3, v3, n3, f3, m3⟩ := vstep_adcx (T0 + n + 1) (V 3) s2
    obtain ⟨r4, s4, e4, v4, n4, f4, m4⟩ := vstep_adox (T0 + n + 1) (V 3) s3
    simp only [Bool.false_eq_true, if_false, vsteps_cons, vsteps_nil, e2, e3, e4]
    have ek := keep (n + 1) (by omega)
    rw [show 4 + (n + 1) = 4 + n + 1 by omega] at ek
    simp only [Arg.get, h31] at m2
    simp only [Arg.get, v2, T0, upd_apply] at m3
    ifs at m3
    simp only [Arg.get, v3, v2, T0, upd_apply, f3, f2] at m4
    ifs at m4
    rw [h31, ek] at m3
    rw [h31] at m4
    simp only [ext, Bool.false_eq_true, if_false] at eq0 hb ⊢
    simp only [bvz] at m2 m3 m4
    have key : ∀ i, s4.v i = upd (upd (upd s1.v (T0 + n) r) (T0 + n + 1) r3) (T0 + n + 1) r4 i := by
      intro i; rw [v4, v3, v2]
    simp only [T0, upd_apply] at key
    have t2 : tv s4.v (n + 1 + 1) = tv s1.v n + r.toNat * (W : ℤ) ^ n + r4.toNat * (W : ℤ) ^ (n + 1) := by
      rw [tv_succ, tv_succ]
      have : tv s4.v n = tv s1.v n := by
        apply tv_congr
        intro k hk
        simp only [T0]
        rw [key]; ifs
      rw [this, key, key]
      simp only [T0, ← Nat.add_assoc]; ifs
    have E : tv s4.v (n + 1 + 1) + (b2n s4.s.fl.cf : ℕ) * (W : ℤ) ^ (n + 1 + 1) +
        (b2n s4.s.fl.oF : ℕ) * (W : ℤ) ^ (n + 1 + 1) = tv st.v (n + 1) + a * X := by
      rw [t2, f4]
      rw [tv_succ] at eq eq0
      simp only [T0] at eq eq0
      rw [show 4 + (n + 1) = 4 + n + 1 by omega] at eq0
      rw [pow_succ (W : ℤ) (n + 1), pow_succ (W : ℤ) n]
      rw [tv_succ] at eq
      rw [pow_succ] at eq eq0
      rw [tv_succ s0.v n] at eq0
      simp only [T0] at eq eq0
      linear_combination eq + eq0 + (W : ℤ) ^ n * m2 + (W : ℤ) ^ n * (W : ℤ) * m3 + (W : ℤ) ^ n * (W : ℤ) * m4
    have hW1 : (W : ℤ) ^ (n + 1 + 1) = W * (W : ℤ) ^ (n + 1) := pow_succ' _ _
    have hW0 : (W : ℤ) ^ (n + 1) = W * (W : ℤ) ^ n := pow_succ' _ _
    have hbb : tv st.v (n + 1) + a * X < (W : ℤ) ^ (n + 1 + 1) := by
      have h5 : (W : ℤ) + 1 ≤ W * W := by nlinarith
      have h6 : ((W : ℤ) + 1) * (W : ℤ) ^ n ≤ W * W * (W : ℤ) ^ n := mul_le_mul_of_nonneg_right h5 hP.le
      rw [hW1, hW0]
      rw [hW0] at hm
      linarith
    obtain ⟨c1, c2⟩ := carries_zero (tv_nonneg _ _) hbb (pow_pos WZ_pos (n + 1 + 1)) E
    refine ⟨⟨((env0.trans env1).trans n2).trans (n3.trans n4), ?_, ?_⟩, c1, c2, ?_⟩
    · rw [key]; ifs; rw [v21, v20]
    · rw [key]; ifs; rw [v31, v30]
    · rw [c1, c2] at E; simpa [b2n, ext] using E

/-! ## The first product -/

/-- Invariant of the first round's loop, after `j` limbs. -/
structure FirstInv (st0 : VState) (X : Nat → Nat) (j : Nat) (st : VState) : Prop where
  kept : Kept st0 st
  oF : st.s.fl.oF = false
  eq : tv st.v j + ((b2n st.s.fl.cf : ℕ) + (st.v ((j - 1) % 2)).toNat) * (W : ℤ) ^ j =
    (st0.s.reg .rdx).toNat * sumW X j

theorem first_step (st0 : VState) (xo : Nat → Opd) (j : Nat) (hj : 1 ≤ j) (st : VState)
    (h : FirstInv st0 (fun k => ((xo k).get st0.s).toNat) j st) :
    FirstInv st0 (fun k => ((xo k).get st0.s).toNat) (j + 1)
      (vsteps [.mulx (V (j % 2)) (V (T0 + j)) (.hw (xo j)), o2 .adcx (V (T0 + j)) (V ((j - 1) % 2))] st) := by
  obtain ⟨⟨env, h2, h3⟩, hof, eq⟩ := h
  obtain ⟨l, hh, s1, e1, v1, n1, f1, m1⟩ := vstep_mulx (j % 2) (T0 + j) (.hw (xo j)) st
  obtain ⟨r, s2, e2, v2, n2, f2, m2⟩ := vstep_adcx (T0 + j) (V ((j - 1) % 2)) s1
  rw [vsteps_cons, e1, vsteps_cons, e2, vsteps_nil]
  have hx : (Arg.hw (xo j)).get st = (xo j).get st0.s := env.get _
  rw [hx, env.reg] at m1
  simp only [Arg.get, v1, f1] at m2
  have key : ∀ i, s2.v i = upd (upd (upd st.v (T0 + j) l) (j % 2) hh) (T0 + j) r i := by
    intro i; rw [v2, v1]
  simp only [T0, upd_apply] at m2 key
  ifs at m2
  refine ⟨⟨(env.trans n1).trans n2, ?_, ?_⟩, ?_, ?_⟩
  · rw [key]; ifs; exact h2
  · rw [key]; ifs; exact h3
  · rw [f2, f1, hof]
  · have t1 : tv s2.v j = tv st.v j := by
      apply tv_congr
      intro k hk
      simp only [T0]
      rw [key]; ifs
    rw [tv_succ, t1, key, key, Nat.add_sub_cancel]
    simp only [T0, sumW]
    ifs
    rw [pow_succ]
    linear_combination eq + (W : ℤ) ^ j * m2 + (W : ℤ) ^ j * m1

theorem firstProduct_val (n : Nat) (hn : 0 < n) (opt : Bool) (o0 : Opd) (xo : Nat → Opd) (st : VState)
    (h0 : o0.get st.s = (xo 0).get st.s) (h3 : st.v 3 = 0) (hcf : st.s.fl.cf = false) (hof : st.s.fl.oF = false) :
    Upper n opt st ((st.s.reg .rdx).toNat * sumW (fun k => ((xo k).get st.s).toNat) n)
      (vsteps (firstProduct n opt (.hw o0) (fun j => .hw (xo j))) st) := by
  unfold firstProduct
  rw [vsteps_append, vsteps_append, vsteps_append]
  have I1 : FirstInv st (fun k => ((xo k).get st.s).toNat) 1 (vsteps [.mulx (V 0) (V T0) (.hw o0)] st) := by
    obtain ⟨l, hh, s1, e1, v1, n1, f1, m1⟩ := vstep_mulx 0 T0 (.hw o0) st
    rw [vsteps_cons, vsteps_nil, e1]
    have hx : (Arg.hw o0).get st = (xo 0).get st.s := h0
    rw [hx] at m1
    refine ⟨⟨n1, ?_, ?_⟩, by rw [f1, hof], ?_⟩
    · rw [v1]; simp [upd_apply]
    · rw [v1]; simp [upd_apply]
    · rw [f1, hcf, v1]
      simp only [tv, sumW, upd_apply, T0, b2n]
      simp
      linear_combination m1
  have L := vloop (fun j => [.mulx (V (j % 2)) (V (T0 + j)) (.hw (xo j)), o2 .adcx (V (T0 + j)) (V ((j - 1) % 2))])
    (FirstInv st (fun k => ((xo k).get st.s).toNat)) 1 (n - 1) _ I1 (fun j hj _ s h => first_step st xo j hj s h)
  rw [show 1 + (n - 1) = n by omega] at L
  generalize vsteps _ (vsteps _ st) = s1 at L ⊢
  obtain ⟨⟨env, k2, k3⟩, of1, eq⟩ := L
  have hXlt : sumW (fun k => ((xo k).get st.s).toNat) n < (W : ℤ) ^ n := sumW_lt (fun _ _ => limb_lt _)
  have hX0 : 0 ≤ sumW (fun k => ((xo k).get st.s).toNat) n := sumW_nonneg _ _
  have ha : (((st.s.reg .rdx).toNat : ℕ) : ℤ) < W := by exact_mod_cast limb_lt _
  have hm := mulW_lt ha hX0 hXlt (by positivity)
  have hP : (0 : ℤ) < (W : ℤ) ^ n := pow_pos WZ_pos n
  generalize sumW (fun k => ((xo k).get st.s).toNat) n = X at *
  generalize ((st.s.reg .rdx).toNat : ℤ) = a at *
  have h31 : s1.v 3 = 0 := by rw [k3, h3]
  obtain ⟨s2, e2, v2, n2, f2⟩ := vstep_mov (T0 + n) (V 3) s1
  obtain ⟨r, s3, e3, v3, n3, f3, m3⟩ := vstep_adcx (T0 + n) (V ((n - 1) % 2)) s2
  have E3 : vsteps [o2 .mov (V (T0 + n)) (V 3), o2 .adcx (V (T0 + n)) (V ((n - 1) % 2))] s1 = s3 := by
    rw [vsteps_cons, vsteps_cons, e2, e3, vsteps_nil]
  rw [E3]
  simp only [Arg.get, v2, f2] at m3
  have key : ∀ i, s3.v i = upd (upd s1.v (T0 + n) (s1.v 3)) (T0 + n) r i := by intro i; rw [v3, v2]; rfl
  simp only [T0, upd_apply] at m3 key
  ifs at m3
  simp only [h31, bvz] at m3
  have t3 : tv s3.v (n + 1) = tv s1.v n + r.toNat * (W : ℤ) ^ n := by
    have : tv s3.v n = tv s1.v n := by
      apply tv_congr
      intro k hk
      simp only [T0]
      rw [key]; ifs
    rw [tv_succ, this, key]; simp
  have E : tv s3.v (n + 1) + (b2n s3.s.fl.cf : ℕ) * (W : ℤ) ^ (n + 1) + (b2n false : ℕ) * (W : ℤ) ^ (n + 1) = a * X := by
    rw [t3, show ((b2n false : ℕ) : ℤ) = 0 from rfl, pow_succ]
    linear_combination eq + (W : ℤ) ^ n * m3
  obtain ⟨c1, _⟩ := carries_zero (tv_nonneg _ _) (by linarith) (pow_pos WZ_pos (n + 1)) E
  rw [c1] at E
  simp only [show ((b2n false : ℕ) : ℤ) = 0 from rfl, zero_mul, add_zero] at E
  have K : Kept st s3 := ⟨(env.trans n2).trans n3, by rw [key]; ifs; exact k2, by rw [key]; ifs; exact k3⟩
  have of3 : s3.s.fl.oF = false := by rw [f3, f2, of1]
  cases opt with
  | true => exact ⟨K, c1, of3, E⟩
  | false =>
    obtain ⟨s4, e4, v4, n4, f4⟩ := vstep_mov (T0 + n + 1) (V 3) s3
    obtain ⟨r5, s5, e5, v5, n5, f5, m5⟩ := vstep_adcx (T0 + n + 1) (V 3) s4
    simp only [Bool.false_eq_true, if_false, vsteps_cons, vsteps_nil, e4, e5]
    have h33 : s3.v 3 = 0 := by rw [K.v3, h3]
    simp only [Arg.get, v4, f4, c1, T0, upd_apply, h33] at m5
    ifs at m5
    simp only [bvz, show ((b2n false : ℕ) : ℤ) = 0 from rfl, add_zero] at m5
    have key5 : ∀ i, s5.v i = upd (upd s3.v (T0 + n + 1) (s3.v 3)) (T0 + n + 1) r5 i := by intro i; rw [v5, v4]; rfl
    simp only [T0, upd_apply] at key5
    have hW := WZ_pos
    have hr5 : ((r5.toNat : ℕ) : ℤ) = 0 ∧ s5.s.fl.cf = false := by
      rcases b2n_cast s5.s.fl.cf with ⟨h1, h2⟩ | ⟨h1, h2⟩
      · rw [h1] at m5; exact ⟨by linarith, h2⟩
      · rw [h1] at m5
        have : (0 : ℤ) ≤ r5.toNat := by positivity
        exfalso; linarith
    refine ⟨K.trans ⟨n4.trans n5, by rw [key5]; ifs, by rw [key5]; ifs⟩, hr5.2, by rw [f5, f4, of3], ?_⟩
    show tv s5.v (n + 1 + 1) = _
    have : tv s5.v (n + 1) = tv s3.v (n + 1) := by
      apply tv_congr
      intro k hk
      simp only [T0]
      rw [key5]; ifs
    rw [tv_succ, this, key5]
    simp only [T0, ← Nat.add_assoc]
    ifs
    rw [hr5.1, E]; ring

/-- The copy at the start of the conversion from Montgomery form. -/
theorem copyIn_val (n : Nat) (opt : Bool) (xo : Nat → Opd) (st : VState) (h3 : st.v 3 = 0)
    (hcf : st.s.fl.cf = false) (hof : st.s.fl.oF = false) :
    Upper n opt st (sumW (fun k => ((xo k).get st.s).toNat) n)
      (vsteps (((List.range' 0 n).flatMap fun j => [o2 .mov (V (T0 + j)) (.hw (xo j))]) ++
        [o2 .mov (V (T0 + n)) (V 3)] ++ (if opt then [] else [o2 .mov (V (T0 + n + 1)) (V 3)])) st) := by
  rw [vsteps_append, vsteps_append]
  have L := vloop (fun j => [o2 .mov (V (T0 + j)) (.hw (xo j))])
    (fun j s => Kept st s ∧ s.s.fl = st.s.fl ∧ tv s.v j = sumW (fun k => ((xo k).get st.s).toNat) j) 0 n st
    ⟨⟨SameEnv.refl _, rfl, rfl⟩, rfl, rfl⟩ (by
      rintro j - hj s ⟨K, f, e⟩
      obtain ⟨s1, e1, v1, n1, f1⟩ := vstep_mov (T0 + j) (.hw (xo j)) s
      rw [vsteps_cons, vsteps_nil, e1]
      have hx : (Arg.hw (xo j)).get s = (xo j).get st.s := K.env.get _
      rw [hx] at v1
      refine ⟨K.trans ⟨n1, ?_, ?_⟩, by rw [f1, f], ?_⟩
      · rw [v1]; simp only [T0, upd_apply]; ifs
      · rw [v1]; simp only [T0, upd_apply]; ifs
      · have : tv s1.v j = tv s.v j := by
          apply tv_congr
          intro k hk
          rw [v1]; simp only [T0, upd_apply]; ifs
        rw [tv_succ, this, e, v1]
        simp [upd_apply, sumW])
  rw [Nat.zero_add] at L
  generalize vsteps _ st = s1 at L ⊢
  obtain ⟨K, f, e⟩ := L
  obtain ⟨s2, e2, v2, n2, f2⟩ := vstep_mov (T0 + n) (V 3) s1
  have h31 : s1.v 3 = 0 := by rw [K.v3, h3]
  simp only [Arg.get, h31] at v2
  have K2 : Kept st s2 := K.trans ⟨n2, by rw [v2]; simp only [T0, upd_apply]; ifs, by
    rw [v2]; simp only [T0, upd_apply]; ifs⟩
  have h32 : s2.v 3 = 0 := by rw [K2.v3, h3]
  have t2 : tv s2.v (n + 1) = sumW (fun k => ((xo k).get st.s).toNat) n := by
    have : tv s2.v n = tv s1.v n := by
      apply tv_congr
      intro k hk
      rw [v2]; simp only [T0, upd_apply]; ifs
    rw [tv_succ, this, e, v2]
    simp [upd_apply]
  rw [vsteps_cons, vsteps_nil, e2]
  cases opt with
  | true => exact ⟨K2, by rw [vsteps, if_pos rfl]; show s2.s.fl.cf = _; rw [f2, f, hcf], by rw [vsteps, if_pos rfl]; show s2.s.fl.oF = _; rw [f2, f, hof], t2⟩
  | false =>
    obtain ⟨s4, e4, v4, n4, f4⟩ := vstep_mov (T0 + n + 1) (V 3) s2
    simp only [Bool.false_eq_true, if_false, vsteps_cons, vsteps_nil, e4]
    simp only [Arg.get, h32] at v4
    refine ⟨K2.trans ⟨n4, ?_, ?_⟩, by rw [f4, f2, f, hcf], by rw [f4, f2, f, hof], ?_⟩
    · rw [v4]; simp only [T0, upd_apply]; ifs
    · rw [v4]; simp only [T0, upd_apply]; ifs
    · show tv s4.v (n + 1 + 1) = _
      have : tv s4.v (n + 1) = tv s2.v (n + 1) := by
        apply tv_congr
        intro k hk
        rw [v4]; simp only [T0, upd_apply]; ifs
      rw [tv_succ, this, v4, t2]
      simp [upd_apply, Nat.add_assoc]

end FF.X86
