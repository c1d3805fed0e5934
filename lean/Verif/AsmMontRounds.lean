import Verif.AsmMontSecond

/-!
# All the rounds of the Montgomery programs
-/

namespace FF.X86

/-- `∑_{i<n} X i · W^i`. -/
def sumZ (X : Nat → ℤ) : Nat → ℤ
  | 0 => 0
  | i + 1 => sumZ X i + X i * (W : ℤ) ^ i

/-- What holds between two rounds. -/
structure Ctx (s0 : State) (q : Nat) (st : VState) : Prop where
  but : SameBut s0 st.s
  v2 : st.v 2 = np q
  v3 : st.v 3 = 0
  cf : st.s.fl.cf = false
  oF : st.s.fl.oF = false

theorem Upper.ctx {n : Nat} {opt : Bool} {s0 : State} {q : Nat} {st st' : VState} {X : ℤ} (h : Ctx s0 q st)
    (u : Upper n opt st X st') : Ctx s0 q st' :=
  ⟨h.but.trans u.kept.env.but, by rw [u.kept.v2, h.v2], by rw [u.kept.v3, h.v3], u.cf, u.oF⟩

theorem rounds_val (n : Nat) (hn : 0 < n) (opt : Bool) {q : Nat} (hq : q % 2 = 1) (hq0 : 0 < q) (s0 : State)
    (hQ : sumW (fun k => (((Opd.sym .q (8 * k)).get s0).toNat)) n = q)
    (upper : Nat → List (Ins Arg)) (X : Nat → ℤ) (D : ℤ) (_hD : 0 ≤ D)
    (hX0 : X 0 < W * D + q) (hX : ∀ i, 0 < i → i < n → X i ≤ (W - 1) * D) (hb : D + q ≤ (W : ℤ) ^ (n + ext opt))
    (hup : ∀ i < n, ∀ st, Ctx s0 q st → (i ≠ 0 → tv st.v (n + ext opt) < D + q) →
      Ctx s0 q (vsteps (upper i) st) ∧
      tv (vsteps (upper i) st).v (n + 1 + ext opt) = (if i = 0 then 0 else tv st.v (n + ext opt)) + X i)
    (st : VState) (hst : Ctx s0 q st) :
    Ctx s0 q (vsteps (rounds upper n opt) st) ∧
    ∃ M : ℤ, 0 ≤ M ∧ M < (W : ℤ) ^ n ∧
      (W : ℤ) ^ n * tv (vsteps (rounds upper n opt) st).v (n + ext opt) = sumZ X n + q * M := by
  have hqZ : (0 : ℤ) < q := by exact_mod_cast hq0
  have hW := WZ_pos
  have L := vloop (fun i => upper i ++ second n opt)
    (fun i st => Ctx s0 q st ∧ (i ≠ 0 → tv st.v (n + ext opt) < D + q) ∧
      ∃ M : ℤ, 0 ≤ M ∧ M < (W : ℤ) ^ i ∧
        (W : ℤ) ^ i * (if i = 0 then 0 else tv st.v (n + ext opt)) = sumZ X i + q * M) 0 n st
    ⟨hst, fun h => absurd rfl h, 0, le_refl _, by simp, by simp [sumZ]⟩ (by
      rintro i - hi st ⟨hc, hT, M, hM0, hM, hE⟩
      rw [Nat.zero_add] at hi
      obtain ⟨c1, e1⟩ := hup i hi st hc hT
      rw [vsteps_append]
      generalize vsteps (upper i) st = s1 at c1 e1 ⊢
      have hTX : tv s1.v (n + 1 + ext opt) < W * D + q := by
        rw [e1]
        by_cases h0 : i = 0
        · subst h0; simpa using hX0
        · rw [if_neg h0]
          have h1 := hX i (by omega) hi
          have h2 := hT h0
          nlinarith
      have hQ1 : sumW (fun k => (((Opd.sym .q (8 * k)).get s1.s).toNat)) n = q := by
        rw [← hQ]; apply sumW_congr; intro k _; rw [c1.but.get (o := .sym .q (8 * k)) trivial]
      have hbnd : tv s1.v (n + 1 + ext opt) + (W - 1) * q < (W : ℤ) ^ (n + 1 + ext opt) := by
        rw [show n + 1 + ext opt = (n + ext opt) + 1 by omega, pow_succ] at *
        nlinarith
      obtain ⟨m, hm, e2, cf, oF, but, v2, v3⟩ := second_val n hn opt s1 hq c1.v2 c1.v3 hQ1 c1.cf c1.oF hbnd
      generalize vsteps (second n opt) s1 = s2 at e2 cf oF but v2 v3 ⊢
      have hmZ : (m : ℤ) + 1 ≤ W := by exact_mod_cast hm
      have hm0 : (0 : ℤ) ≤ m := by positivity
      refine ⟨⟨c1.but.trans but, by rw [v2, c1.v2], by rw [v3, c1.v3], cf, oF⟩, fun _ => ?_, M + m * (W : ℤ) ^ i, ?_, ?_, ?_⟩
      · have : W * tv s2.v (n + ext opt) < W * (D + q) := by
          rw [e2]
          have : (m : ℤ) * q ≤ (W - 1) * q := by nlinarith
          nlinarith
        exact lt_of_mul_lt_mul_left this hW.le
      · positivity
      · rw [pow_succ]
        have : (0 : ℤ) < (W : ℤ) ^ i := pow_pos hW i
        nlinarith
      · rw [if_neg (Nat.succ_ne_zero i), pow_succ, sumZ, mul_assoc, e2, e1]
        linear_combination hE)
  rw [Nat.zero_add] at L
  obtain ⟨h1, _, M, h2, h3, h4⟩ := L
  rw [if_neg (by omega)] at h4
  exact ⟨h1, M, h2, h3, h4⟩

/-- `mov rdx, x`. -/
theorem vstep_movRdx (y : Arg) (st : VState) :
    ∃ st', vstep (o2 .mov vrdx y) st = st' ∧ st'.v = st.v ∧ SameBut st.s st'.s ∧ st'.s.fl = st.s.fl ∧
      st'.s.reg .rdx = y.get st :=
  ⟨_, rfl, rfl, ⟨fun r hr => by simp [vstep, Ins.exec, Op2.eval, Op2.writes, Arg.set, Opd.set, upd_apply, hr], rfl, rfl⟩,
    rfl, by simp [vstep, Ins.exec, Op2.eval, Op2.writes, Arg.set, Opd.set, upd_apply]⟩

theorem Ctx.mov {s0 : State} {q : Nat} {st st' : VState} (h : Ctx s0 q st) (hv : st'.v = st.v)
    (hb : SameBut st.s st'.s) (hf : st'.s.fl = st.s.fl) : Ctx s0 q st' :=
  ⟨h.but.trans hb, by rw [hv, h.v2], by rw [hv, h.v3], by rw [hf, h.cf], by rw [hf, h.oF]⟩

/-- The value of an array given by operands. -/
abbrev opv (s : State) (xo : Nat → Opd) (n : Nat) : ℤ := sumW (fun k => ((xo k).get s).toNat) n

theorem opv_but {s s' : State} (h : SameBut s s') {xo : Nat → Opd} (hx : ∀ k, (xo k).noRdx) (n : Nat) :
    opv s' xo n = opv s xo n := sumW_congr (fun k _ => by rw [h.get (hx k)])

theorem opv_lt (s : State) (xo : Nat → Opd) (n : Nat) : opv s xo n < (W : ℤ) ^ n := sumW_lt (fun _ _ => limb_lt _)
theorem opv_nonneg (s : State) (xo : Nat → Opd) (n : Nat) : 0 ≤ opv s xo n := sumW_nonneg _ _

/-- Rounds that multiply limb after limb of the array `yo` by the array `xo`. -/
theorem product_round (n : Nat) (hn : 0 < n) (opt : Bool) {q : Nat} (s0 : State) (yo xo : Nat → Opd) (o0 : Opd)
    (hy : ∀ k, (yo k).noRdx) (hx : ∀ k, (xo k).noRdx)
    (h0 : ∀ s, s.reg .rdx = (yo 0).get s → o0.get s = (xo 0).get s)
    (hB : opv s0 xo n + q < 2 * (W : ℤ) ^ n) (i : Nat)
    (st : VState) (hc : Ctx s0 q st) (hT : i ≠ 0 → tv st.v (n + ext opt) < opv s0 xo n + q) :
    Ctx s0 q (vsteps ([o2 .mov vrdx (.hw (yo i))] ++ if i = 0 then firstProduct n opt (.hw o0) (fun j => .hw (xo j))
        else nextProduct n opt (fun j => .hw (xo j))) st) ∧
      tv (vsteps ([o2 .mov vrdx (.hw (yo i))] ++ if i = 0 then firstProduct n opt (.hw o0) (fun j => .hw (xo j))
        else nextProduct n opt (fun j => .hw (xo j))) st).v (n + 1 + ext opt) =
        (if i = 0 then 0 else tv st.v (n + ext opt)) + ((yo i).get s0).toNat * opv s0 xo n := by
  obtain ⟨s1, e1, v1, b1, f1, r1⟩ := vstep_movRdx (.hw (yo i)) st
  rw [vsteps_append, vsteps_cons, vsteps_nil, e1]
  have c1 : Ctx s0 q s1 := hc.mov v1 b1 f1
  have hr : s1.s.reg .rdx = (yo i).get s0 := by
    rw [r1]; exact hc.but.get (hy i)
  have hX : opv s1.s xo n = opv s0 xo n := opv_but c1.but hx n
  by_cases hi : i = 0
  · subst hi
    rw [if_pos rfl, if_pos rfl]
    have u := firstProduct_val n hn opt o0 xo s1 (h0 _ (by rw [hr, c1.but.get (hy 0)])) c1.v3 c1.cf c1.oF
    refine ⟨u.ctx c1, ?_⟩
    rw [u.eq]
    show _ * opv s1.s xo n = _
    rw [hX, hr]; ring
  · rw [if_neg hi, if_neg hi]
    have u := nextProduct_val n opt xo s1 c1.v3 c1.cf c1.oF (by rw [v1]; have := hT hi; linarith)
    refine ⟨u.ctx c1, ?_⟩
    rw [u.eq, v1]
    show _ + _ * opv s1.s xo n = _
    rw [hX, hr]

theorem sumZ_mul (f : Nat → Nat) (B : ℤ) (n : Nat) : sumZ (fun i => f i * B) n = sumW f n * B := by
  induction n with
  | zero => simp [sumZ, sumW]
  | succ n ih => rw [sumZ, sumW, ih]; ring

theorem sumZ_first (x : ℤ) (n : Nat) (hn : 0 < n) : sumZ (fun i => if i = 0 then x else 0) n = x := by
  induction n with
  | zero => omega
  | succ n ih =>
    rw [sumZ]
    rcases Nat.eq_zero_or_pos n with h | h
    · subst h; simp [sumZ]
    · rw [ih h]; simp [Nat.ne_of_gt h]

/-- The total after the rounds: `2^(64 n) T = P + q M` with `M < 2^(64 n)`. -/
def Total (n : Nat) (opt : Bool) (q : Nat) (s0 : State) (P : ℤ) (st : VState) : Prop :=
  Ctx s0 q st ∧ ∃ M : ℤ, 0 ≤ M ∧ M < (W : ℤ) ^ n ∧ (W : ℤ) ^ n * tv st.v (n + ext opt) = P + q * M

/-- Multiplication rounds. -/
theorem mulRounds_val (n : Nat) (hn : 0 < n) (opt : Bool) {q : Nat} (hq : q % 2 = 1) (s0 : State)
    (hQ : sumW (fun k => (((Opd.sym .q (8 * k)).get s0).toNat)) n = q) (yo xo : Nat → Opd) (o0 : Opd)
    (hy : ∀ k, (yo k).noRdx) (hx : ∀ k, (xo k).noRdx)
    (h0 : ∀ s, s.reg .rdx = (yo 0).get s → o0.get s = (xo 0).get s)
    (hopt : opt = true → opv s0 xo n + q ≤ (W : ℤ) ^ n) (st : VState) (hc : Ctx s0 q st) :
    Total n opt q s0 (opv s0 yo n * opv s0 xo n) (vsteps (rounds (fun i => [o2 .mov vrdx (.hw (yo i))] ++
      if i = 0 then firstProduct n opt (.hw o0) (fun j => .hw (xo j))
        else nextProduct n opt (fun j => .hw (xo j))) n opt) st) := by
  have hq0 : 0 < q := by omega
  have hqlt : (q : ℤ) < (W : ℤ) ^ n := by rw [← hQ]; exact sumW_lt (fun _ _ => limb_lt _)
  have hB := opv_lt s0 xo n
  have hB0 := opv_nonneg s0 xo n
  have hW := WZ_pos
  have hqZ : (0 : ℤ) < q := by exact_mod_cast hq0
  have key : ∀ i, (((yo i).get s0).toNat : ℤ) * opv s0 xo n ≤ (W - 1) * opv s0 xo n := by
    intro i
    have : (((yo i).get s0).toNat : ℤ) + 1 ≤ W := by exact_mod_cast limb_lt _
    nlinarith
  have hPn : (0 : ℤ) < (W : ℤ) ^ n := pow_pos hW n
  have hW2 : (2 : ℤ) < W := by rw [← W_eq]; norm_num
  have R := rounds_val n hn opt hq hq0 s0 hQ _ (fun i => (((yo i).get s0).toNat : ℤ) * opv s0 xo n) (opv s0 xo n) hB0
    (by have := key 0; nlinarith) (fun i _ _ => key i) (by
      cases opt with
      | true => simpa [ext] using hopt rfl
      | false => simp only [ext, Bool.false_eq_true, if_false, pow_succ]; nlinarith)
    (fun i _ st hc hT => product_round n hn opt s0 yo xo o0 hy hx h0 (by linarith) i st hc hT) st hc
  obtain ⟨h1, M, h2, h3, h4⟩ := R
  rw [sumZ_mul (fun i => ((yo i).get s0).toNat)] at h4
  exact ⟨h1, M, h2, h3, h4⟩

/-- Rounds of the product by one word. -/
theorem mul1Rounds_val (n : Nat) (hn : 0 < n) (opt : Bool) {q : Nat} (hq : q % 2 = 1) (s0 : State)
    (hQ : sumW (fun k => (((Opd.sym .q (8 * k)).get s0).toNat)) n = q)
    (hopt : opt = true → opv s0 (fun k => .mem .rsi (8 * k)) n + q ≤ (W : ℤ) ^ n) (st : VState) (hc : Ctx s0 q st) :
    Total n opt q s0 ((s0.reg .rcx).toNat * opv s0 (fun k => .mem .rsi (8 * k)) n)
      (vsteps (rounds (upperMul1 n opt) n opt) st) := by
  have hq0 : 0 < q := by omega
  have hqlt : (q : ℤ) < (W : ℤ) ^ n := by rw [← hQ]; exact sumW_lt (fun _ _ => limb_lt _)
  set xo : Nat → Opd := fun k => .mem .rsi (8 * k) with hxo
  have hx : ∀ k, (xo k).noRdx := fun k => (by decide : Reg.rsi ≠ Reg.rdx)
  have hB := opv_lt s0 xo n
  have hB0 := opv_nonneg s0 xo n
  have hW := WZ_pos
  have hqZ : (0 : ℤ) < q := by exact_mod_cast hq0
  have hPn : (0 : ℤ) < (W : ℤ) ^ n := pow_pos hW n
  have hW2 : (2 : ℤ) < W := by rw [← W_eq]; norm_num
  have R := rounds_val n hn opt hq hq0 s0 hQ (upperMul1 n opt)
    (fun i => if i = 0 then ((s0.reg .rcx).toNat : ℤ) * opv s0 xo n else 0) (opv s0 xo n) hB0
    (by
      have : (((s0.reg .rcx).toNat : ℕ) : ℤ) + 1 ≤ W := by exact_mod_cast limb_lt _
      rw [if_pos rfl]; nlinarith)
    (fun i hi _ => by rw [if_neg (by omega)]; nlinarith) (by
      cases opt with
      | true => simpa [ext] using hopt rfl
      | false => simp only [ext, Bool.false_eq_true, if_false, pow_succ]; nlinarith)
    (fun i _ st hc hT => by
      by_cases hi : i = 0
      · subst hi
        simp only [upperMul1, if_true]
        obtain ⟨s1, e1, v1, b1, f1, r1⟩ := vstep_movRdx vrcx st
        rw [vsteps_append, vsteps_cons, vsteps_nil, e1]
        have c1 : Ctx s0 q s1 := hc.mov v1 b1 f1
        have u := firstProduct_val n hn opt (xo 0) xo s1 rfl c1.v3 c1.cf c1.oF
        refine ⟨u.ctx c1, ?_⟩
        have hr : s1.s.reg .rdx = s0.reg .rcx := by
          rw [r1]; exact hc.but.reg .rcx (by decide)
        rw [u.eq, hr]
        show _ * opv s1.s xo n = _
        rw [opv_but c1.but hx n]; ring
      · simp only [upperMul1, if_neg hi]
        have u := clearTop_val n opt st hc.v3 hc.cf hc.oF
        exact ⟨u.ctx hc, by rw [u.eq]; ring⟩) st hc
  obtain ⟨h1, M, h2, h3, h4⟩ := R
  rw [sumZ_first _ n hn] at h4
  exact ⟨h1, M, h2, h3, h4⟩

/-- Rounds of the conversion from Montgomery form. -/
theorem fromRounds_val (n : Nat) (hn : 0 < n) (opt : Bool) {q : Nat} (hq : q % 2 = 1) (s0 : State)
    (hQ : sumW (fun k => (((Opd.sym .q (8 * k)).get s0).toNat)) n = q)
    (hopt : opt = true → (W : ℤ) ^ (n - 1) + q ≤ (W : ℤ) ^ n) (st : VState) (hc : Ctx s0 q st) :
    Total n opt q s0 (opv s0 (fun k => .mem .rsi (8 * k)) n) (vsteps (rounds (upperFrom n opt) n opt) st) := by
  have hq0 : 0 < q := by omega
  have hqlt : (q : ℤ) < (W : ℤ) ^ n := by rw [← hQ]; exact sumW_lt (fun _ _ => limb_lt _)
  set xo : Nat → Opd := fun k => .mem .rsi (8 * k) with hxo
  have hx : ∀ k, (xo k).noRdx := fun k => (by decide : Reg.rsi ≠ Reg.rdx)
  have hB := opv_lt s0 xo n
  have hB0 := opv_nonneg s0 xo n
  have hW := WZ_pos
  have hqZ : (0 : ℤ) < q := by exact_mod_cast hq0
  have hPn : (0 : ℤ) < (W : ℤ) ^ n := pow_pos hW n
  have hW2 : (2 : ℤ) < W := by rw [← W_eq]; norm_num
  have hPP : (W : ℤ) ^ n = W * (W : ℤ) ^ (n - 1) := by
    rw [← pow_succ', Nat.sub_add_cancel hn]
  have hP1 : (0 : ℤ) < (W : ℤ) ^ (n - 1) := pow_pos hW _
  have R := rounds_val n hn opt hq hq0 s0 hQ (upperFrom n opt)
    (fun i => if i = 0 then opv s0 xo n else 0) ((W : ℤ) ^ (n - 1)) hP1.le
    (by rw [if_pos rfl, ← hPP]; linarith)
    (fun i hi _ => by rw [if_neg (by omega)]; nlinarith) (by
      cases opt with
      | true => simpa [ext] using hopt rfl
      | false => simp only [ext, Bool.false_eq_true, if_false, pow_succ]; nlinarith)
    (fun i _ st hc hT => by
      by_cases hi : i = 0
      · subst hi
        simp only [upperFrom, if_true]
        have u := copyIn_val n opt xo st hc.v3 hc.cf hc.oF
        refine ⟨u.ctx hc, ?_⟩
        rw [u.eq]
        show opv st.s xo n = _
        rw [opv_but hc.but hx n]; ring
      · simp only [upperFrom, if_neg hi]
        have u := clearTop_val n opt st hc.v3 hc.cf hc.oF
        exact ⟨u.ctx hc, by rw [u.eq]; ring⟩) st hc
  obtain ⟨h1, M, h2, h3, h4⟩ := R
  rw [sumZ_first _ n hn] at h4
  exact ⟨h1, M, h2, h3, h4⟩

/-- The first three instructions. -/
theorem prologue_val (st : VState) {q : Nat} (hnp : (Opd.sym .np 0).get st.s = np q) :
    Ctx { st.s with reg := upd st.s.reg .rcx (st.s.reg .rdx) } q (vsteps prologue st) := by
  refine ⟨⟨fun r _ => rfl, rfl, rfl⟩, ?_, ?_, rfl, rfl⟩
  · simp only [prologue, vsteps, List.foldl, vstep, Ins.exec, Op2.eval, Op2.writes, Arg.get, Arg.set, Opd.set, if_true,
      upd_apply]
    exact hnp
  · simp [prologue, vsteps, List.foldl, vstep, Ins.exec, Op2.eval, Op2.writes, Arg.get, Arg.set, Opd.set, upd_apply]

end FF.X86
