import Verif.AsmMontVal

/-!
# The reduction loop of the Montgomery programs
-/

namespace FF.X86

theorem sumW_head (f : Nat → Nat) (m : Nat) : sumW f (m + 1) = f 0 + W * sumW (fun k => f (k + 1)) m := by
  induction m with
  | zero => simp [sumW]
  | succ m ih =>
    rw [sumW, ih]
    simp only [sumW]
    rw [pow_succ]; ring

/-- Registers other than `rdx`, memory and labels are the same. -/
structure SameBut (s s' : State) : Prop where
  reg : ∀ r, r ≠ .rdx → s'.reg r = s.reg r
  mem : s'.mem = s.mem
  sym : s'.sym = s.sym

theorem SameBut.trans {a b c : State} (h : SameBut a b) (h' : SameBut b c) : SameBut a c :=
  ⟨fun r hr => (h'.reg r hr).trans (h.reg r hr), h'.mem.trans h.mem, h'.sym.trans h.sym⟩

theorem SameEnv.but {a b : State} (h : SameEnv a b) : SameBut a b := ⟨fun r _ => by rw [h.reg], h.mem, h.sym⟩

theorem SameBut.refl (s : State) : SameBut s s := ⟨fun _ _ => rfl, rfl, rfl⟩

/-- Operands that do not mention `rdx`. -/
def Opd.noRdx : Opd → Prop
  | .reg r => r ≠ .rdx
  | .mem b _ => b ≠ .rdx
  | _ => True

theorem SameBut.get {s s' : State} (h : SameBut s s') {o : Opd} (ho : o.noRdx) : o.get s' = o.get s := by
  cases o with
  | reg r => exact h.reg r ho
  | mem b off => simp only [Opd.get, h.mem, h.reg b ho]
  | sym y off => simp only [Opd.get, h.mem, h.sym]
  | imm v => rfl

/-- Invariant of the reduction loop, after `j` limbs of the modulus. -/
structure SecInv (st0 : VState) (Q : Nat → Nat) (j : Nat) (st : VState) : Prop where
  kept : Kept st0 st
  keep : ∀ k, j ≤ k + 1 → st.v (4 + k) = st0.v (4 + k)
  eq : W * tv st.v (j - 1) +
      ((b2n st.s.fl.cf : ℕ) + (b2n st.s.fl.oF : ℕ) + (st.v (j % 2)).toNat) * (W : ℤ) ^ j =
    tv st0.v j + (st0.s.reg .rdx).toNat * sumW Q j

theorem sec_step (st0 : VState) (xo : Nat → Opd) (j : Nat) (hj : 1 ≤ j) (st : VState)
    (h : SecInv st0 (fun k => ((xo k).get st0.s).toNat) j st) :
    SecInv st0 (fun k => ((xo k).get st0.s).toNat) (j + 1)
      (vsteps [.mulx (V ((j + 1) % 2)) (V (T0 + j - 1)) (.hw (xo j)), o2 .adcx (V (T0 + j - 1)) (V (j % 2)),
        o2 .adox (V (T0 + j - 1)) (V (T0 + j))] st) := by
  obtain ⟨i, rfl⟩ : ∃ i, j = i + 1 := ⟨j - 1, by omega⟩
  rw [show T0 + (i + 1) - 1 = 4 + i by simp only [T0]; omega, show T0 + (i + 1) = 4 + i + 1 by simp only [T0]; omega]
  obtain ⟨⟨env, h2, h3⟩, keep, eq⟩ := h
  obtain ⟨l, hh, s1, e1, v1, n1, f1, m1⟩ := vstep_mulx ((i + 1 + 1) % 2) (4 + i) (.hw (xo (i + 1))) st
  obtain ⟨r, s2, e2, v2, n2, f2, m2⟩ := vstep_adcx (4 + i) (V ((i + 1) % 2)) s1
  obtain ⟨r', s3, e3, v3, n3, f3, m3⟩ := vstep_adox (4 + i) (V (4 + i + 1)) s2
  rw [vsteps_cons, e1, vsteps_cons, e2, vsteps_cons, e3, vsteps_nil]
  have hx : (Arg.hw (xo (i + 1))).get st = (xo (i + 1)).get st0.s := env.get _
  rw [hx, env.reg] at m1
  have ek := keep (i + 1) (by omega)
  rw [← Nat.add_assoc] at ek
  simp only [Arg.get, v1, f1] at m2
  simp only [Arg.get, v2, v1, f2, f1] at m3
  have key : ∀ k, s3.v k =
      upd (upd (upd (upd st.v (4 + i) l) ((i + 1 + 1) % 2) hh) (4 + i) r) (4 + i) r' k := by
    intro k; rw [v3, v2, v1]
  simp only [upd_apply] at m2 m3 key
  ifs at m2
  ifs at m3
  rw [ek] at m3
  refine ⟨⟨(env.trans n1).trans (n2.trans n3), ?_, ?_⟩, fun k hk => ?_, ?_⟩
  · rw [key]; ifs; exact h2
  · rw [key]; ifs; exact h3
  · rw [key]; ifs; exact keep k (by omega)
  · have t1 : tv s3.v i = tv st.v i := by
      apply tv_congr
      intro k hk
      simp only [T0]
      rw [key]; ifs
    rw [Nat.add_sub_cancel] at eq ⊢
    rw [tv_succ, t1, key, key, f3, tv_succ st0.v (i + 1)]
    simp only [T0, sumW, ← Nat.add_assoc] at eq ⊢
    ifs
    rw [pow_succ (W : ℤ) (i + 1)]
    rw [pow_succ] at eq ⊢
    linear_combination eq + (W : ℤ) ^ i * W * m2 + (W : ℤ) ^ i * (W : ℤ) * m3 + (W : ℤ) ^ i * W * m1

/-- The start of the reduction loop: `rdx` becomes the multiple of `q` that clears the lowest limb. -/
theorem sec_start (st : VState) {q : Nat} (hq : q % 2 = 1) (hnp : st.v 2 = np q) (n : Nat) (hn : 0 < n)
    (hQ : sumW (fun k => (((Opd.sym .q (8 * k)).get st.s).toNat)) n = q) (hcf : st.s.fl.cf = false)
    (hof : st.s.fl.oF = false) :
    ∃ s1, s1.s.reg = upd st.s.reg .rdx (np q * st.v 4) ∧ s1.s.mem = st.s.mem ∧ s1.s.sym = st.s.sym ∧
      (∀ k, k ≠ 0 → s1.v k = st.v k) ∧
      SecInv s1 (fun k => (((Opd.sym .q (8 * k)).get st.s).toNat)) 1
        (vsteps [o2 .mov vrdx (V 2), .mulx (V 0) vrdx (V T0), .mulx (V 1) (V 0) (mq 0), o2 .adcx (V 0) (V T0)] st) := by
  set p := (np q).toNat * (st.v 4).toNat with hp
  refine ⟨⟨upd st.v 0 (BitVec.ofNat 64 (p / 2 ^ 64)),
    { st.s with reg := upd st.s.reg .rdx (np q * st.v 4) }⟩, rfl, rfl, rfl, ?_, ?_⟩
  · intro k hk; simp [upd_apply, hk]
  · have hm : BitVec.ofNat 64 p = np q * st.v 4 := by
      apply BitVec.eq_of_toNat_eq
      rw [BitVec.toNat_ofNat, BitVec.toNat_mul]
    set s1 : VState := ⟨upd st.v 0 (BitVec.ofNat 64 (p / 2 ^ 64)),
      { st.s with reg := upd st.s.reg .rdx (np q * st.v 4) }⟩ with hs1
    have e01 : vsteps [o2 .mov vrdx (V 2), .mulx (V 0) vrdx (V T0)] st = s1 := by
      rw [hs1, ← hm]
      simp only [vsteps, List.foldl, vstep, Ins.exec, Op2.eval, Op2.writes, Arg.get, Arg.set, Opd.set, if_true, hnp,
        upd_same, T0]
      congr 2
      funext r
      simp only [upd_apply]
      split <;> rfl
    obtain ⟨l, hh, s2, e2, v2, n2, f2, m2⟩ := vstep_mulx 1 0 (mq 0) s1
    obtain ⟨r, s3, e3, v3, n3, f3, m3⟩ := vstep_adcx 0 (V T0) s2
    have e : vsteps [o2 .mov vrdx (V 2), .mulx (V 0) vrdx (V T0), .mulx (V 1) (V 0) (mq 0), o2 .adcx (V 0) (V T0)] st
        = s3 := by
      rw [show ([o2 .mov vrdx (V 2), .mulx (V 0) vrdx (V T0), .mulx (V 1) (V 0) (mq 0), o2 .adcx (V 0) (V T0)]
          : List (Ins Arg)) = [o2 .mov vrdx (V 2), .mulx (V 0) vrdx (V T0)] ++
            [.mulx (V 1) (V 0) (mq 0), o2 .adcx (V 0) (V T0)] from rfl, vsteps_append, e01, vsteps_cons, e2,
        vsteps_cons, e3, vsteps_nil]
    rw [e]
    have hq0 : (mq 0).get s1 = (Opd.sym .q (8 * 0)).get st.s := rfl
    rw [hq0] at m2
    have hr1 : s1.s.reg .rdx = np q * st.v 4 := by rw [hs1]; simp only [upd_same]
    rw [hr1] at m2
    simp only [Arg.get, v2, f2, T0, upd_apply] at m3
    ifs at m3
    have s1v : ∀ k, k ≠ 0 → s1.v k = st.v k := by
      intro k hk
      show upd st.v 0 (BitVec.ofNat 64 (p / 2 ^ 64)) k = _
      rw [upd_apply, if_neg hk]
    have s1f : s1.s.fl = st.s.fl := rfl
    rw [s1v 4 (by omega), s1f, hcf, show ((b2n false : ℕ) : ℤ) = 0 from rfl] at m3
    obtain ⟨n', rfl⟩ : ∃ n', n = n' + 1 := ⟨n - 1, by omega⟩
    have hlow := mont_low hq (st.v 4) 0
    obtain ⟨k, hk⟩ := Nat.dvd_of_mod_eq_zero hlow
    have hkZ : ((st.v 4).toNat : ℤ) + q * ((np q * st.v 4).toNat : ℕ) = W * k := by exact_mod_cast hk
    rw [sumW_head] at hQ
    have hr0 : ((r.toNat : ℕ) : ℤ) = 0 := by
      apply Int.eq_zero_of_dvd_of_nonneg_of_lt (n := (W : ℤ)) (m := (r.toNat : ℤ)) (by positivity)
        (by exact_mod_cast limb_lt r)
      refine ⟨k - ((np q * st.v 4).toNat : ℕ) *
        sumW (fun k => (((Opd.sym .q (8 * (k + 1))).get st.s).toNat)) n' - hh.toNat - (b2n s3.s.fl.cf : ℕ), ?_⟩
      linear_combination m3 + m2 + hkZ + (((np q * st.v 4).toNat : ℕ) : ℤ) * hQ
    have key : ∀ i, s3.v i = upd (upd (upd s1.v 0 l) 1 hh) 0 r i := by intro i; rw [v3, v2]
    simp only [upd_apply] at key
    refine ⟨⟨n2.trans n3, by rw [key]; ifs, by rw [key]; ifs⟩, fun k _ => by rw [key]; ifs, ?_⟩
    rw [show (1 - 1 : Nat) = 0 from rfl, show (1 % 2 : Nat) = 1 from rfl, hr1, f3, f2, s1f, hof, key]
    simp only [tv, sumW, T0]
    rw [s1v (4 + 0) (by omega)]
    simp only [show ((b2n false : ℕ) : ℤ) = 0 from rfl, Nat.add_zero, pow_one, pow_zero]
    ifs
    rw [hr0] at m3
    linear_combination m3 + m2

/-- The reduction step: the total `X` becomes `(X + m q) / 2^64`, exactly, for some word `m`. -/
theorem second_val (n : Nat) (hn : 0 < n) (opt : Bool) (st : VState) {q : Nat} (hq : q % 2 = 1) (hnp : st.v 2 = np q)
    (h3 : st.v 3 = 0) (hQ : sumW (fun k => (((Opd.sym .q (8 * k)).get st.s).toNat)) n = q)
    (hcf : st.s.fl.cf = false) (hof : st.s.fl.oF = false)
    (hb : tv st.v (n + 1 + ext opt) + (W - 1) * q < (W : ℤ) ^ (n + 1 + ext opt)) :
    ∃ m : Nat, m < W ∧
      W * tv (vsteps (second n opt) st).v (n + ext opt) = tv st.v (n + 1 + ext opt) + m * q ∧
      (vsteps (second n opt) st).s.fl.cf = false ∧ (vsteps (second n opt) st).s.fl.oF = false ∧
      SameBut st.s (vsteps (second n opt) st).s ∧ (vsteps (second n opt) st).v 2 = st.v 2 ∧
      (vsteps (second n opt) st).v 3 = st.v 3 := by
  unfold second
  rw [vsteps_append, vsteps_append, vsteps_append]
  obtain ⟨s0, hr, hmem, hsym, hv, I1⟩ := sec_start st hq hnp n hn hQ hcf hof
  have L := vloop (fun j => [.mulx (V ((j + 1) % 2)) (V (T0 + j - 1)) (mq j), o2 .adcx (V (T0 + j - 1)) (V (j % 2)),
      o2 .adox (V (T0 + j - 1)) (V (T0 + j))])
    (SecInv s0 (fun k => (((Opd.sym .q (8 * k)).get s0.s).toNat))) 1 (n - 1) _ (by
      have : (fun k => (((Opd.sym .q (8 * k)).get s0.s).toNat)) = fun k => (((Opd.sym .q (8 * k)).get st.s).toNat) := by
        funext k; simp only [Opd.get, hmem, hsym]
      rw [this]; exact I1)
    (fun j hj _ s h => sec_step s0 (fun j => .sym .q (8 * j)) j hj s h)
  rw [show 1 + (n - 1) = n by omega] at L
  generalize vsteps _ (vsteps _ st) = s1 at L ⊢
  clear I1
  obtain ⟨⟨env, k2, k3⟩, keep, eq⟩ := L
  have hQ' : sumW (fun k => (((Opd.sym .q (8 * k)).get s0.s).toNat)) n = q := by
    rw [← hQ]; apply sumW_congr; intro k _; simp only [Opd.get, hmem, hsym]
  rw [hQ', hr, upd_same] at eq
  have hm : (np q * st.v 4).toNat < W := limb_lt _
  refine ⟨(np q * st.v 4).toNat, hm, ?_⟩
  generalize (np q * st.v 4).toNat = m at *
  have hmq : (m : ℤ) * q ≤ (W - 1) * q := by
    have : (m : ℤ) + 1 ≤ W := by exact_mod_cast hm
    have : (0 : ℤ) ≤ q := by positivity
    nlinarith
  have but : SameBut st.s s1.s := by
    refine ⟨fun r hr' => ?_, by rw [env.mem, hmem], by rw [env.sym, hsym]⟩
    rw [env.reg, hr, upd_apply, if_neg hr']
  have tv0 : ∀ k, tv s0.v k = tv st.v k := fun k => tv_congr (fun i _ => hv _ (by simp only [T0]; omega))
  have h31 : s1.v 3 = 0 := by rw [k3, hv 3 (by omega), h3]
  have h21 : s1.v 2 = st.v 2 := by rw [k2, hv 2 (by omega)]
  rw [tv0] at eq
  obtain ⟨i, rfl⟩ : ∃ i, n = i + 1 := ⟨n - 1, by omega⟩
  rw [Nat.add_sub_cancel] at eq
  rw [show T0 + (i + 1) - 1 = 4 + i by simp only [T0]; omega, show T0 + (i + 1) = 4 + i + 1 by simp only [T0]; omega]
  have ek := keep (i + 1) (by omega)
  rw [← Nat.add_assoc, hv _ (by omega)] at ek
  have ek2 := keep (i + 2) (by omega)
  rw [show 4 + (i + 2) = 4 + i + 1 + 1 by omega, hv _ (by omega)] at ek2
  obtain ⟨s2, e2, v2, n2, f2⟩ := vstep_mov (4 + i) (V 3) s1
  obtain ⟨r3, s3, e3, v3, n3, f3, m3⟩ := vstep_adcx (4 + i) (V ((i + 1) % 2)) s2
  obtain ⟨r4, s4, e4, v4, n4, f4, m4⟩ := vstep_adox (4 + i) (V (4 + i + 1)) s3
  have E4 : vsteps [o2 .mov (V (4 + i)) (V 3), o2 .adcx (V (4 + i)) (V ((i + 1) % 2)),
      o2 .adox (V (4 + i)) (V (4 + i + 1))] s1 = s4 := by
    rw [vsteps_cons, vsteps_cons, vsteps_cons, e2, e3, e4, vsteps_nil]
  rw [E4]
  simp only [Arg.get, h31] at v2
  simp only [Arg.get, v2, f2, upd_apply] at m3
  ifs at m3
  simp only [Arg.get, v3, v2, f3, f2, upd_apply] at m4
  ifs at m4
  rw [bvz] at m3
  rw [ek] at m4
  have key : ∀ k, s4.v k = upd (upd (upd s1.v (4 + i) 0) (4 + i) r3) (4 + i) r4 k := by intro k; rw [v4, v3, v2]
  simp only [upd_apply] at key
  have t4 : tv s4.v (i + 1) = tv s1.v i + r4.toNat * (W : ℤ) ^ i := by
    have : tv s4.v i = tv s1.v i := by
      apply tv_congr
      intro k hk
      simp only [T0]
      rw [key]; ifs
    rw [tv_succ, this, key]; simp
  have E : W * tv s4.v (i + 1) + (b2n s4.s.fl.cf : ℕ) * (W : ℤ) ^ (i + 1 + 1) +
      (b2n s4.s.fl.oF : ℕ) * (W : ℤ) ^ (i + 1 + 1) = tv st.v (i + 1 + 1) + m * q := by
    rw [t4, f4, tv_succ st.v (i + 1), pow_succ (W : ℤ) (i + 1)]
    simp only [T0, ← Nat.add_assoc]
    rw [pow_succ] at eq ⊢
    linear_combination eq + (W : ℤ) ^ i * W * m3 + (W : ℤ) ^ i * W * m4
  have but4 : SameBut st.s s4.s := but.trans ((n2.trans n3).trans n4).but
  have h24 : s4.v 2 = st.v 2 := by rw [key]; ifs; exact h21
  have h34 : s4.v 3 = st.v 3 := by rw [key]; ifs; rw [h31, h3]
  cases opt with
  | true =>
    simp only [ext, if_true, Nat.add_zero, vsteps_nil] at hb ⊢
    have h0 : 0 ≤ W * tv s4.v (i + 1) := mul_nonneg WZ_pos.le (tv_nonneg _ _)
    obtain ⟨c1, c2⟩ := carries_zero h0 (by linarith) (pow_pos WZ_pos (i + 1 + 1)) E
    rw [c1, c2] at E
    refine ⟨?_, c1, c2, but4, h24, h34⟩
    simpa [b2n] using E
  | false =>
    obtain ⟨s5, e5, v5, n5, f5⟩ := vstep_mov (4 + i + 1) (V 3) s4
    obtain ⟨r6, s6, e6, v6, n6, f6, m6⟩ := vstep_adcx (4 + i + 1) (V 3) s5
    obtain ⟨r7, s7, e7, v7, n7, f7, m7⟩ := vstep_adox (4 + i + 1) (V (4 + i + 1 + 1)) s6
    simp only [Bool.false_eq_true, if_false, vsteps_cons, vsteps_nil, e5, e6, e7, ext] at hb ⊢
    simp only [Arg.get, h34, h3] at v5
    simp only [Arg.get, v5, f5, upd_apply] at m6
    ifs at m6
    simp only [Arg.get, v6, v5, f6, f5, upd_apply] at m7
    ifs at m7
    rw [h34, h3, bvz] at m6
    have e8 : s4.v (4 + i + 1 + 1) = st.v (4 + i + 1 + 1) := by rw [key]; ifs; exact ek2
    rw [e8] at m7
    have key7 : ∀ k, s7.v k = upd (upd (upd s4.v (4 + i + 1) 0) (4 + i + 1) r6) (4 + i + 1) r7 k := by
      intro k; rw [v7, v6, v5]
    simp only [upd_apply] at key7
    have t7 : tv s7.v (i + 1 + 1) = tv s4.v (i + 1) + r7.toNat * (W : ℤ) ^ (i + 1) := by
      have : tv s7.v (i + 1) = tv s4.v (i + 1) := by
        apply tv_congr
        intro k hk
        simp only [T0]
        rw [key7]; ifs
      rw [tv_succ, this, key7]; simp [← Nat.add_assoc]
    have E7 : W * tv s7.v (i + 1 + 1) + (b2n s7.s.fl.cf : ℕ) * (W : ℤ) ^ (i + 1 + 1 + 1) +
        (b2n s7.s.fl.oF : ℕ) * (W : ℤ) ^ (i + 1 + 1 + 1) = tv st.v (i + 1 + 1 + 1) + m * q := by
      rw [t7, f7, tv_succ st.v (i + 1 + 1), pow_succ (W : ℤ) (i + 1 + 1)]
      simp only [T0, ← Nat.add_assoc]
      rw [pow_succ (W : ℤ) (i + 1)] at E ⊢
      linear_combination E + (W : ℤ) ^ (i + 1) * W * m6 + (W : ℤ) ^ (i + 1) * W * m7
    have h0 : 0 ≤ W * tv s7.v (i + 1 + 1) := mul_nonneg WZ_pos.le (tv_nonneg _ _)
    obtain ⟨c1, c2⟩ := carries_zero h0 (by linarith) (pow_pos WZ_pos (i + 1 + 1 + 1)) E7
    rw [c1, c2] at E7
    refine ⟨?_, c1, c2, but4.trans ((n5.trans n6).trans n7).but, ?_, ?_⟩
    · simpa [b2n] using E7
    · rw [key7]; ifs; exact h24
    · rw [key7]; ifs; exact h34

end FF.X86
