import Verif.ArmMul2

/-!
# The AArch64 Montgomery routines over virtual registers: loops and the final subtraction
-/

namespace FF.Arm

open FF.X86 (upd cell rd upd_same upd_ne)

/-! ## The loop of the product -/

theorem vRounds_run {q : Nat} (hq : q % 2 = 1) {s : State} (hk : Konst q s) {opt : Bool} {B : Nat}
    (hB : vs (fun i => (arr 2 i).eval s fun _ => 0) (n64 q) = B)
    (ho : opt = true → B + q ≤ W ^ n64 q ∧ 2 * B ≤ W ^ n64 q) (u : U) :
    ∃ P M, PIs (n64 q) opt (n64 q) (vexes s (vloop (n64 q) (vRound (n64 q) opt)) u) P ∧ M < W ^ n64 q ∧
      W ^ n64 q * P = vs (fun i => (arr 1 i).eval s fun _ => 0) (n64 q) * B + M * q := by
  refine vloop_run (s := s) (u := u) (n := n64 q) (f := vRound (n64 q) opt)
    (P := fun w u' => ∃ P M, PIs (n64 q) opt w u' P ∧ M < W ^ w ∧
      W ^ w * P = vs (fun i => (arr 1 i).eval s fun _ => 0) w * B + M * q) ⟨0, 0, rfl, by simp, by simp [vs_zero]⟩ ?_
  rintro w u' hw ⟨P, M, hP, hM, e⟩
  obtain ⟨k, P', hk1, hP', e'⟩ := vRound_run hq hk hB ho hw u' hP
  refine ⟨P', M + W ^ w * k, hP', ?_, ?_⟩
  · rw [pow_succ]
    have : W ^ w * (k + 1) ≤ W ^ w * W := Nat.mul_le_mul_left _ hk1
    have h2 : W ^ w * (k + 1) = W ^ w * k + W ^ w := by ring
    omega
  · rw [vs_succ]
    calc _ = W ^ w * (W * P') := by rw [pow_succ]; ring
      _ = W ^ w * P + W ^ w * ((arr 1 w).eval s fun _ => 0).toNat * B + W ^ w * k * q := by rw [e']; ring
      _ = _ := by rw [e]; ring

/-! ## The final subtraction -/

/-- The final subtraction and the choice, `armbuilder.js:1331-1343`, `1551-1563`. -/
def vEnd (n : Nat) (opt : Bool) (g : Nat) : List VIns :=
  subV n (g + 20) (fun i => .v (g + 15) (i + 1)) qw
    ++ ((if opt then [] else [vop (.cinc .hs) (g + 21) 0 (.v (g + 16) 0) .zr, ⟨.subs, none, .v (g + 21) 0, .imm 1⟩])
    ++ cselV n (g + 22) (.v (g + 20)) (fun i => .v (g + 15) (i + 1)))

theorem cmp_one (x : BitVec 64) : (addFlags x (~~~(BitVec.ofNat 64 1)) true).2.c = decide (x.toNat ≠ 0) := by
  have h := sub_val x (BitVec.ofNat 64 1) true
  have hlt := limb_lt (addFlags x (~~~(BitVec.ofNat 64 1)) true).1
  have e : (BitVec.ofNat 64 1).toNat = 1 := rfl
  rw [e] at h
  generalize (addFlags x (~~~(BitVec.ofNat 64 1)) true).1.toNat = y at *
  generalize (addFlags x (~~~(BitVec.ofNat 64 1)) true).2.c = c at *
  cases c
  · simp only [Bool.not_true, Bool.toNat_false, Bool.not_false, Bool.toNat_true] at h
    symm; rw [decide_eq_false_iff_not]
    have := limb_lt x
    omega
  · simp only [Bool.not_true, Bool.toNat_false] at h
    symm; rw [decide_eq_true_iff]
    omega

theorem vEnd_run {q : Nat} {s : State} (hk : Konst q s) {opt : Bool} {P : Nat} (u : U) (hP : PIs (n64 q) opt (n64 q) u P) (hlt : P < 2 * q) :
    vs (fun i => (vexes s (vEnd (n64 q) opt (20 * (n64 q - 1))) u).ρ (20 * (n64 q - 1) + 22, i)) (n64 q) = P % q := by
  have hn := n64_pos q
  unfold PIs at hP
  rw [if_neg (by omega), show 20 * n64 q - 20 = 20 * (n64 q - 1) by omega] at hP
  obtain ⟨hP, -⟩ := hP
  generalize 20 * (n64 q - 1) = g at *
  unfold vEnd
  rw [vexes_append, vexes_append]
  obtain ⟨k1, v1⟩ := subV_run s (t := g + 20) (x := fun i => .v (g + 15) (i + 1)) (y := qw) hn (fun i => by simp [Val.off]) (off_qw _) u
  rw [hk.hq] at v1
  generalize vexes s (subV (n64 q) (g + 20) (fun i => .v (g + 15) (i + 1)) qw) u = u1 at *
  set c : Nat := if opt then 0 else (u.ρ (g + 16, 0)).toNat with hc
  have hqW := q_lt_Wn q
  have hc1 : c ≤ 1 := by
    by_contra hcon
    have : W ^ n64 q * 2 ≤ W ^ n64 q * c := Nat.mul_le_mul_left _ (by omega)
    omega
  have h2 : ∃ u2, vexes s (if opt then [] else [vop (.cinc .hs) (g + 21) 0 (.v (g + 16) 0) .zr, ⟨.subs, none, .v (g + 21) 0, .imm 1⟩]) u1 = u2 ∧
      Keeps [g + 21] u1 u2 ∧ u2.fl.c = ((c != 0) || u1.fl.c) := by
    cases opt with
    | true =>
      refine ⟨u1, rfl, .rfl, ?_⟩
      rw [hc]; rfl
    | false =>
      refine ⟨_, rfl, upd_keeps _ _ _ _ _ _, ?_⟩
      have e : c = (u1.ρ (g + 16, 0)).toNat := by
        rw [k1 (g + 16, 0) (by simp)]; exact hc
      have e2 : (vexes s [vop (.cinc .hs) (g + 21) 0 (.v (g + 16) 0) .zr, ⟨.subs, none, .v (g + 21) 0, .imm 1⟩] u1).fl.c
          = (addFlags (upd u1.ρ (g + 21, 0) (if u1.fl.c then u1.ρ (g + 16, 0) + 1 else u1.ρ (g + 16, 0)) (g + 21, 0)) (~~~(BitVec.ofNat 64 1)) true).2.c := rfl
      refine e2.trans ?_
      rw [upd_same, cmp_one]
      cases u1.fl.c
      · rw [Bool.or_false, e, if_neg (by decide)]
        by_cases h : (u1.ρ (g + 16, 0)).toNat = 0 <;> simp [h]
      · rw [Bool.or_true, if_pos rfl, decide_eq_true_iff, BitVec.toNat_add, ← e]
        have : (1 : BitVec 64).toNat = 1 := rfl
        omega
  obtain ⟨u2, e2, k2, f2⟩ := h2
  rw [e2]
  obtain ⟨-, -, v3⟩ := cselV_run s (n := n64 q) (t := g + 22) (x := .v (g + 20)) (y := fun i => .v (g + 15) (i + 1)) (fun i => by simp [Val.off])
    (fun i => by simp [Val.off]) u2
  set r : Limbs := (List.range (n64 q)).map fun i => u.ρ (g + 15, i + 1) with hr
  have hsel := condSub_select (r := r) (d := (List.range (n64 q)).map (u1.seq (g + 20))) (b := u1.fl.c) (c != 0) (map_length _ _) (map_length _ _) v1
  have hcv := condSub_val (q := q) (c := c) (r := r) (map_length _ _) (by
    show vs (fun i => u.ρ (g + 15, i + 1)) (n64 q) + _ < _
    rw [hP]; exact hlt)
  have e3 : val r + W ^ n64 q * c = P := hP
  rw [e3] at hcv
  rw [← hcv, hsel]
  show val _ = _
  congr 1
  rw [← f2]
  have key : ∀ i, i < n64 q → (vexes s (cselV (n64 q) (g + 22) (.v (g + 20)) fun i => .v (g + 15) (i + 1)) u2).ρ (g + 22, i)
      = if u2.fl.c then u1.seq (g + 20) i else u.ρ (g + 15, i + 1) := by
    intro i hi
    rw [v3 i hi, v_eval, v_eval, k2 (g + 20, i) (by simp), k2 (g + 15, i + 1) (by simp), k1 (g + 15, i + 1) (by simp)]
    rfl
  rw [List.map_congr_left (fun i hi => key i (List.mem_range.mp hi))]
  cases u2.fl.c <;> rfl

/-- `Gen_rawMul`, `armbuilder.js:1310-1348`. -/
def vMMul (n : Nat) (opt : Bool) : List VIns := vloop n (vRound n opt) ++ vEnd n opt (20 * (n - 1))

theorem vMMul_run {q : Nat} (hq : q % 2 = 1) {s : State} (hk : Konst q s) {opt : Bool} {B : Nat}
    (hB : vs (fun i => (arr 2 i).eval s fun _ => 0) (n64 q) = B) (hBq : B < q)
    (ho : opt = true → B + q ≤ W ^ n64 q ∧ 2 * B ≤ W ^ n64 q) (u : U) :
    let r := vs (fun i => (vexes s (vMMul (n64 q) opt) u).ρ (20 * (n64 q - 1) + 22, i)) (n64 q)
    r < q ∧ r * W ^ n64 q ≡ vs (fun i => (arr 1 i).eval s fun _ => 0) (n64 q) * B [MOD q] := by
  intro r
  have hr : r = vs (fun i => (vexes s (vMMul (n64 q) opt) u).ρ (20 * (n64 q - 1) + 22, i)) (n64 q) := rfl
  clear_value r
  unfold vMMul at hr
  rw [vexes_append] at hr
  obtain ⟨P, M, hP, hM, e⟩ := vRounds_run hq hk hB ho u
  have hlt : P < 2 * q := by
    have ha := vs_lt (fun i => (arr 1 i).eval s fun _ => 0) (n64 q)
    generalize vs (fun i => (arr 1 i).eval s fun _ => 0) (n64 q) = A at *
    refine Nat.lt_of_mul_lt_mul_left (a := W ^ n64 q) ?_
    rw [e]
    have h1 : A * B ≤ W ^ n64 q * q := Nat.mul_le_mul ha.le hBq.le
    have h2 : M * q < W ^ n64 q * q := Nat.mul_lt_mul_of_pos_right hM (by omega)
    have h3 : W ^ n64 q * (2 * q) = W ^ n64 q * q + W ^ n64 q * q := by ring
    omega
  rw [vEnd_run hk _ hP hlt] at hr
  rw [hr]
  refine ⟨Nat.mod_lt _ (by omega), ?_⟩
  have h1 : P % q * W ^ n64 q ≡ P * W ^ n64 q [MOD q] := (Nat.mod_modEq _ _).mul_right _
  refine h1.trans ?_
  rw [Nat.mul_comm, e]
  show (_ + M * q) % q = _ % q
  rw [Nat.add_mul_mod_self_right]

/-! ## By a word, and from Montgomery form -/

/-- The accumulator of `Gen_rawMul1` before the rounds. -/
def acc1 (n : Nat) (ab : Bool) (i : Nat) : Val := if ab then .v 1 i else if i = n then .v 1 n else arr 1 i

/-- A round of `Gen_rawMul1`, `armbuilder.js:1542-1548`, `1590-1637`. -/
def v1Round (n : Nat) (ab opt : Bool) (w : Nat) : List VIns :=
  let g := 20 * w
  if w = 0 then phQ n 0 false (if opt then decide (0 < n - 1) else true) .zr (acc1 n ab)
  else vop .mul (g + 10) 0 (.mem (.tab .np) 0) (.v (g - 20 + 15) 1) ::
    blkX n (g + 11) opt false false (decide (w < n - 1)) (.v (g + 10) 0) (.v (g - 20 + 16) 0) qw (fun i => .v (g - 20 + 15) (i + 1))

theorem acc1_below (n : Nat) (ab : Bool) (i : Nat) : (acc1 n ab i).below (0 + 10) := by
  unfold acc1; split
  · show _ < _; omega
  · split
    · show _ < _; omega
    · trivial

theorem v1Round_zero {q : Nat} (hq : q % 2 = 1) {s : State} (hk : Konst q s) {ab opt : Bool} (u : U)
    (h1 : vs (fun i => (acc1 (n64 q) ab i).eval s u.ρ) (n64 q + 1) + W ^ n64 q ≤ W ^ (n64 q + 1))
    (ho : opt = true → vs (fun i => (acc1 (n64 q) ab i).eval s u.ρ) (n64 q + 1) + W * q ≤ W ^ (n64 q + 1)) :
    ∃ k P', k < W ∧ PIs (n64 q) opt 1 (vexes s (v1Round (n64 q) ab opt 0) u) P' ∧
      W * P' = vs (fun i => (acc1 (n64 q) ab i).eval s u.ρ) (n64 q + 1) + k * q := by
  have hn := n64_pos q
  have e0 : v1Round (n64 q) ab opt 0 = phQ (n64 q) 0 false (if opt then decide (0 < n64 q - 1) else true) .zr (acc1 (n64 q) ab) := rfl
  rw [e0]
  obtain ⟨-, k, d, hk1, hk2, hk3⟩ := phQ_half hq hk (g := 0) (fin := if opt then decide (0 < n64 q - 1) else true) (x := .zr)
    (acc := acc1 (n64 q) ab) (acc1_below _ _) u h1
  generalize vexes s (phQ _ _ _ _ _ _) u = u' at *
  refine ⟨k, _, hk1, ?_, hk3⟩
  unfold PIs
  rw [if_neg (by decide)]
  show vs (fun i => u'.ρ (0 + 15, i + 1)) (n64 q) + W ^ n64 q * (if opt then 0 else (u'.ρ (0 + 16, 0)).toNat)
    = vs (fun i => u'.ρ (0 + 15, i + 1)) (n64 q) + W ^ n64 q * d.toNat ∧ (opt = true → 1 < n64 q → u'.ρ (0 + 16, 0) = 0)
  cases opt with
  | false =>
    rw [if_neg (by decide)] at hk2 ⊢
    refine ⟨by rw [hk2 rfl], fun h => absurd h (by decide)⟩
  | true =>
    have hd : d = false := by
      cases d
      · rfl
      · exfalso
        have h2 : k * q + q ≤ W * q := by
          have : (k + 1) * q ≤ W * q := Nat.mul_le_mul_right _ hk1
          linarith
        have h3 := ho rfl
        have h4 : W * (vs (fun i => u'.ρ (0 + 15, i + 1)) (n64 q) + W ^ n64 q * true.toNat)
            = W * vs (fun i => u'.ρ (0 + 15, i + 1)) (n64 q) + W ^ (n64 q + 1) := by rw [Bool.toNat_true, pow_succ]; ring
        have : 0 < q := by omega
        omega
    rw [hd] at hk2 ⊢
    refine ⟨by simp, fun _ h => ?_⟩
    exact BitVec.eq_of_toNat_eq ((hk2 (by simp; omega)).trans rfl)

theorem v1Round_succ {q : Nat} (hq : q % 2 = 1) {s : State} (hk : Konst q s) {ab opt : Bool} (ho : opt = true → 2 * q ≤ W ^ n64 q)
    {w P : Nat} (h0 : w ≠ 0) (hw : w < n64 q) (u : U) (hP : PIs (n64 q) opt w u P) :
    ∃ k P', k < W ∧ PIs (n64 q) opt (w + 1) (vexes s (v1Round (n64 q) ab opt w) u) P' ∧ W * P' = P + k * q := by
  have hn := n64_pos q
  obtain ⟨m, hm⟩ : ∃ m, n64 q = m + 1 := ⟨n64 q - 1, by omega⟩
  unfold v1Round
  dsimp only
  rw [if_neg h0, vexes_cons]
  obtain ⟨u1, e1, b1, v1⟩ := phQ_start hk (g := 20 * w) (acc := fun i => .v (20 * w - 20 + 15) (i + 1)) u
  rw [show (vop .mul (20 * w + 10) 0 (.mem (.tab .np) 0) (.v (20 * w - 20 + 15) 1)).exec s u = u1 from e1]
  unfold PIs at hP ⊢
  rw [if_neg h0] at hP
  have hs : ¬ w + 1 = 0 := by omega
  simp only [if_neg hs]
  rw [show 20 * (w + 1) - 20 = 20 * w by omega]
  obtain ⟨hP, hx⟩ := hP
  have eR : ∀ i, u1.ρ (20 * w - 20 + 15, i + 1) = u.ρ (20 * w - 20 + 15, i + 1) := fun i => b1 _ (by dsimp only; omega)
  have ex : u1.ρ (20 * w - 20 + 16, 0) = u.ρ (20 * w - 20 + 16, 0) := b1 _ (by dsimp only; omega)
  have eR' : vs (fun i => (Val.v (20 * w - 20 + 15) (i + 1)).eval s u1.ρ) (n64 q) = vs (fun i => u.ρ (20 * w - 20 + 15, i + 1)) (n64 q) :=
    vs_congr fun i _ => eR i
  have v1 : u1.ρ (20 * w + 10, 0) = np q * u.ρ (20 * w - 20 + 15, 1) := v1
  have hsplit : vs (fun i => u.ρ (20 * w - 20 + 15, i + 1)) (n64 q)
      = (u.ρ (20 * w - 20 + 15, 1)).toNat + W * vs (fun i => u.ρ (20 * w - 20 + 15, i + 1 + 1)) m := by rw [hm, vs_shift]
  refine ⟨(np q * u.ρ (20 * w - 20 + 15, 1)).toNat, ?_⟩
  cases opt with
  | false =>
    have h := blkX_non s (n := n64 q) (g := 20 * w + 11) (sw := false) (fin := decide (w < n64 q - 1)) (m := .v (20 * w + 10) 0)
      (x := .v (20 * w - 20 + 16) 0) (B := qw) (R := fun i => .v (20 * w - 20 + 15) (i + 1)) hn (by show _ < _; omega)
      (by show _ < _; omega) (qw_below _) (fun _ => by show _ < _; omega) u1
    obtain ⟨-, -, h3⟩ := h
    rw [eR', hk.hq, v_eval, v_eval, ex, v1] at h3
    rw [if_neg (by decide)] at hP
    refine ⟨_, limb_lt (np q * u.ρ (20 * w - 20 + 15, 1)), ⟨rfl, fun h => absurd h (by decide)⟩, ?_⟩
    rw [if_neg (by decide)]
    rw [hsplit] at h3 hP
    have e4 : ∀ A Y X : Nat, A + W * Y + W ^ (m + 1) * X = A + W * (Y + W ^ m * X) := by
      intro A Y X; rw [pow_succ]; ring
    rw [← hP]
    conv at h3 => rhs; rw [hm, e4]
    conv => rhs; rw [hm, e4]
    exact low_zero hq h3
  | true =>
    rw [if_pos rfl, Nat.mul_zero, Nat.add_zero] at hP
    have hPlt : P < W ^ n64 q := by rw [← hP]; exact vs_lt _ _
    have h := blkX_opt s (n := n64 q) (g := 20 * w + 11) (sw := false) (hs := false) (fin := decide (w < n64 q - 1)) (m := .v (20 * w + 10) 0)
      (x := .v (20 * w - 20 + 16) 0) (B := qw) (R := fun i => .v (20 * w - 20 + 15) (i + 1)) hn (by show _ < _; omega)
      (by show _ < _; omega) (qw_below _) (fun _ => by show _ < _; omega) u1 (by rw [v_eval, ex]; exact hx rfl hw) (by
        rw [eR', hk.hq, hP, pow_succ]
        have h1 := limb_lt ((Val.v (20 * w + 10) 0).eval s u1.ρ)
        generalize ((Val.v (20 * w + 10) 0).eval s u1.ρ).toNat = k at *
        have h2 : k * q ≤ W * q := Nat.mul_le_mul_right _ h1.le
        have h3 : W * (2 * q) ≤ W * W ^ n64 q := Nat.mul_le_mul_left _ (ho rfl)
        have h4 : W * (2 * q) = 2 * (W * q) := by ring
        have hW4 : 4 ≤ W := by rw [← W_eq]; decide
        have h5 : 4 * W ^ n64 q ≤ W * W ^ n64 q := Nat.mul_le_mul_right _ hW4
        have h6 : W * W ^ n64 q = W ^ n64 q * W := by ring
        omega)
    obtain ⟨-, h2, h3⟩ := h
    rw [eR', hk.hq, v_eval, v1] at h3
    refine ⟨_, limb_lt (np q * u.ρ (20 * w - 20 + 15, 1)), ⟨rfl, fun _ hw' => h2 (by simpa using (by omega : w < n64 q - 1)) rfl⟩, ?_⟩
    rw [if_pos rfl, Nat.mul_zero, Nat.add_zero, ← hP]
    rw [hsplit] at h3 ⊢
    exact low_zero hq h3

theorem v1Rounds_run {q : Nat} (hq : q % 2 = 1) {s : State} (hk : Konst q s) {ab opt : Bool} {A : Nat} (u : U)
    (hA : vs (fun i => (acc1 (n64 q) ab i).eval s u.ρ) (n64 q + 1) = A) (h1 : A + W ^ n64 q ≤ W ^ (n64 q + 1))
    (ho : opt = true → A + W * q ≤ W ^ (n64 q + 1) ∧ 2 * q ≤ W ^ n64 q) :
    ∃ P M, PIs (n64 q) opt (n64 q) (vexes s (vloop (n64 q) (v1Round (n64 q) ab opt)) u) P ∧ M < W ^ n64 q ∧
      W ^ n64 q * P = A + M * q := by
  have hn := n64_pos q
  have := vloop_run (s := s) (u := u) (n := n64 q) (f := v1Round (n64 q) ab opt)
    (P := fun w u' => (w = 0 → u' = u) ∧ (w ≠ 0 → ∃ P M, PIs (n64 q) opt w u' P ∧ M < W ^ w ∧ W ^ w * P = A + M * q))
    ⟨fun _ => rfl, fun h => absurd rfl h⟩ (by
      rintro w u' hw ⟨hw0, hw1⟩
      refine ⟨by omega, fun _ => ?_⟩
      by_cases h0 : w = 0
      · subst h0
        rw [hw0 rfl]
        obtain ⟨k, P, hk1, hP, e⟩ := v1Round_zero hq hk (ab := ab) (opt := opt) u (by rw [hA]; exact h1) (fun h => by rw [hA]; exact (ho h).1)
        exact ⟨P, k, hP, by simpa using hk1, by rw [hA] at e; simpa using e⟩
      · obtain ⟨P, M, hP, hM, e⟩ := hw1 h0
        obtain ⟨k, P', hk1, hP', e'⟩ := v1Round_succ hq hk (ab := ab) (fun h => (ho h).2) h0 hw u' hP
        refine ⟨P', M + W ^ w * k, hP', ?_, ?_⟩
        · rw [pow_succ]
          have : W ^ w * (k + 1) ≤ W ^ w * W := Nat.mul_le_mul_left _ hk1
          have h2 : W ^ w * (k + 1) = W ^ w * k + W ^ w := by ring
          omega
        · calc _ = W ^ w * (W * P') := by rw [pow_succ]; ring
            _ = W ^ w * P + W ^ w * k * q := by rw [e']; ring
            _ = _ := by rw [e]; ring)
  exact this.2 (by omega)

/-- `Gen_rawMul1.generate`, `armbuilder.js:1511-1568`. -/
def vMul1 (n : Nat) (ab opt : Bool) : List VIns :=
  (if ab then blkAB n 0 (.base (.arg 2)) (arr 1) else [vop .mov 1 n .zr .zr])
    ++ (vloop n (v1Round n ab opt) ++ vEnd n opt (20 * (n - 1)))

/-- What `Gen_rawMul1` reduces. -/
def mul1In (n : Nat) (ab : Bool) (s : State) : Nat :=
  (if ab then (s.reg 2).toNat else 1) * vs (fun i => (arr 1 i).eval s fun _ => 0) n

theorem vMul1_run {q : Nat} (hq : q % 2 = 1) {s : State} (hk : Konst q s) {ab opt : Bool}
    (hab : ab = true → vs (fun i => (arr 1 i).eval s fun _ => 0) (n64 q) < q) (ho : opt = true → canOpt q = true) (u : U) :
    let r := vs (fun i => (vexes s (vMul1 (n64 q) ab opt) u).ρ (20 * (n64 q - 1) + 22, i)) (n64 q)
    r < q ∧ r * W ^ n64 q ≡ mul1In (n64 q) ab s [MOD q] := by
  intro r
  have hr : r = vs (fun i => (vexes s (vMul1 (n64 q) ab opt) u).ρ (20 * (n64 q - 1) + 22, i)) (n64 q) := rfl
  clear_value r
  have hn := n64_pos q
  have hqW := q_lt_Wn q
  have hq0 : 0 < q := by omega
  unfold vMul1 at hr
  rw [vexes_append, vexes_append] at hr
  have hA : vs (fun i => (acc1 (n64 q) ab i).eval s (vexes s (if ab then blkAB (n64 q) 0 (.base (.arg 2)) (arr 1)
      else [vop .mov 1 (n64 q) .zr .zr]) u).ρ) (n64 q + 1) = mul1In (n64 q) ab s := by
    unfold mul1In
    cases ab with
    | true => exact (blkAB_run s (n := n64 q) (g := 0) (a := .base (.arg 2)) (B := arr 1) hn trivial (fun _ => trivial) u).2
    | false =>
      rw [vs_succ]
      have e1 : (acc1 (n64 q) false (n64 q)).eval s (vexes s [vop .mov 1 (n64 q) .zr .zr] u).ρ = 0 := by
        have : acc1 (n64 q) false (n64 q) = .v 1 (n64 q) := by simp [acc1]
        rw [this]
        exact upd_same _ _ _
      have e2 : vs (fun i => (acc1 (n64 q) false i).eval s (vexes s [vop .mov 1 (n64 q) .zr .zr] u).ρ) (n64 q)
          = vs (fun i => (arr 1 i).eval s fun _ => 0) (n64 q) :=
        vs_congr fun i hi => by
          have : acc1 (n64 q) false i = arr 1 i := by simp [acc1]; omega
          rw [this]; rfl
      simp only [Bool.false_eq_true, if_false]
      rw [e1, e2]
      simp
  have hlt := vs_lt (fun i => (arr 1 i).eval s fun _ => 0) (n64 q)
  have h2 := limb_lt (s.reg 2)
  have hW4 : 4 ≤ W := by rw [← W_eq]; decide
  have e1 : W ^ (n64 q + 1) = W * W ^ n64 q := by rw [pow_succ]; ring
  have h4 : 4 * W ^ n64 q ≤ W * W ^ n64 q := Nat.mul_le_mul_right _ hW4
  have hbig : W * q ≤ W ^ n64 q * q := by
    refine Nat.mul_le_mul_right _ ?_
    calc W = W ^ 1 := (pow_one W).symm
      _ ≤ _ := Nat.pow_le_pow_right W_pos hn
  have hin : mul1In (n64 q) ab s + W ^ n64 q ≤ W ^ (n64 q + 1) ∧ mul1In (n64 q) ab s ≤ W ^ n64 q * q ∧
      (2 * q ≤ W ^ n64 q → mul1In (n64 q) ab s + W * q ≤ W ^ (n64 q + 1)) := by
    unfold mul1In
    generalize vs (fun i => (arr 1 i).eval s fun _ => 0) (n64 q) = a at *
    rw [e1]
    cases ab with
    | true =>
      have haq := hab rfl
      generalize (s.reg 2).toNat = b at *
      simp only [if_true]
      have h5 : b * a ≤ W * q := Nat.mul_le_mul h2.le haq.le
      refine ⟨?_, h5.trans hbig, fun h => ?_⟩
      · have h6 : (b + 1) * W ^ n64 q ≤ W * W ^ n64 q := Nat.mul_le_mul_right _ h2
        have h7 : b * a ≤ b * W ^ n64 q := Nat.mul_le_mul_left _ hlt.le
        have h8 : (b + 1) * W ^ n64 q = b * W ^ n64 q + W ^ n64 q := by ring
        omega
      · have h6 : W * (2 * q) ≤ W * W ^ n64 q := Nat.mul_le_mul_left _ h
        have h7 : W * (2 * q) = W * q + W * q := by ring
        omega
    | false =>
      simp only [Bool.false_eq_true, if_false, Nat.one_mul]
      refine ⟨by omega, ?_, fun h => ?_⟩
      · exact hlt.le.trans (Nat.le_mul_of_pos_right _ hq0)
      · have h6 : W * (2 * q) ≤ W * W ^ n64 q := Nat.mul_le_mul_left _ h
        have h7 : W * (2 * q) = 2 * (W * q) := by ring
        omega
  have h2q : opt = true → 2 * q ≤ W ^ n64 q := fun h => by have := canOpt_bound (ho h); omega
  obtain ⟨P, M, hP, hM, e⟩ := v1Rounds_run hq hk (opt := opt) _ hA hin.1 (fun h => ⟨hin.2.2 (h2q h), h2q h⟩)
  have hltP : P < 2 * q := by
    refine Nat.lt_of_mul_lt_mul_left (a := W ^ n64 q) ?_
    rw [e]
    have h2 : M * q < W ^ n64 q * q := Nat.mul_lt_mul_of_pos_right hM hq0
    have h3 : W ^ n64 q * (2 * q) = W ^ n64 q * q + W ^ n64 q * q := by ring
    have := hin.2.1
    omega
  rw [vEnd_run hk _ hP hltP] at hr
  rw [hr]
  refine ⟨Nat.mod_lt _ hq0, ?_⟩
  have h1 : P % q * W ^ n64 q ≡ P * W ^ n64 q [MOD q] := (Nat.mod_modEq _ _).mul_right _
  refine h1.trans ?_
  rw [Nat.mul_comm, e]
  show (_ + M * q) % q = _ % q
  rw [Nat.add_mul_mod_self_right]

end FF.Arm
