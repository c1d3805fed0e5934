import Verif.ArmMul

/-!
# The AArch64 Montgomery product over virtual registers
-/

namespace FF.Arm

open FF.X86 (upd cell rd upd_same upd_ne)

/-- `genMulAB`, `armbuilder.js:1375-1393`, `1570-1588`: the word `a` times the array `B`. -/
def blkAB (n g : Nat) (a : Val) (B : Nat → Val) : List VIns :=
  (vloop n fun i =>
    [vop .mul (if i = 0 then g + 1 else g) i (B i) a] ++ ((if i = 0 then [] else [vop (addO (i - 1)) (g + 1) i (.v (g + 2) (i - 1)) (.v g i)])
     ++ [vop .umulh (if n = 1 then g + 1 else g + 2) (if n = 1 then 1 else i) (B i) a]))
   ++ if 1 < n then [vop .adc (g + 1) n (.v (g + 2) (n - 1)) .zr] else []

theorem mul_exec (s : State) (u : U) {o : Alu} (ho : o = .mul ∨ o = .umulh) (t i : Nat) (x y : Val) :
    (vop o t i x y).exec s u = ⟨upd u.ρ (t, i) (pword o (x.eval s u.ρ) (y.eval s u.ρ)), u.fl⟩ := by
  rcases ho with rfl | rfl <;> rfl

theorem pword_one (x y : BitVec 64) : (pword .mul x y).toNat + W * (pword .umulh x y).toNat = y.toNat * x.toNat := by
  have := pword_val (fun _ => x) y 1
  simpa [vs_succ, vs_zero] using this

theorem blkAB_run (s : State) {n g : Nat} {a : Val} {B : Nat → Val} (hn : 0 < n) (ha : a.below g) (hB : ∀ i, (B i).below g) (u : U) :
    let u' := vexes s (blkAB n g a B) u
    Below g u u' ∧ vs (fun i => u'.ρ (g + 1, i)) (n + 1) = (a.eval s u.ρ).toNat * vs (fun i => (B i).eval s u.ρ) n := by
  intro u'
  by_cases h1 : n = 1
  · subst h1
    have hu' : u' = ⟨upd (upd u.ρ (g + 1, 0) (pword .mul ((B 0).eval s u.ρ) (a.eval s u.ρ))) (g + 1, 1)
        (pword .umulh ((B 0).eval s (upd u.ρ (g + 1, 0) (pword .mul ((B 0).eval s u.ρ) (a.eval s u.ρ))))
          (a.eval s (upd u.ρ (g + 1, 0) (pword .mul ((B 0).eval s u.ρ) (a.eval s u.ρ))))), u.fl⟩ := rfl
    clear_value u'
    rw [eval_off ((hB 0).off (by omega)), eval_off (ha.off (by omega))] at hu'
    subst hu'
    refine ⟨fun p hp => (upd_ne _ _ (by rintro rfl; simp only at hp; omega)).trans (upd_ne _ _ (by rintro rfl; simp only at hp; omega)), ?_⟩
    rw [vs_succ, vs_succ, vs_succ, vs_zero, vs_zero]
    dsimp only
    rw [upd_same, upd_ne _ _ (by simp), upd_same]
    have := pword_one ((B 0).eval s u.ρ) (a.eval s u.ρ)
    simpa using this
  · have hn1 : 1 < n := by omega
    have hu' : u' = vexes s (blkAB n g a B) u := rfl
    clear_value u'
    unfold blkAB at hu'
    rw [if_pos hn1, vexes_append] at hu'
    simp only [if_neg h1] at hu'
    have hl := vloop_run (s := s) (u := u) (n := n)
      (f := fun i => [vop .mul (if i = 0 then g + 1 else g) i (B i) a] ++ ((if i = 0 then []
        else [vop (addO (i - 1)) (g + 1) i (.v (g + 2) (i - 1)) (.v g i)]) ++ [vop .umulh (g + 2) i (B i) a]))
      (P := fun k u' => Below g u u' ∧ (k = 0 ∨ ∃ c : Bool, (2 ≤ k → u'.fl.c = c) ∧ (k < 2 → c = false) ∧
        vs (fun i => u'.ρ (g + 1, i)) k + W ^ k * ((u'.ρ (g + 2, k - 1)).toNat + c.toNat)
          = (a.eval s u.ρ).toNat * vs (fun i => (B i).eval s u.ρ) k)) ⟨.refl _ _, .inl rfl⟩ (by
        rintro i u1 hi ⟨b1, hP⟩
        have eB := b1.eval s (hB i)
        have ea := b1.eval s ha
        by_cases hi0 : i = 0
        · subst hi0
          simp only [if_true, List.nil_append, List.cons_append, vexes_cons, vexes_nil]
          rw [mul_exec s _ (.inl rfl), mul_exec s _ (.inr rfl)]
          dsimp only
          rw [eval_off ((hB 0).off (by omega)), eval_off (ha.off (by omega)), eB, ea]
          refine ⟨b1.trans fun p hp => (upd_ne _ _ (by rintro rfl; simp only at hp; omega)).trans
            (upd_ne _ _ (by rintro rfl; simp only at hp; omega)), .inr ⟨false, by omega, fun _ => rfl, ?_⟩⟩
          rw [vs_succ, vs_succ, vs_zero, vs_zero, upd_ne _ _ (by simp), upd_same, upd_same]
          have := pword_one ((B 0).eval s u.ρ) (a.eval s u.ρ)
          simpa using this
        · obtain ⟨c, hc, hc2, hv⟩ := hP.resolve_left hi0
          simp only [if_neg hi0, List.cons_append, List.nil_append, vexes_cons, vexes_nil]
          rw [mul_exec s _ (.inl rfl), eB, ea]
          generalize hlo : pword .mul ((B i).eval s u.ρ) (a.eval s u.ρ) = lo
          have ho : addO (i - 1) = .adds ∨ addO (i - 1) = .adcs ∨ addO (i - 1) = .adc := by
            unfold addO; split <;> simp
          obtain ⟨w, fl, d, e2, v2, f2, -⟩ := vadd_exec s ⟨upd u1.ρ (g, i) lo, u1.fl⟩ ho (g + 1) i (.v (g + 2) (i - 1)) (.v g i)
          rw [e2, mul_exec s _ (.inr rfl)]
          dsimp only
          have b2 : Below g u ⟨upd (upd u1.ρ (g, i) lo) (g + 1, i) w, fl⟩ := b1.trans fun p hp =>
            (upd_ne _ _ (by rintro rfl; simp only at hp; omega)).trans (upd_ne _ _ (by rintro rfl; simp only at hp; omega))
          rw [b2.eval s (hB i), b2.eval s ha]
          generalize hhi : pword .umulh ((B i).eval s u.ρ) (a.eval s u.ρ) = hi
          rw [v_eval, v_eval] at v2
          dsimp only at v2
          rw [upd_ne _ _ (by simp), upd_same] at v2
          have hcin : (if addO (i - 1) = .adds then false else u1.fl.c) = c := by
            by_cases h : i - 1 = 0
            · rw [addO, if_pos h, if_pos rfl, hc2 (by omega)]
            · rw [addO, if_neg h, if_neg (by decide), hc (by omega)]
          have v2 : w.toNat + W * d.toNat = (u1.ρ (g + 2, i - 1)).toNat + lo.toNat + c.toNat := by rw [← hcin]; exact v2
          refine ⟨b2.trans fun p hp => upd_ne _ _ (by rintro rfl; simp only at hp; omega),
            .inr ⟨d, fun _ => f2 (addO_ne _), by omega, ?_⟩⟩
          have hp := pword_one ((B i).eval s u.ρ) (a.eval s u.ρ)
          rw [hlo, hhi] at hp
          rw [vs_succ, vs_succ, upd_ne _ _ (by simp), upd_same, Nat.add_sub_cancel, upd_same]
          have eV : vs (fun j => upd (upd (upd u1.ρ (g, i) lo) (g + 1, i) w) (g + 2, i) hi (g + 1, j)) i = vs (fun j => u1.ρ (g + 1, j)) i :=
            vs_congr fun j hj => (upd_ne _ _ (by simp)).trans ((upd_ne _ _ (by simp; omega)).trans (upd_ne _ _ (by simp)))
          rw [eV]
          generalize (u1.ρ (g + 2, i - 1)).toNat = h' at *
          generalize (a.eval s u.ρ).toNat = A at *
          generalize ((B i).eval s u.ρ).toNat = b at *
          calc _ = vs (fun j => u1.ρ (g + 1, j)) i + W ^ i * (w.toNat + W * d.toNat) + W ^ i * (W * hi.toNat) := by rw [pow_succ]; ring
            _ = (vs (fun j => u1.ρ (g + 1, j)) i + W ^ i * (h' + c.toNat)) + W ^ i * (lo.toNat + W * hi.toNat) := by rw [v2]; ring
            _ = _ := by rw [hv, hp]; ring)
    generalize vexes s (vloop n _) u = u1 at hl hu'
    obtain ⟨b1, hP⟩ := hl
    obtain ⟨c, hc, -, hv⟩ := hP.resolve_left (by omega)
    rw [vexes_cons, vexes_nil] at hu'
    obtain ⟨w, fl, d, e2, v2, -, -⟩ := vadd_exec s u1 (o := .adc) (by simp) (g + 1) n (.v (g + 2) (n - 1)) .zr
    rw [e2] at hu'
    subst hu'
    refine ⟨b1.trans fun p hp => upd_ne _ _ (by rintro rfl; simp only at hp; omega), ?_⟩
    rw [if_neg (by decide), zr_val, v_eval, hc (by omega), Nat.add_zero] at v2
    rw [vs_succ]
    dsimp only
    rw [upd_same]
    have eV : vs (fun j => upd u1.ρ (g + 1, n) w (g + 1, j)) n = vs (fun j => u1.ρ (g + 1, j)) n :=
      vs_congr fun j hj => upd_ne _ _ (by simp; omega)
    rw [eV, ← hv, ← v2]
    have hd : d = false := by
      cases d
      · rfl
      · exfalso
        rw [← v2, Bool.toNat_true, Nat.mul_one] at hv
        have h1 := vs_lt (fun i => (B i).eval s u.ρ) n
        have h2 := limb_lt (a.eval s u.ρ)
        have h3 : (a.eval s u.ρ).toNat * vs (fun i => (B i).eval s u.ρ) n ≤ W * W ^ n := Nat.mul_le_mul h2.le h1.le
        have h4 : 0 < (a.eval s u.ρ).toNat * vs (fun i => (B i).eval s u.ρ) n := by
          rw [← hv]
          exact Nat.add_pos_right _ (Nat.mul_pos (pow_pos W_pos _) (by have := W_pos; omega))
        have h5 : (a.eval s u.ρ).toNat * vs (fun i => (B i).eval s u.ρ) n < W * W ^ n := by
          have : 0 < vs (fun i => (B i).eval s u.ρ) n := Nat.pos_of_mul_pos_left h4
          calc _ < W * vs (fun i => (B i).eval s u.ρ) n := Nat.mul_lt_mul_of_pos_right h2 this
            _ ≤ _ := Nat.mul_le_mul_left _ h1.le
        have h6 : W ^ n * (w.toNat + W) = W ^ n * w.toNat + W * W ^ n := by ring
        omega
    rw [hd, Bool.toNat_false, Nat.mul_zero, Nat.add_zero (BitVec.toNat w)]

/-! ## The multiple of the modulus -/

/-- The word `np * acc`, and the addition of its product with the modulus. -/
def phQ (n g : Nat) (full fin : Bool) (x : Val) (acc : Nat → Val) : List VIns :=
  vop .mul (g + 10) 0 (.mem (.tab .np) 0) (acc 0) :: blkQ n (g + 11) full fin (.v (g + 10) 0) x acc

/-- The constants are the modulus and `np`. -/
structure Konst (q : Nat) (s : State) : Prop where
  hq : ∀ ρ, vs (fun i => (qw i).eval s ρ) (n64 q) = q
  hnp : s.mem (cell (s.sym .np) 0) = np q

theorem low_zero {q : Nat} (hq : q % 2 = 1) {a0 u0 : BitVec 64} {v T : Nat}
    (h : u0.toNat + W * T = a0.toNat + W * v + (np q * a0).toNat * q) : W * T = a0.toNat + W * v + (np q * a0).toNat * q := by
  have hl := mont_low hq a0 v
  rw [Nat.mul_comm q, ← h, Nat.add_mul_mod_self_left, Nat.mod_eq_of_lt (limb_lt u0)] at hl
  omega

theorem phQ_start {q : Nat} {s : State} (hk : Konst q s) {g : Nat} {acc : Nat → Val} (u : U) :
    ∃ u1, (vop .mul (g + 10) 0 (.mem (.tab .np) 0) (acc 0)).exec s u = u1 ∧ Below (g + 10) u u1 ∧
      u1.ρ (g + 10, 0) = np q * (acc 0).eval s u.ρ := by
  refine ⟨_, rfl, ?_, ?_⟩
  · rw [mul_exec s _ (.inl rfl)]
    exact fun p hp => upd_ne _ _ (by rintro rfl; simp only at hp; omega)
  · rw [mul_exec s _ (.inl rfl)]
    show upd u.ρ (g + 10, 0) _ (g + 10, 0) = _
    rw [upd_same, ← hk.hnp]
    rfl

theorem phQ_full {q : Nat} (hq : q % 2 = 1) {s : State} (hk : Konst q s) {g : Nat} {fin : Bool} {x : Val} {acc : Nat → Val}
    (hx : x.below (g + 10)) (hacc : ∀ i, (acc i).below (g + 10)) (u : U) (hx2 : (x.eval s u.ρ).toNat ≤ 2) :
    let u' := vexes s (phQ (n64 q) g true fin x acc) u
    Below (g + 10) u u' ∧ ∃ k, k < W ∧
      W * (vs (fun i => u'.ρ (g + 15, i + 1)) (n64 q) + W ^ n64 q * (u'.ρ (g + 16, 0)).toNat)
        = vs (fun i => (acc i).eval s u.ρ) (n64 q + 1) + W ^ (n64 q + 1) * (x.eval s u.ρ).toNat + k * q := by
  intro u'
  have hu' : u' = vexes s (phQ (n64 q) g true fin x acc) u := rfl
  clear_value u'
  obtain ⟨u1, e1, b1, v1⟩ := phQ_start hk u
  rw [phQ, vexes_cons, e1] at hu'
  have h := blkQ_full s (n := n64 q) (g := g + 11) (fin := fin) (m := .v (g + 10) 0) (x := x) (acc := acc) (n64_pos q) (by show _ < _; omega)
    (hx.mono (by omega)) (fun i => (hacc i).mono (by omega)) u1 (by rw [b1.eval s hx]; exact hx2)
  rw [← hu'] at h
  obtain ⟨b2, hv⟩ := h
  refine ⟨b1.trans (b2.mono (by omega)), _, limb_lt (u1.ρ (g + 10, 0)), ?_⟩
  rw [b1.eval s hx, b1.vs s hacc, hk.hq, v_eval, v1, vs_shift] at hv
  rw [v1, vs_shift]
  have e : ∀ A Y : Nat, A + W * Y + W ^ (n64 q + 1) * (x.eval s u.ρ).toNat = A + W * (Y + W ^ n64 q * (x.eval s u.ρ).toNat) := by
    intro A Y; ring
  rw [e] at hv ⊢
  exact low_zero hq hv

theorem phQ_half {q : Nat} (hq : q % 2 = 1) {s : State} (hk : Konst q s) {g : Nat} {fin : Bool} {x : Val} {acc : Nat → Val}
    (hacc : ∀ i, (acc i).below (g + 10)) (u : U)
    (hlt : vs (fun i => (acc i).eval s u.ρ) (n64 q + 1) + W ^ n64 q ≤ W ^ (n64 q + 1)) :
    let u' := vexes s (phQ (n64 q) g false fin x acc) u
    Below (g + 10) u u' ∧ ∃ (k : Nat) (d : Bool), k < W ∧ (fin = true → (u'.ρ (g + 16, 0)).toNat = d.toNat) ∧
      W * (vs (fun i => u'.ρ (g + 15, i + 1)) (n64 q) + W ^ n64 q * d.toNat)
        = vs (fun i => (acc i).eval s u.ρ) (n64 q + 1) + k * q := by
  intro u'
  have hu' : u' = vexes s (phQ (n64 q) g false fin x acc) u := rfl
  clear_value u'
  obtain ⟨u1, e1, b1, v1⟩ := phQ_start hk u
  rw [phQ, vexes_cons, e1] at hu'
  have h := blkQ_half s (n := n64 q) (g := g + 11) (fin := fin) (m := .v (g + 10) 0) (x := x) (acc := acc) (n64_pos q) (by show _ < _; omega)
    (fun i => (hacc i).mono (by omega)) u1 (by
      rw [b1.vs s hacc]
      have := vs_lt (fun i => pword .mul ((qw i).eval s u1.ρ) ((Val.v (g + 10) 0).eval s u1.ρ)) (n64 q)
      omega)
  rw [← hu'] at h
  obtain ⟨b2, d, hd, hv⟩ := h
  refine ⟨b1.trans (b2.mono (by omega)), _, d, limb_lt (u1.ρ (g + 10, 0)), hd, ?_⟩
  rw [b1.vs s hacc, hk.hq, v_eval, v1, vs_shift] at hv
  rw [v1, vs_shift]
  exact low_zero hq hv

/-! ## Rounds of the product -/

/-- The accumulator after the addition of a word times the operand. -/
def accV (g w i : Nat) : Val := if w = 0 ∨ i = 0 then .v (g + 1) i else .v (g + 4) i

/-- A round of `genMul`, `armbuilder.js:1350-1373`. -/
def vRound (n : Nat) (opt : Bool) (w : Nat) : List VIns :=
  let g := 20 * w
  (if w = 0 then blkAB n g (arr 1 w) (arr 2)
    else blkX n g opt true opt false (arr 1 w) (.v (g - 20 + 16) 0) (arr 2) (fun i => .v (g - 20 + 15) (i + 1)))
  ++ phQ n g (!opt) (decide (w < n - 1)) (if w = 0 then .zr else .v (g + 5) 0) (accV g w)

/-- `P` is the running product after `w` rounds. -/
def PIs (n : Nat) (opt : Bool) (w : Nat) (u : U) (P : Nat) : Prop :=
  if w = 0 then P = 0 else
    vs (fun i => u.ρ (20 * w - 20 + 15, i + 1)) n + W ^ n * (if opt then 0 else (u.ρ (20 * w - 20 + 16, 0)).toNat) = P ∧
      (opt = true → w < n → u.ρ (20 * w - 20 + 16, 0) = 0)

theorem accV_below (g w i : Nat) : (accV g w i).below (g + 10) := by
  unfold accV; split <;> (show _ < _; omega)

theorem vs_accV {g w n : Nat} (hw : w ≠ 0) (s : State) (u : U) :
    vs (fun i => (accV g w i).eval s u.ρ) (n + 1) = (u.ρ (g + 1, 0)).toNat + W * vs (fun i => u.ρ (g + 4, i + 1)) n := by
  rw [vs_shift]
  congr 2
  · unfold accV; rw [if_pos (.inr rfl)]; rfl
  · exact vs_congr fun i _ => by simp only [accV, if_neg (show ¬(w = 0 ∨ i + 1 = 0) by omega)]; rfl

theorem vs_accV0 {g n : Nat} (s : State) (u : U) :
    vs (fun i => (accV g 0 i).eval s u.ρ) (n + 1) = vs (fun i => u.ρ (g + 1, i)) (n + 1) :=
  vs_congr fun i _ => by unfold accV; rw [if_pos (.inl rfl)]; rfl

theorem vRound_run {q : Nat} (hq : q % 2 = 1) {s : State} (hk : Konst q s) {opt : Bool} {B : Nat} (hB : vs (fun i => (arr 2 i).eval s fun _ => 0) (n64 q) = B)
    (ho : opt = true → B + q ≤ W ^ n64 q ∧ 2 * B ≤ W ^ n64 q) {w P : Nat} (hw : w < n64 q) (u : U) (hP : PIs (n64 q) opt w u P) :
    ∃ k P', k < W ∧ PIs (n64 q) opt (w + 1) (vexes s (vRound (n64 q) opt w) u) P' ∧
      W * P' = P + ((arr 1 w).eval s fun _ => 0).toNat * B + k * q := by
  have hn := n64_pos q
  generalize hA : ((arr 1 w).eval s fun _ => 0) = A
  have hAlt := limb_lt A
  have hBn : B < W ^ n64 q := by rw [← hB]; exact vs_lt _ _
  have hW4 : 4 ≤ W := by rw [← W_eq]; decide
  have eA : ∀ ρ, (arr 1 w).eval s ρ = A := fun ρ => hA
  have eB : ∀ ρ, vs (fun i => (arr 2 i).eval s ρ) (n64 q) = B := fun ρ => hB
  have hidx : 20 * (w + 1) - 20 = 20 * w := by omega
  have hAB : A.toNat * B + B ≤ W * B := by
    have : (A.toNat + 1) * B ≤ W * B := Nat.mul_le_mul_right _ hAlt
    linarith
  -- the first half
  have h1 : ∃ u1, vexes s (vRound (n64 q) opt w) u = vexes s (phQ (n64 q) (20 * w) (!opt) (decide (w < n64 q - 1))
      (if w = 0 then .zr else .v (20 * w + 5) 0) (accV (20 * w) w)) u1 ∧
      vs (fun i => (accV (20 * w) w i).eval s u1.ρ) (n64 q + 1)
        + W ^ (n64 q + 1) * (if opt then 0 else ((if w = 0 then Val.zr else .v (20 * w + 5) 0).eval s u1.ρ).toNat) = P + A.toNat * B ∧
      (((if w = 0 then Val.zr else .v (20 * w + 5) 0).eval s u1.ρ).toNat ≤ 2 ∨ opt = true) := by
    unfold vRound
    dsimp only
    rw [vexes_append]
    refine ⟨_, rfl, ?_⟩
    by_cases h0 : w = 0
    · subst h0
      have hP : P = 0 := hP
      subst hP
      simp only [if_true]
      have h := (blkAB_run s (n := n64 q) (g := 20 * 0) (a := arr 1 0) (B := arr 2) hn trivial (fun _ => trivial) u).2
      rw [eA, eB] at h
      rw [vs_accV0, h]
      refine ⟨?_, .inl ?_⟩
      · rw [zr_val, ite_self]; ring
      · rw [zr_val]; omega
    · simp only [if_neg h0]
      unfold PIs at hP
      rw [if_neg h0] at hP
      obtain ⟨hP, hx⟩ := hP
      cases opt with
      | false =>
        have h := blkX_non s (n := n64 q) (g := 20 * w) (sw := true) (fin := false) (m := arr 1 w) (x := .v (20 * w - 20 + 16) 0) (B := arr 2)
          (R := fun i => .v (20 * w - 20 + 15) (i + 1)) hn trivial (by show _ < _; omega) (fun _ => trivial) (fun _ => by show _ < _; omega) u
        obtain ⟨-, h2, h3⟩ := h
        rw [eA, eB] at h3
        simp only [Bool.false_eq_true, if_false] at hP ⊢
        rw [vs_accV h0, v_eval]
        refine ⟨?_, .inl h2⟩
        rw [← hP]
        refine Eq.trans ?_ h3
        ring
      | true =>
        simp only [if_true, Nat.mul_zero, Nat.add_zero] at hP
        have hPlt : P < W ^ n64 q := by rw [← hP]; exact vs_lt _ _
        have h := blkX_opt s (n := n64 q) (g := 20 * w) (sw := true) (hs := true) (fin := false) (m := arr 1 w) (x := .v (20 * w - 20 + 16) 0) (B := arr 2)
          (R := fun i => .v (20 * w - 20 + 15) (i + 1)) hn trivial (by show _ < _; omega) (fun _ => trivial) (fun _ => by show _ < _; omega) u
          (hx rfl hw) (by
            rw [eA, eB]
            show vs (fun i => u.ρ (20 * w - 20 + 15, i + 1)) (n64 q) + _ < _
            rw [hP, pow_succ]
            have : W * B + W ≤ W * W ^ n64 q := by rw [← Nat.mul_succ]; exact Nat.mul_le_mul_left _ hBn
            have := (ho rfl).2
            have : 4 * W ^ n64 q ≤ W ^ n64 q * W := by rw [Nat.mul_comm]; exact Nat.mul_le_mul_left _ hW4
            have : W * (2 * B) ≤ W * W ^ n64 q := Nat.mul_le_mul_left _ (ho rfl).2
            have e1 : W * (2 * B) = 2 * (W * B) := by ring
            have e2 : W * W ^ n64 q = W ^ n64 q * W := by ring
            omega)
        obtain ⟨-, -, h3⟩ := h
        rw [eA, eB] at h3
        refine ⟨?_, .inr rfl⟩
        simp only [if_true, Nat.mul_zero, Nat.add_zero]
        rw [vs_accV h0, ← hP]
        exact h3
  obtain ⟨u1, e1, v1, hx2⟩ := h1
  rw [e1]
  cases opt with
  | false =>
    obtain ⟨-, k, hk1, hk2⟩ := phQ_full hq hk (g := 20 * w) (fin := decide (w < n64 q - 1)) (x := if w = 0 then .zr else .v (20 * w + 5) 0)
      (acc := accV (20 * w) w) (by split; trivial; show _ < _; omega) (accV_below _ _) u1 (hx2.resolve_right (by decide))
    simp only [Bool.false_eq_true, if_false] at v1
    rw [v1] at hk2
    refine ⟨k, _, hk1, ?_, hk2⟩
    unfold PIs
    rw [if_neg (Nat.succ_ne_zero w), hidx]
    exact ⟨rfl, fun h => absurd h (by decide)⟩
  | true =>
    simp only [if_true, Nat.mul_zero, Nat.add_zero] at v1
    have hPlt : P < W ^ n64 q := by
      unfold PIs at hP
      by_cases h0 : w = 0
      · rw [if_pos h0] at hP; rw [hP]; exact pow_pos W_pos _
      · rw [if_neg h0] at hP
        have hP := hP.1
        simp only [if_true, Nat.mul_zero, Nat.add_zero] at hP
        rw [← hP]; exact vs_lt _ _
    obtain ⟨o1, o2⟩ := ho rfl
    have e2 : W * W ^ n64 q = W ^ (n64 q + 1) := by rw [pow_succ, Nat.mul_comm]
    obtain ⟨-, k, d, hk1, hk2, hk3⟩ := phQ_half hq hk (g := 20 * w) (fin := decide (w < n64 q - 1)) (x := if w = 0 then .zr else .v (20 * w + 5) 0)
      (acc := accV (20 * w) w) (accV_below _ _) u1 (by
        rw [v1]
        have : W * (2 * B) ≤ W * W ^ n64 q := Nat.mul_le_mul_left _ o2
        have : 4 * W ^ n64 q ≤ W * W ^ n64 q := Nat.mul_le_mul_right _ hW4
        have e1 : W * (2 * B) = 2 * (W * B) := by ring
        omega)
    rw [v1] at hk3
    have hd : d = false := by
      cases d
      · rfl
      · exfalso
        have h1 : k * q + q ≤ W * q := by
          have : (k + 1) * q ≤ W * q := Nat.mul_le_mul_right _ hk1
          linarith
        have h2 : W * (B + q) ≤ W * W ^ n64 q := Nat.mul_le_mul_left _ o1
        have h3 : W * (B + q) = W * B + W * q := by ring
        have h4 : W * (vs (fun i => (vexes s (phQ (n64 q) (20 * w) false (decide (w < n64 q - 1)) (if w = 0 then Val.zr else .v (20 * w + 5) 0)
          (accV (20 * w) w)) u1).ρ (20 * w + 15, i + 1)) (n64 q) + W ^ n64 q * true.toNat)
          = W * vs (fun i => (vexes s (phQ (n64 q) (20 * w) false (decide (w < n64 q - 1)) (if w = 0 then Val.zr else .v (20 * w + 5) 0)
          (accV (20 * w) w)) u1).ρ (20 * w + 15, i + 1)) (n64 q) + W * W ^ n64 q := by rw [Bool.toNat_true]; ring
        rw [h4] at hk3
        have h5 : W * (B + q) + W ^ n64 q ≤ W * W ^ n64 q + (B + q) := by
          obtain ⟨W', hW'⟩ : ∃ W', W = W' + 1 := ⟨W - 1, by omega⟩
          have := Nat.mul_le_mul_left W' o1
          rw [hW'] at this ⊢
          generalize (W' + 1) ^ n64 q = Y at *
          have e3 : (W' + 1) * (B + q) = W' * (B + q) + (B + q) := by ring
          have e4 : (W' + 1) * Y = W' * Y + Y := by ring
          omega
        omega
    rw [hd] at hk2 hk3
    refine ⟨k, _, hk1, ?_, hk3⟩
    unfold PIs
    rw [if_neg (Nat.succ_ne_zero w), hidx]
    refine ⟨by simp, fun _ hw' => ?_⟩
    have := hk2 (by simpa using (by omega : w < n64 q - 1))
    exact BitVec.eq_of_toNat_eq (this.trans rfl)

end FF.Arm
