import Verif.Raw
import Mathlib.Algebra.Order.Ring.Nat
import Mathlib.Data.Nat.Prime.Basic

/-!
# Correctness of the portable Montgomery routines

Everything is for an arbitrary odd modulus and both generated variants (`opt`).
-/

namespace FF

/-- The word chosen in each round makes the running product divisible by `2^64`. -/
theorem mont_low {q : Nat} (hq : q % 2 = 1) (x : Limb) (v : Nat) :
    (x.toNat + W * v + q * (np q * x).toNat) % W = 0 := by
  have h := np_spec hq
  rw [BitVec.toNat_mul, W_eq]
  obtain ⟨k, hk⟩ := Nat.dvd_of_mod_eq_zero h
  obtain ⟨j, hj⟩ : ∃ j, (np q).toNat * x.toNat = W * j + (np q).toNat * x.toNat % W :=
    ⟨_, (Nat.div_add_mod _ _).symm⟩
  have e : x.toNat + W * v + q * ((np q).toNat * x.toNat % W) + W * (q * j)
      = W * (v + k * x.toNat) := by
    have e1 : q * ((np q).toNat * x.toNat) = q * (W * j + (np q).toNat * x.toNat % W) := by rw [← hj]
    have e2 : (q * (np q).toNat + 1) * x.toNat = W * k * x.toNat := by rw [hk]
    nlinarith [e1, e2]
  have := congrArg (· % W) e
  simpa [Nat.add_mul_mod_self_left] using this

/-- One accumulation `product += q * np0`: the new product is a multiple of `2^64`. -/
theorem mont_acc {q : Nat} (hq : q % 2 = 1) {p : Limbs} (hp : p.length = n64 q + 1) :
    let am := mpn_addmul_1 p (rawqExt q) (np q * p.headD 0)
    am.1.length = n64 q + 1 ∧ am.1.tail.length = n64 q ∧
    W * val am.1.tail + W ^ (n64 q + 1) * am.2 = val p + q * (np q * p.headD 0).toNat := by
  intro am
  have hl : am.1.length = n64 q + 1 := by
    show (addmulC p _ _ 0).1.length = _
    rw [addmulC_length, hp]
  have e := addmulC_val p (rawqExt q) (np q * p.headD 0) 0 (by simp [hp])
  rw [hp, rawqExt_val] at e
  have e' : val am.1 + W ^ (n64 q + 1) * am.2 = val p + q * (np q * p.headD 0).toNat := by
    rw [Nat.add_zero] at e; exact e
  refine ⟨hl, by simp [hl], ?_⟩
  -- low limb is zero
  obtain ⟨x, xs, hxs⟩ : ∃ x xs, p = x :: xs := by
    cases p with
    | nil => simp at hp
    | cons x xs => exact ⟨x, xs, rfl⟩
  obtain ⟨y, ys, hys⟩ : ∃ y ys, am.1 = y :: ys := by
    cases h : am.1 with
    | nil => rw [h] at hl; simp at hl
    | cons y ys => exact ⟨y, ys, rfl⟩
  have hlow := mont_low hq x (val xs)
  rw [hys] at e' ⊢
  rw [hxs] at e' ⊢
  simp only [List.headD_cons, val_cons, List.tail_cons] at e' ⊢
  have hy : y.toNat = 0 := by
    have h1 : y.toNat % W = 0 := by
      have := congrArg (· % W) e'
      simp only [W_pow_succ] at this
      rw [hlow] at this
      have e3 : y.toNat + W * val ys + W ^ n64 q * W * am.2 = y.toNat + W * (val ys + W ^ n64 q * am.2) := by ring
      rw [e3, Nat.add_mul_mod_self_left] at this
      exact this
    rwa [Nat.mod_eq_of_lt (limb_lt y)] at h1
  omega

/-- The final conditional subtraction of the Montgomery routines. -/
theorem mmulFinal_val {q : Nat} (hq : q % 2 = 1) (opt : Bool) {p : Limbs} {c : Limb} (hp : p.length = n64 q + 1)
    (hc : opt = true → c = 0)
    (hb : val p + W ^ (n64 q + 1) * c.toNat + q * (np q * p.headD 0).toNat < 2 * q * W)
    (ho : opt = true → val p + q * (np q * p.headD 0).toNat < W ^ (n64 q + 1)) :
    (mmulFinal q opt p c).length = n64 q ∧
    ∃ s, W * s = val p + W ^ (n64 q + 1) * c.toNat + q * (np q * p.headD 0).toNat ∧
      val (mmulFinal q opt p c) = s % q := by
  have hqlt := q_lt_Wn q
  obtain ⟨hl, htl, e⟩ := mont_acc hq hp
  unfold mmulFinal
  set am := mpn_addmul_1 p (rawqExt q) (np q * p.headD 0) with ham
  refine ⟨condSub_length _ htl, val am.1.tail + W ^ n64 q * (c.toNat + am.2), ?_, ?_⟩
  · rw [W_pow_succ] at e ⊢
    calc _ = W * val am.1.tail + W ^ n64 q * W * am.2 + W ^ n64 q * W * c.toNat := by ring
      _ = _ := by rw [e]; ring
  · have hS : val am.1.tail + W ^ n64 q * (c.toNat + am.2) < 2 * q := by
      have : W * (val am.1.tail + W ^ n64 q * (c.toNat + am.2)) < W * (2 * q) := by
        rw [W_pow_succ] at e hb
        calc _ = W * val am.1.tail + W ^ n64 q * W * am.2 + W ^ n64 q * W * c.toNat := by ring
          _ < 2 * q * W := by rw [e]; linarith
          _ = _ := by ring
      exact Nat.lt_of_mul_lt_mul_left this
    have hle : c.toNat + am.2 ≤ 1 := by
      by_contra hcon
      have : W ^ n64 q * 2 ≤ W ^ n64 q * (c.toNat + am.2) := Nat.mul_le_mul_left _ (by omega)
      omega
    have hcc : (c + BitVec.ofNat 64 am.2 != 0) = ((c.toNat + am.2) != 0) := by
      have : (c + BitVec.ofNat 64 am.2).toNat = c.toNat + am.2 := by
        rw [BitVec.toNat_add, BitVec.toNat_ofNat]
        omega
      rw [Bool.eq_iff_iff]
      simp only [bne_iff_ne, ne_eq]
      rw [← this]
      constructor
      · intro h h'; exact h (BitVec.eq_of_toNat_eq (by simpa using h'))
      · intro h h'; exact h (by rw [h']; rfl)
    have := condSub_val (q := q) (c := c.toNat + am.2) htl (by omega)
    cases opt with
    | false =>
      simp only [Bool.not_false, Bool.true_and]
      rw [hcc]; exact this
    | true =>
      simp only [Bool.not_true, Bool.false_and]
      have hc0 : c = 0 := hc rfl
      have ham0 : am.2 = 0 := by
        have h1 := ho rfl
        rcases Nat.eq_zero_or_pos am.2 with h | h
        · exact h
        · have : W ^ (n64 q + 1) * 1 ≤ W ^ (n64 q + 1) * am.2 := Nat.mul_le_mul_left _ h
          omega
      rw [hc0, ham0] at this ⊢
      exact this

/-- The bound on the modulus that the optimised variant relies on. -/
theorem canOpt_bound {q : Nat} (h : canOpt q = true) : 2 * q + 2 * W ^ (n64 q - 1) ≤ W ^ n64 q := by
  have hp : 0 < W ^ (n64 q - 1) := pow_pos W_pos _
  have hn := n64_pos q
  have e : W ^ n64 q = W * W ^ (n64 q - 1) := by
    rw [← pow_succ', Nat.sub_add_cancel hn]
  unfold canOpt at h
  have h1 := of_decide_eq_true h
  rw [show 2 ^ ((n64 q - 1) * 64) = W ^ (n64 q - 1) by rw [W_pow, Nat.mul_comm]] at h1
  have h2 : q / W ^ (n64 q - 1) < 2 ^ 63 - 1 := by
    have : (2 ^ 64 - 1) / 2 - 1 = 2 ^ 63 - 2 := by norm_num
    rw [this] at h1; omega
  have h3 := (Nat.div_lt_iff_lt_mul hp).mp h2
  have h4 : W = 2 * (2 ^ 63 - 1) + 2 := by rw [← W_eq]; norm_num
  rw [e]
  generalize W ^ (n64 q - 1) = P at *
  rw [h4]
  have : (2 * (2 ^ 63 - 1) + 2) * P = 2 * ((2 ^ 63 - 1) * P) + 2 * P := by ring
  omega

theorem mul_limb_lt {b n : Nat} (x : Limb) (hb : b < W ^ n) : b * x.toNat + W ^ n < W ^ n * W := by
  have hx := limb_lt x
  have hW2 : 2 < W := by rw [← W_eq]; norm_num
  have h1 : b * x.toNat ≤ b * (W - 1) := Nat.mul_le_mul_left _ (by omega)
  have h3 : b * (W - 1) < W ^ n * (W - 1) := Nat.mul_lt_mul_of_pos_right hb (by omega)
  have h2 : W ^ n * (W - 1) + W ^ n = W ^ n * W := by
    rw [← Nat.mul_succ]; congr 1; omega
  omega

/-- One round of the Montgomery product: the running total `T` becomes `(T + q*np0)/2^64 + B*a`, exactly. -/
theorem mmulStep_val {q : Nat} (hq : q % 2 = 1) (opt : Bool)     {B : Limbs} (hB : B.length = n64 q) (hBq : opt = true → val B + q ≤ W ^ n64 q) (ai : Limb)
    {p : Limbs} {c : Limb} (hp : p.length = n64 q + 1)
    (hc : opt = true → c = 0)
    (hT : val p + W ^ (n64 q + 1) * c.toNat < val B * W + q) :
    let r := mmulStep q opt B ai p c
    r.1.length = n64 q + 1 ∧ (opt = true → r.2 = 0) ∧
    ∃ s, W * s = val p + W ^ (n64 q + 1) * c.toNat + q * (np q * p.headD 0).toNat ∧
      val r.1 + W ^ (n64 q + 1) * r.2.toNat = s + val B * ai.toNat := by
  intro r
  have hqlt := q_lt_Wn q
  have hBlt := val_lt B
  rw [hB] at hBlt
  have hW := W_pos
  have hW2 : 2 < W := by rw [← W_eq]; norm_num
  obtain ⟨hl, htl, e⟩ := mont_acc hq hp
  set am := mpn_addmul_1 p (rawqExt q) (np q * p.headD 0) with ham
  have hnp := limb_lt (np q * p.headD 0)
  set m := (np q * p.headD 0).toNat with hm
  -- the value of the round before adding B*a
  have hs : W * (val am.1.tail + W ^ n64 q * (c.toNat + am.2))
      = val p + W ^ (n64 q + 1) * c.toNat + q * m := by
    rw [W_pow_succ] at e ⊢
    calc _ = W * val am.1.tail + W ^ n64 q * W * am.2 + W ^ n64 q * W * c.toNat := by ring
      _ = _ := by rw [e]; ring
  have hqm : q * m + q ≤ q * W := by
    rw [← Nat.mul_succ]; exact Nat.mul_le_mul_left _ hnp
  have hS : val am.1.tail + W ^ n64 q * (c.toNat + am.2) < val B + q := by
    have : W * (val am.1.tail + W ^ n64 q * (c.toNat + am.2)) < W * (val B + q) := by
      rw [hs]; nlinarith
    exact Nat.lt_of_mul_lt_mul_left this
  have hle : c.toNat + am.2 ≤ 1 := by
    by_contra hcon
    have : W ^ n64 q * 2 ≤ W ^ n64 q * (c.toNat + am.2) := Nat.mul_le_mul_left _ (by omega)
    omega
  have hBa := mul_limb_lt ai hBlt
  cases opt with
  | false =>
    set bm := mpn_addmul_1 (List.replicate (n64 q) 0) B ai with hbm
    have ebm : val bm.1 + W ^ n64 q * bm.2 = val B * ai.toNat := by
      have := addmulC_val (List.replicate (n64 q) 0) B ai 0 (by simp [hB])
      simpa [hbm, mpn_addmul_1] using this
    have lbm : bm.1.length = n64 q := by simp [hbm, mpn_addmul_1, addmulC_length]
    set top : Limb := c + BitVec.ofNat 64 am.2 + BitVec.ofNat 64 bm.2 with htop
    have hbm2 : bm.2 + 1 < W := by
      have h1 : W ^ n64 q * (bm.2 + 1) < W ^ n64 q * W := by
        rw [Nat.mul_succ]; omega
      exact Nat.lt_of_mul_lt_mul_left h1
    have htopv : top.toNat = c.toNat + am.2 + bm.2 := by
      rw [htop, BitVec.toNat_add, BitVec.toNat_add, BitVec.toNat_ofNat, BitVec.toNat_ofNat, W_eq]
      rw [Nat.mod_eq_of_lt (a := am.2) (by omega), Nat.mod_eq_of_lt (a := bm.2) (by omega)]
      have h1 := limb_lt c
      rw [Nat.mod_eq_of_lt (a := c.toNat + am.2) (by omega)]
      rw [Nat.mod_eq_of_lt (by omega)]
    have ead := addNC_val (bm.1 ++ [top]) am.1.tail 0 (by simp [lbm, hl])
    have lad : (bm.1 ++ [top]).length = n64 q + 1 := by simp [lbm]
    rw [lad, val_append, lbm] at ead
    simp only [val_cons, val_nil, Nat.mul_zero, Nat.add_zero] at ead
    have hr : r = ((mpn_add (bm.1 ++ [top]) am.1.tail).1,
        BitVec.ofNat 64 (mpn_add (bm.1 ++ [top]) am.1.tail).2) := rfl
    refine ⟨by rw [hr]; simp [mpn_add, addNC_length, lbm], by simp, _, hs, ?_⟩
    rw [hr]
    simp only [mpn_add]
    have hc2 : (addNC (bm.1 ++ [top]) am.1.tail 0).2 < W := by
      have htl2 := val_lt am.1.tail
      rw [htl] at htl2
      have htopl := limb_lt top
      have hbml := val_lt bm.1
      rw [lbm] at hbml
      by_contra hcon
      have h1 : W ^ (n64 q + 1) * W ≤ W ^ (n64 q + 1) * (addNC (bm.1 ++ [top]) am.1.tail 0).2 :=
        Nat.mul_le_mul_left _ (by omega)
      have h2 : W ^ n64 q * (top.toNat + 1) ≤ W ^ n64 q * W := Nat.mul_le_mul_left _ htopl
      have h3 : W ^ (n64 q + 1) * 2 ≤ W ^ (n64 q + 1) * W := Nat.mul_le_mul_left _ (by rw [← W_eq]; norm_num)
      have h4 : W ^ n64 q * 1 ≤ W ^ n64 q * W := Nat.mul_le_mul_left _ hW
      rw [W_pow_succ] at h1 h3 ead
      rw [Nat.mul_succ] at h2
      omega
    rw [toNat_ofNat_W, Nat.mod_eq_of_lt hc2, ead, htopv]
    have : val bm.1 + W ^ n64 q * (c.toNat + am.2 + bm.2) + val am.1.tail
        = (val bm.1 + W ^ n64 q * bm.2) + val am.1.tail + W ^ n64 q * (c.toNat + am.2) := by ring
    rw [this, ebm]; ring
  | true =>
    have hc0 : c = 0 := hc rfl
    subst hc0
    have hz : (0 : Limb).toNat = 0 := rfl
    have hBq' := hBq rfl
    have ham0 : am.2 = 0 := by
      rcases Nat.eq_zero_or_pos am.2 with h | h
      · exact h
      · have : W ^ n64 q * 1 ≤ W ^ n64 q * ((0 : Limb).toNat + am.2) := Nat.mul_le_mul_left _ (by omega)
        omega
    have hbase : (List.replicate (n64 q) (0 : Limb)).set 1 (BitVec.ofNat 64 am.2) = List.replicate (n64 q) 0 := by
      rw [ham0]
      apply List.ext_getElem (by simp)
      intro i h1 h2
      rw [List.getElem_set]; split <;> simp
    set bm := mpn_addmul_1 (List.replicate (n64 q) 0) B ai with hbm
    have ebm : val bm.1 + W ^ n64 q * bm.2 = val B * ai.toNat := by
      have := addmulC_val (List.replicate (n64 q) 0) B ai 0 (by simp [hB])
      simpa [hbm, mpn_addmul_1] using this
    have lbm : bm.1.length = n64 q := by simp [hbm, mpn_addmul_1, addmulC_length]
    have hbm2 : bm.2 < W := by
      have h1 : W ^ n64 q * (bm.2 + 1) < W ^ n64 q * W + 1 := by
        rw [Nat.mul_succ]; omega
      have h2 : W ^ n64 q * (bm.2 + 1) ≤ W ^ n64 q * W := by omega
      have := Nat.le_of_mul_le_mul_left h2 (pow_pos hW _)
      omega
    have hr : r = ((mpn_add (bm.1 ++ [BitVec.ofNat 64 bm.2]) am.1.tail).1, 0) := by
      show mmulStep q true B ai p 0 = _
      unfold mmulStep
      simp only [if_true]
      rw [← ham, hbase]
    have lad : (bm.1 ++ [BitVec.ofNat 64 bm.2]).length = n64 q + 1 := by simp [lbm]
    have ead := addNC_val (bm.1 ++ [BitVec.ofNat 64 bm.2]) am.1.tail 0 (by simp [lbm, hl])
    rw [lad, val_append, lbm] at ead
    simp only [val_cons, val_nil, Nat.mul_zero, Nat.add_zero, toNat_ofNat_W, Nat.mod_eq_of_lt hbm2] at ead
    rw [ebm] at ead
    have hnocarry : (addNC (bm.1 ++ [BitVec.ofNat 64 bm.2]) am.1.tail 0).2 = 0 := by
      rcases Nat.eq_zero_or_pos (addNC (bm.1 ++ [BitVec.ofNat 64 bm.2]) am.1.tail 0).2 with h | h
      · exact h
      · have h1 : W ^ (n64 q + 1) * 1 ≤ W ^ (n64 q + 1) * (addNC (bm.1 ++ [BitVec.ofNat 64 bm.2]) am.1.tail 0).2 :=
          Nat.mul_le_mul_left _ h
        -- total is at most (B+q) + B*(W-1) < 2 q W ≤ W^(n+1)
        have h2 : val B * ai.toNat + val B ≤ val B * W := by
          rw [← Nat.mul_succ]; exact Nat.mul_le_mul_left _ (limb_lt ai)
        have h3 : val am.1.tail < val B + q := by
          have : val am.1.tail ≤ val am.1.tail + W ^ n64 q * ((0 : Limb).toNat + am.2) := by omega
          omega
        have h4 : (val B + q) * W ≤ W ^ n64 q * W := Nat.mul_le_mul_right _ hBq'
        have h5 : q * 1 ≤ q * W := Nat.mul_le_mul_left _ hW
        rw [W_pow_succ] at h1 ead
        rw [Nat.add_mul] at h4
        omega
    refine ⟨by rw [hr]; simp [mpn_add, addNC_length, lbm], by simp [hr], _, hs, ?_⟩
    rw [hr]
    simp only [mpn_add, hz, Nat.mul_zero, Nat.add_zero]
    rw [hnocarry] at ead
    simp only [Nat.mul_zero, Nat.add_zero] at ead
    rw [ead, ham0, Nat.mul_zero, Nat.add_zero, Nat.add_comm]

/-- All the rounds: `T_out * 2^(64k) = T + M*q + 2^64 * B * A'` with `M < 2^(64k)`. -/
theorem mmulLoop_val {q : Nat} (hq : q % 2 = 1) (opt : Bool)
    {B : Limbs} (hB : B.length = n64 q) (hBq : opt = true → val B + q ≤ W ^ n64 q) :
    ∀ (as : Limbs) (p : Limbs) (c : Limb), p.length = n64 q + 1 → (opt = true → c = 0) →
    val p + W ^ (n64 q + 1) * c.toNat < val B * W + q →
    let r := mmulLoop q opt B as p c
    r.1.length = n64 q + 1 ∧ (opt = true → r.2 = 0) ∧
    val r.1 + W ^ (n64 q + 1) * r.2.toNat < val B * W + q ∧
    ∃ M, M < W ^ as.length ∧
      (val r.1 + W ^ (n64 q + 1) * r.2.toNat) * W ^ as.length
        = val p + W ^ (n64 q + 1) * c.toNat + M * q + W * (val B * val as)
  | [], p, c, hp, hc, hT => ⟨hp, hc, hT, 0, by simp, by simp [mmulLoop]⟩
  | ai :: as, p, c, hp, hc, hT => by
    have hW := W_pos
    obtain ⟨h1, h2, s, hs, hv⟩ := mmulStep_val hq opt hB hBq ai hp hc hT
    have hm := limb_lt (np q * p.headD 0)
    set m := (np q * p.headD 0).toNat
    have hqm : q * m + q ≤ q * W := by
      rw [← Nat.mul_succ]; exact Nat.mul_le_mul_left _ hm
    have hsB : s < val B + q := by
      have : W * s < W * (val B + q) := by rw [hs]; nlinarith
      exact Nat.lt_of_mul_lt_mul_left this
    have hBa : val B * ai.toNat + val B ≤ val B * W := by
      rw [← Nat.mul_succ]; exact Nat.mul_le_mul_left _ (limb_lt ai)
    set r := mmulStep q opt B ai p c with hr
    have hT' : val r.1 + W ^ (n64 q + 1) * r.2.toNat < val B * W + q := by rw [hv]; omega
    obtain ⟨g1, g2, g3, M, hM, g4⟩ := mmulLoop_val hq opt hB hBq as r.1 r.2 h1 h2 hT'
    refine ⟨g1, g2, g3, m + W * M, ?_, ?_⟩
    · rw [List.length_cons, W_pow_succ]
      have : W * (M + 1) ≤ W * W ^ as.length := Nat.mul_le_mul_left _ hM
      rw [Nat.mul_comm (W ^ as.length)]
      nlinarith
    · show (val (mmulLoop q opt B as r.1 r.2).1 + W ^ (n64 q + 1) * (mmulLoop q opt B as r.1 r.2).2.toNat)
        * W ^ (as.length + 1) = _
      rw [hv] at g4
      rw [W_pow_succ as.length, ← Nat.mul_assoc, g4, val_cons]
      have : (s + val B * ai.toNat + M * q + W * (val B * val as)) * W
          = W * s + (val B * ai.toNat + M * q + W * (val B * val as)) * W := by ring
      rw [this, hs]; ring

theorem mpn_mul_1_ext {q : Nat} {b : Limbs} (hb : b.length = n64 q) (x : Limb) :
    val ((mpn_mul_1 b x).1 ++ [BitVec.ofNat 64 (mpn_mul_1 b x).2]) = val b * x.toNat ∧
    ((mpn_mul_1 b x).1 ++ [BitVec.ofNat 64 (mpn_mul_1 b x).2]).length = n64 q + 1 := by
  have e := mpn_mul_1_val b x
  have l := mpn_mul_1_length b x
  rw [hb] at e l
  have hbl := val_lt b
  rw [hb] at hbl
  have hx := mul_limb_lt x hbl
  have h2 : (mpn_mul_1 b x).2 < W := by
    have : W ^ n64 q * (mpn_mul_1 b x).2 < W ^ n64 q * W := by omega
    exact Nat.lt_of_mul_lt_mul_left this
  refine ⟨?_, by simp [l]⟩
  rw [val_append, l]
  simp only [val_cons, val_nil, toNat_ofNat_W, Nat.mod_eq_of_lt h2, Nat.mul_zero, Nat.add_zero]
  exact e

/-- Portable Montgomery product: the result is the reduced `x` with `x * 2^(64 N) ≡ a*b`. -/
theorem rawMMulV_spec {q : Nat} (hq : q % 2 = 1) (opt : Bool) {a b : Limbs}
    (ha : a.length = n64 q) (hb : b.length = n64 q)
    (hBq : opt = true → val b + q ≤ W ^ n64 q)
    (hab : val a * val b < q * W ^ n64 q) :
    (rawMMulV q opt a b).length = n64 q ∧ val (rawMMulV q opt a b) < q ∧
    (val (rawMMulV q opt a b) * W ^ n64 q) % q = (val a * val b) % q := by
  have hW := W_pos
  have hn := n64_pos q
  obtain ⟨a0, as, rfl⟩ : ∃ a0 as, a = a0 :: as := by
    cases a with
    | nil => simp at ha; omega
    | cons x xs => exact ⟨x, xs, rfl⟩
  have hk : as.length + 1 = n64 q := by simpa using ha
  obtain ⟨hm1, hm2⟩ := mpn_mul_1_ext hb a0
  unfold rawMMulV
  simp only [List.headD_cons, List.tail_cons]
  set p0 := (mpn_mul_1 b a0).1 ++ [BitVec.ofNat 64 (mpn_mul_1 b a0).2]
  have hz : (0 : Limb).toNat = 0 := rfl
  have hT0 : val p0 + W ^ (n64 q + 1) * (0 : Limb).toNat < val b * W + q := by
    rw [hz, hm1]
    have : val b * a0.toNat ≤ val b * W := Nat.mul_le_mul_left _ (limb_lt a0).le
    omega
  obtain ⟨g1, g2, g3, M, hM, g4⟩ := mmulLoop_val hq opt hb hBq as p0 0 hm2 (fun _ => rfl) hT0
  rw [hz, hm1, Nat.mul_zero, Nat.add_zero] at g4
  set r := mmulLoop q opt b as p0 0
  have hmb := limb_lt (np q * r.1.headD 0)
  have hWk := pow_pos hW as.length
  -- value after the last accumulation, scaled
  have key : (val r.1 + W ^ (n64 q + 1) * r.2.toNat + q * (np q * r.1.headD 0).toNat) * W ^ as.length
      = val (a0 :: as) * val b + (M + (np q * r.1.headD 0).toNat * W ^ as.length) * q := by
    rw [Nat.add_mul, g4, val_cons]; ring
  have hMM : M + (np q * r.1.headD 0).toNat * W ^ as.length < W ^ n64 q := by
    rw [← hk, W_pow_succ, Nat.mul_comm (W ^ as.length)]
    have : ((np q * r.1.headD 0).toNat + 1) * W ^ as.length ≤ W * W ^ as.length := Nat.mul_le_mul_right _ hmb
    rw [Nat.add_mul] at this; omega
  have hb1 : val r.1 + W ^ (n64 q + 1) * r.2.toNat + q * (np q * r.1.headD 0).toNat < 2 * q * W := by
    have h : (val r.1 + W ^ (n64 q + 1) * r.2.toNat + q * (np q * r.1.headD 0).toNat) * W ^ as.length
        < 2 * q * W * W ^ as.length := by
      rw [key]
      have h1 : (M + (np q * r.1.headD 0).toNat * W ^ as.length) * q ≤ W ^ n64 q * q :=
        Nat.mul_le_mul_right _ hMM.le
      have h2 : 2 * q * W * W ^ as.length = q * W ^ n64 q + W ^ n64 q * q := by
        rw [← hk, W_pow_succ]; ring
      omega
    exact Nat.lt_of_mul_lt_mul_right h
  have ho : opt = true → val r.1 + q * (np q * r.1.headD 0).toNat < W ^ (n64 q + 1) := by
    intro h
    have h1 := Nat.mul_le_mul_right W (hBq h)
    have hqm : q * (np q * r.1.headD 0).toNat + q ≤ q * W := by
      rw [← Nat.mul_succ]; exact Nat.mul_le_mul_left _ hmb
    rw [W_pow_succ] at g3 ⊢
    rw [Nat.add_mul] at h1
    omega
  obtain ⟨f1, s, f2, f3⟩ := mmulFinal_val hq opt g1 g2 hb1 ho
  have hq0 : 0 < q := by omega
  refine ⟨f1, by rw [f3]; exact Nat.mod_lt _ hq0, ?_⟩
  rw [f3, Nat.mod_mul_mod]
  have : s * W ^ n64 q = val (a0 :: as) * val b + (M + (np q * r.1.headD 0).toNat * W ^ as.length) * q := by
    rw [← key, ← f2, ← hk, W_pow_succ]; ring
  rw [this, Nat.add_mul_mod_self_right]

/-- One round of the one-limb reductions. -/
theorem redStep_val {q : Nat} (hq : q % 2 = 1) (opt : Bool) {p : Limbs} (hp : p.length = n64 q + 1)
    (ho : opt = true → val p + q * W ≤ W ^ (n64 q + 1)) :
    (redStep q opt p).length = n64 q + 1 ∧
    W * val (redStep q opt p) = val p + q * (np q * p.headD 0).toNat := by
  have hW := W_pos
  have hW2 : 2 < W := by rw [← W_eq]; norm_num
  have hqlt := q_lt_Wn q
  have hn := n64_pos q
  obtain ⟨hl, htl, e⟩ := mont_acc hq hp
  unfold redStep
  set am := mpn_addmul_1 p (rawqExt q) (np q * p.headD 0) with ham
  have hm := limb_lt (np q * p.headD 0)
  have hpl := val_lt p
  rw [hp] at hpl
  set m := (np q * p.headD 0).toNat
  have hqm : q * m + q ≤ q * W := by
    rw [← Nat.mul_succ]; exact Nat.mul_le_mul_left _ hm
  have hqW : q * W ≤ W ^ n64 q * W := Nat.mul_le_mul_right _ hqlt.le
  have hle : am.2 ≤ 1 := by
    by_contra hcon
    have : W ^ (n64 q + 1) * 2 ≤ W ^ (n64 q + 1) * am.2 := Nat.mul_le_mul_left _ (by omega)
    rw [W_pow_succ] at *
    omega
  have h0 : opt = true → am.2 = 0 := by
    intro h
    rcases Nat.eq_zero_or_pos am.2 with h' | h'
    · exact h'
    · have : W ^ (n64 q + 1) * 1 ≤ W ^ (n64 q + 1) * am.2 := Nat.mul_le_mul_left _ h'
      have := ho h
      omega
  have hnxt : val ((List.replicate (n64 q + 1) (0 : Limb)).set (if opt then 1 else n64 q) (BitVec.ofNat 64 am.2))
      = W ^ n64 q * am.2 := by
    cases opt with
    | true =>
      have : (List.replicate (n64 q + 1) (0 : Limb)).set 1 (BitVec.ofNat 64 am.2) = List.replicate (n64 q + 1) 0 := by
        rw [h0 rfl]
        apply List.ext_getElem (by simp)
        intro i h1 h2
        rw [List.getElem_set]; split <;> simp
      simp only [if_true]
      rw [this, h0 rfl]; simp
    | false =>
      have : (List.replicate (n64 q + 1) (0 : Limb)).set (n64 q) (BitVec.ofNat 64 am.2)
          = List.replicate (n64 q) 0 ++ [BitVec.ofNat 64 am.2] := by
        rw [List.replicate_succ', List.set_append_right _ _ (by simp)]; simp
      simp only [Bool.false_eq_true, if_false]
      rw [this, val_append]
      simp only [val_cons, val_nil, toNat_ofNat_W, Nat.mod_eq_of_lt (show am.2 < W by omega),
        Nat.mul_zero, Nat.add_zero, List.length_replicate]
      have : val (List.replicate (n64 q) (0 : Limb)) = 0 := val_replicate_zero _
      rw [this, Nat.zero_add]
  set nxt := (List.replicate (n64 q + 1) (0 : Limb)).set (if opt then 1 else n64 q) (BitVec.ofNat 64 am.2) with hnx
  have lnxt : nxt.length = n64 q + 1 := by simp [hnx]
  have ead := addNC_val nxt am.1.tail 0 (by omega)
  rw [lnxt, hnxt] at ead
  have htl2 := val_lt am.1.tail
  rw [htl] at htl2
  have hnc : (addNC nxt am.1.tail 0).2 = 0 := by
    rcases Nat.eq_zero_or_pos (addNC nxt am.1.tail 0).2 with h | h
    · exact h
    · have h1 : W ^ (n64 q + 1) * 1 ≤ W ^ (n64 q + 1) * (addNC nxt am.1.tail 0).2 := Nat.mul_le_mul_left _ h
      have h2 : W ^ n64 q * am.2 ≤ W ^ n64 q * 1 := Nat.mul_le_mul_left _ hle
      have h3 : W ^ n64 q * 2 ≤ W ^ n64 q * W := Nat.mul_le_mul_left _ hW2.le
      rw [W_pow_succ] at h1 ead
      omega
  refine ⟨by show (addNC _ _ _).1.length = _; rw [addNC_length, lnxt], ?_⟩
  show W * val (addNC nxt am.1.tail 0).1 = _
  rw [hnc, Nat.mul_zero, Nat.add_zero] at ead
  rw [ead, ← e, W_pow_succ]; ring

/-- All the rounds of the one-limb reductions: `T_out * 2^(64k) = T + M*q`, `M < 2^(64k)`. -/
theorem redLoop_val {q : Nat} (hq : q % 2 = 1) (opt : Bool) (hopt : opt = true → canOpt q = true) :
    ∀ (k : Nat) (p : Limbs), p.length = n64 q + 1 →
    (opt = true → val p + q * W ≤ W ^ (n64 q + 1)) →
    (redLoop q opt k p).length = n64 q + 1 ∧
    (opt = true → val (redLoop q opt k p) + q * W ≤ W ^ (n64 q + 1)) ∧
    ∃ M, M < W ^ k ∧ val (redLoop q opt k p) * W ^ k = val p + M * q
  | 0, p, hp, ho => ⟨hp, ho, 0, by simp, by simp [redLoop]⟩
  | k + 1, p, hp, ho => by
    have hW := W_pos
    have hW2 : 2 < W := by rw [← W_eq]; norm_num
    obtain ⟨h1, h2⟩ := redStep_val hq opt hp ho
    have hm := limb_lt (np q * p.headD 0)
    set m := (np q * p.headD 0).toNat
    have hqm : q * m + q ≤ q * W := by
      rw [← Nat.mul_succ]; exact Nat.mul_le_mul_left _ hm
    have ho' : opt = true → val (redStep q opt p) + q * W ≤ W ^ (n64 q + 1) := by
      intro h
      have hb := canOpt_bound (hopt h)
      have h3 := ho h
      have h4 : W * val (redStep q opt p) ≤ W * W ^ n64 q := by
        rw [h2, Nat.mul_comm W, ← W_pow_succ]; omega
      have h5 := Nat.le_of_mul_le_mul_left h4 hW
      have h6 : q * W * 2 ≤ W ^ n64 q * W := by
        have := Nat.mul_le_mul_right W (show q * 2 ≤ W ^ n64 q by omega)
        calc q * W * 2 = q * 2 * W := by ring
          _ ≤ _ := this
      have h7 : W ^ n64 q * 2 ≤ W ^ n64 q * W := Nat.mul_le_mul_left _ hW2.le
      rw [W_pow_succ]
      omega
    obtain ⟨g1, g2, M, hM, g3⟩ := redLoop_val hq opt hopt k (redStep q opt p) h1 ho'
    refine ⟨g1, g2, m + W * M, ?_, ?_⟩
    · rw [W_pow_succ]
      have : W * (M + 1) ≤ W * W ^ k := Nat.mul_le_mul_left _ hM
      rw [Nat.mul_comm (W ^ k)]
      nlinarith
    · show val (redLoop q opt k (redStep q opt p)) * W ^ (k + 1) = _
      rw [W_pow_succ, ← Nat.mul_assoc, g3]
      have : (val (redStep q opt p) + M * q) * W = W * val (redStep q opt p) + M * q * W := by ring
      rw [this, h2]; ring

theorem redFinal_spec {q : Nat} (hq : q % 2 = 1) (opt : Bool) (hopt : opt = true → canOpt q = true)
    {p : Limbs} (hp : p.length = n64 q + 1)
    (ho : opt = true → val p + q * W ≤ W ^ (n64 q + 1)) (hlt : val p < q * W ^ n64 q) :
    let r := mmulFinal q opt (redLoop q opt (n64 q - 1) p) 0
    r.length = n64 q ∧ val r < q ∧ (val r * W ^ n64 q) % q = val p % q := by
  intro r
  have hW := W_pos
  have hn := n64_pos q
  have hq0 : 0 < q := by omega
  obtain ⟨g1, g2, M, hM, g3⟩ := redLoop_val hq opt hopt (n64 q - 1) p hp ho
  have hz : (0 : Limb).toNat = 0 := rfl
  set t := redLoop q opt (n64 q - 1) p
  have hmb := limb_lt (np q * t.headD 0)
  have hWn : W ^ n64 q = W * W ^ (n64 q - 1) := by rw [← pow_succ', Nat.sub_add_cancel hn]
  have key : (val t + W ^ (n64 q + 1) * (0 : Limb).toNat + q * (np q * t.headD 0).toNat) * W ^ (n64 q - 1)
      = val p + (M + (np q * t.headD 0).toNat * W ^ (n64 q - 1)) * q := by
    rw [hz, Nat.mul_zero, Nat.add_zero, Nat.add_mul, g3]; ring
  have hMM : M + (np q * t.headD 0).toNat * W ^ (n64 q - 1) < W ^ n64 q := by
    rw [hWn]
    have : ((np q * t.headD 0).toNat + 1) * W ^ (n64 q - 1) ≤ W * W ^ (n64 q - 1) := Nat.mul_le_mul_right _ hmb
    rw [Nat.add_mul] at this; omega
  have hb1 : val t + W ^ (n64 q + 1) * (0 : Limb).toNat + q * (np q * t.headD 0).toNat < 2 * q * W := by
    have h : (val t + W ^ (n64 q + 1) * (0 : Limb).toNat + q * (np q * t.headD 0).toNat) * W ^ (n64 q - 1)
        < 2 * q * W * W ^ (n64 q - 1) := by
      rw [key]
      have h1 : (M + (np q * t.headD 0).toNat * W ^ (n64 q - 1)) * q ≤ W ^ n64 q * q :=
        Nat.mul_le_mul_right _ hMM.le
      have h2 : 2 * q * W * W ^ (n64 q - 1) = q * W ^ n64 q + W ^ n64 q * q := by
        rw [hWn]; ring
      omega
    exact Nat.lt_of_mul_lt_mul_right h
  have ho' : opt = true → val t + q * (np q * t.headD 0).toNat < W ^ (n64 q + 1) := by
    intro h
    have hqm : q * (np q * t.headD 0).toNat + q ≤ q * W := by
      rw [← Nat.mul_succ]; exact Nat.mul_le_mul_left _ hmb
    have := g2 h
    omega
  obtain ⟨f1, s, f2, f3⟩ := mmulFinal_val hq opt g1 (c := 0) (fun _ => rfl) hb1 ho'
  refine ⟨f1, by rw [f3]; exact Nat.mod_lt _ hq0, ?_⟩
  rw [f3, Nat.mod_mul_mod]
  have : s * W ^ n64 q = val p + (M + (np q * t.headD 0).toNat * W ^ (n64 q - 1)) * q := by
    rw [← key, ← f2, hWn]; ring
  rw [this, Nat.add_mul_mod_self_right]

theorem rawMMul1V_spec {q : Nat} (hq : q % 2 = 1) (opt : Bool) (hopt : opt = true → canOpt q = true)
    {a : Limbs} {b : Limb} (ha : a.length = n64 q) (hab : val a * b.toNat < q * W ^ n64 q)
    (haq : opt = true → val a + q ≤ W ^ n64 q) :
    (rawMMul1V q opt a b).length = n64 q ∧ val (rawMMul1V q opt a b) < q ∧
    (val (rawMMul1V q opt a b) * W ^ n64 q) % q = (val a * b.toNat) % q := by
  obtain ⟨hm1, hm2⟩ := mpn_mul_1_ext ha b
  have := redFinal_spec hq opt hopt hm2 (by
    intro h
    rw [hm1, W_pow_succ]
    have h1 : val a * b.toNat ≤ val a * W := Nat.mul_le_mul_left _ (limb_lt b).le
    have h2 := Nat.mul_le_mul_right W (haq h)
    rw [Nat.add_mul] at h2; omega) (by rw [hm1]; exact hab)
  rw [hm1] at this
  exact this

theorem rawFromMontgomeryV_spec {q : Nat} (hq : q % 2 = 1) (opt : Bool) (hopt : opt = true → canOpt q = true)
    {a : Limbs} (ha : a.length = n64 q) :
    (rawFromMontgomeryV q opt a).length = n64 q ∧ val (rawFromMontgomeryV q opt a) < q ∧
    (val (rawFromMontgomeryV q opt a) * W ^ n64 q) % q = val a % q := by
  have hl := val_lt a
  rw [ha] at hl
  have hW2 : 2 < W := by rw [← W_eq]; norm_num
  have hv : val (a ++ [0]) = val a := by rw [val_append]; simp
  have := redFinal_spec (p := a ++ [0]) hq opt hopt (by simp [ha]) (by
    intro h
    have hb := canOpt_bound (hopt h)
    rw [hv, W_pow_succ]
    have h6 : q * W * 2 ≤ W ^ n64 q * W := by
      have := Nat.mul_le_mul_right W (show q * 2 ≤ W ^ n64 q by omega)
      calc q * W * 2 = q * 2 * W := by ring
        _ ≤ _ := this
    have h7 : W ^ n64 q * 2 ≤ W ^ n64 q * W := Nat.mul_le_mul_left _ hW2.le
    omega) (by
    rw [hv]
    have : 1 * W ^ n64 q ≤ q * W ^ n64 q := Nat.mul_le_mul_right _ (by omega)
    omega)
  rw [hv] at this
  exact this

theorem canOpt_add {q : Nat} {v : Nat} (h : v < q) : canOpt q = true → v + q ≤ W ^ n64 q := by
  intro h'
  have := canOpt_bound h'
  omega

theorem mul_lt_of_right {q v b : Nat} (hv : v < W ^ n64 q) (hb : b < q) : v * b < q * W ^ n64 q := by
  rcases Nat.eq_zero_or_pos b with h | h
  · subst h; simp; exact ⟨by omega, pow_pos W_pos _⟩
  · calc v * b < W ^ n64 q * b := Nat.mul_lt_mul_of_pos_right hv h
      _ ≤ W ^ n64 q * q := Nat.mul_le_mul_left _ hb.le
      _ = _ := Nat.mul_comm _ _

/-- `Fr_rawMMul` as generated, second operand reduced. -/
theorem rawMMul_spec {q : Nat} (hq : q % 2 = 1) {a b : Limbs}
    (ha : a.length = n64 q) (hb : b.length = n64 q) (hbq : val b < q) :
    (rawMMul q a b).length = n64 q ∧ val (rawMMul q a b) < q ∧
    (val (rawMMul q a b) * W ^ n64 q) % q = (val a * val b) % q :=
  rawMMulV_spec hq _ ha hb (canOpt_add hbq) (mul_lt_of_right (by have := val_lt a; rwa [ha] at this) hbq)

theorem rawMMul1_spec {q : Nat} (hq : q % 2 = 1) {a : Limbs} {b : Limb}
    (ha : a.length = n64 q) (haq : val a < q) :
    (rawMMul1 q a b).length = n64 q ∧ val (rawMMul1 q a b) < q ∧
    (val (rawMMul1 q a b) * W ^ n64 q) % q = (val a * b.toNat) % q := by
  refine rawMMul1V_spec hq _ id ha ?_ (canOpt_add haq)
  rw [Nat.mul_comm]
  refine mul_lt_of_right ?_ haq
  calc b.toNat < W := limb_lt b
    _ = W ^ 1 := (pow_one W).symm
    _ ≤ W ^ n64 q := Nat.pow_le_pow_right W_pos (n64_pos q)

theorem rawToMontgomery_spec {q : Nat} (hq : q % 2 = 1) (hq1 : 1 < q) {a : Limbs} (ha : a.length = n64 q) :
    (rawToMontgomery q a).length = n64 q ∧ val (rawToMontgomery q a) < q ∧
    val (rawToMontgomery q a) = (val a * W ^ n64 q) % q := by
  have h := rawMMul_spec hq ha (b := rawR2 q) (by simp [rawR2]) (by rw [rawR2_val (by omega)]; exact Nat.mod_lt _ (by omega))
  refine ⟨h.1, h.2.1, ?_⟩
  have h3 := h.2.2
  rw [rawR2_val (by omega)] at h3
  have hcop : Nat.Coprime q (W ^ n64 q) := by
    rw [W_pow]
    exact (Nat.Coprime.pow_right _ (Nat.coprime_two_right.mpr (Nat.odd_iff.mpr hq)))
  have h4 : val (rawMMul q a (rawR2 q)) * W ^ n64 q ≡ val a * W ^ n64 q * W ^ n64 q [MOD q] := by
    unfold Nat.ModEq
    rw [h3, Nat.mul_mod_mod, show val a * W ^ n64 q * W ^ n64 q = val a * (W ^ n64 q * W ^ n64 q) by ring]
    congr 2
    rw [W_pow, ← pow_add]
    congr 1; omega
  have h5 := Nat.ModEq.cancel_right_of_coprime hcop h4
  unfold Nat.ModEq at h5
  rw [Nat.mod_eq_of_lt h.2.1] at h5
  exact h5

theorem rawFromMontgomery_spec {q : Nat} (hq : q % 2 = 1) {a : Limbs} (ha : a.length = n64 q) :
    (rawFromMontgomery q a).length = n64 q ∧ val (rawFromMontgomery q a) < q ∧
    (val (rawFromMontgomery q a) * W ^ n64 q) % q = val a % q :=
  rawFromMontgomeryV_spec hq _ id ha

end FF
