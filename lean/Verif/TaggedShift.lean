import Verif.TaggedPred

/-!
# Shifts and conversion to `int` of the tagged layer: helper lemmas
-/

namespace FF

variable {q : Nat} {m : Mem} {r a b p : Nat} {x y : ZMod q} {u : Elem} {ea eb : Elem}

theorem Modulus.bl (hq : Modulus q) : 63 ≤ bitLen q := by
  have h1 := @bitLen_lt q; have h2 := hq.big
  exact (Nat.pow_lt_pow_iff_right (a := 2) (by norm_num)).mp (lt_trans h2 h1)

theorem Modulus.bl_lt (hq : Modulus q) : bitLen q + 2147483648 ≤ q := by
  have h := bitLen_le (q := q) (by have := hq.pos; omega)
  have h2 := hq.bl
  obtain ⟨k, hk⟩ : ∃ k, bitLen q = k + 63 := ⟨bitLen q - 63, by omega⟩
  rw [hk] at h ⊢
  have e : 2 ^ (k + 63 - 1) = 2 ^ k * 4611686018427387904 := by
    rw [show k + 63 - 1 = k + 62 by omega, pow_add]; norm_num
  have : k < 2 ^ k := Nat.lt_two_pow_self
  rw [e] at h
  nlinarith

theorem two_pow_bl (hq : Modulus q) : 4611686018427387904 < 2 ^ bitLen q := lt_trans hq.gt bitLen_lt

theorem stRawShl_rep (hq : Modulus q) {al : Bool} {l : Limbs} {s : BitVec 64} (h : LRep q l x) (hs : s.toNat < bitLen q)
    (hal : al = true → s.toNat < 64) :
    ∃ L, stRawShl q al l s = some L ∧ LRep q L ((x.val * 2 ^ s.toNat % 2 ^ bitLen q : Nat) : ZMod q) := by
  unfold stRawShl
  split <;> rename_i h0
  · refine ⟨l, rfl, h.congr ?_⟩
    have := hq.ne
    rw [h0, pow_zero, Nat.mul_one, Nat.mod_eq_of_lt h.lt_pow]; simp
  · rw [if_neg (by omega)]
    rw [if_neg (by cases al <;> simp_all)]
    refine ⟨_, rfl, ?_⟩
    obtain ⟨e, hl⟩ := rawShl_val hq.pos (b := s.toNat) h.1 (by have := bitLen_le_n64 q; omega)
    exact ⟨hl, by rw [e]; exact Nat.mod_lt _ hq.pos, by rw [e, cast_mod, h.val_eq]⟩

theorem stRawShr_rep (hq : Modulus q) {l : Limbs} {s : BitVec 64} (h : LRep q l x) (hs : s.toNat < bitLen q) :
    LRep q (stRawShr q l s) ((x.val / 2 ^ s.toNat : Nat) : ZMod q) := by
  unfold stRawShr
  split <;> rename_i h0
  · refine h.congr ?_
    have := hq.ne
    rw [h0, pow_zero, Nat.div_one]; simp
  · rw [if_neg (by omega)]
    obtain ⟨e, hl⟩ := rawShr_val (q := q) (b := s.toNat) h.1 (by have := bitLen_le_n64 q; omega)
    refine ⟨hl, ?_, by rw [e, h.val_eq]⟩
    rw [e]; exact lt_of_le_of_lt (Nat.div_le_self _ _) h.2.1

theorem Fr_setzero_rep : Rep q (Fr_setzero m r r) 0 := by
  apply Rep.short (by simp [Fr_setzero]) (by simp [Fr_setzero]); simp [Fr_setzero]

theorem Fr_setzero_other (h : p ≠ r) : Fr_setzero m r p = m p := by simp [Fr_setzero, setTy_other, setShort_other, h]

theorem do_shlcl_rep (hq : Modulus q) {s : BitVec 64} (ha : Rep q (m a) x) (hs : s.toNat < bitLen q) :
    ∃ m', do_shlcl q u m r a s = some m' ∧
      Rep q (m' r) ((x.val * 2 ^ s.toNat % 2 ^ bitLen q : Nat) : ZMod q) ∧ ∀ p ≠ r, m' p = m p := by
  obtain ⟨L, e, hL⟩ := stRawShl_rep (al := false) hq (toLongNormalInto_rep hq u ha) hs (by simp)
  refine ⟨_, by simp only [do_shlcl, e, Option.map_some]; rfl, ?_, ?_⟩
  · exact store_rep (mont := false) (by simp) (by simp) (by simpa using hL)
  · intro p hp; simp [setTy_other, setLong_other, hp]

theorem sshift31_zero {v : BitVec 64} (h : v.sshiftRight 31 = 0#64) : v.toInt / 2147483648 = 0 := by
  have h1 := BitVec.le_toInt v
  have h2 := @BitVec.toInt_lt 64 v
  norm_num at h1 h2
  rw [sshift31 rfl] at h
  have := congrArg BitVec.toInt h
  rw [BitVec.toInt_ofInt, Int.bmod_eq_of_le (by norm_num; omega) (by norm_num; omega)] at this
  simpa using this

theorem sx_zero_iff {v : BitVec 32} : sx v = 0 ↔ v.toInt = 0 := by
  rw [← sx_toInt]
  exact ⟨fun h => by rw [h]; rfl, fun h => BitVec.eq_of_toInt_eq (by rw [h]; rfl)⟩

theorem do_shl_rep (hq : Modulus q) {s : BitVec 64} (ha : Rep q (m a) x) (hs : s.toNat < bitLen q)
    (hal : r = a → (m a).long = true → (m a).mont = false → s.toNat < 64) :
    ∃ m', do_shl q u m r a s = some m' ∧
      Rep q (m' r) ((x.val * 2 ^ s.toNat % 2 ^ bitLen q : Nat) : ZMod q) ∧ ∀ p ≠ r, m' p = m p := by
  have fin : ∀ {al : Bool} {l : Limbs}, LRep q l x → (al = true → s.toNat < 64) →
      ∃ m', (stRawShl q al l s).map ((m.setTy r true false).setLong r) = some m' ∧
      Rep q (m' r) ((x.val * 2 ^ s.toNat % 2 ^ bitLen q : Nat) : ZMod q) ∧ ∀ p ≠ r, m' p = m p := by
    intro al l h1 h2
    obtain ⟨L, e, hL⟩ := stRawShl_rep hq h1 hs h2
    refine ⟨_, by rw [e, Option.map_some], ?_, ?_⟩
    · exact store_rep (mont := false) (by simp) (by simp) (by simpa using hL)
    · intro p hp; simp [setTy_other, setLong_other, hp]
  unfold do_shl
  split <;> rename_i ta
  · cases ua : (m a).mont
    · simp only [Bool.and_false, Bool.false_eq_true, if_false, setTy_longVal]
      exact fin (ha.getLong ta ua) (fun h => hal (by simpa using h) ta ua)
    · simp only [ta, Bool.and_self, if_true]
      exact fin (toNormalInto_rep hq u ha ta) (by simp)
  · have ta := tag_false ta
    have hx := ha.getShort ta
    have hb := short_bounds (m a).shortVal
    simp only [sx_toInt]
    split <;> rename_i h0
    · rw [sx_zero_iff] at h0
      refine ⟨_, rfl, ?_, fun p hp => Fr_setzero_other hp⟩
      have : x = 0 := by rw [← hx, h0]; simp
      rw [this]; simpa using Fr_setzero_rep
    · split <;> rename_i hn
      · exact do_shlcl_rep hq ha hs
      · split <;> rename_i h31
        · exact do_shlcl_rep hq ha hs
        · split <;> rename_i hov
          · exact do_shlcl_rep hq ha hs
          · refine ⟨_, rfl, ?_, fun p hp => by simp [setTy_other, setShort_other, hp]⟩
            have hn : 0 ≤ (m a).shortVal.toInt := by omega
            have e1 := short_val hq (m a).shortVal
            rw [hx, if_neg (by omega)] at e1
            have e2 := sx_toNat_of_nonneg hn
            have e3 : x.val = (sx (m a).shortVal).toNat := by omega
            have hp31 : 2 ^ s.toNat ≤ 2 ^ 30 := Nat.pow_le_pow_right (by norm_num) (by omega)
            have hlt : x.val * 2 ^ s.toNat < 2 ^ 62 := by
              calc x.val * 2 ^ s.toNat ≤ x.val * 2 ^ 30 := Nat.mul_le_mul_left _ hp31
                _ < 2 ^ 62 := by omega
            have e4 : (sx (m a).shortVal <<< s.toNat).toNat = x.val * 2 ^ s.toNat := by
              rw [BitVec.toNat_shiftLeft, ← e3, Nat.shiftLeft_eq, Nat.mod_eq_of_lt (by omega)]
            have e5 : (sx (m a).shortVal <<< s.toNat).toInt = ((x.val * 2 ^ s.toNat : Nat) : ℤ) := by
              rw [BitVec.toInt_eq_toNat_cond, e4, if_pos (by omega)]
            have e6 := sshift31_zero (v := sx (m a).shortVal <<< s.toNat) (by simpa using hov)
            have hpb := two_pow_bl hq
            apply Rep.short (by simp) (by simp)
            rw [setShort_shortVal, truncate32_toInt (by omega) (by omega), e5, Nat.mod_eq_of_lt (by omega)]
            simp

theorem do_shrl_rep (hq : Modulus q) {s : BitVec 64} (ha : Rep q ea x) (ta : ea.long = true) (hs : s.toNat < bitLen q) :
    Rep q (do_shrl q u m r ea s r) ((x.val / 2 ^ s.toNat : Nat) : ZMod q) := by
  unfold do_shrl
  cases ua : ea.mont
  · simp only [Bool.and_false, Bool.false_eq_true, if_false]
    exact store_rep (mont := false) (by simp) (by simp) (by simpa using stRawShr_rep hq (ha.getLong ta ua) hs)
  · simp only [ta, Bool.and_self, if_true]
    exact store_rep (mont := false) (by simp) (by simp) (by simpa using stRawShr_rep hq (toNormalInto_rep hq u ha ta) hs)

theorem do_shrl_other {s : BitVec 64} (h : p ≠ r) : do_shrl q u m r ea s p = m p := by
  unfold do_shrl
  split <;> simp [setTy_other, setLong_other, h]

theorem do_shr_rep (hq : Modulus q) {s : BitVec 64} (ha : Rep q (m a) x) (hs : s.toNat < bitLen q) :
    Rep q (do_shr q u m r a s r) ((x.val / 2 ^ s.toNat : Nat) : ZMod q) := by
  unfold do_shr
  split <;> rename_i ta
  · exact do_shrl_rep hq ha ta hs
  · have ta := tag_false ta
    have hx := ha.getShort ta
    have hb := short_bounds (m a).shortVal
    simp only [sx_toInt]
    split <;> rename_i h0
    · rw [sx_zero_iff] at h0
      have : x = 0 := by rw [← hx, h0]; simp
      rw [this]; simpa using Fr_setzero_rep
    · split <;> rename_i hn
      · have tl : (toLongNormalInto q u (m a)).long = true := by simp [toLongNormalInto, ta]
        have tm : (toLongNormalInto q u (m a)).mont = false := by simp [toLongNormalInto, ta]
        exact do_shrl_rep hq (Rep.long tl tm (toLongNormalInto_rep hq u ha)) tl hs
      · have hn : 0 ≤ (m a).shortVal.toInt := by omega
        have e1 := short_val hq (m a).shortVal
        rw [hx, if_neg (by omega)] at e1
        split <;> rename_i h31
        · have : x.val / 2 ^ s.toNat = 0 := by
            apply Nat.div_eq_of_lt
            calc x.val < 2 ^ 31 := by omega
              _ ≤ 2 ^ s.toNat := Nat.pow_le_pow_right (by norm_num) h31
          rw [this]; simpa using Fr_setzero_rep
        · apply Rep.short (by simp) (by simp)
          have e5 : ((sx (m a).shortVal).sshiftRight s.toNat).toInt = ((x.val / 2 ^ s.toNat : Nat) : ℤ) := by
            rw [BitVec.toInt_sshiftRight, sx_toInt, Int.shiftRight_eq_div_pow, ← e1]; simp
          have : x.val / 2 ^ s.toNat ≤ x.val := Nat.div_le_self _ _
          have h1 : ((x.val / 2 ^ s.toNat : Nat) : ℤ) ≤ 2147483647 := by
            have : ((x.val / 2 ^ s.toNat : Nat) : ℤ) ≤ (x.val : ℤ) := by exact_mod_cast this
            omega
          have h2 : (0 : ℤ) ≤ ((x.val / 2 ^ s.toNat : Nat) : ℤ) := Int.natCast_nonneg _
          rw [setTy_shortVal, setShort_shortVal, truncate32_toInt (by rw [e5]; omega) (by rw [e5]; omega), e5,
            Int.cast_natCast]

theorem do_shr_other {s : BitVec 64} (h : p ≠ r) : do_shr q u m r a s p = m p := by
  unfold do_shr
  dsimp only
  repeat' split
  all_goals simp [do_shrl_other, Fr_setzero_other, setTy_other, setShort_other, h]

theorem maxShift_val (hq : Modulus q) : (maxShift q).length = n64 q ∧ val (maxShift q) = bitLen q := by
  refine ⟨shortLimbs_length _ _, ?_⟩
  have := hq.bits
  rw [maxShift, shortLimbs_val, BitVec.toNat_ofNat, Nat.mod_eq_of_lt (by omega)]

theorem limbAt_zero {l : Limbs} (h : val l < 2 ^ 63) : (limbAt l 0).toNat = val l := by
  cases l with
  | nil => simp [limbAt]
  | cons w ws =>
    rw [val_cons] at *
    have h2 : val ws = 0 := by
      by_contra hne
      have : W * 1 ≤ W * val ws := Nat.mul_le_mul_left _ (by omega)
      have hW : W = 2 ^ 64 := W_eq.symm
      rw [hW] at this h
      omega
    simp [limbAt, h2]

/-- The big-shift path reads `q - b`. -/
theorem bigShift_val {l : Limbs} (h : LRep q l y) :
    (rawSubRegular (rawq q) l).length = n64 q ∧ val (rawSubRegular (rawq q) l) = q - y.val := by
  have hv := h.val_eq
  have h1 := h.2.1
  refine ⟨by simp [rawSubRegular, mpn_sub_n, subNC_length], ?_⟩
  have e := subNC_val (rawq q) l 0 (by simp [h.1]) (by omega)
  have b := val_lt (subNC (rawq q) l 0).1
  rw [subNC_length, rawq_length] at b
  rw [rawq_val, rawq_length] at e
  have hW := q_lt_Wn q
  generalize W ^ n64 q = P at *
  rw [← hv]
  show val (subNC (rawq q) l 0).1 = _
  have hc : (subNC (rawq q) l 0).2 = 0 := by
    by_contra hne
    have : P * 1 ≤ P * (subNC (rawq q) l 0).2 := Nat.mul_le_mul_left _ (by omega)
    omega
  rw [hc] at e; omega

theorem Fr_shl_long_rep (hq : Modulus q) (ha : Rep q (m a) x) (hb : LRep q eb.longVal y)
    (hal : r = a → (m a).long = true → (m a).mont = false → y.val < bitLen q → y.val < 64) :
    ∃ m', Fr_shl_long q u m r a eb = some m' ∧ Rep q (m' r) (shlSpec x y) ∧ ∀ p ≠ r, m' p = m p := by
  have hM := maxShift_val hq
  have hv := hb.val_eq
  have hbits := hq.bits
  obtain ⟨sl, sv⟩ := bigShift_val hb
  have c1 := cmpGe_iff eb.longVal (maxShift q) (hb.1.trans hM.1.symm)
  have c2 := cmpGe_iff (rawSubRegular (rawq q) eb.longVal) (maxShift q) (sl.trans hM.1.symm)
  rw [hM.2] at c1 c2
  rw [sv] at c2
  rw [hv] at c1
  unfold Fr_shl_long shlSpec
  dsimp only
  split <;> rename_i h1
  · rw [if_neg (show ¬ y.val < bitLen q by have := c1.mp h1; omega)]
    split <;> rename_i h2
    · rw [if_neg (show ¬ q - y.val < bitLen q by have := c2.mp h2; omega)]
      exact ⟨_, rfl, Fr_setzero_rep, fun p hp => Fr_setzero_other hp⟩
    · have h3 : q - y.val < bitLen q := by by_contra hc; exact h2 (c2.mpr (by omega))
      rw [if_pos h3]
      have e : (limbAt (rawSubRegular (rawq q) eb.longVal) 0).toNat = q - y.val := by
        rw [limbAt_zero (by rw [sv]; omega), sv]
      have := do_shr_rep (u := u) (r := r) (s := limbAt (rawSubRegular (rawq q) eb.longVal) 0) hq ha (by rw [e]; omega)
      rw [e] at this
      exact ⟨_, rfl, this, fun p hp => do_shr_other hp⟩
  · have h3 : y.val < bitLen q := by by_contra hc; exact h1 (c1.mpr (by omega))
    rw [if_pos h3]
    have e : (limbAt eb.longVal 0).toNat = y.val := by rw [limbAt_zero (by omega), hv]
    have := do_shl_rep (u := u) (r := r) (s := limbAt eb.longVal 0) hq ha (by rw [e]; omega)
      (fun h1 h2 h4 => by rw [e]; exact hal h1 h2 h4 h3)
    rwa [e] at this

theorem Fr_shr_long_rep (hq : Modulus q) (ha : Rep q (m a) x) (hb : LRep q eb.longVal y)
    (hal : r = a → (m a).long = true → (m a).mont = false → q - y.val < bitLen q → q - y.val < 64) :
    ∃ m', Fr_shr_long q u m r a eb = some m' ∧ Rep q (m' r) (shrSpec x y) ∧ ∀ p ≠ r, m' p = m p := by
  have hM := maxShift_val hq
  have hv := hb.val_eq
  have hbits := hq.bits
  obtain ⟨sl, sv⟩ := bigShift_val hb
  have c1 := cmpGe_iff eb.longVal (maxShift q) (hb.1.trans hM.1.symm)
  have c2 := cmpGe_iff (rawSubRegular (rawq q) eb.longVal) (maxShift q) (sl.trans hM.1.symm)
  rw [hM.2] at c1 c2
  rw [sv] at c2
  rw [hv] at c1
  unfold Fr_shr_long shrSpec
  dsimp only
  split <;> rename_i h1
  · rw [if_neg (show ¬ y.val < bitLen q by have := c1.mp h1; omega)]
    split <;> rename_i h2
    · rw [if_neg (show ¬ q - y.val < bitLen q by have := c2.mp h2; omega)]
      exact ⟨_, rfl, Fr_setzero_rep, fun p hp => Fr_setzero_other hp⟩
    · have h3 : q - y.val < bitLen q := by by_contra hc; exact h2 (c2.mpr (by omega))
      rw [if_pos h3]
      have e : (limbAt (rawSubRegular (rawq q) eb.longVal) 0).toNat = q - y.val := by
        rw [limbAt_zero (by rw [sv]; omega), sv]
      have := do_shl_rep (u := u) (r := r) (s := limbAt (rawSubRegular (rawq q) eb.longVal) 0) hq ha (by rw [e]; omega)
        (fun h1 h2 h4 => by rw [e]; exact hal h1 h2 h4 h3)
      rwa [e] at this
  · have h3 : y.val < bitLen q := by by_contra hc; exact h1 (c1.mpr (by omega))
    rw [if_pos h3]
    have e : (limbAt eb.longVal 0).toNat = y.val := by rw [limbAt_zero (by omega), hv]
    have := do_shr_rep (u := u) (r := r) (s := limbAt eb.longVal 0) hq ha (by rw [e]; omega)
    rw [e] at this
    exact ⟨_, rfl, this, fun p hp => do_shr_other hp⟩

theorem Fr_shl_rep (hq : Modulus q) (ha : Rep q (m a) x) (hb : Rep q (m b) y)
    (hal : r = a → (m a).long = true → (m a).mont = false → y.val < bitLen q → y.val < 64) :
    ∃ m', Fr_shl q u m r a b = some m' ∧ Rep q (m' r) (shlSpec x y) ∧ ∀ p ≠ r, m' p = m p := by
  unfold Fr_shl
  split <;> rename_i tb
  · cases ub : (m b).mont
    · simp only [Bool.and_false, Bool.false_eq_true, if_false]
      exact Fr_shl_long_rep hq ha (hb.getLong tb ub) hal
    · simp only [tb, Bool.and_self, if_true]
      exact Fr_shl_long_rep hq ha (toNormalInto_rep hq u hb tb) hal
  · have tb := tag_false tb
    have hy := hb.getShort tb
    have hbd := short_bounds (m b).shortVal
    have hbl := hq.bl_lt
    have e1 := short_val hq (m b).shortVal
    rw [hy] at e1
    simp only [sx_toInt, sx_neg_toInt]
    unfold shlSpec
    split <;> rename_i hn
    · rw [if_pos hn] at e1
      have e2 := neg_sx_toNat_of_neg hn
      rw [if_neg (show ¬ y.val < bitLen q by omega)]
      split <;> rename_i hs
      · rw [if_neg (show ¬ q - y.val < bitLen q by omega)]
        exact ⟨_, rfl, Fr_setzero_rep, fun p hp => Fr_setzero_other hp⟩
      · rw [if_pos (show q - y.val < bitLen q by omega)]
        have e : (-(sx (m b).shortVal)).toNat = q - y.val := by omega
        have := do_shr_rep (u := u) (r := r) (s := -(sx (m b).shortVal)) hq ha (by rw [e]; omega)
        rw [e] at this
        exact ⟨_, rfl, this, fun p hp => do_shr_other hp⟩
    · rw [if_neg hn] at e1
      have e2 := sx_toNat_of_nonneg (v := (m b).shortVal) (by omega)
      have e : (sx (m b).shortVal).toNat = y.val := by omega
      split <;> rename_i hs
      · rw [if_neg (show ¬ y.val < bitLen q by omega), if_neg (show ¬ q - y.val < bitLen q by omega)]
        exact ⟨_, rfl, Fr_setzero_rep, fun p hp => Fr_setzero_other hp⟩
      · have h3 : y.val < bitLen q := by omega
        rw [if_pos h3]
        have := do_shl_rep (u := u) (r := r) (s := sx (m b).shortVal) hq ha (by rw [e]; omega)
          (fun h1 h2 h4 => by rw [e]; exact hal h1 h2 h4 h3)
        rwa [e] at this

theorem Fr_shr_rep (hq : Modulus q) (ha : Rep q (m a) x) (hb : Rep q (m b) y)
    (hal : r = a → (m a).long = true → (m a).mont = false → q - y.val < bitLen q → q - y.val < 64) :
    ∃ m', Fr_shr q u m r a b = some m' ∧ Rep q (m' r) (shrSpec x y) ∧ ∀ p ≠ r, m' p = m p := by
  unfold Fr_shr
  split <;> rename_i tb
  · cases ub : (m b).mont
    · simp only [Bool.and_false, Bool.false_eq_true, if_false]
      exact Fr_shr_long_rep hq ha (hb.getLong tb ub) hal
    · simp only [tb, Bool.and_self, if_true]
      exact Fr_shr_long_rep hq ha (toNormalInto_rep hq u hb tb) hal
  · have tb := tag_false tb
    have hy := hb.getShort tb
    have hbd := short_bounds (m b).shortVal
    have hbl := hq.bl_lt
    have e1 := short_val hq (m b).shortVal
    rw [hy] at e1
    simp only [sx_toInt, sx_neg_toInt]
    unfold shrSpec
    split <;> rename_i hn
    · rw [if_pos hn] at e1
      have e2 := neg_sx_toNat_of_neg hn
      rw [if_neg (show ¬ y.val < bitLen q by omega)]
      split <;> rename_i hs
      · rw [if_neg (show ¬ q - y.val < bitLen q by omega)]
        exact ⟨_, rfl, Fr_setzero_rep, fun p hp => Fr_setzero_other hp⟩
      · have h3 : q - y.val < bitLen q := by omega
        rw [if_pos h3]
        have e : (-(sx (m b).shortVal)).toNat = q - y.val := by omega
        have := do_shl_rep (u := u) (r := r) (s := -(sx (m b).shortVal)) hq ha (by rw [e]; omega)
          (fun h1 h2 h4 => by rw [e]; exact hal h1 h2 h4 h3)
        rwa [e] at this
    · rw [if_neg hn] at e1
      have e2 := sx_toNat_of_nonneg (v := (m b).shortVal) (by omega)
      have e : (sx (m b).shortVal).toNat = y.val := by omega
      split <;> rename_i hs
      · rw [if_neg (show ¬ y.val < bitLen q by omega), if_neg (show ¬ q - y.val < bitLen q by omega)]
        exact ⟨_, rfl, Fr_setzero_rep, fun p hp => Fr_setzero_other hp⟩
      · rw [if_pos (show y.val < bitLen q by omega)]
        have := do_shr_rep (u := u) (r := r) (s := sx (m b).shortVal) hq ha (by rw [e]; omega)
        rw [e] at this
        exact ⟨_, rfl, this, fun p hp => do_shr_other hp⟩

/-! ## Conversion to `int` -/

theorem limb0_eq {l : Limbs} (h : 0 < l.length) : limbAt l 0 = BitVec.ofNat 64 (val l) := by
  cases l with
  | nil => simp at h
  | cons w ws =>
    apply BitVec.eq_of_toNat_eq
    rw [val_cons, toNat_ofNat_W, Nat.add_mul_mod_self_left, Nat.mod_eq_of_lt (limb_lt w)]
    simp [limbAt]

theorem tail_any {ws : Limbs} : (ws.any (· != 0)) = true ↔ val ws ≠ 0 := by
  induction ws with
  | nil => simp
  | cons v vs ih =>
    rw [List.any_cons, Bool.or_eq_true, ih, val_cons, bne_iff_ne]
    have hW := W_pos
    constructor
    · rintro (h | h) e
      · exact h (BitVec.eq_of_toNat_eq (by simp; omega))
      · have : W * val vs = 0 := by omega
        rcases Nat.mul_eq_zero.mp this with h' | h' <;> omega
    · intro h
      by_cases h1 : v = 0
      · right; rintro e; rw [e, h1] at h; simp at h
      · left; exact h1

theorem asr31_neg1 {v : BitVec 64} : (v.sshiftRight 31 + 1 != 0) = !decide (-2147483648 ≤ v.toInt ∧ v.toInt < 0) := by
  have h1 := BitVec.le_toInt v
  have h2 := @BitVec.toInt_lt 64 v
  norm_num at h1 h2
  have hk := @sshift31 v _ rfl
  rw [hk]
  by_cases h : -2147483648 ≤ v.toInt ∧ v.toInt < 0
  · have : v.toInt / 2147483648 = -1 := by omega
    rw [this, decide_eq_true h]; rfl
  · rw [decide_eq_false h, Bool.not_false, bne_iff_ne]
    intro e
    have e' : BitVec.ofInt 64 (v.toInt / 2147483648) = BitVec.ofInt 64 (-1) := by
      have : BitVec.ofInt 64 (v.toInt / 2147483648) = BitVec.ofInt 64 (v.toInt / 2147483648) + 1 - 1 := by
        rw [BitVec.add_sub_cancel]
      rw [this, e]; rfl
    have := congrArg BitVec.toInt e'
    rw [BitVec.toInt_ofInt, Int.bmod_eq_of_le (by norm_num; omega) (by norm_num; omega)] at this
    have e2 : (BitVec.ofInt 64 (-1)).toInt = -1 := by decide
    rw [e2] at this
    omega

/-- What `Fr_toInt` computes from the array of a long element. -/
theorem Fr_longNormal_exact (h : LRep q ea.longVal x) :
    Fr_longNormal q ea =
      if x.val < 2147483648 then some (BitVec.ofNat 32 x.val)
      else if 0 < (q - x.val) % 2 ^ 64 ∧ (q - x.val) % 2 ^ 64 ≤ 2147483648 then
        some (-(BitVec.ofNat 32 ((q - x.val) % 2 ^ 64)))
      else none := by
  have hv := h.val_eq
  have hlt := h.2.1
  have hn := n64_pos q
  have hneg : Fr_longNeg q ea =
      if 0 < (q - x.val) % 2 ^ 64 ∧ (q - x.val) % 2 ^ 64 ≤ 2147483648 then
        some (-(BitVec.ofNat 32 ((q - x.val) % 2 ^ 64))) else none := by
    unfold Fr_longNeg
    have c := cmpGe_iff ea.longVal (rawq q) (by simp [h.1])
    rw [rawq_val] at c
    rw [if_neg (by rw [c]; omega)]
    dsimp only
    rw [limb0_eq (by rw [h.1]; exact hn), limb0_eq (by simpa using hn), rawq_val, hv]
    have e : BitVec.ofNat 64 x.val - BitVec.ofNat 64 q = -(BitVec.ofNat 64 ((q - x.val) % 2 ^ 64)) := by
      apply BitVec.eq_of_toNat_eq
      rw [BitVec.toNat_sub, BitVec.toNat_neg, BitVec.toNat_ofNat, BitVec.toNat_ofNat, BitVec.toNat_ofNat]
      omega
    rw [e]
    generalize hd : (q - x.val) % 2 ^ 64 = d
    have hd' : d < 2 ^ 64 := by rw [← hd]; exact Nat.mod_lt _ (by norm_num)
    rw [asr31_neg1]
    have ei : (-(BitVec.ofNat 64 d)).toInt = if d ≤ 2 ^ 63 then -(d : ℤ) else 2 ^ 64 - (d : ℤ) := by
      rw [BitVec.toInt_eq_toNat_cond, BitVec.toNat_neg, BitVec.toNat_ofNat]
      split <;> split <;> omega
    by_cases hc : 0 < d ∧ d ≤ 2147483648
    · rw [if_pos hc]
      rw [if_pos (by omega)] at ei
      rw [decide_eq_true (by rw [ei]; omega)]
      simp only [Bool.not_true, Bool.false_eq_true, if_false, Option.some.injEq]
      apply BitVec.eq_of_toNat_eq
      rw [show ∀ z : BitVec 64, (z.truncate 32).toNat = z.toNat % 2 ^ 32 from fun z => BitVec.toNat_setWidth 32 z, BitVec.toNat_neg, BitVec.toNat_neg, BitVec.toNat_ofNat, BitVec.toNat_ofNat]
      omega
    · rw [if_neg hc]
      rw [decide_eq_false (by rw [ei]; split <;> omega)]
      rfl
  unfold Fr_longNormal
  dsimp only
  rw [hneg]
  obtain ⟨w, ws, e⟩ : ∃ w ws, ea.longVal = w :: ws := by
    cases hh : ea.longVal with
    | nil => rw [hh] at h; have := h.1; simp at this; omega
    | cons w ws => exact ⟨w, ws, rfl⟩
  rw [e] at hv ⊢
  have t := tail_any (ws := ws)
  have hw := limb_lt w
  have hW : W = 2 ^ 64 := W_eq.symm
  rw [val_cons, hW] at hv
  rw [hW] at hw
  have l0 : limbAt (w :: ws) 0 = w := rfl
  rw [l0, List.tail_cons]
  have sh : (w >>> 31 != 0) = decide (2147483648 ≤ w.toNat) := by
    rw [Bool.eq_iff_iff, bne_iff_ne, decide_eq_true_eq]
    constructor
    · intro hne
      by_contra hc
      apply hne
      apply BitVec.eq_of_toNat_eq
      rw [BitVec.toNat_ushiftRight, Nat.shiftRight_eq_div_pow]
      simp; omega
    · intro hge e
      have := congrArg BitVec.toNat e
      rw [BitVec.toNat_ushiftRight, Nat.shiftRight_eq_div_pow] at this
      simp at this; omega
  rw [sh]
  by_cases c1 : x.val < 2147483648
  · have z : val ws = 0 := by
      by_contra hne
      have : 2 ^ 64 * 1 ≤ 2 ^ 64 * val ws := Nat.mul_le_mul_left _ (by omega)
      omega
    rw [if_pos c1, decide_eq_false (by omega), if_neg (by simp), if_neg (by rw [t]; omega)]
    congr 1
    apply BitVec.eq_of_toNat_eq
    rw [show ∀ z : BitVec 64, (z.truncate 32).toNat = z.toNat % 2 ^ 32 from fun z => BitVec.toNat_setWidth 32 z, BitVec.toNat_ofNat]
    omega
  · rw [if_neg c1]
    by_cases c2 : 2147483648 ≤ w.toNat
    · rw [decide_eq_true c2, if_pos rfl]
    · rw [decide_eq_false c2, if_neg (by simp), if_pos (by rw [t]; intro z; rw [z] at hv; omega)]

end FF
