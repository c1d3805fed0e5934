import Verif.TaggedArith

/-!
# Comparisons, logical and bitwise operations of the tagged layer: helper lemmas
-/

namespace FF

variable {q : Nat} {m : Mem} {r a b p : Nat} {x y : ZMod q} {u : Elem} {ea eb : Elem}

theorem half_rep (q : Nat) : (half q).length = n64 q ∧ val (half q) = q / 2 := by
  refine ⟨by simp [half], ?_⟩
  have := q_lt_Wn q
  exact constantElement_val (by omega)

theorem rawCmp_eq {l l' : Limbs} (h : l.length = l'.length) : rawCmp l l' = compare (val l) (val l') := mpn_cmp_eq l l' h

theorem cmp_lt {i j : Nat} : (compare i j == Ordering.lt) = decide (i < j) := by
  rcases lt_trichotomy i j with h | h | h
  · simp [Nat.compare_eq_lt.mpr h, h]
  · simp [h]
  · simp [Nat.compare_eq_gt.mpr h]; omega
theorem cmp_gt {i j : Nat} : (compare i j == Ordering.gt) = decide (j < i) := by
  rcases lt_trichotomy i j with h | h | h
  · simp [Nat.compare_eq_lt.mpr h]; omega
  · simp [h]
  · simp [Nat.compare_eq_gt.mpr h, h]
theorem cmp_eq {i j : Nat} : (compare i j == Ordering.eq) = decide (i = j) := by
  rcases lt_trichotomy i j with h | h | h
  · simp [Nat.compare_eq_lt.mpr h]; omega
  · simp [h]
  · simp [Nat.compare_eq_gt.mpr h]; omega

theorem rltL1L2_iff {l l' : Limbs} (h : LRep q l x) (h' : LRep q l' y) :
    rltL1L2 q l l' = decide (sval x < sval y) := by
  have hh := half_rep q
  have e := h.val_eq; have e' := h'.val_eq
  have b1 := h.2.1; have b2 := h'.2.1
  unfold rltL1L2 sval
  rw [rawCmp_eq (h'.1.trans h.1.symm), rawCmp_eq (hh.1.trans h.1.symm), rawCmp_eq (hh.1.trans h'.1.symm), cmp_gt, cmp_lt, cmp_lt,
    hh.2, ← e, ← e']
  simp only [decide_eq_true_eq]
  split <;> split <;> split <;> split <;> simp <;> omega

theorem rgtL1L2_iff {l l' : Limbs} (h : LRep q l x) (h' : LRep q l' y) :
    rgtL1L2 q l l' = decide (sval y < sval x) := by
  have hh := half_rep q
  have e := h.val_eq; have e' := h'.val_eq
  have b1 := h.2.1; have b2 := h'.2.1
  unfold rgtL1L2 sval
  rw [rawCmp_eq (h'.1.trans h.1.symm), rawCmp_eq (hh.1.trans h.1.symm), rawCmp_eq (hh.1.trans h'.1.symm), cmp_lt, cmp_lt, cmp_lt,
    hh.2, ← e, ← e']
  simp only [decide_eq_true_eq]
  split <;> split <;> split <;> split <;> simp <;> omega

theorem Fr_rlt_iff (hq : Modulus q) (ha : Rep q ea x) (hb : Rep q eb y) :
    Fr_rlt q u ea eb = decide (sval x < sval y) := by
  unfold Fr_rlt
  split <;> rename_i ta
  · have na := toNormalInto_rep hq u ha ta
    split <;> rename_i tb
    · have nb := toNormalInto_rep hq u hb tb
      split <;> rename_i ua
      · split <;> rename_i ub
        · exact rltL1L2_iff na nb
        · exact rltL1L2_iff na (hb.getLong tb (tag_false ub))
      · split <;> rename_i ub
        · exact rltL1L2_iff (ha.getLong ta (tag_false ua)) nb
        · exact rltL1L2_iff (ha.getLong ta (tag_false ua)) (hb.getLong tb (tag_false ub))
    · split <;> rename_i ua
      · exact rltL1L2_iff na (toLongNormalInto_rep hq u hb)
      · exact rltL1L2_iff (ha.getLong ta (tag_false ua)) (toLongNormalInto_rep hq u hb)
  · split <;> rename_i tb
    · split <;> rename_i ub
      · exact rltL1L2_iff (toLongNormalInto_rep hq u ha) (toNormalInto_rep hq u hb tb)
      · exact rltL1L2_iff (toLongNormalInto_rep hq u ha) (hb.getLong tb (tag_false ub))
    · rw [← ha.getShort (tag_false ta), ← hb.getShort (tag_false tb), short_sval hq, short_sval hq]

theorem Fr_rgt_iff (hq : Modulus q) (ha : Rep q ea x) (hb : Rep q eb y) :
    Fr_rgt q u ea eb = decide (sval y < sval x) := by
  unfold Fr_rgt
  split <;> rename_i ta
  · have na := toNormalInto_rep hq u ha ta
    split <;> rename_i tb
    · have nb := toNormalInto_rep hq u hb tb
      split <;> rename_i ua
      · split <;> rename_i ub
        · exact rgtL1L2_iff na nb
        · exact rgtL1L2_iff na (hb.getLong tb (tag_false ub))
      · split <;> rename_i ub
        · exact rgtL1L2_iff (ha.getLong ta (tag_false ua)) nb
        · exact rgtL1L2_iff (ha.getLong ta (tag_false ua)) (hb.getLong tb (tag_false ub))
    · split <;> rename_i ua
      · exact rgtL1L2_iff na (toLongNormalInto_rep hq u hb)
      · exact rgtL1L2_iff (ha.getLong ta (tag_false ua)) (toLongNormalInto_rep hq u hb)
  · split <;> rename_i tb
    · split <;> rename_i ub
      · exact rgtL1L2_iff (toLongNormalInto_rep hq u ha) (toNormalInto_rep hq u hb tb)
      · exact rgtL1L2_iff (toLongNormalInto_rep hq u ha) (hb.getLong tb (tag_false ub))
    · rw [← ha.getShort (tag_false ta), ← hb.getShort (tag_false tb), short_sval hq, short_sval hq]

theorem reqL1L2_iff {l l' : Limbs} {s t : ZMod q} (h : LRep q l s) (h' : LRep q l' t) : reqL1L2 l l' = decide (s = t) := by
  have e := h.val_eq; have e' := h'.val_eq
  have : NeZero q := ⟨by have := h.2.1; omega⟩
  unfold reqL1L2
  rw [rawCmp_eq (by rw [h.1, h'.1]), cmp_eq, e, e', decide_eq_decide]
  exact ⟨fun h => (ZMod.val_injective q h).symm, fun h => by rw [h]⟩

theorem Fr_req_iff (hq : Modulus q) (ha : Rep q ea x) (hb : Rep q eb y) : Fr_req q u ea eb = decide (x = y) := by
  have hR : (decide (x * R q = y * R q)) = decide (x = y) := by
    rw [decide_eq_decide]; exact ⟨fun h => R_cancel hq.odd h, fun h => by rw [h]⟩
  have ma := toMontgomeryInto_rep hq u ha
  have mb := toMontgomeryInto_rep hq u hb
  unfold Fr_req
  split <;> rename_i ta
  · split <;> rename_i tb
    · split <;> rename_i ua
      · split <;> rename_i ub
        · rw [← hR]; exact reqL1L2_iff (ha.getMont ua) (hb.getMont ub)
        · rw [← hR]; exact reqL1L2_iff (ha.getMont ua) mb
      · split <;> rename_i ub
        · rw [← hR]; exact reqL1L2_iff ma (hb.getMont ub)
        · exact reqL1L2_iff (ha.getLong ta (tag_false ua)) (hb.getLong tb (tag_false ub))
    · split <;> rename_i ua
      · rw [← hR]; exact reqL1L2_iff (ha.getMont ua) mb
      · exact reqL1L2_iff (ha.getLong ta (tag_false ua)) (toLongNormalInto_rep hq u hb)
  · split <;> rename_i tb
    · split <;> rename_i ub
      · rw [← hR]; exact reqL1L2_iff ma (hb.getMont ub)
      · exact reqL1L2_iff (toLongNormalInto_rep hq u ha) (hb.getLong tb (tag_false ub))
    · have h1 := short_sval hq ea.shortVal
      have h2 := short_sval hq eb.shortVal
      rw [ha.getShort (tag_false ta)] at h1
      rw [hb.getShort (tag_false tb)] at h2
      rw [Bool.beq_eq_decide_eq, decide_eq_decide]
      constructor
      · intro e
        rw [← ha.getShort (tag_false ta), ← hb.getShort (tag_false tb), e]
      · intro e
        apply BitVec.eq_of_toInt_eq
        rw [← h1, ← h2, e]

theorem LRep.isZero {l : Limbs} (h : LRep q l x) : rawIsZero l = decide (x = 0) := by
  have e := h.val_eq
  have : NeZero q := ⟨by have := h.2.1; omega⟩
  rw [Bool.eq_iff_iff, rawIsZero_iff, e, decide_eq_true_eq, ZMod.val_eq_zero]

theorem short_zero (hq : Modulus q) (ha : Rep q ea x) (ta : ea.long = false) : (ea.shortVal == 0) = decide (x = 0) := by
  have h1 := short_sval hq ea.shortVal
  have hg := hq.gt
  rw [ha.getShort ta] at h1
  rw [Bool.beq_eq_decide_eq, decide_eq_decide]
  constructor
  · intro e; rw [← ha.getShort ta, e]; simp
  · intro e
    apply BitVec.eq_of_toInt_eq
    rw [← h1, e]; simp [sval]

theorem Fr_isTrue_iff (hq : Modulus q) (ha : Rep q ea x) : Fr_isTrue ea = decide (x ≠ 0) := by
  unfold Fr_isTrue
  split <;> rename_i ta
  · have : rawIsZero ea.longVal = decide (x = 0) := by
      cases ua : ea.mont
      · exact (ha.getLong ta ua).isZero
      · rw [(ha.getMont ua).isZero, decide_eq_decide]
        exact ⟨fun h => R_cancel hq.odd (by simpa using h), fun h => by simp [h]⟩
    rw [this]; simp
  · have := short_zero hq ha (tag_false ta)
    rw [bne, this]; simp

theorem isTrueInline_eq (e : Elem) : isTrueInline e = Fr_isTrue e := rfl

theorem lnot_eq (e : Elem) : (if e.long then rawIsZero e.longVal else e.shortVal == 0) = !Fr_isTrue e := by
  unfold Fr_isTrue; split <;> simp [bne]

/-! ## Bitwise operations -/

theorem shortOperand_rep (hq : Modulus q) (h : Rep q ea x) (t : ea.long = false) : LRep q (shortOperand q u ea) x := by
  unfold shortOperand
  split <;> rename_i hn
  · have := shortLimbs_rep (sx_lt hq hn)
    rwa [sx_cast hn, h.getShort t] at this
  · exact toLongNormalInto_rep hq u h

/-- Generic correctness of the three binary bitwise operations; `F` is the operation on numbers. -/
theorem Fr_bitop_rep (hq : Modulus q) {f : Limbs → Limbs → Limbs} {g : BitVec 32 → BitVec 32 → BitVec 32}
    {F : Nat → Nat → Nat} (hcomm : ∀ i j, F i j = F j i)
    (hf : ∀ {l l' : Limbs} {s t : ZMod q}, LRep q l s → LRep q l' t → LRep q (f l l') ((F s.val t.val : Nat) : ZMod q))
    (hg : ∀ {v w : BitVec 32}, 0 ≤ v.toInt → 0 ≤ w.toInt → (g v w).toInt = (F v.toInt.toNat w.toInt.toNat : Nat))
    (ha : Rep q (m a) x) (hb : Rep q (m b) y)
    (h1 : r = a → if (m a).long then (m a).mont = false
      else 0 ≤ (m a).shortVal.toInt ∧ ((m b).long = true ∨ 0 ≤ (m b).shortVal.toInt))
    (h2 : r = b → if (m b).long then (m b).mont = false
      else 0 ≤ (m b).shortVal.toInt ∧ ((m a).long = true ∨ 0 ≤ (m a).shortVal.toInt)) :
    Rep q (Fr_bitop f g q u m r a b r) ((F x.val y.val : Nat) : ZMod q) := by
  have keep : ∀ {c : Nat}, c ≠ r → m.setTy r true false c = m c := fun h => setTy_other _ _ _ h
  -- a converted long Montgomery operand is not the result
  have ca : (m a).long = true → (m a).mont = true → a ≠ r := by
    intro e1 e2 e3; have := h1 e3.symm; simp [e1, e2] at this
  have cb : (m b).long = true → (m b).mont = true → b ≠ r := by
    intro e1 e2 e3; have := h2 e3.symm; simp [e1, e2] at this
  -- a short operand: the words read do not depend on whether it is the result
  have sa : (m a).long = false → LRep q (shortOperand q u (m.setTy r true false a)) x := by
    intro e1
    by_cases e : a = r
    · have := h1 e.symm; simp only [e1, Bool.false_eq_true, if_false] at this
      have hs := shortOperand_rep (u := u) hq ha e1
      unfold shortOperand at hs ⊢
      rw [setTy_shortVal, if_pos this.1]; rwa [if_pos this.1] at hs
    · rw [keep e]; exact shortOperand_rep hq ha e1
  have sb : (m b).long = false → LRep q (shortOperand q u (m.setTy r true false b)) y := by
    intro e1
    by_cases e : b = r
    · have := h2 e.symm; simp only [e1, Bool.false_eq_true, if_false] at this
      have hs := shortOperand_rep (u := u) hq hb e1
      unfold shortOperand at hs ⊢
      rw [setTy_shortVal, if_pos this.1]; rwa [if_pos this.1] at hs
    · rw [keep e]; exact shortOperand_rep hq hb e1
  have st : ∀ {L : Limbs}, LRep q L ((F x.val y.val : Nat) : ZMod q) →
      Rep q ((m.setTy r true false).setLong r L r) ((F x.val y.val : Nat) : ZMod q) := by
    intro L h; exact store_rep (mont := false) (by simp) (by simp) (by simpa using h)
  unfold Fr_bitop
  dsimp only
  split <;> rename_i ta
  · split <;> rename_i tb
    · split <;> rename_i ua
      · split <;> rename_i ub
        · apply st; rw [keep (ca ta ua), keep (cb tb ub)]
          exact hf (toNormalInto_rep hq u ha ta) (toNormalInto_rep hq u hb tb)
        · apply st; rw [keep (ca ta ua), setTy_longVal]
          exact hf (toNormalInto_rep hq u ha ta) (hb.getLong tb (tag_false ub))
      · split <;> rename_i ub
        · apply st; rw [keep (cb tb ub), setTy_longVal]
          exact hf (ha.getLong ta (tag_false ua)) (toNormalInto_rep hq u hb tb)
        · apply st; rw [setTy_longVal, setTy_longVal]
          exact hf (ha.getLong ta (tag_false ua)) (hb.getLong tb (tag_false ub))
    · have tb := tag_false tb
      split <;> rename_i ua
      · apply st; rw [keep (ca ta ua), hcomm]
        exact hf (sb tb) (toNormalInto_rep hq u ha ta)
      · apply st; rw [setTy_longVal]
        exact hf (ha.getLong ta (tag_false ua)) (sb tb)
  · have ta := tag_false ta
    split <;> rename_i tb
    · split <;> rename_i ub
      · apply st; rw [keep (cb tb ub)]
        exact hf (sa ta) (toNormalInto_rep hq u hb tb)
      · apply st; rw [setTy_longVal]
        exact hf (sa ta) (hb.getLong tb (tag_false ub))
    · have tb := tag_false tb
      split <;> rename_i hn
      · apply Rep.short (by simp) (by simp)
        simp only [setTy_shortVal, setShort_shortVal]
        rw [hg hn.1 hn.2]
        have e1 := short_val hq (m a).shortVal
        have e2 := short_val hq (m b).shortVal
        rw [ha.getShort ta, if_neg (by omega)] at e1
        rw [hb.getShort tb, if_neg (by omega)] at e2
        rw [← e1, ← e2]; simp
      · have na : a ≠ r := by
          intro e; have := h1 e.symm; simp only [ta, tb, Bool.false_eq_true, if_false, false_or] at this; exact hn this
        have nb : b ≠ r := by
          intro e; have := h2 e.symm; simp only [ta, tb, Bool.false_eq_true, if_false, false_or] at this
          exact hn this.symm
        apply st; rw [keep na, keep nb]
        exact hf (toLongNormalInto_rep hq u ha) (toLongNormalInto_rep hq u hb)

theorem Fr_bitop_other {f : Limbs → Limbs → Limbs} {g : BitVec 32 → BitVec 32 → BitVec 32} (h : p ≠ r) :
    Fr_bitop f g q u m r a b p = m p := by
  unfold Fr_bitop
  dsimp only
  repeat' split
  all_goals simp [setTy_other, setLong_other, setShort_other, h]

theorem LRep.lt_pow {l : Limbs} (h : LRep q l x) : x.val < 2 ^ bitLen q := by
  rw [← h.val_eq]; exact lt_trans h.2.1 bitLen_lt

theorem LRep.bitop {f : Limbs → Limbs → Limbs} {F : Nat → Nat → Nat} {l l' : Limbs}
    (hv : ∀ {l l' : Limbs}, l.length = n64 q → l'.length = n64 q →
      val (f l l') = F (val l) (val l') % 2 ^ bitLen q % q ∧ (f l l').length = n64 q)
    (hF : ∀ {i j k : Nat}, i < 2 ^ k → j < 2 ^ k → F i j < 2 ^ k)
    (h : LRep q l x) (h' : LRep q l' y) : LRep q (f l l') ((F x.val y.val : Nat) : ZMod q) := by
  obtain ⟨e, hl⟩ := hv h.1 h'.1
  rw [h.val_eq, h'.val_eq, Nat.mod_eq_of_lt (hF h.lt_pow h'.lt_pow)] at e
  exact ⟨hl, by rw [e]; exact Nat.mod_lt _ (by have := h.2.1; omega), by rw [e, cast_mod]⟩

theorem nonneg_toNat {v : BitVec 32} (h : 0 ≤ v.toInt) : v.toInt.toNat = v.toNat ∧ v.toNat < 2 ^ 31 := by
  have := v.isLt
  rw [BitVec.toInt_eq_toNat_cond] at h ⊢
  split at h <;> simp_all <;> omega

theorem toInt_of_small {v : BitVec 32} (h : v.toNat < 2 ^ 31) : v.toInt = (v.toNat : ℤ) := by
  rw [BitVec.toInt_eq_toNat_cond, if_pos (by omega)]

theorem and_short {v w : BitVec 32} (hv : 0 ≤ v.toInt) (hw : 0 ≤ w.toInt) :
    (v &&& w).toInt = ((v.toInt.toNat &&& w.toInt.toNat : Nat) : ℤ) := by
  obtain ⟨e1, b1⟩ := nonneg_toNat hv; obtain ⟨e2, b2⟩ := nonneg_toNat hw
  rw [e1, e2, ← BitVec.toNat_and, toInt_of_small]
  rw [BitVec.toNat_and]; exact Nat.and_lt_two_pow _ b2
theorem or_short {v w : BitVec 32} (hv : 0 ≤ v.toInt) (hw : 0 ≤ w.toInt) :
    (v ||| w).toInt = ((v.toInt.toNat ||| w.toInt.toNat : Nat) : ℤ) := by
  obtain ⟨e1, b1⟩ := nonneg_toNat hv; obtain ⟨e2, b2⟩ := nonneg_toNat hw
  rw [e1, e2, ← BitVec.toNat_or, toInt_of_small]
  rw [BitVec.toNat_or]; exact Nat.or_lt_two_pow b1 b2
theorem xor_short {v w : BitVec 32} (hv : 0 ≤ v.toInt) (hw : 0 ≤ w.toInt) :
    (v ^^^ w).toInt = ((v.toInt.toNat ^^^ w.toInt.toNat : Nat) : ℤ) := by
  obtain ⟨e1, b1⟩ := nonneg_toNat hv; obtain ⟨e2, b2⟩ := nonneg_toNat hw
  rw [e1, e2, ← BitVec.toNat_xor, toInt_of_small]
  rw [BitVec.toNat_xor]; exact Nat.xor_lt_two_pow b1 b2

theorem LRep.not {l : Limbs} (hq : Modulus q) (h : LRep q l x) :
    LRep q (rawNot q l) ((2 ^ bitLen q - 1 - x.val : Nat) : ZMod q) := by
  obtain ⟨e, hl⟩ := rawNot_val hq.pos h.1 (lt_trans h.2.1 bitLen_lt)
  rw [h.val_eq] at e
  exact ⟨hl, by rw [e]; exact Nat.mod_lt _ hq.pos, by rw [e, cast_mod]⟩

theorem Fr_bnot_rep (hq : Modulus q) (ha : Rep q (m a) x) (h1 : r = a → (m a).long = true ∧ (m a).mont = false) :
    Rep q (Fr_bnot q u m r a r) ((2 ^ bitLen q - 1 - x.val : Nat) : ZMod q) := by
  have st : ∀ {L : Limbs} {z : ZMod q}, LRep q L z → Rep q ((m.setTy r true false).setLong r L r) z := by
    intro L z h; exact store_rep (mont := false) (by simp) (by simp) (by simpa using h)
  unfold Fr_bnot
  dsimp only
  by_cases e : a = r
  · obtain ⟨e1, e2⟩ := h1 e.symm
    subst e
    simp only [setTy_long, setTy_mont, Bool.not_false, Bool.and_self, if_true, Bool.false_eq_true, if_false, setTy_longVal]
    exact st (LRep.not hq (ha.getLong e1 e2))
  · rw [setTy_other _ _ _ e]
    split <;> rename_i h
    · simp only [Bool.and_eq_true, Bool.not_eq_true'] at h
      simp only [h.2, Bool.false_eq_true, if_false]
      exact st (LRep.not hq (ha.getLong h.1 h.2))
    · exact st (LRep.not hq (toLongNormalInto_rep hq u ha))

theorem Fr_bnot_other (h : p ≠ r) : Fr_bnot q u m r a p = m p := by
  unfold Fr_bnot
  dsimp only
  repeat' split
  all_goals simp [setTy_other, setLong_other, h]

end FF
