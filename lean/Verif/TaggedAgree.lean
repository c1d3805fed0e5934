import Verif.TaggedOver
import Verif.TaggedShift

/-!
# The tagged layer over raw routines that agree with the portable ones

If the raw routines of a `RawImpl` return what the portable ones return on the operands the library passes, every tagged operation
returns the same element.
-/

namespace FF

/-- The entries of `I` agree with the portable routines on arrays of the width of the modulus, where these are specified. -/
structure RawAgree (q : Nat) (I : RawImpl) : Prop where
  add : ∀ {a b : Limbs}, a.length = n64 q → b.length = n64 q → I.add a b = rawAdd q a b
  sub : ∀ {a b : Limbs}, a.length = n64 q → b.length = n64 q → I.sub a b = rawSub q a b
  addLS : ∀ {a : Limbs} (w), a.length = n64 q → I.addLS a w = rawAddLS q a w
  subLS : ∀ {a : Limbs} (w), a.length = n64 q → I.subLS a w = rawSubLS q a w
  subSL : ∀ {b : Limbs} (w), b.length = n64 q → I.subSL w b = rawSubSL q w b
  subRegular : ∀ {a b : Limbs}, a.length = n64 q → b.length = n64 q → I.subRegular a b = rawSubRegular a b
  neg : ∀ {a : Limbs}, a.length = n64 q → I.neg a = rawNeg q a
  negLS : ∀ {a : Limbs} {w : BitVec 64}, n64 q ≤ 10 → a.length = n64 q → val a < q → w.toNat < q → q < val a + w.toNat →
    I.negLS a w = rawNegLS q false a w
  mmul : ∀ {a b : Limbs}, a.length = n64 q → b.length = n64 q → val b < q → I.mmul a b = rawMMul q a b
  mmul1 : ∀ {a : Limbs} (w), a.length = n64 q → val a < q → I.mmul1 a w = rawMMul1 q a w
  fromMontgomery : ∀ {a : Limbs}, a.length = n64 q → I.fromMontgomery a = rawFromMontgomery q a
  copy : ∀ {a : Limbs}, a.length = n64 q → I.copy a = a
  copyS2L : ∀ w, I.copyS2L w = rawCopyS2L q w
  isZero : ∀ {a : Limbs}, a.length = n64 q → I.isZero a = rawIsZero a
  cmp : ∀ {a b : Limbs}, a.length = n64 q → b.length = n64 q → I.cmp a b = rawCmp a b
  and : ∀ {a b : Limbs}, a.length = n64 q → b.length = n64 q → I.and a b = rawAnd q a b
  or : ∀ {a b : Limbs}, a.length = n64 q → b.length = n64 q → I.or a b = rawOr q a b
  xor : ∀ {a b : Limbs}, a.length = n64 q → b.length = n64 q → I.xor a b = rawXor q a b
  not : ∀ {a : Limbs}, a.length = n64 q → I.not a = rawNot q a
  shl : ∀ {a : Limbs} {w : BitVec 64}, n64 q ≠ 1 → a.length = n64 q → w.toNat < 64 * n64 q → I.shl a w = rawShl q a w.toNat
  shr : ∀ {a : Limbs} {w : BitVec 64}, a.length = n64 q → w.toNat < 64 * n64 q → I.shr a w = rawShr q a w.toNat

/-- An element with a meaningful long part has the width of the modulus. -/
def Sized (q : Nat) (e : Elem) : Prop := e.long = true ∨ e.mont = true → e.longVal.length = n64 q

/-- … and is reduced. -/
def Below (q : Nat) (e : Elem) : Prop := e.long = true ∨ e.mont = true → val e.longVal < q

theorem Rep.sized {q : Nat} {e : Elem} {x : ZMod q} (h : Rep q e x) : Sized q e ∧ Below q e := by
  obtain ⟨sv, l, t, L⟩ := e
  cases l <;> cases t <;> simp_all [Rep, LRep, Sized, Below]

theorem R2_lt {q : Nat} (h : 0 < q) : val (rawR2 q) < q := by rw [rawR2_val h]; exact Nat.mod_lt _ h
theorem R3_lt {q : Nat} (h : 0 < q) : val (rawR3 q) < q := by rw [rawR3_val h]; exact Nat.mod_lt _ h

variable {q : Nat} {I : RawImpl} {m : Mem} {r a b p : Nat} {x y : ZMod q} {u : Elem} {e : Elem}

/-- After the tag of `r` was written, the element `a` still has the width of the modulus. -/
theorem Sized.setTy (h : Sized q (m a)) (hr : r = a → (m a).longVal.length = n64 q) (l t : Bool) : Sized q (m.setTy r l t a) := by
  intro hs
  rw [setTy_longVal]
  by_cases e : r = a
  · exact hr e
  · rw [setTy_other m l t (Ne.symm e)] at hs
    exact h hs

section lengths

theorem mmul_len (hq : q % 2 = 1) {a b : Limbs} (ha : a.length = n64 q) (hb : b.length = n64 q) (hbq : val b < q) :
    (rawMMul q a b).length = n64 q ∧ val (rawMMul q a b) < q := ⟨(rawMMul_spec hq ha hb hbq).1, (rawMMul_spec hq ha hb hbq).2.1⟩

theorem mmul1_len (hq : q % 2 = 1) {a : Limbs} {w : BitVec 64} (ha : a.length = n64 q) (haq : val a < q) :
    (rawMMul1 q a w).length = n64 q ∧ val (rawMMul1 q a w) < q := ⟨(rawMMul1_spec hq ha haq).1, (rawMMul1_spec hq ha haq).2.1⟩

theorem fromMont_len (hq : q % 2 = 1) {a : Limbs} (ha : a.length = n64 q) : (rawFromMontgomery q a).length = n64 q :=
  (rawFromMontgomery_spec hq ha).1

theorem toNormalInto_len (hq : Modulus q) (h : Sized q e) (hl : e.long = true ∨ e.mont = true) :
    (toNormalInto q u e).longVal.length = n64 q := by
  unfold toNormalInto
  split
  · exact fromMont_len hq.odd (h hl)
  · exact h hl

theorem toLongNormalInto_len (hq : Modulus q) (h : Sized q e) : (toLongNormalInto q u e).longVal.length = n64 q := by
  unfold toLongNormalInto
  split <;> rename_i t
  · split
    · exact fromMont_len hq.odd (h (Or.inl t))
    · exact h (Or.inl t)
  · exact rawCopyS2L_length

theorem toMontgomeryInto_len (hq : Modulus q) (h : Sized q e) : (toMontgomeryInto q u e).longVal.length = n64 q := by
  unfold toMontgomeryInto
  split <;> rename_i t
  · exact h (Or.inr t)
  · split <;> rename_i t'
    · exact (mmul_len hq.odd (h (Or.inl t')) (rawR2_length q) (R2_lt hq.pos)).1
    · split
      · exact rawNeg_length
      · exact (mmul1_len hq.odd (rawR2_length q) (R2_lt hq.pos)).1

end lengths

namespace Over

theorem toNormalInto_eq (hI : RawAgree q I) (h : Sized q e) : toNormalInto q I u e = FF.toNormalInto q u e := by
  unfold toNormalInto FF.toNormalInto
  split <;> rename_i t
  · rw [hI.fromMontgomery (h (by simp_all))]
  · rfl

theorem toLongNormalInto_eq (hI : RawAgree q I) (h : Sized q e) : toLongNormalInto q I u e = FF.toLongNormalInto q u e := by
  unfold toLongNormalInto FF.toLongNormalInto
  split <;> rename_i t
  · rw [hI.fromMontgomery (h (Or.inl t))]
  · rw [hI.copyS2L]

theorem toMontgomeryInto_eq (hq : Modulus q) (hI : RawAgree q I) (h : Sized q e) :
    toMontgomeryInto q I u e = FF.toMontgomeryInto q u e := by
  unfold toMontgomeryInto FF.toMontgomeryInto
  split <;> rename_i t
  · rfl
  · split <;> rename_i t'
    · rw [hI.mmul (h (Or.inl t')) (rawR2_length q) (R2_lt hq.pos)]
    · rw [hI.mmul1 _ (rawR2_length q) (R2_lt hq.pos), hI.mmul1 _ (rawR2_length q) (R2_lt hq.pos),
        hI.neg (mmul1_len hq.odd (rawR2_length q) (R2_lt hq.pos)).1]

theorem Fr_toNormal_eq (hI : RawAgree q I) (h : Sized q (m a)) : Fr_toNormal q I m r a = FF.Fr_toNormal q m r a := by
  unfold Fr_toNormal FF.Fr_toNormal
  split <;> rename_i t
  · simp only [setTy_longVal, hI.fromMontgomery (h (by simp_all))]
  · rfl

theorem Fr_toLongNormal_eq (hI : RawAgree q I) (h : Sized q (m a)) : Fr_toLongNormal q I m r a = FF.Fr_toLongNormal q m r a := by
  unfold Fr_toLongNormal FF.Fr_toLongNormal
  split <;> rename_i t
  · rw [hI.fromMontgomery (h (Or.inl t))]
  · rw [hI.copyS2L]

theorem Fr_toMontgomery_eq (hq : Modulus q) (hI : RawAgree q I) (h : Sized q (m a)) :
    Fr_toMontgomery q I m r a = FF.Fr_toMontgomery q m r a := by
  unfold Fr_toMontgomery FF.Fr_toMontgomery
  split <;> rename_i t
  · rfl
  · split <;> rename_i t'
    · simp only [setShort_longVal, hI.mmul (h (Or.inl t')) (rawR2_length q) (R2_lt hq.pos)]
    · simp only [hI.mmul1 _ (rawR2_length q) (R2_lt hq.pos), setLong_longVal,
        hI.neg (mmul1_len hq.odd (rawR2_length q) (R2_lt hq.pos)).1]

theorem storeS2L_eq (hI : RawAgree q I) (v : BitVec 64) : storeS2L q I m r v = FF.storeS2L q m r v := by
  unfold storeS2L FF.storeS2L
  rw [hI.copyS2L]

theorem storeSum_eq (hI : RawAgree q I) (v : BitVec 64) : storeSum q I m r v = FF.storeSum q m r v := by
  unfold storeSum FF.storeSum
  rw [storeS2L_eq hI]

theorem mul_s1s2_eq (hI : RawAgree q I) : mul_s1s2 q I m r a b = FF.mul_s1s2 q m r a b := by
  unfold mul_s1s2 FF.mul_s1s2
  simp only [storeS2L_eq hI]

theorem mul_ll_eq (hI : RawAgree q I) (t : Bool) (ha : (m a).longVal.length = n64 q) (hb : (m b).longVal.length = n64 q)
    (hbq : val (m b).longVal < q) : mul_ll q I t m r a b = FF.mul_ll q t m r a b := by
  unfold mul_ll FF.mul_ll
  simp only [setTy_longVal, hI.mmul ha hb hbq]

theorem mul_l1nl2n_eq (hq : Modulus q) (hI : RawAgree q I) (ha : (m a).longVal.length = n64 q) (hb : (m b).longVal.length = n64 q)
    (hbq : val (m b).longVal < q) : mul_l1nl2n q I m r a b = FF.mul_l1nl2n q m r a b := by
  unfold mul_l1nl2n FF.mul_l1nl2n
  simp only [setTy_longVal, setLong_longVal, hI.mmul ha hb hbq, hI.mmul (mmul_len hq.odd ha hb hbq).1 (rawR3_length q) (R3_lt hq.pos)]

theorem mul_ls_eq (hq : Modulus q) (hI : RawAgree q I) (t : Bool) (ha : (m a).longVal.length = n64 q) (haq : val (m a).longVal < q) :
    mul_ls q I t m r a b = FF.mul_ls q t m r a b := by
  unfold mul_ls FF.mul_ls
  simp only [setTy_longVal, setLong_longVal, hI.mmul1 _ ha haq, hI.neg (mmul1_len hq.odd ha haq).1]

theorem mul_ls_len (hq : Modulus q) (t : Bool) (ha : (m a).longVal.length = n64 q) (haq : val (m a).longVal < q) :
    (FF.mul_ls q t m r a b r).longVal.length = n64 q := by
  unfold FF.mul_ls
  dsimp only
  split
  · simp only [setTy_longVal, setLong_longVal]
    exact rawNeg_length
  · simp only [setTy_longVal, setLong_longVal]
    exact (mmul1_len hq.odd ha haq).1

theorem Fr_mul_eq (hq : Modulus q) (hI : RawAgree q I) (ha : Sized q (m a)) (ha' : Below q (m a)) (hb : Sized q (m b))
    (hb' : Below q (m b)) : Fr_mul q I m r a b = FF.Fr_mul q m r a b := by
  unfold Fr_mul FF.Fr_mul
  split <;> rename_i ta
  · have la := ha (Or.inl ta)
    have va := ha' (Or.inl ta)
    split <;> rename_i tb
    · have lb := hb (Or.inl tb)
      have vb := hb' (Or.inl tb)
      simp only [mul_ll_eq hI _ la lb vb, mul_l1nl2n_eq hq hI la lb vb]
    · split <;> rename_i ua
      · split <;> rename_i ub
        · rw [mul_ll_eq hI _ la (hb (Or.inr ub)) (hb' (Or.inr ub))]
        · exact mul_ls_eq hq hI _ la va
      · split <;> rename_i ub
        · rw [mul_ll_eq hI _ la (hb (Or.inr ub)) (hb' (Or.inr ub))]
        · unfold mul_l1ns2n FF.mul_l1ns2n
          simp only [mul_ls_eq hq hI _ la va, hI.mmul (mul_ls_len hq _ la va) (rawR3_length q) (R3_lt hq.pos)]
  · split <;> rename_i tb
    · have lb := hb (Or.inl tb)
      have vb := hb' (Or.inl tb)
      split <;> rename_i ua
      · simp only [mul_ll_eq hI _ (ha (Or.inr ua)) lb vb]
      · split
        · exact mul_ls_eq hq hI _ lb vb
        · unfold mul_s1nl2n FF.mul_s1nl2n
          simp only [mul_ls_eq hq hI _ lb vb, hI.mmul (mul_ls_len hq _ lb vb) (rawR3_length q) (R3_lt hq.pos)]
    · exact mul_s1s2_eq hI

theorem Fr_square_eq (hq : Modulus q) (hI : RawAgree q I) (ha : Sized q (m a)) (ha' : Below q (m a)) :
    Fr_square q I m r a = FF.Fr_square q m r a := by
  unfold Fr_square FF.Fr_square
  split <;> rename_i ta
  · have la := ha (Or.inl ta)
    have va := ha' (Or.inl ta)
    simp only [setTy_longVal, setLong_longVal, hI.mmul la la va, hI.mmul (mmul_len hq.odd la la va).1 (rawR3_length q) (R3_lt hq.pos),
      rawMSquare]
  · simp only [storeS2L_eq hI]

theorem sub_conv1_eq (hq : Modulus q) (hI : RawAgree q I) (ha : Sized q (m a)) (hra : r = a → (m a).longVal.length = n64 q)
    (hb : (m b).longVal.length = n64 q) : sub_conv1 q I u m r a b = FF.sub_conv1 q u m r a b := by
  unfold sub_conv1 FF.sub_conv1
  have := ha.setTy hra true true
  simp only [toMontgomeryInto_eq hq hI this, hI.sub (toMontgomeryInto_len hq this) ((setTy_longVal m r b true true).symm ▸ hb)]

theorem sub_conv2_eq (hq : Modulus q) (hI : RawAgree q I) (hb : Sized q (m b)) (hrb : r = b → (m b).longVal.length = n64 q)
    (ha : (m a).longVal.length = n64 q) : sub_conv2 q I u m r a b = FF.sub_conv2 q u m r a b := by
  unfold sub_conv2 FF.sub_conv2
  have := hb.setTy hrb true true
  simp only [toMontgomeryInto_eq hq hI this, hI.sub ((setTy_longVal m r a true true).symm ▸ ha) (toMontgomeryInto_len hq this)]

theorem add_conv1_eq (hq : Modulus q) (hI : RawAgree q I) (ha : Sized q (m a)) (hra : r = a → (m a).longVal.length = n64 q)
    (hb : (m b).longVal.length = n64 q) : add_conv1 q I u m r a b = FF.add_conv1 q u m r a b := by
  unfold add_conv1 FF.add_conv1
  have := ha.setTy hra true true
  simp only [toMontgomeryInto_eq hq hI this, hI.add (toMontgomeryInto_len hq this) ((setTy_longVal m r b true true).symm ▸ hb)]

theorem add_conv2_eq (hq : Modulus q) (hI : RawAgree q I) (hb : Sized q (m b)) (hrb : r = b → (m b).longVal.length = n64 q)
    (ha : (m a).longVal.length = n64 q) : add_conv2 q I u m r a b = FF.add_conv2 q u m r a b := by
  unfold add_conv2 FF.add_conv2
  have := hb.setTy hrb true true
  simp only [toMontgomeryInto_eq hq hI this, hI.add ((setTy_longVal m r a true true).symm ▸ ha) (toMontgomeryInto_len hq this)]

theorem add_ll_eq (hI : RawAgree q I) (t : Bool) (ha : (m a).longVal.length = n64 q) (hb : (m b).longVal.length = n64 q) :
    add_ll q I t m r a b = FF.add_ll q t m r a b := by
  unfold add_ll FF.add_ll
  simp only [setTy_longVal, hI.add ha hb]

theorem sub_ll_eq (hI : RawAgree q I) (t : Bool) (ha : (m a).longVal.length = n64 q) (hb : (m b).longVal.length = n64 q) :
    sub_ll q I t m r a b = FF.sub_ll q t m r a b := by
  unfold sub_ll FF.sub_ll
  simp only [setTy_longVal, hI.sub ha hb]

theorem add_ls_eq (hI : RawAgree q I) (ha : (m a).longVal.length = n64 q) : add_ls q I m r a b = FF.add_ls q m r a b := by
  unfold add_ls FF.add_ls
  simp only [setTy_longVal, hI.addLS _ ha, hI.subLS _ ha]

theorem Fr_add_eq (hq : Modulus q) (hI : RawAgree q I) (ha : Sized q (m a)) (hb : Sized q (m b))
    (hra : r = a → (m a).longVal.length = n64 q) (hrb : r = b → (m b).longVal.length = n64 q) :
    Fr_add q I u m r a b = FF.Fr_add q u m r a b := by
  unfold Fr_add FF.Fr_add
  split <;> rename_i ta
  · have la := ha (Or.inl ta)
    split <;> rename_i tb
    · have lb := hb (Or.inl tb)
      simp only [add_ll_eq hI _ la lb, add_conv1_eq hq hI ha hra lb, add_conv2_eq hq hI hb hrb la]
    · split <;> rename_i ua
      · split <;> rename_i ub
        · rw [add_ll_eq hI _ la (hb (Or.inr ub))]
        · rw [add_conv2_eq hq hI hb hrb la]
      · rw [add_ls_eq hI la]
  · split <;> rename_i tb
    · have lb := hb (Or.inl tb)
      split
      · split <;> rename_i ua
        · rw [add_ll_eq hI _ (ha (Or.inr ua)) lb]
        · rw [add_conv1_eq hq hI ha hra lb]
      · rw [add_ls_eq hI lb]
    · unfold add_s1s2 FF.add_s1s2
      rw [storeSum_eq hI]

/-- The one case where the routines differ: the first operand a negative short, the second long and normal. -/
theorem Fr_sub_eq (hq : Modulus q) (hI : RawAgree q I) (ha : Sized q (m a)) (hb : Sized q (m b))
    (hra : r = a → (m a).longVal.length = n64 q) (hrb : r = b → (m b).longVal.length = n64 q)
    (hn : (m a).long = false → (m b).long = true → (m b).mont = false → (m a).shortVal.toInt < 0 →
      I.negLS (m b).longVal (-(sx (m a).shortVal)) = rawNegLS q (r == b) (m b).longVal (-(sx (m a).shortVal))) :
    Fr_sub q I u m r a b = FF.Fr_sub q u m r a b := by
  unfold Fr_sub FF.Fr_sub
  split <;> rename_i ta
  · have la := ha (Or.inl ta)
    split <;> rename_i tb
    · have lb := hb (Or.inl tb)
      simp only [sub_ll_eq hI _ la lb, sub_conv1_eq hq hI ha hra lb, sub_conv2_eq hq hI hb hrb la]
    · split <;> rename_i ua
      · split <;> rename_i ub
        · rw [sub_ll_eq hI _ la (hb (Or.inr ub))]
        · rw [sub_conv2_eq hq hI hb hrb la]
      · unfold sub_l1ns2 FF.sub_l1ns2
        simp only [setTy_longVal, hI.addLS _ la, hI.subLS _ la]
  · split <;> rename_i tb
    · have lb := hb (Or.inl tb)
      split <;> rename_i ub
      · split <;> rename_i ua
        · rw [sub_ll_eq hI _ (ha (Or.inr ua)) lb]
        · rw [sub_conv1_eq hq hI ha hra lb]
      · unfold sub_s1l2n FF.sub_s1l2n
        simp only [setTy_longVal, setTy_shortVal]
        split <;> rename_i hs
        · rw [hI.subSL _ lb]
        · rw [hn (by simpa using ta) tb (by simpa using ub) (by omega)]
    · unfold sub_s1s2 FF.sub_s1s2
      rw [storeSum_eq hI]

theorem Fr_neg_eq (hI : RawAgree q I) (ha : Sized q (m a)) : Fr_neg q I m r a = FF.Fr_neg q m r a := by
  unfold Fr_neg FF.Fr_neg
  split <;> rename_i ta
  · simp only [setTy_longVal, setShort_longVal, hI.neg (ha (Or.inl ta))]
  · rw [storeSum_eq hI]

/-! ## Predicates -/

theorem half_length (q : Nat) : (half q).length = n64 q := by simp [half, constantElement]

theorem isTrue_eq (hI : RawAgree q I) (h : Sized q e) : Fr_isTrue I e = FF.Fr_isTrue e := by
  unfold Fr_isTrue FF.Fr_isTrue
  split <;> rename_i t
  · rw [hI.isZero (h (Or.inl t))]
  · rfl

theorem isTrueInline_eq (hI : RawAgree q I) (h : Sized q e) : isTrueInline I e = FF.isTrueInline e := by
  unfold isTrueInline FF.isTrueInline
  split <;> rename_i t
  · rw [hI.isZero (h (Or.inl t))]
  · rfl

theorem Fr_lor_eq (hI : RawAgree q I) (ha : Sized q (m a)) (hb : Sized q (m b)) : Fr_lor I m r a b = FF.Fr_lor m r a b := by
  unfold Fr_lor FF.Fr_lor
  rw [isTrueInline_eq hI ha, isTrueInline_eq hI hb]

theorem Fr_land_eq (hI : RawAgree q I) (ha : Sized q (m a)) (hb : Sized q (m b)) : Fr_land I m r a b = FF.Fr_land m r a b := by
  unfold Fr_land FF.Fr_land
  rw [isTrueInline_eq hI ha, isTrueInline_eq hI hb]

theorem Fr_lnot_eq (hI : RawAgree q I) (ha : Sized q (m a)) : Fr_lnot I m r a = FF.Fr_lnot m r a := by
  unfold Fr_lnot FF.Fr_lnot
  split <;> rename_i t
  · rw [hI.isZero (ha (Or.inl t))]
  · rfl

theorem rltL1L2_eq (hI : RawAgree q I) {a b : Limbs} (ha : a.length = n64 q) (hb : b.length = n64 q) :
    rltL1L2 q I a b = FF.rltL1L2 q a b := by
  unfold rltL1L2 FF.rltL1L2
  rw [hI.cmp hb ha, hI.cmp (half_length q) ha, hI.cmp (half_length q) hb]

theorem rgtL1L2_eq (hI : RawAgree q I) {a b : Limbs} (ha : a.length = n64 q) (hb : b.length = n64 q) :
    rgtL1L2 q I a b = FF.rgtL1L2 q a b := by
  unfold rgtL1L2 FF.rgtL1L2
  rw [hI.cmp hb ha, hI.cmp (half_length q) ha, hI.cmp (half_length q) hb]

theorem reqL1L2_eq (hI : RawAgree q I) {a b : Limbs} (ha : a.length = n64 q) (hb : b.length = n64 q) :
    reqL1L2 I a b = FF.reqL1L2 a b := by
  unfold reqL1L2 FF.reqL1L2
  rw [hI.cmp hb ha]

theorem Fr_rlt_eq (hq : Modulus q) (hI : RawAgree q I) {ea eb : Elem} (ha : Sized q ea) (hb : Sized q eb) :
    Fr_rlt q I u ea eb = FF.Fr_rlt q u ea eb := by
  unfold Fr_rlt FF.Fr_rlt
  simp only [toNormalInto_eq hI ha, toNormalInto_eq hI hb, toLongNormalInto_eq hI ha, toLongNormalInto_eq hI hb]
  have l1 := toLongNormalInto_len (u := u) hq ha
  have l2 := toLongNormalInto_len (u := u) hq hb
  split <;> rename_i ta
  · have n1 := toNormalInto_len (u := u) hq ha (Or.inl ta)
    split <;> rename_i tb
    · have n2 := toNormalInto_len (u := u) hq hb (Or.inl tb)
      simp only [rltL1L2_eq hI n1 n2, rltL1L2_eq hI n1 (hb (Or.inl tb)), rltL1L2_eq hI (ha (Or.inl ta)) n2,
        rltL1L2_eq hI (ha (Or.inl ta)) (hb (Or.inl tb))]
    · simp only [rltL1L2_eq hI n1 l2, rltL1L2_eq hI (ha (Or.inl ta)) l2]
  · split <;> rename_i tb
    · have n2 := toNormalInto_len (u := u) hq hb (Or.inl tb)
      simp only [rltL1L2_eq hI l1 n2, rltL1L2_eq hI l1 (hb (Or.inl tb))]
    · rfl

theorem Fr_rgt_eq (hq : Modulus q) (hI : RawAgree q I) {ea eb : Elem} (ha : Sized q ea) (hb : Sized q eb) :
    Fr_rgt q I u ea eb = FF.Fr_rgt q u ea eb := by
  unfold Fr_rgt FF.Fr_rgt
  simp only [toNormalInto_eq hI ha, toNormalInto_eq hI hb, toLongNormalInto_eq hI ha, toLongNormalInto_eq hI hb]
  have l1 := toLongNormalInto_len (u := u) hq ha
  have l2 := toLongNormalInto_len (u := u) hq hb
  split <;> rename_i ta
  · have n1 := toNormalInto_len (u := u) hq ha (Or.inl ta)
    split <;> rename_i tb
    · have n2 := toNormalInto_len (u := u) hq hb (Or.inl tb)
      simp only [rgtL1L2_eq hI n1 n2, rgtL1L2_eq hI n1 (hb (Or.inl tb)), rgtL1L2_eq hI (ha (Or.inl ta)) n2,
        rgtL1L2_eq hI (ha (Or.inl ta)) (hb (Or.inl tb))]
    · simp only [rgtL1L2_eq hI n1 l2, rgtL1L2_eq hI (ha (Or.inl ta)) l2]
  · split <;> rename_i tb
    · have n2 := toNormalInto_len (u := u) hq hb (Or.inl tb)
      simp only [rgtL1L2_eq hI l1 n2, rgtL1L2_eq hI l1 (hb (Or.inl tb))]
    · rfl

theorem Fr_req_eq (hq : Modulus q) (hI : RawAgree q I) {ea eb : Elem} (ha : Sized q ea) (hb : Sized q eb) :
    Fr_req q I u ea eb = FF.Fr_req q u ea eb := by
  unfold Fr_req FF.Fr_req
  simp only [toMontgomeryInto_eq hq hI ha, toMontgomeryInto_eq hq hI hb, toLongNormalInto_eq hI ha, toLongNormalInto_eq hI hb]
  have l1 := toLongNormalInto_len (u := u) hq ha
  have l2 := toLongNormalInto_len (u := u) hq hb
  have n1 := toMontgomeryInto_len (u := u) hq ha
  have n2 := toMontgomeryInto_len (u := u) hq hb
  split <;> rename_i ta
  · split <;> rename_i tb
    · simp only [reqL1L2_eq hI n1 (hb (Or.inl tb)), reqL1L2_eq hI (ha (Or.inl ta)) n2,
        reqL1L2_eq hI (ha (Or.inl ta)) (hb (Or.inl tb))]
    · simp only [reqL1L2_eq hI (ha (Or.inl ta)) n2, reqL1L2_eq hI (ha (Or.inl ta)) l2]
  · split <;> rename_i tb
    · simp only [reqL1L2_eq hI n1 (hb (Or.inl tb)), reqL1L2_eq hI l1 (hb (Or.inl tb))]
    · rfl

theorem cmp_eqs (hq : Modulus q) (hI : RawAgree q I) (ha : Sized q (m a)) (hb : Sized q (m b)) :
    Fr_lt q I u m r a b = FF.Fr_lt q u m r a b ∧ Fr_geq q I u m r a b = FF.Fr_geq q u m r a b ∧
    Fr_gt q I u m r a b = FF.Fr_gt q u m r a b ∧ Fr_leq q I u m r a b = FF.Fr_leq q u m r a b ∧
    Fr_eq q I u m r a b = FF.Fr_eq q u m r a b ∧ Fr_neq q I u m r a b = FF.Fr_neq q u m r a b := by
  unfold Fr_lt Fr_geq Fr_gt Fr_leq Fr_eq Fr_neq FF.Fr_lt FF.Fr_geq FF.Fr_gt FF.Fr_leq FF.Fr_eq FF.Fr_neq
  rw [Fr_rlt_eq hq hI ha hb, Fr_rgt_eq hq hI ha hb, Fr_req_eq hq hI ha hb]
  exact ⟨rfl, rfl, rfl, rfl, rfl, rfl⟩

theorem Fr_longNormal_eq (hI : RawAgree q I) (h : e.longVal.length = n64 q) : Fr_longNormal q I e = FF.Fr_longNormal q e := by
  have : Fr_longNeg q I e = FF.Fr_longNeg q e := by
    unfold Fr_longNeg FF.Fr_longNeg
    rw [hI.cmp h (rawq_length q)]
    rfl
  unfold Fr_longNormal FF.Fr_longNormal
  rw [this]

theorem Fr_toInt_eq (hq : Modulus q) (hI : RawAgree q I) (h : Sized q e) : Fr_toInt q I u e = FF.Fr_toInt q u e := by
  unfold Fr_toInt FF.Fr_toInt
  split <;> rename_i t
  · simp only [toNormalInto_eq hI h, Fr_longNormal_eq hI (toNormalInto_len hq h (Or.inl t)), Fr_longNormal_eq hI (h (Or.inl t))]
  · rfl

/-! ## Bitwise operations -/

theorem shortOperand_eq (hI : RawAgree q I) (h : Sized q e) : shortOperand q I u e = FF.shortOperand q u e := by
  unfold shortOperand FF.shortOperand
  rw [toLongNormalInto_eq hI h]

theorem shortOperand_len (hq : Modulus q) (h : Sized q e) : (FF.shortOperand q u e).length = n64 q := by
  unfold FF.shortOperand
  split
  · exact shortLimbs_length _ _
  · exact toLongNormalInto_len hq h

theorem Fr_bitop_eq (hq : Modulus q) (hI : RawAgree q I) {f f' : Limbs → Limbs → Limbs} {g : BitVec 32 → BitVec 32 → BitVec 32}
    (hf : ∀ {a b : Limbs}, a.length = n64 q → b.length = n64 q → f a b = f' a b) (ha : Sized q (m a)) (hb : Sized q (m b))
    (hra : r = a → (m a).longVal.length = n64 q) (hrb : r = b → (m b).longVal.length = n64 q) :
    Fr_bitop f g q I u m r a b = FF.Fr_bitop f' g q u m r a b := by
  unfold Fr_bitop FF.Fr_bitop
  have sa := ha.setTy hra true false
  have sb := hb.setTy hrb true false
  have l1 := toLongNormalInto_len (u := u) hq sa
  have l2 := toLongNormalInto_len (u := u) hq sb
  have o1 := shortOperand_len (u := u) hq sa
  have o2 := shortOperand_len (u := u) hq sb
  simp only [toNormalInto_eq hI sa, toNormalInto_eq hI sb, toLongNormalInto_eq hI sa, toLongNormalInto_eq hI sb,
    shortOperand_eq hI sa, shortOperand_eq hI sb, hf l1 l2]
  have tag : ∀ p, (m p).long = true → (m.setTy r true false p).long = true := by
    intro p hp
    by_cases h : p = r
    · subst h; simp
    · rw [setTy_other m true false h]; exact hp
  have len : ∀ p, (m p).longVal.length = n64 q → (m.setTy r true false p).longVal.length = n64 q := fun p hp => by rwa [setTy_longVal]
  split <;> rename_i ta
  · have n1 := toNormalInto_len (u := u) hq sa (Or.inl (tag _ ta))
    have p1 := len _ (ha (Or.inl ta))
    split <;> rename_i tb
    · have n2 := toNormalInto_len (u := u) hq sb (Or.inl (tag _ tb))
      have p2 := len _ (hb (Or.inl tb))
      simp only [hf n1 n2, hf n1 p2, hf p1 n2, hf p1 p2]
    · simp only [hf o2 n1, hf p1 o2]
  · split <;> rename_i tb
    · have n2 := toNormalInto_len (u := u) hq sb (Or.inl (tag _ tb))
      have p2 := len _ (hb (Or.inl tb))
      simp only [hf o1 n2, hf o1 p2]
    · rfl

theorem Fr_bnot_eq (hq : Modulus q) (hI : RawAgree q I) (ha : Sized q (m a)) (hra : r = a → (m a).longVal.length = n64 q) :
    Fr_bnot q I u m r a = FF.Fr_bnot q u m r a := by
  unfold Fr_bnot FF.Fr_bnot
  have sa := ha.setTy hra true false
  have l1 := toLongNormalInto_len (u := u) hq sa
  simp only [toNormalInto_eq hI sa, toLongNormalInto_eq hI sa, hI.not l1]
  split <;> rename_i t
  · have t : (m.setTy r true false a).long = true := by simp_all
    rw [hI.not (toNormalInto_len hq sa (Or.inl t)), hI.not (sa (Or.inl t))]
  · rfl

/-! ## Shifts -/

theorem stRawShl_eq (hI : RawAgree q I) (h1 : n64 q ≠ 1) {l : Limbs} (hl : l.length = n64 q) (w : BitVec 64) :
    FF.stRawShl q false l w = some (stRawShl q I l w) := by
  unfold stRawShl FF.stRawShl
  rw [hI.copy hl]
  split
  · rfl
  · split <;> rename_i h
    · rfl
    · rw [if_neg (by simp), hI.shl h1 hl (by have := bitLen_le_n64 q; omega)]

theorem stRawShr_eq (hI : RawAgree q I) {l : Limbs} (hl : l.length = n64 q) (w : BitVec 64) : stRawShr q I l w = FF.stRawShr q l w := by
  unfold stRawShr FF.stRawShr
  rw [hI.copy hl]
  split
  · rfl
  · split <;> rename_i h
    · rfl
    · rw [hI.shr hl (by have := bitLen_le_n64 q; omega)]

theorem do_shlcl_eq (hq : Modulus q) (hI : RawAgree q I) (h1 : n64 q ≠ 1) (ha : Sized q (m a)) (w : BitVec 64) :
    FF.do_shlcl q u m r a w = some (do_shlcl q I u m r a w) := by
  unfold do_shlcl FF.do_shlcl
  dsimp only
  rw [toLongNormalInto_eq hI ha, stRawShl_eq hI h1 (toLongNormalInto_len hq ha)]
  rfl

theorem do_shl_eq (hq : Modulus q) (hI : RawAgree q I) (h1 : n64 q ≠ 1) (ha : Sized q (m a)) (hr : r ≠ a) (w : BitVec 64) :
    FF.do_shl q u m r a w = some (do_shl q I u m r a w) := by
  unfold do_shl FF.do_shl
  rw [toNormalInto_eq hI ha, do_shlcl_eq hq hI h1 ha]
  split <;> rename_i t
  · simp only [setTy_longVal, beq_eq_false_iff_ne.mpr hr]
    rw [stRawShl_eq hI h1 (toNormalInto_len hq ha (Or.inl t)), stRawShl_eq hI h1 (ha (Or.inl t))]
    split <;> rfl
  · dsimp only
    split
    · rfl
    · split
      · rfl
      · split
        · rfl
        · split <;> rfl

theorem do_shrl_eq (hq : Modulus q) (hI : RawAgree q I) (h : Sized q e) (hl : e.long = true) (w : BitVec 64) :
    do_shrl q I u m r e w = FF.do_shrl q u m r e w := by
  unfold do_shrl FF.do_shrl
  dsimp only
  rw [toNormalInto_eq hI h, stRawShr_eq hI (toNormalInto_len hq h (Or.inl hl)), stRawShr_eq hI (h (Or.inl hl))]

theorem do_shr_eq (hq : Modulus q) (hI : RawAgree q I) (ha : Sized q (m a)) (w : BitVec 64) :
    do_shr q I u m r a w = FF.do_shr q u m r a w := by
  unfold do_shr FF.do_shr
  split <;> rename_i t
  · exact do_shrl_eq hq hI ha t w
  · have l := toLongNormalInto_len (u := u) hq ha
    dsimp only
    rw [toLongNormalInto_eq hI ha, do_shrl_eq hq hI (fun _ => l) (by unfold FF.toLongNormalInto; simp [t])]

theorem Fr_shr_long_eq (hq : Modulus q) (hI : RawAgree q I) (h1 : n64 q ≠ 1) (ha : Sized q (m a)) (hr : r ≠ a)
    (he : e.longVal.length = n64 q) : FF.Fr_shr_long q u m r a e = some (Fr_shr_long q I u m r a e) := by
  have l := (maxShift_val hq).1
  unfold Fr_shr_long FF.Fr_shr_long
  dsimp only
  rw [hI.cmp he l, hI.subRegular (rawq_length q) he, hI.cmp (by simp [rawSubRegular, mpn_sub_n, subNC_length]) l]
  simp only [do_shl_eq hq hI h1 ha hr, do_shr_eq hq hI ha, cmpGe, rawCmp]
  repeat' split
  all_goals first | rfl | simp_all

theorem Fr_shl_long_eq (hq : Modulus q) (hI : RawAgree q I) (h1 : n64 q ≠ 1) (ha : Sized q (m a)) (hr : r ≠ a)
    (he : e.longVal.length = n64 q) : FF.Fr_shl_long q u m r a e = some (Fr_shl_long q I u m r a e) := by
  have l := (maxShift_val hq).1
  unfold Fr_shl_long FF.Fr_shl_long
  dsimp only
  rw [hI.cmp he l, hI.subRegular (rawq_length q) he, hI.cmp (by simp [rawSubRegular, mpn_sub_n, subNC_length]) l]
  simp only [do_shl_eq hq hI h1 ha hr, do_shr_eq hq hI ha, cmpGe, rawCmp]
  repeat' split
  all_goals first | rfl | simp_all

theorem Fr_shr_eq (hq : Modulus q) (hI : RawAgree q I) (h1 : n64 q ≠ 1) (ha : Sized q (m a)) (hb : Sized q (m b)) (hr : r ≠ a) :
    FF.Fr_shr q u m r a b = some (Fr_shr q I u m r a b) := by
  unfold Fr_shr FF.Fr_shr
  split <;> rename_i t
  · rw [toNormalInto_eq hI hb, Fr_shr_long_eq hq hI h1 ha hr (toNormalInto_len hq hb (Or.inl t)),
      Fr_shr_long_eq hq hI h1 ha hr (hb (Or.inl t))]
    split <;> rfl
  · simp only [do_shl_eq hq hI h1 ha hr, do_shr_eq hq hI ha]
    split
    · split <;> rfl
    · split <;> rfl

theorem Fr_shl_eq (hq : Modulus q) (hI : RawAgree q I) (h1 : n64 q ≠ 1) (ha : Sized q (m a)) (hb : Sized q (m b)) (hr : r ≠ a) :
    FF.Fr_shl q u m r a b = some (Fr_shl q I u m r a b) := by
  unfold Fr_shl FF.Fr_shl
  split <;> rename_i t
  · rw [toNormalInto_eq hI hb, Fr_shl_long_eq hq hI h1 ha hr (toNormalInto_len hq hb (Or.inl t)),
      Fr_shl_long_eq hq hI h1 ha hr (hb (Or.inl t))]
    split <;> rfl
  · simp only [do_shl_eq hq hI h1 ha hr, do_shr_eq hq hI ha]
    split
    · split <;> rfl
    · split <;> rfl

/-! The result of a shift depends only on the operands and on the old result, so a result over the first operand is that of a shift
whose first operand is a copy elsewhere. -/

theorem do_shl_congr {m m' : Mem} {a' : Nat} (h1 : m r = m' r) (h2 : m a = m' a') (w : BitVec 64) :
    do_shl q I u m r a w r = do_shl q I u m' r a' w r := by
  unfold do_shl do_shlcl
  rw [h2]
  simp only [setTy_longVal, h2]
  repeat' split
  all_goals simp [Mem.setLong, Mem.setTy, Mem.setShort, Fr_setzero, Mem.set, h1]

theorem do_shr_congr {m m' : Mem} {a' : Nat} (h1 : m r = m' r) (h2 : m a = m' a') (w : BitVec 64) :
    do_shr q I u m r a w r = do_shr q I u m' r a' w r := by
  unfold do_shr do_shrl
  rw [h2]
  dsimp only
  repeat' split
  all_goals simp [Mem.setLong, Mem.setTy, Mem.setShort, Fr_setzero, Mem.set, h1]

theorem setzero_congr {m m' : Mem} (h1 : m r = m' r) : Fr_setzero m r r = Fr_setzero m' r r := by
  simp [Mem.setTy, Mem.setShort, Fr_setzero, Mem.set, h1]

theorem Fr_shl_congr {m m' : Mem} {a' b' : Nat} (h1 : m r = m' r) (h2 : m a = m' a') (h3 : m b = m' b') :
    Fr_shl q I u m r a b r = Fr_shl q I u m' r a' b' r := by
  unfold Fr_shl Fr_shl_long
  rw [h3]
  dsimp only
  repeat' split
  all_goals first | exact do_shl_congr h1 h2 _ | exact do_shr_congr h1 h2 _ | exact setzero_congr h1

theorem Fr_shr_congr {m m' : Mem} {a' b' : Nat} (h1 : m r = m' r) (h2 : m a = m' a') (h3 : m b = m' b') :
    Fr_shr q I u m r a b r = Fr_shr q I u m' r a' b' r := by
  unfold Fr_shr Fr_shr_long
  rw [h3]
  dsimp only
  repeat' split
  all_goals first | exact do_shl_congr h1 h2 _ | exact do_shr_congr h1 h2 _ | exact setzero_congr h1

theorem do_shl_other (w : BitVec 64) (h : p ≠ r) : do_shl q I u m r a w p = m p := by
  unfold do_shl do_shlcl
  dsimp only
  repeat' split
  all_goals simp [Mem.setLong, Mem.setTy, Mem.setShort, Fr_setzero, Mem.set, h]

theorem do_shr_other (w : BitVec 64) (h : p ≠ r) : do_shr q I u m r a w p = m p := by
  unfold do_shr do_shrl
  dsimp only
  repeat' split
  all_goals simp [Mem.setLong, Mem.setTy, Mem.setShort, Fr_setzero, Mem.set, h]

theorem Fr_shl_other (h : p ≠ r) : Fr_shl q I u m r a b p = m p := by
  unfold Fr_shl Fr_shl_long
  dsimp only
  repeat' split
  all_goals simp [do_shl_other, do_shr_other, Fr_setzero_other, h]

theorem Fr_shr_other (h : p ≠ r) : Fr_shr q I u m r a b p = m p := by
  unfold Fr_shr Fr_shr_long
  dsimp only
  repeat' split
  all_goals simp [do_shl_other, do_shr_other, Fr_setzero_other, h]

theorem Fr_shl_rep (hq : Modulus q) (hI : RawAgree q I) (h1 : n64 q ≠ 1) (ha : Rep q (m a) x) (hb : Rep q (m b) y) :
    Rep q (Fr_shl q I u m r a b r) (shlSpec x y) := by
  let f := r + a + b + 1
  let m' : Mem := m.set f (m a)
  have e1 : m r = m' r := (set_other m _ (by omega)).symm
  have e2 : m a = m' f := (set_same m f (m a)).symm
  have e3 : m b = m' b := (set_other m _ (by omega)).symm
  rw [Fr_shl_congr e1 e2 e3]
  rw [e2] at ha
  rw [e3] at hb
  have hr : r ≠ f := by omega
  obtain ⟨m2, h2, h3, -⟩ := FF.Fr_shl_rep (u := u) (r := r) hq ha hb (fun e => absurd e hr)
  rw [Fr_shl_eq hq hI h1 ha.sized.1 hb.sized.1 hr] at h2
  cases h2
  exact h3

theorem Fr_shr_rep (hq : Modulus q) (hI : RawAgree q I) (h1 : n64 q ≠ 1) (ha : Rep q (m a) x) (hb : Rep q (m b) y) :
    Rep q (Fr_shr q I u m r a b r) (shrSpec x y) := by
  let f := r + a + b + 1
  let m' : Mem := m.set f (m a)
  have e1 : m r = m' r := (set_other m _ (by omega)).symm
  have e2 : m a = m' f := (set_same m f (m a)).symm
  have e3 : m b = m' b := (set_other m _ (by omega)).symm
  rw [Fr_shr_congr e1 e2 e3]
  rw [e2] at ha
  rw [e3] at hb
  have hr : r ≠ f := by omega
  obtain ⟨m2, h2, h3, -⟩ := FF.Fr_shr_rep (u := u) (r := r) hq ha hb (fun e => absurd e hr)
  rw [Fr_shr_eq hq hI h1 ha.sized.1 hb.sized.1 hr] at h2
  cases h2
  exact h3

end Over

end FF
