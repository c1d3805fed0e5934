import Verif.LRep

/-!
# Helper lemmas for the tagged layer
-/

namespace FF

section mem
variable (m : Mem) (r x : Nat) (l t : Bool) (L : Limbs) (v : BitVec 32) (e : Elem)

@[simp] theorem set_same : (m.set r e) r = e := by simp [Mem.set]
theorem set_other {r x : Nat} (h : x ≠ r) : (m.set r e) x = m x := by simp [Mem.set, h]

@[simp] theorem setTy_longVal : ((m.setTy r l t) x).longVal = (m x).longVal := by
  by_cases h : x = r
  · subst h; simp [Mem.setTy]
  · simp [Mem.setTy, Mem.set, h]
@[simp] theorem setTy_shortVal : ((m.setTy r l t) x).shortVal = (m x).shortVal := by
  by_cases h : x = r
  · subst h; simp [Mem.setTy]
  · simp [Mem.setTy, Mem.set, h]
@[simp] theorem setTy_long : ((m.setTy r l t) r).long = l := by simp [Mem.setTy]
@[simp] theorem setTy_mont : ((m.setTy r l t) r).mont = t := by simp [Mem.setTy]
theorem setTy_other {r x : Nat} (h : x ≠ r) : (m.setTy r l t) x = m x := by simp [Mem.setTy, Mem.set, h]

@[simp] theorem setShort_longVal : ((m.setShort r v) x).longVal = (m x).longVal := by
  by_cases h : x = r
  · subst h; simp [Mem.setShort]
  · simp [Mem.setShort, Mem.set, h]
@[simp] theorem setShort_shortVal : ((m.setShort r v) r).shortVal = v := by simp [Mem.setShort]
@[simp] theorem setShort_long : ((m.setShort r v) x).long = (m x).long := by
  by_cases h : x = r
  · subst h; simp [Mem.setShort]
  · simp [Mem.setShort, Mem.set, h]
@[simp] theorem setShort_mont : ((m.setShort r v) x).mont = (m x).mont := by
  by_cases h : x = r
  · subst h; simp [Mem.setShort]
  · simp [Mem.setShort, Mem.set, h]
theorem setShort_other {r x : Nat} (h : x ≠ r) : (m.setShort r v) x = m x := by simp [Mem.setShort, Mem.set, h]

@[simp] theorem setLong_longVal : ((m.setLong r L) r).longVal = L := by simp [Mem.setLong]
@[simp] theorem setLong_shortVal : ((m.setLong r L) x).shortVal = (m x).shortVal := by
  by_cases h : x = r
  · subst h; simp [Mem.setLong]
  · simp [Mem.setLong, Mem.set, h]
@[simp] theorem setLong_long : ((m.setLong r L) x).long = (m x).long := by
  by_cases h : x = r
  · subst h; simp [Mem.setLong]
  · simp [Mem.setLong, Mem.set, h]
@[simp] theorem setLong_mont : ((m.setLong r L) x).mont = (m x).mont := by
  by_cases h : x = r
  · subst h; simp [Mem.setLong]
  · simp [Mem.setLong, Mem.set, h]
theorem setLong_other {r x : Nat} (h : x ≠ r) : (m.setLong r L) x = m x := by simp [Mem.setLong, Mem.set, h]

end mem

/-! ## Introduction and elimination of `Rep` -/

section rep
variable {q : Nat} {e : Elem} {x : ZMod q}

theorem Rep.long (h1 : e.long = true) (h2 : e.mont = false) (h : LRep q e.longVal x) : Rep q e x := by
  simp only [Rep, h1, h2]; exact h
theorem Rep.longMont (h1 : e.long = true) (h2 : e.mont = true) (h : LRep q e.longVal (x * R q)) : Rep q e x := by
  simp only [Rep, h1, h2]; exact h
theorem Rep.short (h1 : e.long = false) (h2 : e.mont = false)
    (h : ((e.shortVal.toInt : ℤ) : ZMod q) = x) : Rep q e x := by
  simp only [Rep, h1, h2]; exact h

theorem Rep.getLong (h : Rep q e x) (h1 : e.long = true) (h2 : e.mont = false) : LRep q e.longVal x := by
  simp only [Rep, h1, h2] at h; exact h
theorem Rep.getMont (h : Rep q e x) (h2 : e.mont = true) : LRep q e.longVal (x * R q) := by
  cases h1 : e.long <;> simp only [Rep, h1, h2] at h
  · exact h.2
  · exact h
theorem Rep.getShort (h : Rep q e x) (h1 : e.long = false) : ((e.shortVal.toInt : ℤ) : ZMod q) = x := by
  cases h2 : e.mont <;> simp only [Rep, h1, h2] at h
  · exact h
  · exact h.1

/-- A tagged element stands for at most one residue. -/
theorem Rep.unique (hq : Modulus q) {y : ZMod q} (h : Rep q e x) (h' : Rep q e y) : x = y := by
  cases h1 : e.long
  · exact (h.getShort h1).symm.trans (h'.getShort h1)
  · cases h2 : e.mont
    · exact (h.getLong h1 h2).2.2.symm.trans (h'.getLong h1 h2).2.2
    · exact R_cancel hq.odd ((h.getMont h2).2.2.symm.trans (h'.getMont h2).2.2)

theorem toMontgomeryInto_rep (hq : Modulus q) (u : Elem) (h : Rep q e x) :
    LRep q (toMontgomeryInto q u e).longVal (x * R q) := by
  unfold toMontgomeryInto
  split
  · rename_i h2; exact h.getMont h2
  · rename_i h2
    have h2 : e.mont = false := by simpa using h2
    split
    · rename_i h1
      exact LRep.mmul' hq.odd (h.getLong h1 h2) (LRep.R2 hq.pos) (by ring)
    · rename_i h1
      have h1 : e.long = false := by simpa using h1
      have hs := h.getShort h1
      split
      · rename_i hn
        have := (LRep.mmul1 hq.odd (w := -(sx e.shortVal)) (z := -(x * R q)) (LRep.R2 hq.pos)
          (by rw [neg_sx_cast hn, hs]; ring)).neg
        rwa [neg_neg] at this
      · rename_i hn
        exact LRep.mmul1 hq.odd (LRep.R2 hq.pos) (by rw [sx_cast (by omega), hs]; ring)

theorem toNormalInto_rep (hq : Modulus q) (u : Elem) (h : Rep q e x) (h1 : e.long = true) :
    LRep q (toNormalInto q u e).longVal x := by
  unfold toNormalInto
  cases h2 : e.mont
  · simp only [h1, Bool.true_and, Bool.false_eq_true, if_false]; exact h.getLong h1 h2
  · simp only [h1, Bool.true_and, if_true]; exact LRep.fromMont hq.odd (h.getMont h2)

theorem short_rep (hq : Modulus q) (v : BitVec 32) : LRep q (rawCopyS2L q (sx v)) ((v.toInt : ℤ) : ZMod q) := by
  have hg := hq.gt; have hb := short_bounds v
  have := LRep.copyS2L (q := q) (v := sx v) (by rw [sx_toInt]; omega)
  rwa [sx_toInt] at this

theorem toLongNormalInto_rep (hq : Modulus q) (u : Elem) (h : Rep q e x) :
    LRep q (toLongNormalInto q u e).longVal x := by
  unfold toLongNormalInto
  cases h1 : e.long
  · simp only [Bool.false_eq_true, if_false]
    rw [← h.getShort h1]; exact short_rep hq _
  · cases h2 : e.mont
    · simp only [if_true, Bool.false_eq_true, if_false]; exact h.getLong h1 h2
    · simp only [if_true]; exact LRep.fromMont hq.odd (h.getMont h2)

end rep

/-! ## Statement-by-statement versions agree with the value versions, whatever coincides -/

theorem mem_ext {m m' : Mem} (h : ∀ x, m x = m' x) : m = m' := funext h

theorem Fr_toNormal_eq (q : Nat) (m : Mem) (r a : Nat) :
    Fr_toNormal q m r a = m.set r (toNormalInto q (m r) (m a)) := by
  apply mem_ext; intro x
  unfold Fr_toNormal toNormalInto Fr_copy
  by_cases hx : x = r
  · subst hx
    split <;> simp [Mem.setTy, Mem.setLong, Mem.set]
    split <;> simp_all
  · split <;> simp [Mem.setTy, Mem.setLong, Mem.set, hx]

theorem Fr_toLongNormal_eq (q : Nat) (m : Mem) (r a : Nat) :
    Fr_toLongNormal q m r a = m.set r (toLongNormalInto q (m r) (m a)) := by
  apply mem_ext; intro x
  unfold Fr_toLongNormal toLongNormalInto Fr_copy
  by_cases hx : x = r
  · subst hx
    split
    · split <;> simp [Mem.setTy, Mem.setLong, Mem.set]
    · simp [Mem.setTy, Mem.setLong, Mem.setShort, Mem.set]
  · split
    · split <;> simp [Mem.setTy, Mem.setLong, Mem.set, hx]
    · simp [Mem.setTy, Mem.setLong, Mem.setShort, Mem.set, hx]

theorem Fr_toMontgomery_eq (q : Nat) (m : Mem) (r a : Nat) :
    Fr_toMontgomery q m r a = m.set r (toMontgomeryInto q (m r) (m a)) := by
  apply mem_ext; intro x
  unfold Fr_toMontgomery toMontgomeryInto Fr_copy
  by_cases hx : x = r
  · subst hx
    by_cases hm : (m a).mont = true
    · simp [hm]
    · by_cases hl : (m a).long = true
      · by_cases ha : a = x
        · subst ha; simp [hm, hl, Mem.setTy, Mem.setLong, Mem.setShort, Mem.set]
        · simp [hm, hl, Mem.setTy, Mem.setLong, Mem.setShort, Mem.set, ha]
      · by_cases hs : (m a).shortVal.toInt < 0
        · simp [hm, hl, hs, Mem.setTy, Mem.setLong, Mem.set]
        · simp [hm, hl, hs, Mem.setTy, Mem.setLong, Mem.set]
  · split
    · simp [Mem.set, hx]
    · split
      · simp [Mem.setTy, Mem.setLong, Mem.setShort, Mem.set, hx]
      · split <;> simp [Mem.setTy, Mem.setLong, Mem.set, hx]

/-! ## Short results -/

theorem storeS2L_rep {q : Nat} {m : Mem} {r : Nat} {v : BitVec 64} (hv : v.toInt.natAbs < q) :
    Rep q (storeS2L q m r v r) ((v.toInt : ℤ) : ZMod q) := by
  apply Rep.long (by simp [storeS2L]) (by simp [storeS2L])
  simpa [storeS2L] using LRep.copyS2L hv

theorem storeS2L_other {q : Nat} {m : Mem} {r p : Nat} {v : BitVec 64} (h : p ≠ r) : storeS2L q m r v p = m p := by
  simp [storeS2L, setTy_other, setLong_other, setShort_other, h]

theorem storeSum_rep {q : Nat} (hq : Modulus q) {m : Mem} {r : Nat} {v : BitVec 64} (h1 : -4294967296 ≤ v.toInt) (h2 : v.toInt < 4294967296) :
    Rep q (storeSum q m r v r) ((v.toInt : ℤ) : ZMod q) := by
  have hg := hq.gt
  unfold storeSum
  rw [hasAdd32_eq h1 h2]
  by_cases h : -2147483648 ≤ v.toInt ∧ v.toInt < 2147483648
  · simp only [h, and_self, decide_true, Bool.not_true, Bool.false_eq_true, if_false]
    apply Rep.short (by simp) (by simp)
    rw [setShort_shortVal, truncate32_toInt h.1 h.2]
  · simp only [h, decide_false, Bool.not_false, if_true]
    exact storeS2L_rep (by omega)

theorem storeSum_other {q : Nat} {m : Mem} {r p : Nat} {v : BitVec 64} (h : p ≠ r) : storeSum q m r v p = m p := by
  unfold storeSum
  split
  · exact storeS2L_other h
  · simp [setTy_other, setShort_other, h]

theorem storeBool_rep {q : Nat} {m : Mem} {r : Nat} {v : Bool} :
    Rep q (storeBool m r v r) (bit (v = true)) := by
  apply Rep.short (by simp [storeBool]) (by simp [storeBool])
  cases v <;> simp [storeBool, bit]

theorem storeBool_other {m : Mem} {r p : Nat} {v : Bool} (h : p ≠ r) : storeBool m r v p = m p := by
  simp [storeBool, setTy_other, setShort_other, h]

end FF
