import Verif.TaggedProof

/-!
# Ring operations of the tagged layer: helper lemmas
-/

namespace FF

variable {q : Nat} {m : Mem} {r a b p : Nat} {x y : ZMod q} {u : Elem}

theorem tag_false {c : Bool} (h : ¬ c = true) : c = false := by simpa using h

theorem exists_div_R (h : q % 2 = 1) (z : ZMod q) : ∃ w, w * R q = z := by
  obtain ⟨v, hv⟩ := R_isUnit h
  exact ⟨z * ↑v⁻¹, by rw [← hv, mul_assoc]; simp⟩

/-! ## Multiplication -/

theorem mul_ll_rep (hq : Modulus q) {mont : Bool} {s t : ZMod q} (ha : LRep q (m a).longVal s)
    (hb : LRep q (m b).longVal t) (h : (if mont then x * R q else x) * R q = s * t) :
    Rep q (mul_ll q mont m r a b r) x := by
  cases mont
  · apply Rep.long (by simp [mul_ll]) (by simp [mul_ll])
    simpa [mul_ll] using LRep.mmul' hq.odd ha hb h
  · apply Rep.longMont (by simp [mul_ll]) (by simp [mul_ll])
    simpa [mul_ll] using LRep.mmul' hq.odd ha hb h

theorem mul_ls_rep (hq : Modulus q) {mont : Bool} {l s : Nat} {t z : ZMod q} (hl : LRep q (m l).longVal t)
    (h : z * R q = t * (((m s).shortVal.toInt : ℤ) : ZMod q)) : LRep q (mul_ls q mont m r l s r).longVal z := by
  unfold mul_ls
  simp only [setTy_shortVal, setTy_longVal, setLong_longVal]
  split
  · rename_i hn
    have := (LRep.mmul1 hq.odd (w := -(sx (m s).shortVal)) (z := -z) hl
      (by rw [neg_sx_cast hn]; linear_combination -h)).neg
    rw [neg_neg] at this
    simpa using this
  · rename_i hn
    simpa using LRep.mmul1 hq.odd (w := sx (m s).shortVal) (z := z) hl (by rw [sx_cast (by omega), h])

theorem mul_ls_tags {mont : Bool} {l s : Nat} :
    (mul_ls q mont m r l s r).long = true ∧ (mul_ls q mont m r l s r).mont = mont := by
  unfold mul_ls
  dsimp only
  split <;> simp

theorem mul_s1s2_rep (hq : Modulus q) (hx : (((m a).shortVal.toInt : ℤ) : ZMod q) = x)
    (hy : (((m b).shortVal.toInt : ℤ) : ZMod q) = y) : Rep q (mul_s1s2 q m r a b r) (x * y) := by
  have hb := short_mul_bounds (m a).shortVal (m b).shortVal
  have hg := hq.gt
  have e := sx_mul_toInt (m a).shortVal (m b).shortVal
  rw [← hx, ← hy, ← Int.cast_mul, ← e]
  unfold mul_s1s2
  dsimp only
  split <;> exact storeS2L_rep (by rw [e]; omega)

theorem Fr_mul_rep (hq : Modulus q) (ha : Rep q (m a) x) (hb : Rep q (m b) y) :
    Rep q (Fr_mul q m r a b r) (x * y) := by
  have hR3 := LRep.R3 hq.pos
  unfold Fr_mul
  split <;> rename_i ta
  · split <;> rename_i tb
    · split <;> rename_i ua
      · split <;> rename_i ub
        · exact mul_ll_rep hq (ha.getMont ua) (hb.getMont ub) (by simp; ring)
        · exact mul_ll_rep hq (ha.getMont ua) (hb.getLong tb (tag_false ub)) (by simp; ring)
      · split <;> rename_i ub
        · exact mul_ll_rep hq (ha.getLong ta (tag_false ua)) (hb.getMont ub) (by simp; ring)
        · apply Rep.longMont (by simp [mul_l1nl2n]) (by simp [mul_l1nl2n])
          obtain ⟨w, hw⟩ := exists_div_R hq.odd (x * y)
          have h1 := LRep.mmul' hq.odd (ha.getLong ta (tag_false ua)) (hb.getLong tb (tag_false ub)) hw
          simpa [mul_l1nl2n] using LRep.mmul' hq.odd h1 hR3 (z := x * y * R q) (by rw [← hw]; ring)
    · have tb := tag_false tb
      split <;> rename_i ua
      · split <;> rename_i ub
        · exact mul_ll_rep hq (ha.getMont ua) (hb.getMont ub) (by simp; ring)
        · refine Rep.long mul_ls_tags.1 mul_ls_tags.2 (mul_ls_rep hq (ha.getMont ua) ?_)
          rw [hb.getShort tb]; ring
      · split <;> rename_i ub
        · exact mul_ll_rep hq (ha.getLong ta (tag_false ua)) (hb.getMont ub) (by simp; ring)
        · obtain ⟨w, hw⟩ := exists_div_R hq.odd (x * y)
          have h1 := mul_ls_rep (r := r) (mont := true) (s := b) hq (ha.getLong ta (tag_false ua)) (z := w)
            (by rw [hb.getShort tb, hw])
          apply Rep.longMont (by simp [mul_l1ns2n, mul_ls_tags.1]) (by simp [mul_l1ns2n, mul_ls_tags.2])
          simpa [mul_l1ns2n] using LRep.mmul' hq.odd h1 hR3 (z := x * y * R q) (by rw [← hw]; ring)
  · have ta := tag_false ta
    split <;> rename_i tb
    · split <;> rename_i ua
      · split <;> rename_i ub
        · exact mul_ll_rep hq (ha.getMont ua) (hb.getMont ub) (by simp; ring)
        · exact mul_ll_rep hq (ha.getMont ua) (hb.getLong tb (tag_false ub)) (by simp; ring)
      · split <;> rename_i ub
        · refine Rep.long mul_ls_tags.1 mul_ls_tags.2 (mul_ls_rep hq (hb.getMont ub) ?_)
          rw [ha.getShort ta]; ring
        · obtain ⟨w, hw⟩ := exists_div_R hq.odd (x * y)
          have h1 := mul_ls_rep (r := r) (mont := true) (s := a) hq (hb.getLong tb (tag_false ub)) (z := w)
            (by rw [ha.getShort ta, hw]; ring)
          apply Rep.longMont (by simp [mul_s1nl2n, mul_ls_tags.1]) (by simp [mul_s1nl2n, mul_ls_tags.2])
          simpa [mul_s1nl2n] using LRep.mmul' hq.odd h1 hR3 (z := x * y * R q) (by rw [← hw]; ring)
    · exact mul_s1s2_rep hq (ha.getShort ta) (hb.getShort (tag_false tb))

theorem mul_ls_other {mont : Bool} {l s : Nat} (h : p ≠ r) : mul_ls q mont m r l s p = m p := by
  unfold mul_ls
  dsimp only
  split <;> simp [setTy_other, setLong_other, h]

theorem Fr_mul_other (h : p ≠ r) : Fr_mul q m r a b p = m p := by
  unfold Fr_mul
  repeat' split
  all_goals
    simp [mul_ll, mul_l1nl2n, mul_l1ms2n, mul_l1ns2n, mul_s1nl2m, mul_s1nl2n, mul_s1s2, mul_ls_other, setTy_other,
      setLong_other, h]
  split <;> simp [storeS2L_other, setTy_other, setShort_other, h]

theorem rawMSquare_eq (a : Limbs) : rawMSquare q a = rawMMul q a a := rfl

theorem Fr_square_rep (hq : Modulus q) (ha : Rep q (m a) x) : Rep q (Fr_square q m r a r) (x * x) := by
  have := Fr_mul_rep (r := r) hq ha ha
  unfold Fr_square
  unfold Fr_mul at this
  cases ta : (m a).long <;> cases ua : (m a).mont <;>
    simp_all [mul_ll, mul_l1nl2n, mul_s1s2, rawMSquare_eq]

theorem Fr_square_other (h : p ≠ r) : Fr_square q m r a p = m p := by
  unfold Fr_square
  dsimp only
  repeat' split
  all_goals simp [storeS2L_other, setTy_other, setLong_other, setShort_other, h]

/-! ## Addition and subtraction -/

theorem store_rep {L : Limbs} {m' : Mem} {mont : Bool} (h1 : (m' r).long = true) (h2 : (m' r).mont = mont)
    (h : LRep q L (if mont then x * R q else x)) : Rep q (m'.setLong r L r) x := by
  cases mont
  · exact Rep.long (by simpa using h1) (by simpa using h2) (by simpa using h)
  · exact Rep.longMont (by simpa using h1) (by simpa using h2) (by simpa using h)

theorem Fr_add_rep (hq : Modulus q) (ha : Rep q (m a) x) (hb : Rep q (m b) y)
    (h1 : r = a → ¬ ((m a).mont = false ∧ (m b).long = true ∧ (m b).mont = true))
    (h2 : r = b → ¬ ((m b).mont = false ∧ (m a).long = true ∧ (m a).mont = true)) :
    Rep q (Fr_add q u m r a b r) (x + y) := by
  have conv1 : (m a).mont = false → (m b).long = true → (m b).mont = true → Rep q (add_conv1 q u m r a b r) (x + y) := by
    intro e1 e2 e3
    have hne : a ≠ r := fun e => h1 e.symm ⟨e1, e2, e3⟩
    apply store_rep (mont := true) (by simp) (by simp)
    rw [setTy_longVal, setTy_other _ _ _ hne]
    exact ((toMontgomeryInto_rep hq u ha).add (hb.getMont e3)).congr (by simp; ring)
  have conv2 : (m b).mont = false → (m a).long = true → (m a).mont = true → Rep q (add_conv2 q u m r a b r) (x + y) := by
    intro e1 e2 e3
    have hne : b ≠ r := fun e => h2 e.symm ⟨e1, e2, e3⟩
    apply store_rep (mont := true) (by simp) (by simp)
    rw [setTy_longVal, setTy_other _ _ _ hne]
    exact ((ha.getMont e3).add (toMontgomeryInto_rep hq u hb)).congr (by simp; ring)
  have ls : ∀ {l s : Nat} {t z : ZMod q}, LRep q (m l).longVal t → (((m s).shortVal.toInt : ℤ) : ZMod q) = z →
      Rep q (add_ls q m r l s r) (t + z) := by
    intro l s t z e1 e2
    unfold add_ls
    simp only [setTy_shortVal, setTy_longVal]
    split <;> rename_i hn <;> apply store_rep (mont := false) (by simp) (by simp)
    · exact (e1.addLS (sx_lt hq hn)).congr (by rw [sx_cast hn, e2]; simp)
    · have hn : (m s).shortVal.toInt < 0 := by omega
      exact (e1.subLS (neg_sx_lt hq hn)).congr (by rw [neg_sx_cast hn, e2]; simp)
  have ll : ∀ {mont : Bool} {s t : ZMod q}, LRep q (m a).longVal s → LRep q (m b).longVal t →
      (if mont then (x + y) * R q else x + y) = s + t → Rep q (add_ll q mont m r a b r) (x + y) := by
    intro mont s t e1 e2 e3
    apply store_rep (mont := mont) (by simp) (by simp)
    rw [setTy_longVal, setTy_longVal, e3]; exact e1.add e2
  unfold Fr_add
  split <;> rename_i ta
  · split <;> rename_i tb
    · split <;> rename_i ua
      · split <;> rename_i ub
        · exact ll (ha.getMont ua) (hb.getMont ub) (by simp; ring)
        · exact conv2 (tag_false ub) ta ua
      · split <;> rename_i ub
        · exact conv1 (tag_false ua) tb ub
        · exact ll (ha.getLong ta (tag_false ua)) (hb.getLong tb (tag_false ub)) (by simp)
    · have tb := tag_false tb
      split <;> rename_i ua
      · split <;> rename_i ub
        · exact ll (ha.getMont ua) (hb.getMont ub) (by simp; ring)
        · exact conv2 (tag_false ub) ta ua
      · exact ls (ha.getLong ta (tag_false ua)) (hb.getShort tb)
  · have ta := tag_false ta
    split <;> rename_i tb
    · split <;> rename_i ub
      · split <;> rename_i ua
        · exact ll (ha.getMont ua) (hb.getMont ub) (by simp; ring)
        · exact conv1 (tag_false ua) tb ub
      · rw [add_comm]; exact ls (hb.getLong tb (tag_false ub)) (ha.getShort ta)
    · rw [← ha.getShort ta, ← hb.getShort (tag_false tb), ← Int.cast_add, ← sx_add_toInt]
      have := short_bounds (m a).shortVal; have := short_bounds (m b).shortVal
      have e := sx_add_toInt (m a).shortVal (m b).shortVal
      exact storeSum_rep hq (by omega) (by omega)

theorem Fr_add_other (h : p ≠ r) : Fr_add q u m r a b p = m p := by
  unfold Fr_add
  repeat' split
  all_goals simp [add_ll, add_conv1, add_conv2, add_ls, add_s1s2, storeSum_other, setTy_other, setLong_other, h]
  all_goals split <;> simp [setTy_other, setLong_other, h]

theorem Fr_sub_rep (hq : Modulus q) (ha : Rep q (m a) x) (hb : Rep q (m b) y)
    (h1 : r = a → ¬ ((m a).mont = false ∧ (m b).long = true ∧ (m b).mont = true))
    (h2 : r = b → ¬ ((m b).mont = false ∧ (m a).long = true ∧ (m a).mont = true))
    (h3 : r = b → ¬ ((m a).long = false ∧ (m a).shortVal.toInt < 0 ∧ (m b).long = true ∧ (m b).mont = false)) :
    Rep q (Fr_sub q u m r a b r) (x - y) := by
  have conv1 : (m a).mont = false → (m b).long = true → (m b).mont = true → Rep q (sub_conv1 q u m r a b r) (x - y) := by
    intro e1 e2 e3
    have hne : a ≠ r := fun e => h1 e.symm ⟨e1, e2, e3⟩
    apply store_rep (mont := true) (by simp) (by simp)
    rw [setTy_longVal, setTy_other _ _ _ hne]
    exact ((toMontgomeryInto_rep hq u ha).sub (hb.getMont e3)).congr (by simp; ring)
  have conv2 : (m b).mont = false → (m a).long = true → (m a).mont = true → Rep q (sub_conv2 q u m r a b r) (x - y) := by
    intro e1 e2 e3
    have hne : b ≠ r := fun e => h2 e.symm ⟨e1, e2, e3⟩
    apply store_rep (mont := true) (by simp) (by simp)
    rw [setTy_longVal, setTy_other _ _ _ hne]
    exact ((ha.getMont e3).sub (toMontgomeryInto_rep hq u hb)).congr (by simp; ring)
  have ll : ∀ {mont : Bool} {s t : ZMod q}, LRep q (m a).longVal s → LRep q (m b).longVal t →
      (if mont then (x - y) * R q else x - y) = s - t → Rep q (sub_ll q mont m r a b r) (x - y) := by
    intro mont s t e1 e2 e3
    apply store_rep (mont := mont) (by simp) (by simp)
    rw [setTy_longVal, setTy_longVal, e3]; exact e1.sub e2
  unfold Fr_sub
  split <;> rename_i ta
  · split <;> rename_i tb
    · split <;> rename_i ua
      · split <;> rename_i ub
        · exact ll (ha.getMont ua) (hb.getMont ub) (by simp; ring)
        · exact conv2 (tag_false ub) ta ua
      · split <;> rename_i ub
        · exact conv1 (tag_false ua) tb ub
        · exact ll (ha.getLong ta (tag_false ua)) (hb.getLong tb (tag_false ub)) (by simp)
    · have tb := tag_false tb
      split <;> rename_i ua
      · split <;> rename_i ub
        · exact ll (ha.getMont ua) (hb.getMont ub) (by simp; ring)
        · exact conv2 (tag_false ub) ta ua
      · have e1 := ha.getLong ta (tag_false ua)
        have e2 := hb.getShort tb
        unfold sub_l1ns2
        simp only [setTy_shortVal, setTy_longVal]
        split <;> rename_i hn <;> apply store_rep (mont := false) (by simp) (by simp)
        · exact (e1.addLS (neg_sx_lt hq hn)).congr (by rw [neg_sx_cast hn, e2]; simp; ring)
        · have hn : 0 ≤ (m b).shortVal.toInt := by omega
          exact (e1.subLS (sx_lt hq hn)).congr (by rw [sx_cast hn, e2]; simp)
  · have ta := tag_false ta
    split <;> rename_i tb
    · split <;> rename_i ub
      · split <;> rename_i ua
        · exact ll (ha.getMont ua) (hb.getMont ub) (by simp; ring)
        · exact conv1 (tag_false ua) tb ub
      · have ub := tag_false ub
        have e1 := hb.getLong tb ub
        have e2 := ha.getShort ta
        unfold sub_s1l2n
        simp only [setTy_shortVal, setTy_longVal]
        split <;> rename_i hn <;> apply store_rep (mont := false) (by simp) (by simp)
        · exact (e1.subSL (sx_lt hq hn)).congr (by rw [sx_cast hn, e2]; simp)
        · have hn : (m a).shortVal.toInt < 0 := by omega
          have hne : (r == b) = false := by
            rw [beq_eq_false_iff_ne]; exact fun e => h3 e ⟨ta, hn, tb, ub⟩
          rw [hne]
          have hpos : 0 < (-(sx (m a).shortVal)).toNat := by have := neg_sx_toNat_of_neg hn; omega
          exact (e1.negLS (neg_sx_lt hq hn) hpos).congr (by rw [neg_sx_cast hn, e2]; simp)
    · rw [← ha.getShort ta, ← hb.getShort (tag_false tb), ← Int.cast_sub, ← sx_sub_toInt]
      have := short_bounds (m a).shortVal; have := short_bounds (m b).shortVal
      have e := sx_sub_toInt (m a).shortVal (m b).shortVal
      exact storeSum_rep hq (by omega) (by omega)

theorem Fr_sub_other (h : p ≠ r) : Fr_sub q u m r a b p = m p := by
  unfold Fr_sub
  repeat' split
  all_goals simp [sub_ll, sub_conv1, sub_conv2, sub_l1ns2, sub_s1l2n, sub_s1s2, storeSum_other, setTy_other, setLong_other, h]
  all_goals split <;> simp [setTy_other, setLong_other, h]

theorem Fr_neg_rep (hq : Modulus q) (ha : Rep q (m a) x) : Rep q (Fr_neg q m r a r) (-x) := by
  unfold Fr_neg
  split <;> rename_i ta
  · cases ua : (m a).mont
    · refine store_rep (mont := false) (by simp [ta]) (by simp) ?_
      have := (ha.getLong ta ua).neg
      by_cases e : a = r
      · subst e; simpa using this
      · simpa [setTy_other, setShort_other, e] using this
    · refine store_rep (mont := true) (by simp [ta]) (by simp) ?_
      have := (ha.getMont ua).neg
      simpa using this
  · rw [← ha.getShort (tag_false ta), ← Int.cast_neg, ← sx_neg_toInt]
    have := short_bounds (m a).shortVal
    have e := sx_neg_toInt (m a).shortVal
    exact storeSum_rep hq (by omega) (by omega)

theorem Fr_neg_other (h : p ≠ r) : Fr_neg q m r a p = m p := by
  unfold Fr_neg
  split <;> simp [storeSum_other, setTy_other, setLong_other, setShort_other, h]

end FF
