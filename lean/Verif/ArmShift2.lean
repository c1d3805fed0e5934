import Verif.ArmShift
import Verif.ArmShiftChk
import Verif.ArmMul

/-!
# The AArch64 shifts: words
-/

namespace FF.Arm

open FF.X86 (upd cell rd upd_same upd_ne rd_length rshift_limb lshift_limb limbs_ext rd_limb limb_out)

/-- A word of a right shift. -/
theorem shrWord {k : Nat} (hk : k < 64) (x y : BitVec 64) :
    (x >>> k) ||| ((y <<< (63 - k)) <<< 1) = BitVec.ofNat 64 ((x.toNat + 2 ^ 64 * y.toNat) / 2 ^ k) := by
  apply BitVec.eq_of_getLsbD_eq
  intro i hi
  have e : x.toNat + 2 ^ 64 * y.toNat = 2 ^ 64 * y.toNat + x.toNat := Nat.add_comm _ _
  rw [BitVec.getLsbD_or, ← BitVec.shiftLeft_add, BitVec.getLsbD_ushiftRight, BitVec.getLsbD_shiftLeft, BitVec.getLsbD_ofNat,
    Nat.testBit_div_two_pow, e, Nat.testBit_two_pow_mul_add _ x.isLt]
  by_cases h : k + i < 64
  · rw [if_pos (by omega)]
    simp [hi, BitVec.getLsbD, Nat.add_comm]
    omega
  · rw [if_neg (by omega)]
    have h1 : ¬ i < 63 - k + 1 := by omega
    have h2 : x.getLsbD (k + i) = false := BitVec.getLsbD_of_ge _ _ (by omega)
    rw [h2]
    simp [hi, h1, BitVec.getLsbD]
    congr 1
    omega

/-- A word of a left shift. -/
theorem shlWord {k : Nat} (hk : k < 64) (x y : BitVec 64) :
    (x <<< k) ||| ((y >>> (63 - k)) >>> 1) = BitVec.ofNat 64 (x.toNat * 2 ^ k + y.toNat / 2 ^ (64 - k)) := by
  apply BitVec.eq_of_getLsbD_eq
  intro i hi
  have hy : y.toNat / 2 ^ (64 - k) < 2 ^ k := by
    rw [Nat.div_lt_iff_lt_mul (Nat.two_pow_pos _), ← pow_add, show k + (64 - k) = 64 by omega]; exact y.isLt
  rw [BitVec.getLsbD_or, BitVec.getLsbD_ushiftRight, BitVec.getLsbD_ushiftRight,
    BitVec.getLsbD_shiftLeft, BitVec.getLsbD_ofNat, Nat.mul_comm, Nat.testBit_two_pow_mul_add _ hy]
  by_cases h : i < k
  · rw [if_pos h, Nat.testBit_div_two_pow]
    have : 63 - k + (1 + i) = i + (64 - k) := by omega
    simp [hi, h, BitVec.getLsbD, this]
  · rw [if_neg h]
    have h2 : y.getLsbD (63 - k + (1 + i)) = false := BitVec.getLsbD_of_ge _ _ (by omega)
    rw [h2]
    simp [hi, h, BitVec.getLsbD]

/-! ## The shift counts -/

theorem vHead_run (S : State) (n : Nat) : ∃ r, (vexes S (vHead n) ⟨fun _ => 0, S.fl⟩).ρ = r ∧
    (r (10, 0)).toNat = (S.reg 2).toNat % 64 ∧ (r (12, 0)).toNat = 63 - (S.reg 2).toNat % 64 := by
  refine ⟨_, rfl, ?_⟩
  have h10 : (vexes S (vHead n) ⟨fun _ => 0, S.fl⟩).ρ (10, 0) = S.reg 2 &&& BitVec.ofNat 64 63 := by
    unfold vHead; split <;> rfl
  have h12 : (vexes S (vHead n) ⟨fun _ => 0, S.fl⟩).ρ (12, 0) = BitVec.ofNat 64 63 - (S.reg 2 &&& BitVec.ofNat 64 63) := by
    unfold vHead; split <;> rfl
  have e : (S.reg 2 &&& BitVec.ofNat 64 63).toNat = (S.reg 2).toNat % 64 := by
    rw [BitVec.toNat_and]
    exact Nat.and_two_pow_sub_one_eq_mod _ 6
  rw [h10, h12]
  refine ⟨e, ?_⟩
  rw [BitVec.toNat_sub_of_le, e]
  · rfl
  · rw [BitVec.le_def, e]
    show _ ≤ 63
    omega

/-- The counts in the virtual registers. -/
structure Counts (u : U) (k : Nat) : Prop where
  lt : k < 64
  a : (u.ρ (10, 0)).toNat = k
  b : (u.ρ (12, 0)).toNat = 63 - k

theorem Counts.keeps {u u' : U} {k : Nat} {ts : List Nat} (h : Counts u k) (hk : Keeps ts u u') (h1 : 10 ∉ ts) (h2 : 12 ∉ ts) : Counts u' k :=
  ⟨h.lt, by rw [hk (10, 0) h1, h.a], by rw [hk (12, 0) h2, h.b]⟩

/-! ## `rawShr` -/

/-- The words after a right shift. -/
def shrOf (f : Nat → BitVec 64) (n k i : Nat) : BitVec 64 :=
  BitVec.ofNat 64 (((f i).toNat + 2 ^ 64 * (if i + 1 < n then f (i + 1) else 0).toNat) / 2 ^ k)

/-- Two shifted words put together. -/
theorem three_run (S : State) (u : U) {o₁ o₂ o₃ : Alu} {f₁ f₂ : BitVec 64 → Nat → BitVec 64} {f₃ : BitVec 64 → BitVec 64 → BitVec 64}
    (h₁ : ∀ x y f, o₁.eval x y f = (f₁ x (y.toNat % 64), f)) (h₂ : ∀ x y f, o₂.eval x y f = (f₂ x (y.toNat % 64), f))
    (h₃ : ∀ x y f, o₃.eval x y f = (f₃ x y, f)) {k : Nat} (h : Counts u k) (i i' j t : Nat) :
    vexes S [vop o₁ 20 j (arr 1 i) (.v 10 0), vop o₂ 21 j (arr 1 i') (.v 12 0), vop o₃ t j (.v 20 j) (.v 21 j)] u
      = ⟨upd (upd (upd u.ρ (20, j) (f₁ (S.mem (cell (S.reg 1) i)) k)) (21, j) (f₂ (S.mem (cell (S.reg 1) i')) (63 - k))) (t, j)
          (f₃ (f₁ (S.mem (cell (S.reg 1) i)) k) (f₂ (S.mem (cell (S.reg 1) i')) (63 - k))), u.fl⟩ := by
  have hk := h.lt
  have e1 : (vop o₁ 20 j (arr 1 i) (.v 10 0)).exec S u = ⟨upd u.ρ (20, j) (f₁ (S.mem (cell (S.reg 1) i)) k), u.fl⟩ := by
    rw [exec_vop, h₁]
    show (⟨upd u.ρ (20, j) (f₁ (S.mem (cell (S.reg 1) i)) ((u.ρ (10, 0)).toNat % 64)), u.fl⟩ : U) = _
    rw [h.a, Nat.mod_eq_of_lt hk]
  rw [vexes_cons, e1]
  have e2 : (vop o₂ 21 j (arr 1 i') (.v 12 0)).exec S ⟨upd u.ρ (20, j) (f₁ (S.mem (cell (S.reg 1) i)) k), u.fl⟩
      = ⟨upd (upd u.ρ (20, j) (f₁ (S.mem (cell (S.reg 1) i)) k)) (21, j) (f₂ (S.mem (cell (S.reg 1) i')) (63 - k)), u.fl⟩ := by
    rw [exec_vop, h₂]
    show (⟨upd (upd u.ρ (20, j) (f₁ (S.mem (cell (S.reg 1) i)) k)) (21, j) (f₂ (S.mem (cell (S.reg 1) i'))
      ((upd u.ρ (20, j) (f₁ (S.mem (cell (S.reg 1) i)) k) (12, 0)).toNat % 64)), u.fl⟩ : U) = _
    rw [upd_ne _ _ (by simp), h.b, Nat.mod_eq_of_lt (by omega)]
  rw [vexes_cons, e2, vexes_cons, vexes_nil, exec_vop, h₃]
  generalize f₁ (S.mem (cell (S.reg 1) i)) k = X
  generalize f₂ (S.mem (cell (S.reg 1) i')) (63 - k) = Y
  show (⟨upd (upd (upd u.ρ (20, j) X) (21, j) Y) (t, j) (f₃ (upd (upd u.ρ (20, j) X) (21, j) Y (20, j))
    (upd (upd u.ρ (20, j) X) (21, j) Y (21, j))), u.fl⟩ : U) = _
  rw [upd_same, upd_ne (upd u.ρ (20, j) X) (a := (21, j)) Y (by simp), upd_same]

theorem keeps3 (u : U) (i t : Nat) (x y z : BitVec 64) (f : Flags) :
    Keeps [20, 21, t] u ⟨upd (upd (upd u.ρ (20, i) x) (21, i) y) (t, i) z, f⟩ := by
  intro p hp
  simp only [List.mem_cons, List.mem_nil_iff, or_false, not_or] at hp
  show upd (upd (upd u.ρ (20, i) x) (21, i) y) (t, i) z p = _
  rw [upd_ne _ _ (fun h => hp.2.2 (by rw [h])), upd_ne _ _ (fun h => hp.2.1 (by rw [h])), upd_ne _ _ (fun h => hp.1 (by rw [h]))]

theorem vShr_run (S : State) {n ws k : Nat} (hw : ws < n) (u : U) (h : Counts u k) :
    ∀ i, ws ≤ i → i < n → (vexes S (vShr n ws) u).ρ (22, i) = shrOf (fun i => S.mem (cell (S.reg 1) i)) n k i := by
  unfold vShr
  rw [vexes_append]
  have hl := vloop_run (s := S) (u := u) (n := n - 1 - ws) (f := fun k => vShrW (ws + k))
    (P := fun m u' => Keeps [20, 21, 22] u u' ∧
      ∀ i, ws ≤ i → i < ws + m → u'.ρ (22, i) = shrOf (fun i => S.mem (cell (S.reg 1) i)) n k i) ⟨.rfl, by omega⟩ (by
    intro j u' hj ⟨h1, h2⟩
    have hc := h.keeps h1 (by simp) (by simp)
    have e := three_run S u' (o₁ := .lsr) (o₂ := .lsl) (o₃ := .orrLsl1) (f₁ := fun x k => x >>> k) (f₂ := fun x k => x <<< k)
      (f₃ := fun x y => x ||| (y <<< 1)) (fun _ _ _ => rfl) (fun _ _ _ => rfl) (fun _ _ _ => rfl) hc (ws + j) (ws + j + 1) (ws + j) 22
    show Keeps [20, 21, 22] u (vexes S (vShrW (ws + j)) u') ∧ _
    unfold vShrW
    rw [e]
    refine ⟨h1.trans (keeps3 _ _ _ _ _ _ _), fun i hi hi' => ?_⟩
    · show upd _ _ _ (22, i) = _
      by_cases hij : i = ws + j
      · subst hij
        rw [upd_same, shrWord h.lt, shrOf, if_pos (by omega)]
      · rw [upd_ne _ _ (by simpa using hij), upd_ne _ _ (by simp), upd_ne _ _ (by simp)]
        exact h2 i hi (by omega))
  generalize vexes S (vloop _ _) u = u' at hl
  obtain ⟨h1, h2⟩ := hl
  have hc := h.keeps h1 (by simp) (by simp)
  intro i hi hi'
  have e : vexes S [vop .lsr 22 (n - 1) (arr 1 (n - 1)) (.v 10 0)] u'
      = ⟨upd u'.ρ (22, n - 1) (S.mem (cell (S.reg 1) (n - 1)) >>> ((u'.ρ (10, 0)).toNat % 64)), u'.fl⟩ := rfl
  rw [e, hc.a, Nat.mod_eq_of_lt h.lt]
  show upd _ _ _ (22, i) = _
  by_cases hij : i = n - 1
  · subst hij
    rw [upd_same, shrOf, if_neg (by omega)]
    have := shrWord h.lt (S.mem (cell (S.reg 1) (n - 1))) 0
    simpa using this
  · rw [upd_ne _ _ (by simpa using hij)]
    exact h2 i hi (by omega)

/-- The portable right shift, word by word. -/
theorem rawShr_words {q : Nat} {b : Nat} (f : Nat → BitVec 64) (hb : b < 64 * n64 q) :
    FF.rawShr q ((List.range (n64 q)).map f) b
      = (List.range (n64 q)).map fun i => if b / 64 + i < n64 q then shrOf f (n64 q) (b % 64) (b / 64 + i) else 0 := by
  have hlim : ∀ i, i < n64 q → limbAt ((List.range (n64 q)).map f) i = f i := by
    intro i hi; simp [limbAt, List.getD, hi]
  have hw : b / 64 < n64 q := by omega
  unfold FF.rawShr
  dsimp only
  set r0 : Limbs := (((List.range (n64 q)).map f).drop (b / 64)).take (n64 q - b / 64) ++ List.replicate (b / 64) 0 with hr0
  have l0 : r0.length = n64 q := by simp [hr0]; omega
  have w0 : ∀ i, limbAt r0 i = if b / 64 + i < n64 q then f (b / 64 + i) else 0 := by
    intro i
    rw [hr0, limbAt, List.getD_eq_getElem?_getD]
    by_cases h : b / 64 + i < n64 q
    · rw [if_pos h, List.getElem?_append_left (by simp; omega)]
      simp [show i < n64 q - b / 64 by omega]
    · rw [if_neg h, List.getElem?_append_right (by simp; omega)]
      simp only [List.getElem?_replicate]
      split <;> rfl
  have key : ∀ k, BitVec.ofNat 64 (((if b / 64 + k < n64 q then f (b / 64 + k) else 0).toNat + 2 ^ 64 *
      (if b / 64 + (k + 1) < n64 q then f (b / 64 + (k + 1)) else 0).toNat) / 2 ^ (b % 64))
        = if b / 64 + k < n64 q then shrOf f (n64 q) (b % 64) (b / 64 + k) else 0 := by
    intro k
    by_cases h : b / 64 + k < n64 q
    · rw [if_pos h, if_pos h, shrOf]; rfl
    · rw [if_neg h, if_neg h, if_neg (by omega)]; simp
  split
  · refine limbs_ext (n := n64 q) (by simp [l0]) (by simp) fun i hi => ?_
    rw [rshift_limb _ _ _ (by omega), w0, w0, key]
    simp [limbAt, List.getD, hi]
  · rename_i h
    have h0 : b % 64 = 0 := by simpa using h
    refine limbs_ext (n := n64 q) l0 (by simp) fun i hi => ?_
    rw [w0]
    have := key i
    rw [h0] at this
    simp only [limbAt, List.getD, List.getElem?_map, List.getElem?_range hi, Option.map_some, Option.getD_some, h0]
    rw [← this, pow_zero, Nat.div_one]
    apply BitVec.eq_of_toNat_eq
    simp only [BitVec.toNat_ofNat, Nat.add_mul_mod_self_left]
    rw [Nat.mod_eq_of_lt (BitVec.isLt _)]

/-! ## `rawShl` -/

/-- The words after a left shift by `64 * ws + k`. -/
def shlOf (f : Nat → BitVec 64) (ws k j : Nat) : BitVec 64 :=
  if ws ≤ j then BitVec.ofNat 64 ((f (j - ws)).toNat * 2 ^ k + if j = ws then 0 else (f (j - ws - 1)).toNat / 2 ^ (64 - k)) else 0

theorem vShlA_run (S : State) {n ws k : Nat} (hw : ws < n) (u : U) (h : Counts u k) :
    ∃ u', vexes S (vloop (n - 1 - ws) (fun k => vShlW (n - 1 - ws - k) (n - 1 - k))) u = u' ∧ Counts u' k ∧
      ∀ j, ws < j → j < n → u'.ρ (1, j) = shlOf (fun i => S.mem (cell (S.reg 1) i)) ws k j := by
  refine ⟨_, rfl, ?_⟩
  have hl := vloop_run (s := S) (u := u) (n := n - 1 - ws) (f := fun k => vShlW (n - 1 - ws - k) (n - 1 - k))
    (P := fun m u' => Keeps [20, 21, 1] u u' ∧
      ∀ j, n - m ≤ j → j < n → u'.ρ (1, j) = shlOf (fun i => S.mem (cell (S.reg 1) i)) ws k j) ⟨.rfl, by omega⟩ (by
    intro m u' hm ⟨h1, h2⟩
    have hc := h.keeps h1 (by simp) (by simp)
    have e := three_run S u' (o₁ := .lsl) (o₂ := .lsr) (o₃ := .orrLsr1) (f₁ := fun x k => x <<< k) (f₂ := fun x k => x >>> k)
      (f₃ := fun x y => x ||| (y >>> 1)) (fun _ _ _ => rfl) (fun _ _ _ => rfl) (fun _ _ _ => rfl) hc (n - 1 - ws - m) (n - 1 - ws - m - 1)
      (n - 1 - m) 1
    show Keeps [20, 21, 1] u (vexes S (vShlW (n - 1 - ws - m) (n - 1 - m)) u') ∧ _
    unfold vShlW
    rw [e]
    refine ⟨h1.trans (keeps3 _ _ _ _ _ _ _), fun j hj hj' => ?_⟩
    show upd _ _ _ (1, j) = _
    by_cases hij : j = n - 1 - m
    · subst hij
      rw [upd_same, shlWord h.lt, shlOf, if_pos (by omega), if_neg (by omega)]
      rw [show n - 1 - m - ws = n - 1 - ws - m by omega]
    · rw [upd_ne _ _ (by simpa using hij), upd_ne _ _ (by simp), upd_ne _ _ (by simp)]
      exact h2 j (by omega) hj')
  exact ⟨h.keeps hl.1 (by simp) (by simp), fun j hj hj' => hl.2 j (by omega) hj'⟩

theorem vShl_run (S : State) {n ws k : Nat} (hw : ws < n) (u : U) (h : Counts u k) :
    ∀ i, i < n → (binX n i).eval S (vexes S (vShl n ws) u).ρ
      = if i = n - 1 then shlOf (fun i => S.mem (cell (S.reg 1) i)) ws k i &&& S.mem (cell (S.sym .lboMask) 0)
        else shlOf (fun i => S.mem (cell (S.reg 1) i)) ws k i := by
  unfold vShl
  rw [vexes_append, vexes_append, vexes_append]
  obtain ⟨u₁, e₁, hc, h₁⟩ := vShlA_run S hw u h
  rw [e₁]
  have e₂ : vexes S [vop .lsl 1 ws (arr 1 0) (.v 10 0)] u₁
      = ⟨upd u₁.ρ (1, ws) (S.mem (cell (S.reg 1) 0) <<< ((u₁.ρ (10, 0)).toNat % 64)), u₁.fl⟩ := rfl
  rw [e₂, hc.a, Nat.mod_eq_of_lt h.lt]
  have h₂ : ∀ j, ws ≤ j → j < n → upd u₁.ρ (1, ws) (S.mem (cell (S.reg 1) 0) <<< k) (1, j)
      = shlOf (fun i => S.mem (cell (S.reg 1) i)) ws k j := by
    intro j hj hj'
    by_cases hij : j = ws
    · subst hij
      rw [upd_same, shlOf, if_pos le_rfl, if_pos rfl, Nat.sub_self, Nat.add_zero]
      apply BitVec.eq_of_toNat_eq
      simp [BitVec.toNat_shiftLeft, Nat.shiftLeft_eq]
    · rw [upd_ne _ _ (by simpa using hij)]
      exact h₁ j (by omega) hj'
  generalize upd u₁.ρ (1, ws) (S.mem (cell (S.reg 1) 0) <<< k) = ρ₂ at h₂
  have h₃ := vloop_run (s := S) (u := ⟨ρ₂, u₁.fl⟩) (n := ws) (f := fun k => [vop .mov 1 (ws - 1 - k) .zr .zr])
    (P := fun m u' => ∀ j, ws - m ≤ j → j < n → u'.ρ (1, j) = shlOf (fun i => S.mem (cell (S.reg 1) i)) ws k j)
    (fun j hj hj' => h₂ j (by omega) hj') (by
    intro m u' hm hI j hj hj'
    show upd u'.ρ (1, ws - 1 - m) 0 (1, j) = _
    by_cases hij : j = ws - 1 - m
    · subst hij
      rw [upd_same, shlOf, if_neg (by omega)]
    · rw [upd_ne _ _ (by simpa using hij)]
      exact hI j (by omega) hj')
  generalize vexes S (vloop ws _) ⟨ρ₂, u₁.fl⟩ = u₃ at h₃
  intro i hi
  have e : vexes S [vop .and 2 0 (.v 1 (n - 1)) (.mem (.tab .lboMask) 0)] u₃
      = ⟨upd u₃.ρ (2, 0) (u₃.ρ (1, n - 1) &&& S.mem (cell (S.sym .lboMask) 0)), u₃.fl⟩ := rfl
  rw [e]
  unfold binX
  by_cases hl : i = n - 1
  · rw [if_pos hl, if_pos hl]
    refine (upd_same u₃.ρ (2, 0) (u₃.ρ (1, n - 1) &&& S.mem (cell (S.sym .lboMask) 0))).trans ?_
    rw [h₃ (n - 1) (by omega) (by omega), hl]
  · rw [if_neg hl, if_neg hl]
    show upd u₃.ρ (2, 0) (u₃.ρ (1, n - 1) &&& S.mem (cell (S.sym .lboMask) 0)) (1, i) = _
    rw [upd_ne _ _ (by simp), h₃ i (by omega) hi]

theorem maskTop_map (q : Nat) (h : Nat → BitVec 64) : maskTop q ((List.range (n64 q)).map h)
    = (List.range (n64 q)).map fun i => if i = n64 q - 1 then h i &&& lboMask q else h i := by
  have hn := n64_pos q
  unfold maskTop limbAt
  apply List.ext_getElem
  · simp
  · intro i h1 h2
    simp only [List.getElem_set, List.getElem_map, List.getElem_range]
    by_cases hi : n64 q - 1 = i
    · rw [if_pos hi, if_pos hi.symm]
      subst hi
      simp [List.getD, hn]
    · rw [if_neg hi, if_neg (Ne.symm hi)]

/-- The portable left shift, word by word. -/
theorem rawShl_words {q : Nat} {b : Nat} (f : Nat → BitVec 64) (hb : b < 64 * n64 q) :
    FF.rawShl q ((List.range (n64 q)).map f) b
      = condSub q false ((List.range (n64 q)).map fun i => if i = n64 q - 1 then shlOf f (b / 64) (b % 64) i &&& lboMask q
          else shlOf f (b / 64) (b % 64) i) := by
  have hw : b / 64 < n64 q := by omega
  unfold FF.rawShl
  dsimp only
  set r0 : Limbs := List.replicate (b / 64) 0 ++ ((List.range (n64 q)).map f).take (n64 q - b / 64) with hr0
  have l0 : r0.length = n64 q := by simp [hr0]; omega
  have w0 : ∀ i, i < n64 q → limbAt r0 i = if b / 64 ≤ i then f (i - b / 64) else 0 := by
    intro i hi
    rw [hr0, limbAt, List.getD_eq_getElem?_getD]
    by_cases h : b / 64 ≤ i
    · rw [if_pos h, List.getElem?_append_right (by simpa using h)]
      simp [show i - b / 64 < n64 q - b / 64 by omega]
    · rw [if_neg h, List.getElem?_append_left (by simp; omega)]
      simp [show i < b / 64 by omega]
  set r1 : Limbs := if b % 64 ≠ 0 then mpn_lshift r0 (b % 64) 0 else r0 with hr1
  have e1 : r1 = (List.range (n64 q)).map (shlOf f (b / 64) (b % 64)) := by
    refine limbs_ext (n := n64 q) (by rw [hr1]; split <;> simp [l0]) (by simp) fun i hi => ?_
    have e2 : limbAt ((List.range (n64 q)).map (shlOf f (b / 64) (b % 64))) i = shlOf f (b / 64) (b % 64) i := by
      simp [limbAt, List.getD, hi]
    rw [e2, hr1]
    split
    · rename_i h
      rw [lshift_limb (by omega) _ _ _ (Nat.two_pow_pos _) (by omega), w0 i hi, shlOf]
      by_cases h1 : b / 64 ≤ i
      · rw [if_pos h1, if_pos h1]
        by_cases h2 : i = b / 64
        · subst h2
          rw [if_pos rfl]
          split
          · rfl
          · rw [w0 _ (by omega), if_neg (by omega)]; simp
        · rw [if_neg h2, if_neg (by omega), w0 _ (by omega), if_pos (by omega), show i - 1 - b / 64 = i - b / 64 - 1 by omega]
      · rw [if_neg h1, if_neg h1]
        split
        · simp
        · rw [w0 _ (by omega), if_neg (by omega)]; simp
    · rename_i h
      have h0 : b % 64 = 0 := by simpa using h
      rw [w0 i hi, shlOf, h0]
      split
      · apply BitVec.eq_of_toNat_eq
        have hz : ∀ x : BitVec 64, x.toNat / 2 ^ (64 - 0) = 0 := fun x => Nat.div_eq_of_lt x.isLt
        rw [hz, ite_self, BitVec.toNat_ofNat, pow_zero, Nat.mul_one, Nat.add_zero, Nat.mod_eq_of_lt (BitVec.isLt _)]
      · rfl
  rw [e1, maskTop_map]

end FF.Arm
