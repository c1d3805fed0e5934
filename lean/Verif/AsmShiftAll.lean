import Verif.AsmShiftParse

/-!
# The tagged shifts of the generated assembly equal the portable ones
-/

namespace FF.X86

/-- What the portable left shift leaves in an element `r` that is none of the operands. -/
def shlElem (q : Nat) (u r a b : Elem) : Elem :=
  match cntOf q u b with
  | .pos c => shlRef q u r a c
  | .neg c => shrRef q u r a c
  | .big => shortE r 0

/-- What the portable right shift leaves. -/
def shrElem (q : Nat) (u r a b : Elem) : Elem :=
  match cntOf q u b with
  | .pos c => shrRef q u r a c
  | .neg c => shlRef q u r a c
  | .big => shortE r 0

section all

variable {q F F' k : Nat} {ra : BitVec 64} {s t : State} {u : Elem}

/-! ## The portable shifts by their outcome -/

/-- The portable shifts once the count is known. -/
def goCnt (q : Nat) (u : Elem) (m : Mem) (r a : Nat) (left : Bool) : Cnt → Option Mem
  | .pos c => if left then do_shl q u m r a c else some (do_shr q u m r a c)
  | .neg c => if left then some (do_shr q u m r a c) else do_shl q u m r a c
  | .big => some (Fr_setzero m r)

theorem Fr_shl_go (m : Mem) (r a b : Nat) : Fr_shl q u m r a b = goCnt q u m r a true (cntOf q u (m b)) := by
  unfold Fr_shl cntOf Fr_shl_long cntLong
  cases (m b).long <;> cases (m b).mont <;> simp only [Bool.false_eq_true, if_true, if_false, Bool.and_true, Bool.and_false] <;>
    split_ifs <;> rfl

theorem Fr_shr_go (m : Mem) (r a b : Nat) : Fr_shr q u m r a b = goCnt q u m r a false (cntOf q u (m b)) := by
  unfold Fr_shr cntOf Fr_shr_long cntLong
  cases (m b).long <;> cases (m b).mont <;> simp only [Bool.false_eq_true, if_true, if_false, Bool.and_true, Bool.and_false] <;>
    split_ifs <;> rfl

theorem Fr_shl_elem {m m' : Mem} {r a b : Nat} (h : Fr_shl q u m r a b = some m') : m' r = shlElem q u (m r) (m a) (m b) := by
  rw [Fr_shl_go] at h
  rw [shlElem]
  cases hc : cntOf q u (m b) with
  | pos c => rw [hc] at h; exact do_shl_ref h
  | neg c => rw [hc] at h; rw [← Option.some.inj h]; exact do_shr_ref
  | big => rw [hc] at h; rw [← Option.some.inj h]; exact setzero_ref _ _

theorem Fr_shr_elem {m m' : Mem} {r a b : Nat} (h : Fr_shr q u m r a b = some m') : m' r = shrElem q u (m r) (m a) (m b) := by
  rw [Fr_shr_go] at h
  rw [shrElem]
  cases hc : cntOf q u (m b) with
  | pos c => rw [hc] at h; rw [← Option.some.inj h]; exact do_shr_ref
  | neg c => rw [hc] at h; exact do_shl_ref h
  | big => rw [hc] at h; rw [← Option.some.inj h]; exact setzero_ref _ _

theorem Fr_shl_apart {m : Mem} {r a b : Nat} (h : r ≠ a) : ∃ m', Fr_shl q u m r a b = some m' := by
  rw [Fr_shl_go]
  cases cntOf q u (m b) with
  | pos c => exact do_shl_apart h
  | neg c => exact ⟨_, rfl⟩
  | big => exact ⟨_, rfl⟩

theorem Fr_shr_apart {m : Mem} {r a b : Nat} (h : r ≠ a) : ∃ m', Fr_shr q u m r a b = some m' := by
  rw [Fr_shr_go]
  cases cntOf q u (m b) with
  | pos c => exact ⟨_, rfl⟩
  | neg c => exact do_shl_apart h
  | big => exact ⟨_, rfl⟩

/-! ## The conversions as callees of the shifts -/

theorem toNormal_shift (hq : q % 2 = 1) (hb : callCells q ≤ F) :
    ConvSpec q (F + 1) ra (libShift q ra) "toNormal" (fun a e => ∃ r, e = toNormalInto q r a) (FromOk q) := by
  intro t h ha hP
  have e : elemAt (n64 q) (pushVal ra t).mem ((pushVal ra t).reg .rsi) = elemAt (n64 q) t.mem (t.reg .rsi) := by
    rw [push_reg _ _ (by decide), elemAt_congr fun a h' => push_mem ra t (off_one (ha.off a h') (Nat.succ_pos _))]
  obtain ⟨s', h1, h2⟩ := toNormal_run (ra := ra) hq (by rw [e]; exact hP) (h.push hb ra)
    (by rw [push_reg _ _ (by decide)]; exact ha.push ra)
  obtain ⟨c1, c2, c3⟩ := called_of (env := libShift q ra) (f := "toNormal") rfl h1 h2
  rw [e] at c3
  exact ⟨s', c1, c2, _, c3⟩

theorem toLong_shift (hq : q % 2 = 1) (hb : callCells q ≤ F) :
    ConvSpec q (F + 1) ra (libShift q ra) "toLongNormal" (fun a e => ∃ r, e = toLongNormalInto q r a) (FromOk q) := by
  intro t h ha hP
  have e : elemAt (n64 q) (pushVal ra t).mem ((pushVal ra t).reg .rsi) = elemAt (n64 q) t.mem (t.reg .rsi) := by
    rw [push_reg _ _ (by decide), elemAt_congr fun a h' => push_mem ra t (off_one (ha.off a h') (Nat.succ_pos _))]
  obtain ⟨s', h1, h2⟩ := toLongNormal_run (ra := ra) hq (by rw [e]; exact hP) (h.push hb ra)
    (by rw [push_reg _ _ (by decide)]; exact ha.push ra)
  obtain ⟨c1, c2, c3⟩ := called_of (env := libShift q ra) (f := "toLongNormal") rfl h1 h2
  rw [e] at c3
  exact ⟨s', c1, c2, _, c3⟩

/-! ## The two routines -/

/-- The stack cells of a tagged shift. -/
def shiftCells (q : Nat) : Nat := 3 * n64 q + 10 + callCells q

/-- The frame and the operands. -/
theorem enterOps (h : TArgs q (F + 1) s) (ha : TOpnd q (F + 1) s (s.reg .rsi)) (hb : TOpnd q (F + 1) s (s.reg .rdx)) (hF : 3 ≤ F) :
    ∃ t, (∀ p, run (libShift q ra) ra (enter4 ++ p) s = run (libShift q ra) ra p t) ∧ Ops q F 3 (virt s) t (elemAt (n64 q) s.mem (s.reg .rdi))
      (elemAt (n64 q) s.mem (s.reg .rsi)) (elemAt (n64 q) s.mem (s.reg .rdx)) ∧ SavedDi s t := by
  obtain ⟨t, e, hi, hd, hsp, d1, d2, d3, hm⟩ := enter4_run (env := libShift q ra) (ra := ra) h hF
  have ed : (virt s).reg .rdi = s.reg .rdi := virt_reg _ (by decide) (by decide)
  refine ⟨t, e, ⟨hi, hsp, d1.trans ed.symm, ?_, ?_, ?_, ?_, ?_, ?_, ?_⟩, hd⟩
  · rw [d2]; exact In.off ha.virt.off hsp (by omega)
  · rw [d3]; exact In.off hb.virt.off hsp (by omega)
  · rw [d2]; exact ha.virt.ali
  · rw [d3]; exact hb.virt.ali
  · rw [ed]; exact elemAt_congr fun x hx => hm x (h.dst.off x hx)
  · rw [d2]; exact elemAt_congr fun x hx => hm x (ha.off x hx)
  · rw [d3]; exact elemAt_congr fun x hx => hm x (hb.off x hx)

theorem doShl_setzero (n : Nat) (p : List Line) : dropTo "setzero" (doShl n ++ p) = dropTo "setzero" p := by
  simp [doShl, dropTo, convA, leave4, shiftLong, setTypeDest]
theorem doShr_setzero (n : Nat) (p : List Line) : dropTo "setzero" (doShr n ++ p) = dropTo "setzero" p := by
  simp [doShr, dropTo, convA, leave4, shiftLong, setTypeDest]
theorem doShl_shr (n : Nat) (p : List Line) : dropTo "do_shr" (doShl n ++ (doShr n ++ p)) = (doShr n).tail ++ p := by
  simp [doShl, doShr, dropTo, convA, leave4, shiftLong, setTypeDest]
theorem doShl_shl (n : Nat) (p : List Line) : dropTo "do_shl" (doShl n ++ p) = (doShl n).tail ++ p := by
  simp [doShl, dropTo]

theorem far_shl : Far "do_shl" := by unfold Far; decide
theorem far_shr : Far "do_shr" := by unfold Far; decide
theorem far_zero : Far "setzero" := by unfold Far; decide

/-- The bodies, by the outcome of the count. -/
theorem bodies_run {r a : Elem} (hq : q % 2 = 1) (h7' : FromOk q a) (hbl : bitLen q < 2 ^ 31) (u : Elem)
    (h : TArgs q (F + 1) s) (hF : shiftCells q ≤ F) (hk : 3 ≤ k) (hk' : k ≤ 3 + n64 q + 1) (o : Rdy q F k s t r a) :
    (∃ s', run (libShift q ra) ra ((doShl (n64 q)).tail ++ (doShr (n64 q) ++ setZero)) t = some s' ∧ TRet q (F + 1) s s' (shlRef q u r a (t.reg .rdx))) ∧
    (∃ s', run (libShift q ra) ra ((doShr (n64 q)).tail ++ setZero) t = some s' ∧ TRet q (F + 1) s s' (shrRef q u r a (t.reg .rdx))) ∧
    (∃ s', run (libShift q ra) ra setZero.tail t = some s' ∧ TRet q (F + 1) s s' (shortE r 0)) := by
  unfold shiftCells at hF
  have hv : TArgs q F (virt s) := h.virt (by omega)
  have hN := toNormal_shift (q := q) (F := callCells q) (ra := ra) hq le_rfl
  have hL := toLong_shift (q := q) (F := callCells q) (ra := ra) hq le_rfl
  have w : Sh q F k s t r a (t.reg .rdx) := ⟨o.1, o.2, rfl⟩
  refine ⟨?_, ?_, ?_⟩
  · exact doShl_run u h7' h hv hN hL (rawShl_spec (by omega) hbl) hk (by omega) (by omega) w (by rw [doShr_setzero]; rfl)
  · exact doShr_run u h7' h hv hN hL (rawShr_spec (by omega) hbl) hk (by omega) (by omega) w rfl
  · exact setZero_run h hv hk (by omega) o.2 o.1

theorem shlCode_run (hq : q % 2 = 1) (h0 : 0 < n64 q) (h7a : FromOk q (elemAt (n64 q) s.mem (s.reg .rsi)))
    (h7b : FromOk q (elemAt (n64 q) s.mem (s.reg .rdx))) (hbl : bitLen q < 2 ^ 31)
    (u : Elem) (h : TArgs q (F + 1) s) (ha : TOpnd q (F + 1) s (s.reg .rsi)) (hb : TOpnd q (F + 1) s (s.reg .rdx)) (hF : shiftCells q ≤ F) :
    ∃ s', run (libShift q ra) ra (shlCode (bitLen q) (n64 q)) s = some s' ∧ TRet q (F + 1) s s'
      (shlElem q u (elemAt (n64 q) s.mem (s.reg .rdi)) (elemAt (n64 q) s.mem (s.reg .rsi)) (elemAt (n64 q) s.mem (s.reg .rdx))) := by
  have hF' := hF
  unfold shiftCells at hF
  have hv : TArgs q F (virt s) := h.virt (by omega)
  obtain ⟨t, e, o, hd⟩ := enterOps (ra := ra) h ha hb (by omega)
  obtain ⟨t1, k, k1, k2, e1, c1, o1⟩ := parse_run (pos := "do_shl") (neg := "do_shr") (big := "setzero") h7b hbl h0 u hv o hd
    (toNormal_shift (q := q) (F := callCells q) (ra := ra) hq le_rfl) (by omega) (by omega) far_shr far_shl far_zero
    (doShl (n64 q) ++ (doShr (n64 q) ++ setZero))
  obtain ⟨b1, b2, b3⟩ := bodies_run (ra := ra) hq h7a hbl u h hF' k1 k2 o1
  rw [shlCode, e, e1, shlElem]
  revert c1
  cases cntOf q u (elemAt (n64 q) s.mem (s.reg .rdx)) with
  | pos c =>
    intro c1
    replace c1 : t1.reg .rdx = c := c1
    simp only [Cnt.goes]
    rw [doShl_shl, ← c1]
    exact b1
  | neg c =>
    intro c1
    replace c1 : t1.reg .rdx = c := c1
    simp only [Cnt.goes]
    rw [doShl_shr, ← c1]
    exact b2
  | big =>
    intro _
    simp only [Cnt.goes]
    rw [doShl_setzero, doShr_setzero]
    exact b3

/-- Jumps over the entry of `<name>_shl`. -/
theorem skip_shl {l : String} (h : Far l) (n : Nat) (bl : Nat) :
    dropTo l (shlCode bl n) = dropTo l (doShl n ++ (doShr n ++ setZero)) := by
  rw [shlCode, parse_eq]
  show dropTo l (convB n "toNormal" ++ (.label "L2" :: l2 bl n _ _ _ _)) = _
  rw [dropTo_convB, dropTo_label, if_neg h.2.2.2]
  show dropTo l (zeros n ++ _) = _
  rw [zeros_drop]
  show (if "L2neg" = l then _ else _) = _
  rw [if_neg h.2.2.1, l2neg_drop h.1 h.2.1]

theorem shrCode_run (hq : q % 2 = 1) (h0 : 0 < n64 q) (h7a : FromOk q (elemAt (n64 q) s.mem (s.reg .rsi)))
    (h7b : FromOk q (elemAt (n64 q) s.mem (s.reg .rdx))) (hbl : bitLen q < 2 ^ 31)
    (u : Elem) (h : TArgs q (F + 1) s) (ha : TOpnd q (F + 1) s (s.reg .rsi)) (hb : TOpnd q (F + 1) s (s.reg .rdx)) (hF : shiftCells q ≤ F) :
    ∃ s', run (libShift q ra) ra (shrCode (bitLen q) (n64 q)) s = some s' ∧ TRet q (F + 1) s s'
      (shrElem q u (elemAt (n64 q) s.mem (s.reg .rdi)) (elemAt (n64 q) s.mem (s.reg .rsi)) (elemAt (n64 q) s.mem (s.reg .rdx))) := by
  have hF' := hF
  unfold shiftCells at hF
  have hv : TArgs q F (virt s) := h.virt (by omega)
  obtain ⟨t, e, o, hd⟩ := enterOps (ra := ra) h ha hb (by omega)
  obtain ⟨t1, k, k1, k2, e1, c1, o1⟩ := parse_run (pos := "do_shr") (neg := "do_shl") (big := "setzero") h7b hbl h0 u hv o hd
    (toNormal_shift (q := q) (F := callCells q) (ra := ra) hq le_rfl) (by omega) (by omega) far_shl far_shr far_zero
    (shlCode (bitLen q) (n64 q))
  obtain ⟨b1, b2, b3⟩ := bodies_run (ra := ra) hq h7a hbl u h hF' k1 k2 o1
  rw [shrCode, e, e1, shrElem]
  revert c1
  cases cntOf q u (elemAt (n64 q) s.mem (s.reg .rdx)) with
  | pos c =>
    intro c1
    replace c1 : t1.reg .rdx = c := c1
    simp only [Cnt.goes]
    rw [skip_shl far_shr, doShl_shr, ← c1]
    exact b2
  | neg c =>
    intro c1
    replace c1 : t1.reg .rdx = c := c1
    simp only [Cnt.goes]
    rw [skip_shl far_shl, doShl_shl, ← c1]
    exact b1
  | big =>
    intro _
    simp only [Cnt.goes]
    rw [skip_shl far_zero, doShl_setzero, doShr_setzero]
    exact b3

end all

end FF.X86
