import Verif.AsmBitDisp

/-!
# The bitwise complement of the generated assembly equals the portable one
-/

namespace FF.X86

section bnot

variable {q F F' k n : Nat} {ra : BitVec 64} {s t : State} {env : String → Option (State → Option State)} {m : Mem} {r a : Elem}

/-- One operand, at `rsi`, that may have been converted. -/
structure Op1 (q F k : Nat) (s t : State) (r a : Elem) : Prop extends Res q F k s t r where
  offA : Off (F - k) t (t.reg .rsi) (n64 q + 1)
  aliA : Alias (t.reg .rsi) (s.reg .rdi) (n64 q + 1)
  a : elemAt (n64 q) t.mem (t.reg .rsi) = a

theorem Op1.move {t' : State} (o : Op1 q F k s t r a) (hm : Move t t') (h1 : t'.reg .rdi = t.reg .rdi) (h2 : t'.reg .rsi = t.reg .rsi) :
    Op1 q F k s t' r a :=
  ⟨⟨o.inn.move hm, hm.rsp.trans o.rsp, h1.trans o.rdi, by rw [hm.mem]; exact o.r⟩, by rw [h2]; exact o.offA.move hm,
    by rw [h2]; exact o.aliA, by rw [hm.mem, h2]; exact o.a⟩

theorem Op1.convA {f : String} {R : Elem → Elem → Prop} {P : Elem → Prop} (o : Op1 q F k s t r a) (h : TArgs q F s)
    (hf : ConvSpec q F' ra env f R P) (h3 : 1 ≤ k) (hF : k + n64 q + 3 + F' ≤ F) (hb : callCells q ≤ F')
    (hP : P a := by first | trivial | assumption) :
    ∃ t' a', (∀ p, run env ra (convA (n64 q) f ++ p) t = run env ra p t') ∧ R a a' ∧ Op1 q F (k + n64 q + 1) s t' r a' := by
  obtain ⟨t', e1, c1, d1⟩ := convA_run hf h o.offA o.inn o.rsp h3 hF hb (by rw [o.a]; exact hP)
  have keep : ∀ p, Off (F - k) t p (n64 q + 1) → elemAt (n64 q) t'.mem p = elemAt (n64 q) t.mem p := fun p hp =>
    elemAt_congr fun x hx => c1.deep x (hp x hx)
  refine ⟨t', _, e1, o.a ▸ c1.elem, ⟨c1.inn, c1.rsp, c1.rdi.trans o.rdi, ?_⟩, ?_, ?_, ?_⟩
  · rw [keep _ (res_off h o.rsp (by omega)), o.r]
  · rw [c1.tmp]; exact tmp_off h (by omega) c1.rsp
  · rw [c1.tmp]; exact tmp_ali h (by omega)
  · rw [c1.tmp]

/-- `enter` and `setTypeDest`. -/
theorem enter1_run (h : TArgs q F s) (ha : TOpnd q F s (s.reg .rsi)) (hF : 3 + callCells q ≤ F) (ty : BitVec 8) :
    ∃ t, (∀ p, run env ra (enter ++ (setTypeDest ty ++ p)) s = run env ra p t) ∧
      Op1 q F 3 s t ((absMem (n64 q) s.mem).setTy (s.reg .rdi).toNat (ty.getLsbD 7) (ty.getLsbD 6) (s.reg .rdi).toNat)
        ((absMem (n64 q) s.mem).setTy (s.reg .rdi).toNat (ty.getLsbD 7) (ty.getLsbD 6) (s.reg .rsi).toNat) := by
  obtain ⟨t, e, hi, hsp, d1, d2, d3, hm⟩ := enter_run (env := env) (ra := ra) h (by omega)
  obtain ⟨t', h1, h2, h3, h4⟩ := setType_elem (env := env) (ra := ra) ty (hi.args h hsp hF le_rfl d1)
  have hs2 : t'.reg .rsi = s.reg .rsi := (h3 _ (by simp)).trans d2
  have el : ∀ p, TOpnd q F s p → elemAt (n64 q) t'.mem p = (absMem (n64 q) s.mem).setTy (s.reg .rdi).toNat (ty.getLsbD 7) (ty.getLsbD 6) p.toNat := by
    intro p hp
    have hm' : elemAt (n64 q) t.mem p = absMem (n64 q) s.mem p.toNat := by
      rw [absMem_at]; exact elemAt_congr fun a h' => hm a (hp.off a h')
    have := sees_set (In.opnd hp hsp hF d1) h2 h4 hm'
    rw [this, d1, Mem.setTy]
    congr 1
    rw [absMem_at, elemAt_congr fun a h' => hm a (h.dst.off a h')]
  refine ⟨t', fun p => by rw [e, h1], ⟨hi.tcalled h hsp (by omega) (by omega) d1 h2, h2.rsp.trans hsp, h2.rdi.trans d1, el _ ⟨.inl rfl, h.dst.off⟩⟩, ?_, ?_, ?_⟩
  · rw [hs2]; exact In.off ha.off (h2.rsp.trans hsp) (by omega)
  · rw [hs2]; exact ha.ali
  · rw [hs2]; exact el _ ha

/-- The code after the label `l1n`. -/
def notTail (n : Nat) : List Line :=
  ((List.range n).flatMap fun i => [op .mov rax (.mem .rsi (8 + 8 * i)), .misc (.not .rax)] ++ maskLast n i ++
    [op .mov (.mem .rdi (8 + 8 * i)) rax]) ++ (subQIfBigger n 8 ++ leave)

theorem notTail_run (h : TArgs q F s) (hk : 1 ≤ k) (hF : k ≤ F) (h0 : 0 < n64 q) (oo : Op1 q F k s t r a) :
    ∃ s', run env ra (notTail (n64 q)) t = some s' ∧ TRet q F s s' { r with longVal := rawNot q a.longVal } := by
  have hfit := h.ok.fits
  have lim : rd t.mem (cell (t.reg .rsi) 1) (n64 q) = a.longVal := by rw [← oo.a]; rfl
  set X : Nat → BitVec 64 := fun i => ~~~ (t.mem (cell (cell (t.reg .rsi) 1) i)) with hX
  obtain ⟨t1, e1, p1⟩ := bitLoop_run (env := env) (ra := ra) (X := X) (k₀ := 0) h hF oo.toRes
    (pre := fun i => [op .mov rax (.mem .rsi (8 + 8 * i)), .misc (.not .rax)]) (fun _ => rfl) (fun i t' _ hi hp => by
      have hs1 := hp.regs .rsi (by simp [notRax])
      have x1 := hp.next (by omega) hi oo.aliA.tail
      refine ⟨?_, rfl, rfl, fun r hr => ?_⟩
      · rw [show (exes [op .mov rax (.mem .rsi (8 + 8 * i)), .misc (.not .rax)] t').reg .rax =
          ~~~ (t'.mem (t'.reg .rsi + BitVec.ofNat 64 (8 + 8 * i))) from rfl, cell_tail, hs1, x1]
      · simp only [exes, List.foldl_cons, List.foldl_nil]
        rw [exe_op .mov rfl]
        show upd (upd _ _ _) _ _ _ = _
        rw [upd_ne _ _ hr, upd_ne _ _ hr]) (n64 q) 0 le_rfl (by omega) (.refl (fun j => by omega) t)
  rw [Nat.zero_add] at p1
  obtain ⟨s', r1, r2⟩ := bit_end (env := env) (ra := ra) (w := maskTop q (mpn_com a.longVal))
    keeps_notRax h hk hF h0 oo.toRes p1
    (firsts_mask (by rw [← lim]; simp [mpn_com, rd_length]) fun i hi => by
      simp only [← lim, mpn_com, List.getElem_map, rd_getElem]; rfl) []
  rw [List.append_nil] at r1
  exact ⟨s', by rw [notTail, ← r1, ← e1, List.range_eq_range'], r2⟩

/-- The limbs the portable `bnot` complements. -/
def notArg (q : Nat) (u a : Elem) : Limbs :=
  if a.long then if a.mont then (toNormalInto q u a).longVal else a.longVal else (toLongNormalInto q u a).longVal

theorem bnot_elem (q : Nat) (u : Elem) (m : Mem) (r a : Nat) : Fr_bnot q u m r a r =
    { (m.setTy r true false) r with longVal := rawNot q (notArg q u (m.setTy r true false a)) } := by
  rw [Fr_bnot, notArg]
  cases hl : (m.setTy r true false a).long <;> cases hm : (m.setTy r true false a).mont <;>
    simp [hl, hm, Mem.setLong, Mem.set, toNormalInto, toLongNormalInto]

/-- The assembly `bnot` computes exactly what the portable one computes. -/
theorem bnotCode_run (hq : q % 2 = 1) (h0 : 0 < n64 q) (h7' : FromOk q (elemAt (n64 q) s.mem (s.reg .rsi))) (u : Elem)
    (h : TArgs q F s) (ha : TOpnd q F s (s.reg .rsi)) (hF : cmpCells q ≤ F) :
    ∃ s', run (lib q ra) ra (bnotCode (n64 q)) s = some s' ∧
      TRet q F s s' (Fr_bnot q u (absMem (n64 q) s.mem) (s.reg .rdi).toNat (s.reg .rsi).toNat (s.reg .rdi).toNat) := by
  unfold cmpCells at hF
  have hN := toNormal_spec (q := q) (F := callCells q) (ra := ra) hq le_rfl
  have hL := toLong_spec (q := q) (F := callCells q) (ra := ra) hq le_rfl
  have g0 : 3 + n64 q + 3 + (callCells q + 1) ≤ F := by omega
  have gb : callCells q ≤ callCells q + 1 := by omega
  obtain ⟨t, e, oo⟩ := enter1_run (env := lib q ra) (ra := ra) h ha (by omega) 0x80
  replace oo : Op1 q F 3 s t ((absMem (n64 q) s.mem).setTy (s.reg .rdi).toNat true false (s.reg .rdi).toNat)
        ((absMem (n64 q) s.mem).setTy (s.reg .rdi).toNat true false (s.reg .rsi).toNat) := oo
  have hA : FromOk q ((absMem (n64 q) s.mem).setTy (s.reg .rdi).toNat true false (s.reg .rsi).toNat) := FromOk.setTy (by rw [absMem_at]; exact h7')
  rw [bnot_elem, notArg]
  generalize ((absMem (n64 q) s.mem).setTy (s.reg .rdi).toNat true false (s.reg .rdi).toNat) = R at *
  generalize ((absMem (n64 q) s.mem).setTy (s.reg .rdi).toNat true false (s.reg .rsi).toNat) = A at *
  have eq : bnotCode (n64 q) = enter ++ (setTypeDest 0x80 ++ ([op .mov rax (.mem .rsi 0)] ++ .misc (.bt .rax 63) :: .jump .carry "l1" ::
      .label "s" :: (convA (n64 q) "toLongNormal" ++ (.jump .always "l1n" ::
      .label "l1" :: .misc (.bt .rax 62) :: .jump .ncarry "l1n" :: .label "l1m" :: (convA (n64 q) "toNormal" ++ (.label "l1n" :: notTail (n64 q)))))) ) := by
    rw [bnotCode, notTail]; simp only [List.append_assoc, List.cons_append, List.nil_append]
  obtain ⟨t1, ht1⟩ : ∃ t1, t1 = exes [op .mov rax (.mem .rsi 0)] t := ⟨_, rfl⟩
  have m1 : Move t t1 := ht1 ▸ exes_move rfl
  have o1 : Op1 q F 3 s t1 R A := oo.move m1 (by asm ht1) (by asm ht1)
  have k1 : t1.reg .rax = t.mem (t.reg .rsi) := by asm ht1
  have l1 : (t1.reg .rax).getLsbD 63 = A.long := by rw [k1, ← oo.a]; rfl
  have l2 : (t1.reg .rax).getLsbD 62 = A.mont := by rw [k1, ← oo.a]; rfl
  rw [eq, e, run_exes _ rfl, ← ht1]
  cases hl : A.long
  · rw [hl] at l1
    simp only [Bool.false_eq_true, if_false]
    obtain ⟨t2, a2, e2, ⟨w, rfl⟩, o2⟩ := (o1.move (t' := Misc.exec (.bt .rax 63) t1) ⟨rfl, rfl, rfl, fun _ _ => rfl⟩ rfl rfl).convA h hL (by omega) g0 gb
    rw [← toLong_long q A u w, run_bt_f l1, run_label, e2, run_always, dropTo_label, if_neg (by decide), dropTo_bt, dropTo_jump, dropTo_label,
      if_neg (by decide), dropTo_convA, dropTo_self]
    exact notTail_run h (by omega) (by omega) h0 o2
  · rw [hl] at l1
    simp only [if_true]
    rw [run_bt_t l1, dropTo_label, if_neg (by decide), dropTo_convA, dropTo_jump, dropTo_self]
    show ∃ s', run _ _ ([.misc (.bt .rax 62)] ++ .jump .ncarry "l1n" :: _) _ = _ ∧ _
    obtain ⟨t2, ht2⟩ : ∃ t2, t2 = exes [.misc (.bt .rax 62)] (Misc.exec (.bt .rax 63) t1) := ⟨_, rfl⟩
    have f2 : t2.fl.cf = A.mont := by rw [ht2, ← l2]; rfl
    have o2 : Op1 q F 3 s t2 R A := o1.move ⟨by rw [ht2]; rfl, by rw [ht2]; rfl, by rw [ht2]; rfl, fun _ _ => by rw [ht2]; rfl⟩ (by rw [ht2]; rfl) (by rw [ht2]; rfl)
    rw [run_exes _ rfl, ← ht2, run_jump, Cond.holds, f2]
    cases hm : A.mont
    · simp only [Bool.not_false, Bool.false_eq_true, if_true, if_false]
      rw [dropTo_label, if_neg (by decide), dropTo_convA, dropTo_self]
      exact notTail_run h (by omega) (by omega) h0 o2
    · simp only [Bool.not_true, Bool.false_eq_true, if_true, if_false]
      obtain ⟨t3, a3, e3, ⟨w, rfl⟩, o3⟩ := o2.convA h hN (by omega) g0 gb
      rw [← toNormal_any q A u w, run_label, e3, run_label]
      exact notTail_run h (by omega) (by omega) h0 o3

end bnot

end FF.X86
