import Verif.AsmCmpRun
import Verif.AsmMulRun

/-!
# The comparisons of the generated assembly equal the portable ones
-/

namespace FF.X86

section main

variable {q F F' k n : Nat} {ra : BitVec 64} {s t : State} {env : String → Option (State → Option State)} {m : Mem} {r a b : Elem}

/-- The conversions of `rgt` and `rlt`, then the tail. -/
theorem ordCase_run {T rest : List Line} {P : State → Limbs → Limbs → Prop} (hq : q % 2 = 1)
    (h7a : FromOk q a) (h7b : FromOk q b) (h : TArgs q F s) (hF : cmpCells q ≤ F) (u : Elem)
    (o : Ops q F 3 s t r a b) (hT : dropTo "L1L2" rest = T) (hl : (a.long || b.long) = true)
    (htail : ∀ k t a b, k ≤ F → Ops q F k s t r a b → ∃ s', run (lib q ra) ra T t = some s' ∧ P s' a.longVal b.longVal) :
    ∃ s', run (lib q ra) ra (cmpCase (n64 q) (convB (n64 q) "toLongNormal" ++ convA (n64 q) "toNormal")
      (convA (n64 q) "toLongNormal" ++ convB (n64 q) "toNormal") (convB (n64 q) "toNormal") (convA (n64 q) "toNormal")
      (convA (n64 q) "toNormal" ++ convB (n64 q) "toNormal") a.long a.mont b.long b.mont ++ .jump .always "L1L2" :: rest) t = some s' ∧
      P s' (if a.long then if a.mont then (toNormalInto q u a).longVal else a.longVal else (toLongNormalInto q u a).longVal)
        (if b.long then if b.mont then (toNormalInto q u b).longVal else b.longVal else (toLongNormalInto q u b).longVal) := by
  unfold cmpCells at hF
  have hN := toNormal_spec (q := q) (F := callCells q) (ra := ra) hq le_rfl
  have hL := toLong_spec (q := q) (F := callCells q) (ra := ra) hq le_rfl
  have g0 : 3 + n64 q + 3 + (callCells q + 1) ≤ F := by omega
  have g1 : 3 + n64 q + 1 + n64 q + 3 + (callCells q + 1) ≤ F := by omega
  have gb : callCells q ≤ callCells q + 1 := by omega
  rw [cmpCase]
  cases hal : a.long
  · cases hbl : b.long
    · rw [hal, hbl] at hl; exact absurd hl (by decide)
    simp only [Bool.false_eq_true, if_false, if_true]
    obtain ⟨t1, a1, e1, ⟨w, rfl⟩, o1⟩ := o.convA h hL (by omega) g0 gb
    rw [← toLong_long q a u w]
    cases hbm : b.mont
    · simp only [Bool.false_eq_true, if_false]
      rw [e1, run_always, hT]
      exact htail _ _ _ _ (by omega) o1
    · simp only [if_true]
      obtain ⟨t2, b1, e2, ⟨w2, rfl⟩, o2⟩ := o1.convB h hN (by omega) g1 gb
      rw [← toNormal_long q u w2 hbl hbm, List.append_assoc, e1, e2, run_always, hT]
      exact htail _ _ _ _ (by omega) o2
  · simp only [if_true]
    cases hbl : b.long
    · simp only [Bool.false_eq_true, if_false]
      obtain ⟨t1, b1, e1, ⟨w, rfl⟩, o1⟩ := o.convB h hL (by omega) g0 gb
      rw [← toLong_long q b u w]
      cases ham : a.mont
      · simp only [Bool.false_eq_true, if_false]
        rw [e1, run_always, hT]
        exact htail _ _ _ _ (by omega) o1
      · simp only [if_true]
        obtain ⟨t2, b1, e2, ⟨w2, rfl⟩, o2⟩ := o1.convA h hN (by omega) g1 gb
        rw [← toNormal_long q u w2 hal ham, List.append_assoc, e1, e2, run_always, hT]
        exact htail _ _ _ _ (by omega) o2
    · simp only [if_true]
      cases ham : a.mont <;> cases hbm : b.mont <;> simp only [Bool.false_eq_true, if_false, if_true]
      · rw [List.nil_append, run_always, hT]
        exact htail _ _ _ _ (by omega) o
      · obtain ⟨t2, b1, e2, ⟨w2, rfl⟩, o2⟩ := o.convB h hN (by omega) g0 gb
        rw [← toNormal_long q u w2 hbl hbm, e2, run_always, hT]
        exact htail _ _ _ _ (by omega) o2
      · obtain ⟨t2, b1, e2, ⟨w2, rfl⟩, o2⟩ := o.convA h hN (by omega) g0 gb
        rw [← toNormal_long q u w2 hal ham, e2, run_always, hT]
        exact htail _ _ _ _ (by omega) o2
      · obtain ⟨t1, b1, e1, ⟨w1, rfl⟩, o1⟩ := o.convA h hN (by omega) g0 gb
        obtain ⟨t2, b1, e2, ⟨w2, rfl⟩, o2⟩ := o1.convB h hN (by omega) g1 gb
        rw [← toNormal_long q u w1 hal ham, ← toNormal_long q u w2 hbl hbm, List.append_assoc, e1, e2, run_always, hT]
        exact htail _ _ _ _ (by omega) o2

/-- The values the order comparisons compare. -/
theorem rgt_eq (q : Nat) (u a b : Elem) : Fr_rgt q u a b = if (a.long || b.long) = true then
    rgtL1L2 q (if a.long then if a.mont then (toNormalInto q u a).longVal else a.longVal else (toLongNormalInto q u a).longVal)
      (if b.long then if b.mont then (toNormalInto q u b).longVal else b.longVal else (toLongNormalInto q u b).longVal)
    else decide (a.shortVal.toInt > b.shortVal.toInt) := by
  rw [Fr_rgt]
  cases a.long <;> cases b.long <;> cases a.mont <;> cases b.mont <;> rfl

theorem rlt_eq (q : Nat) (u a b : Elem) : Fr_rlt q u a b = if (a.long || b.long) = true then
    rltL1L2 q (if a.long then if a.mont then (toNormalInto q u a).longVal else a.longVal else (toLongNormalInto q u a).longVal)
      (if b.long then if b.mont then (toNormalInto q u b).longVal else b.longVal else (toLongNormalInto q u b).longVal)
    else decide (a.shortVal.toInt < b.shortVal.toInt) := by
  rw [Fr_rlt]
  cases a.long <;> cases b.long <;> cases a.mont <;> cases b.mont <;> rfl

theorem ordT0 {D : List Line} (lp ln : String) (hD : ∀ l p, dropTo l (D ++ p) = dropTo l p) (n : Nat) :
    (∃ X, dropTo "ret0" (signs n lp ln ++ D ++ cmpRet0 ++ cmpRet1) = op .xor rax rax :: (leave ++ X)) ∧
    ∃ X, dropTo "ret1" (signs n lp ln ++ D ++ cmpRet0 ++ cmpRet1) = op .mov rax (.imm 1) :: (leave ++ X) := by
  have hds : ∀ l r0 pos neg p, dropTo l (signL n r0 pos neg ++ p) = dropTo l p := by
    intro l r0 pos neg p
    refine dropTo_down l _ (fun i p => ?_) p _
    by_cases h : i > 0 <;> simp [h, dropTo, op]
  have : ∀ l, l ∉ ["p1", "n1", "RawL1L2"] → dropTo l (signs n lp ln ++ D ++ cmpRet0 ++ cmpRet1) = dropTo l (cmpRet0 ++ cmpRet1) := by
    intro l hl
    simp only [List.mem_cons, List.not_mem_nil, or_false, not_or] at hl
    rw [signs]
    simp only [List.append_assoc, List.cons_append, List.nil_append, hds, dropTo_label, hD, Ne.symm hl.1, Ne.symm hl.2.1, Ne.symm hl.2.2, if_false]
  exact ⟨⟨_, (this _ (by decide)).trans rfl⟩, ⟨[], (this _ (by decide)).trans rfl⟩⟩

/-- The assembly `rgt` computes exactly what the portable one computes. -/
theorem rgtCode_run (hq : q % 2 = 1) (hn : 0 < n64 q) (h7a : FromOk q (elemAt (n64 q) s.mem (s.reg .rsi)))
    (h7b : FromOk q (elemAt (n64 q) s.mem (s.reg .rdx))) (u : Elem)
    (h : TArgs q F s) (ha : TOpnd q F s (s.reg .rsi)) (hb : TOpnd q F s (s.reg .rdx)) (hF : cmpCells q ≤ F) :
    ∃ s', run (lib q ra) ra (rgtCode (n64 q)) s = some s' ∧ CmpRet q F s s' (absMem (n64 q) s.mem (s.reg .rdi).toNat)
      (Fr_rgt q u (absMem (n64 q) s.mem (s.reg .rsi).toNat) (absMem (n64 q) s.mem (s.reg .rdx).toNat)) := by
  have h3 : 3 ≤ F := by unfold cmpCells at hF; omega
  obtain ⟨c0, c1⟩ := ordT0 "ret1" "ret0" (D := down (fun i => [op .mov rax (.mem .rsi (8 + 8 * i)), op .cmp (.mem .rdx (8 + 8 * i)) rax, .jump .carry "ret1"] ++
    if i > 0 then [.jump .nzero "ret0"] else []) (n64 q)) (fun l p => dropTo_down l _ (fun i p => by by_cases h : i > 0 <;> simp [h, dropTo, op]) p _) (n64 q)
  refine cmpCode_run h ha hb h3 ((noLabel_convB _ _).app (noLabel_convA _ _)) ((noLabel_convA _ _).app (noLabel_convB _ _))
    (noLabel_convB _ _) (noLabel_convA _ _) ((noLabel_convA _ _).app (noLabel_convB _ _)) c0 c1 rfl (fun e1 e2 f => ?_) fun t rest o hT hl => ?_
  · rw [greater32, rgt_eq, e1, e2]; rfl
  · rw [rgt_eq, if_pos hl]
    exact ordCase_run (P := fun s' x y => CmpRet q F s s' (absMem (n64 q) s.mem (s.reg .rdi).toNat) (rgtL1L2 q x y)) hq (by rw [absMem_at]; exact h7a) (by rw [absMem_at]; exact h7b) h hF u o hT hl
      fun k t a b hk o => rgtTail_run h o hk hn

/-- The assembly `rlt` computes exactly what the portable one computes. -/
theorem rltCode_run (hq : q % 2 = 1) (hn : 0 < n64 q) (h7a : FromOk q (elemAt (n64 q) s.mem (s.reg .rsi)))
    (h7b : FromOk q (elemAt (n64 q) s.mem (s.reg .rdx))) (u : Elem)
    (h : TArgs q F s) (ha : TOpnd q F s (s.reg .rsi)) (hb : TOpnd q F s (s.reg .rdx)) (hF : cmpCells q ≤ F) :
    ∃ s', run (lib q ra) ra (rltCode (n64 q)) s = some s' ∧ CmpRet q F s s' (absMem (n64 q) s.mem (s.reg .rdi).toNat)
      (Fr_rlt q u (absMem (n64 q) s.mem (s.reg .rsi).toNat) (absMem (n64 q) s.mem (s.reg .rdx).toNat)) := by
  have h3 : 3 ≤ F := by unfold cmpCells at hF; omega
  obtain ⟨c0, c1⟩ := ordT0 "ret0" "ret1" (D := down (fun i => [op .mov rax (.mem .rsi (8 + 8 * i)), op .cmp (.mem .rdx (8 + 8 * i)) rax, .jump .carry "ret0",
    .jump .nzero "ret1"]) (n64 q)) (fun l p => dropTo_down l _ (fun i p => rfl) p _) (n64 q)
  refine cmpCode_run h ha hb h3 ((noLabel_convB _ _).app (noLabel_convA _ _)) ((noLabel_convA _ _).app (noLabel_convB _ _))
    (noLabel_convB _ _) (noLabel_convA _ _) ((noLabel_convA _ _).app (noLabel_convB _ _)) c0 c1 rfl (fun e1 e2 f => ?_) fun t rest o hT hl => ?_
  · rw [less32, rlt_eq, e1, e2]; rfl
  · rw [rlt_eq, if_pos hl]
    exact ordCase_run (P := fun s' x y => CmpRet q F s s' (absMem (n64 q) s.mem (s.reg .rdi).toNat) (rltL1L2 q x y)) hq (by rw [absMem_at]; exact h7a) (by rw [absMem_at]; exact h7b) h hF u o hT hl
      fun k t a b hk o => rltTail_run h o hk hn

/-- The conversions of `req`, then the tail. -/
theorem eqCase_run {T rest : List Line} {P : State → Bool → Prop} (hq : q % 2 = 1)
    (h7 : MixOk q a b) (h : TArgs q F s) (hF : cmpCells q ≤ F) (u : Elem)
    (o : Ops q F 3 s t r a b) (hT : dropTo "L1L2" rest = T) (hl : (a.long || b.long) = true)
    (htail : ∀ k t a b, k ≤ F → Ops q F k s t r a b → ∃ s', run (lib q ra) ra T t = some s' ∧ P s' (reqL1L2 a.longVal b.longVal)) :
    ∃ s', run (lib q ra) ra (cmpCase (n64 q) (convB (n64 q) "toMontgomery") (convA (n64 q) "toMontgomery") (convA (n64 q) "toMontgomery")
      (convB (n64 q) "toMontgomery") [] a.long a.mont b.long b.mont ++ .jump .always "L1L2" :: rest) t = some s' ∧ P s' (Fr_req q u a b) := by
  unfold cmpCells at hF
  have hM := toMont_spec (q := q) (F := callCells q) (ra := ra) hq le_rfl
  have hL := toLong_spec_short (q := q) (F := callCells q) (ra := ra) hq le_rfl
  have g0 : 3 + n64 q + 3 + (callCells q + 1) ≤ F := by omega
  have gb : callCells q ≤ callCells q + 1 := by omega
  have k0 := htail _ _ _ _ (by omega) o
  have k1 := fun hs : b.mont = true => o.convA h hM (by omega) g0 gb (h7.1 hs)
  have k3 := fun hs : a.mont = true => o.convB h hM (by omega) g0 gb (h7.2 hs)
  have kA := fun hs : a.long = false => o.convA h hL (by omega) g0 gb hs
  have kB := fun hs : b.long = false => o.convB h hL (by omega) g0 gb hs
  rw [cmpCase, Fr_req]
  clear h7
  revert hl kA kB k1 k3
  cases a.long <;> cases a.mont <;> cases b.long <;> cases b.mont <;> intro hl k1 k3 kA kB <;>
    first
    | exact absurd hl (by decide)
    | simp only [Bool.false_eq_true, if_false, if_true, List.nil_append, run_always, hT]
      exact k0
    | obtain ⟨t1, a1, e1, rfl, o1⟩ := k1 rfl
      have k1 := htail _ _ _ _ (by omega) o1
      rw [toMont_long_eq q u] at k1
      simp only [Bool.false_eq_true, if_false, if_true, e1, run_always, hT]
      exact k1
    | obtain ⟨t3, b1, e3, rfl, o3⟩ := k3 rfl
      have k3 := htail _ _ _ _ (by omega) o3
      rw [toMont_long_eq q u] at k3
      simp only [Bool.false_eq_true, if_false, if_true, e3, run_always, hT]
      exact k3
    | obtain ⟨t2, a2, e2, ⟨w2, rfl⟩, o2⟩ := kA rfl
      have k2 := htail _ _ _ _ (by omega) o2
      rw [toLong_long q _ u] at k2
      simp only [Bool.false_eq_true, if_false, if_true, e2, run_always, hT]
      exact k2
    | obtain ⟨t2, a2, e2, ⟨w2, rfl⟩, o2⟩ := kB rfl
      have k2 := htail _ _ _ _ (by omega) o2
      rw [toLong_long q _ u] at k2
      simp only [Bool.false_eq_true, if_false, if_true, e2, run_always, hT]
      exact k2

/-- The assembly `req` computes exactly what the portable one computes. -/
theorem reqCode_run (hq : q % 2 = 1) (u : Elem)
    (h7 : MixOk q (absMem (n64 q) s.mem (s.reg .rsi).toNat) (absMem (n64 q) s.mem (s.reg .rdx).toNat))
    (h : TArgs q F s) (ha : TOpnd q F s (s.reg .rsi)) (hb : TOpnd q F s (s.reg .rdx)) (hF : cmpCells q ≤ F) :
    ∃ s', run (lib q ra) ra (reqCode (n64 q)) s = some s' ∧ CmpRet q F s s' (absMem (n64 q) s.mem (s.reg .rdi).toNat)
      (Fr_req q u (absMem (n64 q) s.mem (s.reg .rsi).toNat) (absMem (n64 q) s.mem (s.reg .rdx).toNat)) := by
  have h3 : 3 ≤ F := by unfold cmpCells at hF; omega
  have hd : ∀ l p, dropTo l (((List.range (n64 q)).flatMap fun i => [op .mov rax (.mem .rsi (8 + 8 * i)), op .cmp (.mem .rdx (8 + 8 * i)) rax,
      .jump .nzero "ret0"]) ++ cmpRet1 ++ cmpRet0 ++ p) = dropTo l (cmpRet1 ++ cmpRet0 ++ p) := by
    intro l p
    rw [List.append_assoc, List.append_assoc, List.append_assoc]
    exact dropTo_flat _ _ (fun _ _ => rfl) _ _
  refine cmpCode_run h ha hb h3 (noLabel_convB _ _) (noLabel_convA _ _) (noLabel_convA _ _) (noLabel_convB _ _) (fun _ _ => rfl)
    ⟨[], ?_⟩ ⟨cmpRet0, ?_⟩ rfl (fun e1 e2 f => ?_) fun t rest o hT hl => ?_
  · have := hd "ret0" []; rw [List.append_nil] at this; exact this.trans rfl
  · have := hd "ret1" []; rw [List.append_nil] at this; exact this.trans rfl
  · rw [equal32, Fr_req, e1, e2]; rfl
  · exact eqCase_run (P := fun s' v => CmpRet q F s s' (absMem (n64 q) s.mem (s.reg .rdi).toNat) v) hq h7 h hF u o hT hl
      fun k t a b _ o => reqTail_run o

/-! ## The routines that store the result -/

/-- A comparison routine of the library. -/
def CmpSpec (q F : Nat) (ra : BitVec 64) (env : String → Option (State → Option State)) (f : String) (g : Elem → Elem → Bool)
    (P : Elem → Elem → Prop := fun _ _ => True) : Prop :=
  ∀ t, TArgs q (F + 1) t → TOpnd q (F + 1) t (t.reg .rsi) → TOpnd q (F + 1) t (t.reg .rdx) →
    P (elemAt (n64 q) t.mem (t.reg .rsi)) (elemAt (n64 q) t.mem (t.reg .rdx)) → ∃ t', (∀ p, run env ra (.call f :: p) t = run env ra p t') ∧
    Called (F + 1) (t.reg .rdi) (n64 q + 1) t t' ∧ elemAt (n64 q) t'.mem (t.reg .rdi) = elemAt (n64 q) t.mem (t.reg .rdi) ∧
    t'.reg .rax = if g (elemAt (n64 q) t.mem (t.reg .rsi)) (elemAt (n64 q) t.mem (t.reg .rdx)) then 1 else 0

theorem cmpSpec_of {f : String} {P : List Line} {g : Elem → Elem → Bool} {Q : Elem → Elem → Prop} (hf : env f = some (run (lib q ra) ra P)) (hF : callCells q ≤ F)
    (hP : ∀ s : State, TArgs q F s → TOpnd q F s (s.reg .rsi) → TOpnd q F s (s.reg .rdx) →
      Q (elemAt (n64 q) s.mem (s.reg .rsi)) (elemAt (n64 q) s.mem (s.reg .rdx)) → ∃ s', run (lib q ra) ra P s = some s' ∧
      CmpRet q F s s' (absMem (n64 q) s.mem (s.reg .rdi).toNat) (g (absMem (n64 q) s.mem (s.reg .rsi).toNat) (absMem (n64 q) s.mem (s.reg .rdx).toNat))) :
    CmpSpec q F ra env f g Q := by
  intro t h ha hb hQ
  have keep : ∀ p, TOpnd q (F + 1) t p → elemAt (n64 q) (pushVal ra t).mem p = elemAt (n64 q) t.mem p := fun p hp =>
    elemAt_congr fun x hx => push_mem _ _ (off_one (hp.off x hx) (by omega))
  obtain ⟨s', h1, h2, h3⟩ := hP (pushVal ra t) (h.push hF ra)
    (by rw [push_reg _ _ (by decide)]; exact ha.push ra) (by rw [push_reg _ _ (by decide)]; exact hb.push ra)
    (by rw [push_reg _ _ (by decide), push_reg _ _ (by decide), keep _ ha, keep _ hb]; exact hQ)
  obtain ⟨c1, c2, c3⟩ := called_of (env := env) (f := f) hf h1 h2
  simp only [absMem_at, push_reg _ _ (by decide : Reg.rdi ≠ .rsp), push_reg _ _ (by decide : Reg.rsi ≠ .rsp),
    push_reg _ _ (by decide : Reg.rdx ≠ .rsp), keep _ ha, keep _ hb, keep _ ⟨.inl rfl, h.dst.off⟩] at h3 c3
  exact ⟨s', c1, c2, c3, h3⟩

theorem store01 (v : Bool) : (if v then (1 : BitVec 64) else 0).setWidth 32 = (if v then (1 : BitVec 32) else 0) ∧
    (if v then (1 : BitVec 64) else 0).getLsbD 63 = false ∧ (if v then (1 : BitVec 64) else 0).getLsbD 62 = false := by
  cases v <;> decide

theorem storeBool_elem (m : Mem) (r : Nat) (v : Bool) : storeBool m r v r = { (m r) with shortVal := if v then 1 else 0, long := false, mont := false } := by
  rw [storeBool, Mem.setTy, set_same, Mem.setShort, set_same]

/-- The word `0` or `1` written to the tag of the result. -/
theorem put01_run {v : Bool} (h : TArgs q F s) (hc : Called F (s.reg .rdi) (n64 q + 1) s t)
    (he : elemAt (n64 q) t.mem (s.reg .rdi) = elemAt (n64 q) s.mem (s.reg .rdi)) (hv : t.reg .rax = if v then 1 else 0) (p : List Line) :
    ∃ s', run env ra (op .mov (.mem .rdi 0) rax :: .ret :: p) t = some s' ∧
      TRet q F s s' (storeBool (absMem (n64 q) s.mem) (s.reg .rdi).toNat v (s.reg .rdi).toNat) := by
  obtain ⟨t1, ht1⟩ : ∃ t1, t1 = exes [op .mov (.mem .rdi 0) rax] t := ⟨_, rfl⟩
  have h1 := h.called hc le_rfl
  obtain ⟨c3, o3⟩ := store_tag (v := t.reg .rax) h1 (t' := t1) (by asm ht1) (by asm ht1) (by asm ht1)
  rw [hc.rdi] at c3 o3
  show ∃ s', run env ra ([op .mov (.mem .rdi 0) rax] ++ .ret :: p) t = _ ∧ _
  rw [run_exes _ rfl, ← ht1]
  refine ret_of (hc.trans c3) ?_
  obtain ⟨z1, z2, z3⟩ := store01 v
  rw [o3, hv, z1, z2, z3, he, storeBool_elem, absMem_at]

theorem cmpStore_run {f : String} {g : Elem → Elem → Bool} {Q : Elem → Elem → Prop} (hf : CmpSpec q F ra env f g Q) (h : TArgs q (F + 1) s)
    (ha : TOpnd q (F + 1) s (s.reg .rsi)) (hb : TOpnd q (F + 1) s (s.reg .rdx))
    (hQ : Q (elemAt (n64 q) s.mem (s.reg .rsi)) (elemAt (n64 q) s.mem (s.reg .rdx))) :
    ∃ s', run env ra (cmpStore f) s = some s' ∧ TRet q (F + 1) s s' (storeBool (absMem (n64 q) s.mem) (s.reg .rdi).toNat
      (g (absMem (n64 q) s.mem (s.reg .rsi).toNat) (absMem (n64 q) s.mem (s.reg .rdx).toNat)) (s.reg .rdi).toNat) := by
  obtain ⟨t1, e1, c1, x1, v1⟩ := hf s h ha hb hQ
  rw [cmpStore, e1]
  simp only [absMem_at _ _ (s.reg .rsi), absMem_at _ _ (s.reg .rdx)]
  exact put01_run h c1 x1 v1 []

theorem cmpStoreNot_run {f : String} {g : Elem → Elem → Bool} {Q : Elem → Elem → Prop} (hf : CmpSpec q F ra env f g Q) (h : TArgs q (F + 1) s)
    (ha : TOpnd q (F + 1) s (s.reg .rsi)) (hb : TOpnd q (F + 1) s (s.reg .rdx))
    (hQ : Q (elemAt (n64 q) s.mem (s.reg .rsi)) (elemAt (n64 q) s.mem (s.reg .rdx))) :
    ∃ s', run env ra (cmpStoreNot f) s = some s' ∧ TRet q (F + 1) s s' (storeBool (absMem (n64 q) s.mem) (s.reg .rdi).toNat
      (!g (absMem (n64 q) s.mem (s.reg .rsi).toNat) (absMem (n64 q) s.mem (s.reg .rdx).toNat)) (s.reg .rdi).toNat) := by
  obtain ⟨t1, e1, c1, x1, v1⟩ := hf s h ha hb hQ
  rw [cmpStoreNot, e1]
  simp only [absMem_at _ _ (s.reg .rsi), absMem_at _ _ (s.reg .rdx)]
  obtain ⟨t2, ht2⟩ : ∃ t2, t2 = exes [op .xor rax (.imm 1)] t1 := ⟨_, rfl⟩
  have m2 : Move t1 t2 := ht2 ▸ exes_move rfl
  have d2 : t2.reg .rdi = t1.reg .rdi := by asm ht2
  have v2 : t2.reg .rax = if (!g (elemAt (n64 q) s.mem (s.reg .rsi)) (elemAt (n64 q) s.mem (s.reg .rdx))) then 1 else 0 := by
    have : t2.reg .rax = t1.reg .rax ^^^ 1 := by asm ht2
    rw [this, v1]
    cases g (elemAt (n64 q) s.mem (s.reg .rsi)) (elemAt (n64 q) s.mem (s.reg .rdx)) <;> rfl
  show ∃ s', run env ra ([op .xor rax (.imm 1)] ++ op .mov (.mem .rdi 0) rax :: .ret :: []) t1 = _ ∧ _
  rw [run_exes _ rfl, ← ht2]
  exact put01_run h (c1.then_move m2 d2) (by rw [m2.mem]; exact x1) v2 []

end main

end FF.X86
