import Verif.AsmRawProof

/-!
# Results of the raw listings
-/

namespace FF.X86

/-- Two arrays of `n` cells do not meet. -/
def Sep (a b : BitVec 64) (n : Nat) : Prop := ∀ i j, i < n → j < n → cell a i ≠ cell b j

/-- Two arrays of `n` cells are the same or do not meet. -/
def Alias (a b : BitVec 64) (n : Nat) : Prop := a = b ∨ Sep a b n

theorem Alias.ok {a d : BitVec 64} {n : Nat} (hn : 8 * n ≤ 2 ^ 64) (h : Alias a d n) (k m : Nat) (hk : k + m ≤ n) :
    (Src.arr a).ok d k m := by
  intro i j h1 h2 h3
  rcases h with rfl | h
  · intro e; have := cell_inj (by omega) (by omega) e; omega
  · exact h j i (by omega) (by omega)

/-- What a raw routine leaves behind: the result, every other cell as it was, the registers in `K` as they were. -/
structure RawPost (n : Nat) (K : Reg → Prop) (s s' : State) (out : Limbs) : Prop where
  out : rd s'.mem (s.reg .rdi) n = out
  frame : ∀ a, (∀ i, i < n → a ≠ cell (s.reg .rdi) i) → s'.mem a = s.mem a
  regs : ∀ r, K r → s'.reg r = s.reg r
  rsp : s'.reg .rsp = s.reg .rsp + 8

/-- The label `q` holds the limbs of the modulus. -/
def QLabel (q : Nat) (s : State) : Prop := rd s.mem (s.sym .q) (n64 q) = rawq q

theorem rd_eq_lims (m : BitVec 64 → BitVec 64) (a : BitVec 64) (n : Nat) : rd m a n = (Src.arr a).lims m 0 n := rfl

theorem rd_congr {m m' : BitVec 64 → BitVec 64} {a : BitVec 64} {n : Nat}
    (h : ∀ i, i < n → m (cell a i) = m' (cell a i)) : rd m a n = rd m' a n :=
  lims_congr (x := .arr a) (fun i _ h' => h i (by omega))

theorem addr_eq (a : BitVec 64) (i : Nat) : a + BitVec.ofNat 64 (8 * i) = cell a i := rfl

theorem bne_zero_b2n (b : Bool) : (b2n b != 0) = b := by cases b <;> rfl

/-! ## The tails: conditional subtraction and addition of `q` -/

/-- A pass of an arithmetic operation with its carry version for limbs other than the first. -/
def Arith (first next : Op2) (F : BitVec 64 → BitVec 64 → Bool → BitVec 64 × Bool) : Prop :=
  (∀ x y f, (first.eval x y f).1 = (F x y false).1 ∧ (first.eval x y f).2.cf = (F x y false).2) ∧
  (∀ x y f, (next.eval x y f).1 = (F x y f.cf).1 ∧ (next.eval x y f).2.cf = (F x y f.cf).2) ∧
  first.writes = true ∧ next.writes = true

theorem arith_add : Arith .add .adc addF := by
  refine ⟨fun x y f => ⟨?_, rfl⟩, fun x y f => ⟨rfl, rfl⟩, rfl, rfl⟩
  simp [Op2.eval, addF, b2n]

theorem arith_sub : Arith .sub .sbb subF := by
  refine ⟨fun x y f => ⟨?_, rfl⟩, fun x y f => ⟨rfl, rfl⟩, rfl, rfl⟩
  simp [Op2.eval, subF, b2n]

theorem Arith.sel {first next : Op2} {F : BitVec 64 → BitVec 64 → Bool → BitVec 64 × Bool} (h : Arith first next F)
    (i : Nat) (x y : BitVec 64) (f : Flags) :
    ((if i = 0 then first else next).eval x y f).1 = (F x y (if decide (i = 0) then false else f.cf)).1 ∧
    ((if i = 0 then first else next).eval x y f).2.cf = (F x y (if decide (i = 0) then false else f.cf)).2 ∧
    (if i = 0 then first else next).writes = true := by
  by_cases hi : i = 0
  · simp only [hi, if_true, decide_true]; exact ⟨(h.1 x y f).1, (h.1 x y f).2, h.2.2.1⟩
  · simp only [hi, if_false, decide_false, Bool.false_eq_true]
    exact ⟨(h.2.1 x y f).1, (h.2.1 x y f).2, h.2.2.2⟩

theorem step_op2 (o : Op2) (d s : Opd) (st : State) (h : o.writes = true) :
    step (i2 o d s) st
      = d.set (o.eval (d.get st) (s.get st) st.fl).1 { st with fl := (o.eval (d.get st) (s.get st) st.fl).2 } := by
  simp [step, i2, Ins.exec, h]

theorem step_mov (d s : Opd) (st : State) : step (i2 .mov d s) st = d.set (s.get st) st := rfl

theorem loopQ_iter {first next : Op2} {F : BitVec 64 → BitVec 64 → Bool → BitVec 64 × Bool} (h : Arith first next F)
    (s₀ : State) (i : Nat) :
    Iter F (.arr (s₀.reg .rdi)) (.arr (s₀.sym .q)) (s₀.reg .rdi) none notRax s₀.reg s₀.sym
      [i2 .mov rax (.sym .q (8 * i)), i2 (if i = 0 then first else next) (.mem .rdi (8 * i)) rax] i
      (decide (i = 0)) := by
  intro s hr hs
  obtain ⟨e1, e2, e3⟩ := h.sel i (s.mem (cell (s₀.reg .rdi) i)) (s.mem (cell (s₀.sym .q) i)) s.fl
  have hd : s.reg .rdi = s₀.reg .rdi := hr _ (by simp [notRax])
  simp only [steps, List.foldl_cons, List.foldl_nil]
  rw [step_op2 _ _ _ _ e3, step_mov]
  simp only [Opd.get, Opd.set, upd_same, hs, addr_eq, upd_ne _ _ (show Reg.rdi ≠ Reg.rax by decide), hd,
    Src.at]
  exact ⟨by rw [e1], e2, fun r hr => upd_ne _ _ hr, trivial, by simp⟩

theorem loopQ_run {first next : Op2} {F : BitVec 64 → BitVec 64 → Bool → BitVec 64 × Bool} (h : Arith first next F)
    (n : Nat) (hn : 8 * n ≤ 2 ^ 64) (h0 : 0 < n) (s : State) (hs : Sep (s.sym .q) (s.reg .rdi) n) :
    LoopPost F (.arr (s.reg .rdi)) (.arr (s.sym .q)) (s.reg .rdi) none notRax 0 n false s
      (steps (loopQ first next n) s) := by
  have := loop_run (F := F) (fst := fun i => decide (i = 0)) n 0 (by omega) (fun i _ _ => loopQ_iter h s i)
    (fun i hi => by simp; omega)
    (Alias.ok hn (.inl rfl) 0 n (by omega)) (Alias.ok hn (.inr hs) 0 n (by omega)) s (fun _ _ => rfl) rfl (by omega)
  simpa only [loopQ, List.range_eq_range', decide_true, if_true] using this

theorem lims_length (m : BitVec 64 → BitVec 64) (x : Src) (k n : Nat) : (x.lims m k n).length = n := by simp [Src.lims]

/-- The tail of the additions, behind the carry-producing loop. -/
def tailSub (n : Nat) : List Line := [.label "sq"] ++ code (loopQ .sub .sbb n) ++ [.label "done", .ret]

theorem tailSub_run (env : String → Option (State → Option State)) (ra : BitVec 64) {q : Nat} (n : Nat) (hn : 8 * n ≤ 2 ^ 64) (hq : n = n64 q) (s : State)
    (hQ : QLabel q s) (hs : Sep (s.sym .q) (s.reg .rdi) n) :
    ∃ s', run env ra (tailSub n) s = some s' ∧
      RawPost n (fun r => r ≠ .rax ∧ r ≠ .rsp) s s' (mpn_sub_n (rd s.mem (s.reg .rdi) n) (rawq q)).1 := by
  have h0 : 0 < n := by rw [hq]; exact n64_pos q
  have L := loopQ_run arith_sub n hn h0 s hs
  refine ⟨_, by rw [tailSub, List.append_assoc, List.cons_append, run_label, List.nil_append, run_code, run_label, run_ret], ?_⟩
  refine ⟨?_, ?_, ?_, ?_⟩
  · rw [rd_eq_lims]
    have := L.out
    rw [(pass_subF _ _ _ (by rw [lims_length, lims_length])).1] at this
    rw [this, mpn_sub_n, ← hQ, hq]; rfl
  · intro a ha; exact L.frame a (fun i _ h => ha i (by omega))
  · intro r hr; simp only [upd_ne _ _ hr.2]; exact L.regs r hr.1
  · simp only [upd_same]; rw [L.regs .rsp (by simp [notRax])]

/-- The tail of the additions from the carry flag on. -/
theorem tailCmp_run (env : String → Option (State → Option State)) (ra : BitVec 64) {q : Nat} (n : Nat) (hn : 8 * n ≤ 2 ^ 64) (hq : n = n64 q) (s : State)
    (hQ : QLabel q s) (hs : Sep (s.sym .q) (s.reg .rdi) n) :
    ∃ s', run env ra ([.jump .carry "sq"] ++ cmpQ n ++ tailSub n) s = some s' ∧
      RawPost n (fun r => r ≠ .rax ∧ r ≠ .rsp) s s' (condSub q s.fl.cf (rd s.mem (s.reg .rdi) n)) := by
  have hc : cmpQ n = down (fun i => Line.ins (i2 .mov rax (.mem .rdi (8 * i))) :: cmpStep i) n := by
    rw [cmpQ, ← flatMap_down]
  have hdrop : dropTo "sq" (tailSub n) = code (loopQ .sub .sbb n) ++ [.label "done", .ret] := rfl
  have hdone : dropTo "done" (tailSub n) = [.ret] := by
    rw [tailSub, List.append_assoc, List.cons_append, dropTo, if_neg (by decide), List.nil_append, dropTo_code, dropTo,
      if_pos rfl]
  have hlab : ∀ t : State, run env ra (code (loopQ .sub .sbb n) ++ [.label "done", .ret]) t = run env ra (tailSub n) t := by
    intro t; rw [tailSub, List.append_assoc, List.cons_append, run_label]; rfl
  rw [List.append_assoc, List.cons_append, run_jump, List.nil_append, hc, dropTo_cmp, hdrop, hlab]
  cases hcf : s.fl.cf with
  | true =>
    rw [if_pos (by simpa [Cond.holds] using hcf)]
    obtain ⟨s', h1, h2⟩ := tailSub_run env ra n hn hq s hQ hs
    exact ⟨s', h1, by simpa [condSub] using h2⟩
  | false =>
    rw [if_neg (by simp [Cond.holds, hcf])]
    obtain ⟨t, hA, ht⟩ := cmp_run env ra (tailSub n) n s
    rw [ht]
    have hQt : QLabel q t := by unfold QLabel; rw [hA.mem, hA.sym]; exact hQ
    have hdi : t.reg .rdi = s.reg .rdi := hA.regs _ (by simp [notRax])
    have hqn : rd s.mem (s.sym .q) n = rawq q := by rw [hq]; exact hQ
    have hlen : (rd s.mem (s.reg .rdi) n).length = (rawq q).length := by rw [← hqn, rd_length, rd_length]
    have lift : ∀ {s' : State} {o : Limbs}, RawPost n (fun r => r ≠ .rax ∧ r ≠ .rsp) t s' o →
        RawPost n (fun r => r ≠ .rax ∧ r ≠ .rsp) s s' o := by
      intro s' o h
      refine ⟨by rw [← hdi]; exact h.out, ?_, ?_, ?_⟩
      · intro a ha; rw [h.frame a (by rwa [hdi]), hA.mem]
      · intro r hr; rw [h.regs r hr, hA.regs r hr.1]
      · rw [h.rsp, hA.regs .rsp (by simp [notRax])]
    have hsub : ∃ s', run env ra (tailSub n) t = some s' ∧
        RawPost n (fun r => r ≠ .rax ∧ r ≠ .rsp) s s' (mpn_sub_n (rd s.mem (s.reg .rdi) n) (rawq q)).1 := by
      obtain ⟨s', h1, h2⟩ := tailSub_run env ra n hn hq t hQt (by rw [hA.sym, hdi]; exact hs)
      refine ⟨s', h1, ?_⟩
      rw [hdi, hA.mem] at h2
      exact lift h2
    rw [hqn]
    rcases lt_trichotomy (val (rd s.mem (s.reg .rdi) n)) (val (rawq q)) with h | h | h
    · rw [compare_lt_iff_lt.mpr h, after, hdone, run_ret]
      refine ⟨_, rfl, lift ⟨?_, fun _ _ => rfl, fun r hr => upd_ne _ _ hr.2, by simp only [upd_same]⟩⟩
      have : cmpGe (rd s.mem (s.reg .rdi) n) (rawq q) = false := by
        rw [Bool.eq_false_iff]; intro e; rw [cmpGe_iff _ _ hlen] at e; omega
      rw [condSub, this, hA.mem, hdi]; rfl
    · have : cmpGe (rd s.mem (s.reg .rdi) n) (rawq q) = true := by rw [cmpGe_iff _ _ hlen]; omega
      rw [compare_eq_iff_eq.mpr h, after, condSub, this]
      simpa using hsub
    · have : cmpGe (rd s.mem (s.reg .rdi) n) (rawq q) = true := by rw [cmpGe_iff _ _ hlen]; omega
      rw [compare_gt_iff_gt.mpr h, after, hdrop, hlab, condSub, this]
      simpa using hsub

/-- The tail of the subtractions. -/
theorem tailAdd_run (env : String → Option (State → Option State)) (ra : BitVec 64) {q : Nat} (n : Nat) (hn : 8 * n ≤ 2 ^ 64) (hq : n = n64 q) (s : State)
    (hQ : QLabel q s) (hs : Sep (s.sym .q) (s.reg .rdi) n) :
    ∃ s', run env ra ([.jump .ncarry "done", .label "aq"] ++ code (loopQ .add .adc n) ++ [.label "done", .ret]) s = some s' ∧
      RawPost n (fun r => r ≠ .rax ∧ r ≠ .rsp) s s' (condAdd q s.fl.cf (rd s.mem (s.reg .rdi) n)) := by
  have h0 : 0 < n := by rw [hq]; exact n64_pos q
  have hd : dropTo "done" (Line.label "aq" :: (code (loopQ .add .adc n) ++ [.label "done", .ret])) = [.ret] := by
    rw [dropTo, if_neg (by decide), dropTo_code, dropTo, if_pos rfl]
  rw [List.append_assoc, List.cons_append, run_jump, List.cons_append, List.nil_append, hd, run_label, run_code,
    run_ret, run_label, run_ret, Cond.holds]
  cases hcf : s.fl.cf with
  | false =>
    refine ⟨_, rfl, ?_, fun _ _ => rfl, fun r hr => upd_ne _ _ hr.2, by simp only [upd_same]⟩
    rw [condAdd]; rfl
  | true =>
    have L := loopQ_run arith_add n hn h0 s hs
    refine ⟨_, rfl, ?_, ?_, ?_, ?_⟩
    · rw [rd_eq_lims]
      have := L.out
      rw [(pass_addF _ _ _ (by rw [lims_length, lims_length])).1] at this
      rw [condAdd, if_pos rfl]
      simp only
      rw [this, mpn_add_n, ← hQ, hq]; rfl
    · intro a ha; exact L.frame a (fun i _ h => ha i (by omega))
    · intro r hr; simp only [upd_ne _ _ hr.2]; exact L.regs r hr.1
    · simp only [upd_same]; rw [L.regs .rsp (by simp [notRax])]

/-! ## Loop followed by a tail -/

section comp
variable {F : BitVec 64 → BitVec 64 → Bool → BitVec 64 × Bool} {x y : Src} {w : Option Reg} {K : Reg → Prop} {n : Nat}
  {c : Bool} {s s1 : State} {q : Nat}

theorem qLabel_of_frame {d : BitVec 64} {n : Nat} (hq : n = n64 q) (hQ : QLabel q s) (hs : Sep (s.sym .q) d n)
    (hf : ∀ a, (∀ i, 0 ≤ i → i < 0 + n → a ≠ cell d i) → s1.mem a = s.mem a) (hsym : s1.sym = s.sym) : QLabel q s1 := by
  unfold QLabel
  rw [hsym, ← hQ, ← hq]
  exact rd_congr fun i hi => hf _ fun j _ hj => hs i j hi (by omega)

theorem comp_sub (env : String → Option (State → Option State)) (ra : BitVec 64) (hn : 8 * n ≤ 2 ^ 64)
    (hq : n = n64 q) (L : LoopPost F x y (s.reg .rdi) w K 0 n c s s1) (hK : K .rdi ∧ K .rsp) (hQ : QLabel q s)
    (hs : Sep (s.sym .q) (s.reg .rdi) n) :
    ∃ s', run env ra ([.jump .carry "sq"] ++ cmpQ n ++ tailSub n) s1 = some s' ∧
      RawPost n (fun r => K r ∧ r ≠ .rax ∧ r ≠ .rsp) s s'
        (condSub q (pass F (x.lims s.mem 0 n) (y.lims s.mem 0 n) c).2 (pass F (x.lims s.mem 0 n) (y.lims s.mem 0 n) c).1) := by
  have hdi := L.regs _ hK.1
  obtain ⟨s', h1, h2⟩ := tailCmp_run env ra n hn hq s1 (qLabel_of_frame hq hQ hs L.frame L.sym) (by rw [L.sym, hdi]; exact hs)
  refine ⟨s', h1, ?_, ?_, ?_, ?_⟩
  · rw [← hdi, h2.out, L.carry, hdi, rd_eq_lims, L.out]
  · intro a ha; rw [h2.frame a (by rwa [hdi]), L.frame a (fun i _ h => ha i (by omega))]
  · intro r hr; rw [h2.regs r hr.2, L.regs r hr.1]
  · rw [h2.rsp, L.regs _ hK.2]

theorem comp_add (env : String → Option (State → Option State)) (ra : BitVec 64) (hn : 8 * n ≤ 2 ^ 64)
    (hq : n = n64 q) (L : LoopPost F x y (s.reg .rdi) w K 0 n c s s1) (hK : K .rdi ∧ K .rsp) (hQ : QLabel q s)
    (hs : Sep (s.sym .q) (s.reg .rdi) n) :
    ∃ s', run env ra ([.jump .ncarry "done", .label "aq"] ++ code (loopQ .add .adc n) ++ [.label "done", .ret]) s1 = some s' ∧
      RawPost n (fun r => K r ∧ r ≠ .rax ∧ r ≠ .rsp) s s'
        (condAdd q (pass F (x.lims s.mem 0 n) (y.lims s.mem 0 n) c).2 (pass F (x.lims s.mem 0 n) (y.lims s.mem 0 n) c).1) := by
  have hdi := L.regs _ hK.1
  obtain ⟨s', h1, h2⟩ := tailAdd_run env ra n hn hq s1 (qLabel_of_frame hq hQ hs L.frame L.sym) (by rw [L.sym, hdi]; exact hs)
  refine ⟨s', h1, ?_, ?_, ?_, ?_⟩
  · rw [← hdi, h2.out, L.carry, hdi, rd_eq_lims, L.out]
  · intro a ha; rw [h2.frame a (by rwa [hdi]), L.frame a (fun i _ h => ha i (by omega))]
  · intro r hr; rw [h2.regs r hr.2, L.regs r hr.1]
  · rw [h2.rsp, L.regs _ hK.2]

end comp

/-! ## Long with long -/

theorem loopLL_iter {first next : Op2} {F : BitVec 64 → BitVec 64 → Bool → BitVec 64 × Bool} (h : Arith first next F)
    (s₀ : State) (i : Nat) :
    Iter F (.arr (s₀.reg .rsi)) (.arr (s₀.reg .rdx)) (s₀.reg .rdi) (some .rax) notRax s₀.reg s₀.sym
      [i2 .mov rax (.mem .rsi (8 * i)), i2 (if i = 0 then first else next) rax (.mem .rdx (8 * i)),
       i2 .mov (.mem .rdi (8 * i)) rax] i (decide (i = 0)) := by
  intro s hr hs
  obtain ⟨e1, e2, e3⟩ := h.sel i (s.mem (cell (s₀.reg .rsi) i)) (s.mem (cell (s₀.reg .rdx) i)) s.fl
  have hdi : s.reg .rdi = s₀.reg .rdi := hr _ (by simp [notRax])
  have hsi : s.reg .rsi = s₀.reg .rsi := hr _ (by simp [notRax])
  have hdx : s.reg .rdx = s₀.reg .rdx := hr _ (by simp [notRax])
  simp only [steps, List.foldl_cons, List.foldl_nil]
  rw [step_mov, step_op2 _ _ _ _ e3, step_mov]
  simp only [Opd.get, Opd.set, upd_same, addr_eq, upd_ne _ _ (show Reg.rdi ≠ Reg.rax by decide),
    upd_ne _ _ (show Reg.rdx ≠ Reg.rax by decide), hdi, hsi, hdx, Src.at]
  refine ⟨by rw [e1], e2, fun r hr => ?_, trivial, ?_⟩
  · rw [upd_ne _ _ hr, upd_ne _ _ hr]
  · rintro t ⟨⟩; rw [upd_same]; exact e1

theorem loopLL_run {first next : Op2} {F : BitVec 64 → BitVec 64 → Bool → BitVec 64 × Bool} (h : Arith first next F)
    (n : Nat) (hn : 8 * n ≤ 2 ^ 64) (h0 : 0 < n) (s : State) (ha : Alias (s.reg .rsi) (s.reg .rdi) n)
    (hb : Alias (s.reg .rdx) (s.reg .rdi) n) :
    LoopPost F (.arr (s.reg .rsi)) (.arr (s.reg .rdx)) (s.reg .rdi) (some .rax) notRax 0 n false s
      (steps (loopLL first next n) s) := by
  have := loop_run (F := F) (fst := fun i => decide (i = 0)) n 0 (by omega) (fun i _ _ => loopLL_iter h s i)
    (fun i hi => by simp; omega) (ha.ok hn 0 n (by omega)) (hb.ok hn 0 n (by omega)) s (fun _ _ => rfl) rfl (by omega)
  simpa only [loopLL, List.range_eq_range', decide_true, if_true] using this

/-- Leaving out the first load of the comparison changes nothing when `rax` already holds the top limb. -/
theorem cmpQ'_run (env : String → Option (State → Option State)) (ra : BitVec 64) (n : Nat) (h0 : 0 < n) (p : List Line)
    (s : State) (h : s.reg .rax = s.mem (cell (s.reg .rdi) (n - 1))) :
    run env ra (cmpQ' n ++ p) s = run env ra (cmpQ n ++ p) s := by
  obtain ⟨m, rfl⟩ : ∃ m, n = m + 1 := ⟨n - 1, by omega⟩
  have e : cmpQ (m + 1) = .ins (i2 .mov rax (.mem .rdi (8 * m))) :: cmpQ' (m + 1) := by
    rw [cmpQ, cmpQ', List.range_succ_eq_map, List.flatMap_cons, List.flatMap_cons, List.flatMap_map, List.flatMap_map]
    simp
  rw [e, List.cons_append, run_ins, step_mov]
  congr 1
  simp only [Opd.set, Opd.get, addr_eq]
  rw [show m + 1 - 1 = m by omega] at h
  have : upd s.reg .rax (s.mem (cell (s.reg .rdi) m)) = s.reg := by
    funext r
    by_cases hr : r = .rax
    · subst hr; rw [upd_same, h]
    · rw [upd_ne _ _ hr]
  rw [this]

theorem rawAddLL_run (env : String → Option (State → Option State)) (ra : BitVec 64) {q : Nat} (s : State)
    (hn : 8 * n64 q ≤ 2 ^ 64) (hQ : QLabel q s) (hs : Sep (s.sym .q) (s.reg .rdi) (n64 q))
    (ha : Alias (s.reg .rsi) (s.reg .rdi) (n64 q)) (hb : Alias (s.reg .rdx) (s.reg .rdi) (n64 q)) :
    ∃ s', run env ra (rawAddLL (n64 q)) s = some s' ∧ RawPost (n64 q) (fun r => r ≠ .rax ∧ r ≠ .rsp) s s'
      (rawAdd q (rd s.mem (s.reg .rsi) (n64 q)) (rd s.mem (s.reg .rdx) (n64 q))) := by
  have L := loopLL_run arith_add (n64 q) hn (n64_pos q) s ha hb
  obtain ⟨s', h1, h2⟩ := comp_sub env ra hn rfl L ⟨by simp [notRax], by simp [notRax]⟩ hQ hs
  have hp := pass_addF ((Src.arr (s.reg .rsi)).lims s.mem 0 (n64 q)) ((Src.arr (s.reg .rdx)).lims s.mem 0 (n64 q)) false
    (by rw [lims_length, lims_length])
  refine ⟨s', ?_, ?_⟩
  · have e : rawAddLL (n64 q)
        = code (loopLL .add .adc (n64 q)) ++ (.jump .carry "sq" :: (cmpQ' (n64 q) ++ tailSub (n64 q))) := by
      simp [rawAddLL, tailSub]
    rw [← h1, e, run_code, run_jump, List.append_assoc, List.cons_append, run_jump, List.nil_append]
    have hd : ∀ p, dropTo "sq" (cmpQ' (n64 q) ++ p) = dropTo "sq" (cmpQ (n64 q) ++ p) := by
      intro p
      obtain ⟨m, hm⟩ : ∃ m, n64 q = m + 1 := ⟨n64 q - 1, by have := n64_pos q; omega⟩
      rw [hm, cmpQ, cmpQ', List.range_succ_eq_map, List.flatMap_cons, List.flatMap_cons, List.flatMap_map,
        List.flatMap_map]
      simp [dropTo]
    rw [hd, cmpQ'_run env ra _ (n64_pos q)]
    · rw [L.last (n64_pos q) _ rfl, L.regs .rdi (by simp [notRax]), Nat.zero_add]
  · have e : condSub q (pass addF ((Src.arr (s.reg .rsi)).lims s.mem 0 (n64 q)) ((Src.arr (s.reg .rdx)).lims s.mem 0 (n64 q)) false).2
        (pass addF ((Src.arr (s.reg .rsi)).lims s.mem 0 (n64 q)) ((Src.arr (s.reg .rdx)).lims s.mem 0 (n64 q)) false).1
        = rawAdd q (rd s.mem (s.reg .rsi) (n64 q)) (rd s.mem (s.reg .rdx) (n64 q)) := by
      rw [rawAdd, mpn_add_n, ← bne_zero_b2n (pass _ _ _ _).2, hp.2, hp.1]; rfl
    rw [e] at h2
    exact ⟨h2.out, h2.frame, fun r hr => h2.regs r ⟨hr.1, hr⟩, h2.rsp⟩

theorem rawSubLL_run (env : String → Option (State → Option State)) (ra : BitVec 64) {q : Nat} (s : State)
    (hn : 8 * n64 q ≤ 2 ^ 64) (hQ : QLabel q s) (hs : Sep (s.sym .q) (s.reg .rdi) (n64 q))
    (ha : Alias (s.reg .rsi) (s.reg .rdi) (n64 q)) (hb : Alias (s.reg .rdx) (s.reg .rdi) (n64 q)) :
    ∃ s', run env ra (rawSubLL (n64 q)) s = some s' ∧ RawPost (n64 q) (fun r => r ≠ .rax ∧ r ≠ .rsp) s s'
      (rawSub q (rd s.mem (s.reg .rsi) (n64 q)) (rd s.mem (s.reg .rdx) (n64 q))) := by
  have L := loopLL_run arith_sub (n64 q) hn (n64_pos q) s ha hb
  obtain ⟨s', h1, h2⟩ := comp_add env ra hn rfl L ⟨by simp [notRax], by simp [notRax]⟩ hQ hs
  have hp := pass_subF ((Src.arr (s.reg .rsi)).lims s.mem 0 (n64 q)) ((Src.arr (s.reg .rdx)).lims s.mem 0 (n64 q)) false
    (by rw [lims_length, lims_length])
  refine ⟨s', ?_, ?_⟩
  · rw [← h1, rawSubLL, List.append_assoc, List.append_assoc, run_code, List.append_assoc]
  · have e : condAdd q (pass subF ((Src.arr (s.reg .rsi)).lims s.mem 0 (n64 q)) ((Src.arr (s.reg .rdx)).lims s.mem 0 (n64 q)) false).2
        (pass subF ((Src.arr (s.reg .rsi)).lims s.mem 0 (n64 q)) ((Src.arr (s.reg .rdx)).lims s.mem 0 (n64 q)) false).1
        = rawSub q (rd s.mem (s.reg .rsi) (n64 q)) (rd s.mem (s.reg .rdx) (n64 q)) := by
      rw [rawSub, mpn_sub_n, ← bne_zero_b2n (pass _ _ _ _).2, hp.2, hp.1]; rfl
    rw [e] at h2
    exact ⟨h2.out, h2.frame, fun r hr => h2.regs r ⟨hr.1, hr⟩, h2.rsp⟩

end FF.X86
