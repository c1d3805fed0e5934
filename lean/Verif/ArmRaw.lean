import Verif.ArmFrame

/-!
# The AArch64 raw routines: addition, subtraction
-/

namespace FF.Arm

open FF.X86 (upd cell rd upd_same upd_ne rd_length)

/-! ## Helpers -/

theorem all12 {f : Nat → Bool} (h : (List.range' 1 12).all f = true) {n : Nat} (h1 : 1 ≤ n) (h2 : n ≤ 12) : f n = true :=
  List.all_eq_true.mp h n (by simp [List.mem_range'_1]; omega)

theorem add_unique {a b l : Limbs} {c n : Nat} (ha : a.length = n) (hb : b.length ≤ n) (hl : l.length = n)
    (h : val l + W ^ n * c = val a + val b) : addNC a b 0 = (l, c) := by
  have hv := addNC_val a b 0 (by omega)
  rw [ha, Nat.add_zero, ← h] at hv
  have hlen := addNC_length a b 0
  have h1 : val (addNC a b 0).1 < W ^ n := by have := val_lt (addNC a b 0).1; rwa [hlen, ha] at this
  have h2 : val l < W ^ n := by have := val_lt l; rwa [hl] at this
  have hmod := congrArg (· % W ^ n) hv
  simp only [Nat.add_mul_mod_self_left, Nat.mod_eq_of_lt h1, Nat.mod_eq_of_lt h2] at hmod
  rw [hmod] at hv
  have hc := Nat.eq_of_mul_eq_mul_left (Nat.pow_pos W_pos) (Nat.add_left_cancel hv)
  exact Prod.ext (val_inj (by rw [hlen, ha, hl]) hmod) hc

theorem sub_unique {a b l : Limbs} {c n : Nat} (ha : a.length = n) (hb : b.length ≤ n) (hl : l.length = n)
    (h : val l + val b = val a + W ^ n * c) : subNC a b 0 = (l, c) := by
  have hv := subNC_val a b 0 (by omega) (by omega)
  rw [ha, Nat.add_zero] at hv
  have hlen := subNC_length a b 0
  have h1 : val (subNC a b 0).1 < W ^ n := by have := val_lt (subNC a b 0).1; rwa [hlen, ha] at this
  have h2 : val l < W ^ n := by have := val_lt l; rwa [hl] at this
  have he : val (subNC a b 0).1 + W ^ n * c = val l + W ^ n * (subNC a b 0).2 := by omega
  have hmod := congrArg (· % W ^ n) he
  simp only [Nat.add_mul_mod_self_left, Nat.mod_eq_of_lt h1, Nat.mod_eq_of_lt h2] at hmod
  rw [hmod] at he
  have hc := Nat.eq_of_mul_eq_mul_left (Nat.pow_pos W_pos) (Nat.add_left_cancel he)
  exact Prod.ext (val_inj (by rw [hlen, ha, hl]) hmod) hc.symm

/-- Subtraction of the modulus and the choice between the two numbers. -/
theorem condSub_select {q : Nat} {r d : Limbs} {b : Bool} (c : Bool) (hr : r.length = n64 q) (hd : d.length = n64 q)
    (h : val d + q = val r + W ^ n64 q * (!b).toNat) : condSub q c r = if c || b then d else r := by
  have hq := rawq_val q
  have hql := rawq_length q
  have hs := sub_unique (a := r) (b := rawq q) (l := d) (c := (!b).toNat) hr (by omega) hd (by rw [hq]; exact h)
  unfold condSub mpn_sub_n
  rw [hs]
  have hge : cmpGe r (rawq q) = b := by
    have hi := cmpGe_iff r (rawq q) (by omega)
    rw [hq] at hi
    have hdl : val d < W ^ n64 q := by have := val_lt d; rwa [hd] at this
    have hqW := q_lt_Wn q
    cases b with
    | true =>
      simp only [Bool.not_true, Bool.toNat_false, Nat.mul_zero, Nat.add_zero] at h
      exact hi.mpr (by omega)
    | false =>
      simp only [Bool.not_false, Bool.toNat_true, Nat.mul_one] at h
      rw [Bool.eq_false_iff]
      intro hh
      have := hi.mp hh
      omega
  rw [hge]

/-- The tables are in place and the stack area does not meet the arrays. -/
structure Ctx (q : Nat) (s : State) : Prop where
  lim : n64 q ≤ 12
  tab : rd s.mem (s.sym .q) (n64 q) = rawq q
  np : s.mem (s.sym .np) = np q
  mask : s.mem (s.sym .lboMask) = lboMask q
  dst : OffStack s (s.reg 0) (n64 q)
  tabOff : OffStack s (s.sym .q) (n64 q)
  npOff : OffStack s (s.sym .np) 1
  maskOff : OffStack s (s.sym .lboMask) 1

theorem fits12 {n : Nat} (h : n ≤ 12) : 8 * n ≤ 2 ^ 64 := by omega

/-- The state after saving registers. -/
theorem pushed {saved : List Nat} (hl : saved.length ≤ 16) (s : State) :
    (exes (pushRegs saved) s).reg = s.reg ∧ (exes (pushRegs saved) s).fl = s.fl ∧ (exes (pushRegs saved) s).sym = s.sym ∧
      ∀ a n, OffStack s a n → ∀ i, i < n → (exes (pushRegs saved) s).mem (cell a i) = s.mem (cell a i) := by
  obtain ⟨h1, h2, h3, -, -, h6⟩ := push_run saved s (by omega)
  refine ⟨h1, h2, h3, fun a n ho i hi => h6 _ fun k hk hk' => ho i hi k hk ?_⟩
  have : slots saved.length ≤ 16 := by unfold slots; omega
  omega

/-- Word `i` of the array a parameter register points to. -/
def arr (r i : Nat) : Val := .mem (.arg r) i

/-- Word `i` of the modulus. -/
def qw (i : Nat) : Val := .mem (.tab .q) i

/-- A word followed by zeros. -/
def shortV (r i : Nat) : Val := if i = 0 then .base (.arg r) else .zr

theorem vs_arr {saved : List Nat} (hl : saved.length ≤ 16) {s : State} {r n : Nat} (ho : OffStack s (s.reg r) n) (ρ : Env) :
    vs (fun i => (arr r i).eval (exes (pushRegs saved) s) ρ) n = val (rd s.mem (s.reg r) n) := by
  obtain ⟨h1, -, -, h4⟩ := pushed hl s
  rw [rd_eq_vs]
  refine vs_congr fun i hi => ?_
  show (exes (pushRegs saved) s).mem (cell ((exes (pushRegs saved) s).reg r) i) = _
  rw [h1, h4 _ _ ho i hi]

theorem vs_qw {q : Nat} {saved : List Nat} (hl : saved.length ≤ 16) {s : State} (h : Ctx q s) (ρ : Env) :
    vs (fun i => (qw i).eval (exes (pushRegs saved) s) ρ) (n64 q) = q := by
  obtain ⟨-, -, h3, h4⟩ := pushed hl s
  have := rawq_val q
  rw [← h.tab, rd_eq_vs] at this
  refine Eq.trans (vs_congr fun i hi => ?_) this
  show (exes (pushRegs saved) s).mem (cell ((exes (pushRegs saved) s).sym .q) i) = _
  rw [h3, h4 _ _ h.tabOff i hi]

theorem vs_short (s : State) (ρ : Env) (r n : Nat) : vs (fun i => (shortV r i).eval s ρ) (n + 1) = (s.reg r).toNat := by
  rw [vs_shift]
  have : vs (fun i => (shortV r (i + 1)).eval s ρ) n = 0 := by
    induction n with
    | zero => rfl
    | succ n ih => rw [vs_succ, ih]; simp [shortV, Val.eval]
  rw [this]
  simp [shortV, Val.eval, Base.addr]

theorem off_arr (t r i : Nat) : (arr r i).off t := trivial
theorem off_qw (t i : Nat) : (qw i).off t := trivial
theorem off_short (t r i : Nat) : (shortV r i).off t := by unfold shortV; split <;> trivial
theorem off_v {t t' : Nat} (h : t' ≠ t) (i : Nat) : (Val.v t' i).off t := h

theorem saved_len {n : Nat} (h1 : 1 ≤ n) (h2 : n ≤ 12) : (vars n).saved.length ≤ 16 :=
  of_decide_eq_true (all12 (f := fun n => decide ((vars n).saved.length ≤ 16)) (by decide +kernel) h1 h2)

/-- Words as limbs. -/
theorem map_length (f : Nat → BitVec 64) (n : Nat) : ((List.range n).map f).length = n := by simp

/-! ## Addition -/

/-- The second operand of an addition. -/
def addY (short : Bool) (i : Nat) : Val := if short then shortV 2 i else arr 2 i

theorem off_addY (short : Bool) (t i : Nat) : (addY short i).off t := by
  unfold addY; split
  · exact off_short _ _ _
  · trivial

/-- `Gen_rawAdd` before the branches. -/
def vAdd (n : Nat) (short : Bool) : List VIns :=
  addV n 1 (arr 1) (addY short) ++ [vop (.cset .hs) 2 0 .zr .zr] ++ subV n 3 (.v 1) qw

theorem vAdd_ok : (List.range' 1 12).all (fun n => [true, false].all fun short =>
    okReg n (addBody n short) (vAdd n short) (vars n).saved 2 (.v 2 0) &&
    okBody n [] (vars n).saved (addBody n short ++ storeVar n (vars n).r1 0) (vAdd n short ++ []) (.v 1) &&
    okBody n [] (vars n).saved (addBody n short ++ storeVar n (vars n).r2 0) (vAdd n short ++ []) (.v 3)) = true := by
  decide +kernel

theorem exec_cset (s : State) (u : U) (c : Cond) (t i : Nat) :
    vexes s [vop (.cset c) t i .zr .zr] u = ⟨upd u.ρ (t, i) (if c.holds u.fl then 1 else 0), u.fl⟩ := rfl

theorem vAdd_run (s : State) {n : Nat} (hn : 0 < n) (short : Bool) (u : U) :
    ∃ c : Bool, (vexes s (vAdd n short) u).ρ (2, 0) = (if c then 1 else 0) ∧
      vs ((vexes s (vAdd n short) u).seq 1) n + W ^ n * c.toNat
        = vs (fun i => (arr 1 i).eval s u.ρ) n + vs (fun i => (addY short i).eval s u.ρ) n ∧
      vs ((vexes s (vAdd n short) u).seq 3) n + vs (fun i => (qw i).eval s u.ρ) n
        = vs ((vexes s (vAdd n short) u).seq 1) n + W ^ n * (!(vexes s (vAdd n short) u).fl.c).toNat := by
  unfold vAdd
  rw [vexes_append, vexes_append]
  obtain ⟨k1, v1⟩ := addV_run s (t := 1) hn (off_arr 1 1) (off_addY short 1) u
  generalize vexes s (addV n 1 (arr 1) (addY short)) u = u1 at *
  rw [exec_cset]
  have k2 : Keeps [2] u1 ⟨upd u1.ρ (2, 0) (if Cond.hs.holds u1.fl then 1 else 0), u1.fl⟩ := upd_keeps _ _ _ _ _ _
  have e2 : upd u1.ρ (2, 0) (if Cond.hs.holds u1.fl then (1 : BitVec 64) else 0) (2, 0) = if u1.fl.c then 1 else 0 := upd_same _ _ _
  generalize upd u1.ρ (2, 0) (if Cond.hs.holds u1.fl then (1 : BitVec 64) else 0) = ρ2 at *
  obtain ⟨k3, v3⟩ := subV_run s (t := 3) (x := .v 1) (y := qw) hn (off_v (by decide)) (off_qw 3) ⟨ρ2, u1.fl⟩
  generalize vexes s (subV n 3 (.v 1) qw) ⟨ρ2, u1.fl⟩ = u3 at *
  have e1 : vs (u3.seq 1) n = vs (u1.seq 1) n :=
    vs_congr fun i _ => (k3 (1, i) (by simp)).trans (k2 (1, i) (by simp))
  have e1' : vs (fun i => (Val.v 1 i).eval s ρ2) n = vs (u1.seq 1) n := vs_congr fun i _ => k2 (1, i) (by simp)
  refine ⟨u1.fl.c, (k3 (2, 0) (by simp)).trans e2, by rw [e1]; exact v1, ?_⟩
  rw [e1']  at v3
  rw [e1]
  exact v3

theorem rawAdd_run {q : Nat} {s : State} (short : Bool) (h : Ctx q s) (ha : OffStack s (s.reg 1) (n64 q))
    (hb : short = false → OffStack s (s.reg 2) (n64 q)) :
    ∃ s', run (rawAdd (n64 q) short) s = some s' ∧
      Post (n64 q) s s' (if short then FF.rawAddLS q (rd s.mem (s.reg 1) (n64 q)) (s.reg 2)
        else FF.rawAdd q (rd s.mem (s.reg 1) (n64 q)) (rd s.mem (s.reg 2) (n64 q))) := by
  have hn := n64_pos q
  have hlim := h.lim
  have hsl := saved_len hn hlim
  have hok := all12 vAdd_ok hn hlim
  have hok := List.all_eq_true.mp hok short (by cases short <;> simp)
  simp only [Bool.and_eq_true] at hok
  obtain ⟨⟨ok1, ok2⟩, ok3⟩ := hok
  generalize hS : exes (pushRegs (vars (n64 q)).saved) s = S at *
  obtain ⟨p1, p2, p3, p4⟩ := pushed hsl s
  rw [hS] at p1 p2 p3 p4
  obtain ⟨r1, r2, -⟩ := okReg_run ok1 (fits12 hlim) (s := S) (fun _ => 0)
  obtain ⟨c, c1, c2, c3⟩ := vAdd_run S hn short ⟨fun _ => 0, S.fl⟩
  have va := vs_arr hsl ha (fun _ => 0)
  have vq := vs_qw hsl h (fun _ => 0)
  rw [hS] at va vq
  rw [va] at c2
  rw [vq] at c3
  have A2 := okBody_run ok2 (fits12 hlim) (s := S) (fun b hb => absurd hb (by simp)) (fun _ => 0)
  have A3 := okBody_run ok3 (fits12 hlim) (s := S) (fun b hb => absurd hb (by simp)) (fun _ => 0)
  rw [exes_append, List.append_nil] at A2 A3
  generalize vexes S (vAdd (n64 q) short) ⟨fun _ => 0, S.fl⟩ = u at *
  rw [← hS] at A2 A3
  obtain ⟨s2, f2, g2⟩ := finish hsl A2 h.dst
  obtain ⟨s3, f3, g3⟩ := finish hsl A3 h.dst
  rw [hS] at f2 f3 g2 g3
  -- the run
  have hrun : run (rawAdd (n64 q) short) s = if c || u.fl.c then some s3 else some s2 := by
    unfold rawAdd
    simp only [List.append_assoc, List.cons_append, List.nil_append]
    rw [run_lines, run_lines, hS, run, r1, run, r2]
    have hc1 : (Val.v 2 0).eval S u.ρ = if c then 1 else 0 := c1
    rw [hc1]
    have d1 : dropTo "done_s" (.bc .hs "done_s" :: (lines (storeVar (n64 q) (vars (n64 q)).r1 0)
        ++ Line.b "out" :: .label "done_s" :: (lines (storeVar (n64 q) (vars (n64 q)).r2 0)
        ++ .label "out" :: (lines (popRegs (vars (n64 q)).saved) ++ [.ret]))))
        = lines (storeVar (n64 q) (vars (n64 q)).r2 0) ++ .label "out" :: (lines (popRegs (vars (n64 q)).saved) ++ [.ret]) := by
      simp [dropTo, dropTo_lines]
    have d2 : dropTo "done_s" (lines (storeVar (n64 q) (vars (n64 q)).r1 0)
        ++ Line.b "out" :: .label "done_s" :: (lines (storeVar (n64 q) (vars (n64 q)).r2 0)
        ++ .label "out" :: (lines (popRegs (vars (n64 q)).saved) ++ [.ret])))
        = lines (storeVar (n64 q) (vars (n64 q)).r2 0) ++ .label "out" :: (lines (popRegs (vars (n64 q)).saved) ++ [.ret]) := by
      simp [dropTo, dropTo_lines]
    have d3 : dropTo "out" (Line.label "done_s" :: (lines (storeVar (n64 q) (vars (n64 q)).r2 0)
        ++ .label "out" :: (lines (popRegs (vars (n64 q)).saved) ++ [.ret])))
        = lines (popRegs (vars (n64 q)).saved) ++ [.ret] := by
      simp [dropTo, dropTo_lines]
    have e3 : run (lines (storeVar (n64 q) (vars (n64 q)).r2 0) ++ .label "out" :: (lines (popRegs (vars (n64 q)).saved) ++ [.ret]))
        (exes (addBody (n64 q) short) S) = some s3 := by rw [run_lines, run]; exact f3
    have e2 : run (lines (storeVar (n64 q) (vars (n64 q)).r1 0)
        ++ Line.b "out" :: .label "done_s" :: (lines (storeVar (n64 q) (vars (n64 q)).r2 0)
        ++ .label "out" :: (lines (popRegs (vars (n64 q)).saved) ++ [.ret]))) (exes (addBody (n64 q) short) S) = some s2 := by
      rw [run_lines, run, d3]; exact f2
    rw [d1, d2, e2, e3]
    cases c
    · rw [if_pos (by rfl)]; rfl
    · rw [if_neg (by decide)]; rfl
  -- the value
  have hval : (if c || u.fl.c then (List.range (n64 q)).map (u.seq 3) else (List.range (n64 q)).map (u.seq 1))
      = if short then FF.rawAddLS q (rd s.mem (s.reg 1) (n64 q)) (s.reg 2)
        else FF.rawAdd q (rd s.mem (s.reg 1) (n64 q)) (rd s.mem (s.reg 2) (n64 q)) := by
    rw [← condSub_select c (map_length _ _) (map_length _ _) c3]
    have hc : (c.toNat != 0) = c := by cases c <;> rfl
    cases short with
    | true =>
      rw [if_pos rfl]
      unfold FF.rawAddLS mpn_add_1
      rw [add_unique (l := (List.range (n64 q)).map (u.seq 1)) (c := c.toNat) (rd_length _ _ _) (by simp only [List.length_singleton]; omega)
        (map_length _ _) (by
          have e : vs (fun i => (addY true i).eval S fun _ => 0) (n64 q) = (s.reg 2).toNat := by
            have := vs_short S (fun _ => 0) 2 (n64 q - 1)
            rw [show n64 q - 1 + 1 = n64 q by omega, p1] at this
            exact this
          rw [e] at c2
          rw [show val [s.reg 2] = (s.reg 2).toNat by simp]
          exact c2)]
      simp only [hc]
    | false =>
      rw [if_neg (by decide)]
      unfold FF.rawAdd mpn_add_n
      rw [add_unique (l := (List.range (n64 q)).map (u.seq 1)) (c := c.toNat) (rd_length _ _ _) (by rw [rd_length])
        (map_length _ _) (by
          have e : vs (fun i => (addY false i).eval S fun _ => 0) (n64 q) = val (rd s.mem (s.reg 2) (n64 q)) := by
            have := vs_arr hsl (hb rfl) (fun _ => 0)
            rw [hS] at this
            exact this
          rw [e] at c2
          exact c2)]
      simp only [hc]
  rw [← hval, hrun]
  split
  · exact ⟨s3, rfl, g3⟩
  · exact ⟨s2, rfl, g2⟩

/-! ## Subtraction -/

theorem NoClash.pushed {saved : List Nat} (hl : saved.length ≤ 16) {n : Nat} {bs : List Base} {s : State} (h : NoClash n bs s) :
    NoClash n bs (exes (pushRegs saved) s) := by
  obtain ⟨p1, -, p3, -⟩ := Arm.pushed hl s
  have e : ∀ b : Base, b.addr (exes (pushRegs saved) s) = b.addr s := by
    intro b; cases b
    · show (exes (pushRegs saved) s).reg _ = _; rw [p1]; rfl
    · show (exes (pushRegs saved) s).sym _ = _; rw [p3]; rfl
  intro b hb i j hi hj hij
  rw [e, p1]
  exact h b hb i j hi hj hij

theorem NoClash.nil (n : Nat) (s : State) : NoClash n [] s := fun _ hb => absurd hb (by simp)

/-- The words a checked piece of code leaves. -/
def outOf (saved : List Nat) (s : State) (vs : List VIns) (out : Nat → Val) (n : Nat) : Limbs :=
  (List.range n).map fun i => (out i).eval (exes (pushRegs saved) s) (vexes (exes (pushRegs saved) s) vs
    ⟨fun _ => 0, (exes (pushRegs saved) s).fl⟩).ρ

/-- A checked piece of code and the end of the routine. -/
theorem body_post {n : Nat} {bs : List Base} {saved : List Nat} {p : List Ins} {vs : List VIns} {out : Nat → Val} {s : State}
    (ok : okBody n bs saved p vs out = true) (hn : n ≤ 12) (hsl : saved.length ≤ 16) (hc : NoClash n bs s)
    (ho : OffStack s (s.reg 0) n) :
    ∃ s', run (lines (popRegs saved) ++ [.ret]) (exes p (exes (pushRegs saved) s)) = some s' ∧
      Post n s s' (outOf saved s vs out n) :=
  finish hsl (okBody_run ok (fits12 hn) (hc.pushed hsl) (fun _ => 0)) ho

/-- The left operand of a subtraction. -/
def subX (k : SubKind) (i : Nat) : Val := if k = .SL then shortV 1 i else arr 1 i

/-- The right operand of a subtraction. -/
def subY (k : SubKind) (i : Nat) : Val := if k = .LS then shortV 2 i else arr 2 i

theorem off_subX (k : SubKind) (t i : Nat) : (subX k i).off t := by
  unfold subX; split
  · exact off_short _ _ _
  · trivial

theorem off_subY (k : SubKind) (t i : Nat) : (subY k i).off t := by
  unfold subY; split
  · exact off_short _ _ _
  · trivial

theorem vSub_ok : (List.range' 1 12).all (fun n => [SubKind.LL, .SL, .LS].all fun k =>
    okReg n (subBody n k) (subV n 1 (subX k) (subY k)) (vars n).saved 0 (.base (.arg 0)) &&
    okBody n [] (vars n).saved (subBody n k ++ storeVar n (vars n).r1 0) (subV n 1 (subX k) (subY k)) (.v 1) &&
    okBody n [] (vars n).saved (subBody n k ++ subAdd n ++ storeVar n (vars n).r1 0)
      (subV n 1 (subX k) (subY k) ++ addV n 2 (.v 1) qw) (.v 2)) = true := by
  decide +kernel

/-- What `rawSub`, `rawSubSL`, `rawSubLS` leave in the result array. -/
def subSpec (q : Nat) (k : SubKind) (s : State) : Limbs :=
  match k with
  | .LL => FF.rawSub q (rd s.mem (s.reg 1) (n64 q)) (rd s.mem (s.reg 2) (n64 q))
  | .SL => FF.rawSubSL q (s.reg 1) (rd s.mem (s.reg 2) (n64 q))
  | .LS => FF.rawSubLS q (rd s.mem (s.reg 1) (n64 q)) (s.reg 2)

theorem vs_shortN (s : State) (ρ : Env) (r : Nat) {n : Nat} (hn : 0 < n) : vs (fun i => (shortV r i).eval s ρ) n = (s.reg r).toNat := by
  have := vs_short s ρ r (n - 1)
  rwa [show n - 1 + 1 = n by omega] at this

theorem condAdd_of {q : Nat} {r d : Limbs} {c : Bool} {b : Nat} (hr : r.length = n64 q) (hd : d.length = n64 q)
    (h : val d + W ^ n64 q * b = val r + q) : condAdd q c r = if c then d else r := by
  have hs := add_unique (a := r) (b := rawq q) (l := d) (c := b) hr (by rw [rawq_length]) hd (by rw [rawq_val]; exact h)
  unfold condAdd mpn_add_n
  rw [hs]

theorem subSpec_of {q : Nat} {s : State} {k : SubKind} {r : Limbs} {c : Bool} {saved : List Nat} (hsl : saved.length ≤ 16)
    (ha : k ≠ .SL → OffStack s (s.reg 1) (n64 q)) (hb : k ≠ .LS → OffStack s (s.reg 2) (n64 q)) (hr : r.length = n64 q)
    (h : val r + vs (fun i => (subY k i).eval (exes (pushRegs saved) s) fun _ => 0) (n64 q)
      = vs (fun i => (subX k i).eval (exes (pushRegs saved) s) fun _ => 0) (n64 q) + W ^ n64 q * c.toNat) :
    subSpec q k s = condAdd q c r := by
  have hn := n64_pos q
  have hc : (c.toNat != 0) = c := by cases c <;> rfl
  obtain ⟨p1, -, -, -⟩ := pushed hsl s
  cases k with
  | LL =>
    have e1 : vs (fun i => (subX .LL i).eval (exes (pushRegs saved) s) fun _ => 0) (n64 q) = val (rd s.mem (s.reg 1) (n64 q)) :=
      vs_arr hsl (ha (by decide)) _
    have e2 : vs (fun i => (subY .LL i).eval (exes (pushRegs saved) s) fun _ => 0) (n64 q) = val (rd s.mem (s.reg 2) (n64 q)) :=
      vs_arr hsl (hb (by decide)) _
    rw [e1, e2] at h
    unfold subSpec FF.rawSub mpn_sub_n
    simp only [sub_unique (rd_length s.mem (s.reg 1) (n64 q)) (by rw [rd_length]) hr h, hc]
  | SL =>
    have e1 : vs (fun i => (subX .SL i).eval (exes (pushRegs saved) s) fun _ => 0) (n64 q) = (s.reg 1).toNat := by
      rw [← p1]; exact vs_shortN _ _ 1 hn
    have e2 : vs (fun i => (subY .SL i).eval (exes (pushRegs saved) s) fun _ => 0) (n64 q) = val (rd s.mem (s.reg 2) (n64 q)) :=
      vs_arr hsl (hb (by decide)) _
    rw [e1, e2] at h
    unfold subSpec FF.rawSubSL mpn_sub_n
    have hl : (shortLimbs q (s.reg 1)).length = n64 q := by simp [shortLimbs]; omega
    have hv : val (shortLimbs q (s.reg 1)) = (s.reg 1).toNat := by simp [shortLimbs]
    rw [← hv] at h
    simp only [sub_unique hl (by rw [rd_length]) hr h, hc]
  | LS =>
    have e1 : vs (fun i => (subX .LS i).eval (exes (pushRegs saved) s) fun _ => 0) (n64 q) = val (rd s.mem (s.reg 1) (n64 q)) :=
      vs_arr hsl (ha (by decide)) _
    have e2 : vs (fun i => (subY .LS i).eval (exes (pushRegs saved) s) fun _ => 0) (n64 q) = (s.reg 2).toNat := by
      rw [← p1]; exact vs_shortN _ _ 2 hn
    rw [e1, e2] at h
    unfold subSpec FF.rawSubLS mpn_sub_1
    have hv : val [s.reg 2] = (s.reg 2).toNat := by simp
    rw [← hv] at h
    simp only [sub_unique (rd_length s.mem (s.reg 1) (n64 q)) (by simp only [List.length_singleton]; omega) hr h, hc]

theorem rawSub_run {q : Nat} {s : State} (k : SubKind) (h : Ctx q s) (ha : k ≠ .SL → OffStack s (s.reg 1) (n64 q))
    (hb : k ≠ .LS → OffStack s (s.reg 2) (n64 q)) :
    ∃ s', run (rawSub (n64 q) k) s = some s' ∧ Post (n64 q) s s' (subSpec q k s) := by
  have hn := n64_pos q
  have hlim := h.lim
  have hsl := saved_len hn hlim
  have hok := all12 vSub_ok hn hlim
  have hok := List.all_eq_true.mp hok k (by cases k <;> simp)
  simp only [Bool.and_eq_true] at hok
  obtain ⟨⟨ok1, ok2⟩, ok3⟩ := hok
  obtain ⟨s2, f2, g2⟩ := body_post ok2 hlim hsl (.nil _ _) h.dst
  obtain ⟨s3, f3, g3⟩ := body_post ok3 hlim hsl (.nil _ _) h.dst
  obtain ⟨r1, r2, -⟩ := okReg_run ok1 (fits12 hlim) (s := exes (pushRegs (vars (n64 q)).saved) s) (fun _ => 0)
  have hv := subSpec_of (r := outOf (vars (n64 q)).saved s (subV (n64 q) 1 (subX k) (subY k)) (.v 1) (n64 q))
    (c := !(exes (subBody (n64 q) k) (exes (pushRegs (vars (n64 q)).saved) s)).fl.c) hsl ha hb (map_length _ _) (by
      rw [r2]
      exact (subV_run _ hn (off_subX k 1) (off_subY k 1) _).2)
  rw [hv]
  have hv2 := condAdd_of (q := q) (c := !(exes (subBody (n64 q) k) (exes (pushRegs (vars (n64 q)).saved) s)).fl.c)
    (r := outOf (vars (n64 q)).saved s (subV (n64 q) 1 (subX k) (subY k)) (.v 1) (n64 q))
    (d := outOf (vars (n64 q)).saved s (subV (n64 q) 1 (subX k) (subY k) ++ addV (n64 q) 2 (.v 1) qw) (.v 2) (n64 q))
    (b := (vexes (exes (pushRegs (vars (n64 q)).saved) s) (addV (n64 q) 2 (.v 1) qw)
      (vexes (exes (pushRegs (vars (n64 q)).saved) s) (subV (n64 q) 1 (subX k) (subY k))
        ⟨fun _ => 0, (exes (pushRegs (vars (n64 q)).saved) s).fl⟩)).fl.c.toNat) (map_length _ _) (map_length _ _) (by
      have := (addV_run (exes (pushRegs (vars (n64 q)).saved) s) (n := n64 q) (t := 2) (x := .v 1) (y := qw) hn (off_v (by decide))
        (off_qw 2) (vexes (exes (pushRegs (vars (n64 q)).saved) s) (subV (n64 q) 1 (subX k) (subY k))
        ⟨fun _ => 0, (exes (pushRegs (vars (n64 q)).saved) s).fl⟩)).2
      rw [vs_qw hsl h] at this
      unfold outOf
      rw [vexes_append]
      exact this)
  rw [hv2]
  have hrun : run (rawSub (n64 q) k) s
      = if (exes (subBody (n64 q) k) (exes (pushRegs (vars (n64 q)).saved) s)).fl.c then some s2 else some s3 := by
    unfold rawSub
    simp only [List.append_assoc, List.cons_append, List.nil_append]
    rw [run_lines, run_lines, run]
    have d1 : dropTo "done" (lines (subAdd (n64 q)) ++ Line.label "done" :: (lines (storeVar (n64 q) (vars (n64 q)).r1 0)
        ++ (lines (popRegs (vars (n64 q)).saved) ++ [.ret])))
        = lines (storeVar (n64 q) (vars (n64 q)).r1 0) ++ (lines (popRegs (vars (n64 q)).saved) ++ [.ret]) := by
      simp [dropTo, dropTo_lines]
    rw [exes_append] at f2 f3
    rw [exes_append] at f3
    rw [d1, run_lines, f2, run_lines (subAdd (n64 q))]
    have e3 : ∀ P t, run (Line.label "done" :: P) t = run P t := fun P t => by rw [run]
    rw [e3, run_lines (storeVar (n64 q) (vars (n64 q)).r1 0), f3]
    rfl
  rw [hrun]
  cases (exes (subBody (n64 q) k) (exes (pushRegs (vars (n64 q)).saved) s)).fl.c
  · exact ⟨s3, rfl, g3⟩
  · exact ⟨s2, rfl, g2⟩

end FF.Arm
