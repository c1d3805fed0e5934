import Verif.ArmMulChk6

/-!
# The AArch64 Montgomery routines
-/

namespace FF.Arm

open FF.X86 (upd cell rd upd_same upd_ne rd_length)

theorem mulSaved {n : Nat} (h1 : 1 ≤ n) (h2 : n ≤ 12) : (mulVars n).saved.length ≤ 16 :=
  of_decide_eq_true (all12 (f := fun n => decide ((mulVars n).saved.length ≤ 16)) (by decide +kernel) h1 h2)

/-- The constants after saving registers. -/
theorem Ctx.konst {q : Nat} {s : State} (h : Ctx q s) {saved : List Nat} (hl : saved.length ≤ 16) : Konst q (exes (pushRegs saved) s) := by
  obtain ⟨-, -, p3, p4⟩ := pushed hl s
  refine ⟨vs_qw hl h, ?_⟩
  rw [p3, p4 _ _ h.npOff 0 (by omega)]
  have : cell (s.sym .np) 0 = s.sym .np := by unfold cell; simp
  rw [this, h.np]

/-- Reduced arrays with the same Montgomery image are equal. -/
theorem mont_unique {q : Nat} (hq : q % 2 = 1) {r r' : Limbs} (hl : r.length = r'.length) {x : Nat} (h1 : val r < q) (h2 : val r' < q)
    (e1 : val r * W ^ n64 q ≡ x [MOD q]) (e2 : val r' * W ^ n64 q ≡ x [MOD q]) : r = r' := by
  refine val_inj hl (Nat.ModEq.eq_of_lt_of_lt ?_ h1 h2)
  have hc : Nat.gcd q (W ^ n64 q) = 1 := by
    rw [W_pow]
    exact Nat.Coprime.pow_right _ (Nat.coprime_two_right.mpr (Nat.odd_iff.mpr hq))
  exact Nat.ModEq.cancel_right_of_coprime hc (e1.trans e2.symm)

theorem mulChk_ok {n : Nat} (h1 : 1 ≤ n) (h2 : n ≤ 12) (opt : Bool) :
    okBody n [] (mulVars n).saved (mulBody n opt) (vMMul n opt) (.v (20 * (n - 1) + 22)) = true := by
  cases opt
  · exact mulNon_ok h1 h2
  · exact mulOpt_ok h1 h2

theorem mul1Chk_ok {n : Nat} (h1 : 1 ≤ n) (h2 : n ≤ 12) (ab opt : Bool) :
    okBody n [] (mulVars n).saved (mul1Body n ab opt) (vMul1 n ab opt) (.v (20 * (n - 1) + 22)) = true := by
  cases ab <;> cases opt
  · exact fromMNon_ok h1 h2
  · exact fromMOpt_ok h1 h2
  · exact mul1Non_ok h1 h2
  · exact mul1Opt_ok h1 h2

theorem rawMMul_run {q : Nat} {s : State} (hq : q % 2 = 1) (h : Ctx q s) (ha : OffStack s (s.reg 1) (n64 q)) (hb : OffStack s (s.reg 2) (n64 q))
    (hbq : val (rd s.mem (s.reg 2) (n64 q)) < q) {opt : Bool} (ho : opt = true → canOpt q = true) :
    ∃ s', run (rawMMul (n64 q) opt) s = some s' ∧
      Post (n64 q) s s' (FF.rawMMul q (rd s.mem (s.reg 1) (n64 q)) (rd s.mem (s.reg 2) (n64 q))) := by
  have hn := n64_pos q
  have hlim := h.lim
  have hsl := mulSaved hn hlim
  obtain ⟨s', f, g⟩ := body_post (mulChk_ok hn hlim opt) hlim hsl (.nil _ _) h.dst
  refine ⟨s', by unfold rawMMul; rw [List.append_assoc, List.append_assoc, run_lines, run_lines]; exact f, ?_⟩
  have va := vs_arr hsl ha (fun _ => 0)
  have vb := vs_arr hsl hb (fun _ => 0)
  obtain ⟨h1, h2⟩ := vMMul_run hq (h.konst hsl) (opt := opt) vb hbq (fun hopt => by
    have := canOpt_bound (ho hopt)
    exact ⟨by omega, by omega⟩) ⟨fun _ => 0, (exes (pushRegs (mulVars (n64 q)).saved) s).fl⟩
  rw [va] at h2
  obtain ⟨m1, m2, m3⟩ := rawMMul_spec hq (rd_length s.mem (s.reg 1) (n64 q)) (rd_length s.mem (s.reg 2) (n64 q)) hbq
  rw [mont_unique hq (r := outOf (mulVars (n64 q)).saved s (vMMul (n64 q) opt) (.v (20 * (n64 q - 1) + 22)) (n64 q)) (by rw [m1]; exact map_length _ _)
    h1 m2 h2 m3] at g
  exact g

theorem rawMMul1_run {q : Nat} {s : State} (hq : q % 2 = 1) (h : Ctx q s) (ha : OffStack s (s.reg 1) (n64 q))
    (haq : val (rd s.mem (s.reg 1) (n64 q)) < q) {opt : Bool} (ho : opt = true → canOpt q = true) :
    ∃ s', run (rawMul1 (n64 q) true opt) s = some s' ∧ Post (n64 q) s s' (FF.rawMMul1 q (rd s.mem (s.reg 1) (n64 q)) (s.reg 2)) := by
  have hn := n64_pos q
  have hlim := h.lim
  have hsl := mulSaved hn hlim
  obtain ⟨s', f, g⟩ := body_post (mul1Chk_ok hn hlim true opt) hlim hsl (.nil _ _) h.dst
  refine ⟨s', by unfold rawMul1; rw [List.append_assoc, List.append_assoc, run_lines, run_lines]; exact f, ?_⟩
  have va := vs_arr hsl ha (fun _ => 0)
  obtain ⟨h1, h2⟩ := vMul1_run hq (h.konst hsl) (ab := true) (opt := opt) (fun _ => by rw [va]; exact haq) ho
    ⟨fun _ => 0, (exes (pushRegs (mulVars (n64 q)).saved) s).fl⟩
  have e : mul1In (n64 q) true (exes (pushRegs (mulVars (n64 q)).saved) s) = val (rd s.mem (s.reg 1) (n64 q)) * (s.reg 2).toNat := by
    unfold mul1In
    rw [va, if_pos rfl, (pushed hsl s).1, Nat.mul_comm]
  rw [e] at h2
  obtain ⟨m1, m2, m3⟩ := rawMMul1_spec (b := s.reg 2) hq (rd_length s.mem (s.reg 1) (n64 q)) haq
  rw [mont_unique hq (r := outOf (mulVars (n64 q)).saved s (vMul1 (n64 q) true opt) (.v (20 * (n64 q - 1) + 22)) (n64 q)) (by rw [m1]; exact map_length _ _)
    h1 m2 h2 m3] at g
  exact g

theorem rawFromMontgomery_run {q : Nat} {s : State} (hq : q % 2 = 1) (h : Ctx q s) (ha : OffStack s (s.reg 1) (n64 q))
    {opt : Bool} (ho : opt = true → canOpt q = true) :
    ∃ s', run (rawMul1 (n64 q) false opt) s = some s' ∧ Post (n64 q) s s' (FF.rawFromMontgomery q (rd s.mem (s.reg 1) (n64 q))) := by
  have hn := n64_pos q
  have hlim := h.lim
  have hsl := mulSaved hn hlim
  obtain ⟨s', f, g⟩ := body_post (mul1Chk_ok hn hlim false opt) hlim hsl (.nil _ _) h.dst
  refine ⟨s', by unfold rawMul1; rw [List.append_assoc, List.append_assoc, run_lines, run_lines]; exact f, ?_⟩
  have va := vs_arr hsl ha (fun _ => 0)
  obtain ⟨h1, h2⟩ := vMul1_run hq (h.konst hsl) (ab := false) (opt := opt) (fun h => absurd h (by decide)) ho
    ⟨fun _ => 0, (exes (pushRegs (mulVars (n64 q)).saved) s).fl⟩
  have e : mul1In (n64 q) false (exes (pushRegs (mulVars (n64 q)).saved) s) = val (rd s.mem (s.reg 1) (n64 q)) := by
    unfold mul1In
    rw [va, if_neg (by decide), Nat.one_mul]
  rw [e] at h2
  obtain ⟨m1, m2, m3⟩ := rawFromMontgomery_spec hq (rd_length s.mem (s.reg 1) (n64 q))
  rw [mont_unique hq (r := outOf (mulVars (n64 q)).saved s (vMul1 (n64 q) false opt) (.v (20 * (n64 q - 1) + 22)) (n64 q)) (by rw [m1]; exact map_length _ _)
    h1 m2 h2 m3] at g
  exact g

end FF.Arm
