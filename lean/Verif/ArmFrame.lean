import Verif.ArmVal

/-!
# Saved registers, and from checked code to runs
-/

namespace FF.Arm

open FF.X86 (upd cell rd upd_same upd_ne)

/-- The stack slot `8 k` bytes below an address. -/
def slot (a : BitVec 64) (k : Nat) : BitVec 64 := a - BitVec.ofNat 64 (8 * k)

theorem slot_sub (a : BitVec 64) (k j : Nat) : slot (slot a k) j = slot a (k + j) := by
  unfold slot
  rw [Nat.mul_add, BitVec.ofNat_add]
  generalize BitVec.ofNat 64 (8 * k) = x
  generalize BitVec.ofNat 64 (8 * j) = y
  bv_omega

theorem slot_inj {a : BitVec 64} {k j : Nat} (hk : k < 2 ^ 61) (hj : j < 2 ^ 61) (h : slot a k = slot a j) : k = j := by
  unfold slot at h
  have h : BitVec.ofNat 64 (8 * k) = BitVec.ofNat 64 (8 * j) := (BitVec.sub_right_inj a).mp h
  have := congrArg BitVec.toNat h
  rw [BitVec.toNat_ofNat, BitVec.toNat_ofNat, Nat.mod_eq_of_lt (by omega), Nat.mod_eq_of_lt (by omega)] at this
  omega

/-- The slots used for `m` registers: pairs. -/
def slots (m : Nat) : Nat := 2 * ((m + 1) / 2)

theorem slots_add (m : Nat) : slots (m + 2) = slots m + 2 := by unfold slots; omega

theorem slots_one (r : Nat) : slots [r].length = 2 := by simp [slots]

theorem sp16 (a : BitVec 64) : a - 16 = slot a 2 := rfl
theorem sp8 (a : BitVec 64) : a - 8 = slot a 1 := rfl
theorem slot2_add16 (a : BitVec 64) : slot a 2 + 16 = a := by unfold slot; bv_omega
theorem slot2_add8 (a : BitVec 64) : slot a 2 + 8 = slot a 1 := by
  unfold slot
  bv_omega

theorem push_run : ∀ (l : List Nat) (s : State), l.length ≤ 64 →
    (exes (pushRegs l) s).reg = s.reg ∧ (exes (pushRegs l) s).fl = s.fl ∧ (exes (pushRegs l) s).sym = s.sym ∧
      (exes (pushRegs l) s).code = s.code ∧ (exes (pushRegs l) s).sp = slot s.sp (slots l.length) ∧
      ∀ a, (∀ k, 1 ≤ k → k ≤ slots l.length → a ≠ slot s.sp k) → (exes (pushRegs l) s).mem a = s.mem a
  | [], s, _ => ⟨rfl, rfl, rfl, rfl, by simp [pushRegs, exes, slots, slot], fun _ _ => rfl⟩
  | [r], s, _ => by
    refine ⟨rfl, rfl, rfl, rfl, by rw [slots_one]; rfl, fun a ha => ?_⟩
    rw [slots_one] at ha
    show upd s.mem (s.sp - 16) (s.reg r) a = _
    rw [sp16]
    exact upd_ne _ _ (ha 2 (by omega) (by omega))
  | r :: r' :: l, s, h => by
    simp only [List.length_cons] at h
    obtain ⟨h1, h2, h3, h4, h5, h6⟩ := push_run l ((Ins.push2 r r').exec s) (by omega)
    have e : exes (pushRegs (r :: r' :: l)) s = exes (pushRegs l) ((Ins.push2 r r').exec s) := rfl
    have es : ((Ins.push2 r r').exec s).sp = slot s.sp 2 := rfl
    rw [es] at h5 h6
    have hl : (r :: r' :: l).length = l.length + 2 := rfl
    rw [e, hl, slots_add]
    refine ⟨h1, h2, h3, h4, ?_, fun a ha => ?_⟩
    · rw [h5, slot_sub, Nat.add_comm 2]
    · rw [h6 a]
      · show upd (upd s.mem (s.sp - 16) (s.reg r)) (s.sp - 8) (s.reg r') a = _
        rw [sp16, sp8, upd_ne _ _ (ha 1 (by omega) (by omega)), upd_ne _ _ (ha 2 (by omega) (by omega))]
      · intro k hk hk'
        rw [slot_sub]
        exact ha _ (by omega) (by omega)

theorem pop_run : ∀ (l : List Nat) (s t : State), l.length ≤ 64 → t.sp = slot s.sp (slots l.length) →
    (∀ k, 1 ≤ k → k ≤ slots l.length → t.mem (slot s.sp k) = (exes (pushRegs l) s).mem (slot s.sp k)) →
    (exes (popRegs l) t).sp = s.sp ∧ (exes (popRegs l) t).mem = t.mem ∧
      (∀ r, r ∈ l → (exes (popRegs l) t).reg r = s.reg r) ∧ (∀ r, r ∉ l → (exes (popRegs l) t).reg r = t.reg r)
  | [], s, t, _, hsp, _ => ⟨by rw [show exes (popRegs []) t = t from rfl, hsp]; simp [slots, slot], rfl,
      fun _ h => absurd h (by simp), fun _ _ => rfl⟩
  | [r], s, t, _, hsp, hm => by
    rw [slots_one] at hsp hm
    have h2 : t.mem t.sp = s.reg r := by
      rw [hsp]
      rw [hm 2 (by omega) (by omega)]
      show upd s.mem (s.sp - 16) (s.reg r) (slot s.sp 2) = _
      rw [sp16, upd_same]
    refine ⟨?_, rfl, ?_, ?_⟩
    · show t.sp + 16 = s.sp
      rw [hsp]; exact slot2_add16 _
    · intro r' hr'
      obtain rfl := List.mem_singleton.mp hr'
      show upd t.reg r' (t.mem t.sp) r' = _
      rw [upd_same, h2]
    · intro r' hr'
      show upd t.reg r (t.mem t.sp) r' = _
      exact upd_ne _ _ fun h => hr' (List.mem_singleton.mpr h)
  | r :: r' :: l, s, t, h, hsp, hm => by
    simp only [List.length_cons] at h
    have hl : (r :: r' :: l).length = l.length + 2 := rfl
    have e : exes (pushRegs (r :: r' :: l)) s = exes (pushRegs l) ((Ins.push2 r r').exec s) := rfl
    have es : ((Ins.push2 r r').exec s).sp = slot s.sp 2 := rfl
    have hsl : slots l.length ≤ 66 := by unfold slots; omega
    rw [hl, slots_add] at hsp hm
    rw [e] at hm
    obtain ⟨-, -, -, -, -, p6⟩ := push_run l ((Ins.push2 r r').exec s) (by omega)
    rw [es] at p6
    obtain ⟨h1, h2, h3, h4⟩ := pop_run l ((Ins.push2 r r').exec s) t (by omega)
      (by rw [es, slot_sub, hsp, Nat.add_comm]) (by
        intro k hk hk'
        rw [es, slot_sub]
        exact hm _ (by omega) (by omega))
    have m2 : t.mem (slot s.sp 2) = s.reg r := by
      rw [hm 2 (by omega) (by omega), p6 _ (by
        intro k hk hk'
        rw [slot_sub]
        intro hh
        have := slot_inj (by omega) (by omega) hh
        omega)]
      show upd (upd s.mem (s.sp - 16) (s.reg r)) (s.sp - 8) (s.reg r') _ = _
      rw [sp16, sp8, upd_ne _ _ (by
        intro hh
        exact absurd (slot_inj (by omega) (by omega) hh) (by omega)), upd_same]
    have m1 : t.mem (slot s.sp 1) = s.reg r' := by
      rw [hm 1 (by omega) (by omega), p6 _ (by
        intro k hk hk'
        rw [slot_sub]
        intro hh
        have := slot_inj (by omega) (by omega) hh
        omega)]
      show upd (upd s.mem (s.sp - 16) (s.reg r)) (s.sp - 8) (s.reg r') _ = _
      rw [sp16, sp8, upd_same]
    have ep : exes (popRegs (r :: r' :: l)) t = (Ins.pop2 r r').exec (exes (popRegs l) t) := by
      rw [show popRegs (r :: r' :: l) = popRegs l ++ [.pop2 r r'] from rfl, exes_append]
      rfl
    rw [ep]
    rw [es] at h1
    have ereg : ((Ins.pop2 r r').exec (exes (popRegs l) t)).reg = upd (upd (exes (popRegs l) t).reg r (s.reg r)) r' (s.reg r') := by
      show upd (upd _ r ((exes (popRegs l) t).mem (exes (popRegs l) t).sp)) r' ((exes (popRegs l) t).mem ((exes (popRegs l) t).sp + 8)) = _
      rw [h2, h1, slot2_add8, m1, m2]
    refine ⟨?_, h2, ?_, ?_⟩
    · show (exes (popRegs l) t).sp + 16 = _
      rw [h1, slot2_add16]
    · intro x hx
      rw [ereg]
      by_cases hx' : x = r'
      · rw [hx', upd_same]
      · rw [upd_ne _ _ hx']
        by_cases hx2 : x = r
        · rw [hx2, upd_same]
        · rw [upd_ne _ _ hx2]
          rw [h3 x (by
            rcases List.mem_cons.mp hx with h | h
            · exact absurd h hx2
            · rcases List.mem_cons.mp h with h | h
              · exact absurd h hx'
              · exact h)]
          rfl
    · intro x hx
      rw [ereg]
      have hx1 : x ≠ r := fun h => hx (by rw [h]; exact List.mem_cons_self)
      have hx2 : x ≠ r' := fun h => hx (by rw [h]; exact List.mem_cons_of_mem _ List.mem_cons_self)
      rw [upd_ne _ _ hx2, upd_ne _ _ hx1]
      exact h4 x fun h => hx (List.mem_cons_of_mem _ (List.mem_cons_of_mem _ h))

/-! ## Checked code -/

/-- Registers `x19 … x30` hold what they held at the start, or are in the list of saved registers. -/
def kept (saved : List Nat) (M : Regs) : Bool :=
  (List.range 12).all fun r => saved.contains (19 + r) || (M.getD (19 + r) .zr).same (.base (.arg (19 + r)))

/-- The stores are those of word `0, 1, 2, …` of the result. -/
def outs (out : Nat → Val) : Nat → Stores → Bool
  | _, [] => true
  | i, e :: st => Nat.beq e.1 i && e.2.same (out i) && outs out (i + 1) st

/-- The code is described by the operations, leaves `out` in the result array and the registers kept. -/
def okBody (n : Nat) (bs : List Base) (saved : List Nat) (p : List Ins) (vs : List VIns) (out : Nat → Val) : Bool :=
  match chk n bs p vs regs0 [] with
  | none => false
  | some (M, st) => kept saved M && outs out 0 st && Nat.beq st.length n

/-- The code is described by the operations, stores nothing and leaves a value in a register. -/
def okReg (n : Nat) (p : List Ins) (vs : List VIns) (saved : List Nat) (r : Nat) (v : Val) : Bool :=
  match chk n [] p vs regs0 [] with
  | none => false
  | some (M, st) => kept saved M && st.isEmpty && Nat.blt r 31 && (M.getD r .zr).same v

/-- The state after a checked piece of code. -/
structure After (n : Nat) (saved : List Nat) (s t : State) (out : Nat → BitVec 64) : Prop where
  sp : t.sp = s.sp
  regs : ∀ r, 19 ≤ r → r ≤ 30 → r ∉ saved → t.reg r = s.reg r
  frame : ∀ a, (∀ i, i < n → a ≠ cell (s.reg 0) i) → t.mem a = s.mem a
  out : ∀ i, i < n → t.mem (cell (s.reg 0) i) = out i

theorem kept_spec {saved : List Nat} {M : Regs} (h : kept saved M) {r : Nat} (h1 : 19 ≤ r) (h2 : r ≤ 30) (h3 : r ∉ saved) :
    M.getD r .zr = .base (.arg r) := by
  simp only [kept, List.all_eq_true, List.mem_range, Bool.or_eq_true, List.contains_iff_mem] at h
  have := h (r - 19) (by omega)
  rw [show 19 + (r - 19) = r by omega] at this
  rcases this with h | h
  · exact absurd h h3
  · exact Val.same_spec h

theorem outs_spec {out : Nat → Val} : ∀ {i : Nat} {st : Stores}, outs out i st →
    ∀ k, k < st.length → (i + k, out (i + k)) ∈ st
  | i, [], _, k, hk => absurd hk (by simp)
  | i, e :: st, h, k, hk => by
    simp only [outs, Bool.and_eq_true] at h
    obtain ⟨⟨h1, h2⟩, h3⟩ := h
    cases k with
    | zero =>
      have : e = (i, out i) := Prod.ext (Nat.eq_of_beq_eq_true h1) (Val.same_spec h2)
      rw [this]; exact List.mem_cons_self
    | succ k =>
      have := outs_spec h3 k (by simpa using hk)
      rw [show i + 1 + k = i + (k + 1) by omega] at this
      exact List.mem_cons_of_mem _ this

theorem okBody_run {n : Nat} {bs : List Base} {saved : List Nat} {p : List Ins} {vs : List VIns} {out : Nat → Val}
    (hok : okBody n bs saved p vs out = true) (hn : 8 * n ≤ 2 ^ 64) {s : State} (hc : NoClash n bs s) (ρ : Env) :
    After n saved s (exes p s) (fun i => (out i).eval s (vexes s vs ⟨ρ, s.fl⟩).ρ) := by
  unfold okBody at hok
  split at hok
  · exact absurd hok (by simp)
  · rename_i M st hk
    simp only [Bool.and_eq_true] at hok
    obtain ⟨⟨h1, h2⟩, h3⟩ := hok
    have hlen := Nat.eq_of_beq_eq_true h3
    have hS := chk_sound hn hc p vs regs0 M [] st s ⟨ρ, s.fl⟩ hk (Sim.start n s ρ)
    refine ⟨hS.sp, fun r a b c => ?_, fun a ha => ?_, fun i hi => ?_⟩
    · rw [hS.reg r (by omega), kept_spec h1 a b c]; rfl
    · exact hS.frame a fun e he => ha e.1 (hS.bound e he)
    · have := outs_spec h2 i (by omega)
      rw [Nat.zero_add] at this
      exact hS.out _ this

theorem okReg_run {n : Nat} {p : List Ins} {vs : List VIns} {saved : List Nat} {r : Nat} {v : Val}
    (hok : okReg n p vs saved r v = true) (hn : 8 * n ≤ 2 ^ 64) {s : State} (ρ : Env) :
    (exes p s).reg r = v.eval s (vexes s vs ⟨ρ, s.fl⟩).ρ ∧ (exes p s).fl = (vexes s vs ⟨ρ, s.fl⟩).fl ∧
      (exes p s).mem = s.mem ∧ (exes p s).sp = s.sp ∧ ∀ r, 19 ≤ r → r ≤ 30 → r ∉ saved → (exes p s).reg r = s.reg r := by
  unfold okReg at hok
  split at hok
  · exact absurd hok (by simp)
  · rename_i M st hk
    simp only [Bool.and_eq_true] at hok
    obtain ⟨⟨⟨h0, h1⟩, h2⟩, h3⟩ := hok
    have hS := chk_sound hn (fun b hb => absurd hb (by simp)) p vs regs0 M [] st s ⟨ρ, s.fl⟩ hk (Sim.start n s ρ)
    refine ⟨?_, hS.fl, ?_, hS.sp, fun r a b c => ?_⟩
    · rw [hS.reg r (Nat.blt_eq.mp h2), Val.same_spec h3]
    · funext a
      refine hS.frame a ?_
      rw [List.isEmpty_iff.mp h1]
      simp
    · rw [hS.reg r (by omega), kept_spec h0 a b c]; rfl

/-- What the caller sees. -/
structure Post (n : Nat) (s s' : State) (out : Limbs) : Prop where
  out : rd s'.mem (s.reg 0) n = out
  frame : ∀ a, (∀ i, i < n → a ≠ cell (s.reg 0) i) → (∀ k, 1 ≤ k → k ≤ 16 → a ≠ slot s.sp k) → s'.mem a = s.mem a
  saved : ∀ r, 19 ≤ r → r ≤ 30 → s'.reg r = s.reg r
  sp : s'.sp = s.sp

/-- The cells of an array are not in the stack area below `sp`. -/
def OffStack (s : State) (a : BitVec 64) (n : Nat) : Prop := ∀ i, i < n → ∀ k, 1 ≤ k → k ≤ 16 → cell a i ≠ slot s.sp k

/-- The registers are restored. -/
theorem finish {n : Nat} {saved : List Nat} {s t : State} {out : Nat → BitVec 64} (hl : saved.length ≤ 16)
    (h : After n saved (exes (pushRegs saved) s) t out) (ho : OffStack s (s.reg 0) n) :
    ∃ s', run (lines (popRegs saved) ++ [.ret]) t = some s' ∧ Post n s s' ((List.range n).map out) := by
  obtain ⟨p1, -, -, -, p5, p6⟩ := push_run saved s (by omega)
  have hsl : slots saved.length ≤ 16 := by unfold slots; omega
  have hr0 : (exes (pushRegs saved) s).reg 0 = s.reg 0 := by rw [p1]
  obtain ⟨q1, q2, q3, q4⟩ := pop_run saved s t (by omega) (by rw [h.sp, p5]) (by
    intro k hk hk'
    refine h.frame _ fun i hi => ?_
    rw [hr0]
    exact fun hh => ho i hi k hk (by omega) hh.symm)
  refine ⟨exes (popRegs saved) t, by rw [run_lines, run], ?_, ?_, ?_, q1⟩
  · rw [q2, rd_map]
    refine List.map_congr_left fun i hi => ?_
    have := h.out i (List.mem_range.mp hi)
    rwa [hr0] at this
  · intro a ha hk
    rw [q2, h.frame a (by rw [hr0]; exact ha)]
    exact p6 a fun k h1 h2 => hk k h1 (by omega)
  · intro r h1 h2
    by_cases hr : r ∈ saved
    · exact q3 r hr
    · rw [q4 r hr, h.regs r h1 h2 hr, p1]

end FF.Arm
