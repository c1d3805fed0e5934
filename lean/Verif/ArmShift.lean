import Verif.ArmCmp
import Verif.AsmShift

/-!
# The AArch64 raw routines: shifts
-/

namespace FF.Arm

open FF.X86 (upd cell rd upd_same upd_ne rd_length rshift_limb lshift_limb limbs_ext rd_limb limb_out)

/-! ## The common head -/

/-- The operations before the jump. -/
def vHead (n : Nat) : List VIns :=
  [vop .and 10 0 (.base (.arg 2)) (.imm 63), vop .mov 11 0 (.imm 63) .zr, vop .sub 12 0 (.v 11 0) (.v 10 0)]
    ++ if 2 < n then [vop .lsr 13 0 (.base (.arg 2)) (.imm 6)] else []

/-- A word of `rawShr`. -/
def vShrW (i : Nat) : List VIns :=
  [vop .lsr 20 i (arr 1 i) (.v 10 0), vop .lsl 21 i (arr 1 (i + 1)) (.v 12 0), vop .orrLsl1 22 i (.v 20 i) (.v 21 i)]

def vShr (n ws : Nat) : List VIns := vloop (n - 1 - ws) (fun k => vShrW (ws + k)) ++ [vop .lsr 22 (n - 1) (arr 1 (n - 1)) (.v 10 0)]

def shrOut (n ws i : Nat) : Val := if ws + i < n then .v 22 (ws + i) else .zr

/-- A word of `rawShl`. -/
def vShlW (i j : Nat) : List VIns :=
  [vop .lsl 20 j (arr 1 i) (.v 10 0), vop .lsr 21 j (arr 1 (i - 1)) (.v 12 0), vop .orrLsr1 1 j (.v 20 j) (.v 21 j)]

def vShl (n ws : Nat) : List VIns :=
  vloop (n - 1 - ws) (fun k => vShlW (n - 1 - ws - k) (n - 1 - k)) ++ [vop .lsl 1 ws (arr 1 0) (.v 10 0)]
    ++ vloop ws (fun k => [vop .mov 1 (ws - 1 - k) .zr .zr])
    ++ [vop .and 2 0 (.v 1 (n - 1)) (.mem (.tab .lboMask) 0)]

/-- Two pieces of code; between them register `x5` receives an address of the code. -/
def okJump (n : Nat) (saved : List Nat) (p : List Ins) (vs : List VIns) (p' : List Ins) (vs' : List VIns) (out : Nat → Val) : Bool :=
  match chk n [] p vs regs0 [] with
  | none => false
  | some (M, st) =>
      fresh (99, 0) M st &&
      match chk n [] p' vs' (M.set 5 (.v 99 0)) st with
      | none => false
      | some (M', st') => kept saved M' && outs out 0 st' && Nat.beq st'.length n

theorem okJump_run {n : Nat} {saved : List Nat} {p : List Ins} {vs : List VIns} {p' : List Ins} {vs' : List VIns} {out : Nat → Val}
    (hok : okJump n saved p vs p' vs' out = true) (hn : 8 * n ≤ 2 ^ 64) (s : State) (w : BitVec 64) :
    ∃ u, Keeps [99] (vexes s vs ⟨fun _ => 0, s.fl⟩) u ∧
      After n saved s (exes p' { exes p s with reg := upd (exes p s).reg 5 w }) (fun i => (out i).eval s (vexes s vs' u).ρ) := by
  unfold okJump at hok
  split at hok
  · exact absurd hok (by simp)
  · rename_i M st hk
    rw [Bool.and_eq_true] at hok
    obtain ⟨hf, hok⟩ := hok
    have hc : NoClash n [] s := .nil _ _
    have hS := chk_sound hn hc p vs regs0 M [] st s ⟨fun _ => 0, s.fl⟩ hk (Sim.start n s _)
    have hT := (hS.virt hf w (exes p s).fl).set (d := 5) (v := .v 99 0) (w := w) (by decide)
      (upd_same (vexes s vs ⟨fun _ => 0, s.fl⟩).ρ (99, 0) w).symm
    split at hok
    · exact absurd hok (by simp)
    · rename_i M' st' hk'
      simp only [Bool.and_eq_true] at hok
      obtain ⟨⟨h1, h2⟩, h3⟩ := hok
      have hlen := Nat.eq_of_beq_eq_true h3
      have hU := chk_sound hn hc p' vs' _ M' st st' _ _ hk' hT
      refine ⟨⟨upd (vexes s vs ⟨fun _ => 0, s.fl⟩).ρ (99, 0) w, (exes p s).fl⟩, ?_, hU.sp, fun r a b c => ?_, fun a ha => ?_, fun i hi => ?_⟩
      · exact upd_keeps _ _ _ _ _ _
      · rw [hU.reg r (by omega), kept_spec h1 a b c]; rfl
      · exact hU.frame a fun e he => ha e.1 (hU.bound e he)
      · have := outs_spec h2 i (by omega)
        rw [Nat.zero_add] at this
        exact hU.out _ this

/-! ## The jump -/

theorem label_inj : ∀ i < 12, ∀ j < 12, wordLabel i = wordLabel j → i = j := by decide +kernel

theorem label_ne : ∀ i < 12, wordLabel i ≠ "done" ∧ wordLabel i ≠ "sub" := by decide +kernel

/-- The blocks of the word shifts. -/
def blocks (g : Nat → List Ins) (e : Nat → List Line) (a m : Nat) : List Line :=
  (List.range' a m).flatMap fun i => .label (wordLabel i) :: (lines (g i) ++ e i)

/-- Lines without labels. -/
def noLabel : List Line → Bool
  | [] => true
  | .label _ :: _ => false
  | _ :: p => noLabel p

theorem dropTo_noLabel (l : String) (e p : List Line) (h : noLabel e = true) : dropTo l (e ++ p) = dropTo l p := by
  induction e with
  | nil => rfl
  | cons x e ih =>
    cases x with
    | label m => exact absurd h (by simp [noLabel])
    | _ => exact ih h

theorem dropTo_blocks {g : Nat → List Ins} {e : Nat → List Line} (he : ∀ i, noLabel (e i) = true) (p : List Line) :
    ∀ (m a ws : Nat), a + m ≤ 12 → a ≤ ws → ws < a + m →
      dropTo (wordLabel ws) (blocks g e a m ++ p) = lines (g ws) ++ (e ws ++ (blocks g e (ws + 1) (a + m - (ws + 1)) ++ p)) := by
  intro m
  induction m with
  | zero => intro a ws _ h1 h2; omega
  | succ m ih =>
    intro a ws h0 h1 h2
    rw [blocks, List.range'_succ, List.flatMap_cons, List.append_assoc, List.cons_append, dropTo]
    by_cases h : wordLabel a = wordLabel ws
    · have := label_inj a (by omega) ws (by omega) h
      subst this
      rw [if_pos rfl, List.append_assoc, show a + (m + 1) - (a + 1) = m by omega]
      rfl
    · rw [if_neg h, List.append_assoc, dropTo_lines, dropTo_noLabel _ _ _ (he a)]
      have hne : a ≠ ws := fun hh => h (by rw [hh])
      have := ih (a + 1) ws (by omega) (by omega) (by omega)
      rw [show a + 1 + m = a + (m + 1) by omega] at this
      exact this

theorem dropTo_blocks_ne {g : Nat → List Ins} {e : Nat → List Line} (he : ∀ i, noLabel (e i) = true) {l : String}
    (hl : ∀ i < 12, wordLabel i ≠ l) (p : List Line) : ∀ (m a : Nat), a + m ≤ 12 → dropTo l (blocks g e a m ++ p) = dropTo l p := by
  intro m
  induction m with
  | zero => intro a _; rfl
  | succ m ih =>
    intro a h0
    rw [blocks, List.range'_succ, List.flatMap_cons, List.append_assoc, List.cons_append, dropTo, if_neg (hl a (by omega)),
      List.append_assoc, dropTo_lines, dropTo_noLabel _ _ _ (he a)]
    exact ih (a + 1) (by omega)

/-- The instruction before the jump table. -/
def tabIns (n : Nat) : List Ins := if 2 < n then [.alu .lsr 2 (.reg 2) (.imm 6)] else []

theorem lsr6 (x : BitVec 64) : (x >>> ((BitVec.ofNat 64 6).toNat % 64)).toNat = x.toNat / 64 := by
  rw [BitVec.toNat_ushiftRight, Nat.shiftRight_eq_div_pow]
  rfl

theorem jump_run {n : Nat} (h2 : 2 ≤ n) (hlim : n ≤ 12) {g : Nat → List Ins} {e : Nat → List Line} (he : ∀ i, noLabel (e i) = true)
    (p : List Line) (t : State) (hc : (t.reg 2).toNat < 64 * n) :
    ∃ w, run (calcJump n ++ (blocks g e 0 n ++ p)) t
      = run (lines (g ((t.reg 2).toNat / 64)) ++ (e ((t.reg 2).toNat / 64) ++
          (blocks g e ((t.reg 2).toNat / 64 + 1) (n - ((t.reg 2).toNat / 64 + 1)) ++ p)))
          { exes (tabIns n) t with reg := upd (exes (tabIns n) t).reg 5 w } := by
  have hd := fun ws h => dropTo_blocks he p n 0 ws (g := g) (by omega) (by omega) h
  simp only [Nat.zero_add] at hd
  generalize hws : (t.reg 2).toNat / 64 = ws
  have hlt : ws < n := by omega
  unfold calcJump tabIns
  by_cases h3 : 2 < n
  · rw [if_pos h3, if_pos h3]
    have e1 : exes [.alu .lsr 2 (.reg 2) (.imm 6)] t = (Ins.alu .lsr 2 (.reg 2) (.imm 6)).exec t := rfl
    have e2 : (((Ins.alu .lsr 2 (.reg 2) (.imm 6)).exec t).reg 2).toNat = ws := by
      rw [← hws, ← lsr6 (t.reg 2)]
      exact congrArg BitVec.toNat (upd_same t.reg 2 _)
    rw [e1]
    generalize ht : (Ins.alu .lsr 2 (.reg 2) (.imm 6)).exec t = t' at *
    refine ⟨t'.code (wordLabel ws), ?_⟩
    rw [List.cons_append, List.cons_append, List.nil_append, run, ht, run]
    have e3 : ((List.range n).map wordLabel)[(t'.reg 2).toNat]? = some (wordLabel ws) := by
      rw [e2, List.getElem?_map, List.getElem?_range hlt]; rfl
    rw [e3]
    dsimp only
    rw [hd ws hlt]
  · have hn : n = 2 := by omega
    subst hn
    rw [if_neg h3, if_neg h3]
    refine ⟨t.reg 5, ?_⟩
    have e1 : { exes [] t with reg := upd (exes [] t).reg 5 (t.reg 5) } = t := by
      have : upd t.reg 5 (t.reg 5) = t.reg := by funext r; unfold upd; split <;> simp_all
      rw [exes_nil, this]
    rw [e1, List.cons_append, List.nil_append, run]
    have hb : (t.reg 2).getLsbD 6 = decide (ws = 1) := by
      rw [BitVec.getLsbD, Nat.testBit_eq_decide_div_mod_eq, hws.symm.symm]
      congr 1
      have : ws < 2 := hlt
      rw [Nat.mod_eq_of_lt this]
    rw [hb]
    by_cases h1 : ws = 1
    · subst h1
      rw [if_pos (decide_eq_true rfl), hd 1 hlt]
    · rw [if_neg (by simpa using h1), ← hd ws hlt]
      have h0 : ws = 0 := by omega
      subst h0
      rw [blocks, show List.range' 0 2 = 0 :: List.range' 1 1 from rfl, List.flatMap_cons, List.append_assoc, List.cons_append, run,
        dropTo_self]

end FF.Arm
