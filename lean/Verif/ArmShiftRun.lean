import Verif.ArmShift2

/-!
# The AArch64 shifts: the routines
-/

namespace FF.Arm

open FF.X86 (upd cell rd upd_same upd_ne rd_length)

/-- The state before the jump. -/
theorem head_run {n : Nat} {v : Vars} (hv : v = shrVars n ∨ v = shlVars n) (hn : 0 < n) (hlim : n ≤ 12) (S : State) :
    (exes (loadVar n v.r1 1 ++ calcShift) S).reg 2 = S.reg 2 := by
  have h := List.all_eq_true.mp (all12 head_ok hn hlim) v (by rcases hv with rfl | rfl <;> simp)
  exact (okReg_run h (fits12 hlim) (s := S) (fun _ => 0)).1

/-- From the head through the jump and the block, for both shifts. -/
theorem shift_run {n : Nat} (h2 : 2 ≤ n) (hlim : n ≤ 12) {v : Vars} (hv : v = shrVars n ∨ v = shlVars n)
    {g : Nat → List Ins} {e : Nat → List Line} (he : ∀ i, noLabel (e i) = true) (p : List Line) (S : State)
    (hc : (S.reg 2).toNat < 64 * n) :
    ∃ w, run (lines (loadVar n v.r1 1 ++ calcShift) ++ (calcJump n ++ (blocks g e 0 n ++ p))) S
      = run (e ((S.reg 2).toNat / 64) ++ (blocks g e ((S.reg 2).toNat / 64 + 1) (n - ((S.reg 2).toNat / 64 + 1)) ++ p))
          (exes (g ((S.reg 2).toNat / 64)) { exes (loadVar n v.r1 1 ++ calcShift ++ tabIns n) S with
            reg := upd (exes (loadVar n v.r1 1 ++ calcShift ++ tabIns n) S).reg 5 w }) := by
  have hr := head_run hv (by omega) hlim S
  obtain ⟨w, hw⟩ := jump_run h2 hlim he p (exes (loadVar n v.r1 1 ++ calcShift) S) (g := g) (by rw [hr]; exact hc)
  refine ⟨w, ?_⟩
  rw [run_lines, hw, hr, run_lines, exes_append _ (tabIns n)]

theorem counts_of {S : State} {n : Nat} {u : U} (h : Keeps [99] (vexes S (vHead n) ⟨fun _ => 0, S.fl⟩) u) :
    Counts u ((S.reg 2).toNat % 64) := by
  obtain ⟨r, h1, h2, h3⟩ := vHead_run S n
  refine Counts.keeps (u := vexes S (vHead n) ⟨fun _ => 0, S.fl⟩) ⟨Nat.mod_lt _ (by decide), ?_, ?_⟩ h (by simp) (by simp)
  · rw [h1]; exact h2
  · rw [h1]; exact h3

theorem shiftSaved {n : Nat} (h1 : 1 ≤ n) (h2 : n ≤ 12) : (shrVars n).saved.length ≤ 16 ∧ (shlVars n).saved.length ≤ 16 :=
  of_decide_eq_true (all12 (f := fun n => decide ((shrVars n).saved.length ≤ 16 ∧ (shlVars n).saved.length ≤ 16)) (by decide +kernel) h1 h2)

/-! ## `rawShr` -/

/-- What follows the block of a word shift in `rawShr`. -/
def shrNext (n ws : Nat) : List Line := if (shrVars n).saved = [] then [.ret] else if ws = n - 1 then [] else [.b "done"]

theorem shrNext_noLabel (n ws : Nat) : noLabel (shrNext n ws) = true := by
  unfold shrNext; split <;> [rfl; split <;> rfl]

theorem rawShr_code {n : Nat} (h : n ≠ 1) : rawShr n = lines (pushRegs (shrVars n).saved) ++ (lines (loadVar n (shrVars n).r1 1 ++ calcShift) ++
    (calcJump n ++ (blocks (fun ws => shrBits n ws ++ shrStore n ws) (shrNext n) 0 n ++
      if (shrVars n).saved = [] then [] else [.label "done"] ++ lines (popRegs (shrVars n).saved) ++ [.ret]))) := by
  unfold rawShr
  rw [if_neg h]
  simp only [List.append_assoc]
  congr 4
  unfold blocks
  rw [List.range_eq_range']
  congr 1

/-- The end of `rawShr`. -/
theorem shr_end {n ws : Nat} (hlim : n ≤ 12) (hw : ws < n) (t : State) :
    run (shrNext n ws ++ (blocks (fun ws => shrBits n ws ++ shrStore n ws) (shrNext n) (ws + 1) (n - (ws + 1)) ++
      if (shrVars n).saved = [] then [] else [.label "done"] ++ lines (popRegs (shrVars n).saved) ++ [.ret])) t
      = run (lines (popRegs (shrVars n).saved) ++ [.ret]) t := by
  by_cases hs : (shrVars n).saved = []
  · have e : shrNext n ws = [.ret] := by unfold shrNext; rw [if_pos hs]
    rw [e, hs, List.cons_append, run]
    show _ = run [.ret] t
    rw [run]
  · rw [if_neg hs]
    by_cases hl : ws = n - 1
    · have e : shrNext n ws = [] := by unfold shrNext; rw [if_neg hs, if_pos hl]
      rw [e, show n - (ws + 1) = 0 by omega, List.nil_append]
      show run ([.label "done"] ++ lines (popRegs (shrVars n).saved) ++ [.ret]) t = _
      rw [List.append_assoc, List.cons_append, List.nil_append, run]
    · have e : shrNext n ws = [.b "done"] := by unfold shrNext; rw [if_neg hs, if_neg hl]
      rw [e, List.cons_append, List.nil_append, run, dropTo_blocks_ne (shrNext_noLabel n) (fun i hi => (label_ne i hi).1) _ _ _ (by omega),
        List.append_assoc, List.cons_append, List.nil_append, dropTo_self]

theorem one_ok : okBody 1 [] [] [.ldr 3 1 0, .alu .lsr 3 (.reg 3) (.reg 2), .str (.reg 3) 0 0] [vop .lsr 1 0 (arr 1 0) (.base (.arg 2))]
      (.v 1) = true ∧
    okBody 1 [] [] [.ldr 3 1 0, .alu .lsl 3 (.reg 3) (.reg 2), .str (.reg 3) 0 0] [vop .lsl 1 0 (arr 1 0) (.base (.arg 2))]
      (.v 1) = true := by decide +kernel

/-- Shifts of a single word. -/
theorem one_run {o : Alu} {f : BitVec 64 → Nat → BitVec 64} (ho : ∀ x y fl, o.eval x y fl = (f x (y.toNat % 64), fl)) {s : State}
    (ok : okBody 1 [] [] [.ldr 3 1 0, .alu o 3 (.reg 3) (.reg 2), .str (.reg 3) 0 0] [vop o 1 0 (arr 1 0) (.base (.arg 2))] (.v 1) = true)
    (hd : OffStack s (s.reg 0) 1) (hb : (s.reg 2).toNat < 64) :
    ∃ s', run (lines [.ldr 3 1 0, .alu o 3 (.reg 3) (.reg 2), .str (.reg 3) 0 0] ++ [.ret]) s = some s' ∧
      Post 1 s s' [f (s.mem (cell (s.reg 1) 0)) (s.reg 2).toNat] := by
  obtain ⟨s', e, g⟩ := body_post (saved := []) ok (by decide) (by simp) (.nil _ _) hd
  refine ⟨s', by rw [run_lines]; exact e, ?_⟩
  convert g using 1
  show _ = [(vexes s [vop o 1 0 (arr 1 0) (.base (.arg 2))] ⟨fun _ => 0, s.fl⟩).ρ (1, 0)]
  rw [vexes_cons, vexes_nil, exec_vop, ho]
  show _ = [upd (fun _ : Nat × Nat => (0 : BitVec 64)) (1, 0) (f (s.mem (cell (s.reg 1) 0)) ((s.reg 2).toNat % 64)) (1, 0)]
  rw [upd_same, Nat.mod_eq_of_lt hb]

theorem rawShr_run {q : Nat} {s : State} (h : Ctx q s) (ha : OffStack s (s.reg 1) (n64 q)) (hb : (s.reg 2).toNat < 64 * n64 q) :
    ∃ s', run (rawShr (n64 q)) s = some s' ∧ Post (n64 q) s s' (FF.rawShr q (rd s.mem (s.reg 1) (n64 q)) (s.reg 2).toNat) := by
  have hn := n64_pos q
  have hlim := h.lim
  by_cases h1 : n64 q = 1
  · rw [h1] at ha hb ⊢
    have hd := h.dst
    rw [h1] at hd
    obtain ⟨s', e, g⟩ := one_run (o := .lsr) (f := fun x k => x >>> k) (fun _ _ _ => rfl) one_ok.1 hd (by omega)
    refine ⟨s', e, ?_⟩
    convert g using 1
    have := rawShr_words (q := q) (b := (s.reg 2).toNat) (fun i => s.mem (cell (s.reg 1) i)) (by omega)
    rw [h1] at this
    rw [rd_map, this]
    refine congrArg (fun x => [x]) ?_
    show (if (s.reg 2).toNat / 64 + 0 < 1 then shrOf (fun i => s.mem (cell (s.reg 1) i)) 1 ((s.reg 2).toNat % 64)
      ((s.reg 2).toNat / 64 + 0) else 0) = _
    unfold shrOf
    rw [show (s.reg 2).toNat / 64 = 0 by omega, Nat.mod_eq_of_lt (show (s.reg 2).toNat < 64 by omega), if_pos (by decide), if_neg (by decide)]
    have := shrWord (k := (s.reg 2).toNat) (by omega) (s.mem (cell (s.reg 1) 0)) 0
    exact this.symm.trans (by simp)
  · have hsl := (shiftSaved hn hlim).1
    obtain ⟨p1, -, p3, p4⟩ := pushed hsl s
    generalize hS : exes (pushRegs (shrVars (n64 q)).saved) s = S at *
    have hw : (S.reg 2).toNat / 64 < n64 q := by rw [p1]; omega
    rw [rawShr_code h1, run_lines, hS]
    obtain ⟨w, hr⟩ := shift_run (n := n64 q) (by omega) hlim (.inl rfl) (g := fun ws => shrBits (n64 q) ws ++ shrStore (n64 q) ws)
      (shrNext_noLabel (n64 q)) (if (shrVars (n64 q)).saved = [] then [] else [.label "done"] ++ lines (popRegs (shrVars (n64 q)).saved) ++ [.ret])
      S (by rw [p1]; exact hb)
    rw [hr, shr_end hlim hw]
    have hok := List.all_eq_true.mp (all12 shr_ok hn hlim) ((S.reg 2).toNat / 64) (List.mem_range.mpr hw)
    rw [decide_eq_false h1, Bool.false_or] at hok
    obtain ⟨u, hu, hA⟩ := okJump_run hok (fits12 hlim) S w
    rw [← hS] at hA
    obtain ⟨s', f, g⟩ := finish hsl hA h.dst
    rw [hS] at f g
    refine ⟨s', f, ?_⟩
    convert g using 1
    rw [rd_map, rawShr_words _ hb]
    refine List.map_congr_left fun i hi => ?_
    have hi := List.mem_range.mp hi
    unfold shrOut
    have hc := counts_of hu
    rw [p1] at hc
    rw [p1]
    split
    · rename_i hlt
      refine Eq.trans ?_ (vShr_run S (by rw [← p1]; exact hw) u hc _ (by omega) hlt).symm
      unfold shrOf
      dsimp only
      have em : ∀ i, i < n64 q → S.mem (cell (S.reg 1) i) = s.mem (cell (s.reg 1) i) := fun i hi => by rw [p1, p4 _ _ ha i hi]
      rw [em _ hlt]
      split
      · rw [em _ (by assumption)]
      · rfl
    · rfl

/-! ## `rawShl` -/

/-- What follows the block of a word shift in `rawShl`. -/
def shlNext (n ws : Nat) : List Line := if ws = n - 1 then [] else [.b "sub"]

theorem shlNext_noLabel (n ws : Nat) : noLabel (shlNext n ws) = true := by unfold shlNext; split <;> rfl

theorem rawShl_code {n : Nat} (h : n ≠ 1) : rawShl n = lines (pushRegs (shlVars n).saved) ++ (lines (loadVar n (shlVars n).r1 1 ++ calcShift) ++
    (calcJump n ++ (blocks (shlBits n) (shlNext n) 0 n ++
      (.label "sub" :: (lines (shlTail n) ++ (lines (popRegs (shlVars n).saved) ++ [.ret])))))) := by
  unfold rawShl
  rw [if_neg h]
  simp only [List.append_assoc]
  congr 4
  unfold blocks
  rw [List.range_eq_range']
  congr 1

/-- The end of `rawShl`. -/
theorem shl_end {n ws : Nat} (hlim : n ≤ 12) (hw : ws < n) (t : State) :
    run (shlNext n ws ++ (blocks (shlBits n) (shlNext n) (ws + 1) (n - (ws + 1)) ++
      (.label "sub" :: (lines (shlTail n) ++ (lines (popRegs (shlVars n).saved) ++ [.ret]))))) t
      = run (lines (popRegs (shlVars n).saved) ++ [.ret]) (exes (shlTail n) t) := by
  rw [← run_lines]
  by_cases hl : ws = n - 1
  · have e : shlNext n ws = [] := by unfold shlNext; rw [if_pos hl]
    rw [e, show n - (ws + 1) = 0 by omega, List.nil_append]
    show run (.label "sub" :: (lines (shlTail n) ++ (lines (popRegs (shlVars n).saved) ++ [.ret]))) t = _
    rw [run]
  · have e : shlNext n ws = [.b "sub"] := by unfold shlNext; rw [if_neg hl]
    rw [e, List.cons_append, List.nil_append, run, dropTo_blocks_ne (shlNext_noLabel n) (fun i hi => (label_ne i hi).2) _ _ _ (by omega),
      dropTo_self]

theorem rawShl_run {q : Nat} {s : State} (h : Ctx q s) (ha : OffStack s (s.reg 1) (n64 q)) (h1 : n64 q ≠ 1)
    (hb : (s.reg 2).toNat < 64 * n64 q) :
    ∃ s', run (rawShl (n64 q)) s = some s' ∧ Post (n64 q) s s' (FF.rawShl q (rd s.mem (s.reg 1) (n64 q)) (s.reg 2).toNat) := by
  have hn := n64_pos q
  have hlim := h.lim
  have hsl := (shiftSaved hn hlim).2
  obtain ⟨p1, -, p3, p4⟩ := pushed hsl s
  have vq : ∀ ρ, vs (fun i => (qw i).eval _ ρ) (n64 q) = q := vs_qw hsl h
  generalize hS : exes (pushRegs (shlVars (n64 q)).saved) s = S at *
  have hw : (S.reg 2).toNat / 64 < n64 q := by rw [p1]; omega
  rw [rawShl_code h1, run_lines, hS]
  obtain ⟨w, hr⟩ := shift_run (n := n64 q) (by omega) hlim (.inr rfl) (g := shlBits (n64 q))
    (shlNext_noLabel (n64 q)) (.label "sub" :: (lines (shlTail (n64 q)) ++ (lines (popRegs (shlVars (n64 q)).saved) ++ [.ret])))
    S (by rw [p1]; exact hb)
  rw [hr, shl_end hlim hw, ← exes_append]
  have hok := List.all_eq_true.mp (all12 shl_ok hn hlim) ((S.reg 2).toNat / 64) (List.mem_range.mpr hw)
  rw [decide_eq_false h1, Bool.false_or] at hok
  obtain ⟨u, hu, hA⟩ := okJump_run hok (fits12 hlim) S w
  rw [← hS] at hA
  obtain ⟨s', f, g⟩ := finish hsl hA h.dst
  rw [hS] at f g
  refine ⟨s', f, ?_⟩
  convert g using 1
  rw [vexes_append]
  have hc := counts_of hu
  have hv := vShl_run S hw u hc
  generalize vexes S (vShl (n64 q) ((S.reg 2).toNat / 64)) u = u' at *
  have hx3 : ∀ i, (binX (n64 q) i).off 3 := by intro i; unfold binX; split <;> exact off_v (by decide) _
  have hx4 : ∀ i, (binX (n64 q) i).off 4 := by intro i; unfold binX; split <;> exact off_v (by decide) _
  refine Eq.trans ?_ (vSubSel_run S hx3 hx4 u' (vq u'.ρ)).symm
  rw [rd_map, rawShl_words _ hb]
  congr 1
  refine List.map_congr_left fun i hi => ?_
  have hi := List.mem_range.mp hi
  rw [hv i hi, p1]
  have e3 : S.mem (cell (S.sym .lboMask) 0) = lboMask q := by
    rw [p3, p4 _ _ h.maskOff 0 (by omega), ← h.mask]
    congr 1
    simp [cell]
  have em : shlOf (fun i => S.mem (cell (s.reg 1) i)) ((s.reg 2).toNat / 64) ((s.reg 2).toNat % 64) i
      = shlOf (fun i => s.mem (cell (s.reg 1) i)) ((s.reg 2).toNat / 64) ((s.reg 2).toNat % 64) i := by
    unfold shlOf
    dsimp only
    split
    · rw [p4 _ _ ha _ (by omega)]
      split
      · rfl
      · rw [p4 _ _ ha _ (by omega)]
    · rfl
  rw [em, e3]

/-- One limb: neither masked nor reduced. -/
theorem rawShl_one_run {s : State} (hd : OffStack s (s.reg 0) 1) (hb : (s.reg 2).toNat < 64) :
    ∃ s', run (rawShl 1) s = some s' ∧ Post 1 s s' [s.mem (cell (s.reg 1) 0) <<< (s.reg 2).toNat] :=
  one_run (o := .lsl) (f := fun x k => x <<< k) (fun _ _ _ => rfl) one_ok.2 hd hb

end FF.Arm
