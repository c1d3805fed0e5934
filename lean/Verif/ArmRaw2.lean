import Verif.ArmRaw

/-!
# The AArch64 raw routines: plain subtraction, copies, negation, bitwise operations
-/

namespace FF.Arm

open FF.X86 (upd cell rd upd_same upd_ne rd_length)

/-! ## `rawSubRegular` -/

theorem subRegular_ok : (List.range' 1 12).all (fun n =>
    okBody n [.arg 1, .arg 2] [] (subRegularBody n) (subV n 1 (arr 1) (arr 2)) (.v 1)) = true := by decide +kernel

/-- The cells of an operand are those of the result array at the same index, or others. -/
def Apart (n : Nat) (a r : BitVec 64) : Prop := ∀ i j, i < n → j < n → i ≠ j → cell a i ≠ cell r j

theorem rawSubRegular_run {n : Nat} {s : State} (hn : 0 < n) (hlim : n ≤ 12) (hd : OffStack s (s.reg 0) n)
    (ha : OffStack s (s.reg 1) n) (hb : OffStack s (s.reg 2) n)
    (h1 : Apart n (s.reg 1) (s.reg 0)) (h2 : Apart n (s.reg 2) (s.reg 0)) :
    ∃ s', run (rawSubRegular n) s = some s' ∧
      Post n s s' (FF.rawSubRegular (rd s.mem (s.reg 1) n) (rd s.mem (s.reg 2) n)) := by
  have hc : NoClash n [.arg 1, .arg 2] s := by
    intro b hb
    simp only [List.mem_cons, List.mem_nil_iff, or_false] at hb
    rcases hb with rfl | rfl
    · exact h1
    · exact h2
  obtain ⟨s', f, g⟩ := body_post (saved := []) (all12 subRegular_ok hn hlim) hlim (by simp) hc hd
  refine ⟨s', by unfold rawSubRegular; rw [run_lines]; exact f, ?_⟩
  have hv := (subV_run s (x := arr 1) (y := arr 2) (t := 1) hn (off_arr 1 1) (off_arr 1 2) ⟨fun _ => 0, s.fl⟩).2
  have e1 := vs_arr (saved := []) (by simp) ha (fun _ => 0)
  have e2 := vs_arr (saved := []) (by simp) hb (fun _ => 0)
  simp only [pushRegs, exes, List.foldl_nil] at e1 e2
  rw [e1, e2] at hv
  unfold FF.rawSubRegular mpn_sub_n
  rw [sub_unique (rd_length _ _ _) (by rw [rd_length]) (map_length _ _) hv]
  exact g

/-! ## `rawCopy` -/

theorem copy_ok : (List.range' 1 12).all (fun n => okBody n [.arg 1] [] (copyBody n) [] (arr 1)) = true := by decide +kernel

theorem rawCopy_run {n : Nat} {s : State} (hn : 0 < n) (hlim : n ≤ 12) (hd : OffStack s (s.reg 0) n)
    (h1 : Apart n (s.reg 1) (s.reg 0)) :
    ∃ s', run (rawCopy n) s = some s' ∧ Post n s s' (rd s.mem (s.reg 1) n) := by
  have hc : NoClash n [.arg 1] s := by
    intro b hb
    simp only [List.mem_cons, List.mem_nil_iff, or_false] at hb
    subst hb
    exact h1
  obtain ⟨s', f, g⟩ := body_post (saved := []) (all12 copy_ok hn hlim) hlim (by simp) hc hd
  refine ⟨s', by unfold rawCopy; rw [run_lines]; exact f, ?_⟩
  rw [rd_map]
  exact g

/-! ## `rawCopyS2L` -/

/-- The comparison of `rawCopyS2L`. -/
def vS2L : List VIns := [⟨.subs, none, .base (.arg 1), .zr⟩]

/-- The sign extended word. -/
def s2lX (n i : Nat) : Val := if i = 0 then .base (.arg 1) else if 1 < n then .v 1 0 else .zr

/-- The negative case. -/
def vS2LNeg (n : Nat) : List VIns :=
  vS2L ++ ((if 1 < n then [vop .mov 1 0 (.imm (2 ^ 64 - 1)) .zr] else []) ++ addV n 2 (s2lX n) qw)

theorem s2l_ok : (List.range' 1 12).all (fun n =>
    okBody n [] [] (s2lCmp ++ s2lPos n) vS2L (shortV 1) && okBody n [.tab .q] [] (s2lCmp ++ s2lNeg n) (vS2LNeg n) (.v 2)) = true := by
  decide +kernel

theorem cmp_lt (x : BitVec 64) : Cond.lt.holds (addFlags x (~~~0) true).2 = decide (x.toInt < 0) := by
  have hx := x.isLt
  have e : (addFlags x (~~~0) true).1 = x := by
    simp only [addFlags]
    apply BitVec.eq_of_toNat_eq
    simp only [BitVec.toNat_ofNat, Bool.toNat_true]
    have : (~~~(0 : BitVec 64)).toNat = 2 ^ 64 - 1 := by decide
    rw [this]
    omega
  have hr : BitVec.ofNat 64 (x.toNat + (~~~(0 : BitVec 64)).toNat + true.toNat) = x := e
  simp only [Cond.holds, addFlags, hr]
  have h2 : (~~~(0 : BitVec 64)).toInt = -1 := by decide
  rw [h2]
  have h3 : decide (x.toInt + -1 + ((true.toNat : Nat) : Int) ≠ x.toInt) = false := by
    rw [decide_eq_false_iff_not]
    simp
  rw [h3, BitVec.msb_eq_toInt]
  simp

theorem rawCopyS2L_run {q : Nat} {s : State} (h : Ctx q s) (ht : Apart (n64 q) (s.sym .q) (s.reg 0)) :
    ∃ s', run (rawCopyS2L (n64 q)) s = some s' ∧ Post (n64 q) s s' (FF.rawCopyS2L q (s.reg 1)) := by
  have hn := n64_pos q
  have hlim := h.lim
  have hok := all12 s2l_ok hn hlim
  simp only [Bool.and_eq_true] at hok
  obtain ⟨ok1, ok2⟩ := hok
  have hc : NoClash (n64 q) [.tab .q] s := by
    intro b hb
    simp only [List.mem_cons, List.mem_nil_iff, or_false] at hb
    subst hb
    exact ht
  obtain ⟨s1, f1, g1⟩ := body_post ok1 hlim (by simp) (.nil _ _) h.dst
  obtain ⟨s2, f2, g2⟩ := body_post ok2 hlim (by simp) hc h.dst
  rw [exes_append] at f1 f2
  have hf : Cond.lt.holds (exes s2lCmp s).fl = decide ((s.reg 1).toInt < 0) := cmp_lt (s.reg 1)
  have hrun : run (rawCopyS2L (n64 q)) s = if (s.reg 1).toInt < 0 then some s2 else some s1 := by
    unfold rawCopyS2L
    simp only [List.append_assoc, List.cons_append, List.nil_append]
    have d1 : dropTo "adjust_neg" (lines (s2lPos (n64 q)) ++ Line.ret :: Line.label "adjust_neg" :: (lines (s2lNeg (n64 q)) ++ [.ret]))
        = lines (s2lNeg (n64 q)) ++ [.ret] := by simp [dropTo, dropTo_lines]
    rw [run_lines, run, d1, hf, run_lines, run_lines]
    have e1 : run (Line.ret :: Line.label "adjust_neg" :: (lines (s2lNeg (n64 q)) ++ [.ret])) (exes (s2lPos (n64 q)) (exes s2lCmp s))
        = some s1 := by rw [run]; rw [← f1]; exact (by rw [show lines (popRegs []) ++ [Line.ret] = [.ret] from rfl, run]; rfl)
    have e2 : run [Line.ret] (exes (s2lNeg (n64 q)) (exes s2lCmp s)) = some s2 := f2
    rw [e1, e2]
    by_cases hneg : (s.reg 1).toInt < 0
    · rw [if_pos (decide_eq_true hneg), if_pos hneg]
    · rw [if_neg (by simpa using hneg), if_neg hneg]
  rw [hrun]
  unfold FF.rawCopyS2L
  by_cases hneg : (s.reg 1).toInt < 0
  · rw [if_pos hneg, if_pos hneg]
    refine ⟨s2, rfl, ?_⟩
    unfold mpn_add_n
    set u1 : U := vexes s (vS2L ++ if 1 < n64 q then [vop .mov 1 0 (.imm (2 ^ 64 - 1)) .zr] else []) ⟨fun _ => 0, s.fl⟩ with hu1
    have hv := (addV_run s (x := s2lX (n64 q)) (y := qw) (t := 2) hn (by intro i; unfold s2lX; split; trivial; split; exact (by decide : (1:Nat) ≠ 2); trivial)
      (off_qw 2) u1).2
    have e2 := vs_qw (saved := []) (by simp) h u1.ρ
    simp only [pushRegs, exes, List.foldl_nil] at e2
    rw [e2] at hv
    have e1 : vs (fun i => (s2lX (n64 q) i).eval s u1.ρ) (n64 q) = val (s.reg 1 :: List.replicate (n64 q - 1) (-1)) := by
      obtain ⟨m, hm⟩ : ∃ m, n64 q = m + 1 := ⟨n64 q - 1, by omega⟩
      have hu : ∀ i, 0 < i → i < n64 q → (s2lX (n64 q) i).eval s u1.ρ = -1 := by
        intro i hi hi'
        have h1 : 1 < n64 q := by omega
        unfold s2lX
        rw [if_neg (by omega), if_pos h1, hu1, if_pos h1]
        rfl
      have h0 : (s2lX (n64 q) 0).eval s u1.ρ = s.reg 1 := rfl
      rw [hm] at hu h0 ⊢
      rw [vs_shift, h0, show m + 1 - 1 = m by omega, val_cons]
      congr 2
      unfold vs
      congr 1
      rw [List.eq_replicate_iff]
      refine ⟨map_length _ _, ?_⟩
      intro x hx
      obtain ⟨i, hi, rfl⟩ := List.mem_map.mp hx
      exact hu (i + 1) (by omega) (by have := List.mem_range.mp hi; omega)
    rw [e1] at hv
    rw [add_unique (a := s.reg 1 :: List.replicate (n64 q - 1) (-1)) (b := rawq q) (l := (List.range (n64 q)).map ((vexes s (addV (n64 q) 2 (s2lX (n64 q)) qw) u1).seq 2))
      (c := (vexes s (addV (n64 q) 2 (s2lX (n64 q)) qw) u1).fl.c.toNat) (by simp; omega) (by rw [rawq_length]) (map_length _ _) (by rw [rawq_val]; exact hv)]
    have : outOf [] s (vS2LNeg (n64 q)) (.v 2) (n64 q) = (List.range (n64 q)).map ((vexes s (addV (n64 q) 2 (s2lX (n64 q)) qw) u1).seq 2) := by
      unfold outOf vS2LNeg
      rw [← List.append_assoc, vexes_append]
      rfl
    rw [← this]
    exact g2
  · rw [if_neg hneg, if_neg hneg]
    refine ⟨s1, rfl, ?_⟩
    have : s.reg 1 :: List.replicate (n64 q - 1) 0 = outOf [] s vS2L (shortV 1) (n64 q) := by
      unfold outOf
      obtain ⟨m, hm⟩ : ∃ m, n64 q = m + 1 := ⟨n64 q - 1, by omega⟩
      rw [hm, List.range_succ_eq_map, List.map_cons, List.map_map, show m + 1 - 1 = m by omega]
      congr 1
      symm
      rw [List.eq_replicate_iff]
      refine ⟨by simp, ?_⟩
      intro x hx
      obtain ⟨i, hi, rfl⟩ := List.mem_map.mp hx
      simp [shortV, Val.eval]
    rw [this]
    exact g1

/-! ## `rawNeg` -/

/-- The test for zero of `rawNeg`. -/
def vNegZ (n : Nat) : List VIns :=
  [vop .mov 1 0 .zr .zr]
    ++ (vloop (n / 2) fun k => [vop .orr 2 k (arr 1 (2 * k)) (arr 1 (2 * k + 1)), vop .orr 1 (k + 1) (.v 1 k) (.v 2 k)])
    ++ if n % 2 = 0 then [] else [vop .orr 1 (n / 2 + 1) (.v 1 (n / 2)) (arr 1 (n - 1))]

theorem neg_ok : (List.range' 1 12).all (fun n =>
    okReg n (negIsZero n) (vNegZ n) (negVars n).saved 2 (.v 1 ((n + 1) / 2)) &&
    okBody n [.tab .q] (negVars n).saved (negIsZero n ++ negSub n) (vNegZ n ++ subV n 3 qw (arr 1)) (.v 3) &&
    okBody n [] (negVars n).saved (negIsZero n ++ negZero n) (vNegZ n) (fun _ => .zr) &&
    decide ((negVars n).saved.length ≤ 16)) = true := by
  decide +kernel

theorem or_zero {x y : BitVec 64} : x ||| y = 0 ↔ x = 0 ∧ y = 0 := BitVec.or_eq_zero_iff

theorem vNegZ_run (s : State) (n : Nat) (u : U) :
    (vexes s (vNegZ n) u).ρ (1, (n + 1) / 2) = 0 ↔ ∀ i, i < n → (arr 1 i).eval s u.ρ = 0 := by
  unfold vNegZ
  rw [vexes_append, vexes_append]
  have h := vloop_run (s := s) (n := n / 2)
    (f := fun k => [vop .orr 2 k (arr 1 (2 * k)) (arr 1 (2 * k + 1)), vop .orr 1 (k + 1) (.v 1 k) (.v 2 k)])
    (P := fun k u' => u'.ρ (1, k) = 0 ↔ ∀ i, i < 2 * k → (arr 1 i).eval s u.ρ = 0)
    (u := vexes s [vop .mov 1 0 .zr .zr] u) (by
      constructor
      · intro _ i hi; omega
      · intro _; exact upd_same u.ρ (1, 0) 0) (by
      intro k u' _ hP
      have e : (vexes s [vop .orr 2 k (arr 1 (2 * k)) (arr 1 (2 * k + 1)), vop .orr 1 (k + 1) (.v 1 k) (.v 2 k)] u').ρ (1, k + 1)
          = upd u'.ρ (2, k) ((arr 1 (2 * k)).eval s u.ρ ||| (arr 1 (2 * k + 1)).eval s u.ρ) (1, k)
            ||| upd u'.ρ (2, k) ((arr 1 (2 * k)).eval s u.ρ ||| (arr 1 (2 * k + 1)).eval s u.ρ) (2, k) := upd_same _ _ _
      have e1 : upd u'.ρ (2, k) ((arr 1 (2 * k)).eval s u.ρ ||| (arr 1 (2 * k + 1)).eval s u.ρ) (1, k) = u'.ρ (1, k) :=
        upd_ne _ _ (by simp)
      have e2 : upd u'.ρ (2, k) ((arr 1 (2 * k)).eval s u.ρ ||| (arr 1 (2 * k + 1)).eval s u.ρ) (2, k)
          = (arr 1 (2 * k)).eval s u.ρ ||| (arr 1 (2 * k + 1)).eval s u.ρ := upd_same _ _ _
      rw [e, e1, e2, or_zero, or_zero, hP]
      constructor
      · rintro ⟨ha, hb, hc⟩ i hi
        by_cases h1 : i < 2 * k
        · exact ha i h1
        · by_cases h2 : i = 2 * k
          · rw [h2]; exact hb
          · rw [show i = 2 * k + 1 by omega]; exact hc
      · intro hh
        exact ⟨fun i hi => hh i (by omega), hh _ (by omega), hh _ (by omega)⟩)
  generalize vexes s (vloop (n / 2) _) _ = u' at h
  by_cases hp : n % 2 = 0
  · rw [if_pos hp, show (n + 1) / 2 = n / 2 by omega]
    refine h.trans ?_
    rw [show 2 * (n / 2) = n by omega]
  · rw [if_neg hp, show (n + 1) / 2 = n / 2 + 1 by omega]
    show upd u'.ρ (1, n / 2 + 1) (u'.ρ (1, n / 2) ||| (arr 1 (n - 1)).eval s u.ρ) (1, n / 2 + 1) = 0 ↔ _
    rw [upd_same, or_zero, h]
    constructor
    · rintro ⟨ha, hb⟩ i hi
      by_cases h1 : i < 2 * (n / 2)
      · exact ha i h1
      · rw [show i = n - 1 by omega]; exact hb
    · intro hh
      exact ⟨fun i hi => hh i (by omega), hh _ (by omega)⟩

theorem mem_range_getD {n : Nat} {m : BitVec 64 → BitVec 64} {a : BitVec 64} :
    (∀ i, i < n → m (cell a i) = 0) ↔ val (rd m a n) = 0 := by
  rw [← mpn_zero_p_iff, rd_map, mpn_zero_p, List.all_eq_true]
  constructor
  · intro h x hx
    obtain ⟨i, hi, rfl⟩ := List.mem_map.mp hx
    rw [h i (List.mem_range.mp hi)]
    rfl
  · intro h i hi
    have := h _ (List.mem_map.mpr ⟨i, List.mem_range.mpr hi, rfl⟩)
    simpa using this

theorem rawNeg_run {q : Nat} {s : State} (h : Ctx q s) (ht : Apart (n64 q) (s.sym .q) (s.reg 0)) (ha : OffStack s (s.reg 1) (n64 q)) :
    ∃ s', run (rawNeg (n64 q)) s = some s' ∧ Post (n64 q) s s' (FF.rawNeg q (rd s.mem (s.reg 1) (n64 q))) := by
  have hn := n64_pos q
  have hlim := h.lim
  have hok := all12 neg_ok hn hlim
  simp only [Bool.and_eq_true, decide_eq_true_eq] at hok
  obtain ⟨⟨⟨ok1, ok2⟩, ok3⟩, hsl⟩ := hok
  have hc : NoClash (n64 q) [.tab .q] s := by
    intro b hb
    simp only [List.mem_cons, List.mem_nil_iff, or_false] at hb
    subst hb
    exact ht
  obtain ⟨s2, f2, g2⟩ := body_post ok2 hlim hsl hc h.dst
  obtain ⟨s3, f3, g3⟩ := body_post ok3 hlim hsl (.nil _ _) h.dst
  rw [exes_append] at f2 f3
  obtain ⟨r1, -⟩ := okReg_run ok1 (fits12 hlim) (s := exes (pushRegs (negVars (n64 q)).saved) s) (fun _ => 0)
  have hz : (exes (negIsZero (n64 q)) (exes (pushRegs (negVars (n64 q)).saved) s)).reg 2 = 0 ↔ val (rd s.mem (s.reg 1) (n64 q)) = 0 := by
    rw [r1]
    refine (vNegZ_run _ (n64 q) _).trans ?_
    rw [← mem_range_getD]
    obtain ⟨p1, -, -, p4⟩ := pushed hsl s
    refine forall_congr' fun i => imp_congr_right fun hi => ?_
    show (exes (pushRegs (negVars (n64 q)).saved) s).mem (cell ((exes (pushRegs (negVars (n64 q)).saved) s).reg 1) i) = 0 ↔ _
    rw [p1, p4 _ _ ha i hi]
  have hrun : run (rawNeg (n64 q)) s = if val (rd s.mem (s.reg 1) (n64 q)) = 0 then some s3 else some s2 := by
    unfold rawNeg
    simp only [List.append_assoc, List.cons_append, List.nil_append]
    generalize hT : exes (negIsZero (n64 q)) (exes (pushRegs (negVars (n64 q)).saved) s) = T at *
    by_cases hsv : (negVars (n64 q)).saved = []
    · rw [if_pos hsv, if_pos hsv, List.nil_append]
      have d1 : dropTo "done_zero" (lines (negSub (n64 q)) ++ Line.ret :: Line.label "done_zero" :: (lines (negZero (n64 q))
          ++ (lines (popRegs (negVars (n64 q)).saved) ++ [.ret]))) = lines (negZero (n64 q)) ++ (lines (popRegs (negVars (n64 q)).saved) ++ [.ret]) := by
        simp [dropTo, dropTo_lines]
      rw [run_lines, run_lines, hT, run, d1, run_lines (negZero (n64 q)), f3, run_lines (negSub (n64 q))]
      have e2 : ∀ P, run (Line.ret :: P) (exes (negSub (n64 q)) T) = some s2 := by
        intro P
        rw [← f2, hsv, show lines (popRegs []) ++ [Line.ret] = [.ret] from rfl, run, run]
      rw [e2]
      exact if_congr hz rfl rfl
    · rw [if_neg hsv, if_neg hsv]
      have d1 : dropTo "done_zero" (lines (negSub (n64 q)) ++ Line.b "out" :: Line.label "done_zero" :: (lines (negZero (n64 q))
          ++ ([Line.label "out"] ++ (lines (popRegs (negVars (n64 q)).saved) ++ [.ret])))) = lines (negZero (n64 q)) ++ ([Line.label "out"] ++ (lines (popRegs (negVars (n64 q)).saved) ++ [.ret])) := by
        simp [dropTo, dropTo_lines]
      have d2 : dropTo "out" (Line.label "done_zero" :: (lines (negZero (n64 q))
          ++ ([Line.label "out"] ++ (lines (popRegs (negVars (n64 q)).saved) ++ [.ret])))) = lines (popRegs (negVars (n64 q)).saved) ++ [.ret] := by
        simp [dropTo, dropTo_lines]
      have e3 : ∀ P t, run (Line.label "out" :: P) t = run P t := fun P t => by rw [run]
      have e4 : ∀ P t, run (Line.b "out" :: P) t = run (dropTo "out" P) t := fun P t => by rw [run]
      rw [run_lines, run_lines, hT, run, d1, run_lines (negZero (n64 q)), List.singleton_append, e3, f3, run_lines (negSub (n64 q)), e4,
        ← List.singleton_append (x := Line.label "out"), d2, f2]
      exact if_congr hz rfl rfl
  rw [hrun]
  unfold FF.rawNeg
  have hcmp : mpn_cmp (rd s.mem (s.reg 1) (n64 q)) (FF.rawZero q) = .eq ↔ val (rd s.mem (s.reg 1) (n64 q)) = 0 := by
    rw [mpn_cmp_eq _ _ (by rw [rd_length, rawZero_length]), rawZero_val, Nat.compare_eq_eq]
  by_cases hv : val (rd s.mem (s.reg 1) (n64 q)) = 0
  · rw [if_pos hv, hcmp.mpr hv]
    refine ⟨s3, rfl, ?_⟩
    rw [if_neg (by decide)]
    have : outOf (negVars (n64 q)).saved s (vNegZ (n64 q)) (fun _ => .zr) (n64 q) = FF.rawZero q := by
      unfold outOf FF.rawZero
      rw [List.eq_replicate_iff]
      refine ⟨map_length _ _, fun x hx => ?_⟩
      obtain ⟨i, hi, rfl⟩ := List.mem_map.mp hx
      rfl
    rw [← this]
    exact g3
  · rw [if_neg hv]
    refine ⟨s2, rfl, ?_⟩
    rw [if_pos (by
      rw [bne_iff_ne]
      exact fun hh => hv (hcmp.mp hh))]
    unfold mpn_sub_n
    have hs := (subV_run (exes (pushRegs (negVars (n64 q)).saved) s) (n := n64 q) (t := 3) (x := qw) (y := arr 1) hn (off_qw 3)
      (off_arr 3 1) (vexes (exes (pushRegs (negVars (n64 q)).saved) s) (vNegZ (n64 q))
        ⟨fun _ => 0, (exes (pushRegs (negVars (n64 q)).saved) s).fl⟩)).2
    rw [vs_qw hsl h, vs_arr hsl ha] at hs
    rw [sub_unique (a := rawq q) (rawq_length q) (by rw [rd_length])
      (map_length ((vexes (exes (pushRegs (negVars (n64 q)).saved) s) (subV (n64 q) 3 qw (arr 1))
        (vexes (exes (pushRegs (negVars (n64 q)).saved) s) (vNegZ (n64 q))
        ⟨fun _ => 0, (exes (pushRegs (negVars (n64 q)).saved) s).fl⟩)).seq 3) _) (by rw [rawq_val]; exact hs)]
    unfold outOf at g2
    rw [vexes_append] at g2
    exact g2

/-! ## `rawNegLS` -/

/-- For 11 and 12 limbs `r2` gets registers of `a2` (`releaseRegs`, `armbuilder.js:976`), and the loads of the second subtraction overwrite
words of the first difference by words of the long operand: which one, for the word `i`. -/
def lost (n i : Nat) : Option Nat := if n = 11 ∧ i = 10 then some 8 else if n = 12 ∧ 9 ≤ i then some (i - 1) else none

/-- The words the second subtraction starts from. -/
def negDiffV (n i : Nat) : Val := match lost n i with | some j => arr 1 j | none => .v 1 i

/-- The two subtractions of `rawNegLS`. -/
def vNegLS (n : Nat) : List VIns :=
  subV n 1 qw (shortV 2) ++ ([vop (.cset .hs) 2 0 .zr .zr] ++ (subV n 3 (negDiffV n) (arr 1)
    ++ [vop (.cset .hs) 4 0 .zr .zr, vop .orr 5 0 (.v 4 0) (.v 2 0)]))

theorem negLS_ok : (List.range' 1 12).all (fun n =>
    okReg n (negLSBody n) (vNegLS n) (vars n).saved 3 (.v 5 0) &&
    okBody n [] (vars n).saved (negLSBody n ++ storeVar n (vars n).r2 0) (vNegLS n) (.v 3) &&
    okBody n [] (vars n).saved (negLSBody n ++ negLSAdd n ++ storeVar n (vars n).r2 0) (vNegLS n ++ addV n 6 (.v 3) qw) (.v 6)) = true := by
  decide +kernel

/-- The first difference `d` with the lost words replaced. -/
def negDiff (n : Nat) (d a : Limbs) : Limbs := (List.range n).map fun i => match lost n i with | some j => limbAt a j | none => limbAt d i

theorem negDiff_length (n : Nat) (d a : Limbs) : (negDiff n d a).length = n := by simp [negDiff]

theorem negDiff_small {n : Nat} {d a : Limbs} (hn : n ≤ 10) (hd : d.length = n) : negDiff n d a = d := by
  refine List.ext_getElem (by rw [negDiff_length, hd]) fun i h1 h2 => ?_
  simp only [negDiff, List.getElem_map, List.getElem_range, lost]
  rw [if_neg (by omega), if_neg (by omega)]
  simp [limbAt, h2]

theorem negDiff_11 {d a : Limbs} (hd : d.length = 11) (ha : a.length = 11) : negDiff 11 d a = d.take 10 ++ (a.drop 8).take 1 := by
  refine List.ext_getElem (by simp [negDiff_length, hd, ha]) fun i h1 h2 => ?_
  rw [negDiff_length] at h1
  simp only [negDiff, List.getElem_map, List.getElem_range, lost]
  by_cases hi : i = 10
  · subst hi
    rw [List.getElem_append_right (by simp [hd])]
    simp [limbAt, hd, ha]
  · rw [if_neg (by omega), if_neg (by omega), List.getElem_append_left (by simp [hd]; omega)]
    simp [limbAt, hd, h1]

theorem negDiff_12 {d a : Limbs} (hd : d.length = 12) (ha : a.length = 12) : negDiff 12 d a = d.take 9 ++ (a.drop 8).take 3 := by
  refine List.ext_getElem (by simp [negDiff_length, hd, ha]) fun i h1 h2 => ?_
  rw [negDiff_length] at h1
  simp only [negDiff, List.getElem_map, List.getElem_range, lost]
  by_cases hi : 9 ≤ i
  · rw [if_neg (by omega), if_pos ⟨trivial, hi⟩, List.getElem_append_right (by simp [hd]; omega)]
    have e : 8 + (i - 9) = i - 1 := by omega
    simp only [List.getElem_take, List.getElem_drop, List.length_take, hd, limbAt, List.getD_eq_getElem?_getD]
    rw [List.getElem?_eq_getElem (by omega), Option.getD_some]
    congr 1
    omega
  · rw [if_neg (by omega), if_neg (by omega), List.getElem_append_left (by simp [hd]; omega)]
    simp [limbAt, hd, h1]

/-- What the assembly computes: the modulus is added unless *both* subtractions borrowed. -/
def negLSArm (q : Nat) (a : Limbs) (b : Limb) : Limbs :=
  let s1 := mpn_sub_1 (rawq q) b
  let s2 := mpn_sub_n (negDiff (n64 q) s1.1 a) a
  condAdd q (s1.2 == 0 || s2.2 == 0) s2.1

/-- Its value on reduced operands. -/
theorem negLSArm_val {q : Nat} {a : Limbs} {b : Limb} (ha : a.length = n64 q) (hlt : val a < q) (hb : b.toNat < q) :
    val (mpn_sub_1 (rawq q) b).1 = q - b.toNat ∧ (mpn_sub_1 (rawq q) b).1.length = n64 q ∧
    val (negLSArm q a b) = (val (negDiff (n64 q) (mpn_sub_1 (rawq q) b).1 a) + q - val a) % W ^ n64 q := by
  have hn := n64_pos q
  have e := subNC_val (rawq q) [b] 0 (by simp; omega) (by omega)
  have hb1 := subNC_borrow_le (rawq q) [b] 0 (by omega)
  have hq := q_lt_Wn q
  simp only [rawq_val, rawq_length, Nat.add_zero, val_cons, val_nil, Nat.mul_zero] at e
  have hv1 := val_lt (subNC (rawq q) [b] 0).1
  rw [subNC_length, rawq_length] at hv1
  have hbz : (subNC (rawq q) [b] 0).2 = 0 := by
    rcases Nat.le_one_iff_eq_zero_or_eq_one.mp hb1 with h0 | h1
    · exact h0
    · rw [h1] at e; omega
  rw [hbz] at e
  have hl : (subNC (rawq q) [b] 0).1.length = n64 q := by rw [subNC_length, rawq_length]
  refine ⟨by show val (subNC (rawq q) [b] 0).1 = _; omega, hl, ?_⟩
  have hd := negDiff_length (n64 q) (mpn_sub_1 (rawq q) b).1 a
  unfold negLSArm condAdd
  simp only [show (mpn_sub_1 (rawq q) b).2 = 0 from hbz, beq_self_eq_true, Bool.true_or, if_true, mpn_add_n, mpn_sub_n]
  generalize negDiff (n64 q) (mpn_sub_1 (rawq q) b).1 a = D at *
  have e2 := subNC_val D a 0 (by rw [hd, ha]) (by omega)
  rw [hd] at e2
  have e3 := addNC_val (subNC D a 0).1 (rawq q) 0 (by rw [subNC_length, hd, rawq_length])
  have hv3 := val_lt (addNC (subNC D a 0).1 (rawq q) 0).1
  rw [addNC_length, subNC_length, hd] at hv3
  rw [subNC_length, hd, rawq_val] at e3
  generalize val (addNC (subNC D a 0).1 (rawq q) 0).1 = R at *
  generalize (addNC (subNC D a 0).1 (rawq q) 0).2 = c at *
  generalize (subNC D a 0).2 = d at *
  have hc : R + W ^ n64 q * c = (val D + q - val a) + W ^ n64 q * d := by omega
  have := congrArg (· % W ^ n64 q) hc
  simp only [Nat.add_mul_mod_self_left] at this
  rw [Nat.mod_eq_of_lt hv3] at this
  exact this

theorem off_negDiffV {t : Nat} (h : 1 ≠ t) (n i : Nat) : (negDiffV n i).off t := by
  unfold negDiffV
  split
  · trivial
  · exact h

theorem vNegLS_run (s : State) {n : Nat} (hn : 0 < n) (u : U) :
    ∃ c d : Bool, ((vexes s (vNegLS n) u).ρ (5, 0) = 0 ↔ c = false ∧ d = false) ∧
      ∃ f : Nat → BitVec 64,
        vs f n + vs (fun i => (shortV 2 i).eval s u.ρ) n = vs (fun i => (qw i).eval s u.ρ) n + W ^ n * (!c).toNat ∧
        vs ((vexes s (vNegLS n) u).seq 3) n + vs (fun i => (arr 1 i).eval s u.ρ) n
          = vs (fun i => match lost n i with | some j => (arr 1 j).eval s u.ρ | none => f i) n + W ^ n * (!d).toNat := by
  unfold vNegLS
  rw [vexes_append, vexes_append, vexes_append, exec_cset]
  obtain ⟨k1, v1⟩ := subV_run s (t := 1) (x := qw) (y := shortV 2) hn (off_qw 1) (off_short 1 2) u
  generalize vexes s (subV n 1 qw (shortV 2)) u = u1 at *
  have k2 : Keeps [2] u1 ⟨upd u1.ρ (2, 0) (if Cond.hs.holds u1.fl then 1 else 0), u1.fl⟩ := upd_keeps _ _ _ _ _ _
  have e2 : upd u1.ρ (2, 0) (if Cond.hs.holds u1.fl then (1 : BitVec 64) else 0) (2, 0) = if u1.fl.c then 1 else 0 := upd_same _ _ _
  generalize upd u1.ρ (2, 0) (if Cond.hs.holds u1.fl then (1 : BitVec 64) else 0) = ρ2 at *
  obtain ⟨k3, v3⟩ := subV_run s (t := 3) (x := negDiffV n) (y := arr 1) hn (off_negDiffV (by decide) n) (off_arr 3 1) ⟨ρ2, u1.fl⟩
  generalize vexes s (subV n 3 (negDiffV n) (arr 1)) ⟨ρ2, u1.fl⟩ = u3 at *
  refine ⟨u1.fl.c, u3.fl.c, ?_, u1.seq 1, v1, ?_⟩
  · show upd (upd u3.ρ (4, 0) (if u3.fl.c then 1 else 0)) (5, 0) (upd u3.ρ (4, 0) (if u3.fl.c then 1 else 0) (4, 0)
      ||| upd u3.ρ (4, 0) (if u3.fl.c then 1 else 0) (2, 0)) (5, 0) = 0 ↔ _
    rw [upd_same, upd_same, upd_ne _ _ (by simp), or_zero, k3 (2, 0) (by simp)]
    show _ ∧ ρ2 (2, 0) = 0 ↔ _
    rw [e2]
    cases u1.fl.c <;> cases u3.fl.c <;> simp
  · have e1 : vs (fun i => (negDiffV n i).eval s ρ2) n
        = vs (fun i => match lost n i with | some j => (arr 1 j).eval s u.ρ | none => u1.seq 1 i) n := vs_congr fun i _ => by
      unfold negDiffV
      split
      · rfl
      · exact k2 (1, i) (by simp)
    rw [e1] at v3
    have e3 : vs ((vexes s [vop (.cset .hs) 4 0 .zr .zr, vop .orr 5 0 (.v 4 0) (.v 2 0)] u3).seq 3) n = vs (u3.seq 3) n := by
      refine vs_congr fun i _ => ?_
      have k : Keeps [4, 5] u3 (vexes s [vop (.cset .hs) 4 0 .zr .zr, vop .orr 5 0 (.v 4 0) (.v 2 0)] u3) :=
        .cons (by simp) (.cons (by simp) .rfl)
      exact k (3, i) (by simp)
    rw [e3]
    exact v3

theorem rawNegLS_run {q : Nat} {s : State} (h : Ctx q s) (ha : OffStack s (s.reg 1) (n64 q)) :
    ∃ s', run (rawNegLS (n64 q)) s = some s' ∧ Post (n64 q) s s' (negLSArm q (rd s.mem (s.reg 1) (n64 q)) (s.reg 2)) := by
  have hn := n64_pos q
  have hlim := h.lim
  have hsl := saved_len hn hlim
  have hok := all12 negLS_ok hn hlim
  simp only [Bool.and_eq_true] at hok
  obtain ⟨⟨ok1, ok2⟩, ok3⟩ := hok
  obtain ⟨s2, f2, g2⟩ := body_post ok2 hlim hsl (.nil _ _) h.dst
  obtain ⟨s3, f3, g3⟩ := body_post ok3 hlim hsl (.nil _ _) h.dst
  rw [exes_append] at f2 f3
  rw [exes_append] at f3
  obtain ⟨r1, -⟩ := okReg_run ok1 (fits12 hlim) (s := exes (pushRegs (vars (n64 q)).saved) s) (fun _ => 0)
  obtain ⟨p1, -, -, p4⟩ := pushed hsl s
  generalize hS : exes (pushRegs (vars (n64 q)).saved) s = S at *
  obtain ⟨c, d, hcd, f, w1, w2⟩ := vNegLS_run S hn ⟨fun _ => 0, S.fl⟩
  have vq := vs_qw hsl h (fun _ => 0)
  have va := vs_arr hsl ha (fun _ => 0)
  rw [hS] at vq va
  rw [vq, vs_shortN S _ 2 hn, p1] at w1
  rw [va] at w2
  have u1 := sub_unique (a := rawq q) (b := [s.reg 2]) (l := (List.range (n64 q)).map f) (c := (!c).toNat) (rawq_length q)
    (by simp only [List.length_singleton]; omega) (map_length _ _) (by
      rw [show val [s.reg 2] = (s.reg 2).toNat by simp, rawq_val]; exact w1)
  have hD : (List.range (n64 q)).map (fun i => match lost (n64 q) i with | some j => (arr 1 j).eval S (fun _ => 0) | none => f i)
      = negDiff (n64 q) ((List.range (n64 q)).map f) (rd s.mem (s.reg 1) (n64 q)) := by
    refine List.map_congr_left fun i hi => ?_
    have hi := List.mem_range.mp hi
    split
    · rename_i j hj
      have hjn : j < n64 q := by unfold lost at hj; split_ifs at hj <;> simp at hj <;> omega
      rw [rd_map, limbAt, List.getD_eq_getElem?_getD, List.getElem?_map, List.getElem?_range hjn]
      show S.mem (cell (S.reg 1) j) = s.mem (cell (s.reg 1) j)
      rw [p1, p4 _ _ ha j hjn]
    · rw [limbAt, List.getD_eq_getElem?_getD, List.getElem?_map, List.getElem?_range hi]
      rfl
  have u2 := sub_unique (a := negDiff (n64 q) ((List.range (n64 q)).map f) (rd s.mem (s.reg 1) (n64 q))) (b := rd s.mem (s.reg 1) (n64 q))
    (l := outOf (vars (n64 q)).saved s (vNegLS (n64 q)) (.v 3) (n64 q)) (c := (!d).toNat) (negDiff_length _ _ _)
    (by rw [rd_length]) (map_length _ _) (by unfold outOf; rw [hS, ← hD]; exact w2)
  have hspec : negLSArm q (rd s.mem (s.reg 1) (n64 q)) (s.reg 2)
      = condAdd q (c || d) (outOf (vars (n64 q)).saved s (vNegLS (n64 q)) (.v 3) (n64 q)) := by
    unfold negLSArm mpn_sub_1 mpn_sub_n
    simp only [u1, u2]
    cases c <;> cases d <;> rfl
  rw [hspec, condAdd_of (q := q) (c := c || d) (r := outOf (vars (n64 q)).saved s (vNegLS (n64 q)) (.v 3) (n64 q))
    (d := outOf (vars (n64 q)).saved s (vNegLS (n64 q) ++ addV (n64 q) 6 (.v 3) qw) (.v 6) (n64 q))
    (b := (vexes S (addV (n64 q) 6 (.v 3) qw) (vexes S (vNegLS (n64 q)) ⟨fun _ => 0, S.fl⟩)).fl.c.toNat) (map_length _ _) (map_length _ _) (by
      have := (addV_run S (n := n64 q) (t := 6) (x := .v 3) (y := qw) hn (off_v (by decide))
        (off_qw 6) (vexes S (vNegLS (n64 q)) ⟨fun _ => 0, S.fl⟩)).2
      have vq' := vs_qw hsl h (vexes S (vNegLS (n64 q)) ⟨fun _ => 0, S.fl⟩).ρ
      rw [hS] at vq'
      rw [vq'] at this
      unfold outOf
      rw [hS, vexes_append]
      exact this)]
  have hrun : run (rawNegLS (n64 q)) s = if c || d then some s3 else some s2 := by
    unfold rawNegLS
    simp only [List.append_assoc, List.cons_append, List.nil_append]
    have d1 : dropTo "done" (lines (negLSAdd (n64 q)) ++ Line.label "done" :: (lines (storeVar (n64 q) (vars (n64 q)).r2 0)
        ++ (lines (popRegs (vars (n64 q)).saved) ++ [.ret])))
        = lines (storeVar (n64 q) (vars (n64 q)).r2 0) ++ (lines (popRegs (vars (n64 q)).saved) ++ [.ret]) := by
      simp [dropTo, dropTo_lines]
    have e3 : ∀ P t, run (Line.label "done" :: P) t = run P t := fun P t => by rw [run]
    rw [run_lines, run_lines, hS, run, d1, run_lines, f2, run_lines (negLSAdd (n64 q)), e3, run_lines (storeVar _ _ _), f3, r1]
    have : (Val.v 5 0).eval S (vexes S (vNegLS (n64 q)) ⟨fun _ => 0, S.fl⟩).ρ = 0 ↔ c = false ∧ d = false := hcd
    cases c <;> cases d <;> simp_all
  rw [hrun]
  split
  · exact ⟨s3, rfl, g3⟩
  · exact ⟨s2, rfl, g2⟩

/-! ## `rawAnd`, `rawOr`, `rawXor`, `rawNot` -/

/-- The second operand of a bitwise operation. -/
def binY (o : Alu) (i : Nat) : Val := if o = .mvn then .zr else arr 2 i

/-- The words of the masked result. -/
def binX (n i : Nat) : Val := if i = n - 1 then .v 2 0 else .v 1 i

/-- Choice between two sequences. -/
def cselV (n t : Nat) (x y : Nat → Val) : List VIns := vloop n fun i => [vop (.csel .hs) t i (x i) (y i)]

/-- The operation and the mask. -/
def vBin (n : Nat) (o : Alu) : List VIns :=
  (vloop n fun i => [vop o 1 i (arr 1 i) (binY o i)]) ++ [vop .and 2 0 (.v 1 (n - 1)) (.mem (.tab .lboMask) 0)]

/-- The subtraction of the modulus and the choice. -/
def vSubSel (n : Nat) (x : Nat → Val) : List VIns := subV n 3 x qw ++ cselV n 4 (.v 3) x

theorem bin_ok : (List.range' 1 12).all (fun n => [Alu.and, .orr, .eor, .mvn].all fun o =>
    okBody n [] (vars n).saved (binOpBody n o) (vBin n o ++ vSubSel n (binX n)) (.v 4)) = true := by
  decide +kernel

theorem cselV_run (s : State) {n t : Nat} {x y : Nat → Val} (hx : ∀ i, (x i).off t) (hy : ∀ i, (y i).off t) (u : U) :
    (vexes s (cselV n t x y) u).fl = u.fl ∧ Keeps [t] u (vexes s (cselV n t x y) u) ∧
      ∀ i, i < n → (vexes s (cselV n t x y) u).ρ (t, i) = if u.fl.c then (x i).eval s u.ρ else (y i).eval s u.ρ :=
  vloop_run (s := s) (u := u) (n := n) (f := fun i => [vop (.csel .hs) t i (x i) (y i)])
    (P := fun k u' => u'.fl = u.fl ∧ Keeps [t] u u' ∧
      ∀ i, i < k → u'.ρ (t, i) = if u.fl.c then (x i).eval s u.ρ else (y i).eval s u.ρ)
    ⟨rfl, .rfl, by omega⟩ (by
      intro i u' _ ⟨h1, h2, h3⟩
      have e : vexes s [vop (.csel .hs) t i (x i) (y i)] u'
          = ⟨upd u'.ρ (t, i) (if u'.fl.c then (x i).eval s u'.ρ else (y i).eval s u'.ρ), u'.fl⟩ := rfl
      rw [e, h1]
      refine ⟨rfl, h2.trans (upd_keeps _ _ _ _ _ _), fun j hj => ?_⟩
      show upd u'.ρ (t, i) _ (t, j) = _
      by_cases hji : j = i
      · subst hji
        rw [upd_same, h2.eval s (by simpa using hx j), h2.eval s (by simpa using hy j)]
      · rw [upd_ne _ _ (by simpa using hji)]
        exact h3 j (by omega))

/-- Reduction of words `x` (value `l`): the portable `condSub`. -/
theorem vSubSel_run {q : Nat} (s : State) {x : Nat → Val} (hx3 : ∀ i, (x i).off 3) (hx4 : ∀ i, (x i).off 4) (u : U)
    (hq : vs (fun i => (qw i).eval s u.ρ) (n64 q) = q) :
    (List.range (n64 q)).map ((vexes s (vSubSel (n64 q) x) u).seq 4)
      = condSub q false ((List.range (n64 q)).map fun i => (x i).eval s u.ρ) := by
  unfold vSubSel
  rw [vexes_append]
  obtain ⟨k3, v3⟩ := subV_run s (t := 3) (y := qw) (n64_pos q) hx3 (off_qw 3) u
  generalize vexes s (subV (n64 q) 3 x qw) u = u3 at *
  obtain ⟨-, -, v4⟩ := cselV_run s (n := n64 q) (t := 4) (x := .v 3) (y := x) (off_v (by decide)) hx4 u3
  rw [hq] at v3
  rw [condSub_select (r := (List.range (n64 q)).map fun i => (x i).eval s u.ρ) (d := (List.range (n64 q)).map (u3.seq 3))
    (b := u3.fl.c) false (map_length _ _) (map_length _ _) v3, Bool.false_or]
  have : (List.range (n64 q)).map ((vexes s (cselV (n64 q) 4 (.v 3) x) u3).seq 4)
      = (List.range (n64 q)).map fun i => if u3.fl.c then u3.seq 3 i else (x i).eval s u.ρ := by
    refine List.map_congr_left fun i hi => ?_
    show (vexes s (cselV (n64 q) 4 (.v 3) x) u3).ρ (4, i) = _
    rw [v4 i (List.mem_range.mp hi), k3.eval s (v := x i) (by simpa using hx3 i)]
    rfl
  rw [this]
  cases u3.fl.c <;> rfl

/-- The bitwise operations of the portable code. -/
def binSpec (q : Nat) (o : Alu) (a b : Limbs) : Limbs :=
  match o with
  | .and => FF.rawAnd q a b
  | .orr => FF.rawOr q a b
  | .eor => FF.rawXor q a b
  | _ => FF.rawNot q a

/-- The word operations. -/
def binWord (o : Alu) (x y : BitVec 64) : BitVec 64 :=
  match o with
  | .and => x &&& y
  | .orr => x ||| y
  | .eor => x ^^^ y
  | _ => ~~~x

theorem binSpec_eq (q : Nat) {o : Alu} (f g : Nat → BitVec 64) :
    binSpec q o ((List.range (n64 q)).map f) ((List.range (n64 q)).map g)
      = condSub q false ((List.range (n64 q)).map fun i => if i = n64 q - 1 then binWord o (f i) (g i) &&& lboMask q else binWord o (f i) (g i)) := by
  have hm : ∀ h : Nat → BitVec 64, maskTop q ((List.range (n64 q)).map h)
      = (List.range (n64 q)).map fun i => if i = n64 q - 1 then h i &&& lboMask q else h i := by
    intro h
    have hn := n64_pos q
    unfold maskTop limbAt
    apply List.ext_getElem
    · simp
    · intro i h1 h2
      simp only [List.getElem_set, List.getElem_map, List.getElem_range]
      by_cases hi : n64 q - 1 = i
      · rw [if_pos hi, if_pos hi.symm]
        subst hi
        simp [List.getD, hn]
      · rw [if_neg hi, if_neg (Ne.symm hi)]
  have hz : ∀ (w : BitVec 64 → BitVec 64 → BitVec 64), List.zipWith w ((List.range (n64 q)).map f) ((List.range (n64 q)).map g)
      = (List.range (n64 q)).map fun i => w (f i) (g i) := by
    intro w
    apply List.ext_getElem <;> simp
  unfold binSpec
  split
  · unfold FF.rawAnd mpn_and_n; rw [hz, hm]; rfl
  · unfold FF.rawOr mpn_ior_n; rw [hz, hm]; rfl
  · unfold FF.rawXor mpn_xor_n; rw [hz, hm]; rfl
  · rename_i h1 h2 h3
    unfold FF.rawNot mpn_com
    rw [List.map_map, hm]
    congr 1
    refine List.map_congr_left fun i _ => ?_
    cases o <;> first | rfl | (exact absurd rfl h1) | (exact absurd rfl h2) | (exact absurd rfl h3)

theorem bin_eval {o : Alu} (ho : o = .and ∨ o = .orr ∨ o = .eor ∨ o = .mvn) (x y : BitVec 64) (f : Flags) :
    o.eval x y f = (binWord o x y, f) := by
  rcases ho with rfl | rfl | rfl | rfl <;> rfl

theorem vBin_run (s : State) {n : Nat} (_hn : 0 < n) {o : Alu} (ho : o = .and ∨ o = .orr ∨ o = .eor ∨ o = .mvn) (u : U) :
    ∀ i, i < n → (binX n i).eval s (vexes s (vBin n o) u).ρ
      = if i = n - 1 then binWord o ((arr 1 i).eval s u.ρ) ((binY o i).eval s u.ρ) &&& s.mem (cell (s.sym .lboMask) 0)
        else binWord o ((arr 1 i).eval s u.ρ) ((binY o i).eval s u.ρ) := by
  unfold vBin
  rw [vexes_append]
  have h := vloop_run (s := s) (u := u) (n := n) (f := fun i => [vop o 1 i (arr 1 i) (binY o i)])
    (P := fun k u' => ∀ i, i < k → u'.ρ (1, i) = binWord o ((arr 1 i).eval s u.ρ) ((binY o i).eval s u.ρ)) (by omega) (by
      intro i u' _ h j hj
      have hy : (binY o i).eval s u'.ρ = (binY o i).eval s u.ρ := by unfold binY; split <;> rfl
      have e : vexes s [vop o 1 i (arr 1 i) (binY o i)] u'
          = ⟨upd u'.ρ (1, i) (binWord o ((arr 1 i).eval s u.ρ) ((binY o i).eval s u.ρ)), u'.fl⟩ := by
        show (vop o 1 i (arr 1 i) (binY o i)).exec s u' = _
        rw [exec_vop, bin_eval ho, hy]
        rfl
      rw [e]
      show upd u'.ρ (1, i) _ (1, j) = _
      by_cases hji : j = i
      · subst hji; rw [upd_same]
      · rw [upd_ne _ _ (by simpa using hji)]
        exact h j (by omega))
  generalize vexes s (vloop n _) u = u' at h
  intro i hi
  have e : vexes s [vop .and 2 0 (.v 1 (n - 1)) (.mem (.tab .lboMask) 0)] u'
      = ⟨upd u'.ρ (2, 0) (u'.ρ (1, n - 1) &&& s.mem (cell (s.sym .lboMask) 0)), u'.fl⟩ := rfl
  rw [e]
  unfold binX
  by_cases hl : i = n - 1
  · rw [if_pos hl, if_pos hl]
    refine (upd_same u'.ρ (2, 0) (u'.ρ (1, n - 1) &&& s.mem (cell (s.sym .lboMask) 0))).trans ?_
    rw [h (n - 1) (by omega), hl]
  · rw [if_neg hl, if_neg hl]
    show upd u'.ρ (2, 0) (u'.ρ (1, n - 1) &&& s.mem (cell (s.sym .lboMask) 0)) (1, i) = _
    rw [upd_ne _ _ (by simp), h i hi]

theorem rawBinOp_run {q : Nat} {s : State} {o : Alu} (ho : o = .and ∨ o = .orr ∨ o = .eor ∨ o = .mvn) (h : Ctx q s)
    (ha : OffStack s (s.reg 1) (n64 q)) (hb : o ≠ .mvn → OffStack s (s.reg 2) (n64 q)) :
    ∃ s', run (rawBinOp (n64 q) o) s = some s' ∧
      Post (n64 q) s s' (binSpec q o (rd s.mem (s.reg 1) (n64 q)) (rd s.mem (s.reg 2) (n64 q))) := by
  have hn := n64_pos q
  have hlim := h.lim
  have hsl := saved_len hn hlim
  have hok := List.all_eq_true.mp (all12 bin_ok hn hlim) o (by rcases ho with rfl | rfl | rfl | rfl <;> simp)
  obtain ⟨s', f, g⟩ := body_post hok hlim hsl (.nil _ _) h.dst
  refine ⟨s', ?_, ?_⟩
  · unfold rawBinOp
    simp only [List.append_assoc]
    rw [run_lines, run_lines]
    exact f
  · convert g using 1
    unfold outOf
    obtain ⟨p1, -, p3, p4⟩ := pushed hsl s
    have vq : ∀ ρ, vs (fun i => (qw i).eval _ ρ) (n64 q) = q := vs_qw hsl h
    generalize hS : exes (pushRegs (vars (n64 q)).saved) s = S at *
    rw [vexes_append]
    have hw := vBin_run S hn ho ⟨fun _ => 0, S.fl⟩
    generalize vexes S (vBin (n64 q) o) ⟨fun _ => 0, S.fl⟩ = u at *
    have hx3 : ∀ i, (binX (n64 q) i).off 3 := by intro i; unfold binX; split <;> exact off_v (by decide) _
    have hx4 : ∀ i, (binX (n64 q) i).off 4 := by intro i; unfold binX; split <;> exact off_v (by decide) _
    refine Eq.trans ?_ (vSubSel_run S hx3 hx4 u (vq u.ρ)).symm
    rw [rd_map, rd_map, binSpec_eq]
    congr 1
    refine List.map_congr_left fun i hi => ?_
    have hi := List.mem_range.mp hi
    rw [hw i hi]
    have e1 : (arr 1 i).eval S (fun _ => 0) = s.mem (cell (s.reg 1) i) := by
      show S.mem (cell (S.reg 1) i) = _
      rw [p1, p4 _ _ ha i hi]
    have e2 : binWord o ((arr 1 i).eval S (fun _ => 0)) ((binY o i).eval S (fun _ => 0))
        = binWord o (s.mem (cell (s.reg 1) i)) (s.mem (cell (s.reg 2) i)) := by
      rw [e1]
      by_cases hm : o = .mvn
      · subst hm; rfl
      · unfold binY
        rw [if_neg hm]
        have : (arr 2 i).eval S (fun _ => 0) = s.mem (cell (s.reg 2) i) := by
          show S.mem (cell (S.reg 2) i) = _
          rw [p1, p4 _ _ (hb hm) i hi]
        rw [this]
    have e3 : S.mem (cell (S.sym .lboMask) 0) = lboMask q := by
      rw [p3, p4 _ _ h.maskOff 0 (by omega), ← h.mask]
      congr 1
      simp [cell]
    show _ = if i = n64 q - 1 then binWord o ((arr 1 i).eval S (fun _ => 0)) ((binY o i).eval S (fun _ => 0)) &&& _ else _
    rw [e2, e3]

end FF.Arm
