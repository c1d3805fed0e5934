import Verif.AsmShiftRun

/-!
# `rawShr` and `rawShl`
-/

namespace FF.X86

section shift

variable {q n k w i b : Nat} {ra : BitVec 64} {s t : State} {env : String → Option (State → Option State)} {a : Limbs}

/-! ## The portable results, limb by limb -/

theorem limb_append {xs ys : Limbs} {i : Nat} : limbAt (xs ++ ys) i = if i < xs.length then limbAt xs i else limbAt ys (i - xs.length) := by
  simp only [limbAt, List.getD_eq_getElem?_getD]
  split
  · rw [List.getElem?_append_left (by assumption)]
  · rw [List.getElem?_append_right (by omega)]

theorem limb_replicate {n i : Nat} : limbAt (List.replicate n 0) i = 0 := by
  simp only [limbAt, List.getD_eq_getElem?_getD, List.getElem?_replicate]
  split <;> rfl

theorem limb_take {m i : Nat} : limbAt (a.take m) i = if i < m then limbAt a i else 0 := by
  simp only [limbAt, List.getD_eq_getElem?_getD, List.getElem?_take]
  split <;> rfl

theorem limb_drop {m i : Nat} : limbAt (a.drop m) i = limbAt a (m + i) := by
  simp only [limbAt, List.getD_eq_getElem?_getD, List.getElem?_drop]

/-- The words of `rawShr` moved down. -/
theorem limb_down (ha : a.length = n) (hw : w ≤ n) (i : Nat) : limbAt ((a.drop w).take (n - w) ++ List.replicate w 0) i = limbAt a (w + i) := by
  have hl : ((a.drop w).take (n - w)).length = n - w := by simp [ha]
  rw [limb_append, hl]
  split
  · rw [limb_take, if_pos (by assumption), limb_drop]
  · rw [limb_replicate, limb_out (by omega)]

/-- The words of `rawShl` moved up. -/
theorem limb_up (hi : i < n) : limbAt (List.replicate w 0 ++ a.take (n - w)) i = if w ≤ i then limbAt a (i - w) else 0 := by
  rw [limb_append, List.length_replicate]
  by_cases h : w ≤ i
  · rw [if_neg (by omega), if_pos h, limb_take, if_pos (by omega)]
  · rw [if_pos (by omega), if_neg h, limb_replicate]

theorem rd_limbs (m : BitVec 64 → BitVec 64) (p : BitVec 64) (n j : Nat) : limbAt (rd m p n) j = if j < n then m (cell p j) else 0 := by
  split
  · exact rd_limb _ _ (by assumption)
  · exact limb_out (by rw [rd_length]; omega)

/-! ## The tail jumps -/

theorem copy_tail (p : List Line) : run env ra (rawCopy n ++ p) t = run env ra (rawCopy n) t := by
  rw [rawCopy, List.append_assoc, List.singleton_append, run_code_ret, run_code_ret]

theorem drop_copy (n : Nat) : dropTo "rawCopy" (copyZero n) = rawCopy n ++ .label "rawZero" :: rawZero n := dropTo_self _ _

theorem drop_zero (n : Nat) : dropTo "rawZero" (copyZero n) = rawZero n := by
  rw [copyZero, dropTo_label, if_neg (by decide), dropTo_skip, dropTo_self]
  rw [rawCopy, labels_append, List.mem_append]
  have : ∀ l : List (Ins Opd), labels (code l) = [] := fun l => by induction l with | nil => rfl | cons x l ih => exact ih
  rw [this]
  simp [labels]

/-- The first part of both routines. -/
theorem head_run {al : String} {B : List Line} (hn : 8 * n64 q ≤ 2 ^ 64) (hbl : bitLen q < 2 ^ 31)
    (ha : Alias (s.reg .rsi) (s.reg .rdi) (n64 q))
    (hB : ∀ l, l = "rawCopy" ∨ l = "rawZero" → ∀ p, dropTo l (B ++ p) = dropTo l p) :
    (((s.reg .rdx).toNat = 0 ∨ bitLen q ≤ (s.reg .rdx).toNat) →
      ∃ s', run env ra (shiftHead (bitLen q) al ++ (B ++ copyZero (n64 q))) s = some s' ∧ RawPost (n64 q) keepAx s s'
        (if (s.reg .rdx).toNat = 0 then rd s.mem (s.reg .rsi) (n64 q) else List.replicate (n64 q) 0)) ∧
    ((s.reg .rdx).toNat ≠ 0 → (s.reg .rdx).toNat < bitLen q → ∃ t, t.mem = s.mem ∧ t.sym = s.sym ∧
      (∀ r, r ≠ .rcx → r ≠ .r8 → t.reg r = s.reg r) ∧ t.reg .r8 = BitVec.ofNat 64 ((s.reg .rdx).toNat / 64) ∧
      t.reg .rcx = BitVec.ofNat 64 ((s.reg .rdx).toNat % 64) ∧
      ∀ p, run env ra (shiftHead (bitLen q) al ++ p) s = if (s.reg .rdx).toNat % 64 = 0 then run env ra (dropTo al p) t else run env ra p t) := by
  have hx : s.reg .rdx = BitVec.ofNat 64 (s.reg .rdx).toNat := by simp
  set x := (s.reg .rdx).toNat with hxd
  have hx64 : x < 2 ^ 64 := (s.reg .rdx).isLt
  obtain ⟨t1, ht1⟩ : ∃ t1, t1 = exes [op .cmp rdx (.imm 0)] s := ⟨_, rfl⟩
  have m1 : t1.mem = s.mem ∧ t1.sym = s.sym ∧ t1.reg = s.reg := by rw [ht1]; exact ⟨rfl, rfl, rfl⟩
  have z1 : t1.fl.zf = decide (x = 0) := by
    rw [ht1]
    show (subFlags (s.reg .rdx) (BitVec.ofNat 64 0) 0 (s.reg .rdx - BitVec.ofNat 64 0)).zf = _
    rw [hx, cmp_zf hx64 (by omega)]
  obtain ⟨t2, ht2⟩ : ∃ t2, t2 = exes [op .cmp rdx (.imm (BitVec.ofNat 64 (bitLen q)))] t1 := ⟨_, rfl⟩
  have m2 : t2.mem = s.mem ∧ t2.sym = s.sym ∧ t2.reg = s.reg := by rw [ht2]; exact m1
  have z2 : t2.fl.cf = decide (x < bitLen q) := by
    rw [ht2]
    show (subFlags (t1.reg .rdx) (BitVec.ofNat 64 (bitLen q)) 0 (t1.reg .rdx - BitVec.ofNat 64 (bitLen q))).cf = _
    rw [m1.2.2, hx, cmp_cf hx64 (by omega)]
  set T : List Line := [op .mov r8 rdx, .misc (.shr .r8 6), op .mov rcx rdx, op .and rcx (.imm 0x3F)] with hT
  have st : ∀ p, run env ra (shiftHead (bitLen q) al ++ p) s = run env ra (.jump .zero "rawCopy" ::
      ([op .cmp rdx (.imm (BitVec.ofNat 64 (bitLen q)))] ++ (.jump .ncarry "rawZero" :: (T ++ (.jump .zero al :: p))))) t1 := fun p => by
    rw [ht1, ← run_exes _ rfl]; rfl
  have post : ∀ {t' s' : State} {out : Limbs}, t'.mem = s.mem ∧ t'.sym = s.sym ∧ t'.reg = s.reg → RawPost (n64 q) keepAx t' s' out →
      RawPost (n64 q) keepAx s s' out := fun {t' s' out} h h' => by
    obtain ⟨e1, e2, e3⟩ := h
    exact ⟨by rw [← e3]; exact h'.out, by rw [← e3, ← e1]; exact h'.frame, by rw [← e3]; exact h'.regs, by rw [← e3]; exact h'.rsp⟩
  refine ⟨fun h => ?_, fun h0 hlt => ?_⟩
  · by_cases h0 : x = 0
    · obtain ⟨s', r1, r2⟩ := rawCopy_run (env := env) (ra := ra) (s := t1) (n64 q) hn (by rw [m1.2.2]; exact ha)
      refine ⟨s', ?_, ?_⟩
      · rw [st, run_jump, Cond.holds, z1, if_pos (by simp [h0]), dropTo_skip (by simp [labels]), dropTo_jump,
          dropTo_skip (by simp [labels, hT]), dropTo_jump, hB _ (.inl rfl), drop_copy, copy_tail, r1]
      · rw [if_pos h0, ← m1.1, ← m1.2.2]
        exact post m1 r2
    · obtain ⟨s', r1, r2⟩ := rawZero_run (env := env) (ra := ra) (s := t2) (n64 q) hn
      refine ⟨s', ?_, ?_⟩
      · rw [st, run_jump, Cond.holds, z1, if_neg (by simp [h0]), run_exes _ rfl, ← ht2, run_jump, Cond.holds, z2, if_pos (by simp; omega),
          dropTo_skip (by simp [labels, hT]), dropTo_jump, hB _ (.inr rfl), drop_zero, r1]
      · rw [if_neg h0]
        exact post m2 r2
  · obtain ⟨t3, ht3⟩ : ∃ t3, t3 = exes T t2 := ⟨_, rfl⟩
    have c3 : t3.reg .rcx = BitVec.ofNat 64 (x % 64) := by
      have : t3.reg .rcx = t2.reg .rdx &&& 0x3F := by rw [ht3]; rfl
      rw [this, m2.2.2]
      apply BitVec.eq_of_toNat_eq
      rw [BitVec.toNat_and, ← hxd, show (0x3F : BitVec 64).toNat = 2 ^ 6 - 1 from rfl, Nat.and_two_pow_sub_one_eq_mod, BitVec.toNat_ofNat]
      omega
    have c8 : t3.reg .r8 = BitVec.ofNat 64 (x / 64) := by
      have : t3.reg .r8 = t2.reg .rdx >>> 6 := by rw [ht3]; rfl
      rw [this, m2.2.2]
      apply BitVec.eq_of_toNat_eq
      rw [BitVec.toNat_ushiftRight, ← hxd, Nat.shiftRight_eq_div_pow, BitVec.toNat_ofNat]
      omega
    have z3 : t3.fl.zf = decide (x % 64 = 0) := by
      have : t3.fl.zf = decide (t3.reg .rcx = 0) := by rw [ht3]; rfl
      rw [this, c3]
      congr 1
      refine propext ⟨fun h => ?_, fun h => by rw [h]; rfl⟩
      have := congrArg BitVec.toNat h
      rw [BitVec.toNat_ofNat] at this
      simp at this
      omega
    refine ⟨t3, by rw [ht3]; exact m2.1, by rw [ht3]; exact m2.2.1, fun r h1 h2 => ?_, c8, c3, fun p => ?_⟩
    · rw [ht3, ← m2.2.2, hT]
      simp [exes, Line.exec, Misc.exec, step, i2, Ins.exec, Op2.eval, Op2.writes, Opd.get, Opd.set, upd_apply, h1, h2]
    · rw [st, run_jump, Cond.holds, z1, if_neg (by simp [h0]), run_exes _ rfl, ← ht2, run_jump, Cond.holds, z2, if_neg (by simp [hlt]),
        run_exes _ rfl, ← ht3, run_jump, Cond.holds, z3]
      simp

/-- Registers the raw shifts leave as they were. -/
def keepShift (r : Reg) : Prop := r = .rdi ∨ r = .rsi ∨ r ∈ Props.calleeSaved

theorem keepShift_ne {r : Reg} (h : keepShift r) : r ≠ .rax ∧ r ≠ .rcx ∧ r ≠ .rdx ∧ r ≠ .r8 ∧ r ≠ .r9 ∧ r ≠ .r10 ∧ r ≠ .r11 ∧ r ≠ .rsp := by
  rcases h with rfl | rfl | h
  · decide
  · decide
  · refine ⟨?_, ?_, ?_, ?_, ?_, ?_, ?_, ?_⟩ <;> (rintro rfl; exact absurd h (by decide))

theorem RawPost.toShift {out : Limbs} {s' : State} (h : RawPost n keepAx s s' out) : RawPost n keepShift s s' out :=
  ⟨h.out, h.frame, fun r hr => h.regs r ⟨(keepShift_ne hr).1, (keepShift_ne hr).2.2.2.2.2.2.2⟩, h.rsp⟩

/-- The end of a routine whose rounds have stored everything. -/
theorem part_ret {V : Nat → BitVec 64} {t1 : State} (hm : t.mem = s.mem) (hr : ∀ r, keepShift r ∨ r = .rsp → t.reg r = s.reg r)
    (hp : Part keepSh (s.reg .rdi) V (· < n) t t1) (p : List Line) :
    ∃ s', run env ra (.ret :: p) t1 = some s' ∧ RawPost n keepShift s s' (firsts V n) := by
  refine ⟨_, run_ret _ _ _ _, ?_, fun a ha => ?_, fun r h => ?_, ?_⟩
  · exact hp.rd
  · exact (hp.old a ha).trans (by rw [hm])
  · have := keepShift_ne h
    simp only [upd_ne _ _ this.2.2.2.2.2.2.2]
    rw [hp.regs r ⟨this.1, this.2.2.2.2.2.2.1⟩, hr r (.inl h)]
  · simp only [upd_same]
    rw [hp.regs .rsp (by simp [keepSh]), hr .rsp (.inr rfl)]

theorem drop_rounds {l : String} {f : Nat → List Line} (h : ∀ i, l ∉ labels (f i)) (is : List Nat) (p : List Line) :
    dropTo l (is.flatMap f ++ p) = dropTo l p := dropTo_flat l f (fun i p => dropTo_skip (h i) p) p is

theorem masks_cx (hc : t.reg .rcx = BitVec.ofNat 64 k) (hk : k < 64) :
    (exes [.misc (.movCh 64), .misc .subChCl] t).reg .rcx = cx k := by
  rw [← cx_set hk, ← hc]
  rfl

/-- `rawShr` of the generated assembly is `Fr_rawShr`; shifts by the bit length and more give zero. -/
theorem rawShr_run (hn : 8 * n64 q ≤ 2 ^ 64) (hbl : bitLen q < 2 ^ 31) (ha : Alias (s.reg .rsi) (s.reg .rdi) (n64 q)) :
    ∃ s', run env ra (rawShrCode (bitLen q) (n64 q)) s = some s' ∧ RawPost (n64 q) keepShift s s'
      (if (s.reg .rdx).toNat < bitLen q then rawShr q (rd s.mem (s.reg .rsi) (n64 q)) (s.reg .rdx).toNat else List.replicate (n64 q) 0) := by
  set R : List Line := (List.range (n64 q)).flatMap (shrRound (n64 q)) with hR
  set R' : List Line := (List.range (n64 q)).flatMap (shrWords (n64 q)) with hR'
  have hcode : rawShrCode (bitLen q) (n64 q) = shiftHead (bitLen q) "rawShr_aligned" ++
      ((shrMasks ++ (R ++ (.ret :: .label "rawShr_aligned" :: (R' ++ [.ret])))) ++ copyZero (n64 q)) := by
    rw [rawShrCode]
    simp only [List.append_assoc, List.cons_append, List.nil_append, hR, hR']
  have dR : ∀ l, l ≠ "if2" → l ≠ "else" → l ≠ "endif" → ∀ p, dropTo l (R ++ p) = dropTo l p := fun l h1 h2 h3 p =>
    drop_rounds (fun i => by simp [shrRound, labels, h1, h2, h3]) _ p
  have dR' : ∀ l, l ≠ "if3" → l ≠ "endif3" → ∀ p, dropTo l (R' ++ p) = dropTo l p := fun l h1 h2 p =>
    drop_rounds (fun i => by simp [shrWords, labels, h1, h2]) _ p
  obtain ⟨hA, hB⟩ := head_run (env := env) (ra := ra) (q := q) (s := s) (al := "rawShr_aligned")
    (B := shrMasks ++ (R ++ (.ret :: .label "rawShr_aligned" :: (R' ++ [.ret])))) hn hbl ha (fun l hl p => by
      have h : l ≠ "if2" ∧ l ≠ "else" ∧ l ≠ "endif" ∧ l ≠ "if3" ∧ l ≠ "endif3" ∧ l ≠ "rawShr_aligned" := by rcases hl with rfl | rfl <;> decide
      simp only [List.append_assoc, List.cons_append]
      rw [dropTo_skip (by simp [labels, shrMasks]), dR l h.1 h.2.1 h.2.2.1]
      show dropTo l (.label "rawShr_aligned" :: _) = _
      rw [dropTo_label, if_neg (fun e => h.2.2.2.2.2 e.symm), dR' l h.2.2.2.1 h.2.2.2.2.1]
      rfl)
  set x := (s.reg .rdx).toNat with hx
  have hlen : (rd s.mem (s.reg .rsi) (n64 q)).length = n64 q := rd_length _ _ _
  by_cases h0 : x = 0
  · obtain ⟨s', r1, r2⟩ := hA (.inl h0)
    refine ⟨s', by rw [hcode, r1], ?_⟩
    rw [if_pos h0] at r2
    have : (if x < bitLen q then rawShr q (rd s.mem (s.reg .rsi) (n64 q)) x else List.replicate (n64 q) 0) = rd s.mem (s.reg .rsi) (n64 q) := by
      rw [if_pos (by rw [h0]; exact Nat.pos_of_ne_zero (by simp [bitLen])), h0]
      simp [rawShr, rd_length]
    rw [this]
    exact r2.toShift
  by_cases hlt : x < bitLen q
  swap
  · obtain ⟨s', r1, r2⟩ := hA (.inr (by omega))
    rw [if_neg h0] at r2
    exact ⟨s', by rw [hcode, r1], by rw [if_neg hlt]; exact r2.toShift⟩
  obtain ⟨t, m, y, rg, h8, hc, hrun⟩ := hB h0 hlt
  have hbn := bitLen_le_n64 q
  have hw : x / 64 < n64 q := by omega
  rw [if_pos hlt]
  have src : ∀ {K : Reg → Prop} {V : Nat → BitVec 64} {t0 t' : State} {i j : Nat}, t0.mem = s.mem → t0.reg .rsi = s.reg .rsi → K .rsi →
      Part K (s.reg .rdi) V (· < i) t0 t' → i ≤ j → srcAt (n64 q) t' j = limbAt (rd s.mem (s.reg .rsi) (n64 q)) j := by
    intro K V t0 t' i j e1 e2 hK hp hij
    rw [srcAt, rd_limbs]
    split
    · rw [hp.regs _ hK, e2, ← e1]
      refine hp.src fun l hl e => ?_
      rcases ha with e' | ha
      · rw [e'] at e
        have := cell_inj (by omega) (by omega) e; omega
      · exact ha _ _ (by omega) (by omega) e
    · rfl
  by_cases hal : x % 64 = 0
  · have hr : run env ra (rawShrCode (bitLen q) (n64 q)) s = run env ra (R' ++ (.ret :: copyZero (n64 q))) t := by
      rw [hcode, hrun, if_pos hal]
      simp only [List.append_assoc, List.cons_append]
      rw [dropTo_skip (by simp [labels, shrMasks]), dR _ (by decide) (by decide) (by decide)]
      show run env ra (dropTo "rawShr_aligned" (.label "rawShr_aligned" :: _)) t = _
      rw [dropTo_self]
      rfl
    obtain ⟨t1, e1, p1⟩ := asc_run (env := env) (ra := ra) (t := t) (K := keepSh) (d := s.reg .rdi) (k₀ := 0)
      (V := fun i => limbAt (rd s.mem (s.reg .rsi) (n64 q)) (x / 64 + i)) (body := shrWords (n64 q)) hn (fun i t' _ hi hp => by
        have hdi : t'.reg .rdi = s.reg .rdi := (hp.regs _ (by simp [keepSh])).trans (rg _ (by decide) (by decide))
        have := shrWords_run (env := env) (ra := ra) (t := t') hn hi hw ((hp.regs _ (by simp [keepSh])).trans h8)
        rw [hdi, src m (rg _ (by decide) (by decide)) (by simp [keepSh]) hp (by omega)] at this
        exact this) (n64 q) 0 t le_rfl (by omega) (.refl (fun j => by omega) t)
    rw [Nat.zero_add] at p1
    obtain ⟨s', r1, r2⟩ := part_ret (env := env) (ra := ra) m (fun r hr => rg r (by rcases hr with h | rfl <;> [exact (keepShift_ne h).2.1; decide])
      (by rcases hr with h | rfl <;> [exact (keepShift_ne h).2.2.2.1; decide])) p1 (copyZero (n64 q))
    refine ⟨s', by rw [hr, hR', List.range_eq_range', e1, r1], ?_⟩
    have : firsts (fun i => limbAt (rd s.mem (s.reg .rsi) (n64 q)) (x / 64 + i)) (n64 q) = rawShr q (rd s.mem (s.reg .rsi) (n64 q)) x := by
      refine limbs_ext (firsts_length _ _) (by simp [rawShr, hal, rd_length]; omega) fun i hi => ?_
      rw [firsts_limb _ hi, rawShr]
      simp only [hal, ne_eq, not_true_eq_false, if_false]
      rw [limb_down hlen (by omega)]
    rw [← this]
    exact r2
  · obtain ⟨t0, ht0⟩ : ∃ t0, t0 = exes shrMasks t := ⟨_, rfl⟩
    have hk : x % 64 < 64 := Nat.mod_lt _ (by decide)
    have m0 : t0.mem = s.mem := by rw [ht0, ← m]; rfl
    have y0 : t0.sym = s.sym := by rw [ht0, ← y]; rfl
    have g0 : ∀ r, r ≠ .rcx → r ≠ .r9 → r ≠ .r10 → t0.reg r = t.reg r := fun r h1 h2 h3 => by
      rw [ht0]
      simp [shrMasks, exes, Line.exec, Misc.exec, step, i2, Ins.exec, Op2.eval, Op2.writes, Opd.get, Opd.set, upd_apply, h1, h2, h3]
    have w0 := masks_cx hc hk
    obtain ⟨u, hu⟩ : ∃ u, u = exes [.misc (.movCh 64), .misc .subChCl] t := ⟨_, rfl⟩
    rw [← hu] at w0
    have e0 : t0 = exes shrMasks.tail.tail u := by rw [ht0, hu, exes, exes, exes, ← List.foldl_append]; congr 1
    have c0 : t0.reg .rcx = cx (x % 64) := by
      rw [e0]
      simp [shrMasks, exes, Line.exec, Misc.exec, step, i2, Ins.exec, Op2.eval, Op2.writes, Opd.get, Opd.set, upd_apply, w0, cx_rol hk, cx_back hk]
    have c9 : t0.reg .r9 = lowMask (64 - x % 64) := by
      rw [e0]
      simp [shrMasks, exes, Line.exec, Misc.exec, step, i2, Ins.exec, Op2.eval, Op2.writes, Opd.get, Opd.set, upd_apply, w0, cx_rol hk, clCount,
        cx_cl (show 64 - x % 64 < 64 by omega), lowMask]
    have c10 : t0.reg .r10 = ~~~ lowMask (64 - x % 64) := by
      rw [e0]
      simp [shrMasks, exes, Line.exec, Misc.exec, step, i2, Ins.exec, Op2.eval, Op2.writes, Opd.get, Opd.set, upd_apply, w0, cx_rol hk, clCount,
        cx_cl (show 64 - x % 64 < 64 by omega), lowMask]
    have hr : run env ra (rawShrCode (bitLen q) (n64 q)) s = run env ra (R ++ (.ret :: (.label "rawShr_aligned" :: (R' ++ (.ret :: copyZero (n64 q)))))) t0 := by
      rw [hcode, hrun, if_neg hal]
      simp only [List.append_assoc, List.cons_append]
      rw [run_exes _ rfl, ← ht0]
      rfl
    obtain ⟨t1, e1, p1⟩ := asc_run (env := env) (ra := ra) (t := t0) (K := keepSh) (d := s.reg .rdi) (k₀ := 0)
      (V := fun i => BitVec.ofNat 64 (((limbAt (rd s.mem (s.reg .rsi) (n64 q)) (x / 64 + i)).toNat +
        2 ^ 64 * (limbAt (rd s.mem (s.reg .rsi) (n64 q)) (x / 64 + i + 1)).toNat) / 2 ^ (x % 64))) (body := shrRound (n64 q)) hn (fun i t' _ hi hp => by
        have kp : ∀ r, keepSh r → t'.reg r = t0.reg r := fun r h => hp.regs r h
        have hdi : t'.reg .rdi = s.reg .rdi := (kp _ (by simp [keepSh])).trans ((g0 _ (by decide) (by decide) (by decide)).trans (rg _ (by decide) (by decide)))
        have := shrRound_run (env := env) (ra := ra) (t := t') hn hi hw (by omega) hk
          ((kp _ (by simp [keepSh])).trans ((g0 _ (by decide) (by decide) (by decide)).trans h8))
          ((kp _ (by simp [keepSh])).trans c0) ((kp _ (by simp [keepSh])).trans c9) ((kp _ (by simp [keepSh])).trans c10)
        have hs0 : t0.reg .rsi = s.reg .rsi := (g0 _ (by decide) (by decide) (by decide)).trans (rg _ (by decide) (by decide))
        rw [hdi, src m0 hs0 (by simp [keepSh]) hp (by omega), src m0 hs0 (by simp [keepSh]) hp (by omega)] at this
        exact this) (n64 q) 0 t0 le_rfl (by omega) (.refl (fun j => by omega) t0)
    rw [Nat.zero_add] at p1
    obtain ⟨s', r1, r2⟩ := part_ret (env := env) (ra := ra) m0 (fun r hr => by
      have : r ≠ .rcx ∧ r ≠ .r8 ∧ r ≠ .r9 ∧ r ≠ .r10 := by
        rcases hr with h | rfl
        · have := keepShift_ne h
          exact ⟨this.2.1, this.2.2.2.1, this.2.2.2.2.1, this.2.2.2.2.2.1⟩
        · decide
      rw [g0 r this.1 this.2.2.1 this.2.2.2, rg r this.1 this.2.1]) p1 (.label "rawShr_aligned" :: (R' ++ (.ret :: copyZero (n64 q))))
    refine ⟨s', by rw [hr, hR, List.range_eq_range', e1, r1], ?_⟩
    have : firsts (fun i => BitVec.ofNat 64 (((limbAt (rd s.mem (s.reg .rsi) (n64 q)) (x / 64 + i)).toNat +
        2 ^ 64 * (limbAt (rd s.mem (s.reg .rsi) (n64 q)) (x / 64 + i + 1)).toNat) / 2 ^ (x % 64))) (n64 q) =
        rawShr q (rd s.mem (s.reg .rsi) (n64 q)) x := by
      have hl : (List.take (n64 q - x / 64) (List.drop (x / 64) (rd s.mem (s.reg .rsi) (n64 q))) ++ List.replicate (x / 64) 0).length = n64 q := by
        simp [rd_length]; omega
      refine limbs_ext (firsts_length _ _) (by simp [rawShr, hal, rd_length]; omega) fun i hi => ?_
      rw [firsts_limb _ hi, rawShr]
      simp only [ne_eq, hal, not_false_eq_true, if_true]
      rw [rshift_limb _ _ _ (by rw [hl]; exact hi), limb_down hlen (by omega), limb_down hlen (by omega), Nat.add_assoc]
    rw [← this]
    exact r2

/-! ## Left -/

theorem base_run (h8 : t.reg .r8 = BitVec.ofNat 64 w) (hw : 8 * w < 2 ^ 64) :
    (exes shlBase t).reg .rdx = t.reg .rsi - BitVec.ofNat 64 (8 * w) ∧ (exes shlBase t).mem = t.mem ∧ (exes shlBase t).sym = t.sym ∧
      ∀ r, r ≠ .rax → r ≠ .rdx → (exes shlBase t).reg r = t.reg r := by
  refine ⟨?_, rfl, rfl, fun r h1 h2 => ?_⟩
  · have : (exes shlBase t).reg .rdx = t.reg .rsi - t.reg .r8 <<< 3 := rfl
    rw [this, h8]
    congr 1
    apply BitVec.eq_of_toNat_eq
    rw [BitVec.toNat_shiftLeft, BitVec.toNat_ofNat, BitVec.toNat_ofNat, Nat.shiftLeft_eq, Nat.mod_eq_of_lt (show w < 2 ^ 64 by omega)]
    omega
  · simp [shlBase, exes, Line.exec, Misc.exec, step, i2, Ins.exec, Op2.eval, Op2.writes, Opd.get, Opd.set, upd_apply, h1, h2]

/-- After the rounds: the subtraction and the end. -/
theorem part_subQ {V : Nat → BitVec 64} {t1 : State} (hn : 8 * n64 q ≤ 2 ^ 64) (hm : t.mem = s.mem) (hy : t.sym = s.sym)
    (hr : ∀ r, keepShift r ∨ r = .rsp → t.reg r = s.reg r) (hdat : Data q s) (hs : ∀ x, InArr (s.reg .rdi) (n64 q) x → ¬ InData q s.sym x)
    (h0 : 0 < n64 q) (hp : Part keepSh (s.reg .rdi) V (· < n64 q) t t1) (p : List Line) :
    ∃ s', run env ra (subQIfBigger (n64 q) 0 ++ (.ret :: p)) t1 = some s' ∧
      RawPost (n64 q) keepShift s s' (condSub q false (firsts V (n64 q))) := by
  have rdi1 : t1.reg .rdi = s.reg .rdi := (hp.regs _ (by simp [keepSh])).trans (hr _ (.inl (.inl rfl)))
  have hd1 : Data q t1 := hdat.congr (hp.sym.trans hy) fun x hx => (hp.old x fun j hj e => hs x ⟨j, hj, e⟩ hx).trans (by rw [hm])
  have c0 : cell (s.reg .rdi) 0 = s.reg .rdi := by simp [cell]
  obtain ⟨t2, e2, v2, f2, g2, y2⟩ := subQ_run (env := env) (ra := ra) (t := t1) hd1 hn h0 0 (fun i j hi hj e => by
    rw [rdi1, c0, hp.sym, hy] at e
    exact hs _ ⟨j, hj, rfl⟩ (by rw [← e]; exact .inl ⟨i, hi, rfl⟩)) (.ret :: p)
  rw [rdi1, c0] at v2 f2
  refine ⟨_, by rw [show 0 = 8 * 0 from rfl, e2, run_ret], ?_, fun a ha => ?_, fun r h => ?_, ?_⟩
  · show rd t2.mem _ _ = _
    rw [v2, hp.rd]
  · show t2.mem a = _
    rw [f2 a (fun ⟨i, hi, e⟩ => ha i hi e), hp.old a ha, hm]
  · have := keepShift_ne h
    simp only [upd_ne _ _ this.2.2.2.2.2.2.2]
    rw [g2 r this.1, hp.regs r ⟨this.1, this.2.2.2.2.2.2.1⟩, hr r (.inl h)]
  · simp only [upd_same]
    rw [g2 _ (by simp [notRax]), hp.regs .rsp (by simp [keepSh]), hr .rsp (.inr rfl)]

/-- `rawShl` of the generated assembly is `Fr_rawShl`; shifts by the bit length and more give zero. -/
theorem rawShl_run (hn : 8 * n64 q ≤ 2 ^ 64) (hbl : bitLen q < 2 ^ 31) (ha : Alias (s.reg .rsi) (s.reg .rdi) (n64 q))
    (hdat : Data q s) (hsd : ∀ x, InArr (s.reg .rdi) (n64 q) x → ¬ InData q s.sym x) :
    ∃ s', run env ra (rawShlCode (bitLen q) (n64 q)) s = some s' ∧ RawPost (n64 q) keepShift s s'
      (if (s.reg .rdx).toNat = 0 then rd s.mem (s.reg .rsi) (n64 q) else
        if (s.reg .rdx).toNat < bitLen q then rawShl q (rd s.mem (s.reg .rsi) (n64 q)) (s.reg .rdx).toNat else List.replicate (n64 q) 0) := by
  set R : List Line := down (shlRound (n64 q)) (n64 q) with hR
  set R' : List Line := down (shlWords (n64 q)) (n64 q) with hR'
  set Q : List Line := subQIfBigger (n64 q) 0 with hQ
  have hcode : rawShlCode (bitLen q) (n64 q) = shiftHead (bitLen q) "rawShl_aligned" ++
      ((shlMasks ++ (shlBase ++ (R ++ (Q ++ (.ret :: .label "rawShl_aligned" :: (shlBase ++ (R' ++ (Q ++ [.ret])))))))) ++ copyZero (n64 q)) := by
    rw [rawShlCode]
    simp only [List.append_assoc, List.cons_append, List.nil_append, hR, hR', hQ]
  have dR : ∀ l, l ≠ "if2" → l ≠ "else" → l ≠ "endif" → ∀ p, dropTo l (R ++ p) = dropTo l p := fun l h1 h2 h3 p =>
    dropTo_down _ _ (fun i p => dropTo_skip (by simp [shlRound, labels, labels_append, labels_mask, h1, h2, h3]) p) p _
  have dR' : ∀ l, l ≠ "if3" → l ≠ "endif3" → ∀ p, dropTo l (R' ++ p) = dropTo l p := fun l h1 h2 p =>
    dropTo_down _ _ (fun i p => dropTo_skip (by simp [shlWords, labels, labels_append, labels_mask, h1, h2]) p) p _
  have dQ : ∀ l, l ≠ "subQ" → l ≠ "done" → ∀ p, dropTo l (Q ++ p) = dropTo l p := fun l h1 h2 p => by
    rw [hQ, subQIfBigger]
    simp only [List.append_assoc]
    rw [dropTo_down _ _ fun i p => dropTo_skip (by simp [labels]) p, dropTo_skip (by simp [labels, h1]), drop_rounds (fun i => by simp [labels]),
      dropTo_skip (by simp [labels, h2])]
  obtain ⟨hA, hB⟩ := head_run (env := env) (ra := ra) (q := q) (s := s) (al := "rawShl_aligned")
    (B := shlMasks ++ (shlBase ++ (R ++ (Q ++ (.ret :: .label "rawShl_aligned" :: (shlBase ++ (R' ++ (Q ++ [.ret])))))))) hn hbl ha (fun l hl p => by
      have h : l ≠ "if2" ∧ l ≠ "else" ∧ l ≠ "endif" ∧ l ≠ "if3" ∧ l ≠ "endif3" ∧ l ≠ "rawShl_aligned" ∧ l ≠ "subQ" ∧ l ≠ "done" := by
        rcases hl with rfl | rfl <;> decide
      simp only [List.append_assoc, List.cons_append]
      rw [dropTo_skip (by simp [labels, shlMasks]), dropTo_skip (by simp [labels, shlBase]), dR l h.1 h.2.1 h.2.2.1,
        dQ l h.2.2.2.2.2.2.1 h.2.2.2.2.2.2.2]
      show dropTo l (.label "rawShl_aligned" :: _) = _
      rw [dropTo_label, if_neg (fun e => h.2.2.2.2.2.1 e.symm), dropTo_skip (by simp [labels, shlBase]), dR' l h.2.2.2.1 h.2.2.2.2.1,
        dQ l h.2.2.2.2.2.2.1 h.2.2.2.2.2.2.2]
      rfl)
  set x := (s.reg .rdx).toNat with hx
  have hlen : (rd s.mem (s.reg .rsi) (n64 q)).length = n64 q := rd_length _ _ _
  by_cases h0 : x = 0
  · obtain ⟨s', r1, r2⟩ := hA (.inl h0)
    rw [if_pos h0] at r2
    exact ⟨s', by rw [hcode, r1], by rw [if_pos h0]; exact r2.toShift⟩
  by_cases hlt : x < bitLen q
  swap
  · obtain ⟨s', r1, r2⟩ := hA (.inr (by omega))
    rw [if_neg h0] at r2
    exact ⟨s', by rw [hcode, r1], by rw [if_neg h0, if_neg hlt]; exact r2.toShift⟩
  obtain ⟨t, m, y, rg, h8, hc, hrun⟩ := hB h0 hlt
  have hbn := bitLen_le_n64 q
  have hw : x / 64 < n64 q := by omega
  have hn0 : 0 < n64 q := by omega
  rw [if_neg h0, if_pos hlt]
  have src : ∀ {V : Nat → BitVec 64} {t0 t' : State} {i j : Nat}, t0.mem = s.mem → i < n64 q → j ≤ i →
      Part keepSh (s.reg .rdi) V (fun l => i < l ∧ l < n64 q) t0 t' →
      upAt (x / 64) (s.reg .rsi) t'.mem j = if x / 64 ≤ j then limbAt (rd s.mem (s.reg .rsi) (n64 q)) (j - x / 64) else 0 := by
    intro V t0 t' i j e1 hi hij hp
    rw [upAt]
    split
    · rw [rd_limb _ _ (by omega), ← e1]
      refine hp.src fun l hl e => ?_
      rcases ha with e' | ha
      · rw [e'] at e
        have := cell_inj (by omega) (by omega) e; omega
      · exact ha _ _ (by omega) (by omega) e
    · rfl
  have mask : ∀ {V : Nat → BitVec 64} {t0 t' : State} {P : Nat → Prop}, t0.mem = s.mem → t0.sym = s.sym → (∀ j, P j → j < n64 q) →
      Part keepSh (s.reg .rdi) V P t0 t' → t'.mem (t'.sym .lboMask) = lboMask q := by
    intro V t0 t' P e1 e2 hP hp
    rw [hp.sym, e2, hp.old _ fun j hj e => hsd (s.sym .lboMask) ⟨j, hP j hj, e⟩ (by simp [InData]), e1]
    exact hdat.mask
  set L : Limbs := List.replicate (x / 64) 0 ++ (rd s.mem (s.reg .rsi) (n64 q)).take (n64 q - x / 64) with hL
  have hLl : L.length = n64 q := by simp [hL, rd_length]; omega
  have hLi : ∀ i, i < n64 q → limbAt L i = if x / 64 ≤ i then limbAt (rd s.mem (s.reg .rsi) (n64 q)) (i - x / 64) else 0 := fun i hi => limb_up hi
  have getL : ∀ (X : Limbs) i (hi : i < X.length), X[i] = limbAt X i := fun X i hi => by
    rw [limbAt, List.getD_eq_getElem?_getD, List.getElem?_eq_getElem hi, Option.getD_some]
  by_cases hal : x % 64 = 0
  · obtain ⟨t0, ht0⟩ : ∃ t0, t0 = exes shlBase t := ⟨_, rfl⟩
    obtain ⟨b1, b2, b3, b4⟩ := base_run h8 (by omega)
    rw [← ht0] at b1 b2 b3 b4
    have m0 : t0.mem = s.mem := b2.trans m
    have y0 : t0.sym = s.sym := b3.trans y
    have g0 : ∀ r, r ≠ .rax → r ≠ .rdx → r ≠ .rcx → r ≠ .r8 → t0.reg r = s.reg r := fun r h1 h2 h3 h4 => (b4 r h1 h2).trans (rg r h3 h4)
    have hr : run env ra (rawShlCode (bitLen q) (n64 q)) s = run env ra (R' ++ (Q ++ (.ret :: copyZero (n64 q)))) t0 := by
      rw [hcode, hrun, if_pos hal]
      simp only [List.append_assoc, List.cons_append]
      rw [dropTo_skip (by simp [labels, shlMasks]), dropTo_skip (by simp [labels, shlBase]), dR _ (by decide) (by decide) (by decide),
        dQ _ (by decide) (by decide)]
      show run env ra (dropTo "rawShl_aligned" (.label "rawShl_aligned" :: _)) t = _
      rw [dropTo_self, run_exes _ rfl, ← ht0]
      rfl
    obtain ⟨t1, e1, p1⟩ := desc_run (env := env) (ra := ra) (t := t0) (K := keepSh) (d := s.reg .rdi)
      (V := masked q (limbAt L)) (body := shlWords (n64 q)) hn (fun i t' hi hp => by
        have hdi : t'.reg .rdi = s.reg .rdi := (hp.regs _ (by simp [keepSh])).trans (g0 _ (by decide) (by decide) (by decide) (by decide))
        have := shlWords_run (env := env) (ra := ra) (t := t') (a := s.reg .rsi) hn hi hw
          ((hp.regs _ (by simp [keepSh])).trans ((b4 _ (by decide) (by decide)).trans h8))
          ((hp.regs _ (by simp [keepSh])).trans (by rw [b1, rg _ (by decide) (by decide)]))
          (mask m0 y0 (fun j hj => hj.2) hp)
        rw [hdi, masked, src m0 hi le_rfl hp, ← hLi i hi] at this
        exact this) (n64 q) t0 le_rfl (.refl (fun j => by omega) t0)
    obtain ⟨s', r1, r2⟩ := part_subQ (env := env) (ra := ra) hn m0 y0 (fun r hr => by
      have : r ≠ .rax ∧ r ≠ .rdx ∧ r ≠ .rcx ∧ r ≠ .r8 := by
        rcases hr with h | rfl
        · have := keepShift_ne h
          exact ⟨this.1, this.2.2.1, this.2.1, this.2.2.2.1⟩
        · decide
      exact g0 r this.1 this.2.1 this.2.2.1 this.2.2.2) hdat hsd hn0 p1 (copyZero (n64 q))
    refine ⟨s', by rw [hr, e1, r1], ?_⟩
    rw [firsts_mask hLl fun i hi => by rw [getL _ _ hi]; rfl] at r2
    rw [rawShl]
    simp only [hal, ne_eq, not_true_eq_false, if_false]
    exact r2
  · have hk : x % 64 < 64 := Nat.mod_lt _ (by decide)
    obtain ⟨t00, ht00⟩ : ∃ t00, t00 = exes shlMasks t := ⟨_, rfl⟩
    have g00 : ∀ r, r ≠ .rcx → r ≠ .r9 → r ≠ .r10 → t00.reg r = t.reg r := fun r h1 h2 h3 => by
      rw [ht00]
      simp [shlMasks, exes, Line.exec, Misc.exec, step, i2, Ins.exec, Op2.eval, Op2.writes, Opd.get, Opd.set, upd_apply, h1, h2, h3]
    have w0 := masks_cx hc hk
    obtain ⟨u, hu⟩ : ∃ u, u = exes [.misc (.movCh 64), .misc .subChCl] t := ⟨_, rfl⟩
    rw [← hu] at w0
    have e0 : t00 = exes shlMasks.tail.tail u := by rw [ht00, hu]; rfl
    have c0 : t00.reg .rcx = cx (x % 64) := by
      rw [e0]
      simp [shlMasks, exes, Line.exec, Misc.exec, step, i2, Ins.exec, Op2.eval, Op2.writes, Opd.get, Opd.set, upd_apply, w0]
    have c10 : t00.reg .r10 = lowMask (x % 64) := by
      rw [e0]
      simp [shlMasks, exes, Line.exec, Misc.exec, step, i2, Ins.exec, Op2.eval, Op2.writes, Opd.get, Opd.set, upd_apply, w0, clCount,
        cx_cl hk, lowMask]
    have c9 : t00.reg .r9 = ~~~ lowMask (x % 64) := by
      rw [e0]
      simp [shlMasks, exes, Line.exec, Misc.exec, step, i2, Ins.exec, Op2.eval, Op2.writes, Opd.get, Opd.set, upd_apply, w0, clCount,
        cx_cl hk, lowMask]
    obtain ⟨t0, ht0⟩ : ∃ t0, t0 = exes shlBase t00 := ⟨_, rfl⟩
    obtain ⟨b1, b2, b3, b4⟩ := base_run (t := t00) ((g00 _ (by decide) (by decide) (by decide)).trans h8) (by omega)
    rw [← ht0] at b1 b2 b3 b4
    have m0 : t0.mem = s.mem := b2.trans (by rw [ht00, ← m]; rfl)
    have y0 : t0.sym = s.sym := b3.trans (by rw [ht00, ← y]; rfl)
    have g0 : ∀ r, r ≠ .rax → r ≠ .rdx → r ≠ .rcx → r ≠ .r8 → r ≠ .r9 → r ≠ .r10 → t0.reg r = s.reg r := fun r h1 h2 h3 h4 h5 h6 =>
      (b4 r h1 h2).trans ((g00 r h3 h5 h6).trans (rg r h3 h4))
    have hr : run env ra (rawShlCode (bitLen q) (n64 q)) s = run env ra (R ++ (Q ++ (.ret :: (.label "rawShl_aligned" ::
        (shlBase ++ (R' ++ (Q ++ (.ret :: copyZero (n64 q))))))))) t0 := by
      rw [hcode, hrun, if_neg hal]
      simp only [List.append_assoc, List.cons_append]
      rw [run_exes _ rfl, ← ht00, run_exes _ rfl, ← ht0]
      rfl
    have hsh : ∀ i, i < n64 q → limbAt (mpn_lshift L (x % 64) 0) i = BitVec.ofNat 64 ((limbAt L i).toNat * 2 ^ (x % 64) +
        if i = 0 then 0 else (limbAt L (i - 1)).toNat / 2 ^ (64 - x % 64)) := fun i hi =>
      lshift_limb (by omega) L 0 i (Nat.two_pow_pos _) (by rw [hLl]; exact hi)
    obtain ⟨t1, e1, p1⟩ := desc_run (env := env) (ra := ra) (t := t0) (K := keepSh) (d := s.reg .rdi)
      (V := masked q (limbAt (mpn_lshift L (x % 64) 0))) (body := shlRound (n64 q)) hn (fun i t' hi hp => by
        have kp : ∀ r, keepSh r → t'.reg r = t0.reg r := fun r h => hp.regs r h
        have hdi : t'.reg .rdi = s.reg .rdi := (kp _ (by simp [keepSh])).trans
          (g0 _ (by decide) (by decide) (by decide) (by decide) (by decide) (by decide))
        have := shlRound_run (env := env) (ra := ra) (t := t') (a := s.reg .rsi) hn hi hw (by omega) hk
          ((kp _ (by simp [keepSh])).trans ((b4 _ (by decide) (by decide)).trans ((g00 _ (by decide) (by decide) (by decide)).trans h8)))
          ((kp _ (by simp [keepSh])).trans ((b4 _ (by decide) (by decide)).trans c0))
          ((kp _ (by simp [keepSh])).trans ((b4 _ (by decide) (by decide)).trans c9))
          ((kp _ (by simp [keepSh])).trans ((b4 _ (by decide) (by decide)).trans c10))
          ((kp _ (by simp [keepSh])).trans (by rw [b1, g00 _ (by decide) (by decide) (by decide), rg _ (by decide) (by decide)]))
          (mask m0 y0 (fun j hj => hj.2) hp)
        rw [hdi, masked, src m0 hi le_rfl hp, src m0 hi (Nat.sub_le _ _) hp, ← hLi i hi, ← hLi (i - 1) (by omega), ← hsh i hi] at this
        exact this) (n64 q) t0 le_rfl (.refl (fun j => by omega) t0)
    obtain ⟨s', r1, r2⟩ := part_subQ (env := env) (ra := ra) hn m0 y0 (fun r hr => by
      have : r ≠ .rax ∧ r ≠ .rdx ∧ r ≠ .rcx ∧ r ≠ .r8 ∧ r ≠ .r9 ∧ r ≠ .r10 := by
        rcases hr with h | rfl
        · have := keepShift_ne h
          exact ⟨this.1, this.2.2.1, this.2.1, this.2.2.2.1, this.2.2.2.2.1, this.2.2.2.2.2.1⟩
        · decide
      exact g0 r this.1 this.2.1 this.2.2.1 this.2.2.2.1 this.2.2.2.2.1 this.2.2.2.2.2) hdat hsd hn0 p1 _
    refine ⟨s', by rw [hr, e1, r1], ?_⟩
    rw [firsts_mask (L := mpn_lshift L (x % 64) 0) (by rw [mpn_lshift_length, hLl]) fun i hi => by rw [getL _ _ hi]; rfl] at r2
    rw [rawShl]
    simp only [hal, ne_eq, not_false_eq_true, if_true]
    exact r2

end shift

end FF.X86
