import Verif.AsmBit

/-!
# The bitwise operations of the generated assembly equal the portable ones: the blocks
-/

namespace FF.X86

section bit

variable {q F F' k n : Nat} {ra : BitVec 64} {s t : State} {env : String → Option (State → Option State)} {m : Mem} {r a b : Elem}
  {o : Op2} {o' : Op32} {f : BitVec 64 → BitVec 64 → BitVec 64} {g : BitVec 32 → BitVec 32 → BitVec 32}

/-- `o` and `o'` are the instructions of the operation `f` on 64 and `g` on 32 bits. -/
structure BitOp (o : Op2) (o' : Op32) (f : BitVec 64 → BitVec 64 → BitVec 64) (g : BitVec 32 → BitVec 32 → BitVec 32) : Prop where
  val : ∀ x y fl, (o.eval x y fl).1 = f x y
  writes : o.writes = true
  val32 : ∀ x y fl, (o'.eval x y fl).1 = g x y
  writes32 : o'.writes = true
  comm : ∀ x y, f x y = f y x
  bnd : ∀ k x y, x.toNat < 2 ^ k → y.toNat < 2 ^ k → (f x y).toNat < 2 ^ k

theorem bitOp_and : BitOp .and .and (· &&& ·) (· &&& ·) := ⟨fun _ _ _ => rfl, rfl, fun _ _ _ => rfl, rfl, BitVec.and_comm,
  fun k x y _ h => by rw [BitVec.toNat_and]; exact Nat.and_lt_two_pow _ h⟩
theorem bitOp_or : BitOp .or .or (· ||| ·) (· ||| ·) := ⟨fun _ _ _ => rfl, rfl, fun _ _ _ => rfl, rfl, BitVec.or_comm,
  fun k x y h h' => by rw [BitVec.toNat_or]; exact Nat.or_lt_two_pow h h'⟩
theorem bitOp_xor : BitOp .xor .xor (· ^^^ ·) (· ^^^ ·) := ⟨fun _ _ _ => rfl, rfl, fun _ _ _ => rfl, rfl, BitVec.xor_comm,
  fun k x y h h' => by rw [BitVec.toNat_xor]; exact Nat.xor_lt_two_pow h h'⟩

/-- The raw operation on limbs. -/
def rawBit (q : Nat) (f : BitVec 64 → BitVec 64 → BitVec 64) (x y : Limbs) : Limbs := condSub q false (maskTop q (List.zipWith f x y))

theorem rawBit_comm (h : BitOp o o' f g) (x y : Limbs) : rawBit q f x y = rawBit q f y x := by
  rw [rawBit, rawBit, List.zipWith_comm]
  congr 3
  funext a b
  exact h.comm _ _

/-- A step over one line. -/
theorem exe_op (o : Op2) (ho : o.writes = true) (d : Reg) (b : Opd) (t : State) :
    (op o (.reg d) b).exec t = { t with reg := upd t.reg d (o.eval (t.reg d) (b.get t) t.fl).1, fl := (o.eval (t.reg d) (b.get t) t.fl).2 } := by
  simp only [Line.exec, step, i2, Ins.exec, ho, if_true]
  rfl

/-- The end of a round: the mask in the last one, and the store. -/
theorem round_store (hm : t.mem (t.sym .lboMask) = lboMask q) (i : Nat) :
    ∃ t', (∀ p, run env ra (maskLast (n64 q) i ++ ([op .mov (.mem .rdi (8 + 8 * i)) rax] ++ p)) t = run env ra p t') ∧
      Round notRax (cell (t.reg .rdi) 1) i (if i = n64 q - 1 then t.reg .rax &&& lboMask q else t.reg .rax) t t' := by
  rw [maskLast]
  by_cases h : i = n64 q - 1
  · simp only [if_pos h]
    refine ⟨exes ([op .and rax (.sym .lboMask 0)] ++ [op .mov (.mem .rdi (8 + 8 * i)) rax]) t, fun p => by
      rw [← List.append_assoc, run_exes _ rfl], ?_, fun r hr => ?_, rfl⟩
    · rw [← hm, ← cell_tail]
      simp [exes, Line.exec, step, i2, Ins.exec, Op2.eval, Op2.writes, Opd.get, Opd.set, upd_apply]
    · have : r ≠ .rax := hr
      simp [exes, Line.exec, step, i2, Ins.exec, Op2.eval, Op2.writes, Opd.get, Opd.set, upd_apply, this]
  · simp only [if_neg h]
    refine ⟨exes [op .mov (.mem .rdi (8 + 8 * i)) rax] t, fun p => by rw [List.nil_append, run_exes _ rfl], ?_, fun r hr => rfl, rfl⟩
    rw [← cell_tail]
    rfl

/-- Everything but `rax` is kept. -/
theorem keeps_notRax : ∀ r, r = .rdi ∨ r = .rsp ∨ r ∈ Props.calleeSaved → notRax r := by
  rintro r (rfl | rfl | h) h' <;> [cases h'; cases h'; (subst h'; exact absurd h (by decide))]

/-- The stored limbs, given what each round computes. -/
theorem firsts_mask {V : Nat → BitVec 64} {L : Limbs} (hL : L.length = n64 q)
    (hV : ∀ i (hi : i < L.length), V i = if i = n64 q - 1 then L[i] &&& lboMask q else L[i]) : firsts V (n64 q) = maskTop q L := by
  refine List.ext_getElem (by rw [firsts_length, maskTop, List.length_set, hL]) fun i h1 h2 => ?_
  rw [firsts_length] at h1
  have e : (firsts V (n64 q))[i]'(by rw [firsts_length]; exact h1) = V i := by simp [firsts]
  rw [e, hV i (by omega)]
  have e2 : (maskTop q L)[i] = if n64 q - 1 = i then limbAt L (n64 q - 1) &&& lboMask q else L[i]'(by omega) := by
    simp only [maskTop, List.getElem_set]
  rw [e2]
  by_cases h : i = n64 q - 1
  · subst h
    rw [if_pos rfl, if_pos rfl, limbAt, List.getD_eq_getElem?_getD, List.getElem?_eq_getElem (by omega), Option.getD_some]
  · rw [if_neg h, if_neg (fun h' => h h'.symm)]

/-- Inside a routine entered in state `s`: `k` words on the stack, the result element still `r`. -/
structure Res (q F k : Nat) (s t : State) (r : Elem) : Prop where
  inn : In q F s t
  rsp : t.reg .rsp = stk (s.reg .rsp) k
  rdi : t.reg .rdi = s.reg .rdi
  r : elemAt (n64 q) t.mem (s.reg .rdi) = r

theorem Ops.res (o : Ops q F k s t r a b) : Res q F k s t r := ⟨o.inn, o.rsp, o.rdi, o.r⟩

theorem Res.data (o : Res q F k s t r) (h : TArgs q F s) (hF : k ≤ F) : Data q t := (o.inn.ok h o.rsp (F' := F - k) (by omega)).data

/-- All limbs stored: the subtraction and the end of the routine. -/
theorem bit_end {K : Reg → Prop} {V : Nat → BitVec 64} {w : Limbs} {t1 : State} (hK : ∀ r, r = .rdi ∨ r = .rsp ∨ r ∈ Props.calleeSaved → K r)
    (h : TArgs q F s) (hk : 1 ≤ k) (hF : k ≤ F) (h0 : 0 < n64 q)
    (oo : Res q F k s t r) (hp : Part K (cell (s.reg .rdi) 1) V (· < n64 q) t t1) (hw : firsts V (n64 q) = w) (p : List Line) :
    ∃ s', run env ra (subQIfBigger (n64 q) 8 ++ (leave ++ p)) t1 = some s' ∧ TRet q F s s' { r with longVal := condSub q false w } := by
  have hfit := h.ok.fits
  have rdi1 : t1.reg .rdi = s.reg .rdi := (hp.regs _ (hK _ (.inl rfl))).trans oo.rdi
  have hin : ∀ x, InArr (cell (s.reg .rdi) 1) (n64 q) x → InArr (s.reg .rdi) (n64 q + 1) x := fun x hx => hx.shift (by omega)
  have hdt := oo.data h hF
  have hd1 : Data q t1 := hdt.congr hp.sym fun x hx => hp.old x fun j hj e => by
    rw [oo.inn.sym] at hx
    exact h.dst.data x (hin x ⟨j, hj, e⟩) hx
  obtain ⟨t2, e2, v2, f2, g2, y2⟩ := subQ_run (env := env) (ra := ra) (t := t1) hd1 (by omega) h0 1 (fun i j hi hj e => by
    rw [rdi1] at e
    rw [hp.sym, oo.inn.sym] at e
    exact h.dst.data _ (hin _ ⟨j, hj, rfl⟩) (by rw [← e]; exact .inl ⟨i, hi, rfl⟩)) (leave ++ p)
  have r2 : ∀ r, r ≠ .rax → K r → t2.reg r = t.reg r := fun r h1 h2 => (g2 r h1).trans (hp.regs r h2)
  have fr : ∀ x, ¬ InArr (cell (s.reg .rdi) 1) (n64 q) x → t2.mem x = t.mem x := fun x hx => by
    rw [f2 x (by rw [rdi1]; exact hx), hp.old x fun j hj e => hx ⟨j, hj, e⟩]
  have c : Called 0 (t.reg .rdi) (n64 q + 1) t t2 := ⟨fun x _ hx => fr x fun hx' => hx (by rw [oo.rdi]; exact hin x hx'),
    fun r hr => r2 r (by rintro rfl; exact absurd hr (by decide)) (hK r (.inr (.inr hr))), r2 _ (by decide) (hK _ (.inl rfl)),
    r2 _ (by decide) (hK _ (.inr (.inl rfl))), y2.trans hp.sym⟩
  obtain ⟨s', r1, r2⟩ := leave_run (env := env) (ra := ra) (oo.inn.tcalled h oo.rsp hk (by omega) oo.rdi c) (c.rdi.trans oo.rdi) p
  refine ⟨s', e2.trans r1, ?_⟩
  rw [elemAt_tail (t := t) (F := 0) (by omega) (fun _ _ h => by obtain ⟨j, hj, _⟩ := h; omega) (fun x _ hx => fr x hx)
    (by rw [← rdi1, v2, rdi1, hp.rd, hw]), oo.r] at r2
  exact r2

theorem Ops.limA (oo : Ops q F k s t r a b) : rd t.mem (cell (t.reg .rsi) 1) (n64 q) = a.longVal := by rw [← oo.a]; rfl
theorem Ops.limB (oo : Ops q F k s t r a b) : rd t.mem (cell (t.reg .rdx) 1) (n64 q) = b.longVal := by rw [← oo.b]; rfl

/-- A limb that is still to be read. -/
theorem Part.next {V : Nat → BitVec 64} {K : Reg → Prop} {d x : BitVec 64} {i : Nat} {t' : State} (hp : Part K d V (· < i) t t') (hn : 8 * n ≤ 2 ^ 64)
    (hi : i < n) (hx : Alias x d n) : t'.mem (cell x i) = t.mem (cell x i) := by
  refine hp.src fun j hj e => ?_
  rcases hx with rfl | hx
  · have := cell_inj (by omega) (by omega) e; omega
  · exact hx i j hi (by omega) e

theorem Res.mask {V : Nat → BitVec 64} {K : Reg → Prop} {P : Nat → Prop} {t' : State} (oo : Res q F k s t r) (h : TArgs q F s) (hF : k ≤ F)
    (hP : ∀ j, P j → j < n64 q) (hp : Part K (cell (s.reg .rdi) 1) V P t t') : t'.mem (t'.sym .lboMask) = lboMask q := by
  rw [hp.sym, hp.old _ fun j hj e => ?_]
  · exact (oo.data h hF).mask
  · have : InArr (cell (s.reg .rdi) 1) (n64 q) (t.sym .lboMask) := ⟨j, hP j hj, e⟩
    refine h.dst.data _ (this.shift (by omega)) ?_
    rw [oo.inn.sym]
    simp [InData]

/-- The value stored in round `i`. -/
def masked (q : Nat) (X : Nat → BitVec 64) (i : Nat) : BitVec 64 := if i = n64 q - 1 then X i &&& lboMask q else X i

/-- Rounds that compute a word in `rax`, mask the last one and store. -/
theorem bitLoop_run {X : Nat → BitVec 64} {pre : Nat → List Line} {k₀ : Nat} (h : TArgs q F s) (hF : k ≤ F) (oo : Res q F k s t r)
    (hp : ∀ i, (pre i).all Line.plain = true)
    (hx : ∀ i t', k₀ ≤ i → i < n64 q → Part notRax (cell (s.reg .rdi) 1) (masked q X) (· < i) t t' →
      (exes (pre i) t').reg .rax = X i ∧ Agree notRax t' (exes (pre i) t')) (m j : Nat) {t' : State} (hj : k₀ ≤ j) (hm : j + m ≤ n64 q)
    (hP : Part notRax (cell (s.reg .rdi) 1) (masked q X) (· < j) t t') :
    ∃ t'', (∀ p, run env ra (((List.range' j m).flatMap fun i => pre i ++ maskLast (n64 q) i ++ [op .mov (.mem .rdi (8 + 8 * i)) rax]) ++ p) t' =
      run env ra p t'') ∧ Part notRax (cell (s.reg .rdi) 1) (masked q X) (· < j + m) t t'' := by
  have hfit := h.ok.fits
  refine asc_run (by omega) (fun i t' h0 hi hp' => ?_) m j t' hj hm hP
  obtain ⟨ea, eA⟩ := hx i t' h0 hi hp'
  have hmk := oo.mask h hF (fun j hj => by omega) hp'
  have hdi : (exes (pre i) t').reg .rdi = s.reg .rdi := by
    rw [eA.regs .rdi (by simp [notRax]), hp'.regs .rdi (by simp [notRax]), oo.rdi]
  have hr := round_store (env := env) (ra := ra) (q := q) (t := exes (pre i) t') (by rw [eA.mem, eA.sym]; exact hmk) i
  obtain ⟨t2, e2, p2⟩ := hr
  refine ⟨t2, fun p => ?_, ?_, fun r hr => (p2.regs r hr).trans (eA.regs r hr), p2.sym.trans eA.sym⟩
  · rw [List.append_assoc, List.append_assoc, run_exes _ (hp i), e2]
  · rw [p2.mem, hdi, ea, eA.mem]; rfl

/-- `binOpL1L2`. -/
theorem bitL1L2_run (ho : BitOp o o' f g) (h : TArgs q F s) (hk : 1 ≤ k) (hF : k ≤ F) (h0 : 0 < n64 q) (oo : Ops q F k s t r a b)
    (p : List Line) :
    ∃ s', run env ra (bitL1L2 o (n64 q) ++ p) t = some s' ∧ TRet q F s s' { r with longVal := rawBit q f a.longVal b.longVal } := by
  have hfit := h.ok.fits
  set X : Nat → BitVec 64 := fun i => f (t.mem (cell (cell (t.reg .rsi) 1) i)) (t.mem (cell (cell (t.reg .rdx) 1) i)) with hX
  obtain ⟨t1, e1, p1⟩ := bitLoop_run (env := env) (ra := ra) (X := X) (k₀ := 0) h hF oo.res
    (pre := fun i => [op .mov rax (.mem .rsi (8 + 8 * i)), op o rax (.mem .rdx (8 + 8 * i))]) (fun _ => rfl) (fun i t' _ hi hp => by
      have hs1 := hp.regs .rsi (by simp [notRax])
      have hs2 := hp.regs .rdx (by simp [notRax])
      have x1 := hp.next (by omega) hi oo.aliA.tail
      have x2 := hp.next (by omega) hi oo.aliB.tail
      simp only [exes, List.foldl_cons, List.foldl_nil]
      rw [exe_op .mov rfl, exe_op o ho.writes, ho.val]
      refine ⟨?_, rfl, rfl, fun r hr => ?_⟩
      · simp only [upd_same, Opd.get, Op2.eval, upd_ne _ _ (show Reg.rdx ≠ Reg.rax by decide)]
        rw [cell_tail, cell_tail, hs1, hs2, x1, x2]
      · simp only [upd_ne _ _ hr]) (n64 q) 0 le_rfl (by omega) (.refl (fun j => by omega) t)
  rw [Nat.zero_add] at p1
  obtain ⟨s', r1, r2⟩ := bit_end (env := env) (ra := ra) (w := maskTop q (List.zipWith f a.longVal b.longVal))
    keeps_notRax h hk hF h0 oo.res p1
    (firsts_mask (by rw [← oo.limA, ← oo.limB]; simp [rd_length]) fun i hi => by
      simp only [← oo.limA, ← oo.limB, List.getElem_zipWith, rd_getElem]; rfl) p
  exact ⟨s', by rw [bitL1L2, List.append_assoc, List.append_assoc, ← r1, ← e1, List.range_eq_range'], r2⟩

/-- The limb a short operand is combined with needs no mask: there is another limb above it, or the mask is full, or both operands
have no more bits than the modulus. -/
def ShortFits (q : Nat) (c : Limbs) : Prop := 2 ≤ n64 q ∨ bitLen q = 64 * n64 q ∨ 31 ≤ bitLen q ∧ val c < 2 ^ bitLen q

theorem short_bits {x : BitVec 32} (h : 0 ≤ x.toInt) : (sx x).toNat < 2 ^ 31 := by
  have h1 : x.toNat < 2 ^ 31 := by rw [BitVec.toInt_eq_toNat_cond] at h; split at h <;> omega
  have h2 : x.msb = false := by rw [BitVec.msb_eq_decide]; simp; omega
  rw [sx, BitVec.toNat_signExtend]
  simp [h2, BitVec.toNat_setWidth]
  omega

/-- The rounds with a short operand in `rax`, and the end. -/
theorem bitShort_run {w : BitVec 64} {c : Elem} {pr : Reg} (ho : BitOp o o' f g) (hn : ShortFits q c.longVal) (hw31 : w.toNat < 2 ^ 31)
    (h : TArgs q F s) (hk : 1 ≤ k) (hF : k ≤ F) (h0 : 0 < n64 q) (oo : Ops q F k s t r a b) (hw : t.reg .rax = w) (hpr : pr ≠ .rax)
    (hal : Alias (t.reg pr) (s.reg .rdi) (n64 q + 1)) (hc : rd t.mem (cell (t.reg pr) 1) (n64 q) = c.longVal) (p : List Line) :
    ∃ s', run env ra (bitShortRounds o pr (n64 q) ++ (subQIfBigger (n64 q) 8 ++ (leave ++ p))) t = some s' ∧
      TRet q F s s' { r with longVal := rawBit q f (shortLimbs q w) c.longVal } := by
  have hfit := h.ok.fits
  have hmask : n64 q = 1 → f w (t.mem (cell (cell (t.reg pr) 1) 0)) &&& lboMask q = f w (t.mem (cell (cell (t.reg pr) 1) 0)) := by
    intro h1
    rcases hn.resolve_left (by omega) with hn | ⟨hb, hv⟩
    · rw [lboMask, hn, h1]
      exact BitVec.and_allOnes
    · have e : c.longVal = [t.mem (cell (cell (t.reg pr) 1) 0)] := by rw [← hc, h1]; rfl
      rw [e] at hv
      simp only [val, Nat.mul_zero, Nat.add_zero] at hv
      have hl := ho.bnd _ _ _ (lt_of_lt_of_le hw31 (Nat.pow_le_pow_right (by decide) hb)) hv
      apply BitVec.eq_of_toNat_eq
      rw [BitVec.toNat_and, lboMask_toNat, h1, Nat.sub_self, Nat.mul_zero, Nat.sub_zero, Nat.and_two_pow_sub_one_eq_mod, Nat.mod_eq_of_lt hl]
  set X : Nat → BitVec 64 := fun i => f (if i = 0 then w else 0) (t.mem (cell (cell (t.reg pr) 1) i)) with hX
  obtain ⟨t0, ht0⟩ : ∃ t0, t0 = exes [op o rax (.mem pr 8), op .mov (.mem .rdi 8) rax] t := ⟨_, rfl⟩
  have r0 : Round notRax (cell (s.reg .rdi) 1) 0 (masked q X 0) t t0 := by
    have e : masked q X 0 = X 0 := by
      rw [masked]
      split
      · exact hmask (by omega)
      · rfl
    have e8 : ∀ x : BitVec 64, x + BitVec.ofNat 64 8 = cell (cell x 1) 0 := fun x => cell_tail x 0
    rw [ht0]
    simp only [exes, List.foldl_cons, List.foldl_nil]
    rw [exe_op o ho.writes, ho.val]
    refine ⟨?_, fun r hr => ?_, rfl⟩
    · show upd t.mem (upd t.reg .rax (f (t.reg .rax) ((Opd.mem pr 8).get t)) .rdi + BitVec.ofNat 64 8)
        (upd t.reg .rax (f (t.reg .rax) ((Opd.mem pr 8).get t)) .rax) = _
      rw [upd_same, upd_ne _ _ (by decide), e8, e, oo.rdi, hw, Opd.get, e8]
      rfl
    · exact upd_ne _ _ hr
  have p0 : Part notRax (cell (s.reg .rdi) 1) (masked q X) (· < 1) t t0 :=
    (Part.refl (P := (· < 0)) (fun j => by omega) t).step (n := n64 q) (by omega) (fun j hj => by omega) h0 r0 fun j => by omega
  obtain ⟨t1, e1, p1⟩ := bitLoop_run (env := env) (ra := ra) (X := X) (k₀ := 1) h hF oo.res
    (pre := fun i => [op .xor rax rax, op o rax (.mem pr (8 + 8 * i))]) (fun _ => rfl) (fun i t' hi0 hi hp => by
      have hs1 := hp.regs pr hpr
      have x1 := hp.next (by omega) hi hal.tail
      simp only [exes, List.foldl_cons, List.foldl_nil]
      rw [exe_op .xor rfl, exe_op o ho.writes, ho.val]
      refine ⟨?_, rfl, rfl, fun r hr => ?_⟩
      · simp only [upd_same, Opd.get, Op2.eval, upd_ne _ _ hpr]
        rw [cell_tail, hs1, x1, BitVec.xor_self, hX]
        simp only [if_neg (show i ≠ 0 by omega)]
        rfl
      · simp only [upd_ne _ _ hr]) (n64 q - 1) 1 le_rfl (by omega) p0
  rw [Nat.add_sub_cancel' h0] at p1
  obtain ⟨s', r1, r2⟩ := bit_end (env := env) (ra := ra) (w := maskTop q (List.zipWith f (shortLimbs q w) c.longVal))
    keeps_notRax h hk hF h0 oo.res p1
    (firsts_mask (by rw [← hc]; simp [rd_length, shortLimbs]; omega) fun i hi => by
      have hi' : i < n64 q := by rw [← hc] at hi; simp [rd_length, shortLimbs] at hi; omega
      have e : (shortLimbs q w)[i]'(by simp [shortLimbs]; omega) = if i = 0 then w else 0 := by
        unfold shortLimbs
        cases i <;> simp
      simp only [← hc, List.getElem_zipWith, rd_getElem, e]; rfl) p
  refine ⟨s', ?_, r2⟩
  rw [bitShortRounds, List.append_assoc, run_exes _ rfl, ← ht0, e1, r1]

end bit

end FF.X86
