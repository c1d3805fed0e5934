import Verif.AsmShiftDo

/-!
# `parseShiftValue` of the generated assembly: which way and how far
-/

namespace FF.X86

/-- The outcome: shift as asked, the other way, or out of range. -/
inductive Cnt
  | pos (c : BitVec 64)
  | neg (c : BitVec 64)
  | big

/-- The outcome for a long normal count. -/
def cntLong (q : Nat) (l : Limbs) : Cnt :=
  if cmpGe l (maxShift q) then
    if cmpGe (rawSubRegular (rawq q) l) (maxShift q) then .big else .neg (limbAt (rawSubRegular (rawq q) l) 0)
  else .pos (limbAt l 0)

/-- The outcome for an element. -/
def cntOf (q : Nat) (u b : Elem) : Cnt :=
  if b.long then cntLong q (if b.mont then (toNormalInto q u b).longVal else b.longVal)
  else if (sx b.shortVal).toInt < 0 then if (bitLen q : Int) ≤ (-sx b.shortVal).toInt then .big else .neg (-sx b.shortVal)
  else if (bitLen q : Int) ≤ (sx b.shortVal).toInt then .big else .pos (sx b.shortVal)

theorem val_small {l : Limbs} {B : Nat} (hB : B ≤ 2 ^ 64) (h0 : 0 < l.length) :
    val l < B ↔ (limbAt l 0).toNat < B ∧ ∀ x ∈ l.tail, x = 0#64 := by
  obtain ⟨x, xs, rfl⟩ := List.exists_cons_of_ne_nil (List.ne_nil_of_length_pos h0)
  have hz : val xs = 0 ↔ ∀ y ∈ xs, y = 0#64 := by
    induction xs with
    | nil => simp
    | cons y ys ih =>
      have hW : 0 < W := by rw [← W_eq]; decide
      have : val (y :: ys) = 0 ↔ y.toNat = 0 ∧ val ys = 0 := by
        rw [val_cons]
        constructor
        · intro h
          have h2 := (Nat.add_eq_zero_iff.1 h)
          exact ⟨h2.1, (Nat.mul_eq_zero.1 h2.2).resolve_left (by omega)⟩
        · rintro ⟨a, b⟩; rw [a, b]; simp
      rw [this, ih (by simp), List.forall_mem_cons, ← BitVec.toNat_inj]
      simp
  show val (x :: xs) < B ↔ x.toNat < B ∧ ∀ y ∈ xs, y = 0#64
  rw [← hz, val_cons]
  constructor
  · intro h
    have : val xs = 0 := by
      by_contra hne
      have : W * 1 ≤ W * val xs := Nat.mul_le_mul_left _ (by omega)
      have hW : W = 2 ^ 64 := W_eq.symm
      omega
    rw [this] at h
    exact ⟨by simpa using h, this⟩
  · rintro ⟨a, b⟩; rw [b]; simpa using a

section parse

variable {q F F' k n : Nat} {ra : BitVec 64} {s t : State} {env : String → Option (State → Option State)} {r a b : Elem}
  {pos neg big : String}

/-! ## The pieces, followed by `p` -/

def s2neg (bl : Nat) (neg big : String) (p : List Line) : List Line :=
  [.misc (.neg32 .rcx), .misc (.op32 .cmp .rcx (.imm (BitVec.ofNat 32 bl)))] ++
   (.jump .ncarry big :: ([.misc (.movsx .rdx .rcx)] ++ (.jump .always neg :: p)))

def s2 (bl : Nat) (pos neg big : String) (p : List Line) : List Line :=
  [.misc (.op32 .cmp .rcx (.imm 0))] ++ (.jump .less "S2neg" :: ([.misc (.op32 .cmp .rcx (.imm (BitVec.ofNat 32 bl)))] ++
   (.jump .ncarry big :: ([.misc (.movsx .rdx .rcx)] ++ (.jump .always pos :: .label "S2neg" :: s2neg bl neg big p)))))

def sbbs (n : Nat) (big : String) : List Line :=
  (List.range' 1 (n - 1)).flatMap fun i => [op .mov rax (.sym .q (8 * i)), op .sbb rax (.mem .rdx (8 + 8 * i)), .jump .nzero big]

def l2neg (bl n : Nat) (pos neg big : String) (p : List Line) : List Line :=
  [op .mov rcx (.sym .q 0), op .sub rcx (.mem .rdx 8), op .cmp rcx (.imm (BitVec.ofNat 64 bl))] ++ (.jump .ncarry big ::
   ([op .mov rax (.sym .q 0), op .sub rax (.mem .rdx 8)] ++ (sbbs n big ++
   ([op .mov rdx rcx] ++ (.jump .always neg :: .label "S2" :: s2 bl pos neg big p)))))

def zeros (n : Nat) : List Line :=
  (List.range' 1 (n - 1)).flatMap fun i => [op .cmp (.mem .rdx (8 + 8 * i)) rax, .jump .nzero "L2neg"]

def l2 (bl n : Nat) (pos neg big : String) (p : List Line) : List Line :=
  [op .mov rcx (.mem .rdx 8), op .cmp rcx (.imm (BitVec.ofNat 64 bl))] ++ (.jump .ncarry "L2neg" :: ([op .xor rax rax] ++
   (zeros n ++ ([op .mov rdx rcx] ++ (.jump .always pos :: .label "L2neg" :: l2neg bl n pos neg big p)))))

theorem parse_eq (bl n : Nat) (p : List Line) : parseShift bl n pos neg big ++ p =
    [op .mov rcx (.mem .rdx 0), .misc (.bt .rcx 63)] ++ (.jump .ncarry "S2" :: ([.misc (.bt .rcx 62)] ++ (.jump .ncarry "L2" ::
      (convB n "toNormal" ++ (.label "L2" :: l2 bl n pos neg big p))))) := by
  rw [parseShift, l2, l2neg, s2, s2neg, zeros, sbbs]
  simp only [List.append_assoc, List.cons_append, List.nil_append]

theorem sbbs_drop (l : String) (n : Nat) (p : List Line) : dropTo l (sbbs n big ++ p) = dropTo l p :=
  dropTo_flat l _ (fun _ _ => rfl) p _
theorem zeros_drop (l : String) (n : Nat) (p : List Line) : dropTo l (zeros n ++ p) = dropTo l p :=
  dropTo_flat l _ (fun _ _ => rfl) p _

theorem s2neg_drop (l : String) (bl : Nat) (p : List Line) : dropTo l (s2neg bl neg big p) = dropTo l p := rfl
theorem s2_drop {l : String} (h : "S2neg" ≠ l) (bl : Nat) (p : List Line) : dropTo l (s2 bl pos neg big p) = dropTo l p := by
  show (if "S2neg" = l then _ else _) = _
  rw [if_neg h]; rfl
theorem l2neg_drop {l : String} (h : "S2neg" ≠ l) (h2 : "S2" ≠ l) (bl n : Nat) (p : List Line) :
    dropTo l (l2neg bl n pos neg big p) = dropTo l p := by
  show dropTo l (sbbs n big ++ _) = _
  rw [sbbs_drop]
  show (if "S2" = l then _ else _) = _
  rw [if_neg h2, s2_drop h]
theorem l2_negDrop (bl n : Nat) (p : List Line) : dropTo "L2neg" (l2 bl n pos neg big p) = l2neg bl n pos neg big p := by
  show dropTo "L2neg" (zeros n ++ _) = _
  rw [zeros_drop]; rfl
theorem l2_s2Drop (bl n : Nat) (p : List Line) : dropTo "S2" (l2 bl n pos neg big p) = s2 bl pos neg big p := by
  show dropTo "S2" (zeros n ++ _) = _
  rw [zeros_drop]
  show dropTo "S2" (sbbs n big ++ _) = _
  rw [sbbs_drop]; rfl

/-! ## The loops -/

theorem zeros_run (p : List Line) (m i : Nat) (t : State) (h0 : t.reg .rax = 0) :
    ∃ t', Agree (fun _ => True) t t' ∧ run env ra (((List.range' i m).flatMap fun i =>
        [op .cmp (.mem .rdx (8 + 8 * i)) rax, .jump .nzero "L2neg"]) ++ p) t =
      if ∀ x ∈ (Src.arr (cell (t.reg .rdx) 1)).lims t.mem i m, x = 0#64 then run env ra p t' else run env ra (dropTo "L2neg" p) t' := by
  induction m generalizing i t with
  | zero => exact ⟨t, ⟨rfl, rfl, fun _ _ => rfl⟩, by simp [Src.lims]⟩
  | succ m ih =>
    obtain ⟨t1, ht1⟩ : ∃ t1, t1 = exes [op .cmp (.mem .rdx (8 + 8 * i)) rax] t := ⟨_, rfl⟩
    have g1 : Agree (fun _ => True) t t1 := ⟨by rw [ht1]; rfl, by rw [ht1]; rfl, fun _ _ => by rw [ht1]; rfl⟩
    have z1 : t1.fl.zf = decide (t.mem (cell (cell (t.reg .rdx) 1) i) = 0#64) := by
      have : t1.fl.zf = decide (t.mem (t.reg .rdx + BitVec.ofNat 64 (8 + 8 * i)) - t.reg .rax = 0#64) := by rw [ht1]; rfl
      rw [this, cell_tail, h0]
      simp
    rw [List.range'_succ, List.flatMap_cons, List.append_assoc]
    rw [show ∀ X : List Line, [op .cmp (.mem .rdx (8 + 8 * i)) rax, .jump .nzero "L2neg"] ++ X =
      [op .cmp (.mem .rdx (8 + 8 * i)) rax] ++ (.jump .nzero "L2neg" :: X) from fun _ => rfl]
    rw [run_exes _ rfl, ← ht1, run_jump, Cond.holds, z1, rd_cons]
    simp only [List.forall_mem_cons]
    by_cases hz : t.mem (cell (cell (t.reg .rdx) 1) i) = 0#64
    · obtain ⟨t2, g2, e2⟩ := ih (i + 1) t1 (by rw [g1.regs _ trivial, h0])
      rw [g1.regs _ trivial, g1.mem] at e2
      refine ⟨t2, g1.trans g2, ?_⟩
      rw [if_neg (by simp [hz]), e2]
      simp only [hz, true_and]
    · refine ⟨t1, g1, ?_⟩
      rw [if_pos (by simp [hz]), if_neg (fun h => hz h.1), dropTo_flat _ _ (fun _ _ => rfl)]

theorem sbbs_run (big : String) (p : List Line) (m i : Nat) (t : State) :
    ∃ t', Agree notRax t t' ∧ run env ra (((List.range' i m).flatMap fun i =>
        [op .mov rax (.sym .q (8 * i)), op .sbb rax (.mem .rdx (8 + 8 * i)), .jump .nzero big]) ++ p) t =
      if ∀ x ∈ (subNC ((Src.arr (t.sym .q)).lims t.mem i m) ((Src.arr (cell (t.reg .rdx) 1)).lims t.mem i m) (b2n t.fl.cf)).1, x = 0#64
      then run env ra p t' else run env ra (dropTo big p) t' := by
  induction m generalizing i t with
  | zero => exact ⟨t, ⟨rfl, rfl, fun _ _ => rfl⟩, by simp [Src.lims, subNC]⟩
  | succ m ih =>
    obtain ⟨t1, ht1⟩ : ∃ t1, t1 = exes [op .mov rax (.sym .q (8 * i)), op .sbb rax (.mem .rdx (8 + 8 * i))] t := ⟨_, rfl⟩
    have g1 : Agree notRax t t1 := by
      refine ⟨by rw [ht1]; rfl, by rw [ht1]; rfl, fun r hr => ?_⟩
      rw [ht1]
      show upd (upd t.reg .rax _) .rax _ r = _
      rw [upd_ne _ _ hr, upd_ne _ _ hr]
    set x := t.mem (cell (t.sym .q) i) with hx
    set y := t.mem (cell (cell (t.reg .rdx) 1) i) with hy
    have f1 : t1.fl = subFlags x y (b2n t.fl.cf) (x - y - BitVec.ofNat 64 (b2n t.fl.cf)) := by
      have : t1.fl = subFlags (t.mem (cell (t.sym .q) i)) (t.mem (t.reg .rdx + BitVec.ofNat 64 (8 + 8 * i))) (b2n t.fl.cf)
        (t.mem (cell (t.sym .q) i) - t.mem (t.reg .rdx + BitVec.ofNat 64 (8 + 8 * i)) - BitVec.ofNat 64 (b2n t.fl.cf)) := by rw [ht1]; rfl
      rw [this, cell_tail]
    have z1 : t1.fl.zf = decide (x - y - BitVec.ofNat 64 (b2n t.fl.cf) = 0#64) := by rw [f1]; rfl
    have c1 : b2n t1.fl.cf = if x.toNat < y.toNat + b2n t.fl.cf then 1 else 0 := by
      rw [f1, subFlags, b2n]; by_cases h : x.toNat < y.toNat + b2n t.fl.cf <;> simp [h]
    rw [List.range'_succ, List.flatMap_cons, List.append_assoc]
    rw [show ∀ X : List Line, [op .mov rax (.sym .q (8 * i)), op .sbb rax (.mem .rdx (8 + 8 * i)), .jump .nzero big] ++ X =
      [op .mov rax (.sym .q (8 * i)), op .sbb rax (.mem .rdx (8 + 8 * i))] ++ (.jump .nzero big :: X) from fun _ => rfl]
    rw [run_exes _ rfl, ← ht1, run_jump, Cond.holds, z1, rd_cons, rd_cons, subNC, ← hx, ← hy, ← c1]
    simp only [List.forall_mem_cons]
    by_cases hz : x - y - BitVec.ofNat 64 (b2n t.fl.cf) = 0#64
    · obtain ⟨t2, g2, e2⟩ := ih (i + 1) t1
      rw [g1.regs _ (by simp [notRax]), g1.mem, g1.sym] at e2
      refine ⟨t2, g1.trans g2, ?_⟩
      rw [decide_eq_true hz, e2, Bool.not_true, if_neg Bool.false_ne_true]
      simp only [hz, true_and]
    · refine ⟨t1, g1, ?_⟩
      rw [decide_eq_false hz, Bool.not_false, if_pos rfl, if_neg (fun h => hz h.1), dropTo_flat _ _ (fun _ _ => rfl)]

/-! ## The outcome -/

/-- Where the code goes. -/
def Cnt.goes (c : Cnt) (pos neg big : String) (p : List Line) : List Line :=
  match c with
  | .pos _ => dropTo pos p
  | .neg _ => dropTo neg p
  | .big => dropTo big p

/-- The count, if there is one, is in `rdx`. -/
def Cnt.inRdx (c : Cnt) (t : State) : Prop :=
  match c with
  | .pos x => t.reg .rdx = x
  | .neg x => t.reg .rdx = x
  | .big => True

/-- None of the labels of the code of this file. -/
def Far (l : String) : Prop := "S2neg" ≠ l ∧ "S2" ≠ l ∧ "L2neg" ≠ l ∧ "L2" ≠ l

/-- Ready to shift. -/
def Rdy (q F k : Nat) (s t : State) (r a : Elem) : Prop := Op1 q F k (virt s) t r a ∧ SavedDi s t

theorem Rdy.move {t' : State} (o : Rdy q F k s t r a) (hm : Move t t') (h1 : t'.reg .rdi = t.reg .rdi) (h2 : t'.reg .rsi = t.reg .rsi) :
    Rdy q F k s t' r a := ⟨o.1.move hm h1 h2, o.2.move hm⟩

theorem Rdy.agree {t' : State} {K : Reg → Prop} (o : Rdy q F k s t r a) (h : Agree K t t') (hK : ∀ r, notRax r → K r) : Rdy q F k s t' r a :=
  have h' : Agree notRax t t' := ⟨h.mem, h.sym, fun r hr => h.regs r (hK r hr)⟩
  o.move h'.toMove (h'.regs _ (by simp [notRax])) (h'.regs _ (by simp [notRax]))

theorem toNat_cmp32 {x : BitVec 32} {bl : Nat} (h : bl < 2 ^ 31) (fl : Flags) :
    (Op32.eval .cmp x (BitVec.ofNat 32 bl) fl).2.cf = decide (x.toNat < bl) := by
  show decide (x.toNat < (BitVec.ofNat 32 bl).toNat) = _
  rw [BitVec.toNat_ofNat, Nat.mod_eq_of_lt (by omega)]

/-- A short count. -/
theorem s2_run (hbl : bitLen q < 2 ^ 31) (hp : Far pos) (hg : Far big) (o : Rdy q F k s t r a) (u : Elem) (hb : b.long = false)
    (hx : (t.reg .rcx).setWidth 32 = b.shortVal) (p : List Line) :
    ∃ t', run env ra (s2 (bitLen q) pos neg big p) t = run env ra ((cntOf q u b).goes pos neg big p) t' ∧ (cntOf q u b).inRdx t' ∧ Rdy q F k s t' r a := by
  set x := b.shortVal with hX
  have ex := sx_toInt x
  have bx := short_bounds x
  have en := BitVec.toInt_eq_toNat_cond x
  have hxl := x.isLt
  obtain ⟨t1, ht1⟩ : ∃ t1, t1 = exes [.misc (.op32 .cmp .rcx (.imm 0))] t := ⟨_, rfl⟩
  have m1 : Move t t1 := ht1 ▸ exes_move rfl
  have f1 : t1.fl = (Op32.eval .cmp ((t.reg .rcx).setWidth 32) 0 t.fl).2 := by rw [ht1]; rfl
  have x1 : t1.reg .rcx = t.reg .rcx := by asm ht1
  have o1 : Rdy q F k s t1 r a := o.move m1 (by asm ht1) (by asm ht1)
  rw [s2, run_exes _ rfl, ← ht1, run_jump, f1, less_zero32, hx, cntOf, hb, ex]
  simp only [Bool.false_eq_true, if_false, decide_eq_true_eq, ← hX]
  by_cases hneg : x.toInt < 0
  · rw [if_pos hneg, if_pos hneg]
    show ∃ t', run env ra (s2neg (bitLen q) neg big p) t1 = _ ∧ _
    obtain ⟨t2, ht2⟩ : ∃ t2, t2 = exes [.misc (.neg32 .rcx), .misc (.op32 .cmp .rcx (.imm (BitVec.ofNat 32 (bitLen q))))] t1 := ⟨_, rfl⟩
    have m2 : Move t1 t2 := ht2 ▸ exes_move rfl
    have x2 : (t2.reg .rcx).setWidth 32 = -x := by
      have : t2.reg .rcx = (-((t1.reg .rcx).setWidth 32)).setWidth 64 := by rw [ht2]; rfl
      rw [this, x1, hx]; simp
    have f2 : t2.fl = (Op32.eval .cmp ((t2.reg .rcx).setWidth 32) (BitVec.ofNat 32 (bitLen q)) t1.fl).2 := by rw [ht2]; rfl
    have o2 : Rdy q F k s t2 r a := o1.move m2 (by asm ht2) (by asm ht2)
    have nn : (-x).toNat = (-x.toInt).toNat := by
      rw [BitVec.toNat_neg]; split at en <;> omega
    have ns : (-sx x).toInt = -x.toInt := by
      rw [BitVec.toInt_neg, ex, Int.bmod_eq_of_le (by omega) (by omega)]
    rw [s2neg, run_exes _ rfl, ← ht2, run_jump, Cond.holds, f2, toNat_cmp32 hbl, x2, nn, ns]
    by_cases hc : (bitLen q : Int) ≤ -x.toInt
    · rw [if_pos hc, if_pos (by simp; omega)]
      exact ⟨t2, rfl, trivial, o2⟩
    · rw [if_neg hc, if_neg (by simp; omega)]
      obtain ⟨t3, ht3⟩ : ∃ t3, t3 = exes [.misc (.movsx .rdx .rcx)] t2 := ⟨_, rfl⟩
      have m3 : Move t2 t3 := ht3 ▸ exes_move rfl
      have x3 : t3.reg .rdx = sx ((t2.reg .rcx).setWidth 32) := by rw [ht3]; rfl
      refine ⟨t3, by rw [run_exes _ rfl, ← ht3, run_always]; rfl, ?_, o2.move m3 (by asm ht3) (by asm ht3)⟩
      show t3.reg .rdx = _
      rw [x3, x2]
      apply BitVec.eq_of_toInt_eq
      rw [sx_toInt, ns, BitVec.toInt_neg, Int.bmod_eq_of_le (by omega) (by omega)]
  · rw [if_neg hneg, if_neg hneg]
    obtain ⟨t2, ht2⟩ : ∃ t2, t2 = exes [.misc (.op32 .cmp .rcx (.imm (BitVec.ofNat 32 (bitLen q))))] t1 := ⟨_, rfl⟩
    have m2 : Move t1 t2 := ht2 ▸ exes_move rfl
    have f2 : t2.fl = (Op32.eval .cmp ((t1.reg .rcx).setWidth 32) (BitVec.ofNat 32 (bitLen q)) t1.fl).2 := by rw [ht2]; rfl
    have x2 : t2.reg .rcx = t1.reg .rcx := by asm ht2
    have o2 : Rdy q F k s t2 r a := o1.move m2 (by asm ht2) (by asm ht2)
    rw [run_exes _ rfl, ← ht2, run_jump, Cond.holds, f2, toNat_cmp32 hbl, x1, hx]
    by_cases hc : (bitLen q : Int) ≤ x.toInt
    · rw [if_pos hc, if_pos (by simp; split at en <;> omega)]
      refine ⟨t2, ?_, trivial, o2⟩
      show run env ra (if "S2neg" = big then _ else _) _ = _
      rw [if_neg hg.1]; rfl
    · rw [if_neg hc, if_neg (by simp; split at en <;> omega)]
      obtain ⟨t3, ht3⟩ : ∃ t3, t3 = exes [.misc (.movsx .rdx .rcx)] t2 := ⟨_, rfl⟩
      have m3 : Move t2 t3 := ht3 ▸ exes_move rfl
      have x3 : t3.reg .rdx = sx ((t2.reg .rcx).setWidth 32) := by rw [ht3]; rfl
      refine ⟨t3, ?_, ?_, o2.move m3 (by asm ht3) (by asm ht3)⟩
      · rw [run_exes _ rfl, ← ht3, run_always]
        show run env ra (if "S2neg" = pos then _ else _) _ = _
        rw [if_neg hp.1]; rfl
      · show t3.reg .rdx = _
        rw [x3, x2, x1, hx]

theorem cmp_imm {x : BitVec 64} {bl : Nat} (h : bl < 2 ^ 31) :
    (subFlags x (BitVec.ofNat 64 bl) 0 (x - BitVec.ofNat 64 bl)).cf = decide (x.toNat < bl) := by
  show decide (x.toNat < (BitVec.ofNat 64 bl).toNat + 0) = _
  rw [BitVec.toNat_ofNat, Nat.mod_eq_of_lt (by omega), Nat.add_zero]

theorem cmpGe_max (hbl : bitLen q < 2 ^ 31) {l : Limbs} (h : l.length = n64 q) : cmpGe l (maxShift q) = true ↔ bitLen q ≤ val l := by
  rw [cmpGe_iff _ _ (by rw [h, maxShift, shortLimbs_length]), maxShift, shortLimbs_val, BitVec.toNat_ofNat, Nat.mod_eq_of_lt (by omega)]

/-- A long count that is not small. -/
theorem l2neg_run (hbl : bitLen q < 2 ^ 31) (h0 : 0 < n64 q) (hn : Far neg) (hg : Far big) (o : Rdy q F k s t r a)
    (hd : Data q t) {l : Limbs} (hl : rd t.mem (cell (t.reg .rdx) 1) (n64 q) = l) (hge : cmpGe l (maxShift q) = true) (p : List Line) :
    ∃ t', run env ra (l2neg (bitLen q) (n64 q) pos neg big p) t = run env ra ((cntLong q l).goes pos neg big p) t' ∧ (cntLong q l).inRdx t' ∧
      Rdy q F k s t' r a := by
  have hlen : l.length = n64 q := by rw [← hl, rd_length]
  obtain ⟨d, hD⟩ : ∃ d, d = rawSubRegular (rawq q) l := ⟨_, rfl⟩
  have dlen : d.length = n64 q := by rw [hD, rawSubRegular, mpn_sub_n, subNC_length, rawq_length]
  set x := t.mem (t.sym .q) with hx
  set y := t.mem (cell (t.reg .rdx) 1) with hy
  set T := (subNC ((Src.arr (t.sym .q)).lims t.mem 1 (n64 q - 1)) ((Src.arr (cell (t.reg .rdx) 1)).lims t.mem 1 (n64 q - 1))
    (if x.toNat < y.toNat then 1 else 0)).1 with hT
  have dval : d = (x - y) :: T := by
    obtain ⟨m, hm⟩ : ∃ m, n64 q = m + 1 := ⟨n64 q - 1, by omega⟩
    rw [hD, rawSubRegular, mpn_sub_n, ← hd.mod, ← hl, hT, hm, rd_eq_lims, rd_eq_lims, rd_cons, rd_cons, subNC, cell_zero, cell_zero, ← hx, ← hy]
    simp
  have d0 : limbAt d 0 = x - y := by rw [dval]; rfl
  have vs := val_small (l := d) (B := bitLen q) (by omega) (by omega)
  rw [d0, show d.tail = T by rw [dval]; rfl] at vs
  rw [cntLong, if_pos hge, ← hD]
  have hge' := cmpGe_max (l := d) hbl dlen
  obtain ⟨t1, ht1⟩ : ∃ t1, t1 = exes [op .mov rcx (.sym .q 0), op .sub rcx (.mem .rdx 8), op .cmp rcx (.imm (BitVec.ofNat 64 (bitLen q)))] t := ⟨_, rfl⟩
  have m1 : Move t t1 := ht1 ▸ exes_move rfl
  have x1 : t1.reg .rcx = x - y := by
    have : t1.reg .rcx = t.mem (t.sym .q + BitVec.ofNat 64 0) - t.mem (cell (t.reg .rdx) 1) := by rw [ht1]; rfl
    rw [this]; simp [hx, hy]
  have f1 : t1.fl = subFlags (t1.reg .rcx) (BitVec.ofNat 64 (bitLen q)) 0 (t1.reg .rcx - BitVec.ofNat 64 (bitLen q)) := by rw [ht1]; rfl
  have y1 : t1.reg .rdx = t.reg .rdx := by asm ht1
  have o1 : Rdy q F k s t1 r a := o.move m1 (by asm ht1) (by asm ht1)
  rw [l2neg, run_exes _ rfl, ← ht1, run_jump, Cond.holds, f1, cmp_imm hbl, x1]
  by_cases hc : (x - y).toNat < bitLen q
  swap
  · rw [if_pos (by rw [decide_eq_false hc]; rfl), if_pos (hge'.2 (by by_contra h; exact hc (vs.1 (by omega)).1))]
    refine ⟨t1, ?_, trivial, o1⟩
    show run env ra (dropTo big (sbbs (n64 q) big ++ _)) _ = _
    rw [sbbs_drop]
    show run env ra (if "S2" = big then _ else _) _ = _
    rw [if_neg hg.2.1, s2_drop hg.1]; rfl
  rw [if_neg (by rw [decide_eq_true hc]; decide)]
  obtain ⟨t2, ht2⟩ : ∃ t2, t2 = exes [op .mov rax (.sym .q 0), op .sub rax (.mem .rdx 8)] t1 := ⟨_, rfl⟩
  have m2 : Move t1 t2 := ht2 ▸ exes_move rfl
  have x2 : t2.reg .rcx = t1.reg .rcx := by asm ht2
  have y2 : t2.reg .rdx = t1.reg .rdx := by asm ht2
  have c2 : b2n t2.fl.cf = if x.toNat < y.toNat then 1 else 0 := by
    have : t2.fl.cf = decide ((t1.mem (t1.sym .q + BitVec.ofNat 64 0)).toNat < (t1.mem (cell (t1.reg .rdx) 1)).toNat + 0) := by rw [ht2]; rfl
    rw [this, m1.mem, m1.sym, y1]
    simp only [Nat.add_zero, BitVec.add_zero, ← hx, ← hy, b2n]
    by_cases h : x.toNat < y.toNat <;> simp [h]
  have o2 : Rdy q F k s t2 r a := o1.move m2 (by asm ht2) (by asm ht2)
  obtain ⟨t3, g3, e3⟩ := sbbs_run (env := env) (ra := ra) big ([op .mov rdx rcx] ++ (.jump .always neg :: .label "S2" :: s2 (bitLen q) pos neg big p))
    (n64 q - 1) 1 t2
  rw [m2.mem, m2.sym, m1.mem, m1.sym, y2, y1, c2, ← hT] at e3
  have o3 : Rdy q F k s t3 r a := o2.agree g3 fun _ h => h
  rw [run_exes _ rfl, ← ht2, sbbs, e3]
  by_cases hz : ∀ z ∈ T, z = 0#64
  · have hlt := vs.2 ⟨hc, hz⟩
    rw [if_pos hz, if_neg (fun h => by have := hge'.1 h; omega)]
    obtain ⟨t4, ht4⟩ : ∃ t4, t4 = exes [op .mov rdx rcx] t3 := ⟨_, rfl⟩
    have m4 : Move t3 t4 := ht4 ▸ exes_move rfl
    refine ⟨t4, ?_, ?_, o3.move m4 (by asm ht4) (by asm ht4)⟩
    · rw [run_exes _ rfl, ← ht4, run_always]
      show run env ra (if "S2" = neg then _ else _) _ = _
      rw [if_neg hn.2.1, s2_drop hn.1]; rfl
    · show t4.reg .rdx = _
      have : t4.reg .rdx = t3.reg .rcx := by rw [ht4]; rfl
      rw [this, g3.regs _ (by simp [notRax]), x2, x1, d0]
  · rw [if_neg hz, if_pos (hge'.2 (by by_contra h; exact hz (vs.1 (by omega)).2))]
    refine ⟨t3, ?_, trivial, o3⟩
    show run env ra (if "S2" = big then _ else _) _ = _
    rw [if_neg hg.2.1, s2_drop hg.1]; rfl

/-- A long count. -/
theorem l2_run (hbl : bitLen q < 2 ^ 31) (h0 : 0 < n64 q) (hn : Far neg) (hp : Far pos) (hg : Far big) (o : Rdy q F k s t r a)
    (hd : Data q t) {l : Limbs} (hl : rd t.mem (cell (t.reg .rdx) 1) (n64 q) = l) (p : List Line) :
    ∃ t', run env ra (l2 (bitLen q) (n64 q) pos neg big p) t = run env ra ((cntLong q l).goes pos neg big p) t' ∧ (cntLong q l).inRdx t' ∧
      Rdy q F k s t' r a := by
  have hlen : l.length = n64 q := by rw [← hl, rd_length]
  set y := t.mem (cell (t.reg .rdx) 1) with hy
  set T := (Src.arr (cell (t.reg .rdx) 1)).lims t.mem 1 (n64 q - 1) with hT
  have dval : l = y :: T := by
    obtain ⟨m, hm⟩ : ∃ m, n64 q = m + 1 := ⟨n64 q - 1, by omega⟩
    rw [← hl, hT, hm, rd_eq_lims, rd_cons, cell_zero, ← hy]
    simp
  have d0 : limbAt l 0 = y := by rw [dval]; rfl
  have vs := val_small (l := l) (B := bitLen q) (by omega) (by omega)
  rw [d0, show l.tail = T by rw [dval]; rfl] at vs
  have hge' := cmpGe_max (l := l) hbl hlen
  have neg' : ∀ {t' : State}, Agree notRax t t' ∨ (Move t t' ∧ t'.reg .rdx = t.reg .rdx) → Rdy q F k s t' r a → cmpGe l (maxShift q) = true →
      ∃ t'', run env ra (l2neg (bitLen q) (n64 q) pos neg big p) t' = run env ra ((cntLong q l).goes pos neg big p) t'' ∧ (cntLong q l).inRdx t'' ∧
        Rdy q F k s t'' r a := by
    intro t' hm o' hge
    have e : t'.mem = t.mem ∧ t'.sym = t.sym ∧ t'.reg .rdx = t.reg .rdx := by
      rcases hm with hm | ⟨hm, e⟩
      · exact ⟨hm.mem, hm.sym, hm.regs _ (by simp [notRax])⟩
      · exact ⟨hm.mem, hm.sym, e⟩
    exact l2neg_run hbl h0 hn hg o' (hd.congr e.2.1 fun _ _ => by rw [e.1]) (by rw [e.1, e.2.2]; exact hl) hge p
  obtain ⟨t1, ht1⟩ : ∃ t1, t1 = exes [op .mov rcx (.mem .rdx 8), op .cmp rcx (.imm (BitVec.ofNat 64 (bitLen q)))] t := ⟨_, rfl⟩
  have m1 : Move t t1 := ht1 ▸ exes_move rfl
  have x1 : t1.reg .rcx = y := by rw [ht1]; rfl
  have f1 : t1.fl = subFlags (t1.reg .rcx) (BitVec.ofNat 64 (bitLen q)) 0 (t1.reg .rcx - BitVec.ofNat 64 (bitLen q)) := by rw [ht1]; rfl
  have y1 : t1.reg .rdx = t.reg .rdx := by asm ht1
  have o1 : Rdy q F k s t1 r a := o.move m1 (by asm ht1) (by asm ht1)
  rw [l2, run_exes _ rfl, ← ht1, run_jump, Cond.holds, f1, cmp_imm hbl, x1]
  by_cases hc : y.toNat < bitLen q
  swap
  · rw [if_pos (by simp; omega)]
    obtain ⟨t2, e2, r2⟩ := neg' (.inr ⟨m1, y1⟩) o1 (hge'.2 (by by_contra h; exact hc (vs.1 (by omega)).1))
    refine ⟨t2, ?_, r2⟩
    rw [← e2]
    show run env ra (dropTo "L2neg" (zeros (n64 q) ++ _)) _ = _
    rw [zeros_drop]; rfl
  rw [if_neg (by simp; omega)]
  obtain ⟨t2, ht2⟩ : ∃ t2, t2 = exes [op .xor rax rax] t1 := ⟨_, rfl⟩
  have m2 : Move t1 t2 := ht2 ▸ exes_move rfl
  have a2 : t2.reg .rax = 0 := by asm ht2
  have x2 : t2.reg .rcx = t1.reg .rcx := by asm ht2
  have y2 : t2.reg .rdx = t1.reg .rdx := by asm ht2
  have o2 : Rdy q F k s t2 r a := o1.move m2 (by asm ht2) (by asm ht2)
  obtain ⟨t3, g3, e3⟩ := zeros_run (env := env) (ra := ra) ([op .mov rdx rcx] ++ (.jump .always pos :: .label "L2neg" :: l2neg (bitLen q) (n64 q) pos neg big p))
    (n64 q - 1) 1 t2 a2
  rw [m2.mem, m1.mem, y2, y1, ← hT] at e3
  have o3 : Rdy q F k s t3 r a := o2.agree g3 fun _ _ => trivial
  rw [run_exes _ rfl, ← ht2, zeros, e3]
  by_cases hz : ∀ z ∈ T, z = 0#64
  · have hlt := vs.2 ⟨hc, hz⟩
    rw [if_pos hz, cntLong, if_neg (fun h => by have := hge'.1 h; omega)]
    obtain ⟨t4, ht4⟩ : ∃ t4, t4 = exes [op .mov rdx rcx] t3 := ⟨_, rfl⟩
    have m4 : Move t3 t4 := ht4 ▸ exes_move rfl
    refine ⟨t4, ?_, ?_, o3.move m4 (by asm ht4) (by asm ht4)⟩
    · rw [run_exes _ rfl, ← ht4, run_always]
      show run env ra (if "L2neg" = pos then _ else _) _ = _
      rw [if_neg hp.2.2.1, l2neg_drop hp.1 hp.2.1]; rfl
    · show t4.reg .rdx = _
      have : t4.reg .rdx = t3.reg .rcx := by rw [ht4]; rfl
      rw [this, g3.regs _ trivial, x2, x1, d0]
  · rw [if_neg hz]
    have mm : Move t t3 ∧ t3.reg .rdx = t.reg .rdx := by
      refine ⟨⟨by rw [g3.mem, m2.mem, m1.mem], by rw [g3.sym, m2.sym, m1.sym], by rw [g3.regs _ trivial, m2.rsp, m1.rsp], fun r hr => ?_⟩, by rw [g3.regs _ trivial, y2, y1]⟩
      rw [g3.regs _ trivial, m2.saved r hr, m1.saved r hr]
    obtain ⟨t4, e4, r4⟩ := neg' (.inr mm) o3 (hge'.2 (by by_contra h; exact hz (vs.1 (by omega)).2))
    refine ⟨t4, ?_, r4⟩
    rw [← e4]; rfl

theorem Ops.rdy (o : Ops q F k (virt s) t r a b) (hs : SavedDi s t) : Rdy q F k s t r a :=
  ⟨⟨⟨o.inn, o.rsp, o.rdi, o.r⟩, o.offA, o.aliA, o.a⟩, hs⟩

/-- `parseShiftValue`. -/
theorem parse_run (h7' : FromOk q b) (hbl : bitLen q < 2 ^ 31) (h0 : 0 < n64 q) (u : Elem) (h : TArgs q F (virt s)) (o : Ops q F 3 (virt s) t r a b) (hs : SavedDi s t)
    (hN : ConvSpec q F' ra env "toNormal" (fun a e => ∃ r, e = toNormalInto q r a) (FromOk q))
    (hF : 3 + n64 q + 3 + F' ≤ F) (hb : callCells q ≤ F') (hn : Far neg) (hp : Far pos) (hg : Far big) (p : List Line) :
    ∃ t' k, 3 ≤ k ∧ k ≤ 3 + n64 q + 1 ∧ run env ra (parseShift (bitLen q) (n64 q) pos neg big ++ p) t =
      run env ra ((cntOf q u b).goes pos neg big p) t' ∧ (cntOf q u b).inRdx t' ∧ Rdy q F k s t' r a := by
  obtain ⟨t1, ht1⟩ : ∃ t1, t1 = exes [op .mov rcx (.mem .rdx 0), .misc (.bt .rcx 63)] t := ⟨_, rfl⟩
  have m1 : Move t t1 := ht1 ▸ exes_move rfl
  have x1 : t1.reg .rcx = t.mem (t.reg .rdx) := by asm ht1
  have f1 : t1.fl.cf = b.long := by
    have : t1.fl.cf = (t1.reg .rcx).getLsbD 63 := by rw [ht1]; rfl
    rw [this, x1, ← o.b]; rfl
  have o1 : Ops q F 3 (virt s) t1 r a b := o.move m1 (by asm ht1) (by asm ht1) (by asm ht1)
  rw [parse_eq, run_exes _ rfl, ← ht1, run_jump, Cond.holds, f1]
  by_cases hl : b.long = true
  swap
  · rw [if_pos (by simp [hl])]
    obtain ⟨t2, e2, r2⟩ := s2_run (env := env) (ra := ra) hbl hp hg (o1.rdy (hs.move m1)) u (by simpa using hl) (by rw [x1, ← o.b]; rfl) p
    refine ⟨t2, 3, le_rfl, by omega, ?_, r2⟩
    rw [← e2]
    show run env ra (dropTo "S2" (l2 _ _ _ _ _ _)) _ = _
    rw [l2_s2Drop]
  rw [if_neg (by simp [hl]), cntOf, if_pos hl]
  obtain ⟨t2, ht2⟩ : ∃ t2, t2 = exes [.misc (.bt .rcx 62)] t1 := ⟨_, rfl⟩
  have m2 : Move t1 t2 := ht2 ▸ exes_move rfl
  have f2 : t2.fl.cf = b.mont := by
    have : t2.fl.cf = (t1.reg .rcx).getLsbD 62 := by rw [ht2]; rfl
    rw [this, x1, ← o.b]; rfl
  have o2 : Ops q F 3 (virt s) t2 r a b := o1.move m2 (by asm ht2) (by asm ht2) (by asm ht2)
  have s2' : SavedDi s t2 := (hs.move m1).move m2
  rw [run_exes _ rfl, ← ht2, run_jump, Cond.holds, f2]
  by_cases hm : b.mont = true
  · obtain ⟨t3, b3, e3, ⟨w, rfl⟩, o3, s3⟩ := convB4 o2 s2' h hN le_rfl hF hb h7'
    rw [if_neg (by simp [hm]), if_pos hm, e3, run_label]
    obtain ⟨t4, e4, r4⟩ := l2_run (env := env) (ra := ra) hbl h0 hn hp hg (o3.rdy s3) (o3.data h (by omega)) (l := (toNormalInto q w b).longVal)
      (by rw [← o3.b]; rfl) p
    rw [ toNormal_any q b u w] at e4 r4
    exact ⟨t4, _, by omega, le_rfl, e4, r4⟩
  · rw [if_pos (by simp [hm]), if_neg hm]
    obtain ⟨t4, e4, r4⟩ := l2_run (env := env) (ra := ra) hbl h0 hn hp hg (o2.rdy s2') (o2.data h (by omega)) (l := b.longVal) (by rw [← o2.b]; rfl) p
    exact ⟨t4, 3, le_rfl, by omega, e4, r4⟩

end parse

end FF.X86
