import Verif.AsmTouch
import Verif.AsmShiftMain

/-!
# The memory accesses of the raw shifts

The addresses of the source depend on the number of whole words; each round compares it with the number of the round first.
-/

namespace FF.X86

section
variable {env : String → Option (State → Option State)} {T : String → State → List Access} {ra : BitVec 64} {R W : BitVec 64 → Prop}
  {K : List Reg} {s : State} {p : List Line}

/-- From every state with the base registers of `s` the code makes allowed accesses only. -/
def Fine (env : String → Option (State → Option State)) (T : String → State → List Access) (ra : BitVec 64) (R W : BitVec 64 → Prop)
    (K : List Reg) (s : State) (p : List Line) : Prop :=
  ∀ s', Bases K s s' → Only R W (touched env T ra p s')

theorem Fine.block (h : Fine env T ra R W K s p) (l : List Line) (hl : ∀ i ∈ l, i.plain = true ∧ i.good K s R W) :
    Fine env T ra R W K s (l ++ p) := by
  induction l with
  | nil => exact h
  | cons i l ih =>
    intro s' hs
    obtain ⟨h1, h2⟩ := hl i List.mem_cons_self
    have h3 := Line.good_safe h2 h1 hs
    rw [List.cons_append, touched_plain h1]
    exact h3.1.append (ih (fun j hj => hl j (List.mem_cons_of_mem _ hj)) _ h3.2)

theorem Fine.label (h : Fine env T ra R W K s p) (l : String) : Fine env T ra R W K s (.label l :: p) := by
  intro s' hs; rw [touched_label]; exact h s' hs

theorem Fine.jump {l : String} (h : Fine env T ra R W K s p) (h' : Fine env T ra R W K s (dropTo l p)) (c : Cond) :
    Fine env T ra R W K s (.jump c l :: p) := by
  intro s' hs; rw [touched_jump]; split
  · exact h' s' hs
  · exact h s' hs

theorem Fine.always {l : String} (h : Fine env T ra R W K s (dropTo l p)) : Fine env T ra R W K s (.jump .always l :: p) := by
  intro s' hs; rw [touched_jump]; exact h s' hs

theorem Fine.ret (hK : Reg.rsp ∈ K) (hr : R (s.reg .rsp)) : Fine env T ra R W K s (.ret :: p) := by
  intro s' hs; rw [touched_ret]; exact Only.cons (by rw [hs.1 _ hK]; exact hr) Only.nil

theorem Fine.whole (hK : Reg.rsp ∈ K) (hr : R (s.reg .rsp)) (hp : ∀ i ∈ p, i.good K s R W) : Fine env T ra R W K s p := by
  have := touched_body (env := env) (T := T) (ra := ra) hK hr [] (fun _ => rfl) (fun s' _ => by rw [touched_nil]; exact Only.nil) p hp
  rwa [List.append_nil] at this

theorem Fine.mono {K' : List Reg} (h : Fine env T ra R W K' s p) (hk : ∀ r ∈ K', r ∈ K) : Fine env T ra R W K s p :=
  fun s' hs => h s' (hs.mono hk)

/-- A comparison of a base register with a number. -/
theorem touched_cmp (r : Reg) (v : BitVec 64) (p : List Line) (s' : State) : touched env T ra (op .cmp (.reg r) (.imm v) :: p) s' =
    touched env T ra p { s' with fl := subFlags (s'.reg r) v 0 (s'.reg r - v) } := by
  rw [touched_plain rfl]; rfl

variable {n i w : Nat}

/-- Checks the text of straight lines. -/
macro "lines" : tactic => `(tactic| (
  simp (discharger := decide) [Line.plain, Line.good, op, i2, Op2.reads, Op2.writes, Opd.rd, Opd.wr, Line.scratch, Misc.acc, *]))

theorem shrRound_touch (hn : 8 * n ≤ 2 ^ 64) (hi : i < n) (hw : w < n) (h8 : s.reg .r8 = BitVec.ofNat 64 w)
    (hR : ∀ i < n, R (cell (s.reg .rsi) i)) (hW : ∀ i < n, W (cell (s.reg .rdi) i))
    (h : Fine env T ra R W [.rsp, .rdi, .rsi, .r8] s p) : Fine env T ra R W [.rsp, .rdi, .rsi, .r8] s (shrRound n i ++ p) := by
  intro s' hs
  have e8 : s'.reg .r8 = BitVec.ofNat 64 w := (hs.1 _ (by decide)).trans h8
  have hd : W (s.reg .rdi + BitVec.ofNat 64 (8 * i)) := hW i hi
  have la : ∀ i, s.reg .rsi + 8#64 * BitVec.ofNat 64 w + BitVec.ofNat 64 (8 * i) = cell (s.reg .rsi) (w + i) := load_addr _ w
  rw [show shrRound n i ++ p = op .cmp (.reg .r8) (.imm (BitVec.ofNat 64 (n - 1 - i))) :: ((shrRound n i).tail ++ p) from rfl, touched_cmp, e8]
  have cf := cmp_cf (a := w) (b := n - 1 - i) (by omega) (by omega)
  have zf := cmp_zf (a := w) (b := n - 1 - i) (by omega) (by omega)
  have hs' : ∀ f, Bases [.rsp, .rdi, .rsi, .r8] s { s' with fl := f } := fun f => hs
  have hend : Fine env T ra R W [.rsp, .rdi, .rsi, .r8] s ([op .xor rax rax, op .mov (.mem .rdi (8 * i)) rax] ++ .label "endif" :: p) :=
    (h.label _).block _ (by lines)
  rw [show (shrRound n i).tail ++ p = .jump .ncarry "if2" :: ([.misc (.load .rax .rsi .r8 (8 * i)), .misc (.shrCl .rax), op .and rax r9,
      .misc (.load .r11 .rsi .r8 (8 * (i + 1))), .misc .rolCx8, .misc (.shlCl .r11), .misc .rolCx8, op .and r11 r10, op .or rax r11,
      op .mov (.mem .rdi (8 * i)) rax] ++ .jump .always "endif" ::
        ([.label "if2", .jump .nzero "else", .misc (.load .rax .rsi .r8 (8 * i)), .misc (.shrCl .rax), op .and rax r9,
          op .mov (.mem .rdi (8 * i)) rax, .jump .always "endif", .label "else", op .xor rax rax, op .mov (.mem .rdi (8 * i)) rax] ++
          .label "endif" :: p)) from rfl, touched_jump]
  simp only [Cond.holds, cf]
  by_cases hA : w < n - 1 - i
  · rw [if_neg (by simp [hA])]
    have r1 := hR (w + i) (by omega)
    have r2 := hR (w + (i + 1)) (by omega)
    refine Fine.block (Fine.always ?_) _ (by lines) _ (hs' _)
    rw [dropTo_skip (by simp [labels]), dropTo_self]
    exact h
  · rw [if_pos (by simp [hA]), dropTo_skip (by simp [labels]), dropTo_jump]
    show Only R W (touched env T ra (dropTo "if2" (.label "if2" :: (.jump .nzero "else" :: ([.misc (.load .rax .rsi .r8 (8 * i)), .misc (.shrCl .rax),
      op .and rax r9, op .mov (.mem .rdi (8 * i)) rax] ++ .jump .always "endif" :: (.label "else" ::
        ([op .xor rax rax, op .mov (.mem .rdi (8 * i)) rax] ++ .label "endif" :: p)))))) _)
    rw [dropTo_self, touched_jump]
    simp only [Cond.holds, zf]
    by_cases hB : w = n - 1 - i
    · rw [if_neg (by simp [hB])]
      have r1 := hR (w + i) (by omega)
      clear hB zf
      refine Fine.block (Fine.always ?_) _ (by lines) _ (hs' _)
      rw [dropTo_label, if_neg (by decide), dropTo_skip (by simp [labels]), dropTo_self]
      exact h
    · rw [if_pos (by simp [hB]), dropTo_skip (by simp [labels]), dropTo_jump, dropTo_self]
      exact hend _ (hs' _)

theorem shrWords_touch (hn : 8 * n ≤ 2 ^ 64) (hi : i < n) (hw : w < n) (h8 : s.reg .r8 = BitVec.ofNat 64 w)
    (hR : ∀ i < n, R (cell (s.reg .rsi) i)) (hW : ∀ i < n, W (cell (s.reg .rdi) i))
    (h : Fine env T ra R W [.rsp, .rdi, .rsi, .r8] s p) : Fine env T ra R W [.rsp, .rdi, .rsi, .r8] s (shrWords n i ++ p) := by
  intro s' hs
  have e8 : s'.reg .r8 = BitVec.ofNat 64 w := (hs.1 _ (by decide)).trans h8
  have hd : W (s.reg .rdi + BitVec.ofNat 64 (8 * i)) := hW i hi
  have la : ∀ i, s.reg .rsi + 8#64 * BitVec.ofNat 64 w + BitVec.ofNat 64 (8 * i) = cell (s.reg .rsi) (w + i) := load_addr _ w
  rw [show shrWords n i ++ p = op .cmp (.reg .r8) (.imm (BitVec.ofNat 64 (n - 1 - i))) :: (.jump .above "if3" ::
    ([.misc (.load .rax .rsi .r8 (8 * i)), op .mov (.mem .rdi (8 * i)) rax] ++ .jump .always "endif3" :: (.label "if3" ::
      ([op .xor rax rax, op .mov (.mem .rdi (8 * i)) rax] ++ .label "endif3" :: p)))) from rfl, touched_cmp, e8, touched_jump]
  have cf := cmp_cf (a := w) (b := n - 1 - i) (by omega) (by omega)
  have zf := cmp_zf (a := w) (b := n - 1 - i) (by omega) (by omega)
  have hs' : ∀ f, Bases [.rsp, .rdi, .rsi, .r8] s { s' with fl := f } := fun f => hs
  simp only [Cond.holds, cf, zf]
  by_cases hA : w ≤ n - 1 - i
  · rw [if_neg (by simp; omega)]
    have r1 := hR (w + i) (by omega)
    refine Fine.block (Fine.always ?_) _ (by lines) _ (hs' _)
    rw [dropTo_label, if_neg (by decide), dropTo_skip (by simp [labels]), dropTo_self]
    exact h
  · rw [if_pos (by simp; omega), dropTo_skip (by simp [labels]), dropTo_jump, dropTo_self]
    exact (h.label _).block _ (by lines) _ (hs' _)

theorem rounds_touch {g : Nat → List Line} (hg : ∀ i < n, ∀ p, Fine env T ra R W K s p → Fine env T ra R W K s (g i ++ p)) :
    ∀ (l : List Nat), (∀ i ∈ l, i < n) → Fine env T ra R W K s p → Fine env T ra R W K s (l.flatMap g ++ p)
  | [], _, h => h
  | i :: l, hl, h => by
    rw [List.flatMap_cons, List.append_assoc]
    exact hg i (hl i List.mem_cons_self) _ (rounds_touch hg l (fun j hj => hl j (List.mem_cons_of_mem _ hj)) h)

theorem down_touch {g : Nat → List Line} (hg : ∀ i < n, ∀ p, Fine env T ra R W K s p → Fine env T ra R W K s (g i ++ p)) :
    ∀ m ≤ n, Fine env T ra R W K s p → Fine env T ra R W K s (down g m ++ p)
  | 0, _, h => h
  | m + 1, hm, h => by
    rw [down, List.append_assoc]
    exact hg m hm _ (down_touch hg m (by omega) h)

theorem subQ_touch (hq : ∀ i < n, R (cell (s.sym .q) i)) (hK : Reg.rdi ∈ K) (hx : Reg.rax ∉ K)
    (hd : ∀ i < n, R (cell (s.reg .rdi) i) ∧ W (cell (s.reg .rdi) i)) (h : Fine env T ra R W K s p) :
    Fine env T ra R W K s (subQIfBigger n 0 ++ p) := by
  set L := (List.range n).flatMap fun i => [op .mov rax (.sym .q (8 * i)), op (if i = 0 then .sub else .sbb) (.mem .rdi (0 + 8 * i)) rax] with hL
  set g : Nat → List Line := fun i => [op .mov rax (.mem .rdi (0 + 8 * i)), op .cmp rax (.sym .q (8 * i)), .jump .carry "done", .jump .nzero "subQ"] with hg
  have hS : Fine env T ra R W K s (L ++ .label "done" :: p) := by
    refine (h.label _).block L ?_
    rw [hL, all_flatMap]
    intro i hi
    have hi' := List.mem_range.1 hi
    have h1 : R (s.sym .q + BitVec.ofNat 64 (8 * i)) := hq i hi'
    have h2 : R (s.reg .rdi + BitVec.ofNat 64 (8 * i)) := (hd i hi').1
    have h3 : W (s.reg .rdi + BitVec.ofNat 64 (8 * i)) := (hd i hi').2
    simp [Line.plain, Line.good, op, i2, Op2.reads, Op2.writes, Opd.rd, Opd.wr, h1, h2, h3, hK, hx]
  have hl : ∀ m, labels (down g m) = [] := labels_down fun _ => rfl
  have hL' : labels L = [] := labels_flatMap (fun _ => rfl) _
  have e : subQIfBigger n 0 ++ p = down g n ++ (.label "subQ" :: (L ++ .label "done" :: p)) := by
    rw [subQIfBigger]; simp only [List.append_assoc, List.cons_append, List.nil_append]; rfl
  rw [e]
  suffices H : ∀ m ≤ n, Fine env T ra R W K s (down g m ++ (.label "subQ" :: (L ++ .label "done" :: p))) from H n (Nat.le_refl _)
  intro m
  induction m with
  | zero => intro _; exact hS.label _
  | succ m ih =>
    intro hm
    have h1 : R (s.sym .q + BitVec.ofNat 64 (8 * m)) := hq m hm
    have h2 : R (s.reg .rdi + BitVec.ofNat 64 (8 * m)) := (hd m hm).1
    rw [down, List.append_assoc]
    refine Fine.block (l := [op .mov rax (.mem .rdi (0 + 8 * m)), op .cmp rax (.sym .q (8 * m))])
      (Fine.jump (Fine.jump (ih (by omega)) ?_ .nzero) ?_ .carry) ?_
    · rw [dropTo_skip (by rw [hl]; simp), dropTo_self]; exact hS
    · rw [dropTo_jump, dropTo_skip (by rw [hl]; simp), dropTo_label, if_neg (by decide), dropTo_skip (by rw [hL']; simp), dropTo_self]; exact h
    · simp [Line.plain, Line.good, op, i2, Op2.reads, Op2.writes, Opd.rd, Opd.wr, h1, h2, hK, hx]

/-- The base registers of `rawShl` once `rdx` is the source moved down. -/
abbrev shlK : List Reg := [.rsp, .rdi, .r8, .rdx]

theorem mask_touch (hm : R (s.sym .lboMask)) (hx : Reg.rax ∉ K) : ∀ x ∈ maskLast n i, x.plain = true ∧ x.good K s R W := by
  unfold maskLast
  split
  · simp [Line.plain, Line.good, op, i2, Op2.reads, Op2.writes, Opd.rd, Opd.wr, hm, hx]
  · simp

theorem shlRound_touch {src : BitVec 64} (hn : 8 * n ≤ 2 ^ 64) (hi : i < n) (hw : w < n) (h8 : s.reg .r8 = BitVec.ofNat 64 w)
    (hx : s.reg .rdx = src - BitVec.ofNat 64 (8 * w))
    (hR : ∀ i < n, R (cell src i)) (hm : R (s.sym .lboMask)) (hW : ∀ i < n, W (cell (s.reg .rdi) i))
    (h : Fine env T ra R W shlK s p) : Fine env T ra R W shlK s (shlRound n i ++ p) := by
  intro s' hs
  have e8 : s'.reg .r8 = BitVec.ofNat 64 w := (hs.1 _ (by decide)).trans h8
  have hd : W (s.reg .rdi + BitVec.ofNat 64 (8 * i)) := hW i hi
  have la : ∀ j, w ≤ j → s.reg .rdx + BitVec.ofNat 64 (8 * j) = cell src (j - w) := fun j hj => by
    rw [hx, cell, show 8 * j = 8 * w + 8 * (j - w) by omega, BitVec.ofNat_add, ← BitVec.add_assoc, BitVec.sub_add_cancel]
  have hmask := mask_touch (W := W) (K := shlK) (n := n) (i := i) hm (by decide)
  have lm := labels_maskLast n i
  have cf := cmp_cf (a := w) (b := i) (by omega) (by omega)
  have zf := cmp_zf (a := w) (b := i) (by omega) (by omega)
  have hs' : ∀ f, Bases shlK s { s' with fl := f } := fun f => hs
  have e : shlRound n i ++ p = op .cmp (.reg .r8) (.imm (BitVec.ofNat 64 i)) :: (.jump .ncarry "if2" ::
      ([op .mov rax (.mem .rdx (8 * i)), .misc (.shlCl .rax), op .and rax r9,
        op .mov r11 (.mem .rdx (8 * (i - 1))), .misc .rolCx8, .misc (.shrCl .r11), .misc .rolCx8, op .and r11 r10, op .or rax r11] ++
       (maskLast n i ++ ([op .mov (.mem .rdi (8 * i)) rax] ++ .jump .always "endif" :: (.label "if2" :: (.jump .nzero "else" ::
        ([op .mov rax (.mem .rdx (8 * i)), .misc (.shlCl .rax), op .and rax r9] ++ (maskLast n i ++ ([op .mov (.mem .rdi (8 * i)) rax] ++
          .jump .always "endif" :: (.label "else" :: ([op .xor rax rax, op .mov (.mem .rdi (8 * i)) rax] ++ .label "endif" :: p))))))))))) := by
    simp only [shlRound, List.append_assoc, List.cons_append, List.nil_append]
  rw [e, touched_cmp, e8, touched_jump]
  simp only [Cond.holds, cf]
  by_cases hA : w < i
  · rw [if_neg (by simp [hA])]
    have r1 : R (s.reg .rdx + BitVec.ofNat 64 (8 * i)) := by rw [la i (by omega)]; exact hR _ (by omega)
    have r2 : R (s.reg .rdx + BitVec.ofNat 64 (8 * (i - 1))) := by rw [la _ (by omega)]; exact hR _ (by omega)
    clear hx
    refine Fine.block (Fine.block (Fine.block (Fine.always ?_) _ (by lines)) _ hmask) _ (by lines) _ (hs' _)
    rw [dropTo_label, if_neg (by decide), dropTo_jump, dropTo_skip (by simp [labels]), dropTo_skip (by rw [lm]; simp), dropTo_skip (by simp [labels]), dropTo_jump,
      dropTo_label, if_neg (by decide), dropTo_skip (by simp [labels]), dropTo_self]
    exact h
  · rw [if_pos (by simp [hA]), dropTo_skip (by simp [labels]), dropTo_skip (by rw [lm]; simp), dropTo_skip (by simp [labels]), dropTo_jump, dropTo_self,
      touched_jump]
    simp only [Cond.holds, zf]
    by_cases hB : w = i
    · rw [if_neg (by simp [hB])]
      have r1 : R (s.reg .rdx + BitVec.ofNat 64 (8 * i)) := by rw [la i (by omega)]; exact hR _ (by omega)
      clear hB zf cf hx
      refine Fine.block (Fine.block (Fine.block (Fine.always ?_) _ (by lines)) _ hmask) _ (by lines) _ (hs' _)
      rw [dropTo_label, if_neg (by decide), dropTo_skip (by simp [labels]), dropTo_self]
      exact h
    · rw [if_pos (by simp [hB]), dropTo_skip (by simp [labels]), dropTo_skip (by rw [lm]; simp), dropTo_skip (by simp [labels]), dropTo_jump, dropTo_self]
      exact (h.label _).block _ (by lines) _ (hs' _)

theorem shlWords_touch {src : BitVec 64} (hn : 8 * n ≤ 2 ^ 64) (hi : i < n) (hw : w < n) (h8 : s.reg .r8 = BitVec.ofNat 64 w)
    (hx : s.reg .rdx = src - BitVec.ofNat 64 (8 * w))
    (hR : ∀ i < n, R (cell src i)) (hm : R (s.sym .lboMask)) (hW : ∀ i < n, W (cell (s.reg .rdi) i))
    (h : Fine env T ra R W shlK s p) : Fine env T ra R W shlK s (shlWords n i ++ p) := by
  intro s' hs
  have e8 : s'.reg .r8 = BitVec.ofNat 64 w := (hs.1 _ (by decide)).trans h8
  have hd : W (s.reg .rdi + BitVec.ofNat 64 (8 * i)) := hW i hi
  have la : ∀ j, w ≤ j → s.reg .rdx + BitVec.ofNat 64 (8 * j) = cell src (j - w) := fun j hj => by
    rw [hx, cell, show 8 * j = 8 * w + 8 * (j - w) by omega, BitVec.ofNat_add, ← BitVec.add_assoc, BitVec.sub_add_cancel]
  have hmask := mask_touch (W := W) (K := shlK) (n := n) (i := i) hm (by decide)
  have lm := labels_maskLast n i
  have cf := cmp_cf (a := w) (b := i) (by omega) (by omega)
  have zf := cmp_zf (a := w) (b := i) (by omega) (by omega)
  have hs' : ∀ f, Bases shlK s { s' with fl := f } := fun f => hs
  have e : shlWords n i ++ p = op .cmp (.reg .r8) (.imm (BitVec.ofNat 64 i)) :: (.jump .above "if3" ::
      ([op .mov rax (.mem .rdx (8 * i))] ++ (maskLast n i ++ ([op .mov (.mem .rdi (8 * i)) rax] ++ .jump .always "endif3" :: (.label "if3" ::
        ([op .xor rax rax, op .mov (.mem .rdi (8 * i)) rax] ++ .label "endif3" :: p)))))) := by
    simp only [shlWords, List.append_assoc, List.cons_append, List.nil_append]
  rw [e, touched_cmp, e8, touched_jump]
  simp only [Cond.holds, cf, zf]
  by_cases hA : w ≤ i
  · rw [if_neg (by simp; omega)]
    have r1 : R (s.reg .rdx + BitVec.ofNat 64 (8 * i)) := by rw [la i (by omega)]; exact hR _ (by omega)
    clear hx
    refine Fine.block (Fine.block (Fine.block (Fine.always ?_) _ (by lines)) _ hmask) _ (by lines) _ (hs' _)
    rw [dropTo_label, if_neg (by decide), dropTo_skip (by simp [labels]), dropTo_self]
    exact h
  · rw [if_pos (by simp; omega), dropTo_skip (by simp [labels]), dropTo_skip (by rw [lm]; simp), dropTo_skip (by simp [labels]), dropTo_jump, dropTo_self]
    exact (h.label _).block _ (by lines) _ (hs' _)

theorem head_touch {bl : Nat} {al : String} {B : List Line} (hbl : bl < 2 ^ 64) (hr : R (s.reg .rsp)) (hR : ∀ i < n, R (cell (s.reg .rsi) i))
    (hW : ∀ i < n, W (cell (s.reg .rdi) i)) (hB : ∀ l, l = "rawCopy" ∨ l = "rawZero" → ∀ p, dropTo l (B ++ p) = dropTo l p)
    (h : ∀ t : State, (∀ r, r ≠ .rcx → r ≠ .r8 → t.reg r = s.reg r) → t.sym = s.sym → t.reg .r8 = BitVec.ofNat 64 ((s.reg .rdx).toNat / 64) →
      (s.reg .rdx).toNat < bl → Only R W (touched env T ra (dropTo al (B ++ copyZero n)) t) ∧ Only R W (touched env T ra (B ++ copyZero n) t)) :
    Only R W (touched env T ra (shiftHead bl al ++ (B ++ copyZero n)) s) := by
  have hx : s.reg .rdx = BitVec.ofNat 64 (s.reg .rdx).toNat := by simp
  have hx64 : (s.reg .rdx).toNat < 2 ^ 64 := (s.reg .rdx).isLt
  have hcz : Fine env T ra R W [.rsp, .rdi, .rsi] s (rawCopy n ++ .label "rawZero" :: rawZero n) := by
    refine Fine.whole (by decide) hr ?_
    have hR' : ∀ i < n, R (s.reg .rsi + BitVec.ofNat 64 (8 * i)) := hR
    have hW' : ∀ i < n, W (s.reg .rdi + BitVec.ofNat 64 (8 * i)) := hW
    simp only [rawCopy, rawZero, List.forall_mem_append, List.forall_mem_cons, all_code, all_flatMap]
    simp +contextual [Line.good, i2, Op2.reads, Op2.writes, Opd.rd, Opd.wr, hR', hW']
  have hz : Fine env T ra R W [.rsp, .rdi, .rsi] s (rawZero n) := by
    refine Fine.whole (by decide) hr ?_
    have hW' : ∀ i < n, W (s.reg .rdi + BitVec.ofNat 64 (8 * i)) := hW
    simp only [rawZero, List.forall_mem_append, List.forall_mem_cons, all_code, all_flatMap]
    simp +contextual [Line.good, i2, Op2.reads, Op2.writes, Opd.rd, Opd.wr, hW']
  have hs : ∀ f, Bases [.rsp, .rdi, .rsi] s { s with fl := f } := fun f => ⟨fun _ _ => rfl, rfl⟩
  set L : List Line := [op .mov r8 rdx, .misc (.shr .r8 6), op .mov rcx rdx, op .and rcx (.imm 0x3F)] with hL
  rw [show shiftHead bl al ++ (B ++ copyZero n) = op .cmp (.reg .rdx) (.imm 0) :: (.jump .zero "rawCopy" :: (op .cmp (.reg .rdx) (.imm (BitVec.ofNat 64 bl)) ::
    (.jump .ncarry "rawZero" :: (L ++ (.jump .zero al :: (B ++ copyZero n)))))) from rfl, touched_cmp, touched_jump]
  split
  · rw [show op .cmp (.reg .rdx) (.imm (BitVec.ofNat 64 bl)) :: (.jump .ncarry "rawZero" :: (L ++ (.jump .zero al :: (B ++ copyZero n)))) =
      [op .cmp (.reg .rdx) (.imm (BitVec.ofNat 64 bl)), .jump .ncarry "rawZero"] ++ (L ++ (.jump .zero al :: (B ++ copyZero n))) from rfl,
      dropTo_skip (by simp [labels]), dropTo_skip (by simp [labels, hL]), dropTo_jump, hB _ (.inl rfl), drop_copy]
    exact hcz _ (hs _)
  · rw [touched_cmp, touched_jump]
    split
    · rw [dropTo_skip (by simp [labels, hL]), dropTo_jump, hB _ (.inr rfl), drop_zero]
      exact hz _ (hs _)
    · rename_i hc
      have cf := cmp_cf (a := (s.reg .rdx).toNat) (b := bl) hx64 hbl
      have hc' : ¬ (!(subFlags (s.reg .rdx) (BitVec.ofNat 64 bl) 0 (s.reg .rdx - BitVec.ofNat 64 bl)).cf) = true := hc
      rw [hx, cf] at hc'
      have hlt : (s.reg .rdx).toNat < bl := by simpa using hc'
      generalize hs1 : ({ s with fl := _ } : State) = s1
      have q1 : s1.reg = s.reg ∧ s1.sym = s.sym := by rw [← hs1]; exact ⟨rfl, rfl⟩
      rw [hL]
      simp only [List.cons_append, List.nil_append]
      rw [touched_plain rfl, touched_plain rfl, touched_plain rfl, touched_plain rfl, touched_jump]
      generalize hs2 : (op .and rcx (.imm 0x3F)).exec ((op .mov rcx rdx).exec ((Line.misc (.shr .r8 6)).exec ((op .mov r8 rdx).exec s1))) = s2
      have q2 : ∀ r, r ≠ .rcx → r ≠ .r8 → s2.reg r = s.reg r := by
        intro r h1 h2
        rw [← hs2, ← q1.1]
        simp [Line.exec, Misc.exec, step, i2, Ins.exec, Op2.eval, Op2.writes, Opd.get, Opd.set, upd_apply, h1, h2]
      have q3 : s2.sym = s.sym := by rw [← hs2]; exact q1.2
      have q4 : s2.reg .r8 = BitVec.ofNat 64 ((s.reg .rdx).toNat / 64) := by
        have : s2.reg .r8 = s1.reg .rdx >>> 6 := by rw [← hs2]; rfl
        rw [this, q1.1]
        apply BitVec.eq_of_toNat_eq
        rw [BitVec.toNat_ushiftRight, Nat.shiftRight_eq_div_pow, BitVec.toNat_ofNat]
        omega
      obtain ⟨h1, h2⟩ := h s2 q2 q3 q4 hlt
      have hnil : ∀ {l}, Only R W l → Only R W ([] ++ ([] ++ ([] ++ ([] ++ l)))) := fun h => h
      refine hnil ?_
      split
      · exact h1
      · exact h2

theorem rawShr_touch {bl : Nat} (hbl : bl ≤ 64 * n) (hn : 8 * n ≤ 2 ^ 57) (hr : R (s.reg .rsp)) (hR : ∀ i < n, R (cell (s.reg .rsi) i))
    (hW : ∀ i < n, W (cell (s.reg .rdi) i)) : Only R W (touched env T ra (rawShrCode bl n) s) := by
  set X : List Line := (List.range n).flatMap (shrRound n) with hX
  set X' : List Line := (List.range n).flatMap (shrWords n) with hX'
  have hcode : rawShrCode bl n = shiftHead bl "rawShr_aligned" ++
      ((shrMasks ++ (X ++ (.ret :: .label "rawShr_aligned" :: (X' ++ [.ret])))) ++ copyZero n) := by
    rw [rawShrCode]
    simp only [List.append_assoc, List.cons_append, List.nil_append, hX, hX']
  have dX : ∀ l, l ≠ "if2" → l ≠ "else" → l ≠ "endif" → ∀ p, dropTo l (X ++ p) = dropTo l p := fun l h1 h2 h3 p =>
    drop_rounds (fun i => by simp [shrRound, labels, h1, h2, h3]) _ p
  have dX' : ∀ l, l ≠ "if3" → l ≠ "endif3" → ∀ p, dropTo l (X' ++ p) = dropTo l p := fun l h1 h2 p =>
    drop_rounds (fun i => by simp [shrWords, labels, h1, h2]) _ p
  rw [hcode]
  refine head_touch (by omega) hr hR hW (fun l hl p => ?_) fun t h1 h2 h3 h4 => ?_
  · have h : l ≠ "if2" ∧ l ≠ "else" ∧ l ≠ "endif" ∧ l ≠ "if3" ∧ l ≠ "endif3" ∧ l ≠ "rawShr_aligned" := by rcases hl with rfl | rfl <;> decide
    simp only [List.append_assoc, List.cons_append]
    rw [dropTo_skip (by simp [labels, shrMasks]), dX l h.1 h.2.1 h.2.2.1]
    show dropTo l (.label "rawShr_aligned" :: _) = _
    rw [dropTo_label, if_neg (fun e => h.2.2.2.2.2 e.symm), dX' l h.2.2.2.1 h.2.2.2.2.1]
    rfl
  · have e1 : t.reg .rsi = s.reg .rsi := h1 _ (by decide) (by decide)
    have e2 : t.reg .rdi = s.reg .rdi := h1 _ (by decide) (by decide)
    have e3 : t.reg .rsp = s.reg .rsp := h1 _ (by decide) (by decide)
    have hw : (s.reg .rdx).toNat / 64 < n := by omega
    have hret : ∀ p, Fine env T ra R W [.rsp, .rdi, .rsi, .r8] t (.ret :: p) := fun p => Fine.ret (by decide) (by rw [e3]; exact hr)
    have f1 : ∀ p, Fine env T ra R W [.rsp, .rdi, .rsi, .r8] t p → Fine env T ra R W [.rsp, .rdi, .rsi, .r8] t (X ++ p) := fun p hp =>
      rounds_touch (fun i hi p hp => shrRound_touch (by omega) hi hw h3 (by rw [e1]; exact hR) (by rw [e2]; exact hW) hp) _ (fun i hi => List.mem_range.1 hi) hp
    have f2 : ∀ p, Fine env T ra R W [.rsp, .rdi, .rsi, .r8] t p → Fine env T ra R W [.rsp, .rdi, .rsi, .r8] t (X' ++ p) := fun p hp =>
      rounds_touch (fun i hi p hp => shrWords_touch (by omega) hi hw h3 (by rw [e1]; exact hR) (by rw [e2]; exact hW) hp) _ (fun i hi => List.mem_range.1 hi) hp
    simp only [List.append_assoc, List.cons_append, List.nil_append]
    constructor
    · rw [dropTo_skip (by simp [labels, shrMasks]), dX _ (by decide) (by decide) (by decide)]
      show Only R W (touched env T ra (dropTo "rawShr_aligned" (.label "rawShr_aligned" :: _)) t)
      rw [dropTo_self]
      exact f2 _ (hret _) t (Bases.refl _ _)
    · exact (f1 _ (hret _)).block _ (by rw [shrMasks]; lines) t (Bases.refl _ _)

theorem rawShl_touch {bl : Nat} (hbl : bl ≤ 64 * n) (hn : 8 * n ≤ 2 ^ 57) (hr : R (s.reg .rsp)) (hR : ∀ i < n, R (cell (s.reg .rsi) i))
    (hm : R (s.sym .lboMask)) (hq : ∀ i < n, R (cell (s.sym .q) i))
    (hd : ∀ i < n, R (cell (s.reg .rdi) i) ∧ W (cell (s.reg .rdi) i)) : Only R W (touched env T ra (rawShlCode bl n) s) := by
  set X : List Line := down (shlRound n) n with hX
  set X' : List Line := down (shlWords n) n with hX'
  have hcode : rawShlCode bl n = shiftHead bl "rawShl_aligned" ++
      ((shlMasks ++ (shlBase ++ (X ++ (subQIfBigger n 0 ++ (.ret :: .label "rawShl_aligned" :: (shlBase ++ (X' ++ (subQIfBigger n 0 ++ [.ret])))))))) ++
        copyZero n) := by
    rw [rawShlCode]
    simp only [List.append_assoc, List.cons_append, List.nil_append, hX, hX']
  have ld : ∀ (l : String) (g : Nat → List Line), (∀ i, l ∉ labels (g i)) → ∀ m, l ∉ labels (down g m) := by
    intro l g h m
    induction m with
    | zero => simp [down, labels]
    | succ m ih => rw [down, labels_append, List.mem_append]; exact not_or.2 ⟨h m, ih⟩
  have dX : ∀ l, l ≠ "if2" → l ≠ "else" → l ≠ "endif" → ∀ p, dropTo l (X ++ p) = dropTo l p := fun l h1 h2 h3 p =>
    dropTo_skip (ld l _ (fun i => by simp only [shlRound, labels_append, labels_maskLast]; simp [labels, h1, h2, h3]) _) p
  have dX' : ∀ l, l ≠ "if3" → l ≠ "endif3" → ∀ p, dropTo l (X' ++ p) = dropTo l p := fun l h1 h2 p =>
    dropTo_skip (ld l _ (fun i => by simp only [shlWords, labels_append, labels_maskLast]; simp [labels, h1, h2]) _) p
  have dQ : ∀ l, l ≠ "subQ" → l ≠ "done" → ∀ p, dropTo l (subQIfBigger n 0 ++ p) = dropTo l p := fun l h1 h2 p =>
    dropTo_skip (by rw [labels_subQ]; simp [h1, h2]) p
  rw [hcode]
  refine head_touch (by omega) hr hR (fun i hi => (hd i hi).2) (fun l hl p => ?_) fun t h1 h2 h3 h4 => ?_
  · have h : l ≠ "if2" ∧ l ≠ "else" ∧ l ≠ "endif" ∧ l ≠ "if3" ∧ l ≠ "endif3" ∧ l ≠ "rawShl_aligned" ∧ l ≠ "subQ" ∧ l ≠ "done" := by
      rcases hl with rfl | rfl <;> decide
    simp only [List.append_assoc, List.cons_append]
    rw [dropTo_skip (by simp [labels, shlMasks]), dropTo_skip (by simp [labels, shlBase]), dX l h.1 h.2.1 h.2.2.1, dQ l h.2.2.2.2.2.2.1 h.2.2.2.2.2.2.2]
    show dropTo l (.label "rawShl_aligned" :: _) = _
    rw [dropTo_label, if_neg (fun e => h.2.2.2.2.2.1 e.symm), dropTo_skip (by simp [labels, shlBase]), dX' l h.2.2.2.1 h.2.2.2.2.1,
      dQ l h.2.2.2.2.2.2.1 h.2.2.2.2.2.2.2]
    rfl
  · have hw : (s.reg .rdx).toNat / 64 < n := by omega
    have base : ∀ (t' : State) (p : List Line), (∀ r ∈ [Reg.rsp, .rdi, .rsi, .r8], t'.reg r = t.reg r) → t'.sym = t.sym →
        (∀ u : State, u.reg .rsp = s.reg .rsp → u.reg .rdi = s.reg .rdi → u.reg .r8 = BitVec.ofNat 64 ((s.reg .rdx).toNat / 64) → u.sym = s.sym →
          u.reg .rdx = s.reg .rsi - BitVec.ofNat 64 (8 * ((s.reg .rdx).toNat / 64)) → Fine env T ra R W shlK u p) →
        Only R W (touched env T ra (shlBase ++ p) t') := by
      intro t' p g1 g2 hp
      rw [shlBase]
      simp only [List.cons_append, List.nil_append]
      rw [touched_plain rfl, touched_plain rfl, touched_plain rfl, touched_plain rfl]
      have hnil : ∀ {l}, Only R W l → Only R W ([] ++ ([] ++ ([] ++ ([] ++ l)))) := fun h => h
      refine hnil (hp _ ?_ ?_ ?_ ?_ ?_ _ (Bases.refl _ _))
      · exact (g1 .rsp (by decide)).trans (h1 _ (by decide) (by decide))
      · exact (g1 .rdi (by decide)).trans (h1 _ (by decide) (by decide))
      · exact (g1 .r8 (by decide)).trans h3
      · exact g2.trans h2
      · have : ∀ u : State, ((op .sub rdx rax).exec ((Line.misc (.shl .rax 3)).exec ((op .mov rax r8).exec ((op .mov rdx rsi).exec u)))).reg .rdx =
            u.reg .rsi - (u.reg .r8 <<< 3) := fun u => rfl
        rw [this, g1 .rsi (by decide), g1 .r8 (by decide), h3, h1 .rsi (by decide) (by decide)]
        congr 1
        apply BitVec.eq_of_toNat_eq
        rw [BitVec.toNat_shiftLeft, BitVec.toNat_ofNat, BitVec.toNat_ofNat, Nat.shiftLeft_eq]
        omega
    have hret : ∀ (u : State) p, u.reg .rsp = s.reg .rsp → Fine env T ra R W shlK u (.ret :: p) := fun u p e => Fine.ret (by decide) (by rw [e]; exact hr)
    simp only [List.append_assoc, List.cons_append, List.nil_append]
    constructor
    · rw [dropTo_skip (by simp [labels, shlMasks]), dropTo_skip (by simp [labels, shlBase]), dX _ (by decide) (by decide) (by decide), dQ _ (by decide) (by decide)]
      show Only R W (touched env T ra (dropTo "rawShl_aligned" (.label "rawShl_aligned" :: _)) t)
      rw [dropTo_self]
      refine base t _ (fun _ _ => rfl) rfl fun u u1 u2 u3 u4 u5 => ?_
      refine down_touch (n := n) (fun i hi p hp => shlWords_touch (by omega) hi hw u3 u5 hR (by rw [u4]; exact hm) (by rw [u2]; exact fun i hi => (hd i hi).2) hp)
        n (Nat.le_refl _) (subQ_touch (by rw [u4]; exact hq) (by decide) (by decide) (by rw [u2]; exact hd) (hret u _ u1))
    · have hb : Fine env T ra R W [.rsp, .rdi, .rsi, .r8] t (shlBase ++ (X ++ (subQIfBigger n 0 ++ (.ret :: .label "rawShl_aligned" ::
          (shlBase ++ (X' ++ (subQIfBigger n 0 ++ (.ret :: copyZero n)))))))) := by
        intro t' ht'
        refine base t' _ ht'.1 ht'.2 fun u u1 u2 u3 u4 u5 => ?_
        refine down_touch (n := n) (fun i hi p hp => shlRound_touch (by omega) hi hw u3 u5 hR (by rw [u4]; exact hm) (by rw [u2]; exact fun i hi => (hd i hi).2) hp)
          n (Nat.le_refl _) (subQ_touch (by rw [u4]; exact hq) (by decide) (by decide) (by rw [u2]; exact hd) (hret u _ u1))
      exact hb.block _ (by rw [shlMasks]; lines) t (Bases.refl _ _)

end

end FF.X86
