import Verif.AsmRaw

/-!
# Executing the raw listings

A loop over the limbs is executed by one lemma (`loop_run`): each iteration reads limb `i` of two sources, possibly the
carry flag, and writes limb `i` of the destination.
-/

namespace FF.X86

/-- The `n` cells of the array at `a`. -/
def rd (m : BitVec 64 → BitVec 64) (a : BitVec 64) (n : Nat) : Limbs := (List.range' 0 n).map fun i => m (cell a i)

/-! ## Cells -/

theorem cell_inj {a : BitVec 64} {i j : Nat} (hi : 8 * i < 2 ^ 64) (hj : 8 * j < 2 ^ 64) (h : cell a i = cell a j) :
    i = j := by
  unfold cell at h
  have h := (BitVec.add_right_inj a).mp h
  have h := congrArg BitVec.toNat h
  rw [BitVec.toNat_ofNat, BitVec.toNat_ofNat, Nat.mod_eq_of_lt hi, Nat.mod_eq_of_lt hj] at h
  omega

theorem cell_zero (a : BitVec 64) : cell a 0 = a := by simp [cell]

theorem cell_add (a : BitVec 64) (i j : Nat) : cell (cell a i) j = cell a (i + j) := by
  unfold cell
  rw [BitVec.add_assoc, ← BitVec.ofNat_add, ← Nat.mul_add]

theorem upd_same {α β : Type} [DecidableEq α] (f : α → β) (a : α) (b : β) : upd f a b a = b := by simp [upd]
theorem upd_ne {α β : Type} [DecidableEq α] (f : α → β) {a x : α} (b : β) (h : x ≠ a) : upd f a b x = f x := by
  simp [upd, h]

theorem rd_length (m : BitVec 64 → BitVec 64) (a : BitVec 64) (n : Nat) : (rd m a n).length = n := by simp [rd]

theorem steps_append (l₁ l₂ : List (Ins Opd)) (s : State) : steps (l₁ ++ l₂) s = steps l₂ (steps l₁ s) := by
  simp [steps, List.foldl_append]

/-! ## Sources and carry passes -/

/-- A limb source: an array in memory or given values. -/
inductive Src
  | arr (a : BitVec 64)
  | cst (f : Nat → BitVec 64)

def Src.at (m : BitVec 64 → BitVec 64) : Src → Nat → BitVec 64
  | .arr a, i => m (cell a i)
  | .cst f, i => f i

def Src.lims (m : BitVec 64 → BitVec 64) (x : Src) (k n : Nat) : Limbs := (List.range' k n).map (x.at m)

/-- Writing the cells of `d` in increasing order does not disturb cells of the source read later. -/
def Src.ok (d : BitVec 64) (k n : Nat) : Src → Prop
  | .arr a => ∀ i j, k ≤ i → i < j → j < k + n → cell a j ≠ cell d i
  | .cst _ => True

/-- A pass over two limb lists with a carry. -/
def pass (F : BitVec 64 → BitVec 64 → Bool → BitVec 64 × Bool) : Limbs → Limbs → Bool → Limbs × Bool
  | x :: xs, y :: ys, c =>
      let r := F x y c
      let p := pass F xs ys r.2
      (r.1 :: p.1, p.2)
  | _, _, c => ([], c)

/-- One iteration: limb `i` of `d` becomes `F` of limb `i` of the sources and the carry; register `w`, if given, holds it too;
the registers in `K` are kept. -/
def Iter (F : BitVec 64 → BitVec 64 → Bool → BitVec 64 × Bool) (x y : Src) (d : BitVec 64) (w : Option Reg) (K : Reg → Prop)
    (reg₀ : Reg → BitVec 64) (sym₀ : Sym → BitVec 64) (body : List (Ins Opd)) (i : Nat) (fst : Bool) : Prop :=
  ∀ s : State, (∀ r, K r → s.reg r = reg₀ r) → s.sym = sym₀ →
    (steps body s).mem
        = upd s.mem (cell d i) (F (x.at s.mem i) (y.at s.mem i) (if fst then false else s.fl.cf)).1 ∧
    (steps body s).fl.cf = (F (x.at s.mem i) (y.at s.mem i) (if fst then false else s.fl.cf)).2 ∧
    (∀ r, K r → (steps body s).reg r = s.reg r) ∧ (steps body s).sym = s.sym ∧
    ∀ t, w = some t → (steps body s).reg t = (F (x.at s.mem i) (y.at s.mem i) (if fst then false else s.fl.cf)).1

/-- What a loop leaves behind. -/
structure LoopPost (F : BitVec 64 → BitVec 64 → Bool → BitVec 64 × Bool) (x y : Src) (d : BitVec 64) (w : Option Reg)
    (K : Reg → Prop) (k m : Nat) (c : Bool) (s s' : State) : Prop where
  out : (Src.arr d).lims s'.mem k m = (pass F (x.lims s.mem k m) (y.lims s.mem k m) c).1
  carry : s'.fl.cf = (pass F (x.lims s.mem k m) (y.lims s.mem k m) c).2
  frame : ∀ a, (∀ i, k ≤ i → i < k + m → a ≠ cell d i) → s'.mem a = s.mem a
  regs : ∀ r, K r → s'.reg r = s.reg r
  sym : s'.sym = s.sym
  last : 0 < m → ∀ t, w = some t → s'.reg t = s'.mem (cell d (k + m - 1))

theorem lims_cons (m : BitVec 64 → BitVec 64) (x : Src) (k n : Nat) :
    x.lims m k (n + 1) = x.at m k :: x.lims m (k + 1) n := by
  simp [Src.lims, List.range'_succ]

theorem lims_congr {m m' : BitVec 64 → BitVec 64} {x : Src} {k n : Nat}
    (h : ∀ i, k ≤ i → i < k + n → x.at m i = x.at m' i) : x.lims m k n = x.lims m' k n := by
  unfold Src.lims
  apply List.map_congr_left
  intro i hi
  rw [List.mem_range'_1] at hi
  exact h i hi.1 hi.2

theorem LoopPost.cons {F : BitVec 64 → BitVec 64 → Bool → BitVec 64 × Bool} {x y : Src} {d : BitVec 64} {w : Option Reg}
    {K : Reg → Prop} {k m : Nat} {c : Bool} {s s1 s' : State} (hb : 8 * (k + (m + 1)) ≤ 2 ^ 64)
    (hx : x.ok d k (m + 1)) (hy : y.ok d k (m + 1)) {r : BitVec 64 × Bool}
    (hr : F (x.at s.mem k) (y.at s.mem k) c = r) (h1 : s1.mem = upd s.mem (cell d k) r.1) (h2 : s1.fl.cf = r.2)
    (h3 : ∀ t, K t → s1.reg t = s.reg t) (h4 : s1.sym = s.sym) (h5 : ∀ t, w = some t → s1.reg t = r.1)
    (key : LoopPost F x y d w K (k + 1) m s1.fl.cf s1 s') (h0 : m = 0 → s' = s1) :
    LoopPost F x y d w K k (m + 1) c s s' := by
  have ex : ∀ z : Src, z.ok d k (m + 1) → z.lims s1.mem (k + 1) m = z.lims s.mem (k + 1) m := by
    intro z hz
    apply lims_congr
    intro i h h'
    cases z with
    | cst f => rfl
    | arr a =>
      simp only [Src.at]
      rw [h1, upd_ne _ _ (hz k i (by omega) (by omega) (by omega))]
  have hp : pass F (x.lims s.mem k (m + 1)) (y.lims s.mem k (m + 1)) c
      = (r.1 :: (pass F (x.lims s1.mem (k + 1) m) (y.lims s1.mem (k + 1) m) r.2).1,
         (pass F (x.lims s1.mem (k + 1) m) (y.lims s1.mem (k + 1) m) r.2).2) := by
    rw [lims_cons, lims_cons, pass, ex x hx, ex y hy]
    simp only [hr]
  have hkd : s'.mem (cell d k) = r.1 := by
    rw [key.frame (cell d k) (fun i h h' e => by have := cell_inj (by omega) (by omega) e; omega), h1, upd_same]
  have kout := key.out
  have kcarry := key.carry
  simp only [h2] at kout kcarry
  refine ⟨?_, ?_, ?_, ?_, ?_, ?_⟩
  · rw [hp, lims_cons, kout]
    simp only [Src.at, hkd]
  · rw [hp, kcarry]
  · intro a ha
    rw [key.frame a (fun i h h' => ha i (by omega) (by omega)), h1, upd_ne _ _ (ha k (by omega) (by omega))]
  · intro r' hK; rw [key.regs r' hK, h3 r' hK]
  · rw [key.sym, h4]
  · intro _ t ht
    by_cases hm : m = 0
    · rw [h0 hm, h5 t ht, h1, show k + (m + 1) - 1 = k by omega, upd_same]
    · rw [key.last (by omega) t ht, show k + 1 + m - 1 = k + (m + 1) - 1 by omega]

theorem LoopPost.mono {F : BitVec 64 → BitVec 64 → Bool → BitVec 64 × Bool} {x y : Src} {d : BitVec 64} {w : Option Reg}
    {K K' : Reg → Prop} {k m : Nat} {c : Bool} {s s' : State} (h : LoopPost F x y d w K k m c s s')
    (hK : ∀ r, K' r → K r) : LoopPost F x y d w K' k m c s s' :=
  ⟨h.out, h.carry, h.frame, fun r hr => h.regs r (hK r hr), h.sym, h.last⟩

theorem Src.ok_tail {d : BitVec 64} {k m : Nat} {x : Src} (h : x.ok d k (m + 1)) : x.ok d (k + 1) m := by
  cases x with
  | arr a => exact fun i j h1 h2 h3 => h i j (by omega) h2 (by omega)
  | cst f => trivial

theorem loop_run {F : BitVec 64 → BitVec 64 → Bool → BitVec 64 × Bool} {x y : Src} {d : BitVec 64} {w : Option Reg}
    {K : Reg → Prop} {reg₀ : Reg → BitVec 64} {sym₀ : Sym → BitVec 64} {body : Nat → List (Ins Opd)} {fst : Nat → Bool}
    (m : Nat) : ∀ (k : Nat), 8 * (k + m) ≤ 2 ^ 64 →
    (∀ i, k ≤ i → i < k + m → Iter F x y d w K reg₀ sym₀ (body i) i (fst i)) →
    (∀ i, k < i → fst i = false) → x.ok d k m → y.ok d k m →
    ∀ s : State, (∀ r, K r → s.reg r = reg₀ r) → s.sym = sym₀ → (m = 0 → fst k = false) →
    LoopPost F x y d w K k m (if fst k then false else s.fl.cf) s (steps ((List.range' k m).flatMap body) s) := by
  induction m with
  | zero =>
    intro k _ _ _ _ _ s _ _ h0
    rw [h0 rfl]
    exact ⟨by simp [Src.lims, pass], by simp [Src.lims, pass, steps], by simp [steps], by simp [steps], by simp [steps],
      by omega⟩
  | succ m ih =>
    intro k hb hI hf hx hy s hr hs _
    obtain ⟨h1, h2, h3, h4, h5⟩ := hI k (by omega) (by omega) s hr hs
    rw [List.range'_succ, List.flatMap_cons, steps_append]
    have key := ih (k + 1) (by omega) (fun i h h' => hI i (by omega) (by omega)) (fun i h => hf i (by omega))
      (Src.ok_tail hx) (Src.ok_tail hy) (steps (body k) s)
      (fun r hK => (h3 r hK).trans (hr r hK)) (h4.trans hs) (fun _ => hf _ (by omega))
    rw [hf (k + 1) (by omega)] at key
    exact LoopPost.cons hb hx hy rfl h1 h2 h3 h4 h5 key (by rintro rfl; simp [steps])

/-! ## Addition and subtraction passes -/

/-- Addition with carry. -/
def addF (x y : BitVec 64) (c : Bool) : BitVec 64 × Bool :=
  (x + y + BitVec.ofNat 64 (b2n c), decide (2 ^ 64 ≤ x.toNat + y.toNat + b2n c))

/-- Subtraction with borrow. -/
def subF (x y : BitVec 64) (c : Bool) : BitVec 64 × Bool :=
  (x - y - BitVec.ofNat 64 (b2n c), decide (x.toNat < y.toNat + b2n c))

theorem b2n_le (c : Bool) : b2n c ≤ 1 := by cases c <;> simp [b2n]

theorem pass_addF : ∀ (xs ys : Limbs) (c : Bool), xs.length = ys.length →
    (pass addF xs ys c).1 = (addNC xs ys (b2n c)).1 ∧ b2n (pass addF xs ys c).2 = (addNC xs ys (b2n c)).2
  | [], [], c, _ => by simp [pass, addNC]
  | x :: xs, y :: ys, c, h => by
    have h1 : (x.toNat + y.toNat + b2n c) / 2 ^ 64 = b2n (addF x y c).2 := by
      have := x.isLt; have := y.isLt; have := b2n_le c
      unfold addF
      by_cases hh : 2 ^ 64 ≤ x.toNat + y.toNat + b2n c
      · simp only [hh, decide_true]; unfold b2n at *; simp only [if_true]; omega
      · simp only [hh, decide_false]; unfold b2n at *; simp only [Bool.false_eq_true, if_false]; omega
    have h2 : BitVec.ofNat 64 (x.toNat + y.toNat + b2n c) = (addF x y c).1 := by
      unfold addF
      simp [BitVec.ofNat_add]
    have ih := pass_addF xs ys (addF x y c).2 (by simpa using h)
    simp only [pass, addNC, h1, h2]
    exact ⟨by rw [ih.1], ih.2⟩

theorem pass_subF : ∀ (xs ys : Limbs) (c : Bool), xs.length = ys.length →
    (pass subF xs ys c).1 = (subNC xs ys (b2n c)).1 ∧ b2n (pass subF xs ys c).2 = (subNC xs ys (b2n c)).2
  | [], [], c, _ => by simp [pass, subNC]
  | x :: xs, y :: ys, c, h => by
    have h1 : (if x.toNat < y.toNat + b2n c then 1 else 0) = b2n (subF x y c).2 := by
      unfold subF
      by_cases hh : x.toNat < y.toNat + b2n c
      · simp only [hh, if_true, decide_true]; rfl
      · simp only [hh, if_false, decide_false]; rfl
    have ih := pass_subF xs ys (subF x y c).2 (by simpa using h)
    simp only [pass, subNC, h1]
    exact ⟨by rw [ih.1, subF], ih.2⟩

/-! ## Running lines -/

theorem run_code (env : String → Option (State → Option State)) (ra : BitVec 64) (l : List (Ins Opd)) (p : List Line) :
    ∀ s : State, run env ra (code l ++ p) s = run env ra p (steps l s) := by
  induction l with
  | nil => intro s; rfl
  | cons i l ih =>
    intro s
    show run env ra (Line.ins i :: (code l ++ p)) s = _
    rw [run]
    · exact ih _
    all_goals simp

theorem dropTo_code (x : String) (l : List (Ins Opd)) (p : List Line) : dropTo x (code l ++ p) = dropTo x p := by
  induction l with
  | nil => rfl
  | cons i l ih =>
    show dropTo x (Line.ins i :: (code l ++ p)) = _
    rw [dropTo]
    · exact ih
    · simp

/-- The two states agree on memory, labels and the registers in `K`. -/
structure Agree (K : Reg → Prop) (s s' : State) : Prop where
  mem : s'.mem = s.mem
  sym : s'.sym = s.sym
  regs : ∀ r, K r → s'.reg r = s.reg r

theorem Agree.trans {K : Reg → Prop} {s s' s'' : State} (h : Agree K s s') (h' : Agree K s' s'') : Agree K s s'' :=
  ⟨h'.mem.trans h.mem, h'.sym.trans h.sym, fun r hr => (h'.regs r hr).trans (h.regs r hr)⟩

/-- A downward unrolled loop. -/
def down {α : Type} (g : Nat → List α) : Nat → List α
  | 0 => []
  | m + 1 => g m ++ down g m

theorem flatMap_down {α : Type} (g : Nat → List α) (n : Nat) :
    (List.range n).flatMap (fun i => g (n - i - 1)) = down g n := by
  induction n with
  | zero => rfl
  | succ n ih =>
    rw [List.range_succ_eq_map, List.flatMap_cons, List.flatMap_map, down]
    rw [← ih]
    have : (fun i : Nat => g (n + 1 - i.succ - 1)) = fun i => g (n - i - 1) := by
      funext i
      rw [show n + 1 - i.succ - 1 = n - i - 1 by omega]
    rw [this]
    rfl

/-- Not the scratch register. -/
def notRax (r : Reg) : Prop := r ≠ .rax

theorem rd_succ (m : BitVec 64 → BitVec 64) (a : BitVec 64) (n : Nat) : rd m a (n + 1) = rd m a n ++ [m (cell a n)] := by
  simp [rd, List.range'_concat]

theorem val_rd_succ (m : BitVec 64 → BitVec 64) (a : BitVec 64) (n : Nat) :
    val (rd m a (n + 1)) = val (rd m a n) + W ^ n * (m (cell a n)).toNat := by
  rw [rd_succ, val_append, rd_length]; simp [val]

theorem lex_lt {u v x y P : Nat} (hu : u < P) (h : x < y) : u + P * x < v + P * y := by
  have : P * (x + 1) ≤ P * y := Nat.mul_le_mul_left _ h
  rw [Nat.mul_add, Nat.mul_one] at this
  omega

theorem lex_cmp {u v x y P : Nat} (hu : u < P) (hv : v < P) :
    compare (u + P * x) (v + P * y) = if x < y then .lt else if y < x then .gt else compare u v := by
  by_cases h1 : x < y
  · rw [if_pos h1, compare_lt_iff_lt]; exact lex_lt hu h1
  · by_cases h2 : y < x
    · rw [if_neg h1, if_pos h2, compare_gt_iff_gt]; exact lex_lt hv h2
    · have : x = y := by omega
      subst this
      rw [if_neg h1, if_neg h1]
      by_cases h3 : u < v
      · rw [compare_lt_iff_lt.mpr h3, compare_lt_iff_lt]; omega
      · by_cases h4 : v < u
        · rw [compare_gt_iff_gt.mpr h4, compare_gt_iff_gt]; omega
        · have : u = v := by omega
          subst this
          rw [compare_eq_iff_eq.mpr rfl, compare_eq_iff_eq.mpr rfl]

/-- Where a comparison ends. -/
def after (o : Ordering) (p : List Line) : List Line :=
  match o with
  | .lt => dropTo "done" p
  | .gt => dropTo "sq" p
  | .eq => p

theorem run_ins (env : String → Option (State → Option State)) (ra : BitVec 64) (i : Ins Opd) (p : List Line) (s : State) :
    run env ra (.ins i :: p) s = run env ra p (step i s) := by
  rw [run] <;> first | rfl | simp

theorem run_jump (env : String → Option (State → Option State)) (ra : BitVec 64) (c : Cond) (l : String) (p : List Line)
    (s : State) : run env ra (.jump c l :: p) s = if c.holds s.fl then run env ra (dropTo l p) s else run env ra p s := by
  rw [run]

theorem run_label (env : String → Option (State → Option State)) (ra : BitVec 64) (l : String) (p : List Line)
    (s : State) : run env ra (.label l :: p) s = run env ra p s := by
  rw [run]

theorem run_ret (env : String → Option (State → Option State)) (ra : BitVec 64) (p : List Line)
    (s : State) : run env ra (.ret :: p) s = some { s with reg := upd s.reg .rsp (s.reg .rsp + 8) } := by
  rw [run]

theorem dropTo_cmp (l : String) (m : Nat) (p : List Line) :
    dropTo l (down (fun i => Line.ins (i2 .mov rax (.mem .rdi (8 * i))) :: cmpStep i) m ++ p) = dropTo l p := by
  induction m with
  | zero => rfl
  | succ m ih => simpa [down, cmpStep, dropTo] using ih

theorem sub_eq_zero_iff (x y : BitVec 64) : x - y = 0 ↔ x = y := by
  constructor
  · intro h
    have h' : x - y + y = 0 + y := by rw [h]
    rw [BitVec.sub_add_cancel] at h'
    simpa using h'
  · rintro rfl; simp

/-- The comparison with `q` jumps to `done` if the number is below `q`, to `sq` or through if not. -/
theorem cmp_run (env : String → Option (State → Option State)) (ra : BitVec 64) (p : List Line) (m : Nat) :
    ∀ s : State, ∃ s', Agree notRax s s' ∧
      run env ra (down (fun i => Line.ins (i2 .mov rax (.mem .rdi (8 * i))) :: cmpStep i) m ++ p) s
        = run env ra (after (compare (val (rd s.mem (s.reg .rdi) m)) (val (rd s.mem (s.sym .q) m))) p) s' := by
  induction m with
  | zero => intro s; exact ⟨s, ⟨rfl, rfl, fun _ _ => rfl⟩, by simp [down, rd, after]⟩
  | succ m ih =>
    intro s
    have hx := val_lt (rd s.mem (s.reg .rdi) m)
    have hy := val_lt (rd s.mem (s.sym .q) m)
    rw [rd_length] at hx hy
    rw [val_rd_succ, val_rd_succ, lex_cmp hx hy]
    rw [down, cmpStep, List.append_assoc, List.cons_append, run_ins, List.cons_append, run_ins]
    generalize hs1 : step (i2 .cmp rax (.sym .q (8 * m))) (step (i2 .mov rax (.mem .rdi (8 * m))) s) = s1
    have hA : Agree notRax s s1 := by
      subst hs1
      exact ⟨rfl, rfl, fun r hr => upd_ne _ _ hr⟩
    have hcf : s1.fl.cf = decide ((s.mem (cell (s.reg .rdi) m)).toNat < (s.mem (cell (s.sym .q) m)).toNat) := by
      subst hs1; rfl
    have hzf : s1.fl.zf = decide (s.mem (cell (s.reg .rdi) m) = s.mem (cell (s.sym .q) m)) := by
      subst hs1
      show decide (s.mem (cell (s.reg .rdi) m) - s.mem (cell (s.sym .q) m) = 0) = _
      simp only [sub_eq_zero_iff]
    rw [List.cons_append, run_jump]
    by_cases h1 : (s.mem (cell (s.reg .rdi) m)).toNat < (s.mem (cell (s.sym .q) m)).toNat
    · refine ⟨s1, hA, ?_⟩
      rw [if_pos h1, Cond.holds, hcf, if_pos (by simpa using h1)]
      simp [dropTo, dropTo_cmp, after]
    · rw [if_neg h1, Cond.holds, hcf, if_neg (by simpa using h1), List.cons_append, run_jump, Cond.holds, hzf]
      by_cases h2 : (s.mem (cell (s.sym .q) m)).toNat < (s.mem (cell (s.reg .rdi) m)).toNat
      · refine ⟨s1, hA, ?_⟩
        have : ¬ s.mem (cell (s.reg .rdi) m) = s.mem (cell (s.sym .q) m) := by intro e; rw [e] at h2; omega
        simp [h2, this, dropTo_cmp, after]
      · have : s.mem (cell (s.reg .rdi) m) = s.mem (cell (s.sym .q) m) := BitVec.eq_of_toNat_eq (by omega)
        obtain ⟨s', hA', hr⟩ := ih s1
        refine ⟨s', hA.trans hA', ?_⟩
        rw [if_neg h2]
        simp only [this, decide_true, Bool.not_true, Bool.false_eq_true, if_false, List.nil_append]
        rw [hr, hA.mem, hA.sym, hA.regs .rdi (by simp [notRax])]

end FF.X86
