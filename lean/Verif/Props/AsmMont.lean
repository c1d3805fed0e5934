import Verif.AsmMontMain
import Verif.AsmEval
import Verif.Props.Asm

/-!
# Property C55: the Montgomery routines printed by the x86-64 generator

`template n opt upper` is the listing the generator prints for `n` limbs, or `none` if one of its assertions fails.  The
theorems say that the listing is printed and that running it from any machine state leaves, in the result array, the
limbs the portable code computes.  No array has to be disjoint from another one: all stores come after all loads.
-/

namespace FF.Props

open FF FF.X86

/-- The machine is ready to call a Montgomery routine: the tables `q` and `np` hold the constants of the modulus, and
neither they nor the result array lie in the stack cells the routine uses below the stack pointer. -/
structure MontReady (q : Nat) (s : State) : Prop where
  fits : 8 * (n64 q + 8) ≤ 2 ^ 64
  table : rd s.mem (s.sym .q) (n64 q) = rawq q
  np : s.mem (s.sym .np) = np q
  stackq : ∀ i < n64 q, StackFree (frameCells (n64 q) (canOpt q)) s (cell (s.sym .q) i)
  stacknp : StackFree (frameCells (n64 q) (canOpt q)) s (s.sym .np)
  stackdi : ∀ i < n64 q, StackFree (frameCells (n64 q) (canOpt q)) s (cell (s.reg .rdi) i)

/-- The operand array at register `b` does not lie in the stack cells the routine uses. -/
def OffStack (q : Nat) (s : State) (b : Reg) : Prop :=
  ∀ i < n64 q, StackFree (frameCells (n64 q) (canOpt q)) s (cell (s.reg b) i)

/-- What a caller sees after a routine that returns the array `out` and uses `F` stack cells. -/
structure MontReturns (n F : Nat) (s s' : State) (out : Limbs) : Prop where
  out : rd s'.mem (s.reg .rdi) n = out
  frame : ∀ a, StackFree F s a → (∀ i, i < n → a ≠ cell (s.reg .rdi) i) → s'.mem a = s.mem a
  saved : ∀ r ∈ calleeSaved, s'.reg r = s.reg r
  rdi : s'.reg .rdi = s.reg .rdi
  rsp : s'.reg .rsp = s.reg .rsp + 8

theorem MontReady.env {q : Nat} {s : State} (h : MontReady q s) : Env q (n64 q) (canOpt q) s :=
  ⟨h.fits, by rw [h.table, rawq_val], h.np, h.stackq, h.stacknp, h.stackdi⟩

theorem MontReturns.of {n F q P : Nat} {s s' : State} {out : Limbs} (hq : q % 2 = 1) (h : CallPost n F q P s s')
    (h1 : out.length = n) (h2 : val out < q) (h3 : (val out * W ^ n) % q = P % q) : MontReturns n F s s' out := by
  obtain ⟨c1, c2⟩ := h.rd
  refine ⟨mont_unique hq (rd_length _ _ _) h1 c1 h2 (c2.trans h3.symm), h.frame, fun r hr => h.saved r ?_, h.rdi, h.rsp⟩
  revert hr
  cases r <;> decide

theorem mulBound {n : Nat} {q : Nat} {A B : Nat} (hA : A < W ^ n) (hB : B < q) : A * B < q * W ^ n := by
  calc A * B ≤ A * q := Nat.mul_le_mul_left _ hB.le
    _ < W ^ n * q := Nat.mul_lt_mul_of_pos_right hA (by omega)
    _ = q * W ^ n := Nat.mul_comm _ _

theorem rd_lt (m : BitVec 64 → BitVec 64) (a : BitVec 64) (n : Nat) : val (rd m a n) < W ^ n := by
  have := val_lt (rd m a n); rwa [rd_length] at this

/-- C55, product, for every odd modulus (hence every number of limbs): the second operand must be reduced. -/
theorem C55_mul {q : Nat} {s : State} (env : String → Option (State → Option State)) (ra : BitVec 64) (hq : q % 2 = 1)
    (h : MontReady q s) (ha : OffStack q s .rsi) (hb : OffStack q s .rdx) (hbq : val (rd s.mem (s.reg .rdx) (n64 q)) < q) :
    ∃ p s', template (n64 q) (canOpt q) (upperMul (n64 q) (canOpt q)) = some p ∧ run env ra p s = some s' ∧
      MontReturns (n64 q) (frameCells (n64 q) (canOpt q)) s s'
        (rawMMul q (rd s.mem (s.reg .rsi) (n64 q)) (rd s.mem (s.reg .rdx) (n64 q))) := by
  obtain ⟨p, s', h1, h2, h3⟩ := mul_run (env := env) (ra := ra) hq (n64_pos q) h.env ha hb (canOpt_add hbq)
    (mulBound (rd_lt _ _ _) hbq)
  obtain ⟨m1, m2, m3⟩ := rawMMul_spec hq (rd_length s.mem (s.reg .rsi) (n64 q)) (rd_length s.mem (s.reg .rdx) (n64 q)) hbq
  exact ⟨p, s', h1, h2, .of hq h3 m1 m2 m3⟩

/-- C55, square. -/
theorem C55_square {q : Nat} {s : State} (env : String → Option (State → Option State)) (ra : BitVec 64) (hq : q % 2 = 1)
    (h : MontReady q s) (ha : OffStack q s .rsi) (haq : val (rd s.mem (s.reg .rsi) (n64 q)) < q) :
    ∃ p s', template (n64 q) (canOpt q) (upperSquare (n64 q) (canOpt q)) = some p ∧ run env ra p s = some s' ∧
      MontReturns (n64 q) (frameCells (n64 q) (canOpt q)) s s' (rawMSquare q (rd s.mem (s.reg .rsi) (n64 q))) := by
  obtain ⟨p, s', h1, h2, h3⟩ := square_run (env := env) (ra := ra) hq (n64_pos q) h.env ha (canOpt_add haq)
    (mulBound (rd_lt _ _ _) haq)
  obtain ⟨m1, m2, m3⟩ := rawMMul_spec hq (rd_length s.mem (s.reg .rsi) (n64 q)) (rd_length s.mem (s.reg .rsi) (n64 q)) haq
  exact ⟨p, s', h1, h2, .of hq h3 m1 m2 m3⟩

/-- The operands for which the printed `rawMMul1` is right: all of them, except for 7-limb moduli of the optimised variant and, of the
other variant, for 6-limb moduli unless the first round of the product of `x` by the word `w` stays below `2^448`. -/
def OneWord (q x w : Nat) : Prop :=
  n64 q + (if canOpt q then 0 else 1) ≠ 7 ∨ (n64 q = 6 ∧ w * x + (2 ^ 64 - 1) * q < 2 ^ 448)

theorem two_pow_448 : (2 : Nat) ^ 448 = W ^ 7 := by rw [← W_eq, ← pow_mul]

theorem OneWord.mono {q x x' w w' : Nat} (hx : x ≤ x') (hw : w ≤ w') (h : OneWord q x' w') : OneWord q x w :=
  h.imp_right fun h => ⟨h.1, lt_of_le_of_lt (Nat.add_le_add_right (Nat.mul_le_mul hw hx) _) h.2⟩

/-- C55, product by one word.  Missing: 7-limb moduli of the optimised variant, and large operands for 6-limb moduli of the other one, for
which the property is false (`C55_mul1_violation`). -/
theorem C55_mul1_partial {q : Nat} {s : State} (env : String → Option (State → Option State)) (ra : BitVec 64)
    (hq : q % 2 = 1) (h7 : OneWord q (val (rd s.mem (s.reg .rsi) (n64 q))) (s.reg .rdx).toNat)
    (h : MontReady q s) (ha : OffStack q s .rsi) (haq : val (rd s.mem (s.reg .rsi) (n64 q)) < q) :
    ∃ p s', template (n64 q) (canOpt q) (upperMul1 (n64 q) (canOpt q)) = some p ∧ run env ra p s = some s' ∧
      MontReturns (n64 q) (frameCells (n64 q) (canOpt q)) s s' (rawMMul1 q (rd s.mem (s.reg .rsi) (n64 q)) (s.reg .rdx)) := by
  have hw : (s.reg .rdx).toNat < W ^ n64 q :=
    calc (s.reg .rdx).toNat < W := limb_lt _
      _ = W ^ 1 := (pow_one W).symm
      _ ≤ W ^ n64 q := Nat.pow_le_pow_right W_pos (n64_pos q)
  obtain ⟨p, s', h1, h2, h3⟩ := mul1_run (env := env) (ra := ra) hq (n64_pos q) h.env (h7.imp_right fun h => ⟨h.1, by rw [← two_pow_448, ← W_eq]; exact h.2⟩) ha (canOpt_add haq)
    (mulBound hw haq)
  obtain ⟨m1, m2, m3⟩ := rawMMul1_spec hq (b := s.reg .rdx) (rd_length s.mem (s.reg .rsi) (n64 q)) haq
  exact ⟨p, s', h1, h2, .of hq h3 m1 m2 (m3.trans (by rw [Nat.mul_comm]))⟩

/-- C55, conversion from Montgomery form, for any operand.  Missing: 7-limb moduli, for which the property is false
(`C55_from_violation`). -/
theorem C55_from_partial {q : Nat} {s : State} (env : String → Option (State → Option State)) (ra : BitVec 64)
    (hq : q % 2 = 1) (h7 : n64 q ≠ 7) (h : MontReady q s) (ha : OffStack q s .rsi) :
    ∃ p s', template (n64 q) (canOpt q) (upperFrom (n64 q) (canOpt q)) = some p ∧ run env ra p s = some s' ∧
      MontReturns (n64 q) (frameCells (n64 q) (canOpt q)) s s' (rawFromMontgomery q (rd s.mem (s.reg .rsi) (n64 q))) := by
  obtain ⟨p, s', h1, h2, h3⟩ := from_run (env := env) (ra := ra) hq (n64_pos q) h.env h7 ha
    (fun ho => by have := canOpt_bound ho; omega)
  obtain ⟨m1, m2, m3⟩ := rawFromMontgomery_spec hq (rd_length s.mem (s.reg .rsi) (n64 q))
  exact ⟨p, s', h1, h2, .of hq h3 m1 m2 m3⟩

/-- Two more stack cells: the saved `rdx` and the return address. -/
abbrev toMontFrame (q : Nat) : Nat := frameCells (n64 q) (canOpt q) + 2

/-- The machine is ready to call `rawToMontgomery`. -/
structure ToMontReady (q : Nat) (s : State) : Prop where
  fits : 8 * (n64 q + 8) ≤ 2 ^ 64
  table : rd s.mem (s.sym .q) (n64 q) = rawq q
  np : s.mem (s.sym .np) = np q
  r2 : rd s.mem (s.sym .r2) (n64 q) = rawR2 q
  stackq : ∀ i < n64 q, StackFree (toMontFrame q) s (cell (s.sym .q) i)
  stackr2 : ∀ i < n64 q, StackFree (toMontFrame q) s (cell (s.sym .r2) i)
  stacknp : StackFree (toMontFrame q) s (s.sym .np)
  stackdi : ∀ i < n64 q, StackFree (toMontFrame q) s (cell (s.reg .rdi) i)
  stacksi : ∀ i < n64 q, StackFree (toMontFrame q) s (cell (s.reg .rsi) i)

theorem frame_small {n : Nat} (hn : 0 < n) (opt : Bool) : frameCells n opt ≤ n + 5 := by
  unfold frameCells needed nUsed
  have := pushed_len (4 + n + 1 + if opt then 0 else 1)
  cases opt <;> simp only [if_true, Bool.false_eq_true, if_false] at * <;> split <;> omega

/-- C55, conversion to Montgomery form (which calls the product), for any operand. -/
theorem C55_to {q : Nat} {s : State} (ra : BitVec 64) (hq : q % 2 = 1) (hq1 : 1 < q) (h : ToMontReady q s) :
    ∃ p s', template (n64 q) (canOpt q) (upperMul (n64 q) (canOpt q)) = some p ∧
      run (callMMul ra p) ra rawToMontgomeryCode s = some s' ∧
      MontReturns (n64 q) (toMontFrame q) s s' (rawToMontgomery q (rd s.mem (s.reg .rsi) (n64 q))) ∧
      s'.reg .rdx = s.reg .rdx := by
  set s1 := toMontEntry ra s with hs1
  have h2 : ∀ a, StackFree (toMontFrame q) s a → s1.mem a = s.mem a := fun a ha =>
    toMontEntry_mem ra s (ha.mono (Nat.le_add_left _ _))
  have hdi : s1.reg .rdi = s.reg .rdi := toMontEntry_reg ra s (by decide) (by decide)
  have hsi : s1.reg .rsi = s.reg .rsi := toMontEntry_reg ra s (by decide) (by decide)
  have hdx : s1.reg .rdx = s.sym .r2 := toMontEntry_rdx ra s
  have hsy : s1.sym = s.sym := rfl
  have e1 : rd s1.mem (s1.reg .rsi) (n64 q) = rd s.mem (s.reg .rsi) (n64 q) := by
    rw [hsi]; exact rd_congr (fun i hi => h2 _ (h.stacksi i hi))
  have e2 : rd s1.mem (s1.reg .rdx) (n64 q) = rawR2 q := by
    rw [hdx, ← h.r2]; exact rd_congr (fun i hi => h2 _ (h.stackr2 i hi))
  have hr : MontReady q s1 := by
    refine ⟨h.fits, ?_, ?_, fun i hi => ?_, ?_, fun i hi => ?_⟩
    · rw [hsy, ← h.table]; exact rd_congr (fun i hi => h2 _ (h.stackq i hi))
    · rw [hsy, h2 _ h.stacknp]; exact h.np
    · rw [hsy]; exact (h.stackq i hi).entry ra
    · rw [hsy]; exact h.stacknp.entry ra
    · rw [hdi]; exact (h.stackdi i hi).entry ra
  obtain ⟨p, s2, p1, p2, p3⟩ := C55_mul noCalls ra hq hr
    (fun i hi => by rw [hsi]; exact (h.stacksi i hi).entry ra) (fun i hi => by rw [hdx]; exact (h.stackr2 i hi).entry ra)
    (by rw [e2, rawR2_val (by omega)]; exact Nat.mod_lt _ (by omega))
  rw [e1, e2] at p3
  refine ⟨p, _, p1, toMont_run ra p s s2 p2, ?_⟩
  have hF := frame_small (n64_pos q) (canOpt q)
  have hfit := h.fits
  obtain ⟨sv1, sv2⟩ := toMont_saved (F := frameCells (n64 q) (canOpt q)) (s := s) ra (by omega)
  have hrsp : s2.reg .rsp = s.reg .rsp - BitVec.ofNat 64 8 := by
    rw [p3.rsp, toMontEntry_rsp, show (16 : Nat) = 8 + 8 from rfl, ← sub_sub_ofNat]
    exact BitVec.sub_add_cancel _ _
  have hsaved : s2.mem (s2.reg .rsp) = s.reg .rdx := by
    rw [hrsp, p3.frame _ sv1, sv2]
    intro i hi hc
    rw [hdi] at hc
    exact h.stackdi i hi 0 (Nat.succ_pos _) hc.symm
  have hregs : ∀ r, r ≠ .rsp → r ≠ .rdx →
      ({ popReg .rdx s2 with reg := upd (popReg .rdx s2).reg .rsp ((popReg .rdx s2).reg .rsp + 8) } : State).reg r = s2.reg r := by
    intro r hr1 hr2
    simp [popReg, upd_apply, hr1, hr2]
  refine ⟨⟨?_, fun a ha hk => ?_, fun r hr => ?_, ?_, ?_⟩, ?_⟩
  · have := p3.out
    rw [hdi] at this
    exact this
  · rw [← h2 a ha]
    exact p3.frame a (ha.entry ra) (by rw [hdi]; exact hk)
  · rw [hregs r (by rintro rfl; exact absurd hr (by decide)) (by rintro rfl; exact absurd hr (by decide)), p3.saved r hr,
      hs1, toMontEntry_reg ra s (by rintro rfl; exact absurd hr (by decide)) (by rintro rfl; exact absurd hr (by decide))]
  · rw [hregs _ (by decide) (by decide), p3.rdi, hdi]
  · show upd (popReg .rdx s2).reg .rsp ((popReg .rdx s2).reg .rsp + 8) .rsp = _
    rw [upd_same]
    have : (popReg .rdx s2).reg .rsp = s2.reg .rsp + 8 := by simp [popReg, upd_apply]
    rw [this, hrsp]
    have : s.reg .rsp - BitVec.ofNat 64 8 + 8 = s.reg .rsp := BitVec.sub_add_cancel _ _
    rw [this]
  · show upd (popReg .rdx s2).reg .rsp ((popReg .rdx s2).reg .rsp + 8) .rdx = _
    rw [upd_ne _ _ (by decide)]
    have : (popReg .rdx s2).reg .rdx = s2.mem (s2.reg .rsp) := by simp [popReg, upd_apply]
    rw [this, hsaved]

/-! ## Concrete states -/

/-- The tables and two operands in low memory, the stack far above them. -/
def montDemo (q : Nat) (a b : Nat) : State where
  reg := fun r => match r with | .rsi => 256 | .rdx => 384 | .rdi => 512 | .rsp => 4096 | .rbx => 7 | _ => 0
  fl := ⟨true, true, true, true⟩
  mem := memOf (toLimbs 16 q ++ [np q] ++ toLimbs 15 (2 ^ (n64 q * 64 * 2) % q) ++ toLimbs 16 a ++ toLimbs 16 b)
  sym := fun y => match y with | .q => 0 | .np => 128 | _ => 136

theorem montDemo_free (q a b : Nat) {F : Nat} (hF : F ≤ 32) (x : BitVec 64) (hx : x.toNat < 2048) :
    StackFree F (montDemo q a b) x := by
  intro k hk hc
  have h1 : (x.toNat : ℕ) = ((4096 : BitVec 64) - BitVec.ofNat 64 (8 * (k + 1))).toNat := congrArg BitVec.toNat hc
  rw [BitVec.toNat_sub, BitVec.toNat_ofNat] at h1
  have h2 : (4096 : BitVec 64).toNat = 4096 := rfl
  rw [h2] at h1
  omega

theorem montDemo_cell (c : BitVec 64) (hc : c.toNat ≤ 512) (i : Nat) (hi : i < 16) : (cell c i).toNat < 2048 := by
  unfold cell
  rw [BitVec.toNat_add, BitVec.toNat_ofNat]
  omega

def demoA : Nat := bnR - 5
def demoB : Nat := 2 ^ 250 + 12345678901234567890

theorem bnFrame : frameCells (n64 bnR) (canOpt bnR) = 4 := by rw [n64_bnR, canOpt_bnR]; decide

theorem demo_montReady : MontReady bnR (montDemo bnR demoA demoB) := by
  refine ⟨by rw [n64_bnR]; decide, by rw [n64_bnR]; decide +kernel, by decide +kernel, ?_, ?_, ?_⟩ <;> rw [bnFrame]
  · exact fun i hi => montDemo_free _ _ _ (by decide) _ (montDemo_cell _ (by decide) i (by rw [n64_bnR] at hi; omega))
  · exact montDemo_free _ _ _ (by decide) _ (by decide)
  · exact fun i hi => montDemo_free _ _ _ (by decide) _ (montDemo_cell _ (by decide) i (by rw [n64_bnR] at hi; omega))

theorem demo_offStack (b : Reg) (hb : b = .rsi ∨ b = .rdx) : OffStack bnR (montDemo bnR demoA demoB) b := by
  intro i hi
  rw [bnFrame]
  refine montDemo_free _ _ _ (by decide) _ (montDemo_cell _ ?_ i (by rw [n64_bnR] at hi; omega))
  rcases hb with rfl | rfl <;> decide

/-- The product is what the portable code gives, hence reduced and congruent (here `0xf2…·b·R⁻¹`, computed). -/
example : ∃ p s', template 4 true (upperMul 4 true) = some p ∧ run noCalls 0 p (montDemo bnR demoA demoB) = some s' ∧
    (val (rd s'.mem 512 4) * 2 ^ 256) % bnR = (demoA * demoB) % bnR := by
  obtain ⟨p, s', h1, h2, h3⟩ := C55_mul noCalls 0 (by decide +kernel) demo_montReady (demo_offStack _ (.inl rfl))
    (demo_offStack _ (.inr rfl)) (by rw [n64_bnR]; decide +kernel)
  rw [n64_bnR, canOpt_bnR] at h1
  refine ⟨p, s', h1, h2, ?_⟩
  have h4 := h3.out
  rw [n64_bnR] at h4
  have h5 : rd s'.mem 512 4 = _ := h4
  rw [h5]
  decide +kernel

example : ∃ p s', template 4 true (upperSquare 4 true) = some p ∧ run noCalls 0 p (montDemo bnR demoA demoB) = some s' ∧
    (val (rd s'.mem 512 4) * 2 ^ 256) % bnR = (demoA * demoA) % bnR := by
  obtain ⟨p, s', h1, h2, h3⟩ := C55_square noCalls 0 (by decide +kernel) demo_montReady (demo_offStack _ (.inl rfl))
    (by rw [n64_bnR]; decide +kernel)
  rw [n64_bnR, canOpt_bnR] at h1
  refine ⟨p, s', h1, h2, ?_⟩
  have h4 := h3.out
  rw [n64_bnR] at h4
  have h5 : rd s'.mem 512 4 = _ := h4
  rw [h5]
  decide +kernel

example : ∃ p s', template 4 true (upperMul1 4 true) = some p ∧ run noCalls 0 p (montDemo bnR demoA demoB) = some s' ∧
    (val (rd s'.mem 512 4) * 2 ^ 256) % bnR = (demoA * 384) % bnR := by
  obtain ⟨p, s', h1, h2, h3⟩ := C55_mul1_partial noCalls 0 (by decide +kernel) (.inl (by rw [n64_bnR, canOpt_bnR]; decide))
    demo_montReady (demo_offStack _ (.inl rfl)) (by rw [n64_bnR]; decide +kernel)
  rw [n64_bnR, canOpt_bnR] at h1
  refine ⟨p, s', h1, h2, ?_⟩
  have h4 := h3.out
  rw [n64_bnR] at h4
  have h5 : rd s'.mem 512 4 = _ := h4
  rw [h5]
  decide +kernel

example : ∃ p s', template 4 true (upperFrom 4 true) = some p ∧ run noCalls 0 p (montDemo bnR demoA demoB) = some s' ∧
    (val (rd s'.mem 512 4) * 2 ^ 256) % bnR = demoA % bnR := by
  obtain ⟨p, s', h1, h2, h3⟩ := C55_from_partial noCalls 0 (by decide +kernel) (by rw [n64_bnR]; decide) demo_montReady (demo_offStack _ (.inl rfl))
  rw [n64_bnR, canOpt_bnR] at h1
  refine ⟨p, s', h1, h2, ?_⟩
  have h4 := h3.out
  rw [n64_bnR] at h4
  have h5 : rd s'.mem 512 4 = _ := h4
  rw [h5]
  decide +kernel

theorem demo_toReady : ToMontReady bnR (montDemo bnR demoA demoB) := by
  have hF : toMontFrame bnR ≤ 32 := by rw [toMontFrame, bnFrame]; decide
  have hn : ∀ i < n64 bnR, i < 16 := fun i hi => by rw [n64_bnR] at hi; omega
  exact ⟨by rw [n64_bnR]; decide, by rw [n64_bnR]; decide +kernel, by decide +kernel, by rw [n64_bnR]; decide +kernel,
    fun i hi => montDemo_free _ _ _ hF _ (montDemo_cell _ (by decide) i (hn i hi)),
    fun i hi => montDemo_free _ _ _ hF _ (montDemo_cell _ (by decide) i (hn i hi)),
    montDemo_free _ _ _ hF _ (by decide),
    fun i hi => montDemo_free _ _ _ hF _ (montDemo_cell _ (by decide) i (hn i hi)),
    fun i hi => montDemo_free _ _ _ hF _ (montDemo_cell _ (by decide) i (hn i hi))⟩

example : ∃ p s', template 4 true (upperMul 4 true) = some p ∧
    run (callMMul 0 p) 0 rawToMontgomeryCode (montDemo bnR demoA demoB) = some s' ∧
    val (rd s'.mem 512 4) = (demoA * 2 ^ 256) % bnR := by
  obtain ⟨p, s', h1, h2, h3, _⟩ := C55_to 0 (by decide +kernel) (by decide +kernel) demo_toReady
  rw [n64_bnR, canOpt_bnR] at h1
  refine ⟨p, s', h1, h2, ?_⟩
  have h4 := h3.out
  rw [n64_bnR] at h4
  have h5 : rd s'.mem 512 4 = _ := h4
  rw [h5]
  decide +kernel

/-! ## The moduli for which the generator prints wrong code -/

/-- The field prime of the curve P-384: six limbs, not optimised. -/
def p384 : Nat := 2 ^ 384 - 2 ^ 128 - 2 ^ 96 + 2 ^ 32 - 1
/-- The field prime of Ed448: seven limbs, not optimised. -/
def p448 : Nat := 2 ^ 448 - 2 ^ 224 - 1
/-- A seven-limb modulus of the optimised variant. -/
def p446 : Nat := 2 ^ 446 - 77

/-- Machine with `w` in `rdx`. -/
def montDemo1 (q a : Nat) (w : BitVec 64) : State :=
  { montDemo q a 0 with reg := upd (montDemo q a 0).reg .rdx w }

/-- Every table the demo machine needs is right as soon as the kernel has evaluated the two constants. -/
theorem montReady_of {q a b n : Nat} (hn : n64 q = n) (h16 : n ≤ 16)
    (ht : rd (montDemo q a b).mem 0 n = rawq q) (hp : (montDemo q a b).mem 128 = np q) : MontReady q (montDemo q a b) := by
  subst hn
  have hF : frameCells (n64 q) (canOpt q) ≤ 32 := by have := frame_small (n64_pos q) (canOpt q); omega
  exact ⟨by omega, ht, hp, fun i hi => montDemo_free _ _ _ hF _ (montDemo_cell _ (Nat.le_of_ble_eq_true rfl) i (by omega)),
    montDemo_free _ _ _ hF _ (Nat.lt_of_sub_pos (by exact Nat.succ_pos _)), fun i hi => montDemo_free _ _ _ hF _ (montDemo_cell _ (Nat.le_of_ble_eq_true rfl) i (by omega))⟩

theorem offStack_of {q a b n : Nat} (hn : n64 q = n) (h16 : n ≤ 16) : OffStack q (montDemo q a b) .rsi := by
  subst hn
  have hF : frameCells (n64 q) (canOpt q) ≤ 32 := by have := frame_small (n64_pos q) (canOpt q); omega
  exact fun i hi => montDemo_free _ _ _ hF _ (montDemo_cell _ (Nat.le_of_ble_eq_true rfl) i (by omega))

theorem montReady_one {q a : Nat} {w : BitVec 64} (h : MontReady q (montDemo q a 0)) : MontReady q (montDemo1 q a w) :=
  ⟨h.fits, h.table, h.np, h.stackq, h.stacknp, h.stackdi⟩

theorem offStack_one {q a : Nat} {w : BitVec 64} (h : OffStack q (montDemo q a 0) .rsi) :
    OffStack q (montDemo1 q a w) .rsi := h

theorem runs_of_eval {n : Nat} {opt : Bool} {upper : Nat → List (Ins Arg)} {s : State} {P : Nat → Bool}
    (h : ((template n opt upper).bind fun p => (runF noCalls 0 (p.length + 1) p s).map fun s' => P (val (rd s'.mem 512 n)))
      = some true) :
    ∃ p s', template n opt upper = some p ∧ run noCalls 0 p s = some s' ∧ P (val (rd s'.mem 512 n)) = true := by
  cases h1 : template n opt upper with
  | none => rw [h1] at h; simp at h
  | some p =>
    rw [h1, Option.bind_some, ← run_eq_runF noCalls 0 _ p s (Nat.lt_succ_self _)] at h
    cases h2 : run noCalls 0 p s with
    | none => rw [h2] at h; simp at h
    | some s' =>
      rw [h2] at h
      exact ⟨p, s', rfl, h2, by simpa using h⟩

/-- C55, violated: for the P-384 prime the code printed for the product by one word returns a wrong result. -/
theorem C55_mul1_violation :
    p384 % 2 = 1 ∧ n64 p384 = 6 ∧ canOpt p384 = false ∧ MontReady p384 (montDemo1 p384 (p384 - 3) (-1)) ∧
    OffStack p384 (montDemo1 p384 (p384 - 3) (-1)) .rsi ∧ val (rd (montDemo1 p384 (p384 - 3) (-1)).mem 256 6) = p384 - 3 ∧ p384 - 3 < p384 ∧
    ∃ p s', template 6 false (upperMul1 6 false) = some p ∧
      run noCalls 0 p (montDemo1 p384 (p384 - 3) (-1)) = some s' ∧
      (val (rd s'.mem 512 6) * 2 ^ 384) % p384 ≠ ((p384 - 3) * (2 ^ 64 - 1)) % p384 := by
  refine ⟨by decide +kernel, by decide +kernel, by decide +kernel, montReady_one (montReady_of (n := 6) (by decide +kernel) (by decide)
    (by decide +kernel) (by decide +kernel)),
    offStack_one (offStack_of (n := 6) (by decide +kernel) (by decide)), by decide +kernel, by decide +kernel, ?_⟩
  obtain ⟨p, s', h1, h2, h3⟩ := runs_of_eval (n := 6) (opt := false) (upper := upperMul1 6 false)
    (s := montDemo1 p384 (p384 - 3) (-1))
    (P := fun v => decide ((v * 2 ^ 384) % p384 ≠ ((p384 - 3) * (2 ^ 64 - 1)) % p384)) (by decide +kernel)
  exact ⟨p, s', h1, h2, of_decide_eq_true h3⟩

/-- C55, violated: the same for a seven-limb modulus of the optimised variant. -/
theorem C55_mul1_opt_violation :
    p446 % 2 = 1 ∧ n64 p446 = 7 ∧ canOpt p446 = true ∧ MontReady p446 (montDemo1 p446 (p446 - 1) (-1)) ∧
    OffStack p446 (montDemo1 p446 (p446 - 1) (-1)) .rsi ∧ val (rd (montDemo1 p446 (p446 - 1) (-1)).mem 256 7) = p446 - 1 ∧ p446 - 1 < p446 ∧
    ∃ p s', template 7 true (upperMul1 7 true) = some p ∧
      run noCalls 0 p (montDemo1 p446 (p446 - 1) (-1)) = some s' ∧
      (val (rd s'.mem 512 7) * 2 ^ 448) % p446 ≠ ((p446 - 1) * (2 ^ 64 - 1)) % p446 := by
  refine ⟨by decide +kernel, by decide +kernel, by decide +kernel, montReady_one (montReady_of (n := 7) (by decide +kernel) (by decide)
    (by decide +kernel) (by decide +kernel)),
    offStack_one (offStack_of (n := 7) (by decide +kernel) (by decide)), by decide +kernel, by decide +kernel, ?_⟩
  obtain ⟨p, s', h1, h2, h3⟩ := runs_of_eval (n := 7) (opt := true) (upper := upperMul1 7 true)
    (s := montDemo1 p446 (p446 - 1) (-1))
    (P := fun v => decide ((v * 2 ^ 448) % p446 ≠ ((p446 - 1) * (2 ^ 64 - 1)) % p446)) (by decide +kernel)
  exact ⟨p, s', h1, h2, of_decide_eq_true h3⟩

/-- C55, violated: for the Ed448 prime the code printed for the conversion from Montgomery form returns a wrong result. -/
theorem C55_from_violation :
    p448 % 2 = 1 ∧ n64 p448 = 7 ∧ canOpt p448 = false ∧ MontReady p448 (montDemo p448 (p448 - 1) 0) ∧
    OffStack p448 (montDemo p448 (p448 - 1) 0) .rsi ∧ val (rd (montDemo p448 (p448 - 1) 0).mem 256 7) = p448 - 1 ∧ p448 - 1 < p448 ∧
    ∃ p s', template 7 false (upperFrom 7 false) = some p ∧ run noCalls 0 p (montDemo p448 (p448 - 1) 0) = some s' ∧
      (val (rd s'.mem 512 7) * 2 ^ 448) % p448 ≠ (p448 - 1) % p448 := by
  refine ⟨by decide +kernel, by decide +kernel, by decide +kernel, montReady_of (n := 7) (by decide +kernel) (by decide)
    (by decide +kernel) (by decide +kernel),
    offStack_of (n := 7) (by decide +kernel) (by decide), by decide +kernel, by decide +kernel, ?_⟩
  obtain ⟨p, s', h1, h2, h3⟩ := runs_of_eval (n := 7) (opt := false) (upper := upperFrom 7 false)
    (s := montDemo p448 (p448 - 1) 0)
    (P := fun v => decide ((v * 2 ^ 448) % p448 ≠ (p448 - 1) % p448)) (by decide +kernel)
  exact ⟨p, s', h1, h2, of_decide_eq_true h3⟩

/-- C55, violated: the same for a seven-limb modulus of the optimised variant. -/
theorem C55_from_opt_violation :
    p446 % 2 = 1 ∧ n64 p446 = 7 ∧ canOpt p446 = true ∧ MontReady p446 (montDemo p446 2 0) ∧
    OffStack p446 (montDemo p446 2 0) .rsi ∧ val (rd (montDemo p446 2 0).mem 256 7) = 2 ∧ 2 < p446 ∧
    ∃ p s', template 7 true (upperFrom 7 true) = some p ∧ run noCalls 0 p (montDemo p446 2 0) = some s' ∧
      (val (rd s'.mem 512 7) * 2 ^ 448) % p446 ≠ 2 % p446 := by
  refine ⟨by decide +kernel, by decide +kernel, by decide +kernel, montReady_of (n := 7) (by decide +kernel) (by decide)
    (by decide +kernel) (by decide +kernel),
    offStack_of (n := 7) (by decide +kernel) (by decide), by decide +kernel, by decide +kernel, ?_⟩
  obtain ⟨p, s', h1, h2, h3⟩ := runs_of_eval (n := 7) (opt := true) (upper := upperFrom 7 true)
    (s := montDemo p446 2 0)
    (P := fun v => decide ((v * 2 ^ 448) % p446 ≠ 2 % p446)) (by decide +kernel)
  exact ⟨p, s', h1, h2, of_decide_eq_true h3⟩

end FF.Props
