import Verif.AsmMontSixMul
import Verif.AsmMontSix

/-!
# The four Montgomery routines compute the portable results
-/

namespace FF.X86

variable (env : String → Option (State → Option State)) (ra : BitVec 64)

theorem sumW_rd (m : BitVec 64 → BitVec 64) (a : BitVec 64) (n : Nat) :
    sumW (fun k => (m (cell a k)).toNat) n = val (rd m a n) := by
  induction n with
  | zero => simp [sumW, rd]
  | succ n ih =>
    rw [sumW, ih, val_rd_succ]
    push_cast; ring

theorem opv_rd {s : State} {b : Reg} (n : Nat) : opv s (fun k => .mem b (8 * k)) n = val (rd s.mem (s.reg b) n) :=
  sumW_rd _ _ _

/-- Reduced arrays with congruent Montgomery values are equal. -/
theorem mont_unique {q : Nat} (hq : q % 2 = 1) {r r' : Limbs} {n : Nat} (h1 : r.length = n) (h2 : r'.length = n)
    (l1 : val r < q) (l2 : val r' < q) (h : (val r * W ^ n) % q = (val r' * W ^ n) % q) : r = r' := by
  apply val_inj (h1.trans h2.symm)
  have hc : Nat.gcd q (W ^ n) = 1 := by
    rw [W_pow]; exact Nat.Coprime.pow_right _ (Nat.coprime_two_right.mpr (Nat.odd_iff.mpr hq))
  exact Nat.ModEq.eq_of_lt_of_lt (Nat.ModEq.cancel_right_of_coprime hc h) l1 l2

theorem CallPost.rd {n F q P : Nat} {s s' : State} (h : CallPost n F q P s s') :
    val (rd s'.mem (s.reg .rdi) n) < q ∧ (val (rd s'.mem (s.reg .rdi) n) * W ^ n) % q = P % q := by
  obtain ⟨R, K, h1, h2, h3⟩ := h.out
  rw [sumW_rd] at h1
  rw [← h1] at h2 h3
  refine ⟨by exact_mod_cast h2, ?_⟩
  have : ((val (X86.rd s'.mem (s.reg .rdi) n) * W ^ n : ℕ) : ℤ) % q = (P : ℤ) % q := by
    push_cast
    rw [mul_comm, h3, Int.add_mul_emod_self_left]
  exact_mod_cast this

theorem Hdr.rd {F : Nat} {s s1 : State} (h : Hdr F s s1) {b : Reg} (hb : b ≠ .rsp) {n : Nat}
    (hs : ∀ j < n, StackFree F s (cell (s.reg b) j)) : rd s1.mem (s1.reg b) n = X86.rd s.mem (s.reg b) n := by
  rw [h.regs b hb]
  exact rd_congr (fun k hk => h.mem _ (hs k hk))

theorem hwOk_entry {F n : Nat} {g : Cfg} {s s1 : State} (h : Hdr F s s1) (hoff : ∀ a, StackFree F s a → g.Off a) {b : Reg}
    (hb : b = .rsi ∨ b = .rdi) (hs : ∀ j < n, StackFree F s (cell (s.reg b) j)) :
    ∀ j < n, HwOk g (entry s1) (.mem b (8 * j)) := by
  intro j hj
  refine ⟨by tauto, ?_⟩
  have : (entry s1).reg b = s.reg b := by
    rw [← h.regs b (by rintro rfl; simp at hb)]
    rcases hb with rfl | rfl <;> simp [entry, upd_apply]
  rw [this]
  exact hoff _ (hs j hj)

theorem hwOk_entryRcx {F n : Nat} {g : Cfg} {s s1 : State} (h : Hdr F s s1) (hoff : ∀ a, StackFree F s a → g.Off a)
    (hs : ∀ j < n, StackFree F s (cell (s.reg .rdx) j)) : ∀ j < n, HwOk g (entry s1) (.mem .rcx (8 * j)) := by
  intro j hj
  refine ⟨by tauto, ?_⟩
  have : (entry s1).reg .rcx = s.reg .rdx := by
    rw [← h.regs .rdx (by decide)]
    simp [entry, upd_apply]
  rw [this]
  exact hoff _ (hs j hj)

/-- What the routines need from their caller. -/
structure Env (q n : Nat) (opt : Bool) (s : State) : Prop where
  fits : 8 * (n + 8) ≤ 2 ^ 64
  table : val (rd s.mem (s.sym .q) n) = q
  np : s.mem (s.sym .np) = np q
  offq : ∀ j < n, StackFree (frameCells n opt) s (cell (s.sym .q) j)
  offnp : StackFree (frameCells n opt) s (s.sym .np)
  offdi : ∀ j < n, StackFree (frameCells n opt) s (cell (s.reg .rdi) j)

theorem Env.q_lt {q n : Nat} {opt : Bool} {s : State} (h : Env q n opt s) : q < W ^ n := by
  have := val_lt (X86.rd s.mem (s.sym .q) n)
  rwa [rd_length, h.table] at this

variable {env ra} {q n : Nat} {opt : Bool} {s : State}

theorem hQ_of {s s1 : State} (h : Env q n opt s) (hh : Hdr (frameCells n opt) s s1) :
    sumW (fun k => (((Opd.sym .q (8 * k)).get (entry s1)).toNat)) n = q := by
  rw [← h.table, ← sumW_rd]
  refine sumW_congr (fun k hk => ?_)
  show (s1.mem (s1.sym .q + BitVec.ofNat 64 (8 * k))).toNat = _
  rw [hh.sym]
  exact congrArg _ (hh.mem _ (h.offq k hk))

/-- `rawMMul`. -/
theorem mul_run (hq : q % 2 = 1) (hn : 0 < n) (h : Env q n opt s)
    (hsi : ∀ j < n, StackFree (frameCells n opt) s (cell (s.reg .rsi) j))
    (hdx : ∀ j < n, StackFree (frameCells n opt) s (cell (s.reg .rdx) j))
    (hopt : opt = true → val (rd s.mem (s.reg .rdx) n) + q ≤ W ^ n)
    (hP : val (rd s.mem (s.reg .rsi) n) * val (rd s.mem (s.reg .rdx) n) < q * W ^ n) :
    ∃ p s', template n opt (upperMul n opt) = some p ∧ run env ra p s = some s' ∧
      CallPost n (frameCells n opt) q ((val (rd s.mem (s.reg .rsi) n) * val (rd s.mem (s.reg .rdx) n) : ℕ) : ℤ) s s' := by
  refine call_run env ra hn h.fits h.offq h.offnp h.offdi h.np (by rw [sumW_rd, h.table]) (Int.natCast_nonneg _)
    (by exact_mod_cast hP) (fun g s1 hsh hh hoff hq' => ?_)
  have hQ := hQ_of h hh
  have e1 : opv (entry s1) (fun k => .mem .rsi (8 * k)) n = val (rd s.mem (s.reg .rsi) n) := by
    rw [opv_rd, ← hh.rd (by decide) hsi]; rfl
  have e2 : opv (entry s1) (fun k => .mem .rcx (8 * k)) n = val (rd s.mem (s.reg .rdx) n) := by
    rw [opv_rd, ← hh.rd (by decide) hdx]; rfl
  refine ⟨(sim_product hsh hq' (yo := fun k => .mem .rsi (8 * k)) (xo := fun k => .mem .rcx (8 * k)) (o0 := .mem .rcx (8 * 0))
    (hwOk_entry hh hoff (Or.inl rfl) hsi) (hwOk_entryRcx hh hoff hdx) (hwOk_entryRcx hh hoff hdx 0 hn)).ctx q, fun st hst => ?_⟩
  have := mulRounds_val n hn opt hq (entry s1) hQ (fun k => .mem .rsi (8 * k)) (fun k => .mem .rcx (8 * k)) (.mem .rcx (8 * 0))
    (fun k => (by decide : Reg.rsi ≠ Reg.rdx)) (fun k => (by decide : Reg.rcx ≠ Reg.rdx)) (fun _ _ => rfl)
    (by rw [e2]; exact_mod_cast hopt) st hst
  rw [e1, e2] at this
  push_cast
  exact this

/-- `rawMSquare`. -/
theorem square_run (hq : q % 2 = 1) (hn : 0 < n) (h : Env q n opt s)
    (hsi : ∀ j < n, StackFree (frameCells n opt) s (cell (s.reg .rsi) j))
    (hopt : opt = true → val (rd s.mem (s.reg .rsi) n) + q ≤ W ^ n)
    (hP : val (rd s.mem (s.reg .rsi) n) * val (rd s.mem (s.reg .rsi) n) < q * W ^ n) :
    ∃ p s', template n opt (upperSquare n opt) = some p ∧ run env ra p s = some s' ∧
      CallPost n (frameCells n opt) q ((val (rd s.mem (s.reg .rsi) n) * val (rd s.mem (s.reg .rsi) n) : ℕ) : ℤ) s s' := by
  refine call_run env ra hn h.fits h.offq h.offnp h.offdi h.np (by rw [sumW_rd, h.table]) (Int.natCast_nonneg _)
    (by exact_mod_cast hP) (fun g s1 hsh hh hoff hq' => ?_)
  have hQ := hQ_of h hh
  have e1 : opv (entry s1) (fun k => .mem .rsi (8 * k)) n = val (rd s.mem (s.reg .rsi) n) := by
    rw [opv_rd, ← hh.rd (by decide) hsi]; rfl
  refine ⟨(sim_product hsh hq' (yo := fun k => .mem .rsi (8 * k)) (xo := fun k => .mem .rsi (8 * k)) (o0 := .reg .rdx)
    (hwOk_entry hh hoff (Or.inl rfl) hsi) (hwOk_entry hh hoff (Or.inl rfl) hsi) (Or.inr rfl)).ctx q, fun st hst => ?_⟩
  have := mulRounds_val n hn opt hq (entry s1) hQ (fun k => .mem .rsi (8 * k)) (fun k => .mem .rsi (8 * k)) (.reg .rdx)
    (fun k => (by decide : Reg.rsi ≠ Reg.rdx)) (fun k => (by decide : Reg.rsi ≠ Reg.rdx)) (fun _ h => h)
    (by rw [e1]; exact_mod_cast hopt) st hst
  rw [e1] at this
  push_cast
  exact this

/-- `rawMMul1`. -/
theorem mul1_run (hq : q % 2 = 1) (hn : 0 < n) (h : Env q n opt s)
    (h7 : n + ext opt ≠ 7 ∨ (n = 6 ∧ (s.reg .rdx).toNat * val (rd s.mem (s.reg .rsi) n) + (W - 1) * q < W ^ 7))
    (hsi : ∀ j < n, StackFree (frameCells n opt) s (cell (s.reg .rsi) j))
    (hopt : opt = true → val (rd s.mem (s.reg .rsi) n) + q ≤ W ^ n)
    (hP : (s.reg .rdx).toNat * val (rd s.mem (s.reg .rsi) n) < q * W ^ n) :
    ∃ p s', template n opt (upperMul1 n opt) = some p ∧ run env ra p s = some s' ∧
      CallPost n (frameCells n opt) q (((s.reg .rdx).toNat * val (rd s.mem (s.reg .rsi) n) : ℕ) : ℤ) s s' := by
  refine call_run env ra hn h.fits h.offq h.offnp h.offdi h.np (by rw [sumW_rd, h.table]) (Int.natCast_nonneg _)
    (by exact_mod_cast hP) (fun g s1 hsh hh hoff hq' => ?_)
  have hQ := hQ_of h hh
  have e1 : opv (entry s1) (fun k => .mem .rsi (8 * k)) n = val (rd s.mem (s.reg .rsi) n) := by
    rw [opv_rd, ← hh.rd (by decide) hsi]; rfl
  have e2 : (entry s1).reg .rcx = s.reg .rdx := by
    rw [← hh.regs .rdx (by decide)]; simp [entry, upd_apply]
  refine ⟨?_, fun st hst => ?_⟩
  · by_cases h6 : n + ext opt = 7
    · obtain ⟨rfl, h8⟩ := h7.resolve_left (fun h => h h6)
      obtain rfl : opt = false := by cases opt <;> simp [ext] at h6 ⊢
      refine simC_sixM hsh hq' (hwOk_entry hh hoff (Or.inl rfl) hsi) hq hQ ?_
      rw [e1, e2]
      have : (1 : ℕ) ≤ W := W_pos
      zify [this] at h8
      exact h8
    · exact (sim_mul1 hsh hq' (hwOk_entry hh hoff (Or.inl rfl) hsi) h6).ctx q
  have := mul1Rounds_val n hn opt hq (entry s1) hQ (by rw [e1]; exact_mod_cast hopt) st hst
  rw [e1, e2] at this
  push_cast
  exact this

/-- `rawFromMontgomery`. -/
theorem from_run (hq : q % 2 = 1) (hn : 0 < n) (h : Env q n opt s) (h7 : n ≠ 7)
    (hsi : ∀ j < n, StackFree (frameCells n opt) s (cell (s.reg .rsi) j))
    (hopt : opt = true → W ^ (n - 1) + q ≤ W ^ n) :
    ∃ p s', template n opt (upperFrom n opt) = some p ∧ run env ra p s = some s' ∧
      CallPost n (frameCells n opt) q ((val (rd s.mem (s.reg .rsi) n) : ℕ) : ℤ) s s' := by
  have hP : val (rd s.mem (s.reg .rsi) n) < q * W ^ n := by
    have := val_lt (rd s.mem (s.reg .rsi) n)
    rw [rd_length] at this
    have : 1 * W ^ n ≤ q * W ^ n := Nat.mul_le_mul_right _ (by omega)
    omega
  refine call_run env ra hn h.fits h.offq h.offnp h.offdi h.np (by rw [sumW_rd, h.table]) (Int.natCast_nonneg _)
    (by exact_mod_cast hP) (fun g s1 hsh hh hoff hq' => ?_)
  have hQ := hQ_of h hh
  have e1 : opv (entry s1) (fun k => .mem .rsi (8 * k)) n = val (rd s.mem (s.reg .rsi) n) := by
    rw [opv_rd, ← hh.rd (by decide) hsi]; rfl
  refine ⟨?_, fun st hst => ?_⟩
  · by_cases h6 : n + ext opt = 7
    · obtain ⟨rfl, rfl⟩ : n = 6 ∧ opt = false := by cases opt <;> simp [ext] at h6 ⊢ <;> omega
      exact simC_six hsh hq' (hwOk_entry hh hoff (Or.inl rfl) hsi) hq hQ
    · exact (sim_from hsh hq' (hwOk_entry hh hoff (Or.inl rfl) hsi) h6 h7).ctx q
  have := fromRounds_val n hn opt hq (entry s1) hQ (by exact_mod_cast hopt) st hst
  rwa [e1] at this

/-! ## `rawToMontgomery` -/

/-- `rawToMontgomery`, `montgomery.asm.ejs:14-19`. -/
def rawToMontgomeryCode : List Line := [.push .rdx, .lea .rdx .r2, .call "rawMMul", .pop .rdx, .ret]

/-- The only routine it calls. -/
def callMMul (ra : BitVec 64) (p : List Line) : String → Option (State → Option State) :=
  fun f => if f = "rawMMul" then some (run noCalls ra p) else none

/-- The state in which `rawMMul` starts. -/
def toMontEntry (ra : BitVec 64) (s : State) : State :=
  let s1 := pushVal (s.reg .rdx) s
  pushVal ra { s1 with reg := upd s1.reg .rdx (s1.sym .r2) }

theorem toMont_run (ra : BitVec 64) (p : List Line) (s s' : State) (h : run noCalls ra p (toMontEntry ra s) = some s') :
    run (callMMul ra p) ra rawToMontgomeryCode s =
      some { popReg .rdx s' with reg := upd (popReg .rdx s').reg .rsp ((popReg .rdx s').reg .rsp + 8) } := by
  unfold rawToMontgomeryCode
  rw [run_push, run]
  simp only [Line.exec]
  · rw [run]
    simp only [callMMul, if_true]
    have : (run noCalls ra p (pushVal ra
      { pushVal (s.reg .rdx) s with reg := upd (pushVal (s.reg .rdx) s).reg .rdx ((pushVal (s.reg .rdx) s).sym .r2) })) = some s' := h
    rw [this]
    simp only
    rw [run_pop, run_ret]
  all_goals simp

theorem sub_sub_ofNat (a : BitVec 64) (i j : Nat) :
    a - BitVec.ofNat 64 i - BitVec.ofNat 64 j = a - BitVec.ofNat 64 (i + j) := by
  rw [BitVec.ofNat_add, BitVec.sub_sub]

theorem toMontEntry_rsp (ra : BitVec 64) (s : State) : (toMontEntry ra s).reg .rsp = s.reg .rsp - BitVec.ofNat 64 16 := by
  have : (toMontEntry ra s).reg .rsp = s.reg .rsp - BitVec.ofNat 64 8 - BitVec.ofNat 64 8 := rfl
  rw [this, sub_sub_ofNat]

theorem toMontEntry_reg (ra : BitVec 64) (s : State) {r : Reg} (h : r ≠ .rsp) (h' : r ≠ .rdx) :
    (toMontEntry ra s).reg r = s.reg r := by
  simp [toMontEntry, pushVal, upd_apply, h, h']

theorem toMontEntry_rdx (ra : BitVec 64) (s : State) : (toMontEntry ra s).reg .rdx = s.sym .r2 := by
  simp [toMontEntry, pushVal, upd_apply]

theorem toMontEntry_mem (ra : BitVec 64) (s : State) {a : BitVec 64} (h : StackFree 2 s a) :
    (toMontEntry ra s).mem a = s.mem a := by
  have h0 : a ≠ s.reg .rsp - 8 := h 0 (by omega)
  have h1 : a ≠ s.reg .rsp - 8 - 8 := by
    have := h 1 (by omega)
    rw [show 8 * (1 + 1) = 8 + 8 from rfl, ← sub_sub_ofNat] at this
    exact this
  show upd (upd s.mem (s.reg .rsp - 8) (s.reg .rdx)) (s.reg .rsp - 8 - 8) ra a = _
  rw [upd_ne _ _ h1, upd_ne _ _ h0]

theorem StackFree.mono {F F' : Nat} {s : State} {a : BitVec 64} (h : StackFree F s a) (hF : F' ≤ F) : StackFree F' s a :=
  fun k hk => h k (by omega)

theorem StackFree.entry {F : Nat} {s : State} {a : BitVec 64} (ra : BitVec 64) (h : StackFree (F + 2) s a) :
    StackFree F (toMontEntry ra s) a := by
  intro k hk
  rw [toMontEntry_rsp, sub_sub_ofNat, show 16 + 8 * (k + 1) = 8 * (k + 2 + 1) by omega]
  exact h (k + 2) (by omega)

/-- The cell in which `rdx` was saved is above the frame of `rawMMul`. -/
theorem toMont_saved {F : Nat} {s : State} (ra : BitVec 64) (hF : 8 * (F + 2) < 2 ^ 64) :
    StackFree F (toMontEntry ra s) (s.reg .rsp - BitVec.ofNat 64 8) ∧
      (toMontEntry ra s).mem (s.reg .rsp - BitVec.ofNat 64 8) = s.reg .rdx := by
  refine ⟨fun k hk => ?_, ?_⟩
  · rw [toMontEntry_rsp, sub_sub_ofNat]
    intro hc
    have := congrArg BitVec.toNat ((BitVec.sub_right_inj _).mp hc)
    rw [BitVec.toNat_ofNat, BitVec.toNat_ofNat, Nat.mod_eq_of_lt (by omega), Nat.mod_eq_of_lt (by omega)] at this
    omega
  · have hne : s.reg .rsp - BitVec.ofNat 64 8 ≠ s.reg .rsp - 8 - 8 := by
      have e : s.reg .rsp - (8 : BitVec 64) - 8 = s.reg .rsp - BitVec.ofNat 64 (8 + 8) := sub_sub_ofNat _ 8 8
      rw [e]
      intro hc
      have := congrArg BitVec.toNat ((BitVec.sub_right_inj _).mp hc)
      simp at this
    show upd (upd s.mem (s.reg .rsp - 8) (s.reg .rdx)) (s.reg .rsp - 8 - 8) ra (s.reg .rsp - BitVec.ofNat 64 8) = _
    rw [upd_ne _ _ hne]
    exact upd_same _ _ _

end FF.X86
