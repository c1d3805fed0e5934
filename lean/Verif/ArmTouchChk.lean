import Verif.ArmTouch

/-!
# The static check of the AArch64 listings, evaluated by the kernel for every width
-/

namespace FF.Arm

open FF.X86 (upd cell stk stk_stk stk_zero cell_stk Access Only Within InArr)

/-- On entry: `x0`, `x1`, `x2` hold the arguments. -/
def argsAbs : Abs := ⟨[(0, .arg 0), (1, .arg 1), (2, .arg 2)], 0⟩

/-- At a label: only `x0` is still known, and `k` nSlots are pushed. -/
def labelAbs (k : Nat) : Abs := ⟨[(0, .arg 0)], k⟩

/-- `n` cells at every argument of `l`, `n` cells of the table of the modulus, one cell of the other tables. -/
def lim (n : Nat) (l : List Nat) (ys : List Sym) : Root → Nat
  | .arg r => if r ∈ l then n else 0
  | .sym .q => if Sym.q ∈ ys then n else 0
  | .sym y => if y ∈ ys then 1 else 0

/-- The check with `F` nSlots of stack. -/
def ck (F n : Nat) (r : List Nat) (ys : List Sym) (w : List Nat) (D : Nat) (p : List Line) : Bool :=
  decide (D ≤ F) && touchChk (lim n r ys) (lim n w []) F (labelAbs D) p argsAbs

/-- The 16-byte nSlots of `pushRegs`. -/
def nSlots (l : List Nat) : Nat := (l.length + 1) / 2

/-- The addresses of the tables, with their lengths. -/
def symRegion (n : Nat) (s : State) : Sym → BitVec 64 × Nat
  | .q => (s.sym .q, n)
  | y => (s.sym y, 1)

theorem args_rep (s : State) : Rep s argsAbs s := by
  refine ⟨fun x b hb => ?_, ?_, rfl⟩
  · simp only [argsAbs, find] at hb
    split at hb
    · rename_i e; cases hb; subst e; rfl
    · split at hb
      · rename_i e; cases hb; subst e; rfl
      · split at hb
        · rename_i e; cases hb; subst e; rfl
        · cases hb
  · show s.sp = stk s.sp 0; rw [stk_zero]

theorem ck_only {F n : Nat} {r : List Nat} {ys : List Sym} {w : List Nat} {D : Nat} {p : List Line} (h : ck F n r ys w D p = true) (s : State) :
    Only (Within (r.map (fun x => (s.reg x, n)) ++ (ys.map (symRegion n s) ++ [(stk s.sp (2 * F), 2 * F)])))
      (Within (w.map (fun x => (s.reg x, n)) ++ [(stk s.sp (2 * F), 2 * F)])) (touched p s) := by
  rw [ck, Bool.and_eq_true, decide_eq_true_eq] at h
  have hst : ∀ j < 2 * F, InArr (stk s.sp (2 * F)) (2 * F) (stk s.sp (j + 1)) := fun j hj =>
    ⟨2 * F - (j + 1), by omega, by rw [cell_stk _ (by omega)]; congr 1; omega⟩
  refine touchChk_sound (s0 := s) (fun b i hi => ?_) (fun b i hi => ?_) (fun j hj => ⟨?_, ?_⟩) h.1 p (Nat.zero_le _) ?_ h.2
  · cases b with
    | arg x =>
      rw [lim] at hi
      split at hi
      · rename_i hx
        exact ⟨(s.reg x, n), List.mem_append_left _ (List.mem_map.2 ⟨x, hx, rfl⟩), i, hi, rfl⟩
      · omega
    | sym y =>
      have hy : y ∈ ys ∧ i < (symRegion n s y).2 := by
        cases y <;> simp only [lim, symRegion] at hi ⊢ <;> split at hi <;> first | omega | (rename_i hx; exact ⟨hx, hi⟩)
      refine ⟨symRegion n s y, List.mem_append_right _ (List.mem_append_left _ (List.mem_map.2 ⟨y, hy.1, rfl⟩)), i, hy.2, ?_⟩
      cases y <;> rfl
  · cases b with
    | arg x =>
      rw [lim] at hi
      split at hi
      · rename_i hx
        exact ⟨(s.reg x, n), List.mem_append_left _ (List.mem_map.2 ⟨x, hx, rfl⟩), i, hi, rfl⟩
      · omega
    | sym y => cases y <;> simp [lim] at hi
  · exact ⟨_, List.mem_append_right _ (List.mem_append_right _ List.mem_cons_self), hst j hj⟩
  · exact ⟨_, List.mem_append_right _ List.mem_cons_self, hst j hj⟩
  · exact args_rep s

theorem upTo {P : Nat → Prop} (h : ∀ n ∈ List.range' 1 12, P n) {n : Nat} (h0 : 0 < n) (h1 : n ≤ 12) : P n :=
  h n (List.mem_range'_1.2 ⟨h0, by omega⟩)

theorem isZero_ck : ∀ n ∈ List.range' 1 12, ck 0 n [0] [] [] 0 (rawIsZero n) = true := by decide +kernel
theorem isEq_ck : ∀ n ∈ List.range' 1 12, ck 0 n [0, 1] [] [] 0 (rawIsEq n) = true := by decide +kernel
theorem rcmp_ck : ∀ n ∈ List.range' 1 12, ck 0 n [0, 1] [] [] 0 (rawCmp n) = true := by decide +kernel
theorem swap_ck : ∀ n ∈ List.range' 1 12, ck 0 n [0, 1] [] [0, 1] 0 (rawSwap n) = true := by decide +kernel
theorem copy_ck : ∀ n ∈ List.range' 1 12, ck 0 n [1] [] [0] 0 (rawCopy n) = true := by decide +kernel
theorem s2l_ck : ∀ n ∈ List.range' 1 12, ck 0 n [] [.q] [0] 0 (rawCopyS2L n) = true := by decide +kernel
theorem and_ck : ∀ n ∈ List.range' 1 12, ck 8 n [1, 2] [.q, .lboMask] [0] (nSlots (vars n).saved) (rawBinOp n .and) = true := by decide +kernel
theorem orr_ck : ∀ n ∈ List.range' 1 12, ck 8 n [1, 2] [.q, .lboMask] [0] (nSlots (vars n).saved) (rawBinOp n .orr) = true := by decide +kernel
theorem eor_ck : ∀ n ∈ List.range' 1 12, ck 8 n [1, 2] [.q, .lboMask] [0] (nSlots (vars n).saved) (rawBinOp n .eor) = true := by decide +kernel
theorem mvn_ck : ∀ n ∈ List.range' 1 12, ck 8 n [1] [.q, .lboMask] [0] (nSlots (vars n).saved) (rawBinOp n .mvn) = true := by decide +kernel
theorem addLL_ck : ∀ n ∈ List.range' 1 12, ck 8 n [1, 2] [.q] [0] (nSlots (vars n).saved) (rawAdd n false) = true := by decide +kernel
theorem addLS_ck : ∀ n ∈ List.range' 1 12, ck 8 n [1] [.q] [0] (nSlots (vars n).saved) (rawAdd n true) = true := by decide +kernel
theorem subLL_ck : ∀ n ∈ List.range' 1 12, ck 8 n [1, 2] [.q] [0] (nSlots (vars n).saved) (rawSub n .LL) = true := by decide +kernel
theorem subLS_ck : ∀ n ∈ List.range' 1 12, ck 8 n [1] [.q] [0] (nSlots (vars n).saved) (rawSub n .LS) = true := by decide +kernel
theorem subSL_ck : ∀ n ∈ List.range' 1 12, ck 8 n [2] [.q] [0] (nSlots (vars n).saved) (rawSub n .SL) = true := by decide +kernel
theorem subReg_ck : ∀ n ∈ List.range' 1 12, ck 0 n [1, 2] [] [0] 0 (rawSubRegular n) = true := by decide +kernel
theorem neg_ck : ∀ n ∈ List.range' 1 12, ck 8 n [1] [.q] [0] (nSlots (negVars n).saved) (rawNeg n) = true := by decide +kernel
theorem negLS_ck : ∀ n ∈ List.range' 1 12, ck 8 n [1] [.q] [0] (nSlots (vars n).saved) (rawNegLS n) = true := by decide +kernel
theorem shr_ck : ∀ n ∈ List.range' 1 12, ck 8 n [1] [] [0] (nSlots (shrVars n).saved) (rawShr n) = true := by decide +kernel
theorem shl_ck : ∀ n ∈ List.range' 1 12, ck 8 n [1] [.q, .lboMask] [0] (nSlots (shlVars n).saved) (rawShl n) = true := by decide +kernel
theorem mul_ck : ∀ n ∈ List.range' 1 12, ∀ opt : Bool, ck 8 n [1, 2] [.q, .np] [0] (nSlots (mulVars n).saved) (rawMMul n opt) = true := by decide +kernel
theorem mul1_ck : ∀ n ∈ List.range' 1 12, ∀ opt : Bool, ck 8 n [1] [.q, .np] [0] (nSlots (mulVars n).saved) (rawMul1 n true opt) = true := by decide +kernel
theorem from_ck : ∀ n ∈ List.range' 1 12, n % 2 = 0 → ∀ opt : Bool, ck 8 n [1] [.q, .np] [0] (nSlots (mulVars n).saved) (rawMul1 n false opt) = true := by
  decide +kernel

/-- `n + 1` cells for the operand of the conversion. -/
def limFrom (n : Nat) : Root → Nat
  | .arg r => if r = 1 then n + 1 else 0
  | b => lim n [] [.q, .np] b

def ckFrom (n : Nat) (opt : Bool) : Bool :=
  decide (nSlots (mulVars n).saved ≤ 8) && touchChk (limFrom n) (lim n [0] []) 8 (labelAbs (nSlots (mulVars n).saved)) (rawMul1 n false opt) argsAbs

theorem from_odd_ck : ∀ n ∈ List.range' 1 12, ∀ opt : Bool, ckFrom n opt = true := by decide +kernel

theorem ckFrom_only {n : Nat} {opt : Bool} (h : ckFrom n opt = true) (s : State) :
    Only (Within [(s.reg 1, n + 1), (s.sym .q, n), (s.sym .np, 1), (stk s.sp 16, 16)]) (Within [(s.reg 0, n), (stk s.sp 16, 16)])
      (touched (rawMul1 n false opt) s) := by
  rw [ckFrom, Bool.and_eq_true, decide_eq_true_eq] at h
  have hst : ∀ j < 2 * 8, InArr (stk s.sp 16) 16 (stk s.sp (j + 1)) := fun j hj =>
    ⟨16 - (j + 1), by omega, by rw [cell_stk _ (by omega)]; congr 1; omega⟩
  refine touchChk_sound (s0 := s) (fun b i hi => ?_) (fun b i hi => ?_) (fun j hj => ⟨?_, ?_⟩) h.1 _ (Nat.zero_le _) (args_rep s) h.2
  · cases b with
    | arg x =>
      rw [limFrom] at hi
      split at hi
      · rename_i hx; subst hx; exact ⟨(s.reg 1, n + 1), by simp, i, hi, rfl⟩
      · omega
    | sym y => cases y with
      | q => exact ⟨(s.sym .q, n), by simp, i, by simpa [limFrom, lim] using hi, rfl⟩
      | np => exact ⟨(s.sym .np, 1), by simp, i, by simpa [limFrom, lim] using hi, rfl⟩
      | lboMask => simp [limFrom, lim] at hi
  · cases b with
    | arg x =>
      rw [lim] at hi
      split at hi
      · rename_i hx; rw [List.mem_singleton] at hx; subst hx; exact ⟨(s.reg 0, n), by simp, i, hi, rfl⟩
      · omega
    | sym y => cases y <;> simp [lim] at hi
  · exact ⟨(stk s.sp 16, 16), by simp, hst j hj⟩
  · exact ⟨(stk s.sp 16, 16), by simp, hst j hj⟩

/-- The upper half of a pair read at `off` behind `x`. -/
def isHit (x : Root) (off : Nat) (A : Abs) : Ins → Bool
  | .ldp _ _ b o => decide (find b A.ptrs = some x) && decide (o + 8 = off)
  | _ => false

/-- The straight code up to the first jump surely reads the cell at `off` behind `x`. -/
def hits (n : Nat) (x : Root) (off : Nat) : List Line → Abs → Bool
  | .ins i :: p, A =>
      isHit x off A i ||
      match chkIns (limFrom n) (lim n [0] []) 8 i A with
      | none => false
      | some B => hits n x off p B
  | _, _ => false

theorem hits_sound {n off : Nat} {x : Root} {s0 : State} (p : List Line) : ∀ {A : Abs} {s : State}, A.depth ≤ 8 → Rep s0 A s → hits n x off p A = true →
    Access.read (x.addr s0 + BitVec.ofNat 64 off) ∈ touched p s := by
  induction p with
  | nil => intro A s _ _ h; simp [hits] at h
  | cons l p ih =>
    intro A s hA hr h
    cases l with
    | ins i =>
      rw [hits, Bool.or_eq_true] at h
      rw [touched, List.mem_append]
      rcases h with h | h
      · left
        unfold isHit at h
        split at h
        · rw [Bool.and_eq_true, decide_eq_true_eq, decide_eq_true_eq] at h
          rw [← hr.ptr _ _ h.1, ← h.2]
          simp [Ins.acc]
        · cases h
      · right
        split at h
        · cases h
        · rename_i B hB
          obtain ⟨-, h1, h2⟩ := chkIns_sound (R := fun _ => True) (W := fun _ => True) (fun _ _ _ => trivial) (fun _ _ _ => trivial)
            (fun _ _ => ⟨trivial, trivial⟩) hr hA hB
          exact ih h2 h1 h
    | _ => simp [hits] at h

theorem from_hits : ∀ n ∈ List.range' 1 12, n % 2 = 1 → ∀ opt : Bool, hits n (.arg 1) (8 * n) (rawMul1 n false opt) argsAbs = true := by decide +kernel

end FF.Arm
