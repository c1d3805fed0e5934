import Verif.ArmRaw2

/-!
# The AArch64 raw routines: comparisons and exchange
-/

namespace FF.Arm

open FF.X86 (upd cell rd upd_same upd_ne rd_length)

/-! ## Tests for zero and equality

The operations of the generated code are read off mechanically (`ssa`); `orSet` computes, for a register, the words and pairs of words
whose being zero (equal) makes the register zero. -/

/-- The operations of straight code without stores, one virtual register per instruction. -/
def ssa : List Ins → Nat → Regs → List VIns
  | [], _, _ => []
  | .alu o d x y :: p, k, M => vop o 0 k (opdVal M x) (opdVal M y) :: ssa p (k + 1) (M.set d (.v 0 k))
  | .ldr d b off :: p, k, M =>
      match loadBase M b with
      | some B => ssa p (k + 1) (M.set d (.mem B (off / 8)))
      | none => []
  | .ldp d e b off :: p, k, M =>
      match loadBase M b with
      | some B => ssa p (k + 1) ((M.set d (.mem B (off / 8))).set e (.mem B (off / 8 + 1)))
      | none => []
  | _, _, _ => []

/-- A word that is zero, or two words that are equal. -/
inductive Atom
  | z (b : Base) (i : Nat)
  | e (b : Base) (i : Nat) (b' : Base) (i' : Nat)

def Atom.holds (s : State) : Atom → Prop
  | .z b i => s.mem (cell (b.addr s) i) = 0
  | .e b i b' i' => s.mem (cell (b.addr s) i) = s.mem (cell (b'.addr s) i')

/-- The conditions attached to virtual registers. -/
abbrev Conds := List (Nat × List Atom)

def condOf (E : Conds) : Val → Option (List Atom)
  | .v 0 k => E.lookup k
  | .mem b i => some [.z b i]
  | .zr => some []
  | _ => none

/-- `orr`, `eor` of two words, and `mov` of zero; every operation defines a new register. -/
def orSet : List VIns → Conds → Option Conds
  | [], E => some E
  | ⟨.orr, some (0, k), x, y⟩ :: l, E =>
      match condOf E x, condOf E y with
      | some a, some b => if (E.lookup k).isNone then orSet l ((k, a ++ b) :: E) else none
      | _, _ => none
  | ⟨.eor, some (0, k), .mem b i, .mem b' i'⟩ :: l, E => if (E.lookup k).isNone then orSet l ((k, [.e b i b' i']) :: E) else none
  | ⟨.mov, some (0, k), .zr, _⟩ :: l, E => if (E.lookup k).isNone then orSet l ((k, []) :: E) else none
  | _, _ => none

def CondsOk (s : State) (E : Conds) (u : U) : Prop := ∀ k a, E.lookup k = some a → (u.ρ (0, k) = 0 ↔ ∀ x ∈ a, x.holds s)

theorem condOf_spec {s : State} {E : Conds} {u : U} (h : CondsOk s E u) {v : Val} {a : List Atom} (hv : condOf E v = some a) :
    v.eval s u.ρ = 0 ↔ ∀ x ∈ a, x.holds s := by
  unfold condOf at hv
  split at hv
  · exact h _ _ hv
  · injection hv with hv; subst hv; simp [Atom.holds, Val.eval]
  · injection hv with hv; subst hv; simp [Val.eval]
  · exact absurd hv (by simp)

theorem CondsOk.cons {s : State} {E : Conds} {u : U} (h : CondsOk s E u) {k : Nat} {a : List Atom} {x : BitVec 64} {fl : Flags}
    (hk : (E.lookup k).isNone) (hx : x = 0 ↔ ∀ y ∈ a, y.holds s) : CondsOk s ((k, a) :: E) ⟨upd u.ρ (0, k) x, fl⟩ := by
  intro j b hb
  rw [List.lookup_cons] at hb
  by_cases hj : j = k
  · subst hj
    rw [beq_self_eq_true] at hb
    injection hb with hb
    subst hb
    show upd u.ρ (0, j) x (0, j) = 0 ↔ _
    rw [upd_same]
    exact hx
  · rw [beq_false_of_ne hj] at hb
    show upd u.ρ (0, k) x (0, j) = 0 ↔ _
    rw [upd_ne _ _ (by simpa using hj)]
    exact h j b hb

theorem orSet_sound (s : State) : ∀ (l : List VIns) (E E' : Conds) (u : U), orSet l E = some E' → CondsOk s E u →
    CondsOk s E' (vexes s l u) := by
  intro l E
  fun_induction orSet l E with
  | case1 E => intro E' u h hE; injection h with h; subst h; exact hE
  | case2 k x y l E a b hb ha hk ih =>
    intro E' u h hE
    refine ih _ _ h (hE.cons hk ?_)
    show x.eval s u.ρ ||| y.eval s u.ρ = 0 ↔ _
    rw [or_zero, condOf_spec hE ha, condOf_spec hE hb]
    simp only [List.mem_append]
    exact ⟨fun h x hx => hx.elim (h.1 x) (h.2 x), fun h => ⟨fun x hx => h x (.inl hx), fun x hx => h x (.inr hx)⟩⟩
  | case3 => intro E' u h; exact absurd h (by simp)
  | case4 => intro E' u h; exact absurd h (by simp)
  | case5 k b i b' i' l E hk ih =>
    intro E' u h hE
    refine ih _ _ h (hE.cons hk ?_)
    show (s.mem (cell (b.addr s) i) ^^^ s.mem (cell (b'.addr s) i')) = 0 ↔ _
    simp [Atom.holds, BitVec.xor_eq_zero_iff]
  | case6 => intro E' u h; exact absurd h (by simp)
  | case7 k y l E hk ih =>
    intro E' u h hE
    refine ih _ _ h (hE.cons hk ?_)
    show (0 : BitVec 64) = 0 ↔ _
    simp
  | case8 => intro E' u h; exact absurd h (by simp)
  | case9 => intro E' u h; exact absurd h (by simp)

def Atom.same : Atom → Atom → Bool
  | .z b i, .z c j => b.same c && Nat.beq i j
  | .e b i b' i', .e c j c' j' => b.same c && Nat.beq i j && b'.same c' && Nat.beq i' j'
  | _, _ => false

theorem Atom.same_spec {x y : Atom} (h : x.same y = true) : x = y := by
  cases x <;> cases y <;> simp only [Atom.same, Bool.and_eq_true, Bool.false_eq_true] at h
  · rw [Base.same_spec h.1, Nat.eq_of_beq_eq_true h.2]
  · rw [Base.same_spec h.1.1.1, Nat.eq_of_beq_eq_true h.1.1.2, Base.same_spec h.1.2, Nat.eq_of_beq_eq_true h.2]

/-- The code stores nothing, keeps registers `x19 … x30`, and leaves zero in register `r` exactly under the conditions. -/
def okZero (n : Nat) (p : List Ins) (r : Nat) (want : List Atom) : Bool :=
  match chk n [] p (ssa p 0 regs0) regs0 [], orSet (ssa p 0 regs0) [] with
  | some (M, st), some E =>
      kept [] M && st.isEmpty && Nat.blt r 31 &&
        match condOf E (M.getD r .zr) with
        | some a => a.all (fun x => want.any x.same) && want.all (fun x => a.any x.same)
        | none => false
  | _, _ => false

theorem okZero_run {n : Nat} {p : List Ins} {r : Nat} {want : List Atom} (hok : okZero n p r want = true) (hn : 8 * n ≤ 2 ^ 64)
    (s : State) :
    ((exes p s).reg r = 0 ↔ ∀ x ∈ want, x.holds s) ∧ (exes p s).mem = s.mem ∧ (exes p s).sp = s.sp ∧
      ∀ r, 19 ≤ r → r ≤ 30 → (exes p s).reg r = s.reg r := by
  unfold okZero at hok
  split at hok
  · rename_i M st E hk hE
    simp only [Bool.and_eq_true] at hok
    obtain ⟨⟨⟨h0, h1⟩, h2⟩, h3⟩ := hok
    have hS := chk_sound hn (fun b hb => absurd hb (by simp)) p _ regs0 M [] st s ⟨fun _ => 0, s.fl⟩ hk (Sim.start n s _)
    refine ⟨?_, ?_, hS.sp, fun r a b => ?_⟩
    · rw [hS.reg r (Nat.blt_eq.mp h2)]
      split at h3
      · rename_i a ha
        simp only [Bool.and_eq_true, List.all_eq_true, List.any_eq_true] at h3
        rw [condOf_spec (orSet_sound s _ _ _ ⟨fun _ => 0, s.fl⟩ hE (fun k a h => by simp at h)) ha]
        constructor
        · intro h x hx
          obtain ⟨y, hy, hxy⟩ := h3.2 x hx
          rw [Atom.same_spec hxy]; exact h y hy
        · intro h x hx
          obtain ⟨y, hy, hxy⟩ := h3.1 x hx
          rw [Atom.same_spec hxy]; exact h y hy
      · exact absurd h3 (by simp)
    · funext a
      refine hS.frame a ?_
      rw [List.isEmpty_iff.mp h1]
      simp
    · rw [hS.reg r (by omega), kept_spec h0 a b (by simp)]; rfl
  · exact absurd hok (by simp)

theorem cmp_z (x : BitVec 64) : (addFlags x (~~~0) true).2.z = decide (x = 0) := by
  have hx := x.isLt
  have hr : BitVec.ofNat 64 (x.toNat + (~~~(0 : BitVec 64)).toNat + true.toNat) = x := by
    apply BitVec.eq_of_toNat_eq
    simp only [BitVec.toNat_ofNat, Bool.toNat_true]
    have : (~~~(0 : BitVec 64)).toNat = 2 ^ 64 - 1 := by decide
    rw [this]
    omega
  simp only [addFlags, hr]

/-- What the caller of a test sees. -/
structure PostB (s s' : State) (P : Prop) : Prop where
  res : (P → s'.reg 0 = 1) ∧ (¬ P → s'.reg 0 = 0)
  mem : s'.mem = s.mem
  saved : ∀ r, 19 ≤ r → r ≤ 30 → s'.reg r = s.reg r
  sp : s'.sp = s.sp

theorem exes_cons (i : Ins) (l : List Ins) (s : State) : exes (i :: l) s = exes l (i.exec s) := rfl
theorem exes_nil (s : State) : exes [] s = s := rfl

theorem subs_z (x : BitVec 64) (f : Flags) : (Alu.subs.eval x 0 f).2.z = decide (x = 0) := cmp_z _

theorem cmp_exec (r : Nat) (t : State) :
    (Ins.cmp (.reg r) .zr).exec t = { t with fl := (Alu.subs.eval (t.reg r) 0 t.fl).2 } := rfl

theorem cset_exec (t : State) (f : Flags) :
    ((Ins.alu (.cset .eq) 0 .zr .zr).exec { t with fl := f }).reg 0 = if f.z then 1 else 0 := upd_same t.reg 0 _

theorem cset_rest (t : State) (f : Flags) : ((Ins.alu (.cset .eq) 0 .zr .zr).exec { t with fl := f }).mem = t.mem ∧
    ((Ins.alu (.cset .eq) 0 .zr .zr).exec { t with fl := f }).sp = t.sp ∧
    ∀ k, k ≠ 0 → ((Ins.alu (.cset .eq) 0 .zr .zr).exec { t with fl := f }).reg k = t.reg k :=
  ⟨rfl, rfl, fun _ hk => upd_ne _ _ hk⟩

theorem flag_run (r : Nat) (t : State) :
    (exes [.cmp (.reg r) .zr, .alu (.cset .eq) 0 .zr .zr] t).reg 0 = (if t.reg r = 0 then 1 else 0) ∧
      (exes [.cmp (.reg r) .zr, .alu (.cset .eq) 0 .zr .zr] t).mem = t.mem ∧
      (exes [.cmp (.reg r) .zr, .alu (.cset .eq) 0 .zr .zr] t).sp = t.sp ∧
      ∀ k, k ≠ 0 → (exes [.cmp (.reg r) .zr, .alu (.cset .eq) 0 .zr .zr] t).reg k = t.reg k := by
  rw [exes_cons, exes_cons, exes_nil, cmp_exec]
  refine ⟨?_, cset_rest _ _⟩
  rw [cset_exec, subs_z]
  by_cases h : t.reg r = 0
  · rw [if_pos h, if_pos (decide_eq_true h)]
  · rw [if_neg h, if_neg (by rw [decide_eq_false h]; decide)]

theorem test_run {n : Nat} {p : List Ins} {r : Nat} {want : List Atom} (hok : okZero n p r want = true) (hn : n ≤ 12) (s : State) :
    ∃ s', run (lines (p ++ [.cmp (.reg r) .zr, .alu (.cset .eq) 0 .zr .zr]) ++ [.ret]) s = some s' ∧
      PostB s s' (∀ x ∈ want, x.holds s) := by
  obtain ⟨h1, h2, h3, h4⟩ := okZero_run hok (fits12 hn) s
  refine ⟨exes (p ++ [.cmp (.reg r) .zr, .alu (.cset .eq) 0 .zr .zr]) s, by rw [run_lines, run], ?_⟩
  rw [exes_append]
  obtain ⟨f1, f2, f3, f4⟩ := flag_run r (exes p s)
  generalize exes [.cmp (.reg r) .zr, .alu (.cset .eq) 0 .zr .zr] (exes p s) = t at *
  refine ⟨?_, f2.trans h2, fun k hk hk' => (f4 k (by omega)).trans (h4 k hk hk'), f3.trans h3⟩
  rw [f1]
  constructor
  · intro h; rw [if_pos (h1.mpr h)]
  · intro h; rw [if_neg (fun hh => h (h1.mp hh))]

theorem isZero_ok : (List.range' 1 12).all (fun n =>
    okZero n (isZeroFold ((Pool.new 1).get 16) (chunks n) 0 0 none).1 ((isZeroFold ((Pool.new 1).get 16) (chunks n) 0 0 none).2.getD 0)
      ((List.range n).map fun i => .z (.arg 0) i)) = true := by decide +kernel

theorem rawIsZero_run {n : Nat} (hn : 0 < n) (hlim : n ≤ 12) (s : State) :
    ∃ s', run (rawIsZero n) s = some s' ∧ PostB s s' (FF.rawIsZero (rd s.mem (s.reg 0) n) = true) := by
  obtain ⟨s', h1, h2⟩ := test_run (all12 isZero_ok hn hlim) hlim s
  refine ⟨s', h1, ?_⟩
  convert h2 using 1
  rw [FF.rawIsZero, mpn_zero_p_iff, ← mem_range_getD]
  simp [Atom.holds, Base.addr]

/-- The code of `rawIsEq` before the comparison, and its result register. -/
def isEqCode (n : Nat) : List Ins × Nat :=
  let p := Pool.new 2
  let work := p.get 3
  let p := p.rest 3
  let a1 := cyclicCopy (p.get 4) n
  let p := p.rest 4
  let b1 := cyclicCopy (p.get 4) n
  let p := p.rest 4
  let c1 := cyclicCopy (p.get 4) n
  let long := decide (8 ≤ n)
  let f := isEqFold long work a1 b1 c1 (chunks n) 0 0 (if long then some 17 else none)
  ((if long then [.alu .mov 17 .zr .zr] else []) ++ f.1, f.2.getD 0)

/-- The limbs `rawIsEq` looks at: for seven limbs the second chunk reuses the work register that holds the result of the first one
(`workRegs` is used cyclically, `armbuilder.js:469-500`). -/
def isEqSeen (n : Nat) : List Nat := if n = 7 then [4, 5, 6] else List.range n

theorem isEq_ok : (List.range' 1 12).all (fun n =>
    okZero n (isEqCode n).1 (isEqCode n).2 ((isEqSeen n).map fun i => .e (.arg 0) i (.arg 1) i)) = true := by decide +kernel

theorem rawIsEq_run {n : Nat} (hn : 0 < n) (hlim : n ≤ 12) (s : State) :
    ∃ s', run (rawIsEq n) s = some s' ∧
      PostB s s' (∀ i ∈ isEqSeen n, s.mem (cell (s.reg 0) i) = s.mem (cell (s.reg 1) i)) := by
  obtain ⟨s', h1, h2⟩ := test_run (all12 isEq_ok hn hlim) hlim s
  refine ⟨s', h1, ?_⟩
  convert h2 using 1
  simp [Atom.holds, Base.addr]

/-! ## `rawCmp` -/

/-- A word of the comparison. -/
def vCmpW (i : Nat) : List VIns :=
  [vop (subO i) 1 i (arr 0 i) (arr 1 i), if i = 0 then vop (.cset .ne) 2 0 .zr .zr else vop (.cinc .ne) 2 i (.v 2 (i - 1)) .zr]

def vCmp (n : Nat) : List VIns := vloop n vCmpW ++ [vop (.cneg .lo) 3 0 (.v 2 (n - 1)) .zr]

theorem cmp_ok : (List.range' 1 12).all (fun n => okReg n (cmpBody n) (vCmp n) [] 0 (.v 3 0)) = true := by decide +kernel

theorem addFlags_z (x y : BitVec 64) (c : Bool) : (addFlags x y c).2.z = decide ((addFlags x y c).1 = 0) := rfl

/-- One subtraction as `addFlags`. -/
theorem subO_eval (i : Nat) (x y : BitVec 64) (f : Flags) :
    (subO i).eval x y f = addFlags x (~~~y) (if i = 0 then true else f.c) := by
  unfold subO; split <;> rfl

/-- The invariant of the comparison: the difference so far and the number of words of it that are not zero. -/
structure CmpInv (a b : Nat → BitVec 64) (k : Nat) (u : U) : Prop where
  diff : vs (u.seq 1) k + vs b k = vs a k + W ^ k * (if k = 0 then 0 else (!u.fl.c).toNat)
  count : 0 < k → ∃ m, m ≤ k ∧ u.ρ (2, k - 1) = BitVec.ofNat 64 m ∧ (m = 0 ↔ vs (u.seq 1) k = 0)

theorem vs_eq_zero_succ (f : Nat → BitVec 64) (k : Nat) : vs f (k + 1) = 0 ↔ vs f k = 0 ∧ f k = 0 := by
  rw [vs_succ, Nat.add_eq_zero_iff, Nat.mul_eq_zero]
  have h0 : W ^ k ≠ 0 := (Nat.pow_pos W_pos).ne'
  constructor
  · rintro ⟨h1, h2⟩
    exact ⟨h1, BitVec.eq_of_toNat_eq (h2.resolve_left h0)⟩
  · rintro ⟨h1, h2⟩
    exact ⟨h1, .inr (by rw [h2]; rfl)⟩

theorem vCmpW_run (s : State) (i : Nat) (hi : i < 12) (u : U)
    (h : CmpInv (fun i => (arr 0 i).eval s u.ρ) (fun i => (arr 1 i).eval s u.ρ) i u) :
    CmpInv (fun i => (arr 0 i).eval s u.ρ) (fun i => (arr 1 i).eval s u.ρ) (i + 1) (vexes s (vCmpW i) u) := by
  generalize hx : (arr 0 i).eval s u.ρ = x at *
  generalize hy : (arr 1 i).eval s u.ρ = y at *
  obtain ⟨r, hr⟩ : ∃ r, r = addFlags x (~~~y) (if i = 0 then true else u.fl.c) := ⟨_, rfl⟩
  have hv := sub_val x y (if i = 0 then true else u.fl.c)
  have hz := addFlags_z x (~~~y) (if i = 0 then true else u.fl.c)
  rw [← hr] at hv hz
  have e1 : (vop (subO i) 1 i (arr 0 i) (arr 1 i)).exec s u = ⟨upd u.ρ (1, i) r.1, r.2⟩ := by
    rw [exec_vop, subO_eval, hx, hy, hr]
  have hcount : ∃ m, m ≤ i + 1 ∧ (vexes s (vCmpW i) u).ρ (2, i) = BitVec.ofNat 64 m ∧ (m = 0 ↔ vs (u.seq 1) i = 0 ∧ r.1 = 0) := by
    have hz' : (!r.2.z) = !decide (r.1 = 0) := by rw [hz]
    by_cases h0 : i = 0
    · subst h0
      have e2 : (vexes s (vCmpW 0) u).ρ (2, 0) = if !r.2.z then 1 else 0 := by
        show ((vop (.cset .ne) 2 0 .zr .zr).exec s ((vop (subO 0) 1 0 (arr 0 0) (arr 1 0)).exec s u)).ρ (2, 0) = _
        rw [e1]
        exact upd_same (upd u.ρ (1, 0) r.1) (2, 0) _
      rw [e2, hz']
      by_cases hd : r.1 = 0
      · exact ⟨0, by omega, by rw [decide_eq_true hd]; rfl, fun _ => ⟨vs_zero _, hd⟩, fun _ => rfl⟩
      · exact ⟨1, by omega, by rw [decide_eq_false hd]; rfl, fun h => absurd h (by decide), fun h => absurd h.2 hd⟩
    · obtain ⟨m, hm, hm1, hm2⟩ := h.count (by omega)
      have e2 : (vexes s (vCmpW i) u).ρ (2, i) = if !r.2.z then BitVec.ofNat 64 m + 1 else BitVec.ofNat 64 m := by
        have : vexes s (vCmpW i) u = (vop (.cinc .ne) 2 i (.v 2 (i - 1)) .zr).exec s ((vop (subO i) 1 i (arr 0 i) (arr 1 i)).exec s u) := by
          unfold vCmpW; rw [if_neg h0]; rfl
        rw [this, e1, ← hm1]
        have e3 : upd u.ρ (1, i) r.1 (2, i - 1) = u.ρ (2, i - 1) := upd_ne _ _ (by simp)
        rw [← e3]
        exact upd_same (upd u.ρ (1, i) r.1) (2, i) _
      rw [e2, hz']
      by_cases hd : r.1 = 0
      · exact ⟨m, by omega, by rw [decide_eq_true hd]; rfl, fun h => ⟨hm2.mp h, hd⟩, fun h => hm2.mpr h.1⟩
      · refine ⟨m + 1, by omega, ?_, fun h => absurd h (by omega), fun h => absurd h.2 hd⟩
        rw [decide_eq_false hd, BitVec.ofNat_add]
        rfl
  have hk : Keeps [2] ⟨upd u.ρ (1, i) r.1, r.2⟩ (vexes s (vCmpW i) u) ∧ (vexes s (vCmpW i) u).fl = r.2 := by
    by_cases h0 : i = 0
    · have : vexes s (vCmpW i) u = (vop (.cset .ne) 2 0 .zr .zr).exec s ⟨upd u.ρ (1, i) r.1, r.2⟩ := by
        rw [← e1]; unfold vCmpW; rw [if_pos h0]; rfl
      rw [this]
      exact ⟨upd_keeps _ _ _ _ _ _, rfl⟩
    · have : vexes s (vCmpW i) u = (vop (.cinc .ne) 2 i (.v 2 (i - 1)) .zr).exec s ⟨upd u.ρ (1, i) r.1, r.2⟩ := by
        rw [← e1]; unfold vCmpW; rw [if_neg h0]; rfl
      rw [this]
      exact ⟨upd_keeps _ _ _ _ _ _, rfl⟩
  obtain ⟨hk, hfl⟩ := hk
  generalize vexes s (vCmpW i) u = u' at *
  have hlt : ∀ j, j < i → u'.seq 1 j = u.seq 1 j := by
    intro j hj
    refine (hk (1, j) (by simp)).trans ?_
    exact upd_ne _ _ (by simp; omega)
  have hat : u'.seq 1 i = r.1 := (hk (1, i) (by simp)).trans (upd_same u.ρ (1, i) r.1)
  refine ⟨?_, fun _ => ?_⟩
  · rw [if_neg (by omega), vs_succ, vs_succ, vs_succ, vs_congr hlt, hat, hfl, hx, hy]
    have hd := h.diff
    have hc : (!(if i = 0 then true else u.fl.c)).toNat = if i = 0 then 0 else (!u.fl.c).toNat := by split <;> rfl
    rw [hc] at hv
    generalize (if i = 0 then 0 else (!u.fl.c).toNat) = c at hv hd
    rw [pow_succ]
    have h2 : W ^ i * (r.1.toNat + y.toNat + c) = W ^ i * (x.toNat + W * (!r.2.c).toNat) := by rw [hv]
    nlinarith [h2, hd]
  · rw [Nat.add_sub_cancel, vs_eq_zero_succ, vs_congr hlt, hat]
    exact hcount

theorem vCmp_run (s : State) {n : Nat} (hn : 0 < n) (hlim : n ≤ 12) (u : U) :
    ∃ m, m ≤ 12 ∧ (m = 0 ↔ vs (fun i => (arr 0 i).eval s u.ρ) n = vs (fun i => (arr 1 i).eval s u.ρ) n) ∧
      (vexes s (vCmp n) u).ρ (3, 0) = if vs (fun i => (arr 0 i).eval s u.ρ) n < vs (fun i => (arr 1 i).eval s u.ρ) n
        then -BitVec.ofNat 64 m else BitVec.ofNat 64 m := by
  unfold vCmp
  rw [vexes_append]
  have h := vloop_run (s := s) (u := u) (n := n) (f := vCmpW)
    (P := fun k u' => CmpInv (fun i => (arr 0 i).eval s u.ρ) (fun i => (arr 1 i).eval s u.ρ) k u') ⟨by simp [vs_zero], by omega⟩
    (fun i u' hi h => vCmpW_run s i (by omega) u' h)
  generalize vexes s (vloop n vCmpW) u = u' at *
  generalize ha : vs (fun i => (arr 0 i).eval s u.ρ) n = A
  generalize hb : vs (fun i => (arr 1 i).eval s u.ρ) n = B
  obtain ⟨m, h1, h2, h3⟩ := h.count hn
  have hd := h.diff
  rw [if_neg (by omega), ha, hb] at hd
  have hA : A < W ^ n := by rw [← ha]; exact vs_lt _ _
  have hB : B < W ^ n := by rw [← hb]; exact vs_lt _ _
  have hV := vs_lt (u'.seq 1) n
  have e : (vexes s [vop (.cneg .lo) 3 0 (.v 2 (n - 1)) .zr] u').ρ (3, 0) = if !u'.fl.c then -u'.ρ (2, n - 1) else u'.ρ (2, n - 1) :=
    upd_same u'.ρ (3, 0) _
  refine ⟨m, by omega, ?_, ?_⟩
  · rw [h3]
    cases hc : u'.fl.c <;> rw [hc] at hd <;> simp at hd <;> omega
  · rw [e, h2]
    cases hc : u'.fl.c <;> rw [hc] at hd <;> simp at hd
    · rw [if_pos (by decide), if_pos (by omega)]
    · rw [if_neg (by decide), if_neg (by omega)]

/-- What the caller of `rawCmp` sees; `w0` is the `int` it returns. -/
structure PostC (s s' : State) (o : Ordering) : Prop where
  res : match o with
    | .lt => ((s'.reg 0).setWidth 32).toInt < 0
    | .eq => ((s'.reg 0).setWidth 32).toInt = 0
    | .gt => 0 < ((s'.reg 0).setWidth 32).toInt
  mem : s'.mem = s.mem
  saved : ∀ r, 19 ≤ r → r ≤ 30 → s'.reg r = s.reg r
  sp : s'.sp = s.sp

theorem small_int : ∀ m, m ≤ 12 → ((BitVec.ofNat 64 m).setWidth 32).toInt = (m : Int) ∧
    ((-BitVec.ofNat 64 m).setWidth 32).toInt = -(m : Int) := by decide +kernel

theorem rawCmp_run {n : Nat} (hn : 0 < n) (hlim : n ≤ 12) (s : State) :
    ∃ s', run (rawCmp n) s = some s' ∧ PostC s s' (FF.rawCmp (rd s.mem (s.reg 0) n) (rd s.mem (s.reg 1) n)) := by
  obtain ⟨h1, -, h3, h4, h5⟩ := okReg_run (all12 cmp_ok hn hlim) (fits12 hlim) (s := s) (fun _ => 0)
  refine ⟨exes (cmpBody n) s, by unfold rawCmp; rw [run_lines, run], ?_, h3, fun r a b => h5 r a b (by simp), h4⟩
  rw [h1]
  obtain ⟨m, m1, m2, m3⟩ := vCmp_run s hn hlim ⟨fun _ => 0, s.fl⟩
  have e : (Val.v 3 0).eval s (vexes s (vCmp n) ⟨fun _ => 0, s.fl⟩).ρ = (vexes s (vCmp n) ⟨fun _ => 0, s.fl⟩).ρ (3, 0) := rfl
  rw [e, m3, FF.rawCmp, mpn_cmp_eq _ _ (by rw [rd_length, rd_length]), rd_eq_vs, rd_eq_vs]
  change (m = 0 ↔ vs (fun i => s.mem (cell (s.reg 0) i)) n = vs (fun i => s.mem (cell (s.reg 1) i)) n) at m2
  show match compare (vs (fun i => s.mem (cell (s.reg 0) i)) n) (vs (fun i => s.mem (cell (s.reg 1) i)) n) with
    | .lt => ((if vs (fun i => s.mem (cell (s.reg 0) i)) n < vs (fun i => s.mem (cell (s.reg 1) i)) n then -BitVec.ofNat 64 m else BitVec.ofNat 64 m).setWidth 32).toInt < 0
    | .eq => ((if vs (fun i => s.mem (cell (s.reg 0) i)) n < vs (fun i => s.mem (cell (s.reg 1) i)) n then -BitVec.ofNat 64 m else BitVec.ofNat 64 m).setWidth 32).toInt = 0
    | .gt => 0 < ((if vs (fun i => s.mem (cell (s.reg 0) i)) n < vs (fun i => s.mem (cell (s.reg 1) i)) n then -BitVec.ofNat 64 m else BitVec.ofNat 64 m).setWidth 32).toInt
  generalize vs (fun i => s.mem (cell (s.reg 0) i)) n = A at *
  generalize vs (fun i => s.mem (cell (s.reg 1) i)) n = B at *
  obtain ⟨i1, i2⟩ := small_int m m1
  rcases lt_trichotomy A B with h | h | h
  · rw [Nat.compare_eq_lt.mpr h, if_pos h]
    show _ < (0 : Int)
    rw [i2]; omega
  · rw [Nat.compare_eq_eq.mpr h, if_neg (by omega)]
    show _ = (0 : Int)
    rw [i1]; omega
  · rw [Nat.compare_eq_gt.mpr h, if_neg (by omega)]
    show (0 : Int) < _
    rw [i1]; omega

/-! ## `rawSwap` -/

/-- What `rawSwap` has done after `k` words. -/
structure SwapInv (s : State) (k : Nat) (t : State) : Prop where
  r0 : t.reg 0 = s.reg 0
  r1 : t.reg 1 = s.reg 1
  saved : ∀ r, 19 ≤ r → r ≤ 30 → t.reg r = s.reg r
  sp : t.sp = s.sp
  fst : ∀ j, j < k → t.mem (cell (s.reg 0) j) = s.mem (cell (s.reg 1) j)
  snd : ∀ j, j < k → t.mem (cell (s.reg 1) j) = s.mem (cell (s.reg 0) j)
  frame : ∀ a, (∀ j, j < k → a ≠ cell (s.reg 0) j ∧ a ≠ cell (s.reg 1) j) → t.mem a = s.mem a

/-- The effect of exchanging one word on memory. -/
def swap1 (s : State) (i : Nat) (m : BitVec 64 → BitVec 64) : BitVec 64 → BitVec 64 :=
  upd (upd m (cell (s.reg 1) i) (s.mem (cell (s.reg 0) i))) (cell (s.reg 0) i) (s.mem (cell (s.reg 1) i))

theorem SwapInv.step {s t t' : State} {n k : Nat} (hn : 8 * n ≤ 2 ^ 64) (hk : k < n)
    (hsep : ∀ i j, i < n → j < n → cell (s.reg 0) i ≠ cell (s.reg 1) j) (h : SwapInv s k t) (h0 : t'.reg 0 = t.reg 0) (h1 : t'.reg 1 = t.reg 1)
    (hs : ∀ r, 19 ≤ r → r ≤ 30 → t'.reg r = t.reg r) (hp : t'.sp = t.sp) (hm : t'.mem = swap1 s k t.mem) : SwapInv s (k + 1) t' := by
  refine ⟨h0.trans h.r0, h1.trans h.r1, fun r a b => (hs r a b).trans (h.saved r a b), hp.trans h.sp, ?_, ?_, ?_⟩
  · intro j hj
    rw [hm, swap1]
    by_cases hjk : j = k
    · subst hjk; rw [upd_same]
    · rw [upd_ne _ _ (fun hh => hjk (X86.cell_inj (by omega) (by omega) hh)), upd_ne _ _ (hsep j k (by omega) hk)]
      exact h.fst j (by omega)
  · intro j hj
    rw [hm, swap1, upd_ne _ _ (hsep k j hk (by omega)).symm]
    by_cases hjk : j = k
    · subst hjk; rw [upd_same]
    · rw [upd_ne _ _ (fun hh => hjk (X86.cell_inj (by omega) (by omega) hh))]
      exact h.snd j (by omega)
  · intro a ha
    rw [hm, swap1, upd_ne _ _ (ha k (by omega)).1, upd_ne _ _ (ha k (by omega)).2]
    exact h.frame a fun j hj => ha j (by omega)

theorem SwapInv.fresh {s t : State} {n k i : Nat} (hn : 8 * n ≤ 2 ^ 64) (hi : i < n) (hki : k ≤ i)
    (hsep : ∀ i j, i < n → j < n → cell (s.reg 0) i ≠ cell (s.reg 1) j) (h : SwapInv s k t) :
    t.mem (cell (s.reg 0) i) = s.mem (cell (s.reg 0) i) ∧ t.mem (cell (s.reg 1) i) = s.mem (cell (s.reg 1) i) := by
  constructor
  · refine h.frame _ fun j hj => ⟨fun hh => ?_, hsep i j hi (by omega)⟩
    have := X86.cell_inj (by omega) (by omega) hh
    omega
  · refine h.frame _ fun j hj => ⟨(hsep j i (by omega) hi).symm, fun hh => ?_⟩
    have := X86.cell_inj (by omega) (by omega) hh
    omega

/-- Registers of the routine: neither the operand pointers nor callee-saved. -/
def Scratch (r : Nat) : Prop := 2 ≤ r ∧ r ≤ 17

theorem cell8 (a : BitVec 64) (i : Nat) : a + BitVec.ofNat 64 (8 * i) = cell a i := rfl
theorem cell8' (a : BitVec 64) (i : Nat) : a + BitVec.ofNat 64 (8 * i + 8) = cell a (i + 1) := by unfold cell; congr 2

theorem swap_single {s t : State} {n k a b : Nat} (hn : 8 * n ≤ 2 ^ 64) (hk : k < n)
    (hsep : ∀ i j, i < n → j < n → cell (s.reg 0) i ≠ cell (s.reg 1) j) (h : SwapInv s k t) (ha : Scratch a) (hb : Scratch b) (hab : a ≠ b) :
    SwapInv s (k + 1) (exes [.ldr a 0 (8 * k), .ldr b 1 (8 * k), .str (.reg a) 1 (8 * k), .str (.reg b) 0 (8 * k)] t) := by
  obtain ⟨f0, f1⟩ := h.fresh hn hk le_rfl hsep
  obtain ⟨ha, ha'⟩ := ha
  obtain ⟨hb, hb'⟩ := hb
  simp only [exes_cons, exes_nil, Ins.exec, Opd.get, cell8]
  have e1 : upd t.reg a (t.mem (cell (t.reg 0) k)) 1 = t.reg 1 := upd_ne _ _ (by omega)
  have e2 : ∀ x, upd (upd t.reg a (t.mem (cell (t.reg 0) k))) b x 1 = t.reg 1 := fun x =>
    (upd_ne _ _ (by omega)).trans (upd_ne _ _ (by omega))
  have e3 : ∀ x, upd (upd t.reg a (t.mem (cell (t.reg 0) k))) b x 0 = t.reg 0 := fun x =>
    (upd_ne _ _ (by omega)).trans (upd_ne _ _ (by omega))
  have e4 : ∀ x, upd (upd t.reg a (t.mem (cell (t.reg 0) k))) b x a = t.mem (cell (t.reg 0) k) := fun x =>
    (upd_ne _ _ hab).trans (upd_same _ _ _)
  refine h.step hn hk hsep (e3 _) (e2 _) (fun r h1 h2 => (upd_ne _ _ (by omega)).trans (upd_ne _ _ (by omega))) rfl ?_
  show upd (upd t.mem (cell (upd (upd t.reg a _) b _ 1) k) (upd (upd t.reg a _) b _ a)) (cell (upd (upd t.reg a _) b _ 0) k)
    (upd (upd t.reg a _) b _ b) = _
  rw [e1, e2, e3, e4, upd_same, h.r0, h.r1, f0, f1]
  rfl

theorem upd_comm {m : BitVec 64 → BitVec 64} {a b x y : BitVec 64} (h : a ≠ b) : upd (upd m a x) b y = upd (upd m b y) a x := by
  funext c
  by_cases h1 : c = a
  · subst h1; rw [upd_same, upd_ne _ _ h, upd_same]
  · by_cases h2 : c = b
    · subst h2; rw [upd_same, upd_ne _ _ h1, upd_same]
    · rw [upd_ne _ _ h2, upd_ne _ _ h1, upd_ne _ _ h1, upd_ne _ _ h2]

theorem swap_pair {s t : State} {n k a a' b b' : Nat} (hn : 8 * n ≤ 2 ^ 64) (hk : k + 1 < n)
    (hsep : ∀ i j, i < n → j < n → cell (s.reg 0) i ≠ cell (s.reg 1) j) (h : SwapInv s k t) (ha : Scratch a) (ha' : Scratch a')
    (hb : Scratch b) (hb' : Scratch b') (hd : [a, a', b, b'].Nodup) :
    SwapInv s (k + 2) (exes [.ldp a a' 0 (8 * k), .ldp b b' 1 (8 * k), .stp (.reg a) (.reg a') 1 (8 * k),
      .stp (.reg b) (.reg b') 0 (8 * k)] t) := by
  obtain ⟨f0, f1⟩ := h.fresh (i := k) hn (by omega) le_rfl hsep
  obtain ⟨g0, g1⟩ := h.fresh (i := k + 1) hn hk (by omega) hsep
  obtain ⟨ha, ha2⟩ := ha
  obtain ⟨hb, hb2⟩ := hb
  obtain ⟨hA, hA2⟩ := ha'
  obtain ⟨hB, hB2⟩ := hb'
  simp only [List.nodup_cons, List.mem_cons, List.mem_nil_iff, or_false, not_or] at hd
  obtain ⟨⟨d1, d2, d3⟩, ⟨d4, d5⟩, d6, -⟩ := hd
  have e1 : ∀ x y, upd (upd t.reg a x) a' y 1 = t.reg 1 := fun x y => (upd_ne _ _ (by omega)).trans (upd_ne _ _ (by omega))
  have hR : ∀ x x' y y' r, r ≠ a → r ≠ a' → r ≠ b → r ≠ b' → upd (upd (upd (upd t.reg a x) a' x') b y) b' y' r = t.reg r :=
    fun x x' y y' r h1 h2 h3 h4 => (upd_ne _ _ h4).trans ((upd_ne _ _ h3).trans ((upd_ne _ _ h2).trans (upd_ne _ _ h1)))
  have ea : ∀ x x' y y', upd (upd (upd (upd t.reg a x) a' x') b y) b' y' a = x := fun x x' y y' =>
    (upd_ne _ _ d3).trans ((upd_ne _ _ d2).trans ((upd_ne _ _ d1).trans (upd_same _ _ _)))
  have ea' : ∀ x x' y y', upd (upd (upd (upd t.reg a x) a' x') b y) b' y' a' = x' := fun x x' y y' =>
    (upd_ne _ _ d5).trans ((upd_ne _ _ d4).trans (upd_same _ _ _))
  have eb : ∀ x x' y y', upd (upd (upd (upd t.reg a x) a' x') b y) b' y' b = y := fun x x' y y' =>
    (upd_ne _ _ d6).trans (upd_same _ _ _)
  have h1 : SwapInv s (k + 1) { t with mem := swap1 s k t.mem } :=
    h.step hn (by omega) hsep rfl rfl (fun _ _ _ => rfl) rfl rfl
  simp only [exes_cons, exes_nil, Ins.exec, Opd.get, cell8, cell8', e1]
  refine h1.step hn hk hsep (hR _ _ _ _ 0 (by omega) (by omega) (by omega) (by omega)) (hR _ _ _ _ 1 (by omega) (by omega) (by omega) (by omega))
    (fun r _ _ => hR _ _ _ _ r (by omega) (by omega) (by omega) (by omega)) rfl ?_
  simp only [ea, ea', eb, upd_same, hR _ _ _ _ 0 (by omega : (0:Nat) ≠ a) (by omega) (by omega) (by omega),
    hR _ _ _ _ 1 (by omega : (1:Nat) ≠ a) (by omega) (by omega) (by omega)]
  rw [h.r0, h.r1, f0, f1, g0, g1]
  unfold swap1
  rw [upd_comm (hsep k (k + 1) (by omega) hk)]

theorem swap_regs : (List.range' 1 12).all (fun n => (List.range n).all fun i =>
    let a := cyclicCopy ((Pool.new 2).get 8) n
    let b := cyclicCopy (((Pool.new 2).rest 8).get 8) n
    a.length == n && b.length == n && decide (2 ≤ at' a i ∧ at' a i ≤ 17) && decide (2 ≤ at' b i ∧ at' b i ≤ 17) && decide (at' a i ≠ at' b i) &&
      (decide (n ≤ i + 1) || decide [at' a i, at' a (i + 1), at' b i, at' b (i + 1)].Nodup)) = true := by decide +kernel

/-- `rawSwap` exchanges the arrays. -/
theorem rawSwap_run {n : Nat} (hn : 0 < n) (hlim : n ≤ 12) (s : State)
    (hsep : ∀ i j, i < n → j < n → cell (s.reg 0) i ≠ cell (s.reg 1) j) :
    ∃ s', run (rawSwap n) s = some s' ∧ rd s'.mem (s.reg 0) n = rd s.mem (s.reg 1) n ∧
      rd s'.mem (s.reg 1) n = rd s.mem (s.reg 0) n ∧
      (∀ a, (∀ i, i < n → a ≠ cell (s.reg 0) i ∧ a ≠ cell (s.reg 1) i) → s'.mem a = s.mem a) ∧
      (∀ r, 19 ≤ r → r ≤ 30 → s'.reg r = s.reg r) ∧ s'.sp = s.sp := by
  have hf := fits12 hlim
  have hr := fun i (hi : i < n) => List.all_eq_true.mp (all12 swap_regs hn hlim) i (List.mem_range.mpr hi)
  unfold rawSwap
  simp only at hr ⊢
  generalize cyclicCopy ((Pool.new 2).get 8) n = a at *
  generalize cyclicCopy (((Pool.new 2).rest 8).get 8) n = b at *
  simp only [Bool.and_eq_true, Bool.or_eq_true, decide_eq_true_eq, beq_iff_eq] at hr
  have hla : a.length = n := (hr 0 hn).1.1.1.1.1
  have hlb : b.length = n := (hr 0 hn).1.1.1.1.2
  have key : ∀ k, k ≤ n → SwapInv s (min n (k + k % 2))
      (exes ((List.range k).flatMap fun i => loadWord a i 0 ++ loadWord b i 1 ++ storeWord a i 1 ++ storeWord b i 0) s) := by
    intro k
    induction k with
    | zero =>
      intro _
      rw [show min n (0 + 0 % 2) = 0 by omega]
      exact ⟨rfl, rfl, fun _ _ _ => rfl, rfl, by omega, by omega, fun _ _ => rfl⟩
    | succ k ih =>
      intro hk
      have ih := ih (by omega)
      rw [List.range_succ, List.flatMap_append, exes_append]
      generalize exes (List.flatMap _ (List.range k)) s = t at *
      rw [List.flatMap_singleton]
      by_cases hp : k % 2 = 0
      · obtain ⟨⟨⟨⟨-, h1⟩, h2⟩, h3⟩, h4⟩ := hr k (by omega)
        rw [show min n (k + k % 2) = k by omega] at ih
        by_cases hl : k = n - 1
        · have e : loadWord a k 0 ++ loadWord b k 1 ++ storeWord a k 1 ++ storeWord b k 0
              = [.ldr (at' a k) 0 (8 * k), .ldr (at' b k) 1 (8 * k), .str (.reg (at' a k)) 1 (8 * k), .str (.reg (at' b k)) 0 (8 * k)] := by
            unfold loadWord storeWord opd
            rw [hla, hlb]
            simp only [if_pos hp, if_pos hl]
            rw [if_neg (by omega), if_neg (by omega)]
            rfl
          rw [e, show min n (k + 1 + (k + 1) % 2) = k + 1 by omega]
          exact swap_single hf (by omega) hsep ih h1 h2 h3
        · obtain ⟨⟨⟨⟨-, g1⟩, g2⟩, -⟩, -⟩ := hr (k + 1) (by omega)
          have e : loadWord a k 0 ++ loadWord b k 1 ++ storeWord a k 1 ++ storeWord b k 0
              = [.ldp (at' a k) (at' a (k + 1)) 0 (8 * k), .ldp (at' b k) (at' b (k + 1)) 1 (8 * k),
                .stp (.reg (at' a k)) (.reg (at' a (k + 1))) 1 (8 * k), .stp (.reg (at' b k)) (.reg (at' b (k + 1))) 0 (8 * k)] := by
            unfold loadWord storeWord opd
            rw [hla, hlb]
            simp only [if_pos hp, if_neg hl]
            rw [if_neg (by omega), if_neg (by omega), if_neg (by omega), if_neg (by omega)]
            rfl
          rw [e, show min n (k + 1 + (k + 1) % 2) = k + 2 by omega]
          exact swap_pair hf (by omega) hsep ih h1 g1 h2 g2 (h4.resolve_left (by omega))
      · have e : loadWord a k 0 ++ loadWord b k 1 ++ storeWord a k 1 ++ storeWord b k 0 = [] := by
          unfold loadWord storeWord
          simp only [if_neg hp]
          rfl
        rw [e, exes_nil, show min n (k + 1 + (k + 1) % 2) = min n (k + k % 2) by omega]
        exact ih
  have h := key n le_rfl
  rw [show min n (n + n % 2) = n by omega] at h
  refine ⟨_, by rw [run_lines, run]; rfl, ?_, ?_, h.frame, h.saved, h.sp⟩
  · rw [rd_map, rd_map]
    exact List.map_congr_left fun i hi => h.fst i (List.mem_range.mp hi)
  · rw [rd_map, rd_map]
    exact List.map_congr_left fun i hi => h.snd i (List.mem_range.mp hi)

end FF.Arm
