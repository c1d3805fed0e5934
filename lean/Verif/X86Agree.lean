import Verif.X86Impl
import Verif.Props.Asm
import Verif.Props.AsmMont

/-!
# The x86-64 routines run on their machine give what the portable routines give
-/

namespace FF.X86

open FF FF.Props

section ready
variable {q : Nat} {x y : Limbs} {r0 r1 r2 : BitVec 64}

theorem base_toNat {k : Nat} (hk : k ≤ 16) : (base k).toNat = k * 2 ^ 40 := by
  rw [base, BitVec.toNat_ofNat, Nat.mod_eq_of_lt (by omega)]

theorem base_cell {k i : Nat} (hk : k ≤ 16) (hi : i < 2 ^ 32) : (cell (base k) i).toNat = k * 2 ^ 40 + 8 * i := by
  rw [cell, BitVec.toNat_add, base_toNat hk, BitVec.toNat_ofNat, Nat.mod_eq_of_lt (a := 8 * i) (by omega), Nat.mod_eq_of_lt (by omega)]

theorem machine_mem {k i : Nat} (hk : k ≤ 16) (hi : i < 2 ^ 32) : (machine q x y r0 r1 r2).mem (cell (base k) i) = machineMem q x y k i := by
  show machineMem q x y ((cell (base k) i).toNat / 2 ^ 40) ((cell (base k) i).toNat % 2 ^ 40 / 8) = _
  rw [base_cell hk hi, show (k * 2 ^ 40 + 8 * i) / 2 ^ 40 = k by omega, show (k * 2 ^ 40 + 8 * i) % 2 ^ 40 / 8 = i by omega]

theorem machine_rd {l : Limbs} {n k : Nat} (hk : k ≤ 16) (hl : l.length = n) (hn : n ≤ 2 ^ 30)
    (h : ∀ i, machineMem q x y k i = l.getD i 0) : rd (machine q x y r0 r1 r2).mem (base k) n = l := by
  rw [rd, ← List.range_eq_range']
  refine List.ext_getElem (by simp [hl]) fun i h1 h2 => ?_
  simp only [List.getElem_map, List.getElem_range]
  have hi : i < n := by simpa using h1
  rw [machine_mem hk (by omega), h i, List.getD_eq_getElem?_getD, List.getElem?_eq_getElem h2]
  rfl

theorem machine_x (hl : x.length = n64 q) (hn : n64 q ≤ 2 ^ 30) : rd (machine q x y r0 r1 r2).mem (base 3) (n64 q) = x :=
  machine_rd (by decide) hl hn fun i => by simp [machineMem]

theorem machine_y (hl : y.length = n64 q) (hn : n64 q ≤ 2 ^ 30) : rd (machine q x y r0 r1 r2).mem (base 4) (n64 q) = y :=
  machine_rd (by decide) hl hn fun i => by simp [machineMem]

theorem machine_q (hn : n64 q ≤ 2 ^ 30) : rd (machine q x y r0 r1 r2).mem (base 0) (n64 q) = rawq q :=
  machine_rd (by decide) (rawq_length q) hn fun i => by simp [machineMem]

theorem machine_r2 (hq : 0 < q) (hn : n64 q ≤ 2 ^ 30) : rd (machine q x y r0 r1 r2).mem (base 2) (n64 q) = rawR2 q :=
  machine_rd (by decide) (LRep.R2 hq).1 hn fun i => by simp [machineMem]

theorem machine_np : (machine q x y r0 r1 r2).mem (base 1) = np q := by
  have h : (machine q x y r0 r1 r2).mem (cell (base 1) 0) = machineMem q x y 1 0 := machine_mem (by decide) (by decide)
  rw [show cell (base 1) 0 = base 1 by simp [cell]] at h
  rw [h]
  simp [machineMem]

theorem base_sep {j k n : Nat} (hj : j ≤ 16) (hk : k ≤ 16) (h : j ≠ k) (hn : n ≤ 2 ^ 30) : Sep (base j) (base k) n := by
  intro a b ha hb e
  have e := congrArg BitVec.toNat e
  rw [base_cell hj (by omega), base_cell hk (by omega)] at e
  omega

theorem machine_ready (hn : n64 q ≤ 2 ^ 30) : Ready q (machine q x y (base 5) r1 r2) :=
  ⟨by omega, machine_q hn, fun i j hi hj => base_sep (j := 0) (k := 5) (by decide) (by decide) (by decide) hn i j hi hj⟩

theorem machine_free {F k i : Nat} (hF : F ≤ 2 ^ 31) (hk : k ≤ 8) (hi : i < 2 ^ 32) : StackFree F (machine q x y r0 r1 r2) (cell (base k) i) := by
  intro j hj e
  have e := congrArg BitVec.toNat e
  rw [base_cell (by omega) hi] at e
  change _ = (base 10 - BitVec.ofNat 64 (8 * (j + 1))).toNat at e
  rw [BitVec.toNat_sub, base_toNat (by decide), BitVec.toNat_ofNat, Nat.mod_eq_of_lt (a := 8 * (j + 1)) (by omega)] at e
  omega

theorem machine_free0 {F k : Nat} (hF : F ≤ 2 ^ 31) (hk : k ≤ 8) : StackFree F (machine q x y r0 r1 r2) (base k) := by
  have := machine_free (q := q) (x := x) (y := y) (r0 := r0) (r1 := r1) (r2 := r2) (i := 0) hF hk (by decide)
  rwa [show cell (base k) 0 = base k by simp [cell]] at this

theorem frame_le (hn : n64 q ≤ 2 ^ 30) : frameCells (n64 q) (canOpt q) + 2 ≤ 2 ^ 31 := by
  have := frame_small (n64_pos q) (canOpt q)
  omega

theorem machine_mont (hn : n64 q ≤ 2 ^ 30) : MontReady q (machine q x y (base 5) r1 r2) :=
  ⟨by omega, machine_q hn, machine_np,
    fun i hi => machine_free (k := 0) (by have := frame_le hn; omega) (by decide) (by omega),
    machine_free0 (k := 1) (by have := frame_le hn; omega) (by decide),
    fun i hi => machine_free (k := 5) (by have := frame_le hn; omega) (by decide) (by omega)⟩

theorem machine_off3 (hn : n64 q ≤ 2 ^ 30) : OffStack q (machine q x y r0 (base 3) r2) .rsi :=
  fun i hi => machine_free (k := 3) (by have := frame_le hn; omega) (by decide) (by omega)

theorem machine_off4 (hn : n64 q ≤ 2 ^ 30) : OffStack q (machine q x y r0 r1 (base 4)) .rdx :=
  fun i hi => machine_free (k := 4) (by have := frame_le hn; omega) (by decide) (by omega)

theorem machine_toMont (hq : 0 < q) (hn : n64 q ≤ 2 ^ 30) : ToMontReady q (machine q x y (base 5) (base 3) r2) :=
  ⟨by omega, machine_q hn, machine_np, machine_r2 hq hn,
    fun i hi => machine_free (k := 0) (frame_le hn) (by decide) (by omega), fun i hi => machine_free (k := 2) (frame_le hn) (by decide) (by omega),
    machine_free0 (k := 1) (frame_le hn) (by decide), fun i hi => machine_free (k := 5) (frame_le hn) (by decide) (by omega),
    fun i hi => machine_free (k := 3) (frame_le hn) (by decide) (by omega)⟩

end ready

theorem call_of {q : Nat} {env : List Line → String → Option (State → Option State)} {code : Option (List Line)} {entry : List Line → List Line}
    {x y : Limbs} {r2 : BitVec 64} {p : List Line} {s' : State} (h1 : code = some p)
    (h2 : run (env p) 0 (entry p) (machine q x y (base 5) (base 3) r2) = some s') :
    call q env code entry x y r2 = rd s'.mem (base 5) (n64 q) := by
  subst h1
  unfold call
  rw [Option.bind_some, h2]

theorem answer_of {q : Nat} {code : List Line} {x y : Limbs} {s' : State} {b : Bool}
    (h1 : run noCalls 0 code (machine q x y (base 3) (base 4) 0) = some s') (h2 : s'.reg .rax = if b then 1 else 0) :
    answer q code x y = if b then 1 else 0 := by
  unfold answer
  rw [h1]
  dsimp only
  rw [h2]
  cases b <;> decide

/-- The routines agree with the portable ones for every modulus of at most `2^30` limbs, except for seven limbs (conversion from Montgomery form,
product by a word) and six limbs in the unoptimised variant (product by a word). -/
theorem ops_agree {q : Nat} (hq : q % 2 = 1) (hq1 : 1 < q) (hn : n64 q ≤ 2 ^ 30) :
    RawOps.Agree q (ops q) (n64 q ≠ 7) (n64 q + (if canOpt q then 0 else 1) ≠ 7) True where
  add := fun {a b} ha hb => by
    obtain ⟨s', h1, h2, -⟩ := C54_add 0 (machine_ready (x := a) (y := b) (r1 := base 3) (r2 := base 4) hn)
      (.inr (base_sep (by decide) (by decide) (by decide) hn)) (.inr (base_sep (by decide) (by decide) (by decide) hn))
    refine (call_of rfl h1).trans (h2.out.trans ?_)
    rw [show rd _ ((machine q a b (base 5) (base 3) (base 4)).reg .rsi) (n64 q) = a from machine_x ha hn,
      show rd _ ((machine q a b (base 5) (base 3) (base 4)).reg .rdx) (n64 q) = b from machine_y hb hn]
  sub := fun {a b} ha hb => by
    obtain ⟨s', h1, h2, -⟩ := C54_sub 0 (machine_ready (x := a) (y := b) (r1 := base 3) (r2 := base 4) hn)
      (.inr (base_sep (by decide) (by decide) (by decide) hn)) (.inr (base_sep (by decide) (by decide) (by decide) hn))
    refine (call_of rfl h1).trans (h2.out.trans ?_)
    rw [show rd _ ((machine q a b (base 5) (base 3) (base 4)).reg .rsi) (n64 q) = a from machine_x ha hn,
      show rd _ ((machine q a b (base 5) (base 3) (base 4)).reg .rdx) (n64 q) = b from machine_y hb hn]
  neg := fun {a} ha => by
    obtain ⟨s', h1, h2, -⟩ := C54_neg 0 (machine_ready (x := a) (y := []) (r1 := base 3) (r2 := 0) hn)
      (.inr (base_sep (by decide) (by decide) (by decide) hn))
    refine (call_of rfl h1).trans (h2.out.trans ?_)
    rw [show rd _ ((machine q a [] (base 5) (base 3) 0).reg .rsi) (n64 q) = a from machine_x ha hn]
  mmul := fun {a b} ha hb hv => by
    obtain ⟨p, s', h0, h1, h2⟩ := C55_mul noCalls 0 hq (machine_mont (x := a) (y := b) (r1 := base 3) (r2 := base 4) hn) (machine_off3 hn)
      (machine_off4 hn) (by show val (rd _ (base 4) _) < _; rw [machine_y hb hn]; exact hv)
    refine (call_of h0 h1).trans (h2.out.trans ?_)
    rw [show rd _ ((machine q a b (base 5) (base 3) (base 4)).reg .rsi) (n64 q) = a from machine_x ha hn,
      show rd _ ((machine q a b (base 5) (base 3) (base 4)).reg .rdx) (n64 q) = b from machine_y hb hn]
  msquare := fun {a} ha hv => by
    obtain ⟨p, s', h0, h1, h2⟩ := C55_square noCalls 0 hq (machine_mont (x := a) (y := []) (r1 := base 3) (r2 := 0) hn) (machine_off3 hn)
      (by show val (rd _ (base 3) _) < _; rw [machine_x ha hn]; exact hv)
    refine (call_of h0 h1).trans (h2.out.trans ?_)
    rw [show rd _ ((machine q a [] (base 5) (base 3) 0).reg .rsi) (n64 q) = a from machine_x ha hn]
  mmul1 := fun h7 {a} w ha hv => by
    obtain ⟨p, s', h0, h1, h2⟩ := C55_mul1_partial noCalls 0 hq (.inl h7) (machine_mont (x := a) (y := []) (r1 := base 3) (r2 := w) hn) (machine_off3 hn)
      (by show val (rd _ (base 3) _) < _; rw [machine_x ha hn]; exact hv)
    refine (call_of h0 h1).trans (h2.out.trans ?_)
    rw [show rd _ ((machine q a [] (base 5) (base 3) w).reg .rsi) (n64 q) = a from machine_x ha hn]
    rfl
  toMontgomery := fun {a} ha => by
    obtain ⟨p, s', h0, h1, h2, -⟩ := C55_to 0 hq hq1 (machine_toMont (x := a) (y := []) (r2 := 0) (by omega) hn)
    refine (call_of (entry := fun _ => rawToMontgomeryCode) h0 h1).trans (h2.out.trans ?_)
    rw [show rd _ ((machine q a [] (base 5) (base 3) 0).reg .rsi) (n64 q) = a from machine_x ha hn]
  fromMontgomery := fun h7 {a} ha => by
    obtain ⟨p, s', h0, h1, h2⟩ := C55_from_partial noCalls 0 hq h7 (machine_mont (x := a) (y := []) (r1 := base 3) (r2 := 0) hn) (machine_off3 hn)
    refine (call_of h0 h1).trans (h2.out.trans ?_)
    rw [show rd _ ((machine q a [] (base 5) (base 3) 0).reg .rsi) (n64 q) = a from machine_x ha hn]
  copy := fun {a} ha => by
    obtain ⟨s', h1, h2⟩ := (C54_copy (n := n64 q) (s := machine q a [] (base 5) (base 3) 0) 0 (by omega)).1
      (.inr (base_sep (by decide) (by decide) (by decide) hn))
    exact (call_of rfl h1).trans (h2.out.trans (machine_x ha hn))
  isEq := fun _ {a b} ha hb => by
    obtain ⟨s', h1, h2⟩ := rawIsEq_run noCalls 0 (machine q a b (base 3) (base 4) 0) (n64 q)
    have h3 := h2.rax
    rw [show rd _ ((machine q a b (base 3) (base 4) 0).reg .rdi) (n64 q) = a from machine_x ha hn,
      show rd _ ((machine q a b (base 3) (base 4) 0).reg .rsi) (n64 q) = b from machine_y hb hn] at h3
    exact answer_of h1 h3
  isZero := fun {a} ha => by
    obtain ⟨s', h1, h2⟩ := rawIsZero_run noCalls 0 (machine q a [] (base 3) (base 4) 0) (n64 q)
    have h3 := h2.rax
    rw [show rd _ ((machine q a [] (base 3) (base 4) 0).reg .rdi) (n64 q) = a from machine_x ha hn] at h3
    exact answer_of h1 h3

end FF.X86
