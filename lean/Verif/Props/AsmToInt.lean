import Verif.AsmToInt
import Verif.Props.AsmTagged

/-!
# Properties of the x86-64 `toInt`

* C68: `toInt` of the element at `rdi`.
* C62: it returns what the portable one returns.
-/

namespace FF.Props

open X86

/-! ## Specification -/

/-- The call returns the 32-bit integer `v` in `eax`; no memory but stack cells has changed, nor have the callee-saved registers.
What `fail` does is irrelevant. -/
def ToIntGives (ra : BitVec 64) (q : Nat) (s : State) (v : BitVec 32) : Prop :=
  ∀ g, ∃ s', run (libFail q ra g) ra (toIntCode (n64 q)) s = some s' ∧ (s'.reg .rax).setWidth 32 = v ∧
    (∀ a, ¬ InStk (s.reg .rsp) (tagStack q) a → s'.mem a = s.mem a) ∧ (∀ r ∈ calleeSaved, s'.reg r = s.reg r) ∧
    s'.reg .rsp = s.reg .rsp + 8

/-- The call ends in `fail`, whose assertion ends the program (`src/fr.cpp.ejs:165-167`).  Here `fail` may be any `g`; the
outcome of the call is what `g` makes of the state it is called in, followed by the lines after the call. -/
def ToIntFails (ra : BitVec 64) (q : Nat) (s : State) : Prop :=
  ∀ g, ∃ t, run (libFail q ra g) ra (toIntCode (n64 q)) s = (g t).bind (run (libFail q ra g) ra toIntAfter)

/-- The outcome of a call, as an optional integer. -/
def ToIntIs (ra : BitVec 64) (q : Nat) (s : State) (o : Option (BitVec 32)) : Prop :=
  (∀ v, o = some v → ToIntGives ra q s v) ∧ (o = none → ToIntFails ra q s)

/-- If the assertion ends the program, a failing call has no result. -/
theorem ToIntFails.none {ra : BitVec 64} {q : Nat} {s : State} (h : ToIntFails ra q s) :
    run (libFail q ra fun _ => Option.none) ra (toIntCode (n64 q)) s = Option.none := by
  obtain ⟨t, e⟩ := h fun _ => Option.none
  rw [e]; rfl

section toInt

variable {q : Nat} {ra : BitVec 64} {s : State} {x : ZMod q}

theorem toInt_is (hq : Modulus q) (h7 : FromOk q (opAt q s .rdi)) (h : TagReady q s) (u : Elem) :
    ToIntIs ra q s (asmToInt q u (opAt q s .rdi)) := by
  have hF := callCells_le q
  have key := fun g => toIntCode_run (ra := ra) (g := g) (F := tagStack q) hq.odd h7 h.args (by unfold tagStack; omega) u
  refine ⟨fun v hv g => ?_, fun hn g => ?_⟩
  · obtain ⟨s', h1, h2⟩ := (key g).ret v hv
    exact ⟨s', h1, h2.rax, h2.frame, h2.saved, h2.rsp⟩
  · obtain ⟨t, -, h2⟩ := (key g).err hn g rfl
    exact ⟨t, h2⟩

/-- The limbs of the plain form of a long element. -/
def plainLimbs (q : Nat) (u e : Elem) : Limbs := if e.mont then (toNormalInto q u e).longVal else e.longVal

theorem asmToInt_eq (hq : Modulus q) (u : Elem) {e : Elem} (he : Rep q e x) :
    asmToInt q u e = if e.long = false ∨ x.val < 2147483648 ∨ borrowsAll (plainLimbs q u e) (rawq q) = true then Fr_toInt q u e else none := by
  cases hl : e.long
  · rw [if_pos (.inl rfl), asmToInt, Fr_toInt, hl]; rfl
  · simp only [Bool.true_eq_false, false_or]
    rw [asmToInt, Fr_toInt, hl, plainLimbs]
    cases hm : e.mont
    · exact asmLongInt_eq (he.getLong hl hm)
    · exact asmLongInt_eq (toNormalInto_rep hq u he hl)

/-- C62, `toInt`: whatever the assembly returns is what the portable function returns. -/
theorem C62_toInt_partial (ra : BitVec 64) (hq : Modulus q) (h7 : FromOk q (opAt q s .rdi)) (h : TagReady q s) (u : Elem)
    (hx : Rep q (opAt q s .rdi) x) :
    ToIntIs ra q s (Fr_toInt q u (opAt q s .rdi)) ∨ ToIntFails ra q s := by
  have key := toInt_is (ra := ra) hq h7 h u
  rw [asmToInt_eq hq u hx] at key
  split at key
  · exact .inl key
  · exact .inr (key.2 rfl)

theorem lrep_cons {l : Limbs} (h : LRep q l x) : ∃ w ws, l = w :: ws ∧ ws.length + 1 = n64 q ∧ w.toNat + 2 ^ 64 * val ws = x.val := by
  have h1 := h.1
  have hv := h.val_eq
  have := n64_pos q
  match l, h1, hv with
  | [], h, _ => simp at h; omega
  | w :: ws, h, hv => exact ⟨w, ws, rfl, by simpa using h, by rw [← hv, val_cons, W_eq.symm]⟩

theorem rawq_split (q : Nat) : ∃ y ys, rawq q = y :: ys ∧ ys.length + 1 = n64 q ∧ y.toNat + 2 ^ 64 * val ys = q := by
  obtain ⟨y, ys, e, h⟩ := rawq_cons q
  exact ⟨y, ys, e, h, by rw [← rawq_val q, e, val_cons, W_eq.symm]⟩

theorem plain_rep (hq : Modulus q) (u : Elem) {e : Elem} (he : Rep q e x) (hl : e.long = true) : LRep q (plainLimbs q u e) x := by
  rw [plainLimbs]
  cases hm : e.mont
  · exact he.getLong hl hm
  · exact toNormalInto_rep hq u he hl

/-- Every subtraction borrows when the first limb of the modulus covers the distance. -/
theorem borrows_near {l : Limbs} (h : LRep q l x) (h1 : x.val < q) (h2 : q - x.val ≤ q % 2 ^ 64) : borrowsAll l (rawq q) = true := by
  obtain ⟨w, ws, rfl, hl, hv⟩ := lrep_cons h
  obtain ⟨y, ys, e, hl', hv'⟩ := rawq_split q
  have hw : w.toNat < 2 ^ 64 := w.isLt
  have hy : y.toNat < 2 ^ 64 := y.isLt
  have e1 : val ws = val ys := by omega
  have e2 : ws = ys := val_inj (by omega) e1
  rw [e, borrowsAll, e2, decide_eq_true (by omega), Bool.true_and]
  exact decide_eq_true (List.forall₂_same.2 fun _ _ => Nat.le_refl _)

theorem borrows_one {l : Limbs} (h64 : n64 q = 1) (h : LRep q l x) (h1 : x.val < q) : borrowsAll l (rawq q) = true := by
  obtain ⟨w, ws, rfl, hl, hv⟩ := lrep_cons h
  obtain ⟨y, ys, e, hl', hv'⟩ := rawq_split q
  rw [h64] at hl hl'
  have e1 : ws = [] := List.eq_nil_of_length_eq_zero (by omega)
  have e2 : ys = [] := List.eq_nil_of_length_eq_zero (by omega)
  have z : val [] = 0 := rfl
  rw [e1, z] at hv
  rw [e2, z] at hv'
  rw [e, e1, e2, borrowsAll, decide_eq_true (by omega)]
  rfl

/-- C68: a value whose signed representative fits `int32_t` is returned, the memory of the caller unchanged.
Missing: negative values whose distance from zero exceeds the first limb of the modulus (`C68_toInt_small_violated`); values that do
not fit, where some are answered instead of refused (`C68_toInt_large_violated`); long
Montgomery operands of the seven-limb moduli, for which C55 has no right conversion. -/
theorem C68_toInt_fits_partial (ra : BitVec 64) (hq : Modulus q) (h7 : FromOk q (opAt q s .rdi)) (h : TagReady q s)
    (hx : Rep q (opAt q s .rdi) x) (h1 : -2147483648 ≤ sval x) (h2 : sval x ≤ 2147483647) (h3 : -sval x ≤ (q % 2 ^ 64 : Nat)) :
    ∃ v, ToIntGives ra q s v ∧ v.toInt = sval x := by
  obtain ⟨v, e, hv⟩ := C17_toInt_fits_partial (u := opAt q s .rdi) hq hx h1 h2
  refine ⟨v, (toInt_is (ra := ra) hq h7 h (opAt q s .rdi)).1 v ?_, hv⟩
  rw [asmToInt_eq hq _ hx, e, if_pos]
  cases hl : (opAt q s .rdi).long
  · exact .inl rfl
  · right
    have := hq.ne
    have hlt := ZMod.val_lt x
    by_cases hc : x.val < 2147483648
    · exact .inl hc
    · have hg := hq.gt
      unfold sval at h1 h2 h3
      have hh : ¬ x.val ≤ q / 2 := fun hh => by rw [if_pos hh] at h2; omega
      rw [if_neg hh] at h3
      exact .inr (borrows_near (plain_rep hq _ hx hl) hlt (by omega))

/-- C68 in full for the moduli of one limb: the value is returned if it fits `int32_t`, otherwise the call fails. -/
theorem C68_toInt_one_limb (ra : BitVec 64) (hq : Modulus q) (h64 : q < 2 ^ 64) (h : TagReady q s) (hx : Rep q (opAt q s .rdi) x) :
    ToIntIs ra q s (if -2147483648 ≤ sval x ∧ sval x ≤ 2147483647 then some (BitVec.ofInt 32 (sval x)) else none) := by
  have hn : n64 q = 1 := by
    have := hq.big
    have h1 : bitLen q ≤ 64 := by
      unfold bitLen; exact (Nat.log2_lt (by omega)).2 h64
    unfold n64; omega
  have := hq.ne
  rw [← C17_toInt_one_limb (u := opAt q s .rdi) hq h64 hx]
  have key := toInt_is (ra := ra) hq (.of_ne (by omega) _) h (opAt q s .rdi)
  rw [asmToInt_eq hq _ hx, if_pos] at key
  · exact key
  · cases hl : (opAt q s .rdi).long
    · exact .inl rfl
    · exact .inr (.inr (borrows_one hn (plain_rep hq _ hx hl) (ZMod.val_lt x)))

end toInt

/-! ## The hypotheses are met, and the limits are real -/

example : ∃ v, ToIntGives 0 bnR (tagDemo (sL (bnR - 3)) (sS 0) (sS 0) 0 0 0) v ∧ v.toInt = sval ((bnR - 3 : Nat) : ZMod bnR) := by
  have : NeZero bnR := ⟨by decide +kernel⟩
  have hv : sval ((bnR - 3 : Nat) : ZMod bnR) = -3 := by
    unfold sval; rw [ZMod.val_natCast]; decide +kernel
  exact C68_toInt_fits_partial 0 bnR_modulus (.of_ne (by rw [n64_bnR]; decide) _) (tagDemo_ready (by decide) (by decide +kernel))
    (Rep_iff.mpr (by decide +kernel)) (by rw [hv]; decide) (by rw [hv]; decide) (by rw [hv]; decide +kernel)

example : ToIntIs 0 bnR (tagDemo (sM 77) (sS 0) (sS 0) 0 0 0) (Fr_toInt bnR (sS 0) (sM 77)) ∨ ToIntFails 0 bnR (tagDemo (sM 77) (sS 0) (sS 0) 0 0 0) := by
  have e : opAt bnR (tagDemo (sM 77) (sS 0) (sS 0) 0 0 0) .rdi = sM 77 := by decide +kernel
  have := C62_toInt_partial (x := ((77 : Nat) : ZMod bnR)) (s := tagDemo (sM 77) (sS 0) (sS 0) 0 0 0) 0 bnR_modulus
    (.of_ne (by rw [n64_bnR]; decide) _) (tagDemo_ready (by decide) (by decide +kernel)) (sS 0) (Rep_iff.mpr (by decide +kernel))
  rwa [e] at this

/-- C68 fails for moduli of more than one limb: an element far outside `int32_t` (its residue is `q - 2^64 - 1`) is returned as `-1`. -/
theorem C68_toInt_large_violated (ra : BitVec 64) :
    Rep bnR (opAt bnR (tagDemo (sL (bnR - 2 ^ 64 - 1)) (sS 0) (sS 0) 0 0 0) .rdi) ((bnR - 2 ^ 64 - 1 : Nat) : ZMod bnR) ∧
    TagReady bnR (tagDemo (sL (bnR - 2 ^ 64 - 1)) (sS 0) (sS 0) 0 0 0) ∧
    ToIntGives ra bnR (tagDemo (sL (bnR - 2 ^ 64 - 1)) (sS 0) (sS 0) 0 0 0) (-1) := by
  have hr : TagReady bnR (tagDemo (sL (bnR - 2 ^ 64 - 1)) (sS 0) (sS 0) 0 0 0) := tagDemo_ready (by decide) (by decide +kernel)
  refine ⟨Rep_iff.mpr (by decide +kernel), hr, (toInt_is bnR_modulus (.of_ne (by rw [n64_bnR]; decide) _) hr (sS 0)).1 _ ?_⟩
  decide +kernel

/-- A machine for a modulus of `n` limbs: the tables from address 0, the argument behind them. -/
def smallDemo (q n : Nat) (e : Elem) : State where
  reg := fun r => match r with | .rdi => BitVec.ofNat 64 (32 * n + 16) | .rsp => 4096 | _ => 0
  fl := ⟨true, true, true, true⟩
  mem := memOf (rawq q ++ half q ++ rawR2 q ++ rawR3 q ++ [lboMask q, np q] ++ words e)
  sym := fun y => match y with
    | .q => 0 | .half => BitVec.ofNat 64 (8 * n) | .r2 => BitVec.ofNat 64 (16 * n) | .r3 => BitVec.ofNat 64 (24 * n)
    | .lboMask => BitVec.ofNat 64 (32 * n) | .np => BitVec.ofNat 64 (32 * n + 8)

theorem smallDemo_ready {q n : Nat} {e : Elem} (hn : n64 q = n) (h4 : n ≤ 4)
    (hd : rd (smallDemo q n e).mem 0 n = rawq q ∧ rd (smallDemo q n e).mem (BitVec.ofNat 64 (8 * n)) n = half q ∧
      rd (smallDemo q n e).mem (BitVec.ofNat 64 (16 * n)) n = rawR2 q ∧ rd (smallDemo q n e).mem (BitVec.ofNat 64 (24 * n)) n = rawR3 q ∧
      (smallDemo q n e).mem (BitVec.ofNat 64 (32 * n)) = lboMask q ∧ (smallDemo q n e).mem (BitVec.ofNat 64 (32 * n + 8)) = np q) :
    TagReady q (smallDemo q n e) := by
  subst hn
  obtain ⟨h1, h2, h3, h5, h6, h7⟩ := hd
  have sm : ∀ k, k < 1024 → (BitVec.ofNat 64 k).toNat = k := fun k hk => by rw [BitVec.toNat_ofNat]; omega
  have low : ∀ {a : BitVec 64}, a.toNat < 2048 → ¬ InStk 4096 (tagStack q) a := by
    rintro a h ⟨j, h1, rfl⟩
    have hj : j < 36 := by unfold tagStack at h1; omega
    clear h1
    revert h; revert j; decide +kernel
  have ar : ∀ {k m : Nat} {a : BitVec 64}, k < 1024 → m ≤ 5 → InArr (BitVec.ofNat 64 k) m a → a.toNat < 2048 ∧ k ≤ a.toNat ∧ a.toNat < k + 8 * m := by
    intro k m a hk hm h
    have := arr_low (by rw [sm k hk]; exact hk) hm h
    rwa [sm k hk] at this
  have dat : ∀ {a : BitVec 64}, InData q (smallDemo q (n64 q) e).sym a → a.toNat < 32 * n64 q + 16 := by
    intro a h
    rw [InData] at h
    rcases h with h | h | h | h | h | h
    · have := (ar (k := 0) (by omega) (by omega) h).2.2; omega
    · have := (ar (by omega) (by omega) h).2.2; omega
    · have := (ar (by omega) (by omega) h).2.2; omega
    · have := (ar (by omega) (by omega) h).2.2; omega
    · have := sm (32 * n64 q) (by omega)
      rw [h]; show (BitVec.ofNat 64 (32 * n64 q)).toNat < _; omega
    · have := sm (32 * n64 q + 8) (by omega)
      rw [h]; show (BitVec.ofNat 64 (32 * n64 q + 8)).toNat < _; omega
  have arr : ∀ {a : BitVec 64}, InArr ((smallDemo q (n64 q) e).reg .rdi) (n64 q + 1) a → a.toNat < 2048 ∧ 32 * n64 q + 16 ≤ a.toNat := by
    intro a h
    have := ar (k := 32 * n64 q + 16) (by omega) (by omega) h
    exact ⟨this.1, this.2.1⟩
  exact ⟨by unfold tagStack; omega, h1, h2, h3, h5, h6, h7, fun a h => low (by have := dat h; omega), fun a h => low (arr h).1,
    fun a h h' => by have := dat h'; have := (arr h).2; omega⟩

/-- The Goldilocks prime, one limb. -/
def goldP : Nat := 2 ^ 64 - 2 ^ 32 + 1

example : ToIntIs 0 goldP (smallDemo goldP 1 ⟨0, true, false, [2 ^ 63]⟩) none ∧
    ToIntIs 0 goldP (smallDemo goldP 1 ⟨0, true, false, toLimbs 1 (goldP - 14)⟩) (some (-14)) := by
  have hm : Modulus goldP := ⟨by decide +kernel, by decide +kernel, by decide +kernel⟩
  have : NeZero goldP := ⟨by decide +kernel⟩
  have h1 : sval ((2 ^ 63 : Nat) : ZMod goldP) = 2 ^ 63 - goldP := by unfold sval; rw [ZMod.val_natCast]; decide +kernel
  have h2 : sval ((goldP - 14 : Nat) : ZMod goldP) = -14 := by unfold sval; rw [ZMod.val_natCast]; decide +kernel
  constructor
  · have := C68_toInt_one_limb (x := ((2 ^ 63 : Nat) : ZMod goldP)) 0 hm (by decide +kernel)
      (smallDemo_ready (q := goldP) (n := 1) (e := ⟨0, true, false, [2 ^ 63]⟩) (by decide +kernel) (by decide) (by decide +kernel)) (Rep_iff.mpr (by decide +kernel))
    rwa [h1, if_neg (by decide +kernel)] at this
  · have := C68_toInt_one_limb (x := ((goldP - 14 : Nat) : ZMod goldP)) 0 hm (by decide +kernel)
      (smallDemo_ready (q := goldP) (n := 1) (e := ⟨0, true, false, toLimbs 1 (goldP - 14)⟩) (by decide +kernel) (by decide) (by decide +kernel)) (Rep_iff.mpr (by decide +kernel))
    rwa [h2, if_pos (by decide)] at this

/-- A two-limb modulus with a small first limb. -/
def smallLow : Nat := 2 ^ 64 + 13

theorem n64_small : n64 smallLow = 2 := by decide +kernel

/-- The long form of `q - 14`. -/
def smallArg : Elem := ⟨0, true, false, toLimbs 2 (smallLow - 14)⟩

/-- C68 fails for small negative values if the first limb of the modulus is smaller still: `toInt` of `-14` modulo `2^64 + 13` ends the
program.  The portable function returns `-14`. -/
theorem C68_toInt_small_violated (ra : BitVec 64) :
    Modulus smallLow ∧ TagReady smallLow (smallDemo smallLow 2 smallArg) ∧
    Rep smallLow (opAt smallLow (smallDemo smallLow 2 smallArg) .rdi) (-14) ∧ sval (-14 : ZMod smallLow) = -14 ∧
    Fr_toInt smallLow (sS 0) (opAt smallLow (smallDemo smallLow 2 smallArg) .rdi) = some (-14) ∧ ToIntFails ra smallLow (smallDemo smallLow 2 smallArg) := by
  have hm : Modulus smallLow := ⟨by decide +kernel, by decide +kernel, by decide +kernel⟩
  have hr : TagReady smallLow (smallDemo smallLow 2 smallArg) := smallDemo_ready n64_small (by decide) (by decide +kernel)
  have hv : (-14 : ZMod smallLow) = ((smallLow - 14 : Nat) : ZMod smallLow) := by
    rw [Nat.cast_sub (by decide +kernel), ZMod.natCast_self]; simp
  have : NeZero smallLow := ⟨by decide +kernel⟩
  refine ⟨hm, hr, ?_, ?_, by decide +kernel, (toInt_is hm (.of_ne (by rw [n64_small]; decide) _) hr (sS 0)).2 ?_⟩
  · rw [hv]; exact Rep_iff.mpr (by decide +kernel)
  · rw [hv]; unfold sval; rw [ZMod.val_natCast]; decide +kernel
  · decide +kernel

end FF.Props
