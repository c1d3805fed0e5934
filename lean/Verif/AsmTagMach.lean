import Verif.AsmEval
import Verif.AsmShiftTag
import Verif.AsmToInt
import Verif.AsmCmp
import Verif.Props.AsmTagged

/-!
# A machine for the tagged routines and any modulus, and an evaluator for the library

`tagMach q` lays out the tables, three elements and the stack for any modulus of at most fifteen limbs.  `libRawF` … `libCmpF` are the
libraries with the evaluator `runF` instead of `run`; they are equal to the libraries.
-/

namespace FF.Props

open FF FF.X86

/-! ## The machine -/

/-- The tables, the two words and the elements, 128 bytes each. -/
def machSlots (q : Nat) (e0 e1 e2 : Elem) : List Limbs :=
  [rawq q, half q, rawR2 q, rawR3 q, [lboMask q, np q], words e0, words e1, words e2]

/-- The word at address `a` of the memory made of such slots. -/
def slotMem (l : List Limbs) (a : BitVec 64) : BitVec 64 := (l.getD (a.toNat / 128) []).getD (a.toNat % 128 / 8) 0

/-- A machine for the modulus `q`: the tables from address 0, three elements at 640, 768 and 896, of which the `i`-th, `j`-th and `k`-th
are the result and the operands, the stack below 4096. -/
def tagMach (q : Nat) (e0 e1 e2 : Elem) (i j k : Nat) : State where
  reg := fun r => match r with
    | .rdi => BitVec.ofNat 64 (128 * (5 + i)) | .rsi => BitVec.ofNat 64 (128 * (5 + j))
    | .rdx => BitVec.ofNat 64 (128 * (5 + k)) | .rsp => 4096 | .rbx => 7 | _ => 0
  fl := ⟨true, true, true, true⟩
  mem := slotMem (machSlots q e0 e1 e2)
  sym := fun y => match y with | .q => 0 | .half => 128 | .r2 => 256 | .r3 => 384 | .lboMask => 512 | .np => 520

theorem slot_cell {i j : Nat} (hi : i < 8) (hj : j < 16) : (cell (BitVec.ofNat 64 (128 * i)) j).toNat = 128 * i + 8 * j := by
  rw [cell, BitVec.toNat_add, BitVec.toNat_ofNat, BitVec.toNat_ofNat]; omega

theorem rd_slot {l : List Limbs} {i n : Nat} (hi : i < 8) (hn : n ≤ 16) {x : Limbs} (hx : l.getD i [] = x) (hl : x.length = n) :
    rd (slotMem l) (BitVec.ofNat 64 (128 * i)) n = x := by
  apply List.ext_getElem (by rw [rd_length, hl])
  intro j h1 h2
  rw [rd_getElem, slotMem, slot_cell hi (by omega), show (128 * i + 8 * j) / 128 = i by omega,
    show (128 * i + 8 * j) % 128 / 8 = j by omega, hx, List.getD_eq_getElem _ _ h2]

variable {q : Nat} {e0 e1 e2 : Elem} {i j k : Nat}

theorem mach_arr {p : BitVec 64} {m i : Nat} (hp : p = BitVec.ofNat 64 (128 * i)) (hi : i < 8) (hm : m ≤ 16) {a : BitVec 64} (h : InArr p m a) :
    128 * i ≤ a.toNat ∧ a.toNat < 128 * i + 128 := by
  obtain ⟨j, h1, rfl⟩ := h
  rw [hp, slot_cell hi (by omega)]
  omega

theorem mach_stk {a : BitVec 64} (hn : n64 q ≤ 15) (h : InStk 4096 (tagStack q) a) : 3000 < a.toNat := by
  obtain ⟨j, h1, rfl⟩ := h
  rw [tagStack] at h1
  rw [stk, BitVec.toNat_sub, BitVec.toNat_ofNat]
  have : (4096 : BitVec 64).toNat = 4096 := rfl
  rw [this]
  omega

theorem mach_data (hn : n64 q ≤ 15) {a : BitVec 64} (h : InData q (tagMach q e0 e1 e2 i j k).sym a) : a.toNat < 640 := by
  rcases h with h | h | h | h | h | h
  · have := (mach_arr (i := 0) rfl (by omega) (by omega) h).2; omega
  · have := (mach_arr (i := 1) rfl (by omega) (by omega) h).2; omega
  · have := (mach_arr (i := 2) rfl (by omega) (by omega) h).2; omega
  · have := (mach_arr (i := 3) rfl (by omega) (by omega) h).2; omega
  · subst h; exact (show (512 : BitVec 64).toNat < 640 by decide)
  · subst h; exact (show (520 : BitVec 64).toNat < 640 by decide)

theorem mach_mask : (tagMach q e0 e1 e2 i j k).mem 512 = lboMask q := by
  show slotMem (machSlots q e0 e1 e2) 512 = _
  rw [slotMem, show (512 : BitVec 64).toNat = 512 from rfl]
  rfl

theorem mach_np : (tagMach q e0 e1 e2 i j k).mem 520 = np q := by
  show slotMem (machSlots q e0 e1 e2) 520 = _
  rw [slotMem, show (520 : BitVec 64).toNat = 520 from rfl]
  rfl

/-- The machine is ready, whatever the modulus and the elements. -/
theorem tagMach_ready (hn : n64 q ≤ 15) (hi : i < 3) : TagReady q (tagMach q e0 e1 e2 i j k) := by
  have hs : ∀ i < 8, ∀ x : Limbs, x.length = n64 q → (machSlots q e0 e1 e2).getD i [] = x →
      rd (tagMach q e0 e1 e2 i j k).mem (BitVec.ofNat 64 (128 * i)) (n64 q) = x := fun i hi x hx h => rd_slot hi (by omega) h hx
  refine ⟨by rw [tagStack]; omega, hs 0 (by omega) _ (rawq_length q) rfl, hs 1 (by omega) _ (by simp [half]) rfl,
    hs 2 (by omega) _ (by simp [rawR2]) rfl, hs 3 (by omega) _ (by simp [rawR3]) rfl, mach_mask, mach_np, fun a h h' => ?_, fun a h h' => ?_,
    fun a h h' => ?_⟩
  · have := mach_data hn h; have := mach_stk hn h'; omega
  · have := mach_arr (i := 5 + i) rfl (by omega) (by omega) h; have := mach_stk hn h'; omega
  · have := mach_arr (i := 5 + i) rfl (by omega) (by omega) h; have := mach_data hn h'; omega

theorem mach_operand {s : State} {b : Reg} (hn : n64 q ≤ 15) (hi : i < 3) (hj : j < 3) (hd : s.reg .rdi = BitVec.ofNat 64 (128 * (5 + i)))
    (hb : s.reg b = BitVec.ofNat 64 (128 * (5 + j))) (hs : s.reg .rsp = 4096) : TagOperand q s b := by
  refine ⟨?_, fun a h h' => ?_⟩
  · by_cases e : j = i
    · exact .inl (by rw [hd, hb, e])
    · refine .inr fun k l hk hl c => e ?_
      have := congrArg BitVec.toNat c
      rw [hd, hb, slot_cell (by omega) (by omega), slot_cell (by omega) (by omega)] at this
      omega
  · have := mach_arr (i := 5 + j) hb (by omega) (by omega) h
    have := mach_stk (q := q) hn (hs ▸ h')
    omega

theorem tagMach_opnds (hn : n64 q ≤ 15) (hi : i < 3) (hj : j < 3) (hk : k < 3) :
    TagOperand q (tagMach q e0 e1 e2 i j k) .rsi ∧ TagOperand q (tagMach q e0 e1 e2 i j k) .rdx :=
  ⟨mach_operand hn hi hj rfl rfl rfl, mach_operand hn hi hk rfl rfl rfl⟩

/-! ## The evaluator -/

/-- Runs a listing to its end. -/
def runE (env : String → Option (State → Option State)) (ra : BitVec 64) (p : List Line) (s : State) : Option State :=
  runF env ra (p.length + 1) p s

theorem runE_eq (env : String → Option (State → Option State)) (ra : BitVec 64) (p : List Line) : run env ra p = runE env ra p :=
  funext fun s => run_eq_runF env ra _ p s (Nat.lt_succ_self _)

def libRawF (q : Nat) (ra : BitVec 64) : String → Option (State → Option State) := fun f =>
  if f = "rawCopyS2L" then some (runE noCalls ra (X86.rawCopyS2L (n64 q)))
  else if f = "copy" then some (runE noCalls ra (copy (n64 q)))
  else if f = "rawAddLL" then some (runE noCalls ra (rawAddLL (n64 q)))
  else if f = "rawAddLS" then some (runE noCalls ra (X86.rawAddLS (n64 q)))
  else if f = "rawSubLL" then some (runE noCalls ra (rawSubLL (n64 q)))
  else if f = "rawSubLS" then some (runE noCalls ra (X86.rawSubLS (n64 q)))
  else if f = "rawSubSL" then some (runE noCalls ra (X86.rawSubSL (n64 q)))
  else if f = "rawNegL" then some (runE noCalls ra (rawNegL (n64 q)))
  else if f = "rawNegLS" then some (runE noCalls ra (X86.rawNegLS (n64 q)))
  else if f = "rawMMul" then (template (n64 q) (canOpt q) (upperMul (n64 q) (canOpt q))).map (runE noCalls ra)
  else if f = "rawMMul1" then (template (n64 q) (canOpt q) (upperMul1 (n64 q) (canOpt q))).map (runE noCalls ra)
  else if f = "rawMSquare" then (template (n64 q) (canOpt q) (upperSquare (n64 q) (canOpt q))).map (runE noCalls ra)
  else if f = "rawFromMontgomery" then (template (n64 q) (canOpt q) (upperFrom (n64 q) (canOpt q))).map (runE noCalls ra)
  else none

theorem libRawF_eq (q : Nat) (ra : BitVec 64) : libRaw q ra = libRawF q ra := by
  funext f
  have : run noCalls ra = runE noCalls ra := funext (runE_eq noCalls ra)
  simp only [libRaw, libRawF, this]

def libF (q : Nat) (ra : BitVec 64) : String → Option (State → Option State) := fun f =>
  if f = "toMontgomery" then some (runE (libRawF q ra) ra toMontgomery)
  else if f = "toNormal" then some (runE (libRawF q ra) ra toNormal)
  else if f = "toLongNormal" then some (runE (libRawF q ra) ra toLongNormal)
  else libRawF q ra f

theorem libF_eq (q : Nat) (ra : BitVec 64) : lib q ra = libF q ra := by
  funext f
  simp only [lib, libF, libRawF_eq, runE_eq]

def libCmpF (q : Nat) (ra : BitVec 64) : String → Option (State → Option State) := fun f =>
  if f = "rgt" then some (runE (libF q ra) ra (rgtCode (n64 q)))
  else if f = "rlt" then some (runE (libF q ra) ra (rltCode (n64 q)))
  else if f = "req" then some (runE (libF q ra) ra (reqCode (n64 q)))
  else libF q ra f

theorem libCmpF_eq (q : Nat) (ra : BitVec 64) : libCmp q ra = libCmpF q ra := by
  funext f
  simp only [libCmp, libCmpF, libF_eq, runE_eq]

def libShiftF (q : Nat) (ra : BitVec 64) : String → Option (State → Option State) := fun f =>
  if f = "rawShl" then some (runE noCalls ra (rawShlCode (bitLen q) (n64 q)))
  else if f = "rawShr" then some (runE noCalls ra (rawShrCode (bitLen q) (n64 q)))
  else libF q ra f

theorem libShiftF_eq (q : Nat) (ra : BitVec 64) : libShift q ra = libShiftF q ra := by
  funext f
  simp only [libShift, libShiftF, libF_eq, runE_eq]

def libFailF (q : Nat) (ra : BitVec 64) (g : State → Option State) : String → Option (State → Option State) := fun f =>
  if f = "fail" then some g else libF q ra f

theorem libFailF_eq (q : Nat) (ra : BitVec 64) (g : State → Option State) : libFail q ra g = libFailF q ra g := by
  funext f
  simp only [libFail, libFailF, libF_eq]

/-- What an evaluation says about a run. -/
theorem run_of_eval {env envF : String → Option (State → Option State)} {ra : BitVec 64} {code : List Line} {s : State} {P : State → Bool}
    (he : env = envF) (h : (runE envF ra code s).map P = some true) : ∃ s', run env ra code s = some s' ∧ P s' = true := by
  subst he
  rw [← runE_eq] at h
  cases h1 : run env ra code s with
  | none => rw [h1] at h; simp at h
  | some s' => rw [h1] at h; exact ⟨s', rfl, by simpa using h⟩

end FF.Props
