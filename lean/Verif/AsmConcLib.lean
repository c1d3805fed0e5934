import Verif.AsmConc
import Verif.AsmConcWf
import Verif.AsmTouchTagRun

/-!
# The routines of the x86-64 library as code for threads

`codes` is the link table; `Routine` pairs a listing with the description of its callees.
-/

namespace FF.X86

open FF.Conc (Machine Alone)

/-- The listings that are called by name.  `fail` is `assert(false)` (`src/fr.cpp.ejs:165-167`): the thread does not go on. -/
def codes (q : Nat) : String → Option (List Line) := fun f =>
  if f = "rgt" then some (rgtCode (n64 q))
  else if f = "rlt" then some (rltCode (n64 q))
  else if f = "req" then some (reqCode (n64 q))
  else if f = "rawShl" then some (rawShlCode (bitLen q) (n64 q))
  else if f = "rawShr" then some (rawShrCode (bitLen q) (n64 q))
  else if f = "toMontgomery" then some toMontgomery
  else if f = "toNormal" then some toNormal
  else if f = "toLongNormal" then some toLongNormal
  else if f = "rawCopyS2L" then some (rawCopyS2L (n64 q))
  else if f = "copy" then some (copy (n64 q))
  else if f = "rawAddLL" then some (rawAddLL (n64 q))
  else if f = "rawAddLS" then some (rawAddLS (n64 q))
  else if f = "rawSubLL" then some (rawSubLL (n64 q))
  else if f = "rawSubLS" then some (rawSubLS (n64 q))
  else if f = "rawSubSL" then some (rawSubSL (n64 q))
  else if f = "rawNegL" then some (rawNegL (n64 q))
  else if f = "rawNegLS" then some (rawNegLS (n64 q))
  else if f = "rawMMul" then template (n64 q) (canOpt q) (upperMul (n64 q) (canOpt q))
  else if f = "rawMMul1" then template (n64 q) (canOpt q) (upperMul1 (n64 q) (canOpt q))
  else if f = "rawMSquare" then template (n64 q) (canOpt q) (upperSquare (n64 q) (canOpt q))
  else if f = "rawFromMontgomery" then template (n64 q) (canOpt q) (upperFrom (n64 q) (canOpt q))
  else if f = "fail" then some []
  else none

/-! ## No `mulx` in the tagged listings -/

/-- A line other than `mulx`. -/
def Line.wfb : Line → Bool
  | .ins (.mulx _ _ _) => false
  | _ => true

theorem Line.wf_of_wfb {i : Line} (h : i.wfb = true) : i.wf := by
  cases i with
  | ins i => cases i with
    | op2 o d b => trivial
    | mulx a b c => cases h
  | _ => trivial

def Item.wfb : Item → Bool
  | .ln l => l.wfb
  | _ => true

theorem wf_items {q : Nat} {p : List Item} (hp : ∀ x ∈ p, x.Fine q) (h : p.all Item.wfb = true) : ∀ i ∈ codeOf (bitLen q) (n64 q) p, i.wf := by
  intro i hi
  obtain ⟨x, hx, hi⟩ := List.mem_flatMap.1 hi
  have h1 := List.all_eq_true.1 h x hx
  have h2 := hp x hx
  cases x with
  | ln l => rw [List.mem_singleton.1 hi]; exact Line.wf_of_wfb h1
  | alloc => rw [List.mem_singleton.1 hi]; trivial
  | blk c rd wr outs =>
    have := h2.1 i hi
    cases i with
    | ins i => cases i with
      | op2 o d b => trivial
      | mulx a b c => cases this
    | _ => trivial

theorem wf_lines {p : List Line} (h : p.all Line.wfb = true) : ∀ i ∈ p, i.wf := fun i hi => Line.wf_of_wfb (List.all_eq_true.1 h i hi)

theorem wf_of_tame {p : List Line} (hp : ∀ i ∈ p, i.tame = true) : ∀ i ∈ p, i.wf := by
  intro i hi
  have := hp i hi
  simp only [Line.tame, Bool.and_eq_true] at this
  cases i with
  | ins i => cases i with
    | op2 o d b => trivial
    | mulx a b c => exact absurd this.2 Bool.false_ne_true
  | _ => trivial

section
variable {q : Nat}

theorem wf_add : ∀ i ∈ addCode (n64 q), i.wf := by
  have := wf_items (q := q) (p := addI) (addSubI_fine _ _ _ _ _) (by decide +kernel)
  rwa [addI, addSubI_code] at this
theorem wf_sub : ∀ i ∈ subCode (n64 q), i.wf := by
  have := wf_items (q := q) (p := subI) (addSubI_fine _ _ _ _ _) (by decide +kernel)
  rwa [subI, addSubI_code] at this
theorem wf_rgt : ∀ i ∈ rgtCode (n64 q), i.wf := by
  have := wf_items (q := q) rgtI_fine (by decide +kernel)
  rwa [rgtI_code] at this
theorem wf_rlt : ∀ i ∈ rltCode (n64 q), i.wf := by
  have := wf_items (q := q) rltI_fine (by decide +kernel)
  rwa [rltI_code] at this
theorem wf_req : ∀ i ∈ reqCode (n64 q), i.wf := by
  have := wf_items (q := q) reqI_fine (by decide +kernel)
  rwa [reqI_code] at this
theorem wf_land : ∀ i ∈ landCode (n64 q), i.wf := by
  have := wf_items (q := q) (logicalI_fine .and) (by decide +kernel)
  rwa [logicalI_code] at this
theorem wf_lor : ∀ i ∈ lorCode (n64 q), i.wf := by
  have := wf_items (q := q) (logicalI_fine .or) (by decide +kernel)
  rwa [logicalI_code] at this
theorem wf_lnot : ∀ i ∈ lnotCode (n64 q), i.wf := by
  have := wf_items (q := q) lnotI_fine (by decide +kernel)
  rwa [lnotI_code] at this
theorem wf_isTrue : ∀ i ∈ isTrueCode (n64 q), i.wf := by
  have := wf_items (q := q) isTrueI_fine (by decide +kernel)
  rwa [isTrueI_code] at this
theorem wf_band : ∀ i ∈ bandCode (n64 q), i.wf := by
  have := wf_items (q := q) (bitI_fine .and .and) (by decide +kernel)
  rwa [bitI_code] at this
theorem wf_bor : ∀ i ∈ borCode (n64 q), i.wf := by
  have := wf_items (q := q) (bitI_fine .or .or) (by decide +kernel)
  rwa [bitI_code] at this
theorem wf_bxor : ∀ i ∈ bxorCode (n64 q), i.wf := by
  have := wf_items (q := q) (bitI_fine .xor .xor) (by decide +kernel)
  rwa [bitI_code] at this
theorem wf_bnot : ∀ i ∈ bnotCode (n64 q), i.wf := by
  have := wf_items (q := q) bnotI_fine (by decide +kernel)
  rwa [bnotI_code] at this
theorem wf_shl : ∀ i ∈ shlCode (bitLen q) (n64 q), i.wf := by
  have := wf_items (q := q) shlI_fine (by decide +kernel)
  rwa [shlI_code] at this
theorem wf_shr : ∀ i ∈ shrCode (bitLen q) (n64 q), i.wf := by
  have := wf_items (q := q) shrI_fine (by decide +kernel)
  rwa [shrI_code] at this

theorem wf_toInt : ∀ i ∈ toIntCode (n64 q), i.wf := by
  have := wf_items (q := q) toIntI_fine (by decide +kernel)
  rwa [toIntI_code] at this

theorem codes_wf : ∀ f b, codes q f = some b → ∀ i ∈ b, i.wf := by
  have h0 : ∀ {n f : String} {c b : List Line} {x : Option (List Line)}, (∀ i ∈ c, i.wf) → (x = some b → ∀ i ∈ b, i.wf) →
      (if f = n then some c else x) = some b → ∀ i ∈ b, i.wf := by
    intro n f c b x hc hx h
    split at h
    · cases h; exact hc
    · exact hx h
  have h1 : ∀ {n f : String} {c : Option (List Line)} {b : List Line} {x : Option (List Line)}, (c = some b → ∀ i ∈ b, i.wf) → (x = some b → ∀ i ∈ b, i.wf) →
      (if f = n then c else x) = some b → ∀ i ∈ b, i.wf := by
    intro n f c b x hc hx h
    split at h
    · exact hc h
    · exact hx h
  intro f b
  unfold codes
  exact h0 wf_rgt (h0 wf_rlt (h0 wf_req (h0 (wf_of_tame (tame_rawShl _ _)) (h0 (wf_of_tame (tame_rawShr _ _)) (h0 (wf_lines (by decide +kernel))
    (h0 (wf_lines (by decide +kernel)) (h0 (wf_lines (by decide +kernel)) (h0 (wf_rawCopyS2L _) (h0 (wf_copy _) (h0 (wf_rawAddLL _) (h0 (wf_rawAddLS _)
    (h0 (wf_rawSubLL _) (h0 (wf_rawSubLS _) (h0 (wf_rawSubSL _) (h0 (wf_rawNegL _) (h0 (wf_rawNegLS _)
    (h1 (fun h => template_wf h (upperMul_dst _ _)) (h1 (fun h => template_wf h (upperMul1_dst _ _)) (h1 (fun h => template_wf h (upperSquare_dst _ _))
    (h1 (fun h => template_wf h (upperFrom_dst _ _)) (h0 (fun i hi => by cases hi) (fun h => by cases h))))))))))))))))))))))

end

/-! ## Linking -/

section
variable {cs : String → Option (List Line)} {ra : BitVec 64} {env env' : String → Option (State → Option State)} {T T' : String → State → List Access}

theorem linked_noCalls : Linked cs ra noCalls T := fun f g h => by simp [noCalls] at h

theorem Linked.add (h : Linked cs ra env T) (h' : Linked cs ra env' T') {n : String} {c : List Line} (hc : cs n = some c) :
    Linked cs ra (fun f => if f = n then some (run env' ra c) else env f) (fun f => if f = n then touched env' T' ra c else T f) := by
  intro f g hg
  simp only at hg ⊢
  split at hg
  · rename_i hf
    subst hf
    simp only [if_true]
    cases hg
    exact ⟨c, hc, fun s t ht k => run_alone h' c ht k⟩
  · rename_i hf
    simp only [hf, if_false]
    exact h f g hg

theorem Linked.addT (h : Linked cs ra env T) {n : String} {c : Option (List Line)} (hc : cs n = c) :
    Linked cs ra (fun f => if f = n then c.map (run noCalls ra) else env f) (fun f => if f = n then accTemplate ra c else T f) := by
  intro f g hg
  simp only at hg ⊢
  split at hg
  · rename_i hf
    subst hf
    simp only [if_true]
    cases c with
    | none => cases hg
    | some c =>
      cases hg
      exact ⟨c, hc, fun s t ht k => run_alone linked_noCalls c ht k⟩
  · rename_i hf
    simp only [hf, if_false]
    exact h f g hg

end

section
variable {q : Nat} {ra : BitVec 64}

theorem linked_libRaw : Linked (codes q) ra (libRaw q ra) (accRaw q ra) := by
  have h0 : Linked (codes q) ra (fun _ => none) (fun _ _ => []) := fun f g h => by cases h
  have hn : Linked (codes q) ra noCalls noAcc := linked_noCalls
  exact (((((((((((((h0.addT (n := "rawFromMontgomery") rfl).addT (n := "rawMSquare") rfl).addT (n := "rawMMul1") rfl).addT (n := "rawMMul") rfl).add hn
    (n := "rawNegLS") rfl).add hn (n := "rawNegL") rfl).add hn (n := "rawSubSL") rfl).add hn (n := "rawSubLS") rfl).add hn (n := "rawSubLL") rfl).add hn
    (n := "rawAddLS") rfl).add hn (n := "rawAddLL") rfl).add hn (n := "copy") rfl).add hn (n := "rawCopyS2L") rfl)

theorem linked_lib : Linked (codes q) ra (lib q ra) (accLib q ra) :=
  ((linked_libRaw.add linked_libRaw (n := "toLongNormal") rfl).add linked_libRaw (n := "toNormal") rfl).add linked_libRaw (n := "toMontgomery") rfl

theorem linked_libCmp : Linked (codes q) ra (libCmp q ra) (accCmp q ra) :=
  ((linked_lib.add linked_lib (n := "req") rfl).add linked_lib (n := "rlt") rfl).add linked_lib (n := "rgt") rfl

theorem linked_libShift : Linked (codes q) ra (libShift q ra) (accShift q ra) :=
  (linked_lib.add (linked_noCalls (T := noAcc)) (n := "rawShr") rfl).add linked_noCalls (n := "rawShl") rfl

theorem linked_libFail {acc : State → List Access} : Linked (codes q) ra (libFail q ra fun _ => none) (accFail q ra acc) := by
  intro f g hg
  simp only [libFail, accFail] at hg ⊢
  split at hg
  · rename_i hf
    subst hf
    cases hg
    exact ⟨[], rfl, nofun⟩
  · rename_i hf
    simp only [hf, if_false]
    exact linked_lib f g hg

end

/-! ## The routines -/

/-- A routine: its listing, what its callees do and access, and that they do so as their listings. -/
structure Routine (q : Nat) (ra : BitVec 64) where
  code : List Line
  env : String → Option (State → Option State)
  acc : String → State → List Access
  linked : Linked (codes q) ra env acc
  wf : ∀ i ∈ code, i.wf

namespace Routine
variable {q : Nat} {ra : BitVec 64}

/-- The outcome of a call. -/
def run (r : Routine q ra) (s : State) : Option State := X86.run r.env ra r.code s
/-- Its accesses. -/
def touched (r : Routine q ra) (s : State) : List Access := X86.touched r.env r.acc ra r.code s

/-- A listing without calls. -/
def leaf (p : List Line) (h : ∀ i ∈ p, i.wf) : Routine q ra := ⟨p, noCalls, noAcc, linked_noCalls, h⟩

variable (q ra)

def rawCopy : Routine q ra := leaf _ (wf_rawCopy (n64 q))
def copy : Routine q ra := leaf _ (wf_copy (n64 q))
def rawZero : Routine q ra := leaf _ (wf_rawZero (n64 q))
def rawSwap : Routine q ra := leaf _ (wf_rawSwap (n64 q))
def rawCopyS2L : Routine q ra := leaf _ (wf_rawCopyS2L (n64 q))
def rawAddLL : Routine q ra := leaf _ (wf_rawAddLL (n64 q))
def rawAddLS : Routine q ra := leaf _ (wf_rawAddLS (n64 q))
def rawSubLL : Routine q ra := leaf _ (wf_rawSubLL (n64 q))
def rawSubLS : Routine q ra := leaf _ (wf_rawSubLS (n64 q))
def rawSubSL : Routine q ra := leaf _ (wf_rawSubSL (n64 q))
def rawNegL : Routine q ra := leaf _ (wf_rawNegL (n64 q))
def rawNegLS : Routine q ra := leaf _ (wf_rawNegLS (n64 q))
def rawIsEq : Routine q ra := leaf _ (wf_rawIsEq (n64 q))
def rawIsZero : Routine q ra := leaf _ (wf_rawIsZero (n64 q))
def rawShl : Routine q ra := leaf _ (wf_of_tame (tame_rawShl (bitLen q) (n64 q)))
def rawShr : Routine q ra := leaf _ (wf_of_tame (tame_rawShr (bitLen q) (n64 q)))

/-- The Montgomery routines, if the register manager prints them. -/
def rawMMul {p : List Line} (h : template (n64 q) (canOpt q) (upperMul (n64 q) (canOpt q)) = some p) : Routine q ra := leaf p (template_wf h (upperMul_dst _ _))
def rawMMul1 {p : List Line} (h : template (n64 q) (canOpt q) (upperMul1 (n64 q) (canOpt q)) = some p) : Routine q ra := leaf p (template_wf h (upperMul1_dst _ _))
def rawMSquare {p : List Line} (h : template (n64 q) (canOpt q) (upperSquare (n64 q) (canOpt q)) = some p) : Routine q ra :=
  leaf p (template_wf h (upperSquare_dst _ _))
def rawFromMontgomery {p : List Line} (h : template (n64 q) (canOpt q) (upperFrom (n64 q) (canOpt q)) = some p) : Routine q ra :=
  leaf p (template_wf h (upperFrom_dst _ _))
def rawToMontgomery : Routine q ra := ⟨rawToMontgomeryCode, libRaw q ra, accRaw q ra, linked_libRaw, wf_lines (by decide +kernel)⟩

def toMontgomery : Routine q ra := ⟨X86.toMontgomery, libRaw q ra, accRaw q ra, linked_libRaw, wf_lines (by decide +kernel)⟩
def toNormal : Routine q ra := ⟨X86.toNormal, libRaw q ra, accRaw q ra, linked_libRaw, wf_lines (by decide +kernel)⟩
def toLongNormal : Routine q ra := ⟨X86.toLongNormal, libRaw q ra, accRaw q ra, linked_libRaw, wf_lines (by decide +kernel)⟩

def add : Routine q ra := ⟨addCode (n64 q), lib q ra, accLib q ra, linked_lib, wf_add⟩
def sub : Routine q ra := ⟨subCode (n64 q), lib q ra, accLib q ra, linked_lib, wf_sub⟩
def neg : Routine q ra := ⟨negCode, libRaw q ra, accRaw q ra, linked_libRaw, wf_lines (by decide +kernel)⟩
def square : Routine q ra := ⟨squareCode, libRaw q ra, accRaw q ra, linked_libRaw, wf_lines (by decide +kernel)⟩
def mul : Routine q ra := ⟨mulCode, libRaw q ra, accRaw q ra, linked_libRaw, wf_lines (by decide +kernel)⟩

def rgt : Routine q ra := ⟨rgtCode (n64 q), lib q ra, accLib q ra, linked_lib, wf_rgt⟩
def rlt : Routine q ra := ⟨rltCode (n64 q), lib q ra, accLib q ra, linked_lib, wf_rlt⟩
def req : Routine q ra := ⟨reqCode (n64 q), lib q ra, accLib q ra, linked_lib, wf_req⟩
/-- `gt`, `lt`, `eq`. -/
def cmp (f : String) : Routine q ra := ⟨cmpStore f, libCmp q ra, accCmp q ra, linked_libCmp, wf_lines rfl⟩
/-- `leq`, `geq`, `neq`. -/
def cmpNot (f : String) : Routine q ra := ⟨cmpStoreNot f, libCmp q ra, accCmp q ra, linked_libCmp, wf_lines rfl⟩

def land : Routine q ra := leaf _ (wf_land (q := q))
def lor : Routine q ra := leaf _ (wf_lor (q := q))
def lnot : Routine q ra := leaf _ (wf_lnot (q := q))
def isTrue : Routine q ra := leaf _ (wf_isTrue (q := q))

def band : Routine q ra := ⟨bandCode (n64 q), lib q ra, accLib q ra, linked_lib, wf_band⟩
def bor : Routine q ra := ⟨borCode (n64 q), lib q ra, accLib q ra, linked_lib, wf_bor⟩
def bxor : Routine q ra := ⟨bxorCode (n64 q), lib q ra, accLib q ra, linked_lib, wf_bxor⟩
def bnot : Routine q ra := ⟨bnotCode (n64 q), lib q ra, accLib q ra, linked_lib, wf_bnot⟩
def shl : Routine q ra := ⟨shlCode (bitLen q) (n64 q), libShift q ra, accShift q ra, linked_libShift, wf_shl⟩
def shr : Routine q ra := ⟨shrCode (bitLen q) (n64 q), libShift q ra, accShift q ra, linked_libShift, wf_shr⟩
def toInt : Routine q ra := ⟨toIntCode (n64 q), libFail q ra fun _ => none, accFail q ra fun _ => [], linked_libFail, wf_toInt⟩

end Routine

/-- Arithmetic with the raw routines alone as callees. -/
theorem safe_rawOnly {q : Nat} {ra : BitVec 64} {sg : Sig} {p : List Line} (h : Chk.check ⟨sg, 2, 0, rawSigs⟩ 200 atEntry (lns p) = true) :
    Safe q (2 + rawFrame q) sg (touched (libRaw q ra) (accRaw q ra) ra p) (run (libRaw q ra) ra p) := by
  have := safe_of_check (C := ⟨sg, 2, 0, rawSigs⟩) (raw_safe (q := q) (ra := ra)) (ra := ra) ((lns_fine q p).2 trivial) h
  rw [lns_code] at this
  simpa using this

end FF.X86
