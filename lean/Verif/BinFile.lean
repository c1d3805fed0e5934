import Verif.RawFr

/-!
# `c/binfile_utils.cpp`, `c/wtns_utils.cpp`, `c/zkey_utils.cpp`

The buffer `addr` is a list of bytes and pointers into it are offsets from `addr` (64-bit arithmetic, wrapping).  Reading bytes outside
the buffer, and following the null `readingSection`, are the outcome `ub`.  Both constructors run the same code once the buffer is
filled; filling it (`malloc`, `mmap`, `ThreadUtils::parcpy`, whose source is not in the repository) is assumed to copy the file.
Unaligned loads are taken to work, as on the target machines, which are little-endian.
-/

namespace FF.Bin

abbrev Byte := BitVec 8

/-- `BinFile::Section`, `binfile_utils.hpp:19-28`: offset of `start`, and `size`. -/
structure Section where
  start : Nat
  size : Nat
deriving DecidableEq, Repr

/-- The members of `BinFile`, `binfile_utils.hpp:15-34`. -/
structure BinFile where
  addr : List Byte
  pos : Nat
  sections : Nat → Option (List Section)
  version : Nat
  readingSection : Option Section

/-- A call returns, throws (leaving the object as it then is) or has undefined behaviour. -/
inductive Out (α : Type)
  | ok (a : α) (f : BinFile)
  | throws (f : BinFile)
  | ub

/-- Calls in sequence. -/
def Act (α : Type) := BinFile → Out α

def Act.pure {α : Type} (a : α) : Act α := fun f => .ok a f

def Act.bind {α β : Type} (x : Act α) (g : α → Act β) : Act β := fun f =>
  match x f with
  | .ok a f' => g a f'
  | .throws f' => .throws f'
  | .ub => .ub

instance : Monad Act where
  pure := Act.pure
  bind := Act.bind

/-- The bytes `[p, p+n)` of the buffer, or undefined behaviour. -/
def bytesAt (addr : List Byte) (p n : Nat) : Option (List Byte) :=
  if p + n ≤ addr.length then some ((addr.drop p).take n) else none

/-- `readU32LE`, `binfile_utils.cpp:191-196`. -/
def readU32LE : Act Nat := fun f =>
  match bytesAt f.addr f.pos 4 with
  | some b => .ok (valLE b) { f with pos := (f.pos + 4) % 2 ^ 64 }
  | none => .ub

/-- `readU64LE`, `binfile_utils.cpp:198-203`. -/
def readU64LE : Act Nat := fun f =>
  match bytesAt f.addr f.pos 8 with
  | some b => .ok (valLE b) { f with pos := (f.pos + 8) % 2 ^ 64 }
  | none => .ub

/-- `read`, `binfile_utils.cpp:205-210`: returns the pointer, reads nothing. -/
def read (len : Nat) : Act Nat := fun f => .ok f.pos { f with pos := (f.pos + len) % 2 ^ 64 }

/-- `sections[sType].push_back(Section(addr + pos, sSize))`, with the entry created first if absent, `binfile_utils.cpp:42-47`. -/
def pushSection (secs : Nat → Option (List Section)) (sType : Nat) (s : Section) : Nat → Option (List Section) :=
  let secs' := if (secs sType).isNone then fun k => if k = sType then some [] else secs k else secs
  fun k => if k = sType then some ((secs' sType).getD [] ++ [s]) else secs' k

/-- One round of the section loop, `binfile_utils.cpp:37-50` and `97-110`. -/
def loadSection : Act Unit :=
  readU32LE.bind fun sType => readU64LE.bind fun sSize => fun f =>
    .ok () { f with sections := pushSection f.sections sType ⟨f.pos, sSize⟩, pos := (f.pos + sSize) % 2 ^ 64 }

/-- The loop `for (i = 0; i < nSections; i++)`. -/
def loadSections : Nat → Act Unit
  | 0 => Act.pure ()
  | n + 1 => loadSection.bind fun _ => loadSections n

/-- Both constructors after the copy, `binfile_utils.cpp:22-54` and `82-114`.  `type` and `maxVersion` are the arguments. -/
def openFile (addr type : List Byte) (maxVersion : Nat) : Out Unit :=
  let f : BinFile := ⟨addr, 0, fun _ => none, 0, none⟩
  match bytesAt addr 0 4 with
  | none => .ub
  | some t =>
    let f := { f with pos := 4 }
    if t ≠ type then .throws f
    else
      (readU32LE.bind fun version f =>
        let f := { f with version := version }
        if maxVersion < version then .throws f
        else
          (readU32LE.bind fun nSections =>
            (loadSections nSections).bind fun _ f => .ok () { f with pos := 0, readingSection := none }) f) f

/-- The checks shared by `startReadSection`, `getSectionData` and `getSectionSize`, `binfile_utils.cpp:124-132`, `160-168`, `176-184`. -/
def findSection (f : BinFile) (sectionId sectionPos : Nat) : Option Section :=
  match f.sections sectionId with
  | none => none
  | some v => if v.length ≤ sectionPos then none else v[sectionPos]?

/-- `startReadSection`, `binfile_utils.cpp:121-142`. -/
def startReadSection (sectionId sectionPos : Nat) : Act Unit := fun f =>
  match findSection f sectionId sectionPos with
  | none => .throws f
  | some s =>
    if f.readingSection ≠ none then .throws f
    else .ok () { f with pos := s.start, readingSection := some s }

/-- `endReadSection`, `binfile_utils.cpp:144-154`. -/
def endReadSection (check : Bool) : Act Unit := fun f =>
  if check then
    match f.readingSection with
    | none => .ub
    | some s =>
      if ((f.pos : Int) - s.start) % 2 ^ 64 ≠ s.size then .throws f else .ok () { f with readingSection := none }
  else .ok () { f with readingSection := none }

/-- `getSectionData`, `binfile_utils.cpp:156-170`. -/
def getSectionData (sectionId sectionPos : Nat) : Act Nat := fun f =>
  match findSection f sectionId sectionPos with
  | none => .throws f
  | some s => .ok s.start f

/-- `getSectionSize`, `binfile_utils.cpp:172-187`. -/
def getSectionSize (sectionId sectionPos : Nat) : Act Nat := fun f =>
  match findSection f sectionId sectionPos with
  | none => .throws f
  | some s => .ok s.size f

/-- `mpz_import(z, n, -1, 1, -1, 0, p)`: the `n` bytes at `p`, least significant first. -/
def mpzImportBytes (n p : Nat) : Act Nat := fun f =>
  match bytesAt f.addr p n with
  | some b => .ok (valLE b) f
  | none => .ub

/-! ### `WtnsUtils` -/

/-- `WtnsUtils::Header`, `wtns_utils.hpp:10-21`. -/
structure WtnsHeader where
  n8 : Nat
  prime : Nat
  nVars : Nat
deriving DecidableEq, Repr

/-- `WtnsUtils::loadHeader`, `wtns_utils.cpp:12-25`. -/
def wtnsLoadHeader : Act WtnsHeader := do
  startReadSection 1 0
  let n8 ← readU32LE
  let p ← read n8
  let prime ← mpzImportBytes n8 p
  let nVars ← readU32LE
  endReadSection true
  return ⟨n8, prime, nVars⟩

/-! ### `ZKeyUtils` -/

/-- `ZKeyUtils::Header`, `zkey_utils.hpp:11-36`; the `vk_` members are pointers into the buffer. -/
structure ZKeyHeader where
  n8q : Nat
  qPrime : Nat
  n8r : Nat
  rPrime : Nat
  nVars : Nat
  nPublic : Nat
  domainSize : Nat
  nCoefs : Nat
  vk_alpha1 : Nat
  vk_beta1 : Nat
  vk_beta2 : Nat
  vk_gamma2 : Nat
  vk_delta1 : Nat
  vk_delta2 : Nat
deriving DecidableEq, Repr

/-- `throw` from inside a function that uses the file. -/
def Act.throw {α : Type} : Act α := fun f => .throws f

/-- A division by zero. -/
def Act.ub {α : Type} : Act α := fun _ => .ub

/-- `ZKeyUtils::loadHeader`, `zkey_utils.cpp:16-53`.  `n8q*2`, `n8q*4` and `12 + n8r` are 32-bit; the last can wrap to zero. -/
def zkeyLoadHeader : Act ZKeyHeader := do
  startReadSection 1 0
  let protocol ← readU32LE
  if protocol ≠ 1 then Act.throw
  else do
    endReadSection true
    startReadSection 2 0
    let n8q ← readU32LE
    let p ← read n8q
    let qPrime ← mpzImportBytes n8q p
    let n8r ← readU32LE
    let p ← read n8r
    let rPrime ← mpzImportBytes n8r p
    let nVars ← readU32LE
    let nPublic ← readU32LE
    let domainSize ← readU32LE
    let alpha1 ← read (n8q * 2 % 2 ^ 32)
    let beta1 ← read (n8q * 2 % 2 ^ 32)
    let beta2 ← read (n8q * 4 % 2 ^ 32)
    let gamma2 ← read (n8q * 4 % 2 ^ 32)
    let delta1 ← read (n8q * 2 % 2 ^ 32)
    let delta2 ← read (n8q * 4 % 2 ^ 32)
    endReadSection true
    let sz ← getSectionSize 4 0
    if (12 + n8r) % 2 ^ 32 = 0 then Act.ub
    else return ⟨n8q, qPrime, n8r, rPrime, nVars, nPublic, domainSize, sz / ((12 + n8r) % 2 ^ 32),
      alpha1, beta1, beta2, gamma2, delta1, delta2⟩

end FF.Bin
