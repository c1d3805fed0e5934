import Verif.RawFr

/-!
# Specification for C50-C53: the file format and the reader, without the code

A container is four type bytes, a 32-bit version, a 32-bit section count, and for each section a 32-bit type, a 64-bit length and that
many bytes, everything little-endian.
-/

namespace FF.Bin

/-- The `k` little-endian bytes of `n`. -/
def leBytes : Nat → Nat → List (BitVec 8)
  | 0, _ => []
  | k + 1, n => BitVec.ofNat 8 n :: leBytes k (n / 256)

/-- A section in the file: type, length, data. -/
def encodeSection (s : Nat × List (BitVec 8)) : List (BitVec 8) := leBytes 4 s.1 ++ leBytes 8 s.2.length ++ s.2

/-- A whole file. -/
def encodeFile (type : List (BitVec 8)) (version : Nat) (secs : List (Nat × List (BitVec 8))) : List (BitVec 8) :=
  type ++ leBytes 4 version ++ leBytes 4 secs.length ++ secs.flatMap encodeSection

/-- The contents of the sections of type `t`, in the order of the file. -/
def contents (secs : List (Nat × List (BitVec 8))) (t : Nat) : List (List (BitVec 8)) :=
  (secs.filter fun s => s.1 == t).map (·.2)

/-- The bytes of a witness header: field size, prime, number of variables. -/
def encodeWtnsHeader (n8 prime nVars : Nat) : List (BitVec 8) := leBytes 4 n8 ++ leBytes n8 prime ++ leBytes 4 nVars

/-- The bytes of a groth16 header: two fields, three counts, six points. -/
def encodeGrothHeader (n8q q n8r r nVars nPublic domainSize : Nat) (alpha1 beta1 beta2 gamma2 delta1 delta2 : List (BitVec 8)) :
    List (BitVec 8) :=
  leBytes 4 n8q ++ leBytes n8q q ++ leBytes 4 n8r ++ leBytes n8r r ++ leBytes 4 nVars ++ leBytes 4 nPublic ++ leBytes 4 domainSize ++
    alpha1 ++ beta1 ++ beta2 ++ gamma2 ++ delta1 ++ delta2

/-! ### The reader as its user sees it -/

/-- A call on the reader. -/
inductive Op
  | start (id pos : Nat)
  | stop (check : Bool)
  | u32
  | u64
  | bytes (n : Nat)
  | size (id pos : Nat)
  | data (id pos : Nat)

/-- The number of bytes a call consumes. -/
def Op.consumes : Op → Nat
  | .u32 => 4
  | .u64 => 8
  | .bytes n => n
  | _ => 0

/-- What the user learns from it: it was refused, it was done, a number, or bytes. -/
inductive Reply
  | refused
  | done
  | num (n : Nat)
  | bytes (l : List (BitVec 8))
deriving DecidableEq

/-- The section being read (its contents) and the number of its bytes consumed. -/
structure Reader where
  cur : Option (List (BitVec 8) × Nat)

/-- Reading `n` bytes inside the section. -/
def Reader.take (a : Reader) (n : Nat) : Option (List (BitVec 8) × Reader) :=
  match a.cur with
  | some (d, used) => if used + n ≤ d.length then some ((d.drop used).take n, ⟨some (d, used + n)⟩) else none
  | none => none

/-- The answer to a call, over sections `c`.  `none` marks calls outside the contract: reading with no section open or beyond its end,
and closing with check when none is open. -/
def Reader.step (c : Nat → List (List (BitVec 8))) (a : Reader) : Op → Option (Reply × Reader)
  | .start id pos =>
    match (c id)[pos]?, a.cur with
    | some d, none => some (.done, ⟨some (d, 0)⟩)
    | _, _ => some (.refused, a)
  | .stop true =>
    match a.cur with
    | some (d, used) => if used = d.length then some (.done, ⟨none⟩) else some (.refused, a)
    | none => none
  | .stop false => some (.done, ⟨none⟩)
  | .u32 => (a.take 4).map fun (l, a') => (.num (valLE l), a')
  | .u64 => (a.take 8).map fun (l, a') => (.num (valLE l), a')
  | .bytes n => (a.take n).map fun (l, a') => (.bytes l, a')
  | .size id pos =>
    match (c id)[pos]? with
    | some d => some (.num d.length, a)
    | none => some (.refused, a)
  | .data id pos =>
    match (c id)[pos]? with
    | some d => some (.bytes d, a)
    | none => some (.refused, a)

/-- A history of calls and their answers. -/
def Reader.run (c : Nat → List (List (BitVec 8))) : Reader → List Op → Option (List Reply × Reader)
  | a, [] => some ([], a)
  | a, o :: os =>
    match a.step c o with
    | none => none
    | some (r, a') =>
      match a'.run c os with
      | none => none
      | some (rs, a'') => some (r :: rs, a'')

end FF.Bin
