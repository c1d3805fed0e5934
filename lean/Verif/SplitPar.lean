import Verif.Gmp

/-!
# `c/splitparstr.cpp`

Strings are lists of characters; `s[s.length()]` reads the terminating zero.  Simplification: strings are shorter than 2³¹ characters,
so the `int` counters do not overflow; `std::isspace` is the C-locale one (`isSpaceC`, the same predicate GMP uses).
-/

namespace FF.Split

/-- What a call does: return, throw `std::out_of_range`, fail an `assert`, or need more nested calls than allowed. -/
inductive Res (α : Type) | ok (a : α) | throws | aborts | outOfFuel
deriving DecidableEq, Repr

def Res.bind {α β : Type} (x : Res α) (f : α → Res β) : Res β :=
  match x with
  | .ok a => f a
  | .throws => .throws
  | .aborts => .aborts
  | .outOfFuel => .outOfFuel

/-- `s[i]` on a `std::string`. -/
def at' (s : List Char) (i : Nat) : Char := s.getD i '\x00'

/-- The `while` loop, `splitparstr.cpp:5-6`.  The recursion is bounded by a counter; `nsLoop_stop` shows that `length + 1` rounds are
enough for the loop to end by its own condition. -/
def nsLoop (s : List Char) : Nat → Nat → Nat
  | 0, ns => ns
  | f + 1, ns =>
    if s.length ≥ ns * 2 ∧ at' s ns = '(' ∧ at' s (s.length - 1 - ns) = ')' then nsLoop s f (ns + 1) else ns

/-- One round of the `for` loop, `splitparstr.cpp:11-13`: `(ins, minIns)`. -/
def minStep (p : Int × Int) (c : Char) : Int × Int :=
  let ins := if c = '(' then p.1 + 1 else p.1
  let ins := if c = ')' then ins - 1 else ins
  (ins, if ins < p.2 then ins else p.2)

/-- The `for` loop, `splitparstr.cpp:8-14`: `i` runs from `ns` while `i < s.length() - ns*2`. -/
def minIns (s : List Char) (ns : Nat) : Int :=
  (((s.take (s.length - ns * 2)).drop ns).foldl minStep (0, 0)).2

/-- `std::string::erase(pos, n)`: throws when `pos` is beyond the end. -/
def erase (s : List Char) (pos n : Nat) : Option (List Char) :=
  if s.length < pos then none else some (s.take pos ++ s.drop (pos + n))

/-- `removePars`, `splitparstr.cpp:4-17`.  `ns + minIns` is an `unsigned int` (it wraps at 2³²) and
`s.length() - (ns + minIns)` a `size_t` (it wraps at 2⁶⁴). -/
def removePars (s : List Char) : Option (List Char) :=
  let ns := nsLoop s (s.length + 1) 0
  let k := (((ns : Int) + minIns s ns) % 2 ^ 32).toNat
  (erase s 0 k).bind fun s' => erase s' (((s'.length : Int) - k) % 2 ^ 64).toNat s'.length

/-- The scan of `splitParStr`, `splitparstr.cpp:21-47`: `accS`, `nPar`, `res`.  `scaped` is never set. -/
def scan : List Char → List Char → Int → List (List Char) → Option (List (List Char))
  | [], acc, _, res => (removePars acc).map fun a => res ++ [a]
  | c :: cs, acc, nPar, res =>
    if isSpaceC c then scan cs acc nPar res
    else if c = ',' ∧ nPar = 0 then (removePars acc).bind fun a => scan cs [] nPar (res ++ [a])
    else
      let nPar := if c = '(' then nPar + 1 else nPar
      let nPar := if c = ')' then nPar - 1 else nPar
      scan cs (acc ++ [c]) nPar res

/-- `splitParStr`, `splitparstr.cpp:19-54`, with at most `fuel` nested calls. -/
def splitParStr : Nat → List Char → Res (List (List Char))
  | 0, _ => .outOfFuel
  | fuel + 1, s =>
    match scan s [] 0 [] with
    | none => .throws
    | some res =>
      match res with
      | [r] =>
        match removePars r with
        | none => .throws
        | some r' => splitParStr fuel r'
      | res => .ok res

/-! ### The text functions of the towers, over the text functions of the base field -/

variable {K : Type}

/-- `F2Field::toString`, `f2field.cpp:53-57`. -/
def f2ToString (ts : K → List Char) (e : K × K) : List Char := ['('] ++ ts e.1 ++ [','] ++ ts e.2 ++ [')']

/-- `F6Field::toString`, `f6field.cpp:49-58`. -/
def f6ToString (ts : K → List Char) (e : K × K × K) : List Char :=
  ['('] ++ ts e.1 ++ [','] ++ ts e.2.1 ++ [','] ++ ts e.2.2 ++ [')']

/-- `F12Field::toString`, `f12field.cpp:36-40`: the same text as `F2Field`'s. -/
def f12ToString (ts : K → List Char) (e : K × K) : List Char := ['('] ++ ts e.1 ++ [','] ++ ts e.2 ++ [')']

/-- `F2Field::fromString`, `f2field.cpp:43-50`: split, `assert` two pieces, read each. -/
def f2FromString (fs : List Char → Res K) (fuel : Nat) (s : List Char) : Res (K × K) :=
  (splitParStr fuel s).bind fun els =>
    match els with
    | [a, b] => (fs a).bind fun x => (fs b).bind fun y => .ok (x, y)
    | _ => .aborts

/-- `F6Field::fromString`, `f6field.cpp:38-46`. -/
def f6FromString (fs : List Char → Res K) (fuel : Nat) (s : List Char) : Res (K × K × K) :=
  (splitParStr fuel s).bind fun els =>
    match els with
    | [a, b, c] => (fs a).bind fun x => (fs b).bind fun y => (fs c).bind fun z => .ok (x, y, z)
    | _ => .aborts

/-- `F12Field::fromString`, `f12field.cpp:26-33`. -/
def f12FromString (fs : List Char → Res K) (fuel : Nat) (s : List Char) : Res (K × K) := f2FromString fs fuel s

end FF.Split
