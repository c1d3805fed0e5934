import Verif.Gmp

/-!
# Specification for C48: what a parenthesised list is

Independent of the code: a text is a leaf (characters other than parentheses, commas and blanks) or a parenthesised,
comma-separated list of texts.
-/

namespace FF.Split

inductive Txt | leaf (cs : List Char) | list (ts : List Txt)

mutual
/-- The written form of a text. -/
def Txt.show : Txt → List Char
  | .leaf cs => cs
  | .list ts => '(' :: (Txt.commas ts ++ [')'])
/-- Written forms with a comma between neighbours. -/
def Txt.commas : List Txt → List Char
  | [] => []
  | [t] => t.show
  | t :: u :: ts => t.show ++ ',' :: Txt.commas (u :: ts)
end

/-- The written form without the outer parentheses. -/
def Txt.inner : Txt → List Char
  | .leaf cs => cs
  | .list ts => Txt.commas ts

/-- Leaves hold no parentheses, commas or blanks. -/
inductive Txt.Clean : Txt → Prop
  | leaf {cs : List Char} (h : ∀ c ∈ cs, c ≠ '(' ∧ c ≠ ')' ∧ c ≠ ',' ∧ isSpaceC c = false) : Clean (.leaf cs)
  | list {ts : List Txt} (h : ∀ t ∈ ts, Clean t) : Clean (.list ts)

/-- Not a list of one element (which would be redundant parentheses). -/
def Txt.NotSingle : Txt → Prop
  | .leaf _ => True
  | .list ts => ts.length ≠ 1

/-- `s` with its blanks removed. -/
def noBlanks (s : List Char) : List Char := s.filter fun c => !isSpaceC c

end FF.Split
