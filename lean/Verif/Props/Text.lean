import Verif.SplitTree
import Verif.Props.FrCpp

/-!
# Properties C48 and C49: parenthesised lists and tower elements as text

The full C48 says that `splitParStr` always returns, and returns the top-level components without their outer parentheses.  It does
so for lists of at least two elements (`C48_split_partial`, `C48_layers_partial`).  It is false in general: a text without a
top-level comma makes the function call itself for ever (`C48_never_returns`), and several redundant layers around short components,
or adjacent groups without a comma, are cut in the wrong place (`C48_violation_layers`, `C48_violation_groups`).
-/

namespace FF.Props

open FF.Split

/-- C48 (part).  A list of at least two elements, none of which is a parenthesised singleton, with or without its own outer parentheses
and with blanks anywhere, is split into exactly its elements, each without its outer parentheses. -/
theorem C48_split_partial {ts : List Txt} (hclean : ∀ t ∈ ts, t.Clean) (hns : ∀ t ∈ ts, t.NotSingle) (h2 : 2 ≤ ts.length)
    {s : List Char} (hs : noBlanks s = (Txt.list ts).show ∨ noBlanks s = (Txt.list ts).inner) (hl : (noBlanks s).length < 2 ^ 31) (fuel : Nat) :
    splitParStr (fuel + 2) s = .ok (ts.map Txt.inner) := by
  rcases hs with hs | hs
  · rw [Txt.show] at hs
    refine splitParStr_layers hclean hns h2 (k := 1) (Or.inl le_rfl) ?_ (by simpa using hs) fuel
    rw [hs] at hl
    simp at hl; omega
  · rw [Txt.inner] at hs
    exact splitParStr_commas hclean hns h2 (by rw [← hs]; exact hl) hs (fuel + 1)

/-- C48 (part).  The same with any number of redundant outer layers, when the text does not end in a parenthesis and has at least
`k - 1` characters after its first top-level comma. -/
theorem C48_layers_partial {ts : List Txt} (hclean : ∀ t ∈ ts, t.Clean) (hns : ∀ t ∈ ts, t.NotSingle) (h2 : 2 ≤ ts.length) {k : Nat}
    (hend : ∀ c ∈ (Txt.commas ts.tail).getLast?, c ≠ ')') (hk : k ≤ 1 + (Txt.commas ts.tail).length) {s : List Char}
    (hs : noBlanks s = List.replicate k '(' ++ Txt.commas ts ++ List.replicate k ')') (hl : (noBlanks s).length < 2 ^ 31) (fuel : Nat) :
    splitParStr (fuel + 2) s = .ok (ts.map Txt.inner) :=
  splitParStr_layers hclean hns h2 (Or.inr ⟨hend, hk⟩) (by rw [hs] at hl; simp at hl; omega) hs fuel

/-- C48 (violated): a text without commas never makes `splitParStr` return a list, however many nested calls it is given. -/
theorem C48_never_returns {s : List Char} (h : ',' ∉ s) (fuel : Nat) (l : List (List Char)) : splitParStr fuel s ≠ .ok l :=
  no_comma_never h fuel l

/-- C48 (violated): if it has no parentheses either, the calls nest for ever. -/
theorem C48_diverges {s : List Char} (h : ∀ c ∈ s, c ≠ ',' ∧ c ≠ '(' ∧ c ≠ ')') (hl : s.length < 2 ^ 31) (fuel : Nat) :
    splitParStr fuel s = .outOfFuel := by
  induction fuel generalizing s with
  | zero => rfl
  | succ f ih =>
    have hn : NoPar (s.filter fun c => !isSpaceC c) := by
      intro c hc
      have := h c (List.mem_of_mem_filter hc)
      simp [wt, this]
    have hlen : (s.filter fun c => !isSpaceC c).length < 2 ^ 31 := lt_of_le_of_lt (List.length_filter_le _ _) hl
    have hp := scan_pass (s.filter fun c => !isSpaceC c) [] [] 0 [] (by simp) (fun i hi he => by
      exact absurd he ((h _ (List.mem_of_mem_filter (at'_mem hi))).1))
    rw [List.append_nil] at hp
    rw [splitParStr, scan_filter, hp, scan]
    simp only [List.nil_append, removePars_noPar hn hlen, Option.map_some]
    exact ih (fun c hc => h c (List.mem_of_mem_filter hc)) hlen

/-- C48.  Whether it returns is settled after as many nested calls as the text has characters: a call that has not ended by then
never ends. -/
theorem C48_termination {s : List Char} (h : splitParStr (s.length + 1) s = .outOfFuel) (fuel : Nat) : splitParStr fuel s = .outOfFuel :=
  splitParStr_forever h fuel

/-- C48.  More nested calls never change a result. -/
theorem C48_deterministic {s : List Char} {f g : Nat} {x : Res (List (List Char))} (hfg : f ≤ g) (h : splitParStr f s = x)
    (hx : x ≠ .outOfFuel) : splitParStr g s = x := splitParStr_mono hfg h hx

/-- C48 (violated): three redundant layers around two short components make the code throw. -/
theorem C48_violation_layers : splitParStr 5 "((((1),(2))))".toList = .throws := by decide +kernel

/-- C48 (violated): a component made of two adjacent groups comes back cut in the wrong place. -/
theorem C48_violation_groups : splitParStr 5 "((1)()),2".toList = .ok ["1)(".toList, "2".toList] := by decide +kernel

example : ∃ ts : List Txt, (∀ t ∈ ts, t.Clean) ∧ (∀ t ∈ ts, t.NotSingle) ∧ 2 ≤ ts.length ∧
    noBlanks " ( (), ((123) , 456)  , (789 , abc) )  ".toList = (Txt.list ts).show ∧
    ts.map Txt.inner = ["".toList, "(123),456".toList, "789,abc".toList] := by
  refine ⟨[.list [], .list [.list [.leaf "123".toList], .leaf "456".toList], .list [.leaf "789".toList, .leaf "abc".toList]],
    ?_, ?_, by simp, by decide +kernel, by decide +kernel⟩
  · have hc : ∀ l ∈ ["123".toList, "456".toList, "789".toList, "abc".toList], ∀ c ∈ l, c ≠ '(' ∧ c ≠ ')' ∧ c ≠ ',' ∧ isSpaceC c = false := by
      decide +kernel
    intro t ht
    simp only [List.mem_cons, List.mem_nil_iff, or_false] at ht
    rcases ht with rfl | rfl | rfl
    · exact .list (by simp)
    · refine .list fun t ht => ?_
      simp only [List.mem_cons, List.mem_nil_iff, or_false] at ht
      rcases ht with rfl | rfl
      · refine .list fun t ht => ?_
        simp only [List.mem_cons, List.mem_nil_iff, or_false] at ht
        subst ht
        exact .leaf (hc _ (by simp))
      · exact .leaf (hc _ (by simp))
    · refine .list fun t ht => ?_
      simp only [List.mem_cons, List.mem_nil_iff, or_false] at ht
      rcases ht with rfl | rfl
      · exact .leaf (hc _ (by simp))
      · exact .leaf (hc _ (by simp))
  · intro t ht
    simp only [List.mem_cons, List.mem_nil_iff, or_false] at ht
    rcases ht with rfl | rfl | rfl <;> simp [Txt.NotSingle]

/-! ## C49 -/

variable {q : Nat}

/-- The base field's `toString` with the default radix. -/
def baseToString (q : Nat) (l : Limbs) : List Char := RawFr.toString q l 10

/-- The base field's `fromString` with the default radix, into a fresh element. -/
def baseFromString (q : Nat) (s : List Char) : Res Limbs :=
  match RawFr.fromString q (fun _ => []) 0 s 10 with
  | some m => .ok (m 0)
  | none => .throws

/-- The limbs of a valid base-field element. -/
def Valid (q : Nat) (l : Limbs) : Prop := ∃ x : ZMod q, FRep q l x

/-- Text and reading agree for one kind of element: the text is a written form, and reading it back, with or without the outer
parentheses, gives the element. -/
structure TextOk {K : Type} (V : K → Prop) (ts : K → List Char) (fs : List Char → Res K) (txt : K → Txt) : Prop where
  text : ∀ e, V e → ts e = (txt e).show
  clean : ∀ e, V e → (txt e).Clean
  single : ∀ e, V e → (txt e).NotSingle
  read : ∀ e, V e → (ts e).length < 2 ^ 31 → fs (txt e).show = .ok e ∧ fs (txt e).inner = .ok e

theorem digits_clean (n : Nat) : ∀ c ∈ mpzGetStr 10 n, c ≠ '(' ∧ c ≠ ')' ∧ c ≠ ',' ∧ isSpaceC c = false := by
  have hd : ∀ d < 10, digitCh d ≠ '(' ∧ digitCh d ≠ ')' ∧ digitCh d ≠ ',' ∧ isSpaceC (digitCh d) = false := by decide
  induction n using Nat.strong_induction_on with
  | _ n ih =>
    intro c hc
    unfold mpzGetStr at hc
    split at hc
    · rename_i h
      simp only [List.mem_singleton] at hc
      subst hc
      exact hd n (by omega)
    · rename_i h
      simp only [List.mem_append, List.mem_singleton] at hc
      rcases hc with hc | rfl
      · exact ih _ (by omega) c hc
      · exact hd _ (by omega)

theorem baseText (hq : q % 2 = 1) : TextOk (Valid q) (baseToString q) (baseFromString q) (fun l => .leaf (baseToString q l)) where
  text _ _ := by rw [Txt.show]
  clean l hl := by
    obtain ⟨x, hx⟩ := hl
    rw [baseToString, C21_toString hq hx]
    exact .leaf (digits_clean _)
  single _ _ := trivial
  read l hl _ := by
    have hq0 : NeZero q := ⟨by omega⟩
    obtain ⟨x, hx⟩ := hl
    rw [Txt.show, Txt.inner, and_self, baseFromString, baseToString, C21_toString hq hx]
    obtain ⟨m', h1, h2, _⟩ := C21_fromString (m := fun _ => []) (r := 0) hq (by omega : 2 ≤ 10) (by omega) x.val
    rw [h1]
    rw [ZMod.natCast_zmod_val] at h2
    simp only [FRep.inj h2 hx]

section compose

variable {K : Type} {V : K → Prop} {ts : K → List Char} {fs : List Char → Res K} {txt : K → Txt}

theorem noBlanks_of_clean {t : Txt} (h : t.Clean) : noBlanks t.show = t.show := by
  rw [noBlanks, List.filter_eq_self]
  intro c hc; simp [h.show_ok.2 c hc]

theorem noBlanks_commas {us : List Txt} (h : ∀ t ∈ us, t.Clean) : noBlanks (Txt.commas us) = Txt.commas us := by
  rw [noBlanks, List.filter_eq_self]
  intro c hc; simp [(commas_ok h).2 c hc]

theorem f2Text (h : TextOk V ts fs txt) (fuel : Nat) : TextOk (fun e : K × K => V e.1 ∧ V e.2) (f2ToString ts)
    (f2FromString fs (fuel + 2)) (fun e => .list [txt e.1, txt e.2]) where
  text e he := by
    simp [f2ToString, Txt.show, Txt.commas, h.text _ he.1, h.text _ he.2]
  clean e he := .list fun t ht => by
    simp only [List.mem_cons, List.mem_nil_iff, or_false] at ht
    rcases ht with rfl | rfl
    · exact h.clean _ he.1
    · exact h.clean _ he.2
  single e _ := by simp [Txt.NotSingle]
  read e he hl := by
    have hc : ∀ t ∈ [txt e.1, txt e.2], t.Clean := by
      simp only [List.mem_cons, List.mem_nil_iff, or_false]
      rintro t (rfl | rfl)
      · exact h.clean _ he.1
      · exact h.clean _ he.2
    have hn : ∀ t ∈ [txt e.1, txt e.2], t.NotSingle := by
      simp only [List.mem_cons, List.mem_nil_iff, or_false]
      rintro t (rfl | rfl)
      · exact h.single _ he.1
      · exact h.single _ he.2
    have hsh : (Txt.list [txt e.1, txt e.2]).show = f2ToString ts e := by
      simp [f2ToString, Txt.show, Txt.commas, h.text _ he.1, h.text _ he.2]
    have hlen : (Txt.list [txt e.1, txt e.2]).show.length < 2 ^ 31 := by rw [hsh]; exact hl
    have hlen' : (Txt.list [txt e.1, txt e.2]).inner.length < 2 ^ 31 := by
      refine lt_of_le_of_lt ?_ hlen
      simp [Txt.inner, Txt.show]; omega
    simp only [f2ToString, List.length_append] at hl
    have hg : ∀ s, (noBlanks s = (Txt.list [txt e.1, txt e.2]).show ∨ noBlanks s = (Txt.list [txt e.1, txt e.2]).inner) →
        (noBlanks s).length < 2 ^ 31 → f2FromString fs (fuel + 2) s = .ok e := by
      intro s hs hsl
      rw [f2FromString, C48_split_partial hc hn (by simp) hs hsl]
      simp only [Res.bind, List.map_cons, List.map_nil]
      rw [(h.read _ he.1 (by omega)).2, (h.read _ he.2 (by omega)).2]
    refine ⟨hg _ (Or.inl ?_) ?_, hg _ (Or.inr ?_) ?_⟩
    · exact noBlanks_of_clean (.list hc)
    · rw [noBlanks_of_clean (.list hc)]; exact hlen
    · exact noBlanks_commas hc
    · rw [Txt.inner, noBlanks_commas hc]; exact hlen'

theorem f6Text (h : TextOk V ts fs txt) (fuel : Nat) : TextOk (fun e : K × K × K => V e.1 ∧ V e.2.1 ∧ V e.2.2) (f6ToString ts)
    (f6FromString fs (fuel + 2)) (fun e => .list [txt e.1, txt e.2.1, txt e.2.2]) where
  text e he := by
    simp [f6ToString, Txt.show, Txt.commas, h.text _ he.1, h.text _ he.2.1, h.text _ he.2.2]
  clean e he := .list fun t ht => by
    simp only [List.mem_cons, List.mem_nil_iff, or_false] at ht
    rcases ht with rfl | rfl | rfl
    · exact h.clean _ he.1
    · exact h.clean _ he.2.1
    · exact h.clean _ he.2.2
  single e _ := by simp [Txt.NotSingle]
  read e he hl := by
    have hc : ∀ t ∈ [txt e.1, txt e.2.1, txt e.2.2], t.Clean := by
      simp only [List.mem_cons, List.mem_nil_iff, or_false]
      rintro t (rfl | rfl | rfl)
      · exact h.clean _ he.1
      · exact h.clean _ he.2.1
      · exact h.clean _ he.2.2
    have hn : ∀ t ∈ [txt e.1, txt e.2.1, txt e.2.2], t.NotSingle := by
      simp only [List.mem_cons, List.mem_nil_iff, or_false]
      rintro t (rfl | rfl | rfl)
      · exact h.single _ he.1
      · exact h.single _ he.2.1
      · exact h.single _ he.2.2
    have hsh : (Txt.list [txt e.1, txt e.2.1, txt e.2.2]).show = f6ToString ts e := by
      simp [f6ToString, Txt.show, Txt.commas, h.text _ he.1, h.text _ he.2.1, h.text _ he.2.2]
    have hlen : (Txt.list [txt e.1, txt e.2.1, txt e.2.2]).show.length < 2 ^ 31 := by rw [hsh]; exact hl
    have hlen' : (Txt.list [txt e.1, txt e.2.1, txt e.2.2]).inner.length < 2 ^ 31 := by
      refine lt_of_le_of_lt ?_ hlen
      simp [Txt.inner, Txt.show]; omega
    simp only [f6ToString, List.length_append] at hl
    have hg : ∀ s, (noBlanks s = (Txt.list [txt e.1, txt e.2.1, txt e.2.2]).show ∨
        noBlanks s = (Txt.list [txt e.1, txt e.2.1, txt e.2.2]).inner) →
        (noBlanks s).length < 2 ^ 31 → f6FromString fs (fuel + 2) s = .ok e := by
      intro s hs hsl
      rw [f6FromString, C48_split_partial hc hn (by simp) hs hsl]
      simp only [Res.bind, List.map_cons, List.map_nil]
      rw [(h.read _ he.1 (by omega)).2, (h.read _ he.2.1 (by omega)).2, (h.read _ he.2.2 (by omega)).2]
    refine ⟨hg _ (Or.inl ?_) ?_, hg _ (Or.inr ?_) ?_⟩
    · exact noBlanks_of_clean (.list hc)
    · rw [noBlanks_of_clean (.list hc)]; exact hlen
    · exact noBlanks_commas hc
    · rw [Txt.inner, noBlanks_commas hc]; exact hlen'

end compose

/-- `F2`, `F6`, `F12` over the base field with modulus `q`, as limbs. -/
abbrev E2 := Limbs × Limbs
abbrev E6 := E2 × E2 × E2
abbrev E12 := E6 × E6

def Valid2 (q : Nat) (e : E2) : Prop := Valid q e.1 ∧ Valid q e.2
def Valid6 (q : Nat) (e : E6) : Prop := Valid2 q e.1 ∧ Valid2 q e.2.1 ∧ Valid2 q e.2.2
def Valid12 (q : Nat) (e : E12) : Prop := Valid6 q e.1 ∧ Valid6 q e.2

/-- C49.  `fromString(toString(e)) = e` for every element of `F2`, `F6` and `F12` over every odd modulus (nested calls of the splitter
never exceed two), as long as the text has fewer than 2³¹ characters. -/
theorem C49_f2 (hq : q % 2 = 1) {e : E2} (he : Valid2 q e) (hl : (f2ToString (baseToString q) e).length < 2 ^ 31) (fuel : Nat) :
    f2FromString (baseFromString q) (fuel + 2) (f2ToString (baseToString q) e) = .ok e := by
  have h := f2Text (baseText hq) fuel
  rw [h.text e he]
  exact (h.read e he hl).1

theorem C49_f6 (hq : q % 2 = 1) {e : E6} (he : Valid6 q e) (hl : (f6ToString (f2ToString (baseToString q)) e).length < 2 ^ 31) (fuel : Nat) :
    f6FromString (f2FromString (baseFromString q) (fuel + 2)) (fuel + 2) (f6ToString (f2ToString (baseToString q)) e) = .ok e := by
  have h := f6Text (f2Text (baseText hq) fuel) fuel
  rw [h.text e he]
  exact (h.read e he hl).1

theorem C49_f12 (hq : q % 2 = 1) {e : E12} (he : Valid12 q e)
    (hl : (f12ToString (f6ToString (f2ToString (baseToString q))) e).length < 2 ^ 31) (fuel : Nat) :
    f12FromString (f6FromString (f2FromString (baseFromString q) (fuel + 2)) (fuel + 2)) (fuel + 2)
      (f12ToString (f6ToString (f2ToString (baseToString q))) e) = .ok e := by
  have h := f2Text (f6Text (f2Text (baseText hq) fuel) fuel) fuel
  have ht : f12ToString (f6ToString (f2ToString (baseToString q))) e = _ := h.text e he
  rw [ht]
  exact (h.read e he hl).1

/-- C49 (limit of the interface): in another radix the text of an element does not determine it, since `fromString` takes no radix. -/
theorem C49_radix_violation : ∃ e : E2, Valid2 bnR e ∧
    f2FromString (baseFromString bnR) 2 (f2ToString (fun l => RawFr.toString bnR l 16) e) ≠ .ok e := by
  have hodd : bnR % 2 = 1 := by decide +kernel
  have hx : FRep bnR (rawToMontgomery bnR (toLimbs (n64 bnR) 16)) ((val (toLimbs (n64 bnR) 16) : Nat) : ZMod bnR) :=
    FRep.toMont hodd (by simp)
  have h16 : val (toLimbs (n64 bnR) 16) = 16 := val_toLimbs_of_lt (lt_of_lt_of_le (show 16 < W by rw [← W_eq]; decide)
    (Nat.le_self_pow (n64_pos _).ne' W))
  rw [h16] at hx
  generalize rawToMontgomery bnR (toLimbs (n64 bnR) 16) = l at hx
  refine ⟨(l, l), ⟨⟨_, hx⟩, ⟨_, hx⟩⟩, fun h => ?_⟩
  have ht : RawFr.toString bnR l 16 = mpzGetStr 10 10 := by
    rw [C21_toString hodd hx]
    have : ((16 : Nat) : ZMod bnR).val = 16 := ZMod.val_natCast_of_lt (by decide +kernel)
    rw [this]; decide +kernel
  obtain ⟨m', e1, h2, _⟩ := C21_fromString (q := bnR) (m := fun _ => []) (r := 0) hodd (by omega : 2 ≤ 10) (by omega) 10
  have hs : splitParStr 2 (f2ToString (fun l => RawFr.toString bnR l 16) (l, l)) = .ok [mpzGetStr 10 10, mpzGetStr 10 10] := by
    simp only [f2ToString, ht]
    decide +kernel
  have hb : baseFromString bnR (mpzGetStr 10 10) = .ok (m' 0) := by rw [baseFromString, e1]
  rw [f2FromString, hs] at h
  simp only [Res.bind, hb, Res.ok.injEq, Prod.mk.injEq, and_self] at h
  rw [h] at h2
  have := FRep.unique hodd h2 hx
  have h3 := congrArg ZMod.val this
  rw [ZMod.val_natCast_of_lt (by decide +kernel), ZMod.val_natCast_of_lt (by decide +kernel)] at h3
  omega

example : ∃ e : E2, Valid2 bnR e ∧ e.1 ≠ e.2 := by
  have hodd : bnR % 2 = 1 := by decide +kernel
  have h1 := RawFr.one_rep hodd
  have h0 := RawFr.zero_rep hodd
  generalize RawFr.one bnR = l1 at h1
  generalize RawFr.zero bnR = l0 at h0
  refine ⟨(l1, l0), ⟨⟨_, h1⟩, ⟨_, h0⟩⟩, fun h => ?_⟩
  simp only at h
  rw [h] at h1
  have h3 := congrArg ZMod.val (FRep.unique hodd h1 h0)
  rw [ZMod.val_zero, show (1 : ZMod bnR) = ((1 : Nat) : ZMod bnR) by simp, ZMod.val_natCast_of_lt (by decide +kernel)] at h3
  omega

example : f12ToString (f6ToString (f2ToString fun n : Nat => mpzGetStr 10 n)) (((1, 20), (3, 4), (5, 6)), ((7, 8), (9, 10), (11, 0))) =
    "(((1,20),(3,4),(5,6)),((7,8),(9,10),(11,0)))".toList := by decide +kernel

end FF.Props
