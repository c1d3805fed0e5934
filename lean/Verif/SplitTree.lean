import Verif.SplitParProof
import Verif.SplitSpec

/-!
# `splitParStr` on written forms
-/

set_option linter.unusedSimpArgs false

namespace FF.Split

theorem Txt.commas_cons {t : Txt} {ts : List Txt} (h : ts ≠ []) : Txt.commas (t :: ts) = t.show ++ ',' :: Txt.commas ts := by
  cases ts with
  | nil => exact absurd rfl h
  | cons u ts => rw [Txt.commas]

theorem commas_bal {ts : List Txt} (h : ∀ t ∈ ts, Bal t.show) : Bal (Txt.commas ts) := by
  induction ts with
  | nil => simpa [Txt.commas] using Bal.nil
  | cons t ts ih =>
    by_cases he : ts = []
    · subst he; simpa [Txt.commas] using h t (by simp)
    · rw [Txt.commas_cons he]
      exact (h t (by simp)).append (by simpa using (Bal.single wt_comma).append (ih fun x hx => h x (by simp [hx])))

theorem commas_nonblank {ts : List Txt} (h : ∀ t ∈ ts, ∀ c ∈ t.show, isSpaceC c = false) :
    ∀ c ∈ Txt.commas ts, isSpaceC c = false := by
  induction ts with
  | nil => simp [Txt.commas]
  | cons t ts ih =>
    by_cases he : ts = []
    · subst he; simpa [Txt.commas] using h t (by simp)
    · rw [Txt.commas_cons he]
      intro c hc
      simp only [List.mem_append, List.mem_cons] at hc
      rcases hc with hc | rfl | hc
      · exact h t (by simp) c hc
      · decide
      · exact ih (fun x hx => h x (by simp [hx])) c hc

theorem Txt.Clean.show_ok {t : Txt} (h : t.Clean) : Bal t.show ∧ ∀ c ∈ t.show, isSpaceC c = false := by
  induction h with
  | leaf h =>
    rw [Txt.show]
    refine ⟨NoPar.bal fun c hc => ?_, fun c hc => (h c hc).2.2.2⟩
    simp [wt, (h c hc).1, (h c hc).2.1]
  | list h ih =>
    rw [Txt.show]
    refine ⟨(commas_bal fun t ht => (ih t ht).1).wrap, fun c hc => ?_⟩
    simp only [List.mem_cons, List.mem_append, List.mem_nil_iff, or_false] at hc
    rcases hc with rfl | hc | rfl
    · decide
    · exact commas_nonblank (fun t ht => (ih t ht).2) c hc
    · decide

theorem commas_ok {ts : List Txt} (h : ∀ t ∈ ts, t.Clean) :
    Bal (Txt.commas ts) ∧ ∀ c ∈ Txt.commas ts, isSpaceC c = false :=
  ⟨commas_bal fun t ht => (h t ht).show_ok.1, commas_nonblank fun t ht => (h t ht).show_ok.2⟩

/-- Stripping the written form of an element. -/
theorem removePars_show {t : Txt} (h : t.Clean) (hn : t.NotSingle) (hl : t.show.length < 2 ^ 31) :
    removePars t.show = some t.inner := by
  cases h with
  | leaf h =>
    rw [Txt.show] at hl ⊢
    exact removePars_noPar (fun c hc => by simp [wt, (h c hc).1, (h c hc).2.1]) hl
  | list h =>
    rename_i ts
    rw [Txt.show] at hl ⊢
    match ts, hn, h with
    | [], _, _ => simp only [Txt.commas, Txt.inner]; rfl
    | t :: u :: ts, _, h =>
      have h1 := (h t (by simp)).show_ok
      have h2 := commas_ok (ts := u :: ts) fun x hx => h x (by simp [hx])
      simp only [Txt.inner]
      rw [Txt.commas_cons (by simp)] at hl ⊢
      have := removePars_layers (k := 1) h1.1 h2.1 (Or.inl le_rfl) (by simp at hl; omega)
      simpa using this

/-- An element is passed over whole by the scan. -/
theorem scan_elem {t : Txt} (h : t.Clean) (rest : List Char) (res : List (List Char)) :
    scan (t.show ++ rest) [] 0 res = scan rest t.show 0 res := by
  have hsp := h.show_ok.2
  have := scan_pass t.show rest [] 0 res hsp ?_
  · rw [this, h.show_ok.1.1]; simp
  cases h with
  | leaf h =>
    rw [Txt.show]
    intro i hi he
    exact absurd he ((h _ (at'_mem hi)).2.2.1)
  | list h =>
    rename_i ts
    rw [Txt.show]
    intro i hi he
    cases i with
    | zero => simp [at'] at he
    | succ i =>
      have hb := (commas_ok h).1
      rw [List.take_succ_cons, dep_cons, List.take_append, dep_append]
      have h1 := hb.2 i
      have hi' : i < (Txt.commas ts).length := by
        by_contra hge
        simp at hi
        have e : i = (Txt.commas ts).length := by omega
        subst e
        simp [at'] at he
      rw [show i - (Txt.commas ts).length = 0 by omega]
      simp; omega

theorem scan_commas {ts : List Txt} (h : ∀ t ∈ ts, t.Clean) (hn : ∀ t ∈ ts, t.NotSingle) (h0 : ts ≠ [])
    (hl : (Txt.commas ts).length < 2 ^ 31) (res : List (List Char)) :
    scan (Txt.commas ts) [] 0 res = some (res ++ ts.map Txt.inner) := by
  induction ts generalizing res with
  | nil => exact absurd rfl h0
  | cons t ts ih =>
    by_cases he : ts = []
    · subst he
      simp only [Txt.commas] at hl ⊢
      have := scan_elem (h t (by simp)) [] res
      rw [List.append_nil] at this
      rw [this, scan, removePars_show (h t (by simp)) (hn t (by simp)) hl]
      simp
    · rw [Txt.commas_cons he] at hl ⊢
      simp only [List.length_append, List.length_cons] at hl
      rw [scan_elem (h t (by simp)), scan]
      simp only [show isSpaceC ',' = false by decide, Bool.false_eq_true, if_false, and_self, if_true]
      rw [removePars_show (h t (by simp)) (hn t (by simp)) (by omega)]
      simp only [Option.bind_some]
      rw [ih (fun x hx => h x (by simp [hx])) (fun x hx => hn x (by simp [hx])) he (by omega)]
      simp

theorem splitParStr_commas {ts : List Txt} (h : ∀ t ∈ ts, t.Clean) (hn : ∀ t ∈ ts, t.NotSingle) (h2 : 2 ≤ ts.length)
    (hl : (Txt.commas ts).length < 2 ^ 31) {s : List Char} (hs : noBlanks s = Txt.commas ts) (f : Nat) :
    splitParStr (f + 1) s = .ok (ts.map Txt.inner) := by
  rw [splitParStr, scan_filter]
  rw [noBlanks] at hs
  rw [hs, scan_commas h hn (by rintro rfl; simp at h2) hl]
  match ts, h2 with
  | a :: b :: l, _ => rfl

/-- `k` layers of redundant parentheses around a list of texts. -/
theorem splitParStr_layers {ts : List Txt} (h : ∀ t ∈ ts, t.Clean) (hn : ∀ t ∈ ts, t.NotSingle) (h2 : 2 ≤ ts.length) {k : Nat}
    (hk : k ≤ 1 ∨ (∀ c ∈ (Txt.commas ts.tail).getLast?, c ≠ ')') ∧ k ≤ 1 + (Txt.commas ts.tail).length)
    (hl : (Txt.commas ts).length + 2 * k < 2 ^ 31) {s : List Char}
    (hs : noBlanks s = List.replicate k '(' ++ Txt.commas ts ++ List.replicate k ')') (f : Nat) :
    splitParStr (f + 2) s = .ok (ts.map Txt.inner) := by
  by_cases hk0 : k = 0
  · subst hk0
    exact splitParStr_commas h hn h2 (by omega) (by simpa using hs) (f + 1)
  match ts, h2 with
  | t :: u :: l, h2 =>
    have hcl : Txt.commas (t :: u :: l) = t.show ++ ',' :: Txt.commas (u :: l) := Txt.commas_cons (by simp)
    have hb1 := (h t (by simp)).show_ok
    have hb2 := commas_ok (ts := u :: l) fun x hx => h x (by simp [hx])
    have hb := commas_ok h
    rw [splitParStr, scan_filter]
    rw [noBlanks] at hs
    -- the whole text is one piece
    have hscan : scan (s.filter fun c => !isSpaceC c) [] 0 [] = (removePars (s.filter fun c => !isSpaceC c)).map fun a => [a] := by
      have hp := scan_pass (s.filter fun c => !isSpaceC c) [] [] 0 [] (by simp) ?_
      · rw [List.append_nil] at hp
        rw [hp, scan]; simp
      · rw [hs]
        intro i hi he
        have hlt : k ≤ i := by
          by_contra hlt
          rw [List.append_assoc, at'_append_left (by simp; omega), at'_replicate (by omega)] at he
          exact absurd he (by decide)
        have hge : i < k + (Txt.commas (t :: u :: l)).length := by
          by_contra hge
          rw [at'_append_right (by simp; omega), at'_replicate (by simp at hi ⊢; omega)] at he
          exact absurd he (by decide)
        rw [List.take_append_of_le_length (by simp; omega), List.take_append, List.take_of_length_le (by simpa using hlt), dep_append]
        have h1 : dep (List.replicate k '(') = k := by
          have := dep_take_open (s := List.replicate k '(') (n := k) fun j hj => at'_replicate hj
          rwa [List.take_of_length_le (by simp)] at this
        have := hb.1.2 (i - (List.replicate k '(').length)
        rw [h1]
        omega
    rw [hscan, hs]
    have hcond : k ≤ 1 ∨ ∀ a, (∀ j < a, at' (Txt.commas (u :: l)) ((Txt.commas (u :: l)).length - 1 - j) = ')') →
        a ≤ (Txt.commas (u :: l)).length → k + 2 * a ≤ 1 + (Txt.commas (u :: l)).length := by
      rcases hk with hk | ⟨hk1, hk2⟩
      · exact Or.inl hk
      · right
        intro a ha hal
        simp only [List.tail_cons] at hk1 hk2
        by_cases h0 : a = 0
        · subst h0; omega
        · exfalso
          have := ha 0 (by omega)
          rw [Nat.sub_zero] at this
          have hlt := at'_lt this (by decide)
          refine hk1 ')' ?_ rfl
          rw [List.getLast?_eq_getElem?, Option.mem_def, List.getElem?_eq_getElem hlt]
          rw [at', List.getD_eq_getElem _ _ hlt] at this
          rw [this]
    have hlen : t.show.length + (Txt.commas (u :: l)).length + 1 = (Txt.commas (t :: u :: l)).length := by
      rw [hcl]; simp; omega
    rw [hcl, removePars_layers hb1.1 hb2.1 hcond (by omega)]
    have h0 := removePars_layers (k := 0) hb1.1 hb2.1 (Or.inl (by omega)) (by omega)
    simp only [List.replicate_zero, List.nil_append, List.append_nil] at h0
    simp only [Option.map_some, h0]
    rw [← hcl]
    refine splitParStr_commas h hn h2 (by omega) ?_ f
    rw [noBlanks, List.filter_eq_self]
    intro c hc
    simp [hb.2 c hc]

end FF.Split
