import Verif.FftProof
import Verif.RawFr
import Mathlib.FieldTheory.Finite.Basic
import Mathlib.NumberTheory.LegendreSymbol.Basic

/-! # The constructor of `FFT` -/

set_option linter.unusedSimpArgs false
set_option linter.unusedSectionVars false

namespace FF.Fft

open Par Pool

/-! ## Filling the table of roots -/

section block

variable {K : Type} [Field K]

theorem expActs_solo (r e : Nat) : ∀ n found (l : Loc K) (a : Nat → K), (found = true → a r = l.t ^ (e >>> n)) → (found = false → e >>> n = 0) →
    solo (expActs r e n found) (l, a) = (l, Function.update a r (l.t ^ e)) := by
  intro n
  induction n with
  | zero =>
    intro found l a h1 h2
    cases found with
    | false =>
      have := h2 rfl
      simp only [Nat.shiftRight_zero] at this
      simp [expActs, solo, this]
    | true =>
      have := h1 rfl
      simp only [Nat.shiftRight_zero] at this
      simp only [expActs, solo, Bool.not_true, Bool.false_eq_true, if_false, List.foldl_nil]
      rw [← this, Function.update_eq_self]
  | succ n ih =>
    intro found l a h1 h2
    have hs := shiftRight_succ e n
    cases found with
    | false =>
      have h0 := h2 rfl
      rw [h0, Nat.mul_zero, Nat.zero_add] at hs
      by_cases hb : e.testBit n = true
      · rw [if_pos hb] at hs
        simp only [expActs, Bool.not_false, if_true, hb, Bool.not_true, Bool.false_eq_true, if_false]
        show solo (expActs r e n true) (l, Function.update a r l.t) = _
        rw [ih true _ _ (fun _ => by simp [hs]) (by simp)]
        simp
      · rw [if_neg hb] at hs
        have hb' : e.testBit n = false := by simpa using hb
        simp only [expActs, Bool.not_false, if_true, hb']
        exact ih false _ _ (by simp) (fun _ => hs)
    | true =>
      have h := h1 rfl
      by_cases hb : e.testBit n = true
      · rw [if_pos hb] at hs
        simp only [expActs, Bool.not_true, Bool.false_eq_true, if_false, hb, if_true]
        show solo (expActs r e n true) (l, Function.update (Function.update a r (a r * a r)) r
          ((Function.update a r (a r * a r)) r * l.t)) = _
        rw [ih true _ _ (fun _ => by simp only [Function.update_self, h, hs]; ring) (by simp)]
        simp
      · rw [if_neg hb, Nat.add_zero] at hs
        simp only [expActs, Bool.not_true, Bool.false_eq_true, if_false, hb]
        show solo (expActs r e n true) (l, Function.update a r (a r * a r)) = _
        rw [ih true _ _ (fun _ => by simp only [Function.update_self, h, hs]; ring) (by simp)]
        simp

theorem expProg_solo {r b e : Nat} (he : e < 2 ^ 64) (l : Loc K) (a : Nat → K) :
    (solo (expProg r b e) (l, a)).2 = Function.update a r (a b ^ e) := by
  show (solo (expActs r e 64 false) ({ l with t := a b }, a)).2 = _
  rw [expActs_solo r e 64 false _ _ (by simp) (fun _ => by rw [Nat.shiftRight_eq_div_pow]; exact Nat.div_eq_of_lt he)]

theorem expActs_foot {F RO : Nat → Prop} {r : Nat} (hr : F r) (e : Nat) : ∀ n found, ∀ a ∈ expActs (K := K) r e n found, Foot F RO a := by
  intro n
  induction n with
  | zero =>
    intro found a ha
    cases found
    · simp only [expActs, Bool.not_false, if_true, List.mem_singleton] at ha
      subst ha
      exact foot_write (v := fun (_ : Loc K) _ => 1) hr fun _ _ _ _ => rfl
    · simp [expActs] at ha
  | succ n ih =>
    intro found a ha
    cases found
    · simp only [expActs, Bool.not_false, if_true] at ha
      split at ha
      · exact ih _ _ ha
      · rcases List.mem_cons.1 ha with rfl | ha
        · exact foot_write (v := fun (l : Loc K) _ => l.t) hr fun _ _ _ _ => rfl
        · exact ih _ _ ha
    · simp only [expActs, Bool.not_true, Bool.false_eq_true, if_false] at ha
      rcases List.mem_cons.1 ha with rfl | ha
      · exact foot_write (v := fun (_ : Loc K) a => a r * a r) hr fun _ _ _ hm => by simp only [hm r (Or.inl hr)]
      · rcases List.mem_append.1 ha with ha | ha
        · split at ha
          · simp only [List.mem_singleton] at ha
            subst ha
            exact foot_write (v := fun (l : Loc K) a => a r * l.t) hr fun _ _ _ hm => by simp only [hm r (Or.inl hr)]
          · simp at ha
        · exact ih _ _ ha

theorem expProg_foot {F RO : Nat → Prop} {r b : Nat} (hr : F r) (hb : F b ∨ RO b) (e : Nat) : ∀ a ∈ expProg (K := K) r b e, Foot F RO a := by
  intro a ha
  rcases List.mem_cons.1 ha with rfl | ha
  · exact foot_read (f := fun (l : Loc K) a => { l with t := a b }) fun _ _ _ hm => by simp only [hm b hb]
  · exact expActs_foot hr e _ _ _ ha

theorem expActs_one (r : Nat) : ∀ n, expActs (K := K) r 1 (n + 1) false = [fun p => (p.1, Function.update p.2 r p.1.t)] := by
  intro n
  induction n with
  | zero => simp [expActs]
  | succ n ih =>
    rw [expActs]
    have : (1 : Nat).testBit (n + 1) = false := by simp [Nat.testBit_succ]
    simp only [Bool.not_false, if_true, this]
    exact ih

/-- The multiplication loop of a block. -/
def mulActs (start d : Nat) : List (Act (Loc K) K) :=
  (List.range' (start + 1) d).map fun i => fun (l, a) => (l, Function.update a i (a (i - 1) * a 1))

theorem mulActs_solo (ω : K) : ∀ d start (l : Loc K) (a : Nat → K), a 1 = ω → a start = ω ^ start →
    (solo (mulActs start d) (l, a)).2 1 = ω ∧
    ∀ c, (solo (mulActs start d) (l, a)).2 c = if start ≤ c ∧ c ≤ start + d then ω ^ c else a c := by
  intro d
  induction d with
  | zero =>
    intro start l a h1 h2
    refine ⟨h1, fun c => ?_⟩
    split
    · rw [show c = start by omega]; exact h2
    · rfl
  | succ d ih =>
    intro start l a h1 h2
    have e : solo (mulActs start (d + 1)) (l, a) = solo (mulActs (start + 1) d) (l, Function.update a (start + 1) (a start * a 1)) := by
      simp [mulActs, solo, List.range'_succ]
    rw [e]
    have hv : a start * a 1 = ω ^ (start + 1) := by rw [h1, h2, pow_succ]
    obtain ⟨g1, g2⟩ := ih (start + 1) l (Function.update a (start + 1) (a start * a 1))
      (by
        by_cases hz : 1 = start + 1
        · obtain rfl : start = 0 := by omega
          show Function.update a 1 _ 1 = ω
          rw [Function.update_self, hv]; simp
        · rw [Function.update_of_ne hz, h1])
      (by rw [Function.update_self, hv])
    refine ⟨g1, fun c => ?_⟩
    rw [g2 c]
    by_cases hc : start + 1 ≤ c ∧ c ≤ start + 1 + d
    · rw [if_pos hc, if_pos (by omega)]
    · rw [if_neg hc]
      by_cases hcs : c = start
      · subst hcs
        rw [if_pos (by omega), Function.update_of_ne (by omega), h2]
      · rw [if_neg (by omega), Function.update_of_ne (by omega)]

/-- One block on its own: the powers of `roots[1]`; in between, `roots[1]` always keeps its value. -/
theorem prog_solo {start stop : Nat} (hs : start < 2 ^ 64) (hlt : start < stop) {ω : K} (l : Loc K) {a : Nat → K} (h1 : a 1 = ω) :
    (∀ c, start ≤ c → c < stop → (solo (expProg start 1 start ++ mulActs start (stop - (start + 1))) (l, a)).2 c = ω ^ c) ∧
    ∀ p, (solo ((expProg start 1 start ++ mulActs start (stop - (start + 1))).take p) (l, a)).2 1 = ω := by
  have hexp := expProg_solo (r := start) (b := 1) hs l a
  have hmul : ∀ d, (solo (expProg start 1 start ++ mulActs start d) (l, a)).2 1 = ω ∧
      ∀ c, start ≤ c → c ≤ start + d → (solo (expProg start 1 start ++ mulActs start d) (l, a)).2 c = ω ^ c := by
    intro d
    have e : solo (expProg start 1 start ++ mulActs start d) (l, a) =
        solo (mulActs start d) ((solo (expProg start 1 start) (l, a)).1, Function.update a start (ω ^ start)) := by
      rw [← h1, ← hexp]; simp [solo, List.foldl_append]
    rw [e]
    obtain ⟨g1, g2⟩ := mulActs_solo ω d start (solo (expProg start 1 start) (l, a)).1 (Function.update a start (ω ^ start))
      (by
        by_cases hz : 1 = start
        · subst hz; simp
        · rw [Function.update_of_ne hz, h1])
      (by rw [Function.update_self])
    refine ⟨g1, fun c hc1 hc2 => ?_⟩
    rw [g2 c, if_pos ⟨hc1, hc2⟩]
  refine ⟨fun c h2 h3 => (hmul _).2 c h2 (by omega), fun p => ?_⟩
  rw [List.take_append]
  by_cases hp : p < (expProg (K := K) start 1 start).length
  · rw [show p - (expProg (K := K) start 1 start).length = 0 by omega, List.take_zero, List.append_nil]
    by_cases hz : start = 1
    · subst hz
      have e : expProg (K := K) 1 1 1 = [fun p => ({ p.1 with t := p.2 1 }, p.2), fun p => (p.1, Function.update p.2 1 p.1.t)] := by
        rw [expProg, expActs_one]
      rw [e] at hp ⊢
      simp only [List.length_cons, List.length_nil] at hp
      rcases p with _ | _ | p
      · exact h1
      · exact h1
      · omega
    · rw [solo_writes (F := fun c => c = start) (RO := fun c => c = 1) _ (fun b hb =>
        expProg_foot (F := fun c => c = start) (RO := fun c => c = 1) rfl (Or.inr rfl) start b (List.mem_of_mem_take hb)) _ 1 (fun h => hz h.symm)]; exact h1
  · rw [List.take_of_length_le (by omega)]
    have e : ∀ n, (mulActs (K := K) start (stop - (start + 1))).take n = mulActs start (min n (stop - (start + 1))) := by
      intro n
      unfold mulActs
      rw [← List.map_take]
      congr 1
      apply List.ext_getElem
      · simp
      · intro i h1 h2; simp
    rw [e]
    exact (hmul _).1

/-- Where the block of a thread starts and ends. -/
def bStart (n T id : Nat) : Nat := if id = 0 then 2 else id * (n / T)
def bStop (n T id : Nat) : Nat := if id = T - 1 then n else (id + 1) * (n / T)

theorem ctorThreads_eq {n T : Nat} (hT : 0 < T) (j : Nat) : ctorThreads (K := K) n T j =
    if j < T ∧ bStart n T j < bStop n T j then expProg (bStart n T j) 1 (bStart n T j) ++ mulActs (bStart n T j) (bStop n T j - (bStart n T j + 1))
    else [] := by
  have hpb : (parallelBlock T)[j]? = if j < T then some j else none := by
    have e : parallelBlock T = List.range T := by
      unfold parallelBlock
      obtain ⟨t, rfl⟩ : ∃ t, T = t + 1 := ⟨T - 1, by omega⟩
      rw [Nat.add_sub_cancel, List.range_succ]
    rw [e]
    by_cases hj : j < T
    · simp [hj]
    · rw [if_neg hj, List.getElem?_eq_none (by simpa using hj)]
  unfold ctorThreads
  rw [hpb]
  by_cases hj : j < T
  · simp only [if_pos hj]
    have e : blockProg (K := K) n T j = (if bStop n T j > bStart n T j then expProg (bStart n T j) 1 (bStart n T j) else []) ++
      mulActs (bStart n T j) (bStop n T j - (bStart n T j + 1)) := rfl
    rw [e]
    by_cases hlt : bStart n T j < bStop n T j
    · rw [if_pos hlt, if_pos ⟨hj, hlt⟩]
    · rw [if_neg hlt, if_neg (fun h => hlt h.2), show bStop n T j - (bStart n T j + 1) = 0 by omega]
      rfl
  · rw [if_neg hj, if_neg (fun h => hj h.1)]

theorem block_spec {n T : Nat} (hT : 0 < T) (hn : 2 ≤ n) (hn64 : n ≤ 2 ^ 64) {ω : K} {m m' : Nat → K} (h0 : m 0 = 1) (h1 : m 1 = ω)
    (h : Exec (ctorThreads n T) m m') : ∀ i < n, m' i = ω ^ i := by
  obtain ⟨loc, sched, hdone, hm⟩ := h
  have hprog : ctorThreads (K := K) n T = _ := funext fun j => ctorThreads_eq hT j
  rw [hprog] at hdone hm
  -- starts and stops
  have hstop : ∀ id < T, bStop n T id ≤ n := by
    intro id hid
    unfold bStop
    split
    · exact le_refl _
    · calc (id + 1) * (n / T) ≤ T * (n / T) := Nat.mul_le_mul_right _ hid
        _ ≤ n := Nat.mul_div_le n T
  have hord : ∀ i j, i < j → j < T → bStop n T i ≤ bStart n T j := by
    intro i j hij hj
    unfold bStop bStart
    rw [if_neg (by omega), if_neg (by omega)]
    exact Nat.mul_le_mul_right _ hij
  let F : Nat → Nat → Prop := fun j c => j < T ∧ bStart n T j ≤ c ∧ c < bStop n T j
  have hdis : ∀ i j c, F i c → F j c → i = j := by
    rintro i j c ⟨a1, a2, a3⟩ ⟨b1, b2, b3⟩
    rcases lt_trichotomy i j with hlt | heq | hgt
    · have := hord i j hlt b1; omega
    · exact heq
    · have := hord j i hgt a1; omega
  have hfoot : ∀ j, ∀ a ∈ (if j < T ∧ bStart n T j < bStop n T j then
      expProg (K := K) (bStart n T j) 1 (bStart n T j) ++ mulActs (bStart n T j) (bStop n T j - (bStart n T j + 1)) else []),
      Foot (F j) (fun c => c = 1) a := by
    intro j a ha
    split at ha
    · rename_i hj
      rcases List.mem_append.1 ha with ha | ha
      · exact expProg_foot (F := F j) (RO := fun c => c = 1) ⟨hj.1, le_refl _, hj.2⟩ (Or.inr rfl) _ a ha
      · unfold mulActs at ha
        obtain ⟨i, hi, rfl⟩ := List.mem_map.1 ha
        rw [List.mem_range'_1] at hi
        exact foot_write (F := F j) (RO := fun c => c = 1) (v := fun (_ : Loc K) a => a (i - 1) * a 1) ⟨hj.1, by omega, by omega⟩ fun l m m' hm => by
          show m (i - 1) * m 1 = m' (i - 1) * m' 1
          rw [hm (i - 1) (Or.inl ⟨hj.1, by omega, by omega⟩), hm 1 (Or.inr rfl)]
    · simp at ha
  have hsolo := fun j (hj : j < T ∧ bStart n T j < bStop n T j) l =>
    prog_solo (K := K) (start := bStart n T j) (stop := bStop n T j) (lt_of_lt_of_le hj.2 ((hstop j hj.1).trans hn64)) hj.2 l h1
  obtain ⟨r1, r2⟩ := run_spec_const (F := F) (RO := fun c => c = 1) hdis hfoot (loc := loc) (m := m) (by
    rintro j p c rfl
    by_cases hj : j < T ∧ bStart n T j < bStop n T j
    · simp only [if_pos hj]
      rw [(hsolo j hj (loc j)).2 p, h1]
    · simp only [if_neg hj, List.take_nil]; rfl) sched hdone
  rw [hm] at r1 r2
  have hown : ∀ c, (∃ j, F j c) → m' c = ω ^ c := by
    rintro c ⟨j, hj⟩
    rw [r1 j c hj]
    have hj' : j < T ∧ bStart n T j < bStop n T j := ⟨hj.1, lt_of_le_of_lt hj.2.1 hj.2.2⟩
    simp only [if_pos hj']
    exact (hsolo j hj' (loc j)).1 c hj.2.1 hj.2.2
  intro i hi
  by_cases hex : ∃ j, F j i
  · exact hown i hex
  · have hr := r2 i (fun j hj => hex ⟨j, hj⟩)
    have hi2 : i < 2 := by
      by_contra h2
      apply hex
      by_cases hinc : n / T = 0
      · refine ⟨T - 1, by omega, ?_, ?_⟩
        · unfold bStart; split
          · omega
          · rw [hinc]; omega
        · unfold bStop; rw [if_pos rfl]; exact hi
      · by_cases hlast : i / (n / T) < T - 1
        · refine ⟨i / (n / T), by omega, ?_, ?_⟩
          · unfold bStart; split
            · omega
            · exact Nat.div_mul_le_self i _
          · unfold bStop; rw [if_neg (by omega)]
            rw [mul_comm]; exact Nat.lt_mul_div_succ i (Nat.pos_of_ne_zero hinc)
        · refine ⟨T - 1, by omega, ?_, ?_⟩
          · unfold bStart; split
            · omega
            · calc (T - 1) * (n / T) ≤ i / (n / T) * (n / T) := Nat.mul_le_mul_right _ (by omega)
                _ ≤ i := Nat.div_mul_le_self i _
          · unfold bStop; rw [if_pos rfl]; exact hi
    rw [hr]
    have : i = 0 ∨ i = 1 := by omega
    rcases this with rfl | rfl
    · rw [h0, pow_zero]
    · rw [h1, pow_one]

theorem powLoop_spec {p : Nat → K} {v : K} (h0 : p 0 = 1) (h1 : p 1 = v) (s : Nat) : ∀ i ≤ s, 1 ≤ s → powLoop p s i = v ^ i := by
  have key : ∀ d, ∀ i ≤ d + 1, ((List.range' 2 d).foldl (fun p i => Function.update p i (p (i - 1) * p 1)) p) i = v ^ i := by
    intro d
    induction d with
    | zero =>
      intro i hi
      have : i = 0 ∨ i = 1 := by omega
      rcases this with rfl | rfl
      · simp [h0]
      · simp [h1]
    | succ d ih =>
      intro i hi
      rw [List.range'_concat, List.foldl_append]
      simp only [List.foldl_cons, List.foldl_nil, mul_one, one_mul]
      by_cases hi' : i = 2 + d
      · subst hi'
        rw [Function.update_self, ih (2 + d - 1) (by omega), ih 1 (by omega), pow_one, ← pow_succ]
        congr 1; omega
      · rw [Function.update_of_ne hi']; exact ih i (by omega)
  intro i hi hs
  exact key (s - 1) i (by omega)

end block

/-! ## Numbers -/

theorem mpzPowm_cast {q : Nat} (hq : 0 < q) (b e : Nat) : mpzPowm (b : Int) (e : Int) (q : Int) = some ((b ^ e % q : Nat) : Int) := by
  unfold mpzPowm
  rw [if_neg (by omega), powmNat_eq]
  have e1 : ((b : Int) % (q : Int)).toNat = b % q := by
    rw [← Int.natCast_mod, Int.toNat_natCast]
  rw [e1]
  simp only [Int.toNat_natCast, Int.natAbs_natCast]
  rw [← Nat.pow_mod]

theorem nqrLoop_spec {q h : Nat} (hq : 0 < q) : ∀ fuel (n : Nat) r, nqrLoop (h : Int) (q : Int) fuel (n : Int) = some r →
    ∃ c : Nat, r = (c : Int) ∧ n ≤ c ∧ c ^ h % q ≠ 1 ∧ ∀ d, n ≤ d → d < c → d ^ h % q = 1 := by
  intro fuel
  induction fuel with
  | zero => intro n r h; simp [nqrLoop] at h
  | succ fuel ih =>
    intro n r hr
    rw [nqrLoop, mpzPowm_cast hq] at hr
    simp only at hr
    split at hr
    · rename_i h1
      obtain ⟨c, e1, e2, e3, e4⟩ := ih (n + 1) r (by exact_mod_cast hr)
      refine ⟨c, e1, by omega, e3, fun d hd1 hd2 => ?_⟩
      by_cases hdn : d = n
      · subst hdn; exact_mod_cast h1
      · exact e4 d (by omega) hd2
    · rename_i h1
      refine ⟨n, (Option.some.inj hr).symm, le_refl _, by exact_mod_cast h1, fun d h1 h2 => by omega⟩

theorem nqrLoop_exists {q h : Nat} (hq : 0 < q) {c : Nat} (hc : c ^ h % q ≠ 1) : ∀ d (n : Nat), n + d = c → ∃ fuel r, nqrLoop (h : Int) (q : Int) fuel (n : Int) = some r := by
  intro d
  induction d with
  | zero =>
    intro n hn
    refine ⟨1, n, ?_⟩
    rw [nqrLoop, mpzPowm_cast hq]
    simp only
    rw [if_neg]
    rw [show n = c by omega]
    exact_mod_cast hc
  | succ d ih =>
    intro n hn
    obtain ⟨fuel, r, hr⟩ := ih (n + 1) (by omega)
    by_cases h1 : n ^ h % q = 1
    · refine ⟨fuel + 1, r, ?_⟩
      rw [nqrLoop, mpzPowm_cast hq]
      simp only
      rw [if_pos (by exact_mod_cast h1)]
      exact_mod_cast hr
    · refine ⟨1, n, ?_⟩
      rw [nqrLoop, mpzPowm_cast hq]
      simp only
      rw [if_neg (by exact_mod_cast h1)]

/-- A number between 2 and `q` that is no square, by Euler's criterion. -/
theorem exists_nqr {q : Nat} [hq : Fact q.Prime] (h2 : q ≠ 2) : ∃ c : Nat, 2 ≤ c ∧ c < q ∧ c ^ (q / 2) % q ≠ 1 := by
  have hchar : ringChar (ZMod q) ≠ 2 := by rw [ZMod.ringChar_zmod_n]; exact h2
  obtain ⟨a, ha⟩ := FiniteField.exists_nonsquare hchar
  have ha0 : a ≠ 0 := fun h => ha (h ▸ ⟨0, by simp⟩)
  have ha1 : a ≠ 1 := fun h => ha (h ▸ ⟨1, by simp⟩)
  have hpow : a ^ (q / 2) ≠ 1 := fun h => ha ((ZMod.euler_criterion q ha0).2 h)
  refine ⟨a.val, ?_, ZMod.val_lt a, ?_⟩
  · by_contra hlt
    have : a.val = 0 ∨ a.val = 1 := by omega
    rcases this with h | h
    · exact ha0 ((ZMod.val_eq_zero a).1 h)
    · apply ha1; rw [← ZMod.natCast_zmod_val a, h]; simp
  · intro h
    apply hpow
    have : ((a.val ^ (q / 2) % q : Nat) : ZMod q) = 1 := by rw [h]; simp
    rw [ZMod.natCast_mod, Nat.cast_pow, ZMod.natCast_zmod_val] at this
    exact this

theorem nqr_pow {q : Nat} [hq : Fact q.Prime] {c : Nat} (h1 : 2 ≤ c) (h2 : c < q) (h3 : c ^ (q / 2) % q ≠ 1) : (c : ZMod q) ^ (q / 2) = -1 := by
  have h0 : (c : ZMod q) ≠ 0 := by
    intro h
    rw [ZMod.natCast_eq_zero_iff] at h
    exact absurd (Nat.le_of_dvd (by omega) h) (by omega)
  rcases ZMod.pow_div_two_eq_neg_one_or_one q h0 with h | h
  · exfalso; apply h3
    have e : ((c ^ (q / 2) : Nat) : ZMod q) = ((1 : Nat) : ZMod q) := by push_cast; exact h
    rw [ZMod.natCast_eq_natCast_iff] at e
    have := hq.out.two_le
    rw [show c ^ (q / 2) % q = 1 % q from e, Nat.mod_eq_of_lt (by omega)]
  · exact h

theorem sLoop_spec (D : Nat) : ∀ fuel s (aux : Nat), D ≤ fuel + s → ∃ s' aux' : Nat, sLoop D fuel s (aux : Int) = (s', (aux' : Int)) ∧ s ≤ s' ∧
    aux = aux' * 2 ^ (s' - s) ∧ (s' ≤ D ∨ s' = s) ∧ (D ≤ s' ∨ aux' % 2 = 1) := by
  intro fuel
  induction fuel with
  | zero => intro s aux h; exact ⟨s, aux, rfl, le_refl _, by simp, Or.inr rfl, Or.inl (by omega)⟩
  | succ fuel ih =>
    intro s aux h
    rw [sLoop]
    by_cases hc : aux % 2 = 1
    · rw [if_neg (by simp; omega)]
      exact ⟨s, aux, rfl, le_refl _, by simp, Or.inr rfl, Or.inr hc⟩
    · by_cases hs : s < D
      · rw [if_pos (by simp; omega)]
        obtain ⟨s', aux', e1, e2, e3, e4, e5⟩ := ih (s + 1) (aux / 2) (by omega)
        refine ⟨s', aux', by exact_mod_cast e1, by omega, ?_, by omega, e5⟩
        have : aux = aux / 2 * 2 := by omega
        rw [this, e3, mul_assoc, ← pow_succ]
        congr 2; omega
      · rw [if_neg (by simp; omega)]
        exact ⟨s, aux, rfl, le_refl _, by simp, Or.inr rfl, Or.inl (by omega)⟩

theorem fftLog2_lt {n : BitVec 64} {k : Nat} (h : fftLog2 n = some k) : n ≠ 0 ∧ k = Nat.log2 n.toNat ∧ k < 64 := by
  have hn : n ≠ 0 := by rintro rfl; simp [fftLog2] at h
  rw [fftLog2_eq n hn] at h
  obtain rfl := Option.some.inj h
  refine ⟨hn, rfl, ?_⟩
  have h0 : n.toNat ≠ 0 := fun h => hn (BitVec.eq_of_toNat_eq (by simpa using h))
  exact (Nat.log2_lt h0).2 n.isLt

/-- The numbers computed by the constructor. -/
theorem ctor_numbers {q : Nat} [hq : Fact q.Prime] (h2 : q ≠ 2) :
    (((-1 : ZMod q).val : Int) + 1 = (q : Int)) ∧ ((-1 : ZMod q).val : Int) / 2 = ((q / 2 : Nat) : Int) ∧ q = 2 * (q / 2) + 1 := by
  have hp := hq.out.two_le
  have hodd : q % 2 = 1 := (hq.out.eq_two_or_odd).resolve_left h2
  have e : (-1 : ZMod q).val = q - 1 := by
    rw [ZMod.neg_val, if_neg (by
      intro h; exact one_ne_zero h)]
    have : Fact (1 < q) := ⟨by omega⟩
    rw [ZMod.val_one]
  rw [e]
  refine ⟨by omega, by omega, by omega⟩

/-- Every outcome of the constructor. -/
theorem ctor_spec {q T : Nat} [hq : Fact q.Prime] (h2 : q ≠ 2) (hT : 0 < T) {N : BitVec 64} {res : Option (Obj (ZMod q))} (h : Ctor q T N res) :
    (res = none ∧ ¬ 2 ^ Nat.log2 N.toNat ∣ q - 1) ∨
    (2 ^ Nat.log2 N.toNat ∣ q - 1 ∧ ∃ F ω, res = some F ∧ F.s = max 1 (Nat.log2 N.toNat) ∧ Table F ω ∧ ¬ IsSquare F.nqr) := by
  obtain ⟨D, hD, fuel, r, hr, h⟩ := h
  obtain ⟨n1, n2, n3⟩ := ctor_numbers (q := q) h2
  obtain ⟨hN, hlog, hD64⟩ := fftLog2_lt hD
  rw [← hlog]
  simp only [n1, n2] at hr h
  have hq0 : 0 < q := hq.out.pos
  obtain ⟨c, rfl, hc2, hc1, hcmin⟩ := nqrLoop_spec hq0 fuel 2 r hr
  obtain ⟨c0, k1, k2, k3⟩ := exists_nqr (q := q) h2
  have hcq : c < q := by
    by_contra hh
    exact k3 (hcmin c0 k1 (by omega))
  have hneg := nqr_pow hc2 hcq hc1
  obtain ⟨s, aux, hs, hs1, haux, hsD, hstop⟩ := sLoop_spec D D 1 (q / 2) (by omega)
  rw [hs] at h
  simp only at h
  have hfac : q - 1 = aux * 2 ^ s := by
    obtain ⟨d, rfl⟩ : ∃ d, s = d + 1 := ⟨s - 1, by omega⟩
    rw [Nat.add_sub_cancel] at haux
    rw [pow_succ, ← mul_assoc, ← haux]; omega
  by_cases hlt : s < D
  · rw [if_pos hlt] at h
    left
    refine ⟨h, fun hdvd => ?_⟩
    have hodd : aux % 2 = 1 := by omega
    have h3 : 2 ^ (s + 1) ∣ aux * 2 ^ s := by rw [← hfac]; exact dvd_trans (pow_dvd_pow 2 hlt) hdvd
    rw [pow_succ, mul_comm (2 ^ s) 2] at h3
    have := Nat.dvd_of_mul_dvd_mul_right (Nat.two_pow_pos s) h3
    omega
  · rw [if_neg hlt] at h
    right
    have hsmax : s = max 1 D := by omega
    refine ⟨?_, ?_⟩
    · rw [hfac]; exact dvd_trans (pow_dvd_pow 2 (show D ≤ s by omega)) (Dvd.intro_left _ rfl)
    obtain ⟨w, hw, junk, junk', j, roots', hex, _, hres⟩ := h
    rw [mpzPowm_cast hq0] at hw
    obtain rfl := Option.some.inj hw
    have hωc : (((c ^ aux % q : Nat) : Int) : ZMod q) = (c : ZMod q) ^ aux := by
      rw [Int.cast_natCast, ZMod.natCast_mod, Nat.cast_pow]
    rw [hωc] at hex
    obtain ⟨d, hd⟩ : ∃ d, s = d + 1 := ⟨s - 1, by omega⟩
    have hhalf : ((c : ZMod q) ^ aux) ^ 2 ^ d = -1 := by
      rw [← pow_mul, show aux * 2 ^ d = q / 2 by rw [haux, hd, Nat.add_sub_cancel], hneg]
    have hne : (-1 : ZMod q) ≠ 1 := by
      intro he
      have : (2 : ZMod q) = 0 := by linear_combination -he
      have h3 : ((2 : Nat) : ZMod q) = 0 := by exact_mod_cast this
      rw [ZMod.natCast_eq_zero_iff] at h3
      exact h2 ((Nat.prime_dvd_prime_iff_eq hq.out Nat.prime_two).1 h3)
    have hprim : IsPrimitiveRoot ((c : ZMod q) ^ aux) (2 ^ s) := by
      have : Fact (Nat.Prime 2) := ⟨Nat.prime_two⟩
      have ho := orderOf_eq_prime_pow (x := (c : ZMod q) ^ aux) (p := 2) (n := d) (by rw [hhalf]; exact hne)
        (by rw [pow_succ, pow_mul, hhalf]; norm_num)
      rw [hd, ← ho]; exact IsPrimitiveRoot.orderOf _
    have hsh : 1 <<< s = 2 ^ s := by rw [Nat.shiftLeft_eq, one_mul]
    rw [hsh] at hex
    have htab := block_spec hT (n := 2 ^ s) (by rw [hd, pow_succ]; have := Nat.two_pow_pos d; omega)
      (Nat.pow_le_pow_right (by norm_num) (by omega)) (ω := (c : ZMod q) ^ aux) (by simp) (by simp) hex
    refine ⟨_, (c : ZMod q) ^ aux, hres, hsmax, ⟨hprim, htab, ?_⟩, ?_⟩
    · intro i hi
      simp only at hi ⊢
      rw [powLoop_spec (v := (((mpzInvert 2 (q : Int) j : Int)) : ZMod q)) (by simp) (by simp) s i hi hs1, ← mul_pow]
      have hg : Int.gcd 2 (q : Int) = 1 := by
        show Nat.gcd 2 q = 1
        exact (Nat.coprime_primes Nat.prime_two hq.out).2 (fun h => h2 h.symm)
      obtain ⟨_, _, hm⟩ := mpzInvert_spec (a := 2) (m := (q : Int)) (junk := j) (by exact_mod_cast hq0) hg
      have : (((2 * mpzInvert 2 (q : Int) j : Int)) : ZMod q) = ((1 : Int) : ZMod q) := by
        rw [ZMod.intCast_eq_intCast_iff]; exact hm
      push_cast at this
      rw [mul_comm, this, one_pow]
    · intro hsq
      simp only [Int.cast_natCast] at hsq
      have h0 : (c : ZMod q) ≠ 0 := by
        intro h
        rw [ZMod.natCast_eq_zero_iff] at h
        exact absurd (Nat.le_of_dvd (by omega) h) (by omega)
      rw [ZMod.euler_criterion q h0, hneg] at hsq
      exact hne hsq

/-- The constructor always comes to an end, for any number of threads. -/
theorem ctor_exists {q T : Nat} [hq : Fact q.Prime] (h2 : q ≠ 2) (hT : 0 < T) {N : BitVec 64} (hN : N ≠ 0) : ∃ res, Ctor q T N res := by
  obtain ⟨n1, n2, n3⟩ := ctor_numbers (q := q) h2
  have hq0 : 0 < q := hq.out.pos
  obtain ⟨c0, k1, k2, k3⟩ := exists_nqr (q := q) h2
  obtain ⟨fuel, r, hr⟩ := nqrLoop_exists hq0 k3 (c0 - 2) 2 (by omega)
  obtain ⟨c, rfl, hc2, hc1, hcmin⟩ := nqrLoop_spec hq0 fuel 2 r hr
  have hcq : c < q := by
    by_contra hh
    exact k3 (hcmin c0 k1 (by omega))
  have hneg := nqr_pow hc2 hcq hc1
  have hlog := fftLog2_eq N hN
  obtain ⟨_, _, hD64⟩ := fftLog2_lt hlog
  generalize Nat.log2 N.toNat = D at *
  obtain ⟨s, aux, hs, hs1, haux, hsD, hstop⟩ := sLoop_spec D D 1 (q / 2) (by omega)
  by_cases hlt : s < D
  · refine ⟨none, D, hlog, fuel, c, ?_, ?_⟩
    · rw [n1, n2]; exact hr
    · simp only [n2, hs, if_pos hlt]
  · obtain ⟨d, hd⟩ : ∃ d, s = d + 1 := ⟨s - 1, by omega⟩
    have hωc : (((c ^ aux % q : Nat) : Int) : ZMod q) = (c : ZMod q) ^ aux := by
      rw [Int.cast_natCast, ZMod.natCast_mod, Nat.cast_pow]
    have hn2 : 2 ≤ 1 <<< s := by rw [Nat.shiftLeft_eq, one_mul, hd, pow_succ]; have := Nat.two_pow_pos d; omega
    obtain ⟨roots', hex⟩ := exec_exists (ctorThreads (1 <<< s) T) T
      (by
        intro j hj
        have : (parallelBlock T)[j]? = none := List.getElem?_eq_none (by simp [parallelBlock]; omega)
        simp only [ctorThreads, this]) (⟨0, 0⟩ : Loc (ZMod q))
      (Function.update (Function.update (fun _ => 0) 0 1) 1 ((c : ZMod q) ^ aux))
    have htab := block_spec hT hn2 (by rw [Nat.shiftLeft_eq, one_mul]; exact Nat.pow_le_pow_right (by norm_num) (by omega))
      (ω := (c : ZMod q) ^ aux) (by simp) (by simp) hex
    refine ⟨some ⟨s, (((c : Nat) : Int) : ZMod q), roots',
      powLoop (Function.update (Function.update (fun _ => 0) 0 1) 1 ((mpzInvert 2 (q : Int) 0 : Int) : ZMod q)) s⟩, D, hlog, fuel, c, ?_, ?_⟩
    · rw [n1, n2]; exact hr
    · simp only [n1, n2, hs, if_neg hlt]
      refine ⟨_, mpzPowm_cast hq0 c aux, fun _ => 0, fun _ => 0, 0, roots', ?_, ?_, rfl⟩
      · rw [hωc]; exact hex
      · rw [htab _ (by omega), htab 1 (by omega), pow_one, ← pow_succ, show 1 <<< s - 1 + 1 = 1 <<< s by omega, Nat.shiftLeft_eq, one_mul,
          ← pow_mul, hd, pow_succ, ← mul_assoc, pow_mul, show aux * 2 ^ d = q / 2 by rw [haux, hd, Nat.add_sub_cancel], hneg]
        norm_num

end FF.Fft
