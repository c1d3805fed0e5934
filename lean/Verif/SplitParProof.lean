import Verif.SplitPar

/-!
# Proofs about `splitParStr`: nesting depth, redundant parentheses, and the scan
-/

set_option linter.unusedSimpArgs false

namespace FF.Split

/-- The change of nesting depth made by a character. -/
def wt (c : Char) : Int := if c = '(' then 1 else if c = ')' then -1 else 0

/-- The nesting depth after a text. -/
def dep : List Char → Int
  | [] => 0
  | c :: cs => wt c + dep cs

@[simp] theorem dep_nil : dep [] = 0 := rfl
@[simp] theorem dep_cons (c : Char) (s : List Char) : dep (c :: s) = wt c + dep s := rfl
@[simp] theorem dep_append (s t : List Char) : dep (s ++ t) = dep s + dep t := by
  induction s with
  | nil => simp
  | cons c s ih => simp [ih]; ring
@[simp] theorem wt_open : wt '(' = 1 := rfl
@[simp] theorem wt_close : wt ')' = -1 := rfl
@[simp] theorem wt_comma : wt ',' = 0 := rfl

theorem wt_le (c : Char) : wt c ≤ 1 := by unfold wt; split <;> [omega; split <;> omega]
theorem wt_ge (c : Char) : -1 ≤ wt c := by unfold wt; split <;> [omega; split <;> omega]

theorem dep_le (s : List Char) : dep s ≤ s.length := by
  induction s with
  | nil => simp
  | cons c s ih => have := wt_le c; simp; omega

/-- Never closes more than it opened, and closes everything. -/
def Bal (s : List Char) : Prop := dep s = 0 ∧ ∀ i, 0 ≤ dep (s.take i)

theorem Bal.nil : Bal [] := ⟨rfl, by simp⟩

theorem Bal.append {s t : List Char} (hs : Bal s) (ht : Bal t) : Bal (s ++ t) := by
  refine ⟨by simp [hs.1, ht.1], fun i => ?_⟩
  rw [List.take_append, dep_append]
  exact add_nonneg (hs.2 _) (ht.2 _)

theorem Bal.single {c : Char} (h : wt c = 0) : Bal [c] := by
  refine ⟨by simp [h], fun i => ?_⟩
  cases i <;> simp [h]

theorem Bal.wrap {s : List Char} (hs : Bal s) : Bal ('(' :: (s ++ [')'])) := by
  refine ⟨by simp [hs.1], fun i => ?_⟩
  cases i with
  | zero => simp
  | succ i =>
    rw [List.take_succ_cons, dep_cons, List.take_append, dep_append]
    have h1 := hs.2 i
    by_cases h : i ≤ s.length
    · rw [show i - s.length = 0 by omega]; simp; omega
    · rw [List.take_of_length_le (by omega), hs.1]
      obtain ⟨j, hj⟩ : ∃ j, i - s.length = j + 1 := ⟨i - s.length - 1, by omega⟩
      rw [hj]; simp

/-- Text without parentheses. -/
def NoPar (s : List Char) : Prop := ∀ c ∈ s, wt c = 0

theorem NoPar.dep {s : List Char} (h : NoPar s) : dep s = 0 := by
  induction s with
  | nil => rfl
  | cons c s ih => simp [h c (by simp), ih fun x hx => h x (by simp [hx])]

theorem NoPar.bal {s : List Char} (h : NoPar s) : Bal s :=
  ⟨h.dep, fun _ => le_of_eq (NoPar.dep fun c hc => h c (List.mem_of_mem_take hc)).symm⟩

theorem wt_zero_ne {c : Char} (h : wt c = 0) : c ≠ '(' ∧ c ≠ ')' := by
  constructor <;> rintro rfl <;> simp at h

/-! ### The counting loop -/

theorem nsLoop_spec (s : List Char) (f ns : Nat) (hall : ∀ j < ns, at' s j = '(' ∧ at' s (s.length - 1 - j) = ')')
    (hf : s.length < f + ns) :
    let n := nsLoop s f ns
    (∀ j < n, at' s j = '(' ∧ at' s (s.length - 1 - j) = ')') ∧
      ¬ (s.length ≥ n * 2 ∧ at' s n = '(' ∧ at' s (s.length - 1 - n) = ')') ∧ ns ≤ n := by
  induction f generalizing ns with
  | zero =>
    refine ⟨by simpa [nsLoop] using hall, ?_, le_rfl⟩
    rintro ⟨h, _⟩
    simp only [nsLoop] at h
    omega
  | succ f ih =>
    simp only [nsLoop]
    split
    · rename_i h
      obtain ⟨h1, h2, h3⟩ := ih (ns + 1) (fun j hj => by
        rcases Nat.lt_succ_iff_lt_or_eq.1 hj with h' | rfl
        · exact hall j h'
        · exact h.2) (by omega)
      exact ⟨h1, h2, by omega⟩
    · rename_i h
      exact ⟨hall, h, le_rfl⟩

/-- The loop of the code ends by its own condition, and its result counts matching outermost characters. -/
theorem nsLoop_stop (s : List Char) :
    let n := nsLoop s (s.length + 1) 0
    (∀ j < n, at' s j = '(' ∧ at' s (s.length - 1 - j) = ')') ∧
      ¬ (s.length ≥ n * 2 ∧ at' s n = '(' ∧ at' s (s.length - 1 - n) = ')') := by
  have := nsLoop_spec s (s.length + 1) 0 (by simp) (by omega)
  exact ⟨this.1, this.2.1⟩

theorem at'_lt {s : List Char} {i : Nat} {c : Char} (h : at' s i = c) (hc : c ≠ '\x00') : i < s.length := by
  by_contra hi
  apply hc
  rw [← h, at', List.getD_eq_default _ _ (by omega)]

theorem two_ns_le {s : List Char} {n : Nat} (h : ∀ j < n, at' s j = '(' ∧ at' s (s.length - 1 - j) = ')') : n * 2 ≤ s.length := by
  by_contra hlt
  have hn : 0 < n := by omega
  have h1 := h (n - 1) (by omega)
  have hl := at'_lt h1.1 (by decide)
  have h2 := h (s.length - 1 - (n - 1)) (by omega)
  rw [h1.2] at h2
  exact absurd h2.1 (by decide)

theorem dep_take_open {s : List Char} {n : Nat} (h : ∀ j < n, at' s j = '(') : dep (s.take n) = n := by
  induction n with
  | zero => simp
  | succ n ih =>
    have hn := h n (by omega)
    have hl := at'_lt hn (by decide)
    rw [List.take_add_one, dep_append, ih fun j hj => h j (by omega)]
    rw [at', List.getD_eq_getElem _ _ hl] at hn
    simp [List.getElem?_eq_getElem hl, hn]

theorem dep_take_succ {s : List Char} {i : Nat} (h : i < s.length) : dep (s.take (i + 1)) = dep (s.take i) + wt (at' s i) := by
  rw [List.take_add_one, dep_append, List.getElem?_eq_getElem h, at', List.getD_eq_getElem _ _ h]; simp

/-! ### The minimum loop -/

theorem minStep_eq (p : Int × Int) (c : Char) : minStep p c = (p.1 + wt c, min p.2 (p.1 + wt c)) := by
  unfold minStep wt
  by_cases h1 : c = '('
  · subst h1; simp [min_def]; split <;> split <;> first | rfl | omega
  · by_cases h2 : c = ')'
    · subst h2; simp [min_def]; split <;> split <;> first | rfl | omega
    · simp [h1, h2, min_def]; split <;> split <;> first | rfl | omega

theorem fold_min (l : List Char) (d m : Int) :
    (l.foldl minStep (d, m)).2 ≤ m ∧ (∀ i, 0 < i → i ≤ l.length → (l.foldl minStep (d, m)).2 ≤ d + dep (l.take i)) ∧
      ((l.foldl minStep (d, m)).2 = m ∨ ∃ i, 0 < i ∧ i ≤ l.length ∧ (l.foldl minStep (d, m)).2 = d + dep (l.take i)) := by
  induction l generalizing d m with
  | nil => simp; omega
  | cons c l ih =>
    simp only [List.foldl_cons, minStep_eq]
    obtain ⟨h1, h2, h3⟩ := ih (d + wt c) (min m (d + wt c))
    refine ⟨by clear h2 h3; omega, fun i hi hil => ?_, ?_⟩
    · cases i with
      | zero => omega
      | succ i =>
        simp only [List.take_succ_cons, dep_cons]
        cases i with
        | zero => simp; clear h2 h3; omega
        | succ i =>
          have := h2 (i + 1) (by omega) (by simpa using hil)
          clear h2 h3; omega
    · rcases h3 with h3 | ⟨i, hi, hil, h3⟩
      · by_cases hm : m ≤ d + wt c
        · left; rw [h3]; omega
        · right; exact ⟨1, by omega, by simp, by simp; omega⟩
      · right; exact ⟨i + 1, by omega, by simpa using hil, by simp; omega⟩

/-- What the minimum loop finds, for positions of the whole string. -/
theorem minIns_spec {s : List Char} {n : Nat} (hopen : ∀ j < n, at' s j = '(') (h2 : n * 2 ≤ s.length) {m : Int}
    (hlow : ∀ p, n ≤ p → p ≤ s.length - n → (n : Int) + m ≤ dep (s.take p)) (hm : m ≤ 0)
    (hatt : m = 0 ∨ ∃ p, n ≤ p ∧ p + n * 2 ≤ s.length ∧ dep (s.take p) = n + m) : minIns s n = m := by
  unfold minIns
  set l := (s.take (s.length - n * 2)).drop n with hl
  have hlen : l.length = s.length - n * 2 - n := by simp [hl]
  have hpre : ∀ i ≤ l.length, dep (l.take i) = dep (s.take (n + i)) - n := by
    intro i hi
    by_cases h0 : i = 0
    · subst h0; simp [dep_take_open hopen]
    have e : s.take (n + i) = s.take n ++ l.take i := by
      rw [hl, List.take_add, List.drop_take, List.take_take, min_eq_left (by omega)]
    rw [e, dep_append, dep_take_open hopen]; omega
  obtain ⟨h1, h3, h4⟩ := fold_min l 0 0
  set r := (l.foldl minStep (0, 0)).2 with hr
  apply le_antisymm
  · rcases hatt with rfl | ⟨p, hp, hp2, he⟩
    · exact h1
    · by_cases h0 : p = n
      · subst h0; rw [dep_take_open hopen] at he; omega
      · have := h3 (p - n) (by omega) (by omega)
        rw [hpre _ (by omega), show n + (p - n) = p by omega, he] at this
        omega
  · rcases h4 with h4 | ⟨i, _, hil, h4⟩
    · omega
    · rw [hpre _ hil] at h4
      have := hlow (n + i) (by omega) (by omega)
      omega

/-- With `k` characters to remove at each end, `removePars` removes them. -/
theorem removePars_of {s : List Char} {k : Nat} (h2 : s.length < 2 ^ 31)
    (hk : ((nsLoop s (s.length + 1) 0 : Nat) : Int) + minIns s (nsLoop s (s.length + 1) 0) = k) (hks : k * 2 ≤ s.length) :
    removePars s = some ((s.drop k).take (s.length - k * 2)) := by
  unfold removePars
  simp only [hk]
  have hk' : ((k : Int) % 2 ^ 32).toNat = k := by omega
  rw [hk']
  simp only [erase, Nat.not_lt_zero, if_false, List.take_zero, List.nil_append, Nat.zero_add, Option.bind_some, List.length_drop]
  have e : ((((s.length - k : Nat) : Int) - k) % 2 ^ 64).toNat = s.length - k * 2 := by omega
  rw [e, if_neg (by omega)]
  rw [List.drop_eq_nil_of_le (as := List.drop k s) (by simp), List.append_nil]

theorem at'_append_left {s t : List Char} {i : Nat} (h : i < s.length) : at' (s ++ t) i = at' s i := by
  unfold at'; rw [List.getD_append _ _ _ _ h]
theorem at'_append_right {s t : List Char} {i : Nat} (h : s.length ≤ i) : at' (s ++ t) i = at' t (i - s.length) := by
  unfold at'; rw [List.getD_append_right _ _ _ _ h]
theorem at'_mem {s : List Char} {i : Nat} (h : i < s.length) : at' s i ∈ s := by
  unfold at'; rw [List.getD_eq_getElem _ _ h]; exact List.getElem_mem h

theorem at'_replicate {k i : Nat} {c : Char} (h : i < k) : at' (List.replicate k c) i = c := by
  unfold at'; rw [List.getD_eq_getElem _ _ (by simpa using h)]; simp

theorem removePars_noPar {s : List Char} (h : NoPar s) (hl : s.length < 2 ^ 31) : removePars s = some s := by
  have hst := nsLoop_stop s
  have hn : nsLoop s (s.length + 1) 0 = 0 := by
    by_contra hne
    have := hst.1 0 (by omega)
    have h1 := at'_lt this.1 (by decide)
    exact (wt_zero_ne (h _ (at'_mem h1))).1 this.1
  have hb := h.bal
  have hm : minIns s 0 = 0 := minIns_spec (by simp) (by simp) (fun p _ _ => by simpa using hb.2 p) le_rfl (Or.inl rfl)
  rw [removePars_of hl (k := 0) (by rw [hn, hm]; rfl) (by omega)]
  simp

/-- `k` redundant layers around two balanced texts with a comma between them: exactly the layers go, provided the text after the comma
is long enough for the shortened scan (always so for at most one layer). -/
theorem removePars_layers {u v : List Char} {k : Nat} (hu : Bal u) (hv : Bal v)
    (hk : k ≤ 1 ∨ ∀ a, (∀ j < a, at' v (v.length - 1 - j) = ')') → a ≤ v.length → k + 2 * a ≤ 1 + v.length)
    (hl : u.length + v.length + 1 + 2 * k < 2 ^ 31) :
    removePars (List.replicate k '(' ++ (u ++ ',' :: v) ++ List.replicate k ')') = some (u ++ ',' :: v) := by
  set s := List.replicate k '(' ++ (u ++ ',' :: v) ++ List.replicate k ')' with hs
  have hlen : s.length = u.length + v.length + 1 + 2 * k := by simp [hs]; omega
  obtain ⟨hall, hstop⟩ := nsLoop_stop s
  set n := nsLoop s (s.length + 1) 0 with hn
  have h2n := two_ns_le hall
  -- characters at the ends
  have hfront : ∀ j < k, at' s j = '(' := by
    intro j hj
    rw [hs, List.append_assoc, at'_append_left (by simpa using hj), at'_replicate hj]
  have hback : ∀ j < k, at' s (s.length - 1 - j) = ')' := by
    intro j hj
    have e : s.length - 1 - j = (List.replicate k '(' ++ (u ++ ',' :: v)).length + (k - 1 - j) := by simp [hlen]; omega
    rw [e, hs, at'_append_right (by omega), Nat.add_sub_cancel_left, at'_replicate (by omega)]
  have hcomma : at' s (k + u.length) = ',' := by
    have e : s = List.replicate k '(' ++ u ++ (',' :: (v ++ List.replicate k ')')) := by simp [hs]
    rw [e, at'_append_right (by simp)]
    simp [at']
  have hkn : k ≤ n := by
    by_contra hlt
    exact hstop ⟨by omega, hfront n (by omega), hback n (by omega)⟩
  have hnu : n ≤ k + u.length := by
    by_contra hlt
    have := (hall (k + u.length) (by omega)).1
    rw [hcomma] at this
    exact absurd this (by decide)
  have hnv : n ≤ k + v.length := by
    by_contra hlt
    have := (hall (k + v.length) (by omega)).2
    rw [show s.length - 1 - (k + v.length) = k + u.length by omega, hcomma] at this
    exact absurd this (by decide)
  -- depths
  have htake : ∀ p, k ≤ p → p ≤ s.length - k → dep (s.take p) = k + dep ((u ++ ',' :: v).take (p - k)) := by
    intro p hp hp2
    rw [hs, List.append_assoc, List.take_append, List.take_append]
    simp only [List.length_replicate]
    have h1 : dep ((List.replicate k '(').take p) = k := by
      rw [List.take_of_length_le (by simpa using hp)]
      have := dep_take_open (s := List.replicate k '(') (n := k) fun j hj => at'_replicate hj
      rwa [List.take_of_length_le (by simp)] at this
    rw [dep_append, dep_append, h1, show p - k - (u ++ ',' :: v).length = 0 by simp; omega]
    simp
  have hbal : Bal (u ++ ',' :: v) := hu.append (by simpa using (Bal.single wt_comma).append hv)
  have hmin : minIns s n = (k : Int) - n := by
    apply minIns_spec (fun j hj => (hall j hj).1) h2n
    · intro p hp hp2
      rw [htake p (by omega) (by omega)]
      have := hbal.2 (p - k)
      omega
    · omega
    · by_cases ha : n = k
      · left; omega
      · right
        refine ⟨k + u.length, hnu, ?_, ?_⟩
        · -- the last `n - k` characters of `v` are closing parentheses
          obtain ⟨a, ha2⟩ : ∃ a, n = k + a := ⟨n - k, by omega⟩
          have hvend : ∀ j < a, at' v (v.length - 1 - j) = ')' := by
            intro j hj
            have h1 := (hall (k + j) (by omega)).2
            have e : s = (List.replicate k '(' ++ u ++ [',']) ++ (v ++ List.replicate k ')') := by simp [hs]
            rw [show s.length - 1 - (k + j) = (List.replicate k '(' ++ u ++ [',']).length + (v.length - 1 - j) by simp; omega, e,
              at'_append_right (by omega), Nat.add_sub_cancel_left, at'_append_left (by omega)] at h1
            exact h1
          have hav : 2 * a ≤ v.length := by
            have : ∀ b, b ≤ a → dep (v.take (v.length - b)) = b := by
              intro b hb
              induction b with
              | zero => simpa using hv.1
              | succ b ih =>
                have h1 := dep_take_succ (s := v) (i := v.length - (b + 1)) (by omega)
                rw [show v.length - (b + 1) + 1 = v.length - b by omega, ih (by omega),
                  show v.length - (b + 1) = v.length - 1 - b by omega, hvend b (by omega)] at h1
                rw [show v.length - (b + 1) = v.length - 1 - b by omega]
                simp at h1; push_cast; omega
            have h1 := this a le_rfl
            have h3 := dep_le (v.take (v.length - a))
            rw [List.length_take] at h3
            omega
          rcases hk with hk | hk
          · omega
          · have := hk a hvend (by omega)
            omega
        · rw [htake _ (by omega) (by omega), Nat.add_sub_cancel_left, List.take_append_of_le_length (by omega),
            List.take_of_length_le le_rfl, hu.1]
          omega
  rw [removePars_of (by omega) (k := k) (by rw [← hn, hmin]; omega) (by omega)]
  congr 1
  rw [hs, List.append_assoc, List.drop_append, List.drop_eq_nil_of_le (by simp)]
  simp only [List.nil_append, List.length_replicate, Nat.sub_self, List.drop_zero]
  rw [List.take_append_of_le_length (by simp; omega), List.take_of_length_le (by simp; omega)]

/-! ### The scan -/

theorem scan_space {c : Char} {cs acc : List Char} {n : Int} {res : List (List Char)} (h : isSpaceC c = true) :
    scan (c :: cs) acc n res = scan cs acc n res := by
  simp [scan, h]

theorem scan_filter (s acc : List Char) (n : Int) (res : List (List Char)) :
    scan s acc n res = scan (s.filter fun c => !isSpaceC c) acc n res := by
  induction s generalizing acc n res with
  | nil => rfl
  | cons c s ih =>
    by_cases h : isSpaceC c = true
    · rw [scan_space h, ih]; simp [h]
    · simp only [List.filter_cons, h, Bool.not_false, if_true]
      unfold scan
      simp only [h, Bool.false_eq_true, if_false, ih]

theorem scan_step {c : Char} {cs acc : List Char} {n : Int} {res : List (List Char)} (h : isSpaceC c = false)
    (hc : c ≠ ',' ∨ n ≠ 0) : scan (c :: cs) acc n res = scan cs (acc ++ [c]) (n + wt c) res := by
  have hn : ¬ (c = ',' ∧ n = 0) := by tauto
  rw [scan]
  simp only [h, Bool.false_eq_true, if_false, hn]
  congr 1
  unfold wt
  by_cases h1 : c = '('
  · subst h1; simp
  · by_cases h2 : c = ')'
    · subst h2; simp; ring
    · simp [h1, h2]

/-- A text is passed over whole while its commas are inside parentheses. -/
theorem scan_pass (s rest acc : List Char) (n : Int) (res : List (List Char)) (hsp : ∀ c ∈ s, isSpaceC c = false)
    (hc : ∀ i, i < s.length → at' s i = ',' → n + dep (s.take i) ≠ 0) :
    scan (s ++ rest) acc n res = scan rest (acc ++ s) (n + dep s) res := by
  induction s generalizing acc n with
  | nil => simp
  | cons c s ih =>
    rw [List.cons_append, scan_step (hsp c (by simp)), ih]
    · simp [add_assoc]
    · exact fun x hx => hsp x (by simp [hx])
    · intro i hi he
      have := hc (i + 1) (by simpa using hi) (by simpa [at'] using he)
      simpa [add_assoc] using this
    · by_cases h : c = ','
      · right
        have := hc 0 (by simp) (by simpa [at'] using h)
        simpa using this
      · exact Or.inl h

/-! ### Shrinking -/

theorem erase_sublist {s t : List Char} {p n : Nat} (h : erase s p n = some t) : t.Sublist s := by
  unfold erase at h
  split at h
  · cases h
  · obtain rfl := Option.some.inj h
    conv_rhs => rw [← List.take_append_drop p s]
    refine List.Sublist.append (List.Sublist.refl _) ?_
    rw [← List.drop_drop]
    exact List.drop_sublist _ _

theorem removePars_sublist {s t : List Char} (h : removePars s = some t) : t.Sublist s := by
  unfold removePars at h
  simp only at h
  obtain ⟨x, hx, h2⟩ := Option.bind_eq_some_iff.1 h
  exact (erase_sublist h2).trans (erase_sublist hx)

theorem scan_length {s acc : List Char} {n : Int} {res out : List (List Char)} (h : scan s acc n res = some out) :
    res.length < out.length := by
  induction s generalizing acc n res with
  | nil =>
    simp only [scan, Option.map_eq_some_iff] at h
    obtain ⟨a, _, rfl⟩ := h
    simp
  | cons c s ih =>
    unfold scan at h
    split at h
    · exact ih h
    · split at h
      · obtain ⟨a, _, h2⟩ := Option.bind_eq_some_iff.1 h
        have := ih h2
        simp at this; omega
      · exact ih h

/-- A scan that yields one piece met no separating comma. -/
theorem scan_one {s acc r : List Char} {n : Int} (h : scan s acc n [] = some [r]) :
    removePars (acc ++ s.filter fun c => !isSpaceC c) = some r := by
  induction s generalizing acc n with
  | nil =>
    simp only [scan, Option.map_eq_some_iff] at h
    obtain ⟨a, ha, h2⟩ := h
    simp at h2
    simpa [h2] using ha
  | cons c s ih =>
    unfold scan at h
    split at h
    · rename_i hc
      simpa [hc] using ih h
    · rename_i hc
      split at h
      · obtain ⟨a, _, h2⟩ := Option.bind_eq_some_iff.1 h
        have := scan_length h2
        simp at this
      · have := ih h
        simpa [hc] using this

/-- A nested call is on a part of the string. -/
theorem nested_sublist {s r r' : List Char} (h : scan s [] 0 [] = some [r]) (h' : removePars r = some r') : r'.Sublist s :=
  ((removePars_sublist h').trans (removePars_sublist (scan_one h))).trans (by simp)

theorem splitParStr_succ (f : Nat) (s : List Char) {x : Res (List (List Char))} (h : splitParStr f s = x) (hx : x ≠ .outOfFuel) :
    splitParStr (f + 1) s = x := by
  induction f generalizing s with
  | zero => simp only [splitParStr] at h; exact absurd h.symm hx
  | succ f ih =>
    rw [splitParStr] at h ⊢
    cases hsc : scan s [] 0 [] with
    | none => rw [hsc] at h; exact h
    | some res =>
      rw [hsc] at h
      match res with
      | [] => exact h
      | a :: b :: l => exact h
      | [r] =>
        simp only at h ⊢
        cases hr : removePars r with
        | none => rw [hr] at h; exact h
        | some r' => rw [hr] at h; exact ih r' h

theorem splitParStr_mono {f g : Nat} {s : List Char} {x : Res (List (List Char))} (hfg : f ≤ g) (h : splitParStr f s = x)
    (hx : x ≠ .outOfFuel) : splitParStr g s = x := by
  induction hfg with
  | refl => exact h
  | step _ ih => exact splitParStr_succ _ _ ih hx

theorem splitParStr_forever {s : List Char} (h : splitParStr (s.length + 1) s = .outOfFuel) (f : Nat) :
    splitParStr f s = .outOfFuel := by
  induction hn : s.length using Nat.strong_induction_on generalizing s f with
  | _ n ih =>
    subst hn
    cases f with
    | zero => rfl
    | succ f =>
      have h0 := h
      rw [splitParStr] at h ⊢
      cases hsc : scan s [] 0 [] with
      | none => rw [hsc] at h; cases h
      | some res =>
        rw [hsc] at h
        match res, hsc with
        | [], _ => cases h
        | a :: b :: l, _ => cases h
        | [r], hsc =>
          simp only at h ⊢
          cases hr : removePars r with
          | none => rw [hr] at h; cases h
          | some r' =>
            rw [hr] at h
            simp only at h ⊢
            have hsub := nested_sublist hsc hr
            rcases Nat.lt_or_ge r'.length s.length with hlt | hge
            · refine ih _ hlt ?_ f rfl
              by_contra hne
              exact hne (by rw [← splitParStr_mono (f := r'.length + 1) (g := s.length) (by omega) rfl hne, h])
            · have he : r' = s := hsub.eq_of_length_le hge
              subst he
              clear h ih
              induction f with
              | zero => rfl
              | succ f ihf => rw [splitParStr, hsc]; simp only [hr]; exact ihf

theorem scan_ok_comma {s acc : List Char} {n : Int} {res out : List (List Char)} (h : scan s acc n res = some out)
    (hc : ',' ∉ s) : out.length = res.length + 1 := by
  induction s generalizing acc n res with
  | nil =>
    simp only [scan, Option.map_eq_some_iff] at h
    obtain ⟨a, _, rfl⟩ := h
    simp
  | cons c s ih =>
    simp only [List.mem_cons, not_or] at hc
    unfold scan at h
    split at h
    · exact ih h hc.2
    · split at h
      · rename_i h1; exact absurd h1.1.symm hc.1
      · exact ih h hc.2

theorem no_comma_never {s : List Char} (hc : ',' ∉ s) (f : Nat) (l : List (List Char)) : splitParStr f s ≠ .ok l := by
  induction f generalizing s with
  | zero => intro h; cases h
  | succ f ih =>
    intro h
    rw [splitParStr] at h
    cases hsc : scan s [] 0 [] with
    | none => rw [hsc] at h; cases h
    | some res =>
      rw [hsc] at h
      have hl := scan_ok_comma hsc hc
      match res, hsc, hl with
      | [r], hsc, _ =>
        simp only at h
        cases hr : removePars r with
        | none => rw [hr] at h; cases h
        | some r' =>
          rw [hr] at h
          exact ih (fun hm => hc ((nested_sublist hsc hr).subset hm)) h

end FF.Split
