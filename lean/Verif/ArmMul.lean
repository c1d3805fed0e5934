import Verif.ArmRaw2
import Verif.Montgomery

/-!
# The multiplication blocks of the AArch64 code over virtual registers
-/

namespace FF.Arm

open FF.X86 (upd cell rd upd_same upd_ne)

/-- The low or high word of a product. -/
def pword (o : Alu) (x y : BitVec 64) : BitVec 64 :=
  if o = .mul then x * y else BitVec.ofNat 64 (x.toNat * y.toNat / 2 ^ 64)

/-- A loop of word products, each added to a word with a carry. -/
def chainV (n p t e : Nat) (sw : Bool) (o1 : Alu) (O : Nat → Alu) (B : Nat → Val) (m : Val) (x : Nat → Val) : List VIns :=
  vloop n fun i => [vop o1 p i (B i) m, vop (O i) t (i + e) (if sw then .v p i else x i) (if sw then x i else .v p i)]

/-- The value only depends on virtual registers with tags below `g`. -/
def Val.below (g : Nat) : Val → Prop
  | .v t _ => t < g
  | _ => True

theorem Val.below.off {g t : Nat} {v : Val} (h : v.below g) (ht : g ≤ t) : v.off t := by
  cases v with
  | v t' _ => exact fun hh => by change t' < g at h; omega
  | _ => trivial

theorem Val.below.mono {g g' : Nat} {v : Val} (h : v.below g) (hg : g ≤ g') : v.below g' := by
  cases v with
  | v t' _ => exact lt_of_lt_of_le h hg
  | _ => trivial

/-- The virtual registers with tags below `g` are kept. -/
def Below (g : Nat) (u u' : U) : Prop := ∀ p : Nat × Nat, p.1 < g → u'.ρ p = u.ρ p

theorem Below.trans {g : Nat} {u u' u'' : U} (h : Below g u u') (h' : Below g u' u'') : Below g u u'' :=
  fun p hp => (h' p hp).trans (h p hp)

theorem Below.mono {g g' : Nat} {u u' : U} (h : Below g' u u') (hg : g ≤ g') : Below g u u' := fun p hp => h p (by omega)

theorem Below.refl (g : Nat) (u : U) : Below g u u := fun _ _ => rfl

theorem Keeps.below {g : Nat} {ts : List Nat} {u u' : U} (h : Keeps ts u u') (ht : ∀ t ∈ ts, g ≤ t) : Below g u u' :=
  fun p hp => h p fun hh => by have := ht _ hh; omega

theorem Below.eval {g : Nat} {u u' : U} (h : Below g u u') (s : State) {v : Val} (hv : v.below g) : v.eval s u'.ρ = v.eval s u.ρ := by
  cases v with
  | v t i => exact h (t, i) hv
  | _ => rfl

theorem Below.vs {g : Nat} {u u' : U} (h : Below g u u') (s : State) {x : Nat → Val} (hv : ∀ i, (x i).below g) (n : Nat) :
    vs (fun i => (x i).eval s u'.ρ) n = vs (fun i => (x i).eval s u.ρ) n := vs_congr fun i _ => h.eval s (hv i)

theorem addEval {o : Alu} {i : Nat} (h : o = .adds ∧ i = 0 ∨ o = .adcs ∨ o = .adc) (x y : BitVec 64) (f : Flags) :
    (o.eval x y f).1 = (addFlags x y (if o = .adds then false else f.c)).1 ∧
      (o ≠ .adc → (o.eval x y f).2 = (addFlags x y (if o = .adds then false else f.c)).2) := by
  rcases h with ⟨rfl, -⟩ | rfl | rfl
  · exact ⟨rfl, fun _ => rfl⟩
  · exact ⟨rfl, fun _ => rfl⟩
  · exact ⟨rfl, fun h => absurd rfl h⟩

/-- One iteration. -/
theorem chain_step (s : State) {p t i e : Nat} {sw : Bool} {o1 o : Alu} {b m x : Val} (ho1 : o1 = .mul ∨ o1 = .umulh)
    (ho : o = .adds ∧ i = 0 ∨ o = .adcs ∨ o = .adc) (hpt : p ≠ t) (hx : x.off p) (u : U) :
    let u' := vexes s [vop o1 p i b m, vop o t (i + e) (if sw then .v p i else x) (if sw then x else .v p i)] u
    Keeps [p, t] u u' ∧ (∀ j, j ≠ i + e → u'.ρ (t, j) = u.ρ (t, j)) ∧
      ∃ c : Bool, (u'.ρ (t, i + e)).toNat + W * c.toNat
          = (x.eval s u.ρ).toNat + (pword o1 (b.eval s u.ρ) (m.eval s u.ρ)).toNat + (if o = .adds then false else u.fl.c).toNat ∧
        (o ≠ .adc → u'.fl.c = c) := by
  intro u'
  have e1 : (vop o1 p i b m).exec s u = ⟨upd u.ρ (p, i) (pword o1 (b.eval s u.ρ) (m.eval s u.ρ)), u.fl⟩ := by
    rcases ho1 with rfl | rfl <;> rfl
  have eu : u' = (vop o t (i + e) (if sw then .v p i else x) (if sw then x else .v p i)).exec s
      ⟨upd u.ρ (p, i) (pword o1 (b.eval s u.ρ) (m.eval s u.ρ)), u.fl⟩ := by rw [← e1]; rfl
  rw [exec_vop] at eu
  generalize pword o1 (b.eval s u.ρ) (m.eval s u.ρ) = P at *
  have ex : x.eval s (upd u.ρ (p, i) P) = x.eval s u.ρ := eval_off hx P
  have ep : (Val.v p i).eval s (upd u.ρ (p, i) P) = P := upd_same u.ρ (p, i) P
  refine ⟨?_, ?_, ?_⟩
  · rw [eu]
    intro r hr
    simp only [List.mem_cons, List.mem_nil_iff, or_false, not_or] at hr
    exact (upd_ne _ _ (fun h => hr.2 (by rw [h]))).trans (upd_ne _ _ (fun h => hr.1 (by rw [h])))
  · intro j hj
    rw [eu]
    exact (upd_ne _ _ (fun h => hj (by injection h))).trans (upd_ne _ _ (fun h => hpt (by injection h with h _; exact h.symm)))
  · rw [eu]
    simp only [upd_same]
    have h1 := addEval ho ((if sw then .v p i else x).eval s (upd u.ρ (p, i) P)) ((if sw then x else .v p i).eval s (upd u.ρ (p, i) P)) u.fl
    have h2 := add_val ((if sw then .v p i else x).eval s (upd u.ρ (p, i) P)) ((if sw then x else .v p i).eval s (upd u.ρ (p, i) P))
      (if o = .adds then false else u.fl.c)
    rw [← h1.1] at h2
    refine ⟨_, h2.trans ?_, fun h => by rw [h1.2 h]⟩
    cases sw
    · simp only [Bool.false_eq_true, if_false, ex, ep]
    · simp only [if_true, ex, ep]
      omega

theorem chainV_run (s : State) {n p t e : Nat} {sw : Bool} {o1 : Alu} {O : Nat → Alu} {B x : Nat → Val} {m : Val}
    (ho1 : o1 = .mul ∨ o1 = .umulh)
    (hO : ∀ i, i < n → O i = .adds ∧ i = 0 ∨ O i = .adcs ∨ O i = .adc ∧ i + 1 = n) (hpt : p ≠ t)
    (hB : ∀ i, (B i).off p ∧ (B i).off t) (hm : m.off p ∧ m.off t) (hx : ∀ i, (x i).off p ∧ (x i).off t) (u : U) :
    Keeps [p, t] u (vexes s (chainV n p t e sw o1 O B m x) u) ∧ ∃ c : Bool,
      vs (fun i => (vexes s (chainV n p t e sw o1 O B m x) u).ρ (t, i + e)) n + W ^ n * c.toNat
        = vs (fun i => (x i).eval s u.ρ) n + vs (fun i => pword o1 ((B i).eval s u.ρ) (m.eval s u.ρ)) n
          + (if O 0 = .adds then false else u.fl.c).toNat ∧
      ((∀ i, i < n → O i ≠ .adc) → 0 < n → (vexes s (chainV n p t e sw o1 O B m x) u).fl.c = c) := by
  have := vloop_run (s := s) (u := u) (n := n)
    (f := fun i => [vop o1 p i (B i) m, vop (O i) t (i + e) (if sw then .v p i else x i) (if sw then x i else .v p i)])
    (P := fun i u' => Keeps [p, t] u u' ∧ ∃ c : Bool, vs (fun i => u'.ρ (t, i + e)) i + W ^ i * c.toNat
        = vs (fun i => (x i).eval s u.ρ) i + vs (fun i => pword o1 ((B i).eval s u.ρ) (m.eval s u.ρ)) i
          + (if O 0 = .adds then false else u.fl.c).toNat ∧
        ((∀ j, j < i → O j ≠ .adc) → (if i = 0 then (if O 0 = .adds then false else u.fl.c) else u'.fl.c) = c) ∧ (i = 0 → u' = u))
    ⟨.rfl, _, by simp only [vs_zero, pow_zero, Nat.one_mul, Nat.zero_add], fun _ => if_pos rfl, fun _ => rfl⟩ (by
      intro i u' hi ⟨hk, c, hv, hc, h0⟩
      have ho := hO i hi
      obtain ⟨k1, k2, d, hd, hf⟩ := chain_step s (e := e) (sw := sw) (b := B i) (m := m) (x := x i) ho1
        (o := O i) (i := i) (by rcases ho with h | h | h; exacts [.inl h, .inr (.inl h), .inr (.inr h.1)]) hpt (hx i).1 u'
      refine ⟨hk.trans k1, d, ?_, fun h => ?_, by omega⟩
      · have ev : vs (fun j => (vexes s [vop o1 p i (B i) m, vop (O i) t (i + e) (if sw then .v p i else x i)
            (if sw then x i else .v p i)] u').ρ (t, j + e)) i = vs (fun j => u'.ρ (t, j + e)) i :=
          vs_congr fun j hj => k2 _ (by omega)
        rw [vs_succ, vs_succ, vs_succ, ev]
        have eB : (B i).eval s u'.ρ = (B i).eval s u.ρ := hk.eval s (by simpa using hB i)
        have em : m.eval s u'.ρ = m.eval s u.ρ := hk.eval s (by simpa using hm)
        have ex : (x i).eval s u'.ρ = (x i).eval s u.ρ := hk.eval s (by simpa using hx i)
        rw [eB, em, ex] at hd
        have hcin : (if O i = .adds then false else u'.fl.c) = c := by
          rw [← hc (fun j hj => by
            rcases hO j (by omega) with h | h | h
            · rw [h.1]; decide
            · rw [h]; decide
            · omega)]
          by_cases hi0 : i = 0
          · rw [if_pos hi0, h0 hi0, hi0]
          · rw [if_neg hi0]
            have : O i ≠ .adds := by
              rcases ho with h | h | h
              · omega
              · rw [h]; decide
              · rw [h.1]; decide
            rw [if_neg this]
        rw [hcin] at hd
        rw [pow_succ]
        generalize (pword o1 ((B i).eval s u.ρ) (m.eval s u.ρ)).toNat = a1 at *
        generalize ((vexes s _ u').ρ (t, i + e)).toNat = a2 at *
        generalize ((x i).eval s u.ρ).toNat = a3 at *
        calc _ = vs (fun j => u'.ρ (t, j + e)) i + W ^ i * (a2 + W * d.toNat) := by ring
          _ = (vs (fun j => u'.ρ (t, j + e)) i + W ^ i * c.toNat) + W ^ i * a3 + W ^ i * a1 := by rw [hd]; ring
          _ = _ := by rw [hv]; ring
      · rw [if_neg (Nat.succ_ne_zero i)]
        exact hf (h i (by omega)))
  obtain ⟨h1, c, h2, h3, -⟩ := this
  exact ⟨h1, c, h2, fun h h0 => by have := h3 h; rwa [if_neg (by omega)] at this⟩

/-- The words of the products make the product. -/
theorem pword_val (f : Nat → BitVec 64) (m : BitVec 64) (n : Nat) :
    vs (fun i => pword .mul (f i) m) n + W * vs (fun i => pword .umulh (f i) m) n = m.toNat * vs f n := by
  induction n with
  | zero => simp [vs_zero]
  | succ n ih =>
    rw [vs_succ, vs_succ, vs_succ]
    have h := mul_val (f n) m
    have e1 : pword .mul (f n) m = f n * m := rfl
    have e2 : pword .umulh (f n) m = BitVec.ofNat 64 ((f n).toNat * m.toNat / 2 ^ 64) := rfl
    rw [← e1, ← e2] at h
    calc _ = (vs (fun i => pword .mul (f i) m) n + W * vs (fun i => pword .umulh (f i) m) n)
          + W ^ n * ((pword .mul (f n) m).toNat + W * (pword .umulh (f n) m).toNat) := by ring
      _ = _ := by rw [ih, h]; ring

/-- A single addition. -/
theorem vadd_exec (s : State) (u : U) {o : Alu} (ho : o = .adds ∨ o = .adcs ∨ o = .adc) (t i : Nat) (x y : Val) :
    ∃ (w : BitVec 64) (fl : Flags) (c : Bool), (vop o t i x y).exec s u = ⟨upd u.ρ (t, i) w, fl⟩ ∧
      w.toNat + W * c.toNat = (x.eval s u.ρ).toNat + (y.eval s u.ρ).toNat + (if o = .adds then false else u.fl.c).toNat ∧
      (o ≠ .adc → fl.c = c) ∧ (o = .adc → fl = u.fl) := by
  have h1 := addEval (o := o) (i := 0) (by rcases ho with h | h | h <;> simp [h]) (x.eval s u.ρ) (y.eval s u.ρ) u.fl
  have h2 := add_val (x.eval s u.ρ) (y.eval s u.ρ) (if o = .adds then false else u.fl.c)
  rw [← h1.1] at h2
  refine ⟨_, _, _, exec_vop _ _ _ _ _ _ _, h2, fun h => by rw [h1.2 h], ?_⟩
  rintro rfl
  rfl

theorem vexes_cons (s : State) (i : VIns) (l : List VIns) (u : U) : vexes s (i :: l) u = vexes s l (i.exec s u) := rfl
theorem vexes_nil (s : State) (u : U) : vexes s [] u = u := rfl

theorem zr_val (s : State) (ρ : Env) : (Val.zr.eval s ρ).toNat = 0 := rfl
theorem v_eval (s : State) (ρ : Env) (t i : Nat) : (Val.v t i).eval s ρ = ρ (t, i) := rfl

theorem addO_ok {n i : Nat} : addO i = .adds ∧ i = 0 ∨ addO i = .adcs ∨ addO i = .adc ∧ i + 1 = n := by
  unfold addO
  split
  · exact .inl ⟨rfl, ‹_›⟩
  · exact .inr (.inl rfl)

theorem addO_ne (i : Nat) : addO i ≠ .adc := by unfold addO; split <;> decide

/-- The additions of the second loop of `genAddMulAB`. -/
def hiO (n : Nat) (hs : Bool) (i : Nat) : Alu := if hs then (if i = n - 1 then .adc else .adcs) else addO i

theorem hiO_ok {n i : Nat} {hs : Bool} (hi : i < n) :
    hiO n hs i = .adds ∧ i = 0 ∨ hiO n hs i = .adcs ∨ hiO n hs i = .adc ∧ i + 1 = n := by
  unfold hiO
  split
  · split
    · exact .inr (.inr ⟨rfl, by omega⟩)
    · exact .inr (.inl rfl)
  · exact addO_ok

/-- `genAddMulAB`, `armbuilder.js:1395-1433`, and `Gen_rawMul1.genMulRawq` behind the first round, `1590-1637`: the word `m` times the
array `B` is added to the array `R` with the carry `x` behind it. -/
def blkX (n g : Nat) (opt sw hs fin : Bool) (m x : Val) (B R : Nat → Val) : List VIns :=
  chainV n g (g + 1) 0 sw .mul addO B m R
    ++ ((if opt then [vop .adc (g + 1) n .zr .zr, vop .adds (g + 2) 0 (.v (g + 1) 1) x]
        else [vop .adcs (g + 1) n .zr x, vop .adc (g + 2) 0 .zr .zr])
    ++ (chainV n (g + 3) (g + 4) 1 false .umulh (hiO n hs) B m (fun i => if opt && i == 0 then .v (g + 2) 0 else .v (g + 1) (i + 1))
    ++ if opt then (if fin then [vop .adc (g + 5) 0 .zr .zr] else []) else [vop .adc (g + 5) 0 (.v (g + 2) 0) .zr]))

theorem blkX_arith {S Wn c1 R lo w2 c2 x S0 S' T c4 hi m B w5 : Nat} (v1 : S + Wn * c1 = R + lo) (v2 : w2 + W * c2 = x + c1)
    (eS : S + Wn * w2 = S0 + W * S') (v4 : T + Wn * c4 = S' + hi) (hp : lo + W * hi = m * B) (h5 : w5 = c2 + c4) :
    S0 + W * (T + Wn * w5) = R + Wn * x + m * B := by
  zify at *
  linear_combination (W : ℤ) * v4 - eS + W * Wn * h5 + Wn * v2 + v1 + hp

theorem blkX_non (s : State) {n g : Nat} {sw fin : Bool} {m x : Val} {B R : Nat → Val} (hn : 0 < n) (hm : m.below g) (hx : x.below g)
    (hB : ∀ i, (B i).below g) (hR : ∀ i, (R i).below g) (u : U) :
    let u' := vexes s (blkX n g false sw false fin m x B R) u
    Below g u u' ∧ (u'.ρ (g + 5, 0)).toNat ≤ 2 ∧
      (u'.ρ (g + 1, 0)).toNat + W * (vs (fun i => u'.ρ (g + 4, i + 1)) n + W ^ n * (u'.ρ (g + 5, 0)).toNat)
        = vs (fun i => (R i).eval s u.ρ) n + W ^ n * (x.eval s u.ρ).toNat + (m.eval s u.ρ).toNat * vs (fun i => (B i).eval s u.ρ) n := by
  intro u'
  have hu' : u' = vexes s (blkX n g false sw false fin m x B R) u := rfl
  clear_value u'
  unfold blkX at hu'
  rw [vexes_append, vexes_append, vexes_append] at hu'
  simp only [Bool.false_eq_true, if_false, Bool.false_and] at hu'
  -- low words
  obtain ⟨k1, c1, v1, f1⟩ := chainV_run s (n := n) (p := g) (t := g + 1) (e := 0) (sw := sw) (O := addO) (B := B) (m := m) (x := R) (.inl rfl)
    (fun i _ => addO_ok) (by omega) (fun i => ⟨(hB i).off le_rfl, (hB i).off (by omega)⟩) ⟨hm.off le_rfl, hm.off (by omega)⟩
    (fun i => ⟨(hR i).off le_rfl, (hR i).off (by omega)⟩) u
  have f1 := f1 (fun i _ => addO_ne i) hn
  rw [if_pos (show addO 0 = .adds from rfl)] at v1
  generalize vexes s (chainV n g (g + 1) 0 sw .mul addO B m R) u = u1 at *
  have b1 : Below g u u1 := k1.below (by simp)
  -- carries
  simp only [vexes_cons, vexes_nil] at hu'
  obtain ⟨w2, fl2, c2, e2, v2, f2, -⟩ := vadd_exec s u1 (o := .adcs) (by simp) (g + 1) n .zr x
  rw [e2] at hu'
  obtain ⟨w3, fl3, c3, e3, v3, -, f3⟩ := vadd_exec s ⟨upd u1.ρ (g + 1, n) w2, fl2⟩ (o := .adc) (by simp) (g + 2) 0 .zr .zr
  rw [e3] at hu'
  have f2 := f2 (by decide)
  have f3 := f3 rfl
  rw [if_neg (by decide), f1, b1.eval s hx] at v2
  rw [if_neg (by decide)] at v3
  simp only [zr_val, Nat.zero_add, Nat.add_zero] at v2 v3
  rw [f2] at v3
  -- high words
  generalize hu3 : (⟨upd (upd u1.ρ (g + 1, n) w2) (g + 2, 0) w3, fl3⟩ : U) = u3 at *
  have b3 : Below g u1 u3 := by
    rw [← hu3]
    intro p hp
    exact (upd_ne _ _ (by rintro rfl; simp only at hp; omega)).trans (upd_ne _ _ (by rintro rfl; simp only at hp; omega))
  have s3 : ∀ i, i < n → u3.ρ (g + 1, i) = u1.ρ (g + 1, i) := by
    rw [← hu3]
    intro i hi
    exact (upd_ne _ _ (by simp)).trans (upd_ne _ _ (by simp; omega))
  have sn : u3.ρ (g + 1, n) = w2 := by
    rw [← hu3]
    exact (upd_ne _ _ (by simp)).trans (upd_same _ _ _)
  have t3 : u3.ρ (g + 2, 0) = w3 := by
    rw [← hu3]
    exact upd_same _ _ _
  obtain ⟨k4, c4, v4, f4⟩ := chainV_run s (n := n) (p := g + 3) (t := g + 4) (e := 1) (sw := false) (O := hiO n false) (B := B) (m := m)
    (x := fun i => .v (g + 1) (i + 1)) (.inr rfl)
    (fun i hi => hiO_ok hi) (by omega) (fun i => ⟨(hB i).off (by omega), (hB i).off (by omega)⟩) ⟨hm.off (by omega), hm.off (by omega)⟩
    (fun i => ⟨by simp [Val.off], by simp [Val.off]⟩) u3
  have f4 := f4 (fun i _ => addO_ne i) hn
  rw [if_pos (show hiO n false 0 = .adds from rfl), (b1.trans b3).eval s hm] at v4
  have eB : vs (fun i => pword .umulh ((B i).eval s u3.ρ) (m.eval s u.ρ)) n = vs (fun i => pword .umulh ((B i).eval s u.ρ) (m.eval s u.ρ)) n :=
    vs_congr fun i _ => by rw [(b1.trans b3).eval s (hB i)]
  rw [eB] at v4
  generalize vexes s (chainV n (g + 3) (g + 4) 1 false .umulh (hiO n false) B m fun i => .v (g + 1) (i + 1)) u3 = u4 at *
  obtain ⟨w5, fl5, c5, e5, v5, -, -⟩ := vadd_exec s u4 (o := .adc) (by simp) (g + 5) 0 (.v (g + 2) 0) .zr
  rw [e5] at hu'
  rw [if_neg (by decide), f4] at v5
  have t4 : u4.ρ (g + 2, 0) = w3 := (k4 (g + 2, 0) (by simp)).trans t3
  simp only [zr_val, v_eval, Nat.add_zero] at v5
  rw [t4] at v5
  subst hu'
  have hu4 : ∀ p : Nat × Nat, p.1 ≠ g + 5 → upd u4.ρ (g + 5, 0) w5 p = u4.ρ p := fun p hp => upd_ne _ _ (by rintro rfl; exact hp rfl)
  refine ⟨fun p hp => ?_, ?_, ?_⟩
  · exact (hu4 p (by omega)).trans (((b1.trans b3).trans (k4.below (by simp))) p hp)
  · show (upd u4.ρ (g + 5, 0) w5 (g + 5, 0)).toNat ≤ 2
    rw [upd_same]
    have h2 := Bool.toNat_le c2
    have h4 := Bool.toNat_le c4
    have := w3.isLt
    omega
  · show (upd u4.ρ (g + 5, 0) w5 (g + 1, 0)).toNat + W * (vs (fun i => upd u4.ρ (g + 5, 0) w5 (g + 4, i + 1)) n
      + W ^ n * (upd u4.ρ (g + 5, 0) w5 (g + 5, 0)).toNat) = _
    rw [upd_same, hu4 (g + 1, 0) (by simp), k4 (g + 1, 0) (by simp), s3 0 hn]
    have eT : vs (fun i => upd u4.ρ (g + 5, 0) w5 (g + 4, i + 1)) n = vs (fun i => u4.ρ (g + 4, i + 1)) n :=
      vs_congr fun i _ => hu4 _ (by simp)
    rw [eT]
    have eS : vs (fun i => u1.ρ (g + 1, i)) n + W ^ n * w2.toNat = (u1.ρ (g + 1, 0)).toNat + W * vs (fun i => (Val.v (g + 1) (i + 1)).eval s u3.ρ) n := by
      have h := vs_shift (fun i => u3.ρ (g + 1, i)) n
      rw [vs_succ, sn, s3 0 hn] at h
      rw [← vs_congr (f := fun i => u3.ρ (g + 1, i)) (g := fun i => u1.ρ (g + 1, i)) s3]
      exact h
    have hp := pword_val (fun i => (B i).eval s u.ρ) (m.eval s u.ρ) n
    simp only [Nat.add_zero] at v1
    have hw5 : w5.toNat = c2.toNat + c4.toNat := by
      have h2 := Bool.toNat_le c2
      have h4 := Bool.toNat_le c4
      have h5 := Bool.toNat_le c5
      have hW : 4 < W := by rw [← W_eq]; decide
      rcases Nat.le_one_iff_eq_zero_or_eq_one.mp h5 with h | h
      · rw [h] at v5
        have h3 := Bool.toNat_le c3
        rcases Nat.le_one_iff_eq_zero_or_eq_one.mp h3 with h | h
        · rw [h] at v3; omega
        · rw [h] at v3; omega
      · rw [h] at v5
        have := w3.isLt
        omega
    have v1 : vs (fun i => u1.ρ (g + 1, i)) n + W ^ n * c1.toNat = vs (fun i => (R i).eval s u.ρ) n
      + vs (fun i => pword .mul ((B i).eval s u.ρ) (m.eval s u.ρ)) n := v1
    have v4 : vs (fun i => u4.ρ (g + 4, i + 1)) n + W ^ n * c4.toNat = vs (fun i => (Val.v (g + 1) (i + 1)).eval s u3.ρ) n
      + vs (fun i => pword .umulh ((B i).eval s u.ρ) (m.eval s u.ρ)) n := v4
    generalize vs (fun i => u1.ρ (g + 1, i)) n = S at *
    generalize vs (fun i => (Val.v (g + 1) (i + 1)).eval s u3.ρ) n = S' at *
    generalize vs (fun i => u4.ρ (g + 4, i + 1)) n = T at *
    generalize vs (fun i => pword .mul ((B i).eval s u.ρ) (m.eval s u.ρ)) n = lo at *
    generalize vs (fun i => pword .umulh ((B i).eval s u.ρ) (m.eval s u.ρ)) n = hi at *
    exact blkX_arith v1 v2 eS v4 hp hw5

theorem blkX_opt (s : State) {n g : Nat} {sw hs fin : Bool} {m x : Val} {B R : Nat → Val} (hn : 0 < n) (hm : m.below g) (hx : x.below g)
    (hB : ∀ i, (B i).below g) (hR : ∀ i, (R i).below g) (u : U) (hx0 : x.eval s u.ρ = 0)
    (hlt : vs (fun i => (R i).eval s u.ρ) n + (m.eval s u.ρ).toNat * vs (fun i => (B i).eval s u.ρ) n < W ^ (n + 1)) :
    let u' := vexes s (blkX n g true sw hs fin m x B R) u
    Below g u u' ∧ (fin = true → hs = false → u'.ρ (g + 5, 0) = 0) ∧
      (u'.ρ (g + 1, 0)).toNat + W * vs (fun i => u'.ρ (g + 4, i + 1)) n
        = vs (fun i => (R i).eval s u.ρ) n + (m.eval s u.ρ).toNat * vs (fun i => (B i).eval s u.ρ) n := by
  intro u'
  have hu' : u' = vexes s (blkX n g true sw hs fin m x B R) u := rfl
  clear_value u'
  unfold blkX at hu'
  rw [vexes_append, vexes_append, vexes_append] at hu'
  simp only [if_true, Bool.true_and] at hu'
  -- low words
  obtain ⟨k1, c1, v1, f1⟩ := chainV_run s (n := n) (p := g) (t := g + 1) (e := 0) (sw := sw) (O := addO) (B := B) (m := m) (x := R) (.inl rfl)
    (fun i _ => addO_ok) (by omega) (fun i => ⟨(hB i).off le_rfl, (hB i).off (by omega)⟩) ⟨hm.off le_rfl, hm.off (by omega)⟩
    (fun i => ⟨(hR i).off le_rfl, (hR i).off (by omega)⟩) u
  have f1 := f1 (fun i _ => addO_ne i) hn
  rw [if_pos (show addO 0 = .adds from rfl)] at v1
  generalize vexes s (chainV n g (g + 1) 0 sw .mul addO B m R) u = u1 at *
  have b1 : Below g u u1 := k1.below (by simp)
  -- carries
  rw [vexes_cons, vexes_cons, vexes_nil] at hu'
  obtain ⟨w2, fl2, c2, e2, v2, -, f2⟩ := vadd_exec s u1 (o := .adc) (by simp) (g + 1) n .zr .zr
  rw [e2] at hu'
  obtain ⟨w3, fl3, c3, e3, v3, f3, -⟩ := vadd_exec s ⟨upd u1.ρ (g + 1, n) w2, fl2⟩ (o := .adds) (by simp) (g + 2) 0 (.v (g + 1) 1) x
  rw [e3] at hu'
  have f2 := f2 rfl
  have f3 := f3 (by decide)
  have ex2 : x.eval s (upd u1.ρ (g + 1, n) w2) = 0 := by
    rw [eval_off (hx.off (by omega)), b1.eval s hx, hx0]
  rw [if_neg (by decide), f1] at v2
  rw [if_pos rfl] at v3
  simp only [zr_val, v_eval, ex2, Nat.zero_add, Nat.add_zero] at v2 v3
  -- high words
  generalize hu3 : (⟨upd (upd u1.ρ (g + 1, n) w2) (g + 2, 0) w3, fl3⟩ : U) = u3 at *
  have b3 : Below g u1 u3 := by
    rw [← hu3]
    intro p hp
    exact (upd_ne _ _ (by rintro rfl; simp only at hp; omega)).trans (upd_ne _ _ (by rintro rfl; simp only at hp; omega))
  have r3 : ∀ i, u3.ρ (g + 1, i) = upd u1.ρ (g + 1, n) w2 (g + 1, i) := by
    rw [← hu3]
    exact fun i => upd_ne _ _ (by simp)
  have s3 : ∀ i, i < n → u3.ρ (g + 1, i) = u1.ρ (g + 1, i) := fun i hi => (r3 i).trans (upd_ne _ _ (by simp; omega))
  have sn : u3.ρ (g + 1, n) = w2 := (r3 n).trans (upd_same _ _ _)
  have t3 : u3.ρ (g + 2, 0) = w3 := by
    rw [← hu3]
    exact upd_same _ _ _
  have hc3 : c3 = false ∧ w3 = u3.ρ (g + 1, 1) := by
    rw [r3 1]
    have h1 : (upd u1.ρ (g + 1, n) w2 (g + 1, 1)).toNat < W := limb_lt _
    have h0 : (0 : BitVec 64).toNat = 0 := rfl
    rw [h0, Bool.toNat_false] at v3
    cases c3
    · refine ⟨rfl, BitVec.eq_of_toNat_eq ?_⟩
      rw [Bool.toNat_false] at v3
      omega
    · rw [Bool.toNat_true] at v3
      omega
  obtain ⟨k4, c4, v4, f4⟩ := chainV_run s (n := n) (p := g + 3) (t := g + 4) (e := 1) (sw := false) (O := hiO n hs) (B := B) (m := m)
    (x := fun i => if i == 0 then .v (g + 2) 0 else .v (g + 1) (i + 1)) (.inr rfl)
    (fun i hi => hiO_ok hi) (by omega) (fun i => ⟨(hB i).off (by omega), (hB i).off (by omega)⟩) ⟨hm.off (by omega), hm.off (by omega)⟩
    (fun i => ⟨by split <;> simp [Val.off], by split <;> simp [Val.off]⟩) u3
  have hcin : (if hiO n hs 0 = .adds then false else u3.fl.c) = false := by
    have : u3.fl.c = false := by rw [← hu3]; exact f3.trans hc3.1
    rw [this]
    split <;> rfl
  rw [hcin, (b1.trans b3).eval s hm] at v4
  have eB : vs (fun i => pword .umulh ((B i).eval s u3.ρ) (m.eval s u.ρ)) n = vs (fun i => pword .umulh ((B i).eval s u.ρ) (m.eval s u.ρ)) n :=
    vs_congr fun i _ => by rw [(b1.trans b3).eval s (hB i)]
  have eX : vs (fun i => (if i == 0 then Val.v (g + 2) 0 else Val.v (g + 1) (i + 1)).eval s u3.ρ) n
      = vs (fun i => u3.ρ (g + 1, i + 1)) n := vs_congr fun i _ => by
    by_cases hi : i = 0
    · subst hi
      exact t3.trans hc3.2
    · rw [beq_eq_false_iff_ne.mpr hi, if_neg (by simp)]
      rfl
  rw [eB, eX] at v4
  generalize vexes s (chainV n (g + 3) (g + 4) 1 false .umulh (hiO n hs) B m fun i => if i == 0 then .v (g + 2) 0 else .v (g + 1) (i + 1)) u3 = u4 at *
  have eS : vs (fun i => u1.ρ (g + 1, i)) n + W ^ n * w2.toNat = (u1.ρ (g + 1, 0)).toNat + W * vs (fun i => u3.ρ (g + 1, i + 1)) n := by
    have h := vs_shift (fun i => u3.ρ (g + 1, i)) n
    rw [vs_succ, sn, s3 0 hn] at h
    rw [← vs_congr (f := fun i => u3.ρ (g + 1, i)) (g := fun i => u1.ρ (g + 1, i)) s3]
    exact h
  have hp := pword_val (fun i => (B i).eval s u.ρ) (m.eval s u.ρ) n
  have hc2 : c2 = false := by
    have hW : 4 < W := by rw [← W_eq]; decide
    have h1 := Bool.toNat_le c1
    cases c2
    · rfl
    · rw [Bool.toNat_true] at v2
      omega
  rw [hc2, Bool.toNat_false] at v2
  have tot : (u1.ρ (g + 1, 0)).toNat + W * (vs (fun i => u4.ρ (g + 4, i + 1)) n + W ^ n * c4.toNat)
      = vs (fun i => (R i).eval s u.ρ) n + W ^ n * 0 + (m.eval s u.ρ).toNat * vs (fun i => (B i).eval s u.ρ) n := by
    have v1 : vs (fun i => u1.ρ (g + 1, i)) n + W ^ n * c1.toNat = vs (fun i => (R i).eval s u.ρ) n
      + vs (fun i => pword .mul ((B i).eval s u.ρ) (m.eval s u.ρ)) n := v1
    have v4 : vs (fun i => u4.ρ (g + 4, i + 1)) n + W ^ n * c4.toNat = vs (fun i => u3.ρ (g + 1, i + 1)) n
      + vs (fun i => pword .umulh ((B i).eval s u.ρ) (m.eval s u.ρ)) n := v4
    exact blkX_arith v1 (c2 := 0) (by omega) eS v4 hp (by omega)
  have hc4 : c4 = false := by
    cases c4
    · rfl
    · exfalso
      rw [Bool.toNat_true] at tot
      rw [pow_succ] at hlt
      have : W * (vs (fun i => u4.ρ (g + 4, i + 1)) n + W ^ n * 1) = W * vs (fun i => u4.ρ (g + 4, i + 1)) n + W ^ n * W := by ring
      omega
  rw [hc4] at tot f4
  simp only [Bool.toNat_false, Nat.mul_zero, Nat.add_zero] at tot
  have b4 : Below g u u4 := (b1.trans b3).trans (k4.below (by simp))
  have o4 : u4.ρ (g + 1, 0) = u1.ρ (g + 1, 0) := (k4 (g + 1, 0) (by simp)).trans (s3 0 hn)
  rw [← o4] at tot
  cases fin
  · simp only [Bool.false_eq_true, if_false, vexes_nil] at hu'
    subst hu'
    exact ⟨b4, by simp, tot⟩
  · simp only [if_true, vexes_cons, vexes_nil] at hu'
    obtain ⟨w5, fl5, c5, e5, v5, -, -⟩ := vadd_exec s u4 (o := .adc) (by simp) (g + 5) 0 .zr .zr
    rw [e5] at hu'
    subst hu'
    have hu4 : ∀ p : Nat × Nat, p.1 ≠ g + 5 → upd u4.ρ (g + 5, 0) w5 p = u4.ρ p := fun p hp => upd_ne _ _ (by rintro rfl; exact hp rfl)
    refine ⟨fun p hp => (hu4 p (by omega)).trans (b4 p hp), fun _ hh => ?_, ?_⟩
    · subst hh
      have f4 := f4 (fun i _ => addO_ne i) hn
      rw [if_neg (by decide), f4] at v5
      simp only [zr_val, Bool.toNat_false, Nat.add_zero] at v5
      show upd u4.ρ (g + 5, 0) w5 (g + 5, 0) = 0
      rw [upd_same]
      exact BitVec.eq_of_toNat_eq (by rw [show (0 : BitVec 64).toNat = 0 from rfl]; omega)
    · show (upd u4.ρ (g + 5, 0) w5 (g + 1, 0)).toNat + W * vs (fun i => upd u4.ρ (g + 5, 0) w5 (g + 4, i + 1)) n = _
      rw [hu4 (g + 1, 0) (by simp)]
      have eT : vs (fun i => upd u4.ρ (g + 5, 0) w5 (g + 4, i + 1)) n = vs (fun i => u4.ρ (g + 4, i + 1)) n :=
        vs_congr fun i _ => hu4 _ (by simp)
      rw [eT]
      exact tot

/-- `Gen_rawMul.genMulRawq`, `armbuilder.js:1435-1473`, and `Gen_rawMul1.genMulRawq` in the first round, `1590-1637`: the word `m` times
the modulus is added to the `n + 1` words `acc` with the carry `x` behind them. -/
def blkQ (n g : Nat) (full fin : Bool) (m x : Val) (acc : Nat → Val) : List VIns :=
  chainV n g (g + 1) 0 false .mul addO qw m acc
    ++ ((if full then [vop .adcs (g + 1) n (acc n) .zr, vop .adc (g + 2) 0 x .zr] else [vop .adc (g + 1) n (acc n) .zr])
    ++ (chainV n (g + 3) (g + 4) 1 false .umulh addO qw m (fun i => .v (g + 1) (i + 1))
    ++ if full then [vop .adc (g + 5) 0 (.v (g + 2) 0) .zr] else if fin then [vop .adc (g + 5) 0 .zr .zr] else []))

theorem qw_below (g i : Nat) : (qw i).below g := trivial

theorem blkQ_full (s : State) {n g : Nat} {fin : Bool} {m x : Val} {acc : Nat → Val} (hn : 0 < n) (hm : m.below g) (hx : x.below g)
    (hacc : ∀ i, (acc i).below g) (u : U) (hx2 : (x.eval s u.ρ).toNat ≤ 2) :
    let u' := vexes s (blkQ n g true fin m x acc) u
    Below g u u' ∧
      (u'.ρ (g + 1, 0)).toNat + W * (vs (fun i => u'.ρ (g + 4, i + 1)) n + W ^ n * (u'.ρ (g + 5, 0)).toNat)
        = vs (fun i => (acc i).eval s u.ρ) (n + 1) + W ^ (n + 1) * (x.eval s u.ρ).toNat
          + (m.eval s u.ρ).toNat * vs (fun i => (qw i).eval s u.ρ) n := by
  intro u'
  have hu' : u' = vexes s (blkQ n g true fin m x acc) u := rfl
  clear_value u'
  unfold blkQ at hu'
  rw [vexes_append, vexes_append, vexes_append] at hu'
  simp only [if_true] at hu'
  obtain ⟨k1, c1, v1, f1⟩ := chainV_run s (n := n) (p := g) (t := g + 1) (e := 0) (sw := false) (O := addO) (B := qw) (m := m) (x := acc) (.inl rfl)
    (fun i _ => addO_ok) (by omega) (fun i => ⟨(qw_below g i).off le_rfl, (qw_below g i).off (by omega)⟩) ⟨hm.off le_rfl, hm.off (by omega)⟩
    (fun i => ⟨(hacc i).off le_rfl, (hacc i).off (by omega)⟩) u
  have f1 := f1 (fun i _ => addO_ne i) hn
  rw [if_pos (show addO 0 = .adds from rfl)] at v1
  generalize vexes s (chainV n g (g + 1) 0 false .mul addO qw m acc) u = u1 at *
  have b1 : Below g u u1 := k1.below (by simp)
  simp only [vexes_cons, vexes_nil] at hu'
  obtain ⟨w2, fl2, c2, e2, v2, f2, -⟩ := vadd_exec s u1 (o := .adcs) (by simp) (g + 1) n (acc n) .zr
  rw [e2] at hu'
  obtain ⟨w3, fl3, c3, e3, v3, -, f3⟩ := vadd_exec s ⟨upd u1.ρ (g + 1, n) w2, fl2⟩ (o := .adc) (by simp) (g + 2) 0 x .zr
  rw [e3] at hu'
  have f2 := f2 (by decide)
  have f3 := f3 rfl
  rw [if_neg (by decide), f1, b1.eval s (hacc n)] at v2
  have ex2 : x.eval s (upd u1.ρ (g + 1, n) w2) = x.eval s u.ρ := by
    rw [eval_off (hx.off (by omega)), b1.eval s hx]
  rw [if_neg (by decide)] at v3
  simp only [zr_val, ex2, Nat.add_zero] at v2 v3
  rw [f2] at v3
  generalize hu3 : (⟨upd (upd u1.ρ (g + 1, n) w2) (g + 2, 0) w3, fl3⟩ : U) = u3 at *
  have b3 : Below g u1 u3 := by
    rw [← hu3]
    intro p hp
    exact (upd_ne _ _ (by rintro rfl; simp only at hp; omega)).trans (upd_ne _ _ (by rintro rfl; simp only at hp; omega))
  have s3 : ∀ i, i < n → u3.ρ (g + 1, i) = u1.ρ (g + 1, i) := by
    rw [← hu3]
    intro i hi
    exact (upd_ne _ _ (by simp)).trans (upd_ne _ _ (by simp; omega))
  have sn : u3.ρ (g + 1, n) = w2 := by
    rw [← hu3]
    exact (upd_ne _ _ (by simp)).trans (upd_same _ _ _)
  have t3 : u3.ρ (g + 2, 0) = w3 := by
    rw [← hu3]
    exact upd_same _ _ _
  obtain ⟨k4, c4, v4, f4⟩ := chainV_run s (n := n) (p := g + 3) (t := g + 4) (e := 1) (sw := false) (O := addO) (B := qw) (m := m)
    (x := fun i => .v (g + 1) (i + 1)) (.inr rfl) (fun i hi => addO_ok) (by omega)
    (fun i => ⟨(qw_below g i).off (by omega), (qw_below g i).off (by omega)⟩) ⟨hm.off (by omega), hm.off (by omega)⟩
    (fun i => ⟨by simp [Val.off], by simp [Val.off]⟩) u3
  have f4 := f4 (fun i _ => addO_ne i) hn
  rw [if_pos (show addO 0 = .adds from rfl), (b1.trans b3).eval s hm] at v4
  generalize vexes s (chainV n (g + 3) (g + 4) 1 false .umulh addO qw m fun i => .v (g + 1) (i + 1)) u3 = u4 at *
  obtain ⟨w5, fl5, c5, e5, v5, -, -⟩ := vadd_exec s u4 (o := .adc) (by simp) (g + 5) 0 (.v (g + 2) 0) .zr
  rw [e5] at hu'
  rw [if_neg (by decide), f4] at v5
  have t4 : u4.ρ (g + 2, 0) = w3 := (k4 (g + 2, 0) (by simp)).trans t3
  simp only [zr_val, v_eval, Nat.add_zero] at v5
  rw [t4] at v5
  subst hu'
  have hu4 : ∀ p : Nat × Nat, p.1 ≠ g + 5 → upd u4.ρ (g + 5, 0) w5 p = u4.ρ p := fun p hp => upd_ne _ _ (by rintro rfl; exact hp rfl)
  have hw5 : w5.toNat = (x.eval s u.ρ).toNat + (c2.toNat + c4.toNat) := by
    have h2 := Bool.toNat_le c2
    have h4 := Bool.toNat_le c4
    have hW : 4 < W := by rw [← W_eq]; decide
    have h3 := Bool.toNat_le c3
    have h5 := Bool.toNat_le c5
    have hw3 : c3.toNat = 0 := by
      rcases Nat.le_one_iff_eq_zero_or_eq_one.mp h3 with h | h
      · exact h
      · rw [h] at v3; omega
    rw [hw3] at v3
    rcases Nat.le_one_iff_eq_zero_or_eq_one.mp h5 with h | h
    · rw [h] at v5; omega
    · rw [h] at v5; omega
  refine ⟨fun p hp => (hu4 p (by omega)).trans (((b1.trans b3).trans (k4.below (by simp))) p hp), ?_⟩
  show (upd u4.ρ (g + 5, 0) w5 (g + 1, 0)).toNat + W * (vs (fun i => upd u4.ρ (g + 5, 0) w5 (g + 4, i + 1)) n
    + W ^ n * (upd u4.ρ (g + 5, 0) w5 (g + 5, 0)).toNat) = _
  rw [upd_same, hu4 (g + 1, 0) (by simp), k4 (g + 1, 0) (by simp), s3 0 hn]
  have eT : vs (fun i => upd u4.ρ (g + 5, 0) w5 (g + 4, i + 1)) n = vs (fun i => u4.ρ (g + 4, i + 1)) n :=
    vs_congr fun i _ => hu4 _ (by simp)
  rw [eT, hw5]
  have eS : vs (fun i => u1.ρ (g + 1, i)) n + W ^ n * w2.toNat = (u1.ρ (g + 1, 0)).toNat + W * vs (fun i => u3.ρ (g + 1, i + 1)) n := by
    have h := vs_shift (fun i => u3.ρ (g + 1, i)) n
    rw [vs_succ, sn, s3 0 hn] at h
    rw [← vs_congr (f := fun i => u3.ρ (g + 1, i)) (g := fun i => u1.ρ (g + 1, i)) s3]
    exact h
  have hp := pword_val (fun i => (qw i).eval s u.ρ) (m.eval s u.ρ) n
  have v1 : vs (fun i => u1.ρ (g + 1, i)) n + W ^ n * c1.toNat = vs (fun i => (acc i).eval s u.ρ) n
    + vs (fun i => pword .mul ((qw i).eval s u.ρ) (m.eval s u.ρ)) n := v1
  have v4 : vs (fun i => u4.ρ (g + 4, i + 1)) n + W ^ n * c4.toNat = vs (fun i => u3.ρ (g + 1, i + 1)) n
    + vs (fun i => pword .umulh ((qw i).eval s u.ρ) (m.eval s u.ρ)) n := v4
  have := blkX_arith v1 v2 eS v4 hp rfl
  rw [vs_succ]
  generalize (x.eval s u.ρ).toNat = X at *
  generalize vs (fun i => u4.ρ (g + 4, i + 1)) n = T at *
  calc _ = ((u1.ρ (g + 1, 0)).toNat + W * (T + W ^ n * (c2.toNat + c4.toNat))) + W ^ (n + 1) * X := by ring
    _ = _ := by rw [this]; ring

theorem blkQ_half (s : State) {n g : Nat} {fin : Bool} {m x : Val} {acc : Nat → Val} (hn : 0 < n) (hm : m.below g)
    (hacc : ∀ i, (acc i).below g) (u : U)
    (hlt : vs (fun i => (acc i).eval s u.ρ) (n + 1) + vs (fun i => pword .mul ((qw i).eval s u.ρ) (m.eval s u.ρ)) n < W ^ (n + 1)) :
    let u' := vexes s (blkQ n g false fin m x acc) u
    Below g u u' ∧ ∃ d : Bool, (fin = true → (u'.ρ (g + 5, 0)).toNat = d.toNat) ∧
      (u'.ρ (g + 1, 0)).toNat + W * (vs (fun i => u'.ρ (g + 4, i + 1)) n + W ^ n * d.toNat)
        = vs (fun i => (acc i).eval s u.ρ) (n + 1) + (m.eval s u.ρ).toNat * vs (fun i => (qw i).eval s u.ρ) n := by
  intro u'
  have hu' : u' = vexes s (blkQ n g false fin m x acc) u := rfl
  clear_value u'
  unfold blkQ at hu'
  rw [vexes_append, vexes_append, vexes_append] at hu'
  simp only [Bool.false_eq_true, if_false] at hu'
  obtain ⟨k1, c1, v1, f1⟩ := chainV_run s (n := n) (p := g) (t := g + 1) (e := 0) (sw := false) (O := addO) (B := qw) (m := m) (x := acc) (.inl rfl)
    (fun i _ => addO_ok) (by omega) (fun i => ⟨(qw_below g i).off le_rfl, (qw_below g i).off (by omega)⟩) ⟨hm.off le_rfl, hm.off (by omega)⟩
    (fun i => ⟨(hacc i).off le_rfl, (hacc i).off (by omega)⟩) u
  have f1 := f1 (fun i _ => addO_ne i) hn
  rw [if_pos (show addO 0 = .adds from rfl)] at v1
  generalize vexes s (chainV n g (g + 1) 0 false .mul addO qw m acc) u = u1 at *
  have b1 : Below g u u1 := k1.below (by simp)
  rw [vexes_cons, vexes_nil] at hu'
  obtain ⟨w2, fl2, c2, e2, v2, -, f2⟩ := vadd_exec s u1 (o := .adc) (by simp) (g + 1) n (acc n) .zr
  rw [e2] at hu'
  rw [if_neg (by decide), f1, b1.eval s (hacc n)] at v2
  simp only [zr_val, Nat.add_zero] at v2
  generalize hu3 : (⟨upd u1.ρ (g + 1, n) w2, fl2⟩ : U) = u3 at *
  have b3 : Below g u1 u3 := by
    rw [← hu3]
    intro p hp
    exact upd_ne _ _ (by rintro rfl; simp only at hp; omega)
  have s3 : ∀ i, i < n → u3.ρ (g + 1, i) = u1.ρ (g + 1, i) := by
    rw [← hu3]
    intro i hi
    exact upd_ne _ _ (by simp; omega)
  have sn : u3.ρ (g + 1, n) = w2 := by
    rw [← hu3]
    exact upd_same _ _ _
  obtain ⟨k4, c4, v4, f4⟩ := chainV_run s (n := n) (p := g + 3) (t := g + 4) (e := 1) (sw := false) (O := addO) (B := qw) (m := m)
    (x := fun i => .v (g + 1) (i + 1)) (.inr rfl) (fun i hi => addO_ok) (by omega)
    (fun i => ⟨(qw_below g i).off (by omega), (qw_below g i).off (by omega)⟩) ⟨hm.off (by omega), hm.off (by omega)⟩
    (fun i => ⟨by simp [Val.off], by simp [Val.off]⟩) u3
  have f4 := f4 (fun i _ => addO_ne i) hn
  rw [if_pos (show addO 0 = .adds from rfl), (b1.trans b3).eval s hm] at v4
  generalize vexes s (chainV n (g + 3) (g + 4) 1 false .umulh addO qw m fun i => .v (g + 1) (i + 1)) u3 = u4 at *
  have eS : vs (fun i => u1.ρ (g + 1, i)) n + W ^ n * w2.toNat = (u1.ρ (g + 1, 0)).toNat + W * vs (fun i => u3.ρ (g + 1, i + 1)) n := by
    have h := vs_shift (fun i => u3.ρ (g + 1, i)) n
    rw [vs_succ, sn, s3 0 hn] at h
    rw [← vs_congr (f := fun i => u3.ρ (g + 1, i)) (g := fun i => u1.ρ (g + 1, i)) s3]
    exact h
  have hp := pword_val (fun i => (qw i).eval s u.ρ) (m.eval s u.ρ) n
  have v1 : vs (fun i => u1.ρ (g + 1, i)) n + W ^ n * c1.toNat = vs (fun i => (acc i).eval s u.ρ) n
    + vs (fun i => pword .mul ((qw i).eval s u.ρ) (m.eval s u.ρ)) n := v1
  have v4 : vs (fun i => u4.ρ (g + 4, i + 1)) n + W ^ n * c4.toNat = vs (fun i => u3.ρ (g + 1, i + 1)) n
    + vs (fun i => pword .umulh ((qw i).eval s u.ρ) (m.eval s u.ρ)) n := v4
  have hc2 : c2 = false := by
    cases c2
    · rfl
    · exfalso
      rw [Bool.toNat_true] at v2
      rw [vs_succ, pow_succ] at hlt
      have : W ^ n * (w2.toNat + W * 1) = W ^ n * (((acc n).eval s u.ρ).toNat + c1.toNat) := by rw [v2]
      rw [Nat.mul_add, Nat.mul_add, Nat.mul_one] at this
      omega
  have tot := blkX_arith v1 v2 eS v4 hp rfl
  rw [hc2, Bool.toNat_false, Nat.zero_add, ← vs_succ (fun i => (acc i).eval s u.ρ)] at tot
  have o4 : u4.ρ (g + 1, 0) = u1.ρ (g + 1, 0) := (k4 (g + 1, 0) (by simp)).trans (s3 0 hn)
  rw [← o4] at tot
  have b4 : Below g u u4 := (b1.trans b3).trans (k4.below (by simp))
  cases fin
  · simp only [Bool.false_eq_true, if_false, vexes_nil] at hu'
    subst hu'
    exact ⟨b4, c4, by simp, tot⟩
  · simp only [if_true, vexes_cons, vexes_nil] at hu'
    obtain ⟨w5, fl5, c5, e5, v5, -, -⟩ := vadd_exec s u4 (o := .adc) (by simp) (g + 5) 0 .zr .zr
    rw [e5] at hu'
    subst hu'
    have hu4 : ∀ p : Nat × Nat, p.1 ≠ g + 5 → upd u4.ρ (g + 5, 0) w5 p = u4.ρ p := fun p hp => upd_ne _ _ (by rintro rfl; exact hp rfl)
    refine ⟨fun p hp => (hu4 p (by omega)).trans (b4 p hp), c4, fun _ => ?_, ?_⟩
    · rw [if_neg (by decide), f4] at v5
      simp only [zr_val, Nat.zero_add] at v5
      show (upd u4.ρ (g + 5, 0) w5 (g + 5, 0)).toNat = _
      rw [upd_same]
      have h4 := Bool.toNat_le c4
      have hW : 4 < W := by rw [← W_eq]; decide
      cases c5
      · simpa using v5
      · rw [Bool.toNat_true] at v5; omega
    · show (upd u4.ρ (g + 5, 0) w5 (g + 1, 0)).toNat + W * (vs (fun i => upd u4.ρ (g + 5, 0) w5 (g + 4, i + 1)) n + _) = _
      rw [hu4 (g + 1, 0) (by simp)]
      have eT : vs (fun i => upd u4.ρ (g + 5, 0) w5 (g + 4, i + 1)) n = vs (fun i => u4.ρ (g + 4, i + 1)) n :=
        vs_congr fun i _ => hu4 _ (by simp)
      rw [eT]
      exact tot

end FF.Arm
