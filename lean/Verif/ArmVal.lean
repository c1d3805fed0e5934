import Verif.ArmSym
import Verif.ArmGen
import Verif.Raw

/-!
# Values of word sequences and the carry chains of the AArch64 code
-/

namespace FF.Arm

open FF.X86 (upd cell rd upd_same upd_ne)

/-- The number with the words `f 0 … f (n-1)`. -/
def vs (f : Nat → BitVec 64) (n : Nat) : Nat := val ((List.range n).map f)

theorem vs_zero (f : Nat → BitVec 64) : vs f 0 = 0 := rfl

theorem vs_succ (f : Nat → BitVec 64) (n : Nat) : vs f (n + 1) = vs f n + W ^ n * (f n).toNat := by
  unfold vs
  rw [List.range_succ, List.map_append, val_append]
  simp

theorem vs_lt (f : Nat → BitVec 64) (n : Nat) : vs f n < W ^ n := by
  have := val_lt ((List.range n).map f)
  simpa [vs] using this

theorem vs_congr {f g : Nat → BitVec 64} {n : Nat} (h : ∀ i, i < n → f i = g i) : vs f n = vs g n := by
  unfold vs
  rw [List.map_congr_left]
  intro i hi
  exact h i (List.mem_range.mp hi)

theorem vs_shift (f : Nat → BitVec 64) (n : Nat) : vs f (n + 1) = (f 0).toNat + W * vs (fun i => f (i + 1)) n := by
  induction n with
  | zero => simp [vs_succ, vs_zero]
  | succ n ih =>
    rw [vs_succ, ih, vs_succ (fun i => f (i + 1)), pow_succ]
    ring

theorem rd_eq_vs (m : BitVec 64 → BitVec 64) (a : BitVec 64) (n : Nat) : val (rd m a n) = vs (fun i => m (cell a i)) n := by
  rw [rd, vs, List.range_eq_range']

theorem rd_map (m : BitVec 64 → BitVec 64) (a : BitVec 64) (n : Nat) : rd m a n = (List.range n).map fun i => m (cell a i) := by
  rw [rd, List.range_eq_range']

/-! ## Single instructions -/

theorem add_val (x y : BitVec 64) (c : Bool) :
    (addFlags x y c).1.toNat + W * (addFlags x y c).2.c.toNat = x.toNat + y.toNat + c.toNat := by
  have hx := x.isLt
  have hy := y.isLt
  have hc : c.toNat ≤ 1 := Bool.toNat_le c
  rw [← W_eq]
  simp only [addFlags, BitVec.toNat_ofNat]
  by_cases h : 2 ^ 64 ≤ x.toNat + y.toNat + c.toNat
  · rw [decide_eq_true h]; simp only [Bool.toNat_true]; omega
  · rw [decide_eq_false h]; simp only [Bool.toNat_false]; omega

theorem sub_val (x y : BitVec 64) (c : Bool) :
    (addFlags x (~~~y) c).1.toNat + y.toNat + (!c).toNat = x.toNat + W * (!(addFlags x (~~~y) c).2.c).toNat := by
  have h := add_val x (~~~y) c
  have hy := y.isLt
  have e : (~~~y).toNat = 2 ^ 64 - 1 - y.toNat := by rw [BitVec.toNat_not]
  rw [e, W_eq] at h
  have hW : y.toNat < W := limb_lt y
  have h1 : (!c).toNat = 1 - c.toNat := by cases c <;> rfl
  have h2 : (!(addFlags x (~~~y) c).2.c).toNat = 1 - (addFlags x (~~~y) c).2.c.toNat := by
    cases (addFlags x (~~~y) c).2.c <;> rfl
  have hc : c.toNat ≤ 1 := Bool.toNat_le c
  have hd : (addFlags x (~~~y) c).2.c.toNat ≤ 1 := Bool.toNat_le _
  rw [h1, h2]
  rcases Nat.le_one_iff_eq_zero_or_eq_one.mp hd with hd | hd <;> rw [hd] at h ⊢ <;> omega

theorem mul_val (x y : BitVec 64) :
    (x * y).toNat + W * (BitVec.ofNat 64 (x.toNat * y.toNat / 2 ^ 64)).toNat = x.toNat * y.toNat := by
  have h : x.toNat * y.toNat / 2 ^ 64 < 2 ^ 64 := by
    have := Nat.mul_lt_mul'' x.isLt y.isLt
    exact Nat.div_lt_of_lt_mul this
  rw [BitVec.toNat_mul, BitVec.toNat_ofNat, Nat.mod_eq_of_lt h, W_eq]
  exact Nat.mod_add_div _ _

/-! ## Loops -/

/-- The `n`-word loop of operations. -/
def vloop (n : Nat) (f : Nat → List VIns) : List VIns := (List.range n).flatMap f

theorem vloop_run {s : State} {f : Nat → List VIns} {n : Nat} {P : Nat → U → Prop} {u : U} (h0 : P 0 u)
    (h : ∀ i u, i < n → P i u → P (i + 1) (vexes s (f i) u)) : P n (vexes s (vloop n f) u) := by
  suffices ∀ k, k ≤ n → P k (vexes s (vloop k f) u) from this n le_rfl
  intro k
  induction k with
  | zero => intro _; exact h0
  | succ k ih =>
    intro hk
    rw [vloop, List.range_succ, List.flatMap_append, vexes_append]
    have := h k _ (by omega) (ih (by omega))
    simpa [vloop] using this

/-- An operation. -/
def vop (o : Alu) (t i : Nat) (x y : Val) : VIns := ⟨o, some (t, i), x, y⟩

/-- First or later word of an addition, `genAddReg`, `armbuilder.js:256-258`. -/
def addO (i : Nat) : Alu := if i = 0 then .adds else .adcs

/-- First or later word of a subtraction, `genSubReg`, `armbuilder.js:270-272`. -/
def subO (i : Nat) : Alu := if i = 0 then .subs else .sbcs

/-- The value does not depend on the virtual registers with tag `t`. -/
def Val.off (t : Nat) : Val → Prop
  | .v t' _ => t' ≠ t
  | _ => True

theorem eval_off {s : State} {ρ : Env} {t i : Nat} {v : Val} (h : v.off t) (x : BitVec 64) :
    v.eval s (upd ρ (t, i) x) = v.eval s ρ := by
  refine eval_fresh ?_ x
  rintro rfl
  exact h rfl

/-- The virtual registers with other tags are kept. -/
def Keeps (ts : List Nat) (u u' : U) : Prop := ∀ p : Nat × Nat, p.1 ∉ ts → u'.ρ p = u.ρ p

theorem Keeps.rfl {ts : List Nat} {u : U} : Keeps ts u u := fun _ _ => Eq.refl _

theorem Keeps.trans {ts : List Nat} {u u' u'' : U} (h : Keeps ts u u') (h' : Keeps ts u' u'') : Keeps ts u u'' :=
  fun p hp => (h' p hp).trans (h p hp)

theorem Keeps.mono {ts ts' : List Nat} {u u' : U} (h : Keeps ts u u') (hs : ∀ t ∈ ts, t ∈ ts') : Keeps ts' u u' :=
  fun p hp => h p fun hh => hp (hs _ hh)

theorem Keeps.eval {ts : List Nat} {u u' : U} (h : Keeps ts u u') (s : State) {v : Val} (hv : ∀ t ∈ ts, v.off t) :
    v.eval s u'.ρ = v.eval s u.ρ := by
  cases v with
  | v t i => exact h (t, i) fun hh => hv t hh (Eq.refl _)
  | _ => rfl

theorem Keeps.cons {ts : List Nat} {s : State} {u u' : U} {o : Alu} {t i : Nat} {x y : Val} (ht : t ∈ ts)
    (h : Keeps ts ((vop o t i x y).exec s u) u') : Keeps ts u u' := by
  intro p hp
  rw [h p hp]
  show upd u.ρ (t, i) _ p = _
  refine upd_ne _ _ ?_
  rintro rfl
  exact hp ht

/-- The words of tag `t`. -/
def U.seq (u : U) (t : Nat) : Nat → BitVec 64 := fun i => u.ρ (t, i)

/-- A chain of additions with a carry. -/
def addV (n t : Nat) (x y : Nat → Val) : List VIns := vloop n fun i => [vop (addO i) t i (x i) (y i)]

/-- A chain of subtractions with a borrow. -/
def subV (n t : Nat) (x y : Nat → Val) : List VIns := vloop n fun i => [vop (subO i) t i (x i) (y i)]

theorem exec_vop (s : State) (u : U) (o : Alu) (t i : Nat) (x y : Val) :
    (vop o t i x y).exec s u = ⟨upd u.ρ (t, i) (o.eval (x.eval s u.ρ) (y.eval s u.ρ) u.fl).1,
      (o.eval (x.eval s u.ρ) (y.eval s u.ρ) u.fl).2⟩ := rfl

theorem upd_keeps (ρ : Env) (fl fl' : Flags) (t i : Nat) (x : BitVec 64) : Keeps [t] ⟨ρ, fl⟩ ⟨upd ρ (t, i) x, fl'⟩ := by
  intro p hp
  refine upd_ne _ _ ?_
  rintro rfl
  exact hp (by simp)

theorem seq_upd_lt (ρ : Env) (fl : Flags) (t i : Nat) (x : BitVec 64) :
    vs ((⟨upd ρ (t, i) x, fl⟩ : U).seq t) i = vs (fun k => ρ (t, k)) i := by
  refine vs_congr fun k hk => ?_
  show upd ρ (t, i) x (t, k) = _
  refine upd_ne _ _ ?_
  intro h
  injection h with _ h
  omega

/-- Sum and carry of a chain of additions. -/
theorem addV_run (s : State) {n t : Nat} {x y : Nat → Val} (hn : 0 < n) (hx : ∀ i, (x i).off t) (hy : ∀ i, (y i).off t) (u : U) :
    Keeps [t] u (vexes s (addV n t x y) u) ∧
      vs ((vexes s (addV n t x y) u).seq t) n + W ^ n * (vexes s (addV n t x y) u).fl.c.toNat
        = vs (fun i => (x i).eval s u.ρ) n + vs (fun i => (y i).eval s u.ρ) n := by
  have := vloop_run (s := s) (u := u) (n := n) (f := fun i => [vop (addO i) t i (x i) (y i)])
    (P := fun i u' => Keeps [t] u u' ∧ vs (u'.seq t) i + W ^ i * (if i = 0 then 0 else u'.fl.c.toNat)
        = vs (fun i => (x i).eval s u.ρ) i + vs (fun i => (y i).eval s u.ρ) i)
    ⟨.rfl, by simp [vs_zero]⟩ (by
      intro i u' _ ⟨hk, hv⟩
      show Keeps [t] u ((vop _ t i _ _).exec s u') ∧ _
      refine ⟨hk.trans ?_, ?_⟩
      · rw [exec_vop]; exact upd_keeps _ _ _ _ _ _
      · rw [if_neg (Nat.succ_ne_zero i), vs_succ, vs_succ, vs_succ]
        show vs (((vop (addO i) t i _ _).exec s u').seq t) i + W ^ i * (((vop (addO i) t i _ _).exec s u').ρ (t, i)).toNat
          + W ^ (i + 1) * ((vop (addO i) t i _ _).exec s u').fl.c.toNat = _
        rw [exec_vop, seq_upd_lt]
        simp only [upd_same]
        rw [hk.eval s (by simpa using hx i), hk.eval s (by simpa using hy i)]
        have e : (addO i).eval ((x i).eval s u.ρ) ((y i).eval s u.ρ) u'.fl
            = addFlags ((x i).eval s u.ρ) ((y i).eval s u.ρ) (if i = 0 then false else u'.fl.c) := by
          unfold addO; split <;> rfl
        rw [e]
        have h := add_val ((x i).eval s u.ρ) ((y i).eval s u.ρ) (if i = 0 then false else u'.fl.c)
        have hc : (if i = 0 then false else u'.fl.c).toNat = if i = 0 then 0 else u'.fl.c.toNat := by split <;> rfl
        rw [hc] at h
        rw [pow_succ]
        generalize (addFlags ((x i).eval s u.ρ) ((y i).eval s u.ρ) (if i = 0 then false else u'.fl.c)) = r at h ⊢
        change vs (fun k => u'.ρ (t, k)) i + _ = _ at hv
        calc _ = vs (fun k => u'.ρ (t, k)) i + W ^ i * (r.1.toNat + W * r.2.c.toNat) := by ring
          _ = (vs (fun k => u'.ρ (t, k)) i + W ^ i * (if i = 0 then 0 else u'.fl.c.toNat))
                + W ^ i * ((x i).eval s u.ρ).toNat + W ^ i * ((y i).eval s u.ρ).toNat := by rw [h]; ring
          _ = _ := by rw [hv]; ring)
  rwa [if_neg (by omega)] at this

/-- Difference and borrow of a chain of subtractions. -/
theorem subV_run (s : State) {n t : Nat} {x y : Nat → Val} (hn : 0 < n) (hx : ∀ i, (x i).off t) (hy : ∀ i, (y i).off t) (u : U) :
    Keeps [t] u (vexes s (subV n t x y) u) ∧
      vs ((vexes s (subV n t x y) u).seq t) n + vs (fun i => (y i).eval s u.ρ) n
        = vs (fun i => (x i).eval s u.ρ) n + W ^ n * (!(vexes s (subV n t x y) u).fl.c).toNat := by
  have := vloop_run (s := s) (u := u) (n := n) (f := fun i => [vop (subO i) t i (x i) (y i)])
    (P := fun i u' => Keeps [t] u u' ∧ vs (u'.seq t) i + vs (fun i => (y i).eval s u.ρ) i
        = vs (fun i => (x i).eval s u.ρ) i + W ^ i * (if i = 0 then 0 else (!u'.fl.c).toNat))
    ⟨.rfl, by simp [vs_zero]⟩ (by
      intro i u' _ ⟨hk, hv⟩
      show Keeps [t] u ((vop _ t i _ _).exec s u') ∧ _
      refine ⟨hk.trans ?_, ?_⟩
      · rw [exec_vop]; exact upd_keeps _ _ _ _ _ _
      · rw [if_neg (Nat.succ_ne_zero i), vs_succ, vs_succ, vs_succ]
        show vs (((vop (subO i) t i _ _).exec s u').seq t) i + W ^ i * (((vop (subO i) t i _ _).exec s u').ρ (t, i)).toNat
          + _ = _ + W ^ (i + 1) * (!((vop (subO i) t i _ _).exec s u').fl.c).toNat
        rw [exec_vop, seq_upd_lt]
        simp only [upd_same]
        rw [hk.eval s (by simpa using hx i), hk.eval s (by simpa using hy i)]
        have e : (subO i).eval ((x i).eval s u.ρ) ((y i).eval s u.ρ) u'.fl
            = addFlags ((x i).eval s u.ρ) (~~~((y i).eval s u.ρ)) (if i = 0 then true else u'.fl.c) := by
          unfold subO; split <;> rfl
        rw [e]
        have h := sub_val ((x i).eval s u.ρ) ((y i).eval s u.ρ) (if i = 0 then true else u'.fl.c)
        have hc : (!(if i = 0 then true else u'.fl.c)).toNat = if i = 0 then 0 else (!u'.fl.c).toNat := by split <;> rfl
        rw [hc] at h
        rw [pow_succ]
        generalize (addFlags ((x i).eval s u.ρ) (~~~((y i).eval s u.ρ)) (if i = 0 then true else u'.fl.c)) = r at h ⊢
        generalize (if i = 0 then 0 else (!u'.fl.c).toNat) = c at h hv
        change vs (fun k => u'.ρ (t, k)) i + _ = _ at hv
        have h2 : W ^ i * (r.1.toNat + ((y i).eval s u.ρ).toNat + c) = W ^ i * (((x i).eval s u.ρ).toNat + W * (!r.2.c).toNat) := by
          rw [h]
        nlinarith [h2, hv])
  rwa [if_neg (by omega)] at this

end FF.Arm
