import Verif.FftBr
import Mathlib.RingTheory.RootsOfUnity.PrimitiveRoots
import Mathlib.Algebra.BigOperators.Intervals
import Mathlib.Algebra.BigOperators.Ring.Finset
import Mathlib.Algebra.Field.GeomSum
import Mathlib.Tactic.Ring
import Mathlib.Tactic.FieldSimp
import Mathlib.Tactic.LinearCombination

/-! # Every run of `fft` computes the discrete Fourier transform -/

set_option linter.unusedSimpArgs false
set_option linter.unusedSectionVars false

namespace FF.Fft

open Par Pool

theorem foot_read {L E : Type} {F RO : Nat → Prop} {f : L → (Nat → E) → L}
    (h : ∀ l m m', (∀ k, F k ∨ RO k → m k = m' k) → f l m = f l m') : Foot F RO (fun p : L × (Nat → E) => (f p.1 p.2, p.2)) :=
  ⟨fun _ _ _ _ => rfl, fun l m m' hm => ⟨h l m m' hm, fun k hk => hm k (Or.inl hk)⟩⟩

theorem foot_write {L E : Type} {F RO : Nat → Prop} {c : Nat} {v : L → (Nat → E) → E} (hc : F c)
    (h : ∀ l m m', (∀ k, F k ∨ RO k → m k = m' k) → v l m = v l m') :
    Foot F RO (fun p : L × (Nat → E) => (p.1, Function.update p.2 c (v p.1 p.2))) := by
  refine ⟨fun l m k hk => ?_, fun l m m' hm => ⟨rfl, fun k hk => ?_⟩⟩
  · have : k ≠ c := fun e => hk (e ▸ hc)
    simp only [Function.update_of_ne this]
  · by_cases e : k = c
    · subst e; simp only [Function.update_self]; exact h l m m' hm
    · simp only [Function.update_of_ne e]; exact hm k (Or.inl hk)

theorem toInt32_eq {n : Nat} (h : n < 2 ^ 31) : toInt32 n = (n : Int) := by
  unfold toInt32
  have e : (BitVec.ofNat 32 n).toNat = n := by rw [BitVec.toNat_ofNat, Nat.mod_eq_of_lt (by omega)]
  rw [BitVec.toInt_eq_toNat_of_lt (by omega), e]

variable {K : Type} [Field K]

/-! ## Reverse permutation -/

/-- The cells of iteration `i` of `reversePermutation`. -/
def revCells (k i c : Nat) : Prop := revN k i < i ∧ (c = i ∨ c = revN k i)

theorem rev_dis (k : Nat) : ∀ i j c, 0 ≤ i → i < 2 ^ k → 0 ≤ j → j < 2 ^ k → revCells k i c → revCells k j c → i = j := by
  rintro i j c - hi - hj ⟨h1, h2⟩ ⟨h3, h4⟩
  have ei := revN_revN k i hi
  have ej := revN_revN k j hj
  rcases h2 with h2 | h2 <;> rcases h4 with h4 | h4
  · omega
  · have : i = revN k j := by omega
    rw [this, ej] at h1; omega
  · have : j = revN k i := by omega
    rw [this, ei] at h3; omega
  · have : revN k i = revN k j := by omega
    rw [← ei, this, ej]

theorem rev_foot {k : Nat} (hk : k ≤ 32) : ∀ i, 0 ≤ i → i < 2 ^ k → ∀ a ∈ revIter (K := K) k i, Foot (revCells k i) (fun _ => False) a := by
  have hBR : ∀ i < 2 ^ k, (BR (BitVec.ofNat 64 i) k).toNat = revN k i := fun i hi => BR_toNat hk hi
  intro i _ hi a ha
  unfold revIter at ha
  simp only [hBR i hi] at ha
  split at ha
  · rename_i hgt
    simp only [List.mem_cons, List.not_mem_nil, or_false] at ha
    rcases ha with rfl | rfl | rfl
    · exact foot_read (f := fun (l : Loc K) a => { l with t := a i }) fun l m m' hm => by
        simp only [hm i (Or.inl ⟨hgt, Or.inl rfl⟩)]
    · exact foot_write (v := fun (_ : Loc K) a => a (revN k i)) ⟨hgt, Or.inl rfl⟩ fun l m m' hm =>
        hm _ (Or.inl ⟨hgt, Or.inr rfl⟩)
    · exact foot_write (v := fun (l : Loc K) _ => l.t) ⟨hgt, Or.inr rfl⟩ fun l m m' hm => rfl
  · simp at ha

theorem rev_spec {T k : Nat} (hT : 0 < T) (hk : k ≤ 30) {m m' : Nat → K} (h : ParFor T 0 (2 ^ k : Nat) (revIter k) m m') :
    (∀ i < 2 ^ k, m' i = m (revN k i)) ∧ ∀ i, 2 ^ k ≤ i → m' i = m i := by
  have hBR : ∀ i < 2 ^ k, (BR (BitVec.ofNat 64 i) k).toNat = revN k i := fun i hi => BR_toNat (by omega) hi
  obtain ⟨r1, r2⟩ := parFor_spec' (lo := 0) (hi := 2 ^ k) (prog := revIter k) (m := m) (m' := m') hT (Nat.two_pow_pos k)
    (G := revCells k) (RO := fun _ => False)
    (res := fun i m c => if c = i then m (revN k i) else m i)
    (rev_dis k)
    (fun _ _ _ _ _ h => h)
    (rev_foot (by omega))
    (by
      rintro i l m c - hi ⟨h1, h2⟩
      unfold revIter
      simp only [hBR i hi, if_pos (show i > revN k i from h1), solo, List.foldl_cons, List.foldl_nil]
      rcases h2 with rfl | rfl
      · rw [Function.update_of_ne (by omega), Function.update_self, if_pos rfl]
      · rw [Function.update_self, if_neg (by omega)])
    (by exact_mod_cast h)
  have key : ∀ i < 2 ^ k, m' i = m (revN k i) := by
    intro i hi
    have ei := revN_revN k i hi
    rcases lt_trichotomy (revN k i) i with hlt | heq | hgt
    · rw [r1 i (Nat.zero_le _) hi i ⟨hlt, Or.inl rfl⟩, if_pos rfl]
    · rw [r2 i, heq]
      rintro j - hj ⟨h1, h2⟩
      have ej := revN_revN k j hj
      rcases h2 with h2 | h2
      · subst h2; omega
      · rw [h2, ej] at heq; omega
    · have := r1 (revN k i) (Nat.zero_le _) (revN_lt k i) i ⟨by rw [ei]; exact hgt, Or.inr ei.symm⟩
      rw [this, if_neg (by omega)]
  refine ⟨key, fun i hi => r2 i ?_⟩
  rintro j - hj ⟨h1, h2⟩
  have := revN_lt k j
  omega

/-! ## One stage -/

/-- The cells of iteration `i` of a stage with half block `M`. -/
def bfCells (M i c : Nat) : Prop := c = i / M * (M * 2) + i % M ∨ c = i / M * (M * 2) + i % M + M

theorem bf_dis {M N : Nat} (hM : 0 < M) : ∀ i j c, 0 ≤ i → i < N → 0 ≤ j → j < N → bfCells M i c → bfCells M j c → i = j := by
  have hmod : ∀ i, i % M < M := fun i => Nat.mod_lt i hM
  have hinv : ∀ B j r, j < M → (r = 0 ∨ r = M) → (B * (M * 2) + j + r) / (M * 2) = B ∧ (B * (M * 2) + j + r) % (M * 2) = j + r := by
    intro B j r hj hr
    constructor
    · rw [add_assoc, mul_comm B, Nat.mul_add_div (by omega), Nat.div_eq_of_lt (by omega), Nat.add_zero]
    · rw [add_assoc, mul_comm B, Nat.mul_add_mod, Nat.mod_eq_of_lt (by omega)]
  rintro i j c - - - - h1 h2
  have hi : ∃ r, (r = 0 ∨ r = M) ∧ c = i / M * (M * 2) + i % M + r := by
    rcases h1 with h1 | h1
    · exact ⟨0, Or.inl rfl, h1⟩
    · exact ⟨M, Or.inr rfl, h1⟩
  have hj : ∃ r, (r = 0 ∨ r = M) ∧ c = j / M * (M * 2) + j % M + r := by
    rcases h2 with h1 | h1
    · exact ⟨0, Or.inl rfl, h1⟩
    · exact ⟨M, Or.inr rfl, h1⟩
  obtain ⟨r, hr, er⟩ := hi
  obtain ⟨r', hr', er'⟩ := hj
  have a1 := hinv (i / M) (i % M) r (hmod i) hr
  have a2 := hinv (j / M) (j % M) r' (hmod j) hr'
  rw [← er] at a1
  rw [← er'] at a2
  have b1 : i / M = j / M := by rw [← a1.1, a2.1]
  have b2 : i % M = j % M := by
    have := a1.2.symm.trans a2.2
    have := hmod i
    have := hmod j
    omega
  rw [← Nat.div_add_mod i M, ← Nat.div_add_mod j M, b1, b2]

theorem bf_foot {F : Obj K} {s M : Nat} (hb : ∀ i, butterfly F (s + 1) i =
      [fun (l, a) => ({ l with t := F.root (s + 1) (i % M) * a (i / M * (M * 2) + i % M + M) }, a),
       fun (l, a) => ({ l with u := a (i / M * (M * 2) + i % M) }, a),
       fun (l, a) => (l, Function.update a (i / M * (M * 2) + i % M) (l.t + l.u)),
       fun (l, a) => (l, Function.update a (i / M * (M * 2) + i % M + M) (l.u - l.t))]) :
    ∀ i, ∀ a ∈ butterfly F (s + 1) i, Foot (bfCells M i) (fun _ => False) a := by
  intro i a ha
  rw [hb] at ha
  simp only [List.mem_cons, List.not_mem_nil, or_false] at ha
  rcases ha with rfl | rfl | rfl | rfl
  · exact foot_read (f := fun (l : Loc K) a => { l with t := F.root (s + 1) (i % M) * a (i / M * (M * 2) + i % M + M) })
      fun l m m' hm => by simp only [hm _ (Or.inl (Or.inr rfl))]
  · exact foot_read (f := fun (l : Loc K) a => { l with u := a (i / M * (M * 2) + i % M) }) fun l m m' hm => by
      simp only [hm _ (Or.inl (Or.inl rfl))]
  · exact foot_write (v := fun (l : Loc K) _ => l.t + l.u) (Or.inl rfl) fun l m m' hm => rfl
  · exact foot_write (v := fun (l : Loc K) _ => l.u - l.t) (Or.inr rfl) fun l m m' hm => rfl

theorem bf_eq (F : Obj K) (s i : Nat) : butterfly F (s + 1) i =
      [fun (l, a) => ({ l with t := F.root (s + 1) (i % 2 ^ s) * a (i / 2 ^ s * (2 ^ s * 2) + i % 2 ^ s + 2 ^ s) }, a),
       fun (l, a) => ({ l with u := a (i / 2 ^ s * (2 ^ s * 2) + i % 2 ^ s) }, a),
       fun (l, a) => (l, Function.update a (i / 2 ^ s * (2 ^ s * 2) + i % 2 ^ s) (l.t + l.u)),
       fun (l, a) => (l, Function.update a (i / 2 ^ s * (2 ^ s * 2) + i % 2 ^ s + 2 ^ s) (l.u - l.t))] := by
  have e1 : (2 ^ s * 2) >>> 1 = 2 ^ s := by
    rw [Nat.shiftRight_eq_div_pow]; simp
  have e2 : 1 <<< (s + 1) = 2 ^ s * 2 := by rw [Nat.shiftLeft_eq, one_mul, pow_succ]
  unfold butterfly; simp only [e1, e2]

theorem stage_spec {F : Obj K} {T k s : Nat} (hT : 0 < T) (hs : 1 ≤ s) (hsk : s ≤ k) {m m' : Nat → K}
    (h : ParFor T 0 (2 ^ (k - 1) : Nat) (butterfly F s) m m') :
    (∀ B < 2 ^ (k - s), ∀ j < 2 ^ (s - 1),
      m' (B * 2 ^ s + j) = F.root s j * m (B * 2 ^ s + j + 2 ^ (s - 1)) + m (B * 2 ^ s + j) ∧
      m' (B * 2 ^ s + j + 2 ^ (s - 1)) = m (B * 2 ^ s + j) - F.root s j * m (B * 2 ^ s + j + 2 ^ (s - 1))) ∧
    ∀ i, 2 ^ k ≤ i → m' i = m i := by
  obtain ⟨s, rfl⟩ : ∃ s', s = s' + 1 := ⟨s - 1, by omega⟩
  have e5 : 2 ^ (s + 1) = 2 ^ s * 2 := pow_succ 2 s
  simp only [Nat.add_sub_cancel, e5]
  have hM : 0 < 2 ^ s := Nat.two_pow_pos s
  have e3 : 2 ^ (k - 1) = 2 ^ (k - (s + 1)) * 2 ^ s := by rw [← pow_add]; congr 1; omega
  have e4 : 2 ^ k = 2 ^ (k - (s + 1)) * (2 ^ s * 2) := by rw [← pow_succ, ← pow_add]; congr 1; omega
  have hdm : ∀ B j, j < 2 ^ s → (B * 2 ^ s + j) / 2 ^ s = B ∧ (B * 2 ^ s + j) % 2 ^ s = j := by
    intro B j hj
    constructor
    · rw [mul_comm, Nat.mul_add_div hM, Nat.div_eq_of_lt hj, Nat.add_zero]
    · rw [mul_comm, Nat.mul_add_mod, Nat.mod_eq_of_lt hj]
  have hb := bf_eq F s
  generalize 2 ^ s = M at *
  generalize 2 ^ (k - (s + 1)) = N at *
  have hmod : ∀ i, i % M < M := fun i => Nat.mod_lt i hM
  obtain ⟨r1, r2⟩ := parFor_spec' (lo := 0) (hi := 2 ^ (k - 1)) (prog := butterfly F (s + 1)) (m := m) (m' := m') hT (Nat.two_pow_pos _)
    (G := bfCells M) (RO := fun _ => False)
    (res := fun i m c => if c = i / M * (M * 2) + i % M then
        F.root (s + 1) (i % M) * m (i / M * (M * 2) + i % M + M) + m (i / M * (M * 2) + i % M)
      else m (i / M * (M * 2) + i % M) - F.root (s + 1) (i % M) * m (i / M * (M * 2) + i % M + M))
    (bf_dis hM)
    (fun _ _ _ _ _ h => h)
    (fun i _ _ => bf_foot hb i)
    (by
      intro i l m c _ _ h2
      rw [hb]
      simp only [solo, List.foldl_cons, List.foldl_nil]
      rcases h2 with rfl | rfl
      · rw [Function.update_of_ne (by omega), Function.update_self, if_pos rfl]
      · rw [Function.update_self, if_neg (by omega)])
    (by exact_mod_cast h)
  refine ⟨fun B hB j hj => ?_, fun i hi => r2 i ?_⟩
  · obtain ⟨d1, d2⟩ := hdm B j hj
    have hlt : B * M + j < 2 ^ (k - 1) := by
      rw [e3]
      calc B * M + j < B * M + M := by omega
        _ = (B + 1) * M := by ring
        _ ≤ N * M := Nat.mul_le_mul_right _ hB
    have g1 := r1 (B * M + j) (Nat.zero_le _) hlt (B * (M * 2) + j) (Or.inl (by rw [d1, d2]))
    have g2 := r1 (B * M + j) (Nat.zero_le _) hlt (B * (M * 2) + j + M) (Or.inr (by rw [d1, d2]))
    simp only [d1, d2, if_true] at g1 g2
    rw [if_neg (by omega)] at g2
    exact ⟨g1, g2⟩
  · rintro j - hj hc
    unfold bfCells at hc
    have h1 : j / M < N := by rw [e3] at hj; exact Nat.div_lt_of_lt_mul (by rwa [mul_comm])
    have h2 : (j / M + 1) * (M * 2) ≤ N * (M * 2) := Nat.mul_le_mul_right _ h1
    rw [add_mul, one_mul] at h2
    have := hmod j
    rw [e4] at hi
    omega

/-! ## The transform -/

/-- What the constructor leaves in the object: the powers of a primitive root of unity and the inverse powers of two. -/
structure Table (F : Obj K) (ω : K) : Prop where
  prim : IsPrimitiveRoot ω (2 ^ F.s)
  roots : ∀ i < 2 ^ F.s, F.roots i = ω ^ i
  inv : ∀ i ≤ F.s, F.powTwoInv i * 2 ^ i = 1

theorem prim_half {ω : K} {S : Nat} (h : IsPrimitiveRoot ω (2 ^ (S + 1))) : ω ^ 2 ^ S = -1 := by
  have h1 : (ω ^ 2 ^ S) ^ 2 = 1 := by rw [← pow_mul, ← pow_succ]; exact h.pow_eq_one
  have h2 : ω ^ 2 ^ S ≠ 1 := by
    intro he
    have := h.dvd_of_pow_eq_one _ he
    exact absurd (Nat.le_of_dvd (Nat.two_pow_pos S) this) (by rw [pow_succ]; have := Nat.two_pow_pos S; omega)
  have h3 : (ω ^ 2 ^ S - 1) * (ω ^ 2 ^ S + 1) = 0 := by linear_combination h1
  rcases mul_eq_zero.1 h3 with h | h
  · exact absurd (sub_eq_zero.1 h) h2
  · exact eq_neg_of_add_eq_zero_left h

theorem root_eq {F : Obj K} {ω : K} (h : Table F ω) {s j : Nat} (hs : s ≤ F.s) (hj : j < 2 ^ s) :
    F.root s j = (ω ^ 2 ^ (F.s - s)) ^ j := by
  unfold Obj.root
  have e : j <<< (F.s - s) = 2 ^ (F.s - s) * j := by rw [Nat.shiftLeft_eq, mul_comm]
  rw [e, h.roots, pow_mul]
  calc 2 ^ (F.s - s) * j < 2 ^ (F.s - s) * 2 ^ s := Nat.mul_lt_mul_of_pos_left hj (Nat.two_pow_pos _)
    _ = 2 ^ F.s := by rw [← pow_add]; congr 1; omega

theorem sum_even_odd (f : Nat → K) (n : Nat) : ∑ t ∈ Finset.range (n * 2), f t = ∑ t ∈ Finset.range n, (f (2 * t) + f (2 * t + 1)) := by
  induction n with
  | zero => simp
  | succ n ih =>
    rw [show (n + 1) * 2 = n * 2 + 1 + 1 by ring, Finset.sum_range_succ, Finset.sum_range_succ, Finset.sum_range_succ, ih, mul_comm n 2]
    ring

/-- The state between stages: every block of `2 ^ s` cells holds the transform of one residue class of the input. -/
def Inv (ω : K) (S k : Nat) (x : Nat → K) (s : Nat) (m : Nat → K) : Prop :=
  ∀ B < 2 ^ (k - s), ∀ j < 2 ^ s,
    m (B * 2 ^ s + j) = ∑ t ∈ Finset.range (2 ^ s), x (t * 2 ^ (k - s) + revN (k - s) B) * (ω ^ 2 ^ (S - s)) ^ (j * t)

theorem inv_step {F : Obj K} {ω : K} (h : Table F ω) {T k s : Nat} (hT : 0 < T) (hsk : s + 1 ≤ k) (hsS : s + 1 ≤ F.s) {x m m' : Nat → K}
    (hi : Inv ω F.s k x s m) (hp : ParFor T 0 (2 ^ (k - 1) : Nat) (butterfly F (s + 1)) m m') : Inv ω F.s k x (s + 1) m' := by
  obtain ⟨h1, _⟩ := stage_spec hT (by omega) hsk hp
  simp only [Nat.add_sub_cancel] at h1
  -- the roots of two consecutive stages
  have ew : ω ^ 2 ^ (F.s - s) = (ω ^ 2 ^ (F.s - (s + 1))) ^ 2 := by
    rw [← pow_mul, ← pow_succ]; congr 2; omega
  have hhalf : (ω ^ 2 ^ (F.s - (s + 1))) ^ 2 ^ s = -1 := by
    rw [← pow_mul, ← pow_add, show F.s - (s + 1) + s = F.s - 1 by omega]
    have hp := h.prim
    obtain ⟨S, hS⟩ : ∃ S, F.s = S + 1 := ⟨F.s - 1, by omega⟩
    rw [hS] at hp ⊢
    exact prim_half hp
  obtain ⟨w, hw⟩ : ∃ w, k - s = w + 1 := ⟨k - s - 1, by omega⟩
  have hw' : k - (s + 1) = w := by omega
  unfold Inv at hi ⊢
  rw [hw] at hi
  rw [hw'] at h1 ⊢
  rw [ew] at hi
  have hroot : ∀ j < 2 ^ s, F.root (s + 1) j = (ω ^ 2 ^ (F.s - (s + 1))) ^ j := fun j hj =>
    root_eq h hsS (lt_trans hj (Nat.pow_lt_pow_right (by norm_num) (by omega)))
  generalize ω ^ 2 ^ (F.s - (s + 1)) = v at *
  have hlo : ∀ B < 2 ^ w, ∀ j < 2 ^ s, m (B * 2 ^ (s + 1) + j) =
      ∑ t ∈ Finset.range (2 ^ s), x (2 * t * 2 ^ w + revN w B) * v ^ (2 * t * j) := by
    intro B hB j hj
    have := hi (2 * B) (by rw [pow_succ]; omega) j hj
    rw [show 2 * B * 2 ^ s + j = B * 2 ^ (s + 1) + j by rw [pow_succ]; ring] at this
    rw [this]
    apply Finset.sum_congr rfl
    intro t _
    have e1 : revN (w + 1) (2 * B) = revN w B := by simp [revN]
    rw [e1, ← pow_mul]
    congr 2
    · rw [pow_succ]; ring
    · ring
  have hhi : ∀ B < 2 ^ w, ∀ j < 2 ^ s, m (B * 2 ^ (s + 1) + j + 2 ^ s) =
      ∑ t ∈ Finset.range (2 ^ s), x ((2 * t + 1) * 2 ^ w + revN w B) * v ^ (2 * t * j) := by
    intro B hB j hj
    have := hi (2 * B + 1) (by rw [pow_succ]; omega) j hj
    rw [show (2 * B + 1) * 2 ^ s + j = B * 2 ^ (s + 1) + j + 2 ^ s by rw [pow_succ]; ring] at this
    rw [this]
    apply Finset.sum_congr rfl
    intro t _
    have e1 : revN (w + 1) (2 * B + 1) = 2 ^ w + revN w B := by
      simp only [revN]
      rw [show (2 * B + 1) % 2 = 1 by omega, show (2 * B + 1) / 2 = B by omega, one_mul]
    rw [e1, ← pow_mul]
    congr 2
    · rw [pow_succ]; ring
    · ring
  intro B hB j hj
  rw [show 2 ^ (s + 1) = 2 ^ s * 2 from pow_succ 2 s, sum_even_odd, ← pow_succ]
  by_cases hjs : j < 2 ^ s
  · rw [(h1 B hB j hjs).1, hlo B hB j hjs, hhi B hB j hjs, hroot j hjs, Finset.mul_sum, ← Finset.sum_add_distrib]
    apply Finset.sum_congr rfl
    intro t _
    rw [show j * (2 * t + 1) = 2 * t * j + j by ring, show j * (2 * t) = 2 * t * j by ring, pow_add]
    ring
  · obtain ⟨i, rfl⟩ : ∃ i, j = i + 2 ^ s := ⟨j - 2 ^ s, by omega⟩
    have hi' : i < 2 ^ s := by rw [pow_succ] at hj; omega
    rw [← add_assoc, (h1 B hB i hi').2, hlo B hB i hi', hhi B hB i hi', hroot i hi', Finset.mul_sum, ← Finset.sum_sub_distrib]
    apply Finset.sum_congr rfl
    intro t _
    have e1 : v ^ ((i + 2 ^ s) * (2 * t)) = v ^ (2 * t * i) := by
      rw [show (i + 2 ^ s) * (2 * t) = 2 * t * i + 2 ^ s * (2 * t) by ring, pow_add, pow_mul v (2 ^ s), hhalf, pow_mul]
      simp
    have e2 : v ^ ((i + 2 ^ s) * (2 * t + 1)) = -(v ^ i * v ^ (2 * t * i)) := by
      rw [show (i + 2 ^ s) * (2 * t + 1) = i + 2 * t * i + (2 ^ s * (2 * t) + 2 ^ s) by ring, pow_add, pow_add v (2 ^ s * _),
        pow_mul v (2 ^ s), hhalf, pow_mul, pow_add]
      simp
    rw [e1, e2]; ring

theorem stages_spec {F : Obj K} {ω : K} (h : Table F ω) {T k : Nat} (hT : 0 < T) (hk : k ≤ 30) {x m' : Nat → K} :
    ∀ d s m, s + d = k → Inv ω F.s k x s m → Stages F T (2 ^ k) (List.range' (s + 1) d) m m' →
      Inv ω F.s k x k m' ∧ ∀ i, 2 ^ k ≤ i → m' i = m i := by
  intro d
  induction d with
  | zero =>
    intro s m hs hi hst
    simp only [List.range'_zero, Stages] at hst
    subst hst
    rw [show s = k by omega] at hi
    exact ⟨hi, fun _ _ => rfl⟩
  | succ d ih =>
    intro s m hs hi hst
    simp only [List.range'_succ, Stages, Stage] at hst
    obtain ⟨m1, ⟨_, _, hp⟩, hrest⟩ := hst
    have e : toInt32 (2 ^ k >>> 1) = ((2 ^ (k - 1) : Nat) : Int) := by
      have e1 : 2 ^ k >>> 1 = 2 ^ (k - 1) := by
        rw [Nat.shiftRight_eq_div_pow, Nat.pow_div (by omega) (by norm_num)]
      rw [e1, toInt32_eq (Nat.pow_lt_pow_right (by norm_num) (by omega))]
    rw [e] at hp
    obtain ⟨g1, g2⟩ := ih (s + 1) m1 (by omega) (inv_step h hT (by omega) (by omega) hi hp) hrest
    exact ⟨g1, fun i hi' => (g2 i hi').trans ((stage_spec hT (by omega) (by omega) hp).2 i hi')⟩

theorem fftLog2_two_pow {k : Nat} (hk : k < 64) : fftLog2 (BitVec.ofNat 64 (2 ^ k)) = some k := by
  have hlt : 2 ^ k < 2 ^ 64 := Nat.pow_lt_pow_right (by norm_num) hk
  have e : (BitVec.ofNat 64 (2 ^ k)).toNat = 2 ^ k := by rw [BitVec.toNat_ofNat, Nat.mod_eq_of_lt hlt]
  rw [fftLog2_eq _ (by intro h; rw [h] at e; exact (Nat.two_pow_pos k).ne e), e, Nat.log2_two_pow]

theorem ofNat_toNat {k : Nat} (hk : k < 64) : (BitVec.ofNat 64 (2 ^ k)).toNat = 2 ^ k := by
  rw [BitVec.toNat_ofNat, Nat.mod_eq_of_lt (Nat.pow_lt_pow_right (by norm_num) hk)]

/-- Every run of `fft` ends with the transform of the first `2 ^ k` cells and leaves the others alone. -/
theorem fft_spec {F : Obj K} {ω : K} (h : Table F ω) {T k : Nat} (hT : 0 < T) (hk : k ≤ 30) {m m' : Nat → K}
    (hr : FftRun F T (BitVec.ofNat 64 (2 ^ k)) m m') :
    (∀ i < 2 ^ k, m' i = ∑ t ∈ Finset.range (2 ^ k), m t * (ω ^ 2 ^ (F.s - k)) ^ (i * t)) ∧ ∀ i, 2 ^ k ≤ i → m' i = m i := by
  obtain ⟨m1, ⟨k1, hk1, hrev⟩, k2, hk2, _, hst⟩ := hr
  rw [fftLog2_two_pow (by omega)] at hk1 hk2
  obtain rfl := Option.some.inj hk1
  obtain rfl := Option.some.inj hk2
  rw [ofNat_toNat (by omega)] at hrev hst
  rw [toInt32_eq (Nat.pow_lt_pow_right (by norm_num) (by omega))] at hrev
  obtain ⟨r1, r2⟩ := rev_spec hT hk hrev
  have hinv : Inv ω F.s k m 0 m1 := by
    intro B hB j hj
    simp only [Nat.sub_zero, pow_zero, Nat.lt_one_iff] at hB hj ⊢
    subst hj
    simp [r1 B hB]
  obtain ⟨g1, g2⟩ := stages_spec h hT hk k 0 m1 (by omega) hinv hst
  refine ⟨fun i hi => ?_, fun i hi => (g2 i hi).trans (r2 i hi)⟩
  have := g1 0 (Nat.two_pow_pos _) i hi
  simpa [revN] using this

/-- `fft` has a run, for any number of threads. -/
theorem fft_exists (F : Obj K) {T k : Nat} (hT : 0 < T) (hT31 : T < 2 ^ 31) (hk : k ≤ 30) (hkS : k ≤ F.s) (m : Nat → K) :
    ∃ m', FftRun F T (BitVec.ofNat 64 (2 ^ k)) m m' := by
  have hstages : ∀ d s m, s + d = k → ∃ m', Stages F T (2 ^ k) (List.range' (s + 1) d) m m' := by
    intro d
    induction d with
    | zero => intro s m _; exact ⟨m, rfl⟩
    | succ d ih =>
      intro s m hs
      have e : toInt32 (2 ^ k >>> 1) = ((2 ^ (k - 1) : Nat) : Int) := by
        have e1 : 2 ^ k >>> 1 = 2 ^ (k - 1) := by
          rw [Nat.shiftRight_eq_div_pow, Nat.pow_div (by omega) (by norm_num)]
        rw [e1, toInt32_eq (Nat.pow_lt_pow_right (by norm_num) (by omega))]
      obtain ⟨m1, h1⟩ := parFor_exists (lo := 0) (hi := 2 ^ (k - 1)) (butterfly F (s + 1)) (⟨0, 0⟩ : Loc K) m hT hT31 (Nat.two_pow_pos _)
        (Nat.pow_lt_pow_right (by norm_num) (by omega))
      obtain ⟨m2, h2⟩ := ih (s + 1) m1 (by omega)
      exact ⟨m2, m1, ⟨by omega, by omega, by rw [e]; exact_mod_cast h1⟩, h2⟩
  obtain ⟨m1, h1⟩ := parFor_exists (lo := 0) (hi := 2 ^ k) (revIter k) (⟨0, 0⟩ : Loc K) m hT hT31 (Nat.two_pow_pos _)
    (Nat.pow_lt_pow_right (by norm_num) (by omega))
  obtain ⟨m2, h2⟩ := hstages k 0 m1 (by omega)
  refine ⟨m2, m1, ⟨k, fftLog2_two_pow (by omega), ?_⟩, k, fftLog2_two_pow (by omega), ?_, ?_⟩
  · rw [ofNat_toNat (by omega), toInt32_eq (Nat.pow_lt_pow_right (by norm_num) (by omega))]
    exact_mod_cast h1
  · apply BitVec.eq_of_toNat_eq
    rw [ofNat_toNat (by omega), BitVec.toNat_shiftLeft, Nat.shiftLeft_eq]
    simp only [BitVec.toNat_ofNat]
    rw [Nat.mod_eq_of_lt (a := 1) (by norm_num), one_mul, Nat.mod_eq_of_lt (Nat.pow_lt_pow_right (by norm_num) (by omega))]
  · rw [ofNat_toNat (by omega)]; exact h2

/-! ## The inverse transform -/

theorem ifft_foot {F : Obj K} {n k : Nat} : ∀ i, 1 ≤ i → i < n / 2 → ∀ a ∈ ifftIter F n k i, Foot (fun c => c = i ∨ c = n - i) (fun _ => False) a := by
  intro i _ _ a ha
  unfold ifftIter at ha
  simp only [List.mem_cons, List.not_mem_nil, or_false] at ha
  rcases ha with rfl | rfl | rfl
  · exact foot_read (f := fun (l : Loc K) a => { l with t := a i }) fun l m m' hm => by simp only [hm _ (Or.inl (Or.inl rfl))]
  · exact foot_write (v := fun (_ : Loc K) a => a (n - i) * F.powTwoInv k) (Or.inl rfl) fun l m m' hm => by
      simp only [hm _ (Or.inl (Or.inr rfl))]
  · exact foot_write (v := fun (l : Loc K) _ => l.t * F.powTwoInv k) (Or.inr rfl) fun l m m' hm => rfl

theorem ifftLoop_spec {F : Obj K} {T n k : Nat} (hT : 0 < T) (hn : 4 ≤ n) (he : n % 2 = 0) {m m' : Nat → K}
    (h : ParFor T 1 (n / 2 : Nat) (ifftIter F n k) m m') :
    (∀ i, 1 ≤ i → i < n → i ≠ n / 2 → m' i = m (n - i) * F.powTwoInv k) ∧ ∀ i, (i = 0 ∨ i = n / 2 ∨ n ≤ i) → m' i = m i := by
  obtain ⟨r1, r2⟩ := parFor_spec' (lo := 1) (hi := n / 2) (prog := ifftIter F n k) (m := m) (m' := m') hT (by omega)
    (G := fun i c => c = i ∨ c = n - i) (RO := fun _ => False)
    (res := fun i m c => if c = i then m (n - i) * F.powTwoInv k else m i * F.powTwoInv k)
    (by intro i j c h1 h2 h3 h4 h5 h6; omega) (fun _ _ _ _ _ h => h)
    ifft_foot
    (by
      intro i l m c h1 h2 h3
      unfold ifftIter
      simp only [solo, List.foldl_cons, List.foldl_nil]
      rcases h3 with rfl | rfl
      · rw [Function.update_of_ne (by omega), Function.update_self, if_pos rfl]
      · rw [Function.update_self, if_neg (by omega)])
    (by exact_mod_cast h)
  refine ⟨fun i h1 h2 h3 => ?_, fun i hi => r2 i ?_⟩
  · by_cases hlt : i < n / 2
    · rw [r1 i h1 hlt i (Or.inl rfl), if_pos rfl]
    · rw [r1 (n - i) (by omega) (by omega) i (Or.inr (by omega)), if_neg (by omega)]
  · intro j h1 h2 h3; omega

/-- Every run of `ifft` on at least four cells: the transform with the inverse root, divided by the size. -/
theorem ifft_spec {F : Obj K} {ω : K} (h : Table F ω) {T k : Nat} (hT : 0 < T) (hk2 : 2 ≤ k) (hk : k ≤ 30) (hkS : k ≤ F.s) {m m' : Nat → K}
    (hr : IfftRun F T (BitVec.ofNat 64 (2 ^ k)) m m') :
    (∀ i < 2 ^ k, m' i = (∑ t ∈ Finset.range (2 ^ k), m t * ((ω ^ 2 ^ (F.s - k))⁻¹) ^ (i * t)) / 2 ^ k) ∧
    ∀ i, 2 ^ k ≤ i → m' i = m i := by
  obtain ⟨m1, hf, k1, hk1, m2, hp, he⟩ := hr
  rw [fftLog2_two_pow (by omega)] at hk1
  obtain rfl := Option.some.inj hk1
  rw [ofNat_toNat (by omega)] at hp he
  have e1 : 2 ^ k >>> 1 = 2 ^ k / 2 := by rw [Nat.shiftRight_eq_div_pow]
  have h4 : 4 ≤ 2 ^ k := le_trans (by norm_num) (Nat.pow_le_pow_right (show 0 < 2 by norm_num) hk2)
  have hlt : 2 ^ k < 2 ^ 31 := Nat.pow_lt_pow_right (by norm_num) (by omega)
  have hev : 2 ^ k % 2 = 0 := by
    obtain ⟨d, rfl⟩ : ∃ d, k = d + 1 := ⟨k - 1, by omega⟩
    rw [pow_succ]; omega
  rw [e1, toInt32_eq (by omega)] at hp
  rw [e1] at he
  obtain ⟨l1, l2⟩ := ifftLoop_spec hT h4 hev (by exact_mod_cast hp)
  obtain ⟨f1, f2⟩ := fft_spec h hT hk hf
  have hinv := h.inv k hkS
  have h2k : (2 : K) ^ k ≠ 0 := by intro hz; rw [hz, mul_zero] at hinv; exact zero_ne_one hinv
  have hpi : F.powTwoInv k = ((2 : K) ^ k)⁻¹ := by field_simp; exact hinv
  -- the root of order `2 ^ k`
  have hv : (ω ^ 2 ^ (F.s - k)) ^ 2 ^ k = 1 := by
    rw [← pow_mul, ← pow_add, show F.s - k + k = F.s by omega]; exact h.prim.pow_eq_one
  have hv0 : ω ^ 2 ^ (F.s - k) ≠ 0 := by
    intro hz; rw [hz, zero_pow (by omega)] at hv; exact zero_ne_one hv
  generalize ω ^ 2 ^ (F.s - k) = v at *
  subst he
  have hgoal : ∀ i c, i < 2 ^ k → c < 2 ^ k → (c + i) % 2 ^ k = 0 →
      m1 c * F.powTwoInv k = (∑ t ∈ Finset.range (2 ^ k), m t * (v⁻¹) ^ (i * t)) / 2 ^ k := by
    intro i c hi hc hci
    rw [f1 c hc, hpi, ← div_eq_mul_inv]
    congr 1
    apply Finset.sum_congr rfl
    intro t _
    congr 1
    rw [inv_pow]
    refine eq_inv_of_mul_eq_one_left ?_
    rw [← pow_add, ← add_mul]
    obtain ⟨d, hd⟩ := Nat.dvd_of_mod_eq_zero hci
    rw [hd, pow_mul, pow_mul, hv, one_pow, one_pow]
  refine ⟨fun i hi => ?_, fun i hi => ?_⟩
  · by_cases h0 : i = 0
    · subst h0
      rw [Function.update_of_ne (by omega), Function.update_self, l2 0 (Or.inl rfl)]
      exact hgoal 0 0 hi hi (by simp)
    · by_cases hh : i = 2 ^ k / 2
      · subst hh
        rw [Function.update_self, Function.update_of_ne (by omega), l2 _ (Or.inr (Or.inl rfl))]
        exact hgoal _ _ hi hi (by rw [show 2 ^ k / 2 + 2 ^ k / 2 = 2 ^ k by omega]; exact Nat.mod_self _)
      · rw [Function.update_of_ne hh, Function.update_of_ne h0, l1 i (by omega) hi hh]
        exact hgoal i (2 ^ k - i) hi (by omega) (by rw [show 2 ^ k - i + i = 2 ^ k by omega]; exact Nat.mod_self _)
  · rw [Function.update_of_ne (by omega), Function.update_of_ne (by omega), l2 i (Or.inr (Or.inr hi)), f2 i hi]

theorem ifft_exists (F : Obj K) {T k : Nat} (hT : 0 < T) (hT31 : T < 2 ^ 31) (hk2 : 2 ≤ k) (hk : k ≤ 30) (hkS : k ≤ F.s) (m : Nat → K) :
    ∃ m', IfftRun F T (BitVec.ofNat 64 (2 ^ k)) m m' := by
  obtain ⟨m1, h1⟩ := fft_exists F hT hT31 hk hkS m
  have h4 : 4 ≤ 2 ^ k := le_trans (by norm_num) (Nat.pow_le_pow_right (show 0 < 2 by norm_num) hk2)
  have hlt : 2 ^ k < 2 ^ 31 := Nat.pow_lt_pow_right (by norm_num) (by omega)
  obtain ⟨m2, h2⟩ := parFor_exists (lo := 1) (hi := 2 ^ k / 2) (ifftIter F (2 ^ k) k) (⟨0, 0⟩ : Loc K) m1 hT hT31 (by omega) (by omega)
  refine ⟨_, m1, h1, k, fftLog2_two_pow (by omega), m2, ?_, rfl⟩
  rw [ofNat_toNat (by omega), show 2 ^ k >>> 1 = 2 ^ k / 2 by rw [Nat.shiftRight_eq_div_pow], toInt32_eq (by omega)]
  exact_mod_cast h2

/-- Sums of powers of a root of unity. -/
theorem orth {v : K} {n : Nat} (hn : 0 < n) (hp : IsPrimitiveRoot v n) {s t : Nat} (hs : s < n) (ht : t < n) :
    ∑ i ∈ Finset.range n, v ^ (i * s) * v⁻¹ ^ (i * t) = if s = t then (n : K) else 0 := by
  have hv0 : v ≠ 0 := hp.ne_zero (by omega)
  have e : ∀ i, v ^ (i * s) * v⁻¹ ^ (i * t) = (v ^ s * (v ^ t)⁻¹) ^ i := by
    intro i
    rw [mul_pow, inv_pow, inv_pow, ← pow_mul, ← pow_mul, mul_comm i s, mul_comm i t]
  simp only [e]
  by_cases h : s = t
  · subst h
    rw [if_pos rfl, mul_inv_cancel₀ (pow_ne_zero _ hv0)]
    simp
  · rw [if_neg h]
    have hne : v ^ s * (v ^ t)⁻¹ ≠ 1 := by
      intro he
      rw [mul_inv_eq_one₀ (pow_ne_zero _ hv0)] at he
      exact h (hp.pow_inj hs ht he)
    have hpow : (v ^ s * (v ^ t)⁻¹) ^ n = 1 := by
      rw [mul_pow, inv_pow, ← pow_mul, ← pow_mul, mul_comm s n, mul_comm t n, pow_mul, pow_mul, hp.pow_eq_one]; simp
    rw [geom_sum_eq hne, hpow]; simp

/-- The two sums are inverse to each other. -/
theorem dft_inv {v : K} {n : Nat} (hn : 0 < n) (hp : IsPrimitiveRoot v n) (hnK : (n : K) ≠ 0) (x : Nat → K) {t : Nat} (ht : t < n) :
    (∑ i ∈ Finset.range n, (∑ s ∈ Finset.range n, x s * v ^ (i * s)) * v⁻¹ ^ (t * i)) / n = x t := by
  have : ∑ i ∈ Finset.range n, (∑ s ∈ Finset.range n, x s * v ^ (i * s)) * v⁻¹ ^ (t * i) = x t * n := by
    simp only [Finset.sum_mul]
    rw [Finset.sum_comm]
    have : ∀ s ∈ Finset.range n, ∑ i ∈ Finset.range n, x s * v ^ (i * s) * v⁻¹ ^ (t * i) = if s = t then x t * n else 0 := by
      intro s hs
      have e := orth hn hp (Finset.mem_range.1 hs) ht
      have e2 : ∑ i ∈ Finset.range n, x s * v ^ (i * s) * v⁻¹ ^ (t * i) = x s * ∑ i ∈ Finset.range n, v ^ (i * s) * v⁻¹ ^ (i * t) := by
        rw [Finset.mul_sum]; apply Finset.sum_congr rfl; intro i _; rw [mul_comm t i]; ring
      rw [e2, e]
      by_cases h : s = t
      · subst h; simp
      · simp [h]
    rw [Finset.sum_congr rfl this, Finset.sum_ite_eq' (Finset.range n) t]
    simp [ht]
  rw [this]; field_simp

/-- Both directions, from the contents of the table. -/
theorem table_inverse {F : Obj K} {ω : K} (ht : Table F ω) (k : Nat) (hk : k ≤ F.s) (hk30 : k ≤ 30) (hk2 : 2 ≤ k) {T' : Nat} (hT' : 0 < T')
    (hT31 : T' < 2 ^ 31) (m : Nat → K) :
    (∃ m', IfftRun F T' (BitVec.ofNat 64 (2 ^ k)) m m') ∧
    (∀ m1 m2, FftRun F T' (BitVec.ofNat 64 (2 ^ k)) m m1 → IfftRun F T' (BitVec.ofNat 64 (2 ^ k)) m1 m2 → m2 = m) ∧
    (∀ m1 m2, IfftRun F T' (BitVec.ofNat 64 (2 ^ k)) m m1 → FftRun F T' (BitVec.ofNat 64 (2 ^ k)) m1 m2 → m2 = m) := by
  have hprim : IsPrimitiveRoot (ω ^ 2 ^ (F.s - k)) (2 ^ k) := by
    refine ht.prim.pow (Nat.two_pow_pos _) ?_
    rw [← pow_add]; congr 1; omega
  have h2k : ((2 ^ k : Nat) : K) ≠ 0 := by
    have := ht.inv k hk
    intro hz
    push_cast at hz
    rw [hz, mul_zero] at this
    exact zero_ne_one this
  refine ⟨ifft_exists F hT' hT31 hk2 hk30 hk m, fun m1 m2 h1 h2 => ?_, fun m1 m2 h1 h2 => ?_⟩
  · obtain ⟨f1, f2⟩ := fft_spec ht hT' hk30 h1
    obtain ⟨g1, g2⟩ := ifft_spec ht hT' hk2 hk30 hk h2
    funext t
    by_cases htk : t < 2 ^ k
    · rw [g1 t htk, ← dft_inv (Nat.two_pow_pos k) hprim h2k m htk]
      push_cast
      congr 1
      apply Finset.sum_congr rfl
      intro i hi
      rw [f1 i (Finset.mem_range.1 hi)]
    · rw [g2 t (by omega), f2 t (by omega)]
  · obtain ⟨f1, f2⟩ := fft_spec ht hT' hk30 h2
    obtain ⟨g1, g2⟩ := ifft_spec ht hT' hk2 hk30 hk h1
    funext t
    by_cases htk : t < 2 ^ k
    · rw [f1 t htk, ← dft_inv (Nat.two_pow_pos k) hprim.inv h2k m htk, div_eq_mul_inv, Finset.sum_mul]
      push_cast
      apply Finset.sum_congr rfl
      intro i hi
      rw [g1 i (Finset.mem_range.1 hi), inv_inv]
      ring
    · rw [f2 t (by omega), g2 t (by omega)]

end FF.Fft
