import Verif.Bounds
import Verif.Props.Fft
import Verif.Props.MultiexpPar

/-!
# Property C86: the FFT, the multi-exponentiation and the windowed MSM stay inside their arrays

The arrays of the models are functions on all indices, so that an access outside the array would go unnoticed there.  The theorems here
say that there is none.  `StaysIn inside progs`: no action of any thread changes a cell outside `inside`, and no action depends on one.
Arrays that a loop only reads (tables, bases, scalars, slices) appear as parameters of the loop; for those the theorems say that the loop
is the same for every other contents outside the array.
-/

namespace FF.Props

open FF Par Pool Fft

/-- No action writes a cell outside `inside`, and what it does to its locals and to the cells inside depends on cells inside only. -/
def StaysIn {L E : Type} (inside : Nat → Prop) (progs : Nat → List (Act L E)) : Prop :=
  ∀ j, ∀ a ∈ progs j, (∀ l m c, ¬inside c → (a (l, m)).2 c = m c) ∧
    ∀ l m m', (∀ c, inside c → m c = m' c) → (a (l, m)).1 = (a (l, m')).1 ∧ ∀ c, inside c → (a (l, m)).2 c = (a (l, m')).2 c

/-- The loop `parallelFor(lo, hi, …)` of the thread pool. -/
def PoolIn {L E : Type} (inside : Nat → Prop) (T lo hi : Nat) (prog : Nat → List (Act L E)) : Prop :=
  ∀ calls, parallelFor T lo hi = some calls → StaysIn inside (threads calls prog)

/-- An OpenMP loop, or a `parallelFor` whose body uses the thread number: every distribution of the iterations over the threads. -/
def TeamIn {L E : Type} (inside : Nat → Prop) (nT lo hi : Nat) (body : Nat → Nat → List (Act L E)) : Prop :=
  ∀ w, Omp.Assign nT lo hi w → StaysIn inside (Omp.team nT w body)

theorem staysIn_of_foot {L E : Type} {inside : Nat → Prop} {progs : Nat → List (Act L E)}
    (h : ∀ j, ∀ a ∈ progs j, Foot inside (fun _ => False) a) : StaysIn inside progs :=
  fun j a ha => ⟨(h j a ha).writes, fun l m m' hm => (h j a ha).reads l m m' fun k hk => hm k (hk.resolve_right id)⟩

theorem teamIn_of_foot {L E : Type} {inside : Nat → Prop} {nT lo hi : Nat} {body : Nat → Nat → List (Act L E)}
    (h : ∀ t i, t < nT → lo ≤ i → i < hi → ∀ a ∈ body t i, Foot inside (fun _ => False) a) : TeamIn inside nT lo hi body := by
  intro w hw
  refine staysIn_of_foot fun t a ha => ?_
  obtain ⟨i, ht, h1, h2, ha⟩ := Omp.team_mem hw ha
  exact h t i ht h1 h2 a ha

theorem poolIn_of_foot {L E : Type} {inside : Nat → Prop} {T lo hi : Nat} {prog : Nat → List (Act L E)}
    (h : ∀ i, lo ≤ i → i < hi → ∀ a ∈ prog i, Foot inside (fun _ => False) a) : PoolIn inside T lo hi prog := by
  intro calls hc
  refine staysIn_of_foot fun j a ha => ?_
  obtain ⟨i, h1, h2, ha⟩ := threads_mem hc ha
  exact h i h1 h2 a ha

theorem foot_of_staysIn {L E : Type} {inside : Nat → Prop} {progs : Nat → List (Act L E)} (h : StaysIn inside progs) :
    ∀ j, ∀ a ∈ progs j, Foot inside (fun _ => False) a :=
  fun j a ha => ⟨(h j a ha).1, fun l m m' hm => (h j a ha).2 l m m' fun k hk => hm k (Or.inl hk)⟩

/-! ## FFT -/

section Fft

variable {K : Type} [Field K]

theorem toInt32_small {n : Nat} (h : n < 2 ^ 31) : toInt32 n = n := by
  unfold toInt32
  rw [BitVec.toInt_eq_toNat_of_lt (by simp only [BitVec.toNat_ofNat]; omega)]
  simp only [BitVec.toNat_ofNat]
  omega

omit [Field K] in
/-- C86: the permutation pass, which runs before the size is checked, stays inside the caller's `n` elements for every `n` (below 2^31,
also when it is not a power of two). -/
theorem C86_reverse {n : BitVec 64} (hn : n.toNat < 2 ^ 31) {dp : Nat} (h : fftLog2 n = some dp) (T : Nat) :
    toInt32 n.toNat = n.toNat ∧ PoolIn (fun c => c < n.toNat) T 0 n.toNat (revIter (K := K) dp) := by
  have h0 : n ≠ 0 := by rintro rfl; simp [fftLog2] at h
  have hn0 : n.toNat ≠ 0 := fun e => h0 (BitVec.eq_of_toNat_eq (by simpa using e))
  rw [fftLog2_eq n h0] at h
  obtain rfl := Option.some.inj h
  refine ⟨toInt32_small hn, poolIn_of_foot fun i _ hi => rev_in ?_ (Nat.log2_self_le hn0) hi⟩
  have := (Nat.log2_lt hn0).2 hn
  omega

/-- C86: the butterfly loop of every stage stays inside the caller's `2^k` elements, and the inverse transform's final loop does. -/
theorem C86_fft_loops (F : Obj K) (T k : Nat) :
    (∀ s, 1 ≤ s → s ≤ k → PoolIn (fun c => c < 2 ^ k) T 0 (2 ^ (k - 1)) (butterfly F s)) ∧
    PoolIn (fun c => c < 2 ^ k) T 1 (2 ^ k / 2) (ifftIter F (2 ^ k) k) :=
  ⟨fun _ hs hsk => poolIn_of_foot fun _ _ hi => bf_in F hs hsk hi, poolIn_of_foot fun _ h1 hi => ifft_in F h1 hi⟩

/-- C86: the roots used by a stage are among the `2^s` of the table. -/
theorem C86_fft_table {F F' : Obj K} (he : F'.s = F.s) (hr : ∀ i < 2 ^ F.s, F'.roots i = F.roots i) {s : Nat} (hs : 1 ≤ s) (hS : s ≤ F.s) (i : Nat) :
    butterfly F' s i = butterfly F s i := butterfly_table he hr hs hS i

/-- What `fft` and `ifft` leave alone and what they do not look at: the array from index `n` on, the roots from `2^s` on and the inverse powers
after the first `s+1`. -/
structure SameTables (F F' : Obj K) : Prop where
  s : F'.s = F.s
  roots : ∀ i < 2 ^ F.s, F'.roots i = F.roots i
  inv : ∀ i ≤ F.s, F'.powTwoInv i = F.powTwoInv i

theorem stages_in {F F' : Obj K} (hF : SameTables F F') {T k : Nat} : ∀ {ss : List Nat}, (∀ s ∈ ss, 1 ≤ s ∧ s ≤ k) → k ≤ 30 → ∀ {m m' : Nat → K},
    Stages F T (2 ^ k) ss m m' → (∀ c, 2 ^ k ≤ c → m' c = m c) ∧
    ∀ m1, (∀ c < 2 ^ k, m1 c = m c) → ∃ m1', Stages F' T (2 ^ k) ss m1 m1' ∧ ∀ c < 2 ^ k, m1' c = m' c := by
  intro ss
  induction ss with
  | nil => rintro _ _ m m' rfl; exact ⟨fun _ _ => rfl, fun m1 h => ⟨m1, rfl, h⟩⟩
  | cons s ss ih =>
    rintro hss hk m m' ⟨m1, ⟨h30, hFs, calls, hc, he⟩, hst⟩
    have hs := hss s List.mem_cons_self
    have ehalf : toInt32 (2 ^ k >>> 1) = (2 ^ (k - 1) : Nat) := by
      have e : 2 ^ k >>> 1 = 2 ^ (k - 1) := by
        obtain ⟨d, rfl⟩ : ∃ d, k = d + 1 := ⟨k - 1, by omega⟩
        rw [Nat.shiftRight_eq_div_pow, pow_succ, Nat.add_sub_cancel]; omega
      rw [e]
      exact toInt32_small (Nat.pow_lt_pow_right (by norm_num) (by omega))
    rw [ehalf] at hc
    have hf := foot_of_staysIn ((C86_fft_loops F T k).1 s hs.1 hs.2 calls (by exact_mod_cast hc))
    obtain ⟨r1, r2⟩ := ih (fun x hx => hss x (List.mem_cons_of_mem _ hx)) hk hst
    refine ⟨fun c hc' => (r1 c hc').trans (he.frame hf c (by omega)), fun p hp => ?_⟩
    obtain ⟨p1, e1, e2⟩ := he.agree hf hp
    obtain ⟨p', e3, e4⟩ := r2 p1 e2
    refine ⟨p', ⟨p1, ⟨h30, hF.s ▸ hFs, calls, by rw [ehalf]; exact hc, ?_⟩, e3⟩, e4⟩
    rw [funext fun i => C86_fft_table hF.s hF.roots hs.1 hFs i]
    exact e1

theorem stages_order {F : Obj K} {T n : Nat} : ∀ {ss : List Nat} {m m' : Nat → K}, Stages F T n ss m m' → ∀ s ∈ ss, s ≤ 30 ∧ s ≤ F.s := by
  intro ss
  induction ss with
  | nil => intro _ _ _ s hs; simp at hs
  | cons s ss ih =>
    rintro m m' ⟨m1, hS, hst⟩ x hx
    rcases List.mem_cons.1 hx with rfl | hx
    · exact ⟨hS.1, hS.2.1⟩
    · exact ih hst x hx

theorem fftRun_size {F : Obj K} {T : Nat} {n : BitVec 64} {m m' : Nat → K} (h : FftRun F T n m m') :
    ∃ k, fftLog2 n = some k ∧ n.toNat = 2 ^ k ∧ k ≤ 30 ∧ k ≤ F.s := by
  obtain ⟨_, _, dp, hdp, hp, hst⟩ := h
  have hk : dp ≤ 30 ∧ dp ≤ F.s := by
    by_cases e : dp = 0
    · omega
    · exact stages_order hst dp (by rw [List.mem_range'_1]; omega)
  refine ⟨dp, hdp, ?_, hk⟩
  rw [← hp, BitVec.toNat_shiftLeft, Nat.shiftLeft_eq]
  simp only [BitVec.toNat_ofNat]
  rw [Nat.mod_eq_of_lt (a := 1) (by norm_num), one_mul, Nat.mod_eq_of_lt (Nat.pow_lt_pow_right (by norm_num) (by omega))]

/-- C86: `fft(a, n)` changes nothing from `a[n]` on, and what it does to `a[0..n)` does not depend on anything from `a[n]` on or outside the
tables: the same outcome is possible for every other contents there. -/
theorem C86_fft {F F' : Obj K} (hF : SameTables F F') {T : Nat} {n : BitVec 64} {m m' : Nat → K} (h : FftRun F T n m m') :
    (∀ c, n.toNat ≤ c → m' c = m c) ∧
    ∀ m1, (∀ c < n.toNat, m1 c = m c) → ∃ m1', FftRun F' T n m1 m1' ∧ ∀ c < n.toNat, m1' c = m' c := by
  obtain ⟨k, hk1, hpow, hk, -⟩ := fftRun_size h
  have hn : n.toNat < 2 ^ 31 := hpow ▸ Nat.pow_lt_pow_right (by norm_num) (by omega)
  obtain ⟨m2, ⟨dp, hdp, calls, hc, he⟩, dp', hdp', hp, hst⟩ := h
  obtain rfl : dp' = dp := Option.some.inj (hdp'.symm.trans hdp)
  obtain rfl : dp' = k := Option.some.inj (hdp'.symm.trans hk1)
  obtain ⟨e32, hin⟩ := C86_reverse (K := K) hn hdp T
  rw [e32] at hc
  have hf := foot_of_staysIn (hin calls (by exact_mod_cast hc))
  rw [hpow] at hst
  obtain ⟨r1, r2⟩ := stages_in hF (fun s hs => by rw [List.mem_range'_1] at hs; omega) hk hst
  refine ⟨fun c hc' => (r1 c (by omega)).trans (he.frame hf c (by omega)), fun p hpm => ?_⟩
  obtain ⟨p1, e1, e2⟩ := he.agree hf hpm
  obtain ⟨p', e3, e4⟩ := r2 p1 (by rw [← hpow]; exact e2)
  exact ⟨p', ⟨p1, ⟨dp', hdp, calls, by rw [e32]; exact hc, e1⟩, dp', hdp', hp, by rw [hpow]; exact e3⟩, by rw [hpow]; exact e4⟩

/-- C86: the same of `ifft`. -/
theorem C86_ifft {F F' : Obj K} (hF : SameTables F F') {T : Nat} {n : BitVec 64} {m m' : Nat → K} (h : IfftRun F T n m m') :
    (∀ c, n.toNat ≤ c → m' c = m c) ∧
    ∀ m1, (∀ c < n.toNat, m1 c = m c) → ∃ m1', IfftRun F' T n m1 m1' ∧ ∀ c < n.toNat, m1' c = m' c := by
  obtain ⟨m2, hfft, dp, hdp, m3, ⟨calls, hc, he⟩, rfl⟩ := h
  obtain ⟨f1, f2⟩ := C86_fft hF hfft
  obtain ⟨k, hk1, hpow, hk, hdS⟩ := fftRun_size hfft
  obtain rfl : dp = k := Option.some.inj (hdp.symm.trans hk1)
  have hn : n.toNat < 2 ^ 31 := hpow ▸ Nat.pow_lt_pow_right (by norm_num) (by omega)
  have e32 : toInt32 (n.toNat >>> 1) = (n.toNat / 2 : Nat) := by
    rw [toInt32_small (by rw [Nat.shiftRight_eq_div_pow]; omega), Nat.shiftRight_eq_div_pow]
  rw [e32] at hc
  have hcN : parallelFor T (1 : Nat) (n.toNat / 2 : Nat) = some calls := by exact_mod_cast hc
  have hlt : 1 < n.toNat / 2 := by have := (parallelFor_bounds hcN).1; omega
  have hf := foot_of_staysIn (poolIn_of_foot (T := T) (inside := fun c => c < n.toNat) (fun i h1 hi => ifft_in F (n := n.toNat) (dp := dp) h1 hi) calls hcN)
  have eh : n.toNat >>> 1 = n.toNat / 2 := by rw [Nat.shiftRight_eq_div_pow]
  refine ⟨fun c hc' => ?_, fun p hpm => ?_⟩
  · show Function.update (Function.update m3 0 _) (n.toNat >>> 1) _ c = m c
    rw [Function.update_of_ne (by omega), Function.update_of_ne (by omega)]
    exact (he.frame hf c (by omega)).trans (f1 c hc')
  · obtain ⟨p2, q1, q2⟩ := f2 p hpm
    obtain ⟨p3, q3, q4⟩ := he.agree hf q2
    have ei : ifftIter F' n.toNat dp = ifftIter F n.toNat dp := by funext i; simp only [ifftIter, hF.inv dp hdS]
    refine ⟨_, ⟨p2, q1, dp, hdp, p3, ⟨calls, by rw [e32]; exact hc, ei ▸ q3⟩, rfl⟩, fun c hc' => ?_⟩
    have hpos : (0 : Nat) < n.toNat := by omega
    by_cases ec : c = n.toNat >>> 1
    · subst ec
      simp only [Function.update_self, hF.inv dp hdS, Function.update_of_ne (show n.toNat >>> 1 ≠ 0 by omega), q4 _ hc']
    · simp only [Function.update_of_ne ec, hF.inv dp hdS]
      by_cases e0 : c = 0
      · subst e0; simp only [Function.update_self, q4 0 hpos]
      · simp only [Function.update_of_ne e0, q4 c hc']

/-- C86: filling the tables stays inside `new Element[1 << s]` and `new Element[s + 1]`, for every number of threads. -/
theorem C86_constructor {T s : Nat} (hT : 0 < T) (hs : 1 ≤ s) :
    StaysIn (fun c => c < 1 <<< s) (ctorThreads (K := K) (1 <<< s) T) ∧
    (∀ (p : Nat → K) c, s + 1 ≤ c → powLoop p s c = p c) ∧
    ∀ (p p' : Nat → K), (∀ c < s + 1, p' c = p c) → ∀ c < s + 1, powLoop p' s c = powLoop p s c := by
  have h2 : 2 ≤ 1 <<< s := by
    rw [Nat.shiftLeft_eq, one_mul]
    calc 2 = 2 ^ 1 := rfl
      _ ≤ 2 ^ s := Nat.pow_le_pow_right (by norm_num) hs
  exact ⟨staysIn_of_foot (ctor_in hT h2), fun p c hc => powLoop_frame p s c hc, fun p p' h c hc =>
    powLoop_agree hs (fun c hc => h c (by omega)) c (by omega)⟩

/-- C86 is false when `n` exceeds the domain of the object: the constructor's argument is not checked against `n`, and the subscript of `root`
is computed with a shift count (an unsigned 32-bit difference that wraps) of 64 or more, which is undefined. -/
theorem C86_violation_domain {s k : Nat} (h : s < k) (hk : k ≤ 63) : 64 ≤ (BitVec.ofNat 32 s - BitVec.ofNat 32 k).toNat := by
  rw [BitVec.toNat_sub]
  simp only [BitVec.toNat_ofNat]
  omega

local instance fact17' : Fact (Nat.Prime 17) := ⟨by decide⟩

/-- A transform of four elements over the field of 17 elements on three threads; with another fifth element and other values behind the tables there
is a run with the same result. -/
example : ∃ (F F' : Obj (ZMod 17)) (m m1 m' m1' : Nat → ZMod 17), m 4 ≠ m1 4 ∧ F'.roots 4 ≠ F.roots 4 ∧ FftRun F 3 4 m m' ∧ FftRun F' 3 4 m1 m1' ∧
    ∀ c < 4, m1' c = m' c := by
  obtain ⟨res, h⟩ := C40_total (q := 17) (by decide) (T := 5) (by norm_num) 4 (by decide)
  have hc := C40_constructor (q := 17) (by decide) (T := 5) (by norm_num) 4 res h
  cases res with
  | none => exact absurd (hc.1.1 rfl) (by rw [not_not]; decide)
  | some F =>
    have hs : F.s = 2 := (hc.2 F rfl).1.trans (by decide)
    obtain ⟨v, -, hrun⟩ := C41_fft (q := 17) (by decide) (by norm_num) 4 F h 2 (by omega) (by norm_num)
    obtain ⟨⟨m', hm⟩, -⟩ := hrun 3 (by norm_num) (by norm_num) (fun i => (i : ZMod 17) + 5)
    have hF : SameTables F { F with roots := Function.update F.roots 4 (F.roots 4 + 1) } := by
      refine ⟨rfl, fun i hi => ?_, fun _ _ => rfl⟩
      rw [hs] at hi
      exact Function.update_of_ne (by omega) _ _
    obtain ⟨m1', h1, h2⟩ := (C86_fft hF hm).2 (Function.update (fun i => (i : ZMod 17) + 5) 4 0) fun c hc => by
      have : c < 4 := hc
      rw [Function.update_of_ne (by omega)]
    exact ⟨F, _, _, _, m', m1', by rw [Function.update_self]; decide, by simp, hm, h1, h2⟩

/-- A table of order 3 over the integers modulo 17, an array of 8 inside longer ones that differ from index 8 on. -/
example : SameTables (⟨3, 0, fun i => i, fun i => i⟩ : Obj (ZMod 17)) ⟨3, 0, fun i => if i < 8 then i else 5, fun i => if i ≤ 3 then i else 6⟩ :=
  ⟨rfl, fun i hi => by have : i < 8 := hi; simp [this], fun i hi => by have : i ≤ 3 := hi; simp [this]⟩

end Fft

/-! ## Scalar windows -/

/-- The byte at which the window `chunkIdx` of a scalar is read, `multiexp.cpp:26-30` and `msm.hpp:46-50`, in the 64-bit arithmetic of the code. -/
def windowByte (scalarSize bitsPerChunk chunkIdx : BitVec 64) : BitVec 64 :=
  let byteStart := (chunkIdx * bitsPerChunk) / 8
  if byteStart > scalarSize - 8 then scalarSize - 8 else byteStart

/-- C86: the eight bytes loaded for a window are inside the scalar, for scalars of eight bytes or more. -/
theorem C86_window_partial {scalarSize : BitVec 64} (h : 8 ≤ scalarSize.toNat) (bitsPerChunk chunkIdx : BitVec 64) :
    (windowByte scalarSize bitsPerChunk chunkIdx).toNat + 8 ≤ scalarSize.toNat := by
  have e : (scalarSize - 8).toNat = scalarSize.toNat - 8 := by
    rw [BitVec.toNat_sub, show (8 : BitVec 64).toNat = 8 from rfl]
    have := scalarSize.isLt
    omega
  unfold windowByte
  dsimp only
  split
  · rw [e]; omega
  · rename_i hgt
    have hgt : ¬(scalarSize - 8).toNat < (chunkIdx * bitsPerChunk / 8).toNat := fun hh => hgt (BitVec.lt_def.2 hh)
    rw [e] at hgt
    omega

/-- C86 is false for scalars of one to seven bytes: `scalarSize - 8` wraps, and the load for the first window of the last of `n` scalars goes
past the end of the array, for every `n`. -/
theorem C86_violation_window {scalarSize : BitVec 64} (h : scalarSize.toNat < 8) (bitsPerChunk : BitVec 64) {n : Nat} (hn : 1 ≤ n) :
    n * scalarSize.toNat < (n - 1) * scalarSize.toNat + (windowByte scalarSize bitsPerChunk 0).toNat + 8 := by
  obtain ⟨d, rfl⟩ : ∃ d, n = d + 1 := ⟨n - 1, by omega⟩
  rw [Nat.add_sub_cancel, Nat.add_mul, Nat.one_mul]
  omega

example : (windowByte 32 14 18).toNat = 24 ∧ (windowByte 32 14 3).toNat = 5 := by decide

/-! ## Signed digits -/

theorem buildNafLoop_length (scalar : List (BitVec 8)) : ∀ k i last carry, (buildNafLoop scalar k i last carry).length = k * 8 := by
  intro k
  induction k with
  | zero => intro i last carry; simp [buildNafLoop]
  | succ k ih =>
    intro i last carry
    simp only [buildNafLoop, List.length_append, ih, bytes64, List.length_map, List.length_range]
    omega

/-- C86: the recoding behind `mulByScalar` and `exp` writes exactly the `(size+2)*8` bytes allocated for it, the digits read afterwards are among
those bytes, and the state that indexes the table of 1024 entries (the last bit, seven bits of a byte, a bit of the next byte, the carry) is
below 1024. -/
theorem C86_naf {scalar naf : List (BitVec 8)} (h : nafAlloc scalar = some naf) :
    naf.length = (scalar.length + 2) * 8 ∧ nafBits scalar.length ≤ naf.length ∧
    ∀ (last carry : Bool) (b b' : BitVec 8), last.toNat + (b &&& 0xFE).toNat + (b' &&& 1).toNat <<< 8 + carry.toNat * 0x200 < 1024 := by
  unfold nafAlloc buildNaf at h
  split at h
  · rename_i hlt
    split at h
    · cases h
    · obtain rfl := Option.some.inj h
      refine ⟨buildNafLoop_length .., ?_, fun last carry b b' => ?_⟩
      · rw [buildNafLoop_length]
        have e : (BitVec.ofNat 32 scalar.length * 8 + 2).toNat = scalar.length * 8 + 2 := by
          rw [BitVec.toNat_add, BitVec.toNat_mul, BitVec.toNat_ofNat, show (8 : BitVec 32).toNat = 8 from rfl, show (2 : BitVec 32).toNat = 2 from rfl]
          omega
        have : (BitVec.ofNat 32 scalar.length * 8 + 2).toInt ≤ (BitVec.ofNat 32 scalar.length * 8 + 2).toNat := by
          rw [BitVec.toInt_eq_toNat_cond]; split <;> omega
        unfold nafBits
        omega
      · have h1 : (b &&& 0xFE).toNat ≤ 0xFE := by rw [BitVec.toNat_and]; exact Nat.and_le_right
        have h2 : (b' &&& 1).toNat ≤ 1 := by rw [BitVec.toNat_and]; exact Nat.and_le_right
        have h3 := Bool.toNat_le last
        have h4 := Bool.toNat_le carry
        rw [Nat.shiftLeft_eq]
        omega
  · cases h

example : ∃ naf, nafAlloc [0x37, 0xA5] = some naf ∧ naf.length = 32 := ⟨_, rfl, by decide⟩

/-! ## Multi-exponentiation -/

section Multiexp

variable {P PA : Type} {G : GroupCode P PA} {nThreads n : Nat} {bases bases' : Nat → PA} {scalars scalars' : Nat → BitVec 8} {scalarSize : Nat}

/-- The elements of `accs`, of `sall`. -/
def InAccs (N c : Nat) : Prop := ∃ k < N, c = PME.acc k
def InSall (N c : Nat) : Prop := ∃ t < N, c = PME.sal t

/-- C86: the parallel loops of the multi-exponentiation, plain or strided, stay inside `accs` (`nThreads * accsPerChunk` elements) and, in the
reduction, `sall` (`nThreads` elements). -/
theorem C86_multiexp_loops (hT : 1 ≤ nThreads) (hs : 8 ≤ scalarSize) (inc : Nat → Bool) :
    let c : PME P PA := ⟨G, bases, scalars, scalarSize, n, nThreads, pmeBits n⟩
    let N := nThreads * c.accsPerChunk
    TeamIn (InAccs N) nThreads 0 N c.initBody ∧
    (∀ chunk < c.nChunks, TeamIn (InAccs N) nThreads 0 n (c.processBody inc chunk)) ∧
    TeamIn (InAccs N) nThreads 0 c.accsPerChunk c.packBody ∧
    ∀ k < pmeBits n, TeamIn (fun x => InAccs N x ∨ InSall nThreads x) nThreads 1 (1 <<< k) (c.reduceBody (1 <<< k)) := by
  have hb := pmeBits_range n
  intro c N
  refine ⟨teamIn_of_foot fun t i ht h1 h2 a ha => ?_, fun chunk hc => teamIn_of_foot fun t i ht h1 h2 a ha => ?_,
    teamIn_of_foot fun t i ht h1 h2 => PME.pack_in (c := c) h2 hT, fun k hk => teamIn_of_foot fun t i ht h1 h2 a ha => ?_⟩
  · exact ((PME.init_disjoint (c := c)).foot t i ht h1 h2 a ha).mono fun x hx => ⟨i, h2, hx⟩
  · refine ((PME.process_disjoint (c := c) (PME.chunk_lt (c := c) (by show 1 ≤ pmeBits n; omega) hb.2 hs chunk (List.mem_range.2 hc))).foot t i ht h1 h2 a ha).mono ?_
    rintro x ⟨v, hv, rfl⟩
    exact PME.acc_index ht hv
  · have h2k : 1 <<< k + 1 <<< k ≤ c.accsPerChunk := by
      show _ ≤ 1 <<< pmeBits n
      simp only [Nat.shiftLeft_eq, one_mul]
      calc 2 ^ k + 2 ^ k = 2 ^ (k + 1) := by rw [pow_succ]; omega
        _ ≤ 2 ^ pmeBits n := Nat.pow_le_pow_right (by norm_num) hk
    have hN : c.accsPerChunk ≤ N := Nat.le_mul_of_pos_left _ hT
    refine ((PME.reduce_disjoint (c := c) _).foot t i ht h1 h2 a ha).mono ?_
    rintro x (rfl | rfl | rfl)
    · exact Or.inl ⟨i, by omega, rfl⟩
    · exact Or.inl ⟨1 <<< k + i, by omega, rfl⟩
    · exact Or.inr ⟨t, ht, rfl⟩

/-- C86: the final combination reads the `nChunks` chunk results only. -/
theorem C86_combine (b nChunks : Nat) (hn : 1 ≤ nChunks) {s s' : Nat → P} (h : ∀ j < nChunks, s' j = s j) :
    G.combine b s' (nChunks - 1) (s' (nChunks - 1)) = G.combine b s (nChunks - 1) (s (nChunks - 1)) := by
  rw [h _ (by omega), combine_agree G b _ _ fun j hj => h j (by omega)]

/-- C86: the executions of the multi-exponentiation depend on the first `n` bases and the first `n * scalarSize` scalar bytes only. -/
theorem C86_multiexp (hb : ∀ i < n, bases' i = bases i) (hs : ∀ k < n * scalarSize, scalars' k = scalars k) (mem mem' : Nat → P) (r : Option P) :
    MultiexpP G nThreads mem mem' bases' scalars' scalarSize n r ↔ MultiexpP G nThreads mem mem' bases scalars scalarSize n r :=
  PmeP.agree (fun _ _ => rfl) hb hs r

/-- C86: those of the strided version moreover on the first `nX` lengths only. -/
theorem C86_strided {nX : Nat} {size size' : Nat → BitVec 64} (hz : ∀ k < nX, size' k = size k) (hb : ∀ i < n, bases' i = bases i)
    (hs : ∀ k < n * scalarSize, scalars' k = scalars k) (mem mem' : Nat → P) (r : Option P) :
    MultiexpStridedP G nThreads mem mem' bases' scalars' scalarSize n nX size' r ↔ MultiexpStridedP G nThreads mem mem' bases scalars scalarSize n nX size r := by
  unfold MultiexpStridedP
  by_cases h0 : n ≥ 2 ∧ nX = 0
  · rw [if_pos h0, if_pos h0]
  rw [if_neg h0, if_neg h0]
  by_cases hX : nX = 0
  · have h1 : ∀ inc inc' : Nat → Bool, PmeP G nThreads inc mem mem' bases scalars scalarSize n r ↔ PmeP G nThreads inc' mem mem' bases scalars scalarSize n r := by
      intro inc inc'
      unfold PmeP
      by_cases e0 : n = 0
      · rw [if_pos e0, if_pos e0]
      · rw [if_neg e0, if_neg e0, if_pos (show n = 1 by omega), if_pos (show n = 1 by omega)]
    exact (PmeP.agree (fun _ _ => rfl) hb hs r).trans (h1 _ _)
  · refine PmeP.agree (fun i _ => ?_) hb hs r
    have hm : (BitVec.ofNat 32 (i % nX)).toNat < nX := by
      rw [BitVec.toNat_ofNat]
      exact lt_of_le_of_lt (Nat.mod_le _ _) (Nat.mod_lt _ (by omega))
    simp only [stridedInc, hz _ hm]

/-! ## Windowed MSM -/

/-- C86: the two loops of the windowed MSM stay inside `slicedScalars` (`n * nChunks` elements), and inside `bucketMatrix` (`nThreads * nBuckets`)
and `chunks` (`nChunks`); the second loop reads only the first `n * nChunks` digits and `n` bases.  `sl` is any content the first loop can leave. -/
theorem C86_msm_loops (hT : 1 ≤ nThreads) (hs : 8 ≤ scalarSize) (memS sl : Nat → ℤ) {b nC nB : Nat} (hb : b = msmBitsPerChunk n scalarSize)
    (hC : nC = msmChunkCount scalarSize b) (hB : nB = msmBucketCount b)
    (hsl : Omp.For nThreads 0 n (Msm.sliceBody scalars scalarSize b nC nB) memS sl) :
    TeamIn (fun c => c < n * nC) nThreads 0 n (Msm.sliceBody scalars scalarSize b nC nB) ∧
    TeamIn (fun c => InAccs (nThreads * nB) c ∨ InSall nC c) nThreads 0 nC (Msm.chunkBody G bases sl nC nB n) ∧
    ∀ sl', (∀ k < n * nC, sl' k = sl k) → ∀ t, ∀ j < nC, Msm.chunkBody G bases sl' nC nB n t j = Msm.chunkBody G bases sl nC nB n t j := by
  have hr := hb ▸ msmBitsPerChunk_range n scalarSize
  subst hC hB
  refine ⟨teamIn_of_foot fun t i ht h1 h2 a ha => ?_, teamIn_of_foot fun t i ht h1 h2 a ha => ?_, fun sl' h t j hj => Msm.chunk_agree (fun _ _ => rfl) h t hj⟩
  · refine (Msm.slice_disjoint.foot t i ht h1 h2 a ha).mono ?_
    rintro x ⟨j, hj, rfl⟩
    exact scalar_index h2 hj
  · refine ((Msm.chunk_disjoint (Msm.bucketCount_pos _) (Msm.digits hT (by omega) (by omega) hs hsl)).foot t i ht h1 h2 a ha).mono ?_
    rintro x (⟨v, hv, rfl⟩ | rfl)
    · exact Or.inl (PME.acc_index ht hv)
    · exact Or.inr ⟨i, h2, rfl⟩

/-- C86: the executions of the windowed MSM depend on the first `n` bases and the first `n * scalarSize` scalar bytes only. -/
theorem C86_msm (hb : ∀ i < n, bases' i = bases i) (hs : ∀ k < n * scalarSize, scalars' k = scalars k) (mem : Nat → P) (memS : Nat → ℤ) (r : Option P) :
    MsmRunP G nThreads mem memS bases' scalars' scalarSize n r ↔ MsmRunP G nThreads mem memS bases scalars scalarSize n r :=
  MsmRunP.agree hb hs r

/-- Five integers and 9-byte scalars; the other arguments differ from the sixth base and the 46th byte on. -/
example (r : Option ℤ) : MultiexpP intCode 3 (fun _ => 77) (fun _ => 78) (fun i => if i < 5 then (i : ℤ) - 2 else 1000)
      (fun i => if i < 45 then BitVec.ofNat 8 i else 255) 9 5 r ↔
    MultiexpP intCode 3 (fun _ => 77) (fun _ => 78) (fun i => (i : ℤ) - 2) (fun i => BitVec.ofNat 8 i) 9 5 r :=
  C86_multiexp (fun i hi => by simp [hi]) (fun k hk => by have : k < 45 := hk; simp [this]) _ _ r

/-- `StaysIn` is not always true: an action that copies `a[8]` into `a[0]` leaves an array of eight. -/
example : ¬StaysIn (fun c => c < 8) (fun _ => [fun p : Unit × (Nat → ℤ) => (p.1, Function.update p.2 0 (p.2 8))]) := by
  intro h
  have := ((h 0 _ List.mem_cons_self).2 () (fun _ => 0) (Function.update (fun _ => 0) 8 1) (fun c hc => by
    have : c < 8 := hc
    rw [Function.update_of_ne (by omega)])).2 0 (by norm_num)
  simp at this

end Multiexp

end FF.Props
