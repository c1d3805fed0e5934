import Verif.FftCtor
import Verif.ElField

/-!
# `FFT` on limb arrays

`Fft.lean` models `fft` and `ifft` over any field, so also over `El q`, the arrays with the routines of the class.  The constructor
converts numbers of GMP to elements; here these conversions are those of the class.
-/

set_option linter.unusedSectionVars false

namespace FF.Fft

open Par Pool

variable {q : Nat} [hp : Fact q.Prime] [ho : Fact (q % 2 = 1)]

/-- `f.fromMpz(e, v)` leaves the array `e`. -/
def FromMpz (v : Int) (e : El q) : Prop := ∃ m', RawFr.fromMpz q (fun _ => []) 0 v = some m' ∧ m' 0 = e.v

/-- The constructor, `fft.cpp:31-115`, on limb arrays; compare `Ctor`.  Cells of fresh memory are taken to hold some element (they are
written before they are read). -/
def CtorL (q T : Nat) [Fact q.Prime] [Fact (q % 2 = 1)] (maxDomainSize : BitVec 64) (res : Option (Obj (El q))) : Prop :=
  ∃ domainPow, fftLog2 maxDomainSize = some domainPow ∧
    let m_aux : Int := RawFr.toMpz q (RawFr.negOne q)
    let m_q := m_aux + 1
    let m_qm1d2 := m_aux / 2
    ∃ fuel m_nqr, nqrLoop m_qm1d2 m_q fuel 2 = some m_nqr ∧ ∃ nqr, FromMpz m_nqr nqr ∧
      let (s, m_aux) := sLoop domainPow domainPow 1 m_qm1d2
      if s < domainPow then res = none
      else
        let nRoots := 1 <<< s
        ∃ w, mpzPowm m_nqr m_aux m_q = some w ∧
        ∃ (junk junk' : Nat → El q) (j : Int) (root half : El q), FromMpz w root ∧ FromMpz (mpzInvert 2 m_q j) half ∧
          let roots := Function.update (Function.update junk 0 1) 1 root
          let pow := Function.update (Function.update junk' 0 1) 1 half
          ∃ roots', Exec (ctorThreads nRoots T) roots roots' ∧
            roots' (nRoots - 1) * roots' 1 = 1 ∧
            res = some { s := s, nqr := nqr, roots := roots', powTwoInv := powLoop pow s }

theorem fromMpz_lt {v : Nat} (h : v < q) {e : El q} (he : FromMpz (v : Int) e) : e.toZ = (v : ZMod q) := by
  obtain ⟨m', h1, h2⟩ := he
  obtain ⟨m2, h3, h4, -⟩ := RawFr.fromMpz_rep (q := q) (m := fun _ => []) (r := 0) ho.out (v := (v : Int))
    (by rw [Int.natAbs_natCast]; exact h.trans (q_lt_Wn q))
  rw [h1] at h3
  obtain rfl := Option.some_inj.mp h3
  rw [h2, Int.natAbs_natCast] at h4
  exact El.toZ_of h4

theorem fromMpz_exists {v : Nat} (h : v < q) : ∃ e : El q, FromMpz (v : Int) e := by
  obtain ⟨m2, h3, h4, -⟩ := RawFr.fromMpz_rep (q := q) (m := fun _ => []) (r := 0) ho.out (v := (v : Int))
    (by rw [Int.natAbs_natCast]; exact h.trans (q_lt_Wn q))
  exact ⟨El.mk' h4, m2, h3, rfl⟩

theorem negOne_int : RawFr.toMpz q (RawFr.negOne q) = ((-1 : ZMod q).val : Int) :=
  RawFr.toMpz_eq ho.out (RawFr.one_rep ho.out).neg

theorem ne_two : q ≠ 2 := fun h => by have := ho.out; omega

/-- What is in the object, as residues. -/
structure Reads (F : Obj (El q)) (F' : Obj (ZMod q)) : Prop where
  s : F'.s = F.s
  nqr : F.nqr.toZ = F'.nqr
  roots : ∀ i < 2 ^ F.s, (F.roots i).toZ = F'.roots i
  inv : ∀ i ≤ F.s, (F.powTwoInv i).toZ = F'.powTwoInv i

theorem hom_pow (x : El q) (n : Nat) : (x ^ n).toZ = x.toZ ^ n := map_pow (El.hom q) x n
theorem hom_mul (x y : El q) : (x * y).toZ = x.toZ * y.toZ := map_mul (El.hom q) x y
theorem hom_one : (1 : El q).toZ = 1 := map_one (El.hom q)

/-- Every outcome on arrays is, read as residues, an outcome of the constructor over the residues. -/
theorem ctorL_ctor {T : Nat} (hT : 0 < T) {N : BitVec 64} {res : Option (Obj (El q))} (h : CtorL q T N res) :
    (res = none ∧ Ctor q T N none) ∨ ∃ F F', res = some F ∧ Ctor q T N (some F') ∧ Reads F F' := by
  obtain ⟨D, hD, fuel, r, hr, nqr, hnqr, h⟩ := h
  rw [negOne_int] at hr h
  obtain ⟨n1, n2, n3⟩ := ctor_numbers (q := q) ne_two
  have hq0 : 0 < q := hp.out.pos
  obtain ⟨c, rfl, hc2, hc1, hcmin⟩ := nqrLoop_spec hq0 fuel 2 r (by rw [n1, n2] at hr; exact hr)
  obtain ⟨c0, k1, k2, k3⟩ := exists_nqr (q := q) ne_two
  have hcq : c < q := by
    by_contra hh
    exact k3 (hcmin c0 k1 (by omega))
  obtain ⟨hN, hlog, hD64⟩ := fftLog2_lt hD
  obtain ⟨s, aux, hs, hs1, haux, hsD, hstop⟩ := sLoop_spec D D 1 (q / 2) (by omega)
  simp only [n1, n2, hs] at h
  by_cases hlt : s < D
  · rw [if_pos hlt] at h
    left
    refine ⟨h, D, hD, fuel, c, hr, ?_⟩
    simp only [n2, hs, if_pos hlt]
  · rw [if_neg hlt] at h
    right
    obtain ⟨w, hw, junk, junk', j, root, half, hroot, hhalf, roots', hex, hass, hres⟩ := h
    have hw' := hw
    rw [mpzPowm_cast hq0] at hw'
    obtain rfl := Option.some.inj hw'
    have hg : Int.gcd 2 (q : Int) = 1 := by
      show Nat.gcd 2 q = 1
      exact (Nat.coprime_primes Nat.prime_two hp.out).2 (fun h => ne_two h.symm)
    obtain ⟨i1, i2, i3⟩ := mpzInvert_spec (a := 2) (m := (q : Int)) (junk := j) (by exact_mod_cast hq0) hg
    have er : root.toZ = (((c ^ aux % q : Nat) : Int) : ZMod q) := by
      rw [fromMpz_lt (Nat.mod_lt _ hq0) hroot, Int.cast_natCast]
    have eh : half.toZ = ((mpzInvert 2 (q : Int) j : Int) : ZMod q) := by
      obtain ⟨v, hv⟩ := Int.eq_ofNat_of_zero_le i1
      rw [hv] at hhalf i2 ⊢
      rw [fromMpz_lt (by exact_mod_cast i2) hhalf, Int.cast_natCast]
    have hsh : 1 <<< s = 2 ^ s := by rw [Nat.shiftLeft_eq, one_mul]
    have hn2 : 2 ≤ 2 ^ s := by
      obtain ⟨d, hd⟩ : ∃ d, s = d + 1 := ⟨s - 1, by omega⟩
      rw [hd, pow_succ]; have := Nat.two_pow_pos d; omega
    have h64 : 2 ^ s ≤ 2 ^ 64 := Nat.pow_le_pow_right (by norm_num) (by omega)
    rw [hsh] at hex hass
    have ht := block_spec hT hn2 h64 (ω := root) (by simp) (by simp) hex
    obtain ⟨rootsZ, hexZ⟩ := exec_exists (ctorThreads (2 ^ s) T) T
      (by
        intro j hj
        have : (parallelBlock T)[j]? = none := List.getElem?_eq_none (by simp [parallelBlock]; omega)
        simp only [ctorThreads, this]) (⟨0, 0⟩ : Loc (ZMod q))
      (Function.update (Function.update (fun _ => 0) 0 1) 1 root.toZ)
    have htZ := block_spec hT hn2 h64 (ω := root.toZ) (by simp) (by simp) hexZ
    refine ⟨_, ⟨s, (((c : Nat) : Int) : ZMod q), rootsZ,
      powLoop (Function.update (Function.update (fun _ => 0) 0 1) 1 ((mpzInvert 2 (q : Int) j : Int) : ZMod q)) s⟩, hres, ?_, ⟨rfl, ?_, ?_, ?_⟩⟩
    · refine ⟨D, hD, fuel, c, hr, ?_⟩
      simp only [n1, n2, hs, if_neg hlt, hsh]
      refine ⟨_, hw, fun _ => 0, fun _ => 0, j, rootsZ, ?_, ?_, rfl⟩
      · rw [← er]; exact hexZ
      · have h1 : 1 < 2 ^ s := by omega
        rw [htZ _ (by omega), htZ 1 h1, pow_one, ← hom_pow, ← hom_mul]
        rw [ht _ (by omega), ht 1 h1, pow_one] at hass
        rw [hass, hom_one]
    · show nqr.toZ = _
      rw [fromMpz_lt hcq hnqr, Int.cast_natCast]
    · intro i hi
      show (roots' i).toZ = rootsZ i
      rw [ht i hi, htZ i hi, hom_pow]
    · intro i hi
      show El.toZ (powLoop _ s i) = powLoop _ s i
      rw [powLoop_spec (v := half) (by simp) (by simp) s i hi hs1,
        powLoop_spec (v := ((mpzInvert 2 (q : Int) j : Int) : ZMod q)) (by simp) (by simp) s i hi hs1, hom_pow, eh]

/-- The constructor on arrays comes to an end. -/
theorem ctorL_exists {T : Nat} (hT : 0 < T) {N : BitVec 64} (hN : N ≠ 0) : ∃ res, CtorL q T N res := by
  obtain ⟨res, D, hD, fuel, r, hr, h⟩ := ctor_exists (q := q) ne_two hT hN
  obtain ⟨n1, n2, n3⟩ := ctor_numbers (q := q) ne_two
  have hq0 : 0 < q := hp.out.pos
  obtain ⟨c, rfl, hc2, hc1, hcmin⟩ := nqrLoop_spec hq0 fuel 2 r (by rw [n1, n2] at hr; exact hr)
  obtain ⟨c0, k1, k2, k3⟩ := exists_nqr (q := q) ne_two
  have hcq : c < q := by
    by_contra hh
    exact k3 (hcmin c0 k1 (by omega))
  obtain ⟨_, hlog, hD64⟩ := fftLog2_lt hD
  obtain ⟨s, aux, hs, hs1, haux, hsD, hstop⟩ := sLoop_spec D D 1 (q / 2) (by omega)
  obtain ⟨nqr, hnqr⟩ := fromMpz_exists hcq
  simp only [n1, n2, hs] at h
  by_cases hlt : s < D
  · refine ⟨none, D, hD, fuel, c, ?_, nqr, hnqr, ?_⟩
    · rw [negOne_int]; exact hr
    · simp only [negOne_int, n2, hs, if_pos hlt]
  · rw [if_neg hlt] at h
    obtain ⟨w, hw, junk, junk', j, roots', hex, hass, -⟩ := h
    have hw' := hw
    rw [mpzPowm_cast hq0] at hw'
    obtain rfl := Option.some.inj hw'
    have hg : Int.gcd 2 (q : Int) = 1 := by
      show Nat.gcd 2 q = 1
      exact (Nat.coprime_primes Nat.prime_two hp.out).2 (fun h => ne_two h.symm)
    obtain ⟨i1, i2, i3⟩ := mpzInvert_spec (a := 2) (m := (q : Int)) (junk := j) (by exact_mod_cast hq0) hg
    obtain ⟨v, hv⟩ := Int.eq_ofNat_of_zero_le i1
    obtain ⟨root, hroot⟩ := fromMpz_exists (Nat.mod_lt (c ^ aux) hq0)
    obtain ⟨half, hhalf⟩ := fromMpz_exists (q := q) (v := v) (by rw [hv] at i2; exact_mod_cast i2)
    have hsh : 1 <<< s = 2 ^ s := by rw [Nat.shiftLeft_eq, one_mul]
    have hn2 : 2 ≤ 2 ^ s := by
      obtain ⟨d, hd⟩ : ∃ d, s = d + 1 := ⟨s - 1, by omega⟩
      rw [hd, pow_succ]; have := Nat.two_pow_pos d; omega
    have h64 : 2 ^ s ≤ 2 ^ 64 := Nat.pow_le_pow_right (by norm_num) (by omega)
    rw [hsh] at hex hass
    have htZ := block_spec hT hn2 h64 (ω := (((c ^ aux % q : Nat) : Int) : ZMod q)) (by simp) (by simp) hex
    obtain ⟨rootsL, hexL⟩ := exec_exists (ctorThreads (2 ^ s) T) T
      (by
        intro j hj
        have : (parallelBlock T)[j]? = none := List.getElem?_eq_none (by simp [parallelBlock]; omega)
        simp only [ctorThreads, this]) (⟨0, 0⟩ : Loc (El q))
      (Function.update (Function.update (fun _ => 0) 0 1) 1 root)
    have ht := block_spec hT hn2 h64 (ω := root) (by simp) (by simp) hexL
    refine ⟨some ⟨s, nqr, rootsL, powLoop (Function.update (Function.update (fun _ => 0) 0 1) 1 half) s⟩, D, hD, fuel, c, ?_, nqr, hnqr, ?_⟩
    · rw [negOne_int]; exact hr
    · simp only [negOne_int, n1, n2, hs, if_neg hlt, hsh]
      refine ⟨_, mpzPowm_cast hq0 c aux, fun _ => 0, fun _ => 0, j, root, half, hroot, by rw [hv]; exact hhalf, rootsL, hexL, ?_, rfl⟩
      have h1 : 1 < 2 ^ s := by omega
      rw [htZ _ (by omega), htZ 1 h1, pow_one] at hass
      apply El.toZ_inj
      rw [ht _ (by omega), ht 1 h1, pow_one, hom_mul, hom_pow, hom_one, fromMpz_lt (Nat.mod_lt _ hq0) hroot, ← Int.cast_natCast (R := ZMod q)]
      exact hass

/-- The table on arrays. -/
theorem ctorL_table {T : Nat} (hT : 0 < T) {N : BitVec 64} {F : Obj (El q)} (h : CtorL q T N (some F)) : ∃ ω, Table F ω := by
  rcases ctorL_ctor hT h with ⟨h, -⟩ | ⟨F1, F', hF, hc, hr⟩
  · cases h
  · obtain rfl := Option.some_inj.mp hF
    rcases ctor_spec ne_two hT hc with ⟨h, _⟩ | ⟨_, F2, ω, hF2, _, ht, _⟩
    · cases h
    · obtain rfl := Option.some_inj.mp hF2
      refine ⟨El.ofZ ω, ?_, ?_, ?_⟩
      · have := ht.prim
        rw [hr.s, ← El.toZ_ofZ ω] at this
        exact IsPrimitiveRoot.of_map_of_injective (f := El.hom q) this El.hom_bijective.1
      · intro i hi
        apply El.toZ_inj
        rw [hr.roots i hi, ht.roots i (by rw [hr.s]; exact hi), hom_pow, El.toZ_ofZ]
      · intro i hi
        apply El.toZ_inj
        have e2 : (2 : El q).toZ = 2 := map_ofNat (El.hom q) 2
        rw [hom_mul, hom_pow, e2, hr.inv i hi, ht.inv i (by rw [hr.s]; exact hi), hom_one]

end FF.Fft
