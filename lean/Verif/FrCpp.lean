import Verif.Gmp
import Verif.TaggedArith
import Mathlib.Algebra.Field.ZMod

/-!
# The conversion and division functions of `src/fr.cpp.ejs` on tagged elements

Uninitialised locals hold the arbitrary element `u`.  `none` is an abort of GMP (division by zero) or a buffer overrun.
-/

namespace FF

/-- `Fr_toMpz`, `fr.cpp.ejs:17-28`. -/
def Fr_toMpz (q : Nat) (u e : Elem) : Int :=
  let tmp := toNormalInto q u e
  if !tmp.long then
    if tmp.shortVal.toInt < 0 then tmp.shortVal.toInt + (q : Int) else tmp.shortVal.toInt
  else mpzImport tmp.longVal

/-- `Fr_fromMpz`, `fr.cpp.ejs:30-39`, as a function of the old content of `*pE`. -/
def Fr_fromMpz (q : Nat) (e : Elem) (v : Int) : Option Elem :=
  if mpzFitsSint v then some { e with long := false, mont := false, shortVal := BitVec.ofInt 32 v }
  else (mpzExport (List.replicate (n64 q) 0) v).map fun l => { e with long := true, mont := false, longVal := l }

/-- `Fr_str2element`, `fr.cpp.ejs:56-62`. -/
def Fr_str2element (q : Nat) (e : Elem) (s : List Char) : Option Elem :=
  (mpzFdivR (mpzInitSetStr 10 s) q).bind (Fr_fromMpz q e)

/-- `Fr_element2str`, `fr.cpp.ejs:64-84`; `sprintf("%d")` of a non-negative number is its decimal text. -/
def Fr_element2str (q : Nat) (u e : Elem) : List Char :=
  if !e.long then
    if 0 ≤ e.shortVal.toInt then mpzGetStr 10 e.shortVal.toInt.toNat
    else mpzGetStr 10 (e.shortVal.toInt + (q : Int)).toNat
  else mpzGetStr 10 (mpzImport (toNormalInto q u e).longVal).toNat

/-- `Fr_idiv`, `fr.cpp.ejs:86-108`. -/
def Fr_idiv (q : Nat) (u : Elem) (m : Mem) (r a b : Nat) : Option Mem :=
  let ma := Fr_toMpz q u (m a)
  let mb := Fr_toMpz q u (m b)
  ((mpzFdivQ ma mb).bind (Fr_fromMpz q (m r))).map (m.set r)

/-- `Fr_mod`, `fr.cpp.ejs:110-126`. -/
def Fr_mod (q : Nat) (u : Elem) (m : Mem) (r a b : Nat) : Option Mem :=
  let ma := Fr_toMpz q u (m a)
  let mb := Fr_toMpz q u (m b)
  ((mpzFdivR ma mb).bind (Fr_fromMpz q (m r))).map (m.set r)

/-- `Fr_pow`, `fr.cpp.ejs:128-144`. -/
def Fr_pow (q : Nat) (u : Elem) (m : Mem) (r a b : Nat) : Option Mem :=
  let ma := Fr_toMpz q u (m a)
  let mb := Fr_toMpz q u (m b)
  ((mpzPowm ma mb q).bind (Fr_fromMpz q (m r))).map (m.set r)

/-- Value left by `Fr_inv` in `*r`, `fr.cpp.ejs:146-157`; `junk` is the unspecified result of a failed `mpz_invert`. -/
def invInto (q : Nat) (u : Elem) (junk : Int) (r a : Elem) : Option Elem :=
  Fr_fromMpz q r (mpzInvert (Fr_toMpz q u a) q junk)

/-- `Fr_inv`, `fr.cpp.ejs:146-157`. -/
def Fr_inv (q : Nat) (u : Elem) (junk : Int) (m : Mem) (r a : Nat) : Option Mem :=
  (invInto q u junk (m r) (m a)).map (m.set r)

/-- `Fr_div`, `fr.cpp.ejs:159-163`: the inverse goes to a local, placed here at the fresh address `t`. -/
def Fr_div (q : Nat) (u : Elem) (junk : Int) (m : Mem) (r a b t : Nat) : Option Mem :=
  (invInto q u junk u (m b)).map fun tmp =>
    let m' := Fr_mul q (m.set t tmp) r a t
    m'.set t (m t)

section
variable {q : Nat} {e : Elem} {x : ZMod q}

theorem Rep_short_val (hq : Modulus q) (h : Rep q e x) (h1 : e.long = false) :
    (x.val : ℤ) = if e.shortVal.toInt < 0 then e.shortVal.toInt + q else e.shortVal.toInt := by
  rw [← h.getShort h1, short_val hq]
  split <;> ring

theorem Fr_toMpz_eq (hq : Modulus q) (u : Elem) (h : Rep q e x) : Fr_toMpz q u e = (x.val : ℤ) := by
  unfold Fr_toMpz
  cases h1 : e.long
  · have e1 : toNormalInto q u e = e := by simp [toNormalInto, h1]
    simp only [e1, h1, Bool.not_false, if_true]
    rw [Rep_short_val hq h h1]
  · have h2 : (toNormalInto q u e).long = true := by
      unfold toNormalInto; split <;> simp [h1]
    simp only [h2, Bool.not_true, Bool.false_eq_true, if_false]
    have := (toNormalInto_rep hq u h h1).val_eq
    rw [mpzImport, this]

theorem Fr_fromMpz_rep (_hq : Modulus q) (e : Elem) {v : Int} (h0 : 0 ≤ v) (h1 : v < q) :
    ∃ e', Fr_fromMpz q e v = some e' ∧ Rep q e' ((v : ℤ) : ZMod q) := by
  unfold Fr_fromMpz
  split
  · rename_i hf
    refine ⟨_, rfl, Rep.short rfl rfl ?_⟩
    simp only [mpzFitsSint, decide_eq_true_eq] at hf
    rw [BitVec.toInt_ofInt, Int.bmod_eq_of_le (by norm_num; omega) (by norm_num; omega)]
  · have hlt : v.natAbs < W ^ n64 q := lt_of_le_of_lt (by omega) (q_lt_Wn q)
    rw [mpzExport_zero hlt]
    refine ⟨_, rfl, Rep.long rfl rfl ?_⟩
    refine ⟨by simp, ?_, ?_⟩
    · simp only []; rw [val_toLimbs_of_lt hlt]; omega
    · simp only []; rw [val_toLimbs_of_lt hlt]
      rw [← Int.cast_natCast, Int.natAbs_of_nonneg h0]

theorem Fr_element2str_eq (hq : Modulus q) (u : Elem) (h : Rep q e x) : Fr_element2str q u e = mpzGetStr 10 x.val := by
  unfold Fr_element2str
  cases h1 : e.long
  · have hv := Rep_short_val hq h h1
    simp only [Bool.not_false, if_true]
    split
    · rename_i h0
      rw [if_neg (by omega)] at hv; rw [← hv]; simp
    · rename_i h0
      rw [if_pos (by omega)] at hv; rw [← hv]; simp
  · simp only [Bool.not_true, Bool.false_eq_true, if_false]
    rw [mpzImport, (toNormalInto_rep hq u h h1).val_eq]; simp

theorem Fr_str2element_rep (hq : Modulus q) (e : Elem) (s : List Char) :
    ∃ e', Fr_str2element q e s = some e' ∧ Rep q e' ((mpzInitSetStr 10 s : ℤ) : ZMod q) := by
  have hp := hq.pos
  unfold Fr_str2element mpzFdivR
  rw [if_neg (by omega)]
  rw [Int.fmod_eq_emod_of_nonneg _ (by omega)]
  obtain ⟨e', h1, h2⟩ := Fr_fromMpz_rep hq e (v := mpzInitSetStr 10 s % (q : ℤ)) (Int.emod_nonneg _ (by omega))
    (Int.emod_lt_of_pos _ (by omega))
  refine ⟨e', h1, ?_⟩
  rwa [ZMod.intCast_mod] at h2

variable {m : Mem} {r a b : Nat} {y : ZMod q}

theorem map_set_rep {o : Option Elem} {z : ZMod q} (h : ∃ e', o = some e' ∧ Rep q e' z) :
    ∃ m', o.map (m.set r) = some m' ∧ Rep q (m' r) z ∧ ∀ p, p ≠ r → m' p = m p := by
  obtain ⟨e', h1, h2⟩ := h
  refine ⟨m.set r e', by rw [h1]; rfl, by simpa using h2, fun p hp => FF.set_other _ _ hp⟩

theorem Fr_idiv_rep (hq : Modulus q) (u : Elem) (ha : Rep q (m a) x) (hb : Rep q (m b) y) (hy : y ≠ 0) :
    ∃ m', Fr_idiv q u m r a b = some m' ∧ Rep q (m' r) ((x.val / y.val : Nat) : ZMod q) ∧ ∀ p, p ≠ r → m' p = m p := by
  have := hq.ne
  have hyv : y.val ≠ 0 := by rwa [Ne, ZMod.val_eq_zero]
  unfold Fr_idiv
  simp only [Fr_toMpz_eq hq u ha, Fr_toMpz_eq hq u hb]
  apply map_set_rep
  unfold mpzFdivQ
  rw [if_neg (by exact_mod_cast hyv), Option.bind_some, Int.fdiv_eq_ediv_of_nonneg _ (Int.natCast_nonneg _)]
  have hlt : x.val / y.val < q := lt_of_le_of_lt (Nat.div_le_self _ _) (ZMod.val_lt x)
  have := Fr_fromMpz_rep hq (m r) (v := ((x.val / y.val : Nat) : ℤ)) (Int.natCast_nonneg _) (by exact_mod_cast hlt)
  rw [Int.cast_natCast, Int.natCast_ediv] at this
  exact this

theorem Fr_mod_rep (hq : Modulus q) (u : Elem) (ha : Rep q (m a) x) (hb : Rep q (m b) y) (hy : y ≠ 0) :
    ∃ m', Fr_mod q u m r a b = some m' ∧ Rep q (m' r) ((x.val % y.val : Nat) : ZMod q) ∧ ∀ p, p ≠ r → m' p = m p := by
  have := hq.ne
  have hyv : y.val ≠ 0 := by rwa [Ne, ZMod.val_eq_zero]
  unfold Fr_mod
  simp only [Fr_toMpz_eq hq u ha, Fr_toMpz_eq hq u hb]
  apply map_set_rep
  unfold mpzFdivR
  rw [if_neg (by exact_mod_cast hyv), Option.bind_some, Int.fmod_eq_emod_of_nonneg _ (by omega)]
  have hlt : x.val % y.val < q := lt_of_le_of_lt (Nat.mod_le _ _) (ZMod.val_lt x)
  have := Fr_fromMpz_rep hq (m r) (v := ((x.val % y.val : Nat) : ℤ)) (Int.natCast_nonneg _) (by exact_mod_cast hlt)
  rw [Int.cast_natCast, Int.natCast_emod] at this
  exact this

theorem mpz_divmod_zero (a : Int) : mpzFdivQ a 0 = none ∧ mpzFdivR a 0 = none := ⟨rfl, rfl⟩

theorem Fr_pow_rep (hq : Modulus q) (u : Elem) (ha : Rep q (m a) x) (hb : Rep q (m b) y) :
    ∃ m', Fr_pow q u m r a b = some m' ∧ Rep q (m' r) (x ^ y.val) ∧ ∀ p, p ≠ r → m' p = m p := by
  have := hq.ne
  have hp := hq.pos
  unfold Fr_pow
  simp only [Fr_toMpz_eq hq u ha, Fr_toMpz_eq hq u hb]
  apply map_set_rep
  unfold mpzPowm
  rw [if_neg (by omega), Option.bind_some, powmNat_eq]
  have hx : ((x.val : ℤ) % (q : ℤ)).toNat = x.val := by
    have := ZMod.val_lt x
    rw [Int.emod_eq_of_lt (by omega) (by omega)]; exact Int.toNat_natCast _
  rw [hx]
  have hlt : x.val ^ y.val % q < q := Nat.mod_lt _ hp
  obtain ⟨e', h1, h2⟩ := Fr_fromMpz_rep hq (m r) (v := ((x.val ^ y.val % q : Nat) : ℤ)) (by omega) (by exact_mod_cast hlt)
  refine ⟨e', h1, ?_⟩
  rw [Int.cast_natCast, cast_mod, Nat.cast_pow, ZMod.natCast_zmod_val] at h2
  exact h2

theorem mpzInvert_unit (hq : Modulus q) (junk : Int) (hx : IsUnit x) :
    0 ≤ mpzInvert (x.val : ℤ) q junk ∧ mpzInvert (x.val : ℤ) q junk < q ∧
      ((mpzInvert (x.val : ℤ) q junk : ℤ) : ZMod q) = x⁻¹ := by
  have := hq.ne
  have hp := hq.pos
  have hg : Int.gcd (x.val : ℤ) (q : ℤ) = 1 := by
    have h := (ZMod.isUnit_iff_coprime x.val q).mp (by rwa [ZMod.natCast_zmod_val])
    exact_mod_cast h
  obtain ⟨h0, h1, h2⟩ := mpzInvert_spec (junk := junk) (by exact_mod_cast hp) hg
  refine ⟨h0, h1, ?_⟩
  have h3 := congrArg (fun z : ℤ => (z : ZMod q)) h2
  simp only [ZMod.intCast_mod, Int.cast_mul, Int.cast_natCast, ZMod.natCast_zmod_val, Int.cast_one] at h3
  have h4 := ZMod.mul_inv_of_unit x hx
  exact hx.mul_left_cancel (h3.trans h4.symm)

theorem invInto_rep (hq : Modulus q) (u : Elem) (junk : Int) (e' : Elem) (h : Rep q e x) (hx : IsUnit x) :
    ∃ e1, invInto q u junk e' e = some e1 ∧ Rep q e1 x⁻¹ := by
  unfold invInto
  rw [Fr_toMpz_eq hq u h]
  obtain ⟨h0, h1, h2⟩ := mpzInvert_unit hq junk hx
  have := Fr_fromMpz_rep hq e' h0 h1
  rwa [h2] at this

theorem Fr_inv_rep (hq : Modulus q) (u : Elem) (junk : Int) (ha : Rep q (m a) x) (hx : IsUnit x) :
    ∃ m', Fr_inv q u junk m r a = some m' ∧ Rep q (m' r) x⁻¹ ∧ ∀ p, p ≠ r → m' p = m p :=
  map_set_rep (invInto_rep hq u junk (m r) ha hx)

theorem Fr_div_rep (hq : Modulus q) (u : Elem) (junk : Int) {t : Nat} (hr : r ≠ t) (hat : a ≠ t)
    (ha : Rep q (m a) x) (hb : Rep q (m b) y) (hy : IsUnit y) :
    ∃ m', Fr_div q u junk m r a b t = some m' ∧ Rep q (m' r) (x * y⁻¹) ∧ ∀ p, p ≠ r → m' p = m p := by
  obtain ⟨e1, h1, h2⟩ := invInto_rep hq u junk u hb hy
  refine ⟨_, by unfold Fr_div; rw [h1]; rfl, ?_, ?_⟩
  · beta_reduce; simp only []
    rw [FF.set_other _ _ hr]
    exact Fr_mul_rep hq (by rwa [FF.set_other _ _ hat]) (by rwa [FF.set_same])
  · intro p hp
    by_cases hpt : p = t
    · subst hpt; simp
    · beta_reduce; simp only []
      rw [FF.set_other _ _ hpt, Fr_mul_other hp, FF.set_other _ _ hpt]

end

end FF
