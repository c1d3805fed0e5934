import Verif.TowerMap
import Verif.Props.Tower
import Verif.Props.Bn254

/-!
# C81: the extension tower of BN254 on limb arrays

C24–C28 hold over any base field; the inverse and the Frobenius maps were proved over the residues modulo `q`.  Here the base field is
the code's own: `El bnP` are the arrays of four limbs below `q` with the routines of the class `RawFq` (C72 says which), and
`F2El`, `F6El`, `F12El` over it are the structures the three classes keep in memory: 2, 6 and 12 such arrays.  `read2`, `read6`, `read12`
read every array by `El.toZ` and the coordinates in the quotients of `TowerSpec.lean`.
-/

set_option linter.unusedSectionVars false

namespace FF.Props

open FF Polynomial

/-- The value of two, six and twelve arrays. -/
noncomputable def read2 (e : F2El (El bnP)) : Ext2 (-1 : Fq) := F2.toExt (-1) (e.map El.toZ)
noncomputable def read6 (e : F6El (El bnP)) : Ext6 Fq := F6.toExt (e.map El.toZ)
noncomputable def read12 (e : F12El (El bnP)) : Ext12 Fq := F12.toExt (e.map El.toZ)

/-- Every value has exactly one representation. -/
theorem C81_reading : Function.Bijective read2 ∧ Function.Bijective read6 ∧ Function.Bijective read12 :=
  ⟨(F2.toExt_bijective _).comp (F2El.map_bijective (El.hom bnP) El.hom_bijective),
   F6.toExt_bijective.comp (F6El.map_bijective (El.hom bnP) El.hom_bijective),
   F12.toExt_bijective.comp (F12El.map_bijective (El.hom bnP) El.hom_bijective)⟩

/-- A call on a store of arrays does what the same call does on the store of their values. -/
theorem Writes.lift {E E' : Type} {f : E → E'} {m m' : Nat → E} {n' : Nat → E'} {r : Nat} {v : E} {v' : E'} {P : E' → Prop}
    (h : m' = Function.update m r v) (hn : n' = Function.update (fun k => f (m k)) r v') (e : f v = v')
    (w : Writes (fun k => f (m k)) n' r P) : Writes m m' r (fun x => P (f x)) := by
  refine .of_update h ?_
  have := w.1
  rw [hn, Function.update_self, ← e] at this
  exact this

local notation "φ" => El.hom bnP

/-- The texts of the two constructors (`f6field.cpp:10-23`, `f12field.cpp:8-13`) give the constants the Frobenius maps use. -/
theorem C81_constants : ∃ (e1 e2 e5 : F2El (El bnP)) (e3 e4 e6 : El bnP),
    F2Text "2581911344467009335267311115468803099551665605076196740867805258568234346338,19937756971775647987995932169929341994314640652964949448313374472400716661030"
      e1 F6.xiTo2PMinus2Over3 ∧ e1 = F6.xiTo2PMinus2Over3 ∧
    F2Text "21575463638280843010398324269430826099269044274347216827212613867836435027261,10307601595873709700152284273816112264069230130616436755625194854815875713954"
      e2 F6.xiToPMinus1Over3 ∧ e2 = F6.xiToPMinus1Over3 ∧
    baseFromString bnP "2203960485148121921418603742825762020974279258880205651966".toList = .ok e3.v ∧ e3 = F6.xiTo2PSquaredMinus2Over3 ∧
    baseFromString bnP "21888242871839275220042445260109153167277707414472061641714758635765020556616".toList = .ok e4.v ∧ e4 = F6.xiToPSquaredMinus1Over3 ∧
    F2Text "8376118865763821496583973867626364092589906065868298776909617916018768340080,16469823323077808223889137241176536799009286646108169935659301613961712198316"
      e5 F12.xiToPMinus1Over6 ∧ e5 = F12.xiToPMinus1Over6 ∧
    baseFromString bnP "21888242871839275220042445260109153167277707414472061641714758635765020556617".toList = .ok e6.v ∧ e6 = F12.xiToPSquaredMinus1Over6 := by
  have two : ∀ {s : String} {e : F2El (El bnP)} {n1 n2 : Nat}, F2Text s e ⟨(n1 : Fq), (n2 : Fq)⟩ → e = ⟨(n1 : El bnP), (n2 : El bnP)⟩ := by
    intro s e n1 n2 h
    refine F2El.ext (El.toZ_inj (h.2.1.trans ?_)) (El.toZ_inj (h.2.2.trans ?_))
    · exact (map_natCast φ n1).symm
    · exact (map_natCast φ n2).symm
  have one : ∀ n : Nat, ∃ x : El bnP, baseFromString bnP (mpzGetStr 10 n) = .ok x.v ∧ x = (n : El bnP) := by
    intro n
    obtain ⟨x, h1, h2⟩ := base_read n
    exact ⟨x, h1, El.toZ_inj (h2.trans (map_natCast φ n).symm)⟩
  obtain ⟨e1, h1⟩ := f2_read (s := "2581911344467009335267311115468803099551665605076196740867805258568234346338,19937756971775647987995932169929341994314640652964949448313374472400716661030")
    (n1 := 2581911344467009335267311115468803099551665605076196740867805258568234346338)
    (n2 := 19937756971775647987995932169929341994314640652964949448313374472400716661030) (by decide +kernel)
  obtain ⟨e2, h2⟩ := f2_read (s := "21575463638280843010398324269430826099269044274347216827212613867836435027261,10307601595873709700152284273816112264069230130616436755625194854815875713954")
    (n1 := 21575463638280843010398324269430826099269044274347216827212613867836435027261)
    (n2 := 10307601595873709700152284273816112264069230130616436755625194854815875713954) (by decide +kernel)
  obtain ⟨e5, h5⟩ := f2_read (s := "8376118865763821496583973867626364092589906065868298776909617916018768340080,16469823323077808223889137241176536799009286646108169935659301613961712198316")
    (n1 := 8376118865763821496583973867626364092589906065868298776909617916018768340080)
    (n2 := 16469823323077808223889137241176536799009286646108169935659301613961712198316) (by decide +kernel)
  obtain ⟨e3, h3, g3⟩ := one 2203960485148121921418603742825762020974279258880205651966
  obtain ⟨e4, h4, g4⟩ := one 21888242871839275220042445260109153167277707414472061641714758635765020556616
  obtain ⟨e6, h6, g6⟩ := one 21888242871839275220042445260109153167277707414472061641714758635765020556617
  rw [show mpzGetStr 10 2203960485148121921418603742825762020974279258880205651966 =
    "2203960485148121921418603742825762020974279258880205651966".toList by decide +kernel] at h3
  rw [show mpzGetStr 10 21888242871839275220042445260109153167277707414472061641714758635765020556616 =
    "21888242871839275220042445260109153167277707414472061641714758635765020556616".toList by decide +kernel] at h4
  rw [show mpzGetStr 10 21888242871839275220042445260109153167277707414472061641714758635765020556617 =
    "21888242871839275220042445260109153167277707414472061641714758635765020556617".toList by decide +kernel] at h6
  exact ⟨e1, e2, e5, e3, e4, e6, h1, two h1, h2, two h2, h3, g3, h4, g4, h5, two h5, h6, g6⟩

/-- The quadratic extension, for every store of arrays and every placement. -/
theorem C81_quadratic (m : F2.Store (El bnP)) (r a b : Nat) :
    Writes m (F2.addM m r a b) r (fun v => read2 v = read2 (m a) + read2 (m b)) ∧
    Writes m (F2.subM m r a b) r (fun v => read2 v = read2 (m a) - read2 (m b)) ∧
    Writes m (F2.negM m r a) r (fun v => read2 v = -read2 (m a)) ∧
    Writes m (F2.mulM (-1) m r a b) r (fun v => read2 v = read2 (m a) * read2 (m b)) ∧
    Writes m (F2.squareM (-1) m r a) r (fun v => read2 v = read2 (m a) ^ 2) ∧
    Writes m (F2.conjugateM m r a) r (fun v => read2 v = read2 (m a) ^ bnP) ∧
    (read2 (m b) ≠ 0 → Writes m (F2.invM (-1) m r b) r (fun v => read2 v * read2 (m b) = 1) ∧
      Writes m (F2.divM (-1) m r a b) r (fun v => read2 v * read2 (m b) = read2 (m a))) := by
  have hm1 : φ (-1) = -1 := by rw [map_neg, map_one]
  let n : F2.Store Fq := fun k => (m k).map φ
  obtain ⟨r1, r2, r3, -, -, r4, -⟩ := C24_ring (-1 : Fq) n r a b 0
  have r5 := C24_square_partial n r a
  have : CharP (Ext2 (-1 : Fq)) bnP := charP_of_hom (AdjoinRoot.of _)
  have r6 : F2.toExt (-1) (F2.conjugate (n a)) = F2.toExt (-1) (n a) ^ bnP := (ev2_frob (F2.hu (-1)) (n a)).symm
  refine ⟨r1.lift (F2.addM_eq m r a b) (F2.addM_eq n r a b) (F2.add_map φ _ _), r2.lift (F2.subM_eq m r a b) (F2.subM_eq n r a b) (F2.sub_map φ _ _),
    r3.lift (F2.negM_eq m r a) (F2.negM_eq n r a) (F2.neg_map φ _),
    r4.lift (F2.mulM_eq m _ r a b) (F2.mulM_eq n _ r a b) (by rw [F2.mul_map, hm1]),
    r5.lift (F2.squareM_eq m _ r a) (F2.squareM_eq n _ r a) (by rw [F2.square_map, hm1]),
    .of_update (F2.conjugateM_eq m r a) (by
      show F2.toExt (-1) ((F2.conjugate (m a)).map φ) = _
      rw [F2.conjugate_map]; exact r6), fun hb => ?_⟩
  have hb' : (n b).a ^ 2 - (-1) * (n b).b ^ 2 ≠ 0 := fun e => hb ((C24_norm (-1 : Fq) neg_one_nonsquare (n b)).mp e)
  obtain ⟨r7, r8⟩ := C24_inverse (-1 : Fq) n r a b hb'
  exact ⟨r7.lift (F2.invM_eq m _ r b) (F2.invM_eq n _ r b) (by rw [F2.inv_map, hm1]),
    r8.lift (F2.divM_eq m _ r a b) (F2.divM_eq n _ r a b) (by rw [F2.div_map, hm1])⟩

/-- The sextic extension; `t` is the local of `div`. -/
theorem C81_sextic (m : F6.Store (El bnP)) (r a b t : Nat) :
    Writes m (F6.addM m r a b) r (fun v => read6 v = read6 (m a) + read6 (m b)) ∧
    Writes m (F6.subM m r a b) r (fun v => read6 v = read6 (m a) - read6 (m b)) ∧
    Writes m (F6.negM m r a) r (fun v => read6 v = -read6 (m a)) ∧
    Writes m (F6.mulM m r a b) r (fun v => read6 v = read6 (m a) * read6 (m b)) ∧
    Writes m (F6.mulTauM m r a) r (fun v => read6 v = AdjoinRoot.root _ * read6 (m a)) ∧
    Writes m (F6.squareM m r a) r (fun v => read6 v = read6 (m a) ^ 2) ∧
    Writes m (F6.FrobeniusM m r a) r (fun v => read6 v = read6 (m a) ^ bnP) ∧
    Writes m (F6.FrobeniusP2M m r a) r (fun v => read6 v = read6 (m a) ^ (bnP ^ 2)) ∧
    (read6 (m b) ≠ 0 → Writes m (F6.invM m r b) r (fun v => read6 v * read6 (m b) = 1) ∧
      (a ≠ t → r ≠ t → read6 (F6.divM m t r a b r) * read6 (m b) = read6 (m a) ∧ ∀ k, k ≠ r → k ≠ t → F6.divM m t r a b k = m k)) := by
  let n : F6.Store Fq := fun k => (m k).map φ
  obtain ⟨r1, r2, r3, -, -, r4, r5, -⟩ := C25_ring n r a b F2.zero 0
  have r6 := C25_square n r a
  obtain ⟨r7, r8, -⟩ := C27_frobenius n (fun _ => F12.zero) r a
  generalize bnP ^ 2 = N at r8 ⊢
  have h7 : Writes m (F6.FrobeniusM m r a) r (fun v => read6 v = read6 (m a) ^ bnP) :=
    Writes.lift (f := F6El.map φ) (P := fun v => F6.toExt v = F6.toExt (n a) ^ bnP) (F6.FrobeniusM_eq m r a) (F6.FrobeniusM_eq n r a) (F6.Frobenius_map φ (m a)) r7
  have h8 := Writes.lift (f := F6El.map φ) (F6.FrobeniusP2M_eq m r a) (F6.FrobeniusP2M_eq n r a) (F6.FrobeniusP2_map φ (m a)) r8
  refine ⟨r1.lift (F6.addM_eq m r a b) (F6.addM_eq n r a b) (F6.add_map φ _ _), r2.lift (F6.subM_eq m r a b) (F6.subM_eq n r a b) (F6.sub_map φ _ _),
    r3.lift (F6.negM_eq m r a) (F6.negM_eq n r a) (F6.neg_map φ _), r4.lift (F6.mulM_eq m r a b) (F6.mulM_eq n r a b) (F6.mul_map φ _ _),
    r5.lift (F6.mulTauM_eq m r a) (F6.mulTauM_eq n r a) (F6.mulTau_map φ _), r6.lift (F6.squareM_eq m r a) (F6.squareM_eq n r a) (F6.square_map φ _),
    h7, h8, fun hb => ?_⟩
  obtain ⟨r9, -⟩ := C25_inverse n r a b t hb
  have hw := r9.lift (F6.invM_eq m r b) (F6.invM_eq n r b) (F6.inv_map φ _)
  refine ⟨hw, fun hat hrt => ?_⟩
  obtain ⟨d, -⟩ := (C25_inverse n r a b t hb).2 hat hrt
  rw [F6.divM_eq n t r a b hat, Function.update_self, ← F6.div_map] at d
  rw [F6.divM_eq m t r a b hat]
  refine ⟨?_, fun k hk hkt => by rw [Function.update_of_ne hk, Function.update_of_ne hkt]⟩
  rw [Function.update_self]; exact d

/-- The extension of degree twelve; `t` is the local of `div`. -/
theorem C81_dodecic (m : F12.Store (El bnP)) (r a b t : Nat) :
    Writes m (F12.addM m r a b) r (fun v => read12 v = read12 (m a) + read12 (m b)) ∧
    Writes m (F12.subM m r a b) r (fun v => read12 v = read12 (m a) - read12 (m b)) ∧
    Writes m (F12.negM m r a) r (fun v => read12 v = -read12 (m a)) ∧
    Writes m (F12.mulM m r a b) r (fun v => read12 v = read12 (m a) * read12 (m b)) ∧
    Writes m (F12.squareM m r a) r (fun v => read12 v = read12 (m a) ^ 2) ∧
    Writes m (F12.FrobeniusM m r a) r (fun v => read12 v = read12 (m a) ^ bnP) ∧
    Writes m (F12.FrobeniusP2M m r a) r (fun v => read12 v = read12 (m a) ^ (bnP ^ 2)) ∧
    (read12 (m b) ≠ 0 → Writes m (F12.invM m r b) r (fun v => read12 v * read12 (m b) = 1) ∧
      (a ≠ t → r ≠ t → read12 (F12.divM m t r a b r) * read12 (m b) = read12 (m a) ∧
        ∀ k, k ≠ r → k ≠ t → F12.divM m t r a b k = m k)) := by
  let n : F12.Store Fq := fun k => (m k).map φ
  obtain ⟨r1, r2, r3, -, r4, r6, -⟩ := C26_ring n r a b F6.zero
  obtain ⟨-, -, r7, r8⟩ := C27_frobenius (fun _ => F6.zero) n r a
  generalize bnP ^ 2 = N at r8 ⊢
  have h7 : Writes m (F12.FrobeniusM m r a) r (fun v => read12 v = read12 (m a) ^ bnP) :=
    Writes.lift (f := F12El.map φ) (P := fun v => F12.toExt v = F12.toExt (n a) ^ bnP) (F12.FrobeniusM_eq m r a) (F12.FrobeniusM_eq n r a) (F12.Frobenius_map φ (m a)) r7
  have h8 := Writes.lift (f := F12El.map φ) (F12.FrobeniusP2M_eq m r a) (F12.FrobeniusP2M_eq n r a) (F12.FrobeniusP2_map φ (m a)) r8
  refine ⟨r1.lift (F12.addM_eq m r a b) (F12.addM_eq n r a b) (F12.add_map φ _ _), r2.lift (F12.subM_eq m r a b) (F12.subM_eq n r a b) (F12.sub_map φ _ _),
    r3.lift (F12.negM_eq m r a) (F12.negM_eq n r a) (F12.neg_map φ _), r4.lift (F12.mulM_eq m r a b) (F12.mulM_eq n r a b) (F12.mul_map φ _ _),
    r6.lift (F12.squareM_eq m r a) (F12.squareM_eq n r a) (F12.square_map φ _),
    h7, h8, fun hb => ?_⟩
  obtain ⟨r9, -⟩ := C26_inverse n r a b t hb
  have hw := r9.lift (F12.invM_eq m r b) (F12.invM_eq n r b) (F12.inv_map φ _)
  refine ⟨hw, fun hat hrt => ?_⟩
  obtain ⟨d, -⟩ := (C26_inverse n r a b t hb).2 hat hrt
  rw [F12.divM_eq n t r a b hat, Function.update_self, ← F12.div_map] at d
  rw [F12.divM_eq m t r a b hat]
  refine ⟨?_, fun k hk hkt => by rw [Function.update_of_ne hk, Function.update_of_ne hkt]⟩
  rw [Function.update_self]; exact d

/-- The remaining operations of the quadratic extension: doubling, multiplication by `9 + u` and by a number. -/
theorem C81_quadratic_scalars (m : F2.Store (El bnP)) (r a : Nat) (c : El bnP) :
    Writes m (F2.dblM m r a) r (fun v => read2 v = 2 * read2 (m a)) ∧
    Writes m (F2.mulXiM m r a) r (fun v => read2 v = (9 + AdjoinRoot.root _) * read2 (m a)) ∧
    Writes m (F2.mulScalarM m r a c) r (fun v => read2 v = read2 (m a) * AdjoinRoot.of _ c.toZ) := by
  let n : F2.Store Fq := fun k => (m k).map φ
  obtain ⟨-, -, -, -, r1, -, r3⟩ := C24_ring (-1 : Fq) n r a a (φ c)
  have r2 := C25_mulXi n r a
  exact ⟨r1.lift (F2.dblM_eq m r a) (F2.dblM_eq n r a) (F2.dbl_map φ _), r2.lift (F2.mulXiM_eq m r a) (F2.mulXiM_eq n r a) (F2.mulXi_map φ _),
    r3.lift (F2.mulScalarM_eq m r a c) (F2.mulScalarM_eq n r a _) (F2.mulScalar_map φ _ _)⟩

/-- The remaining operations of the sextic extension: doubling, multiplication by an element of the quadratic extension and by a number. -/
theorem C81_sextic_scalars (m : F6.Store (El bnP)) (r a : Nat) (c : El bnP) (s : F2El (El bnP)) :
    Writes m (F6.dblM m r a) r (fun v => read6 v = 2 * read6 (m a)) ∧
    Writes m (F6.mulScalarM m r a s) r (fun v => read6 v = read6 (m a) * AdjoinRoot.of _ (read2 s)) ∧
    Writes m (F6.mulGFPM m r a c) r (fun v => read6 v = read6 (m a) * AdjoinRoot.of _ (AdjoinRoot.of _ c.toZ)) := by
  let n : F6.Store Fq := fun k => (m k).map φ
  obtain ⟨-, -, -, -, r4, -, -, r5, r6⟩ := C25_ring n r a a (s.map φ) (φ c)
  exact ⟨r4.lift (F6.dblM_eq m r a) (F6.dblM_eq n r a) (F6.dbl_map φ _),
    r5.lift (F6.mulScalarM_eq m r a s) (F6.mulScalarM_eq n r a _) (F6.mulScalar_map φ _ _),
    r6.lift (F6.mulGFPM_eq m r a c) (F6.mulGFPM_eq n r a _) (F6.mulGFP_map φ _ _)⟩

/-- The remaining operations of the extension of degree twelve: multiplication by an element of the sextic extension, conjugation. -/
theorem C81_dodecic_scalars (m : F12.Store (El bnP)) (r a : Nat) (s : F6El (El bnP)) :
    Writes m (F12.mulScalarM m r a s) r (fun v => read12 v = read12 (m a) * AdjoinRoot.of _ (read6 s)) ∧
    Writes m (F12.conjugateM m r a) r (fun v =>
      read12 v = AdjoinRoot.of _ (read6 (m a).y) - AdjoinRoot.of _ (read6 (m a).x) * AdjoinRoot.root _) := by
  let n : F12.Store Fq := fun k => (m k).map φ
  obtain ⟨-, -, -, -, -, -, r7, r8⟩ := C26_ring n r a a (s.map φ)
  exact ⟨r7.lift (F12.mulScalarM_eq m r a s) (F12.mulScalarM_eq n r a _) (F12.mulScalar_map φ _ _),
    r8.lift (F12.conjugateM_eq m r a) (F12.conjugateM_eq n r a) (F12.conjugate_map φ _)⟩

/-- The tests of the three classes decide equality of the values. -/
theorem C81_tests (a2 b2 : F2El (El bnP)) (a6 b6 : F6El (El bnP)) (a b : F12El (El bnP)) :
    (F2.eq a2 b2 = true ↔ read2 a2 = read2 b2) ∧ (F2.isZero a2 = true ↔ read2 a2 = 0) ∧ (F2.isOne a2 = true ↔ read2 a2 = 1) ∧
    (F6.eq a6 b6 = true ↔ read6 a6 = read6 b6) ∧ (F6.isZero a6 = true ↔ read6 a6 = 0) ∧ (F6.isOne a6 = true ↔ read6 a6 = 1) ∧
    (F12.eq a b = true ↔ read12 a = read12 b) ∧ (F12.isZero a = true ↔ read12 a = 0) ∧ (F12.isOne a = true ↔ read12 a = 1) := by
  obtain ⟨h1, h2, h3⟩ := C24_tests (-1 : Fq) (a2.map φ) (b2.map φ)
  obtain ⟨h4, h5, h6⟩ := C25_tests (a6.map φ) (b6.map φ)
  obtain ⟨h7, h8, h9⟩ := C26_tests (a.map φ) (b.map φ)
  rw [F2.eq_map] at h1
  rw [F2.isZero_map] at h2
  rw [F2.isOne_map] at h3
  rw [F6.eq_map] at h4
  rw [F6.isZero_map] at h5
  rw [F6.isOne_map] at h6
  rw [F12.eq_map] at h7
  rw [F12.isZero_map] at h8
  rw [F12.isOne_map] at h9
  exact ⟨h1, h2, h3, h4, h5, h6, h7, h8, h9⟩

/-- `exp`, when the result is not the base and the scalar has at most `2^28` bytes (the other calls: C28). -/
theorem C81_exp_partial (m : F12.Store (El bnP)) (r a : Nat) (hra : r ≠ a) (scalar : List (BitVec 8)) (hl : scalar.length ≤ 2 ^ 28) :
    Writes m (F12.expM m r a scalar) r (fun v => read12 v = read12 (m a) ^ valLE scalar) := by
  obtain ⟨h1, -⟩ := C28_exp_partial (fun k => (m k).map φ) r a hra scalar hl
  refine ⟨?_, (C28_exp_partial m r a hra scalar hl).2⟩
  rw [← F12.expM_map] at h1
  exact h1

/-- Two ways to the same arrays: `exp` with the bytes of `q` leaves, limb for limb, what `Frobenius` leaves, and with the bytes of `q²`
what `FrobeniusP2` leaves. -/
theorem C81_frobenius_exp (m : F12.Store (El bnP)) (r r' a : Nat) (hra : r ≠ a) (scalar : List (BitVec 8)) (hl : scalar.length ≤ 2 ^ 28) :
    (valLE scalar = bnP → F12.expM m r a scalar r = F12.FrobeniusM m r' a r') ∧
    (valLE scalar = bnP ^ 2 → F12.expM m r a scalar r = F12.FrobeniusP2M m r' a r') := by
  have h := (C81_exp_partial m r a hra scalar hl).1
  obtain ⟨-, -, -, -, -, h1, h2, -⟩ := C81_dodecic m r' a a 0
  exact ⟨fun e => C81_reading.2.2.1 (h.trans (by rw [e]; exact h1.1.symm)), fun e => C81_reading.2.2.1 (h.trans (by rw [e]; exact h2.1.symm))⟩

/-- The bytes of `q`, low byte first, are such a scalar. -/
example : valLE ((List.range 32).map fun i => BitVec.ofNat 8 (bnP / 256 ^ i)) = bnP := by decide +kernel
/-- An element that is not zero: `w`, made of eleven arrays of zeros and one. -/
example : read12 (⟨F6.one, F6.zero⟩ : F12El (El bnP)) ≠ 0 := by
  rw [Ne, ← (C81_tests F2.zero F2.zero F6.zero F6.zero _ F12.zero).2.2.2.2.2.2.2.1]
  decide +kernel
/-- `(2 + 3u)(4 + u) = 5 + 14u` on arrays, written over the first operand. -/
example : F2.mulM (-1 : El bnP) (fun k => if k = 0 then ⟨2, 3⟩ else ⟨4, 1⟩) 0 0 1 0 = ⟨5, 14⟩ := by decide +kernel

end FF.Props
