import Verif.AsmAddSub

/-!
# Comparisons in the generated assembly

The listings of `src/cmpops.asm.ejs` for `n` limbs, with the `rgt_`, `rlt_`, `req_` prefixes of the labels dropped.
-/

namespace FF.X86

/-! ## Listings -/

/-- `signL`, `src/cmpops.asm.ejs:1-12`: to `pos` if the limbs are at most `half`, to `neg` otherwise. -/
def signL (n : Nat) (r : Reg) (pos neg : String) : List Line :=
  down (fun i => [op .mov rax (.mem r (8 + 8 * i)), op .cmp (.sym .half (8 * i)) rax, .jump .carry neg] ++
    if i > 0 then [.jump .nzero pos] else [.jump .always pos]) n

/-- The end of a comparison, e.g. `src/cmpops.asm.ejs:125-131`. -/
def cmpRet0 : List Line := .label "ret0" :: op .xor rax rax :: leave
/-- e.g. `src/cmpops.asm.ejs:132-138`. -/
def cmpRet1 : List Line := .label "ret1" :: op .mov rax (.imm 1) :: leave

/-- The dispatch on the two tags, `src/cmpops.asm.ejs:26-106` (`rgt`), `153-233` (`rlt`) and `278-354` (`req`), which differ in
the jump condition `c`, in the conversions and in what follows the label `L1L2`. -/
def cmpCode (n : Nat) (c : Cond) (l1ms2 s1l2m l1nl2m l1ml2n l1ml2m tail : List Line) : List Line :=
  enter ++ [op .mov r8 (.mem .rsi 0), op .mov r9 (.mem .rdx 0), .misc (.bt .r8 63), .jump .carry "l1",
    .misc (.bt .r9 63), .jump .carry "s1l2",
    .label "s1s2", .misc (.op32 .cmp .r8 (.reg .r9)), .jump c "ret1", .jump .always "ret0",
    .label "l1", .misc (.bt .r9 63), .jump .carry "l1l2",
    .label "l1s2", .misc (.bt .r8 62), .jump .carry "l1ms2",
    .label "l1ns2"] ++ convB n "toLongNormal" ++ [.jump .always "L1L2",
    .label "l1ms2"] ++ l1ms2 ++ [.jump .always "L1L2",
    .label "s1l2", .misc (.bt .r9 62), .jump .carry "s1l2m",
    .label "s1l2n"] ++ convA n "toLongNormal" ++ [.jump .always "L1L2",
    .label "s1l2m"] ++ s1l2m ++ [.jump .always "L1L2",
    .label "l1l2", .misc (.bt .r8 62), .jump .carry "l1ml2",
    .label "l1nl2", .misc (.bt .r9 62), .jump .carry "l1nl2m",
    .label "l1nl2n", .jump .always "L1L2",
    .label "l1nl2m"] ++ l1nl2m ++ [.jump .always "L1L2",
    .label "l1ml2", .misc (.bt .r9 62), .jump .carry "l1ml2m",
    .label "l1ml2n"] ++ l1ml2n ++ [.jump .always "L1L2",
    .label "l1ml2m"] ++ l1ml2m ++ [.jump .always "L1L2",
    .label "L1L2"] ++ tail

/-- `rgt` and `rlt` convert the same way. -/
def cmpOrd (n : Nat) (c : Cond) (tail : List Line) : List Line :=
  cmpCode n c (convB n "toLongNormal" ++ convA n "toNormal") (convA n "toLongNormal" ++ convB n "toNormal")
    (convB n "toNormal") (convA n "toNormal") (convA n "toNormal" ++ convB n "toNormal") tail

/-- The signs of the two operands decide, or the limbs do, `src/cmpops.asm.ejs:107-115` and `234-242`: `lp`, `ln` are where a
positive and a negative first operand go on a second operand of the other sign. -/
def signs (n : Nat) (lp ln : String) : List Line :=
  signL n .rsi "p1" "n1" ++ [.label "p1"] ++ signL n .rdx "RawL1L2" lp ++ [.label "n1"] ++ signL n .rdx ln "RawL1L2" ++
    [.label "RawL1L2"]

/-- `<name>_rgt`, `src/cmpops.asm.ejs:26-138`. -/
def rgtCode (n : Nat) : List Line :=
  cmpOrd n .greater (signs n "ret1" "ret0" ++
    down (fun i => [op .mov rax (.mem .rsi (8 + 8 * i)), op .cmp (.mem .rdx (8 + 8 * i)) rax, .jump .carry "ret1"] ++
      if i > 0 then [.jump .nzero "ret0"] else []) n ++ cmpRet0 ++ cmpRet1)

/-- `<name>_rlt`, `src/cmpops.asm.ejs:153-263`. -/
def rltCode (n : Nat) : List Line :=
  cmpOrd n .less (signs n "ret0" "ret1" ++
    down (fun i => [op .mov rax (.mem .rsi (8 + 8 * i)), op .cmp (.mem .rdx (8 + 8 * i)) rax, .jump .carry "ret0",
      .jump .nzero "ret1"]) n ++ cmpRet0 ++ cmpRet1)

/-- `<name>_req`, `src/cmpops.asm.ejs:278-375`. -/
def reqCode (n : Nat) : List Line :=
  cmpCode n .zero (convB n "toMontgomery") (convA n "toMontgomery") (convA n "toMontgomery") (convB n "toMontgomery") []
    (((List.range n).flatMap fun i => [op .mov rax (.mem .rsi (8 + 8 * i)), op .cmp (.mem .rdx (8 + 8 * i)) rax,
      .jump .nzero "ret0"]) ++ cmpRet1 ++ cmpRet0)

/-- `<name>_gt`, `<name>_lt`, `<name>_eq`, `src/cmpops.asm.ejs:389-392, 405-408, 421-424`. -/
def cmpStore (f : String) : List Line := [.call f, op .mov (.mem .rdi 0) rax, .ret]
/-- `<name>_neq`, `<name>_geq`, `<name>_leq`, `src/cmpops.asm.ejs:437-441, 454-458, 471-475`. -/
def cmpStoreNot (f : String) : List Line := [.call f, op .xor rax (.imm 1), op .mov (.mem .rdi 0) rax, .ret]

/-- The comparisons added to the library. -/
def libCmp (q : Nat) (ra : BitVec 64) : String → Option (State → Option State) := fun f =>
  if f = "rgt" then some (run (lib q ra) ra (rgtCode (n64 q)))
  else if f = "rlt" then some (run (lib q ra) ra (rltCode (n64 q)))
  else if f = "req" then some (run (lib q ra) ra (reqCode (n64 q)))
  else lib q ra f

/-! ## Comparing limbs from the top -/

theorem then_assoc' (a b c : Ordering) : (a.then b).then c = a.then (b.then c) := by cases a <;> rfl

theorem mpn_cmp_append : ∀ (xs ys : Limbs) (x y : BitVec 64), xs.length = ys.length →
    mpn_cmp (xs ++ [x]) (ys ++ [y]) = (compare x.toNat y.toNat).then (mpn_cmp xs ys)
  | [], [], x, y, _ => by simp [mpn_cmp]
  | a :: xs, b :: ys, x, y, h => by
    have ih := mpn_cmp_append xs ys x y (by simpa using h)
    simp only [List.cons_append, mpn_cmp]
    rw [ih, then_assoc']

section cmp

variable {q F F' k n : Nat} {ra : BitVec 64} {s t : State} {env : String → Option (State → Option State)} {m : Mem}

/-- The first `k` values of a sequence. -/
def firsts (L : Nat → BitVec 64) (k : Nat) : Limbs := (List.range' 0 k).map L

theorem firsts_succ (L : Nat → BitVec 64) (k : Nat) : firsts L (k + 1) = firsts L k ++ [L k] := by
  simp [firsts, List.range'_concat]

theorem firsts_length (L : Nat → BitVec 64) (k : Nat) : (firsts L k).length = k := by simp [firsts]

theorem cmp_firsts (L R : Nat → BitVec 64) (k : Nat) : mpn_cmp (firsts L (k + 1)) (firsts R (k + 1)) =
    (compare (L k).toNat (R k).toNat).then (mpn_cmp (firsts L k) (firsts R k)) := by
  rw [firsts_succ, firsts_succ, mpn_cmp_append _ _ _ _ (by rw [firsts_length, firsts_length])]

theorem dropTo_down (l : String) (g : Nat → List Line) (hg : ∀ i p, dropTo l (g i ++ p) = dropTo l p) (p : List Line) :
    ∀ k, dropTo l (down g k ++ p) = dropTo l p
  | 0 => rfl
  | k + 1 => by rw [down, List.append_assoc, hg, dropTo_down l g hg p k]

/-- Two sequences of words compared from the top: to `lc` if the left one is smaller, to `ln` if it is larger; at index 0 the
code `last` follows. -/
theorem downCmp_run {pre : Nat → List Line} {lc ln : String} {last p : List Line} {L R : Nat → BitVec 64}
    {fin : Ordering → List Line}
    (hp : ∀ i, (pre i).all Line.plain = true) (hd : ∀ l i p, dropTo l (pre i ++ p) = dropTo l p)
    (hl : ∀ l p, dropTo l (last ++ p) = dropTo l p)
    (hpre : ∀ i t', Agree notRax t t' → Agree notRax t (exes (pre i) t') ∧
      (exes (pre i) t').fl.cf = decide ((L i).toNat < (R i).toNat) ∧ (exes (pre i) t').fl.zf = decide (L i = R i))
    (hlt : fin .lt = dropTo lc p) (hgt : fin .gt = dropTo ln p)
    (hlast : ∀ t' : State, t'.fl.zf = decide (L 0 = R 0) → ¬ (L 0).toNat < (R 0).toNat →
      run env ra (last ++ p) t' = run env ra (fin (compare (L 0).toNat (R 0).toNat)) t') :
    ∀ k t', Agree notRax t t' → ∃ t'', Agree notRax t t'' ∧
      run env ra (down (fun i => pre i ++ .jump .carry lc :: if i > 0 then [.jump .nzero ln] else last) (k + 1) ++ p) t' =
        run env ra (fin (mpn_cmp (firsts L (k + 1)) (firsts R (k + 1)))) t'' := by
  have hdl : ∀ l i p, dropTo l ((pre i ++ .jump .carry lc :: if i > 0 then [.jump .nzero ln] else last) ++ p) = dropTo l p := by
    intro l i p
    rw [List.append_assoc, hd, List.cons_append, dropTo_jump]
    by_cases h0 : i > 0
    · rw [if_pos h0, List.cons_append, dropTo_jump, List.nil_append]
    · rw [if_neg h0, hl]
  intro k
  induction k with
  | zero =>
    intro t' hA
    obtain ⟨a1, a2, a3⟩ := hpre 0 t' hA
    refine ⟨_, a1, ?_⟩
    have e : mpn_cmp (firsts L 1) (firsts R 1) = compare (L 0).toNat (R 0).toNat := by
      rw [cmp_firsts]
      show (compare (L 0).toNat (R 0).toNat).then .eq = _
      cases compare (L 0).toNat (R 0).toNat <;> rfl
    show run env ra ((pre 0 ++ .jump .carry lc :: last) ++ [] ++ p) t' = _
    rw [List.append_nil, List.append_assoc, run_exes _ (hp 0), List.cons_append, run_jump, Cond.holds, a2, e]
    by_cases h : (L 0).toNat < (R 0).toNat
    · rw [if_pos (by simpa using h), compare_lt_iff_lt.2 h, hlt, hl]
    · rw [if_neg (by simpa using h), hlast _ a3 h]
  | succ k ih =>
    intro t' hA
    obtain ⟨a1, a2, a3⟩ := hpre (k + 1) t' hA
    rw [down, List.append_assoc, List.append_assoc, run_exes _ (hp _), if_pos (Nat.succ_pos k), List.cons_append, run_jump,
      Cond.holds, a2, cmp_firsts]
    by_cases h : (L (k + 1)).toNat < (R (k + 1)).toNat
    · refine ⟨_, a1, ?_⟩
      rw [if_pos (by simpa using h), compare_lt_iff_lt.2 h, List.cons_append, dropTo_jump, List.nil_append, dropTo_down _ _ (hdl lc)]
      show _ = run env ra (fin .lt) _
      rw [hlt]
    · rw [if_neg (by simpa using h), List.cons_append, run_jump, Cond.holds, a3, List.nil_append]
      by_cases h' : L (k + 1) = R (k + 1)
      · obtain ⟨t'', b1, b2⟩ := ih _ a1
        refine ⟨t'', b1, ?_⟩
        rw [if_neg (by simp [h']), b2, h', compare_eq_iff_eq.2 rfl]
        rfl
      · refine ⟨_, a1, ?_⟩
        have : (R (k + 1)).toNat < (L (k + 1)).toNat := by
          have : (L (k + 1)).toNat ≠ (R (k + 1)).toNat := fun e => h' (BitVec.eq_of_toNat_eq e)
          omega
        rw [if_pos (by simp [h']), dropTo_down _ _ (hdl ln), compare_gt_iff_gt.2 this]
        show _ = run env ra (fin .gt) _
        rw [hgt]

end cmp

end FF.X86
