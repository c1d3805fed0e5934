import Verif.AsmCmpMain
import Verif.AsmLogic
import Verif.AsmNot
import Verif.Props.AsmTagged

/-!
# Properties C62, C64, C65 and C66: the comparisons, logical and bitwise operations of the x86-64 assembly

`libCmp q ra` is the library `lib q ra` with the three comparisons `rgt`, `rlt`, `req`, which the storing comparisons call.
The states quantified over are those of C61: the tables, the stack and the elements laid out as the C++ caller lays them out.

* C62: the result element is, bit for bit, the one the portable code leaves.
* C64: the comparisons decide equality of the residues and the order of their signed representatives.
* C65: `isTrue`, `land`, `lor`, `lnot`.
* C66: `band`, `bor`, `bxor`, `bnot`.
-/

namespace FF.Props

open FF FF.X86

section agree

variable {q : Nat} {s : State} {ra : BitVec 64}

theorem cmp_fits (q : Nat) : cmpCells q + 1 ≤ tagStack q := by
  have := callCells_le q
  unfold cmpCells tagStack
  omega

theorem stack_succ (q : Nat) : tagStack q = (tagStack q - 1) + 1 := by unfold tagStack; omega

/-- The two order comparisons of the library. -/
theorem ord_specs (u : Elem) (hq : q % 2 = 1) :
    CmpSpec q (tagStack q - 1) ra (libCmp q ra) "rgt" (Fr_rgt q u) (fun a b => FromOk q a ∧ FromOk q b) ∧
    CmpSpec q (tagStack q - 1) ra (libCmp q ra) "rlt" (Fr_rlt q u) fun a b => FromOk q a ∧ FromOk q b := by
  have hF := cmp_fits q
  have hc : callCells q ≤ tagStack q - 1 := by unfold cmpCells at hF; omega
  exact ⟨cmpSpec_of (P := rgtCode (n64 q)) rfl hc fun s h ha hb h7 => rgtCode_run hq (n64_pos q) h7.1 h7.2 u h ha hb (by omega),
    cmpSpec_of (P := rltCode (n64 q)) rfl hc fun s h ha hb h7 => rltCode_run hq (n64_pos q) h7.1 h7.2 u h ha hb (by omega)⟩

/-- The equality comparison of the library. -/
theorem eq_spec (u : Elem) (hq : q % 2 = 1) :
    CmpSpec q (tagStack q - 1) ra (libCmp q ra) "req" (Fr_req q u) (MixOk q) := by
  have hF := cmp_fits q
  have hc : callCells q ≤ tagStack q - 1 := by unfold cmpCells at hF; omega
  exact cmpSpec_of (P := reqCode (n64 q)) rfl hc fun s h ha hb h7 =>
    reqCode_run hq u (by rw [absMem_at, absMem_at]; exact h7) h ha hb (by omega)

theorem store_agree {f : String} {g : Elem → Elem → Bool} {Q : Elem → Elem → Prop}
    (hf : CmpSpec q (tagStack q - 1) ra (libCmp q ra) f g Q) (h : TagReady q s)
    (ha : TagOperand q s .rsi) (hb : TagOperand q s .rdx) (hQ : Q (opAt q s .rsi) (opAt q s .rdx)) :
    (∃ s', run (libCmp q ra) ra (cmpStore f) s = some s' ∧ TagReturns q s s' (storeBool (absMem (n64 q) s.mem) (s.reg .rdi).toNat
      (g (absMem (n64 q) s.mem (s.reg .rsi).toNat) (absMem (n64 q) s.mem (s.reg .rdx).toNat)) (s.reg .rdi).toNat)) ∧
    ∃ s', run (libCmp q ra) ra (cmpStoreNot f) s = some s' ∧ TagReturns q s s' (storeBool (absMem (n64 q) s.mem) (s.reg .rdi).toNat
      (!g (absMem (n64 q) s.mem (s.reg .rsi).toNat) (absMem (n64 q) s.mem (s.reg .rdx).toNat)) (s.reg .rdi).toNat) := by
  have e := stack_succ q
  have h' := h.args; have ha' := ha.opnd; have hb' := hb.opnd
  rw [e] at h' ha' hb'
  obtain ⟨s1, r1, r2⟩ := cmpStore_run hf h' ha' hb' hQ
  obtain ⟨s2, r3, r4⟩ := cmpStoreNot_run hf h' ha' hb' hQ
  rw [← e] at r2 r4
  exact ⟨⟨s1, r1, tagReturns_of r2⟩, ⟨s2, r3, tagReturns_of r4⟩⟩

/-- C62, the storing tests for equality, whatever the memory holds, also in place.  Missing: of the moduli for which C55
has no right conversion to Montgomery form (`¬ ConvRight q`), a plain short operand beside one in that form. -/
theorem C62_eq_partial (u : Elem) (hq : q % 2 = 1) (h7 : MixOk q (opAt q s .rsi) (opAt q s .rdx)) (h : TagReady q s)
    (ha : TagOperand q s .rsi) (hb : TagOperand q s .rdx) :
    (∃ s', run (libCmp q ra) ra (cmpStore "req") s = some s' ∧ TagReturns q s s'
      (Fr_eq q u (absMem (n64 q) s.mem) (s.reg .rdi).toNat (s.reg .rsi).toNat (s.reg .rdx).toNat (s.reg .rdi).toNat)) ∧
    (∃ s', run (libCmp q ra) ra (cmpStoreNot "req") s = some s' ∧ TagReturns q s s'
      (Fr_neq q u (absMem (n64 q) s.mem) (s.reg .rdi).toNat (s.reg .rsi).toNat (s.reg .rdx).toNat (s.reg .rdi).toNat)) :=
  store_agree (eq_spec (ra := ra) u hq) h ha hb h7

/-- C62, the storing order comparisons, whatever the memory holds, also in place.  Missing: the long operands in Montgomery form
of the seven-limb moduli, for which C55 has no right conversion (`FromOk`). -/
theorem C62_compare_partial (u : Elem) (hq : q % 2 = 1) (h7a : FromOk q (opAt q s .rsi)) (h7b : FromOk q (opAt q s .rdx)) (h : TagReady q s)
    (ha : TagOperand q s .rsi) (hb : TagOperand q s .rdx) :
    (∃ s', run (libCmp q ra) ra (cmpStore "rlt") s = some s' ∧ TagReturns q s s'
      (Fr_lt q u (absMem (n64 q) s.mem) (s.reg .rdi).toNat (s.reg .rsi).toNat (s.reg .rdx).toNat (s.reg .rdi).toNat)) ∧
    (∃ s', run (libCmp q ra) ra (cmpStore "rgt") s = some s' ∧ TagReturns q s s'
      (Fr_gt q u (absMem (n64 q) s.mem) (s.reg .rdi).toNat (s.reg .rsi).toNat (s.reg .rdx).toNat (s.reg .rdi).toNat)) ∧
    (∃ s', run (libCmp q ra) ra (cmpStoreNot "rgt") s = some s' ∧ TagReturns q s s'
      (Fr_leq q u (absMem (n64 q) s.mem) (s.reg .rdi).toNat (s.reg .rsi).toNat (s.reg .rdx).toNat (s.reg .rdi).toNat)) ∧
    (∃ s', run (libCmp q ra) ra (cmpStoreNot "rlt") s = some s' ∧ TagReturns q s s'
      (Fr_geq q u (absMem (n64 q) s.mem) (s.reg .rdi).toNat (s.reg .rsi).toNat (s.reg .rdx).toNat (s.reg .rdi).toNat)) := by
  obtain ⟨hg, hl⟩ := ord_specs (ra := ra) u hq
  obtain ⟨g1, g2⟩ := store_agree hg h ha hb ⟨h7a, h7b⟩
  obtain ⟨l1, l2⟩ := store_agree hl h ha hb ⟨h7a, h7b⟩
  exact ⟨l1, g1, g2, l2⟩

/-- C62, conjunction, disjunction, negation, for every modulus and whatever the memory holds. -/
theorem C62_logical (h : TagReady q s) :
    (∃ s', run (lib q ra) ra (landCode (n64 q)) s = some s' ∧ TagReturns q s s'
      (Fr_land (absMem (n64 q) s.mem) (s.reg .rdi).toNat (s.reg .rsi).toNat (s.reg .rdx).toNat (s.reg .rdi).toNat)) ∧
    (∃ s', run (lib q ra) ra (lorCode (n64 q)) s = some s' ∧ TagReturns q s s'
      (Fr_lor (absMem (n64 q) s.mem) (s.reg .rdi).toNat (s.reg .rsi).toNat (s.reg .rdx).toNat (s.reg .rdi).toNat)) ∧
    ∃ s', run (lib q ra) ra (lnotCode (n64 q)) s = some s' ∧ TagReturns q s s'
      (Fr_lnot (absMem (n64 q) s.mem) (s.reg .rdi).toNat (s.reg .rsi).toNat (s.reg .rdi).toNat) := by
  obtain ⟨s1, a1, b1⟩ := landCode_run (env := lib q ra) (ra := ra) h.args
  obtain ⟨s2, a2, b2⟩ := lorCode_run (env := lib q ra) (ra := ra) h.args
  obtain ⟨s3, a3, b3⟩ := lnotCode_run (env := lib q ra) (ra := ra) h.args
  exact ⟨⟨s1, a1, tagReturns_of b1⟩, ⟨s2, a2, tagReturns_of b2⟩, ⟨s3, a3, tagReturns_of b3⟩⟩

/-- The moduli for which the assembly masks the limb a short operand is combined with: those of two limbs or more, and those
that fill their limb. -/
def ShortMasked (q : Nat) : Prop := 2 ≤ n64 q ∨ bitLen q = 64 * n64 q

/-- C62, `band`, `bor`, `bxor`, whatever the memory holds, also in place.  Missing: the long operands in Montgomery form of the
seven-limb moduli (C55 has no right conversion), and the one-limb moduli with `¬ ShortMasked q`, for which the assembly does not mask
the limb, so that it differs on invalid elements (whose limb is not below the modulus). -/
theorem C62_bitwise_partial (u : Elem) (hq : q % 2 = 1) (h7a : FromOk q (opAt q s .rsi)) (h7b : FromOk q (opAt q s .rdx)) (hm : ShortMasked q) (h : TagReady q s)
    (ha : TagOperand q s .rsi) (hb : TagOperand q s .rdx) :
    (∃ s', run (lib q ra) ra (bandCode (n64 q)) s = some s' ∧ TagReturns q s s'
      (Fr_band q u (absMem (n64 q) s.mem) (s.reg .rdi).toNat (s.reg .rsi).toNat (s.reg .rdx).toNat (s.reg .rdi).toNat)) ∧
    (∃ s', run (lib q ra) ra (borCode (n64 q)) s = some s' ∧ TagReturns q s s'
      (Fr_bor q u (absMem (n64 q) s.mem) (s.reg .rdi).toNat (s.reg .rsi).toNat (s.reg .rdx).toNat (s.reg .rdi).toNat)) ∧
    ∃ s', run (lib q ra) ra (bxorCode (n64 q)) s = some s' ∧ TagReturns q s s'
      (Fr_bxor q u (absMem (n64 q) s.mem) (s.reg .rdi).toNat (s.reg .rsi).toNat (s.reg .rdx).toNat (s.reg .rdi).toNat) := by
  have hF := cmp_fits q
  replace hm : BitFits q u (absMem (n64 q) s.mem) (s.reg .rdi).toNat (s.reg .rsi).toNat (s.reg .rdx).toNat :=
    ⟨fun _ _ => hm.imp_right .inl, fun _ _ => hm.imp_right .inl⟩
  obtain ⟨s1, a1, b1⟩ := bandCode_run (ra := ra) hq (n64_pos q) h7a h7b u h.args ha.opnd hb.opnd (by omega) hm
  obtain ⟨s2, a2, b2⟩ := borCode_run (ra := ra) hq (n64_pos q) h7a h7b u h.args ha.opnd hb.opnd (by omega) hm
  obtain ⟨s3, a3, b3⟩ := bxorCode_run (ra := ra) hq (n64_pos q) h7a h7b u h.args ha.opnd hb.opnd (by omega) hm
  exact ⟨⟨s1, a1, tagReturns_of b1⟩, ⟨s2, a2, tagReturns_of b2⟩, ⟨s3, a3, tagReturns_of b3⟩⟩

/-- C62, `bnot`.  Missing: the long operands in Montgomery form of the seven-limb moduli (C55). -/
theorem C62_bnot_partial (u : Elem) (hq : q % 2 = 1) (h7 : FromOk q (opAt q s .rsi)) (h : TagReady q s)
    (ha : TagOperand q s .rsi) :
    ∃ s', run (lib q ra) ra (bnotCode (n64 q)) s = some s' ∧
      TagReturns q s s' (Fr_bnot q u (absMem (n64 q) s.mem) (s.reg .rdi).toNat (s.reg .rsi).toNat (s.reg .rdi).toNat) := by
  have hF := cmp_fits q
  obtain ⟨s', h1, h2⟩ := bnotCode_run (ra := ra) hq (n64_pos q) h7 u h.args ha.opnd (by omega)
  exact ⟨s', h1, tagReturns_of h2⟩

end agree

section residues

variable {q : Nat} {s : State} {x y : ZMod q}

/-! ## C64 -/

/-- A comparison returns normally with the truth value of `P` in `rax`, and leaves the result element as it was. -/
def TagDecides (env : String → Option (State → Option State)) (ra : BitVec 64) (code : List Line) (q : Nat) (s : State) (P : Prop) : Prop :=
  ∃ s', run env ra code s = some s' ∧ TagReturns q s s' (opAt q s .rdi) ∧ (s'.reg .rax = 1 ∧ P ∨ s'.reg .rax = 0 ∧ ¬ P)

theorem decides_of {env : String → Option (State → Option State)} {ra : BitVec 64} {code : List Line} {P : Prop} [Decidable P] {v : Bool}
    (hv : v = decide P) (h : ∃ s', run env ra code s = some s' ∧ CmpRet q (tagStack q) s s' (absMem (n64 q) s.mem (s.reg .rdi).toNat) v) :
    TagDecides env ra code q s P := by
  obtain ⟨s', h1, h2, h3⟩ := h
  rw [absMem_at] at h2
  refine ⟨s', h1, tagReturns_of h2, ?_⟩
  subst hv
  by_cases hP : P
  · exact .inl ⟨by simpa [hP] using h3, hP⟩
  · exact .inr ⟨by simpa [hP] using h3, hP⟩

/-- C64, the order comparisons that return their truth value.  Missing: the long operands in Montgomery form of the
seven-limb moduli, for which C55 has no right conversion. -/
theorem C64_flags_partial (ra : BitVec 64) (hq : Modulus q) (h7a : FromOk q (opAt q s .rsi)) (h7b : FromOk q (opAt q s .rdx)) (h : TagReady q s)
    (ha : TagOperand q s .rsi) (hb : TagOperand q s .rdx) (hx : Rep q (opAt q s .rsi) x) (hy : Rep q (opAt q s .rdx) y) :
    TagDecides (lib q ra) ra (rltCode (n64 q)) q s (sval x < sval y) ∧
      TagDecides (lib q ra) ra (rgtCode (n64 q)) q s (sval y < sval x) := by
  have hF := cmp_fits q
  have hx' : Rep q (absMem (n64 q) s.mem (s.reg .rsi).toNat) x := by rw [absMem_at]; exact hx
  have hy' : Rep q (absMem (n64 q) s.mem (s.reg .rdx).toNat) y := by rw [absMem_at]; exact hy
  exact ⟨decides_of (Fr_rlt_iff (u := opAt q s .rdi) hq hx' hy') (rltCode_run hq.odd (n64_pos q) h7a h7b _ h.args ha.opnd hb.opnd (by omega)),
    decides_of (Fr_rgt_iff (u := opAt q s .rdi) hq hx' hy') (rgtCode_run hq.odd (n64_pos q) h7a h7b _ h.args ha.opnd hb.opnd (by omega))⟩

/-- C64, the equality test that returns its truth value.  Missing: of the moduli for which C55 has no right conversion
to Montgomery form, a plain short operand beside one in that form (`C64_eq_seven_violated`). -/
theorem C64_req_partial (ra : BitVec 64) (hq : Modulus q) (h7 : MixOk q (opAt q s .rsi) (opAt q s .rdx)) (h : TagReady q s)
    (ha : TagOperand q s .rsi) (hb : TagOperand q s .rdx) (hx : Rep q (opAt q s .rsi) x) (hy : Rep q (opAt q s .rdx) y) :
    TagDecides (lib q ra) ra (reqCode (n64 q)) q s (x = y) := by
  have hF := cmp_fits q
  have hx' : Rep q (absMem (n64 q) s.mem (s.reg .rsi).toNat) x := by rw [absMem_at]; exact hx
  have hy' : Rep q (absMem (n64 q) s.mem (s.reg .rdx).toNat) y := by rw [absMem_at]; exact hy
  exact decides_of (Fr_req_iff (u := opAt q s .rdi) hq hx' hy') (reqCode_run hq.odd _ (by rw [absMem_at, absMem_at]; exact h7) h.args ha.opnd hb.opnd (by omega))

/-- C64, `eq` and `neq`, also in place.  Missing as for `req`. -/
theorem C64_eq_partial (ra : BitVec 64) (hq : Modulus q) (h7 : MixOk q (opAt q s .rsi) (opAt q s .rdx)) (h : TagReady q s)
    (ha : TagOperand q s .rsi) (hb : TagOperand q s .rdx) (hx : Rep q (opAt q s .rsi) x) (hy : Rep q (opAt q s .rdx) y) :
    TagDenotes (libCmp q ra) ra (cmpStore "req") q s (if x = y then 1 else 0) ∧
    TagDenotes (libCmp q ra) ra (cmpStoreNot "req") q s (if x = y then 0 else 1) := by
  obtain ⟨⟨s1, h1, h2⟩, ⟨s2, h3, h4⟩⟩ := C62_eq_partial (ra := ra) (opAt q s .rdi) hq.odd h7 h ha hb
  have := C10_eq (m := absMem (n64 q) s.mem) (r := (s.reg .rdi).toNat) (a := (s.reg .rsi).toNat) (b := (s.reg .rdx).toNat) (u := opAt q s .rdi)
    hq (by rw [absMem_at]; exact hx) (by rw [absMem_at]; exact hy)
  exact ⟨⟨s1, _, h1, h2, this.1⟩, ⟨s2, _, h3, h4, this.2.1⟩⟩

/-- C64, `lt`, `gt`, `leq`, `geq`, also in place: the order of the signed representatives (`C11_sval`).  Missing as for the flags. -/
theorem C64_order_partial (ra : BitVec 64) (hq : Modulus q) (h7a : FromOk q (opAt q s .rsi)) (h7b : FromOk q (opAt q s .rdx)) (h : TagReady q s)
    (ha : TagOperand q s .rsi) (hb : TagOperand q s .rdx) (hx : Rep q (opAt q s .rsi) x) (hy : Rep q (opAt q s .rdx) y) :
    TagDenotes (libCmp q ra) ra (cmpStore "rlt") q s (if sval x < sval y then 1 else 0) ∧
    TagDenotes (libCmp q ra) ra (cmpStore "rgt") q s (if sval y < sval x then 1 else 0) ∧
    TagDenotes (libCmp q ra) ra (cmpStoreNot "rgt") q s (if sval x ≤ sval y then 1 else 0) ∧
    TagDenotes (libCmp q ra) ra (cmpStoreNot "rlt") q s (if sval y ≤ sval x then 1 else 0) := by
  obtain ⟨⟨s1, h1, h1'⟩, ⟨s2, h2, h2'⟩, ⟨s3, h3, h3'⟩, ⟨s4, h4, h4'⟩⟩ :=
    C62_compare_partial (ra := ra) (opAt q s .rdi) hq.odd h7a h7b h ha hb
  obtain ⟨k1, k2, k3, k4⟩ := C11_order (m := absMem (n64 q) s.mem) (r := (s.reg .rdi).toNat) (a := (s.reg .rsi).toNat) (b := (s.reg .rdx).toNat)
    (u := opAt q s .rdi) hq (by rw [absMem_at]; exact hx) (by rw [absMem_at]; exact hy)
  exact ⟨⟨s1, _, h1, h1', k1⟩, ⟨s2, _, h2, h2', k2⟩, ⟨s3, _, h3, h3', k3⟩, ⟨s4, _, h4, h4', k4⟩⟩

/-! ## C65 -/

/-- C65, conjunction, disjunction and negation, also in place, for every modulus. -/
theorem C65_logical (ra : BitVec 64) (hq : Modulus q) (h : TagReady q s) (hx : Rep q (opAt q s .rsi) x) (hy : Rep q (opAt q s .rdx) y) :
    TagDenotes (lib q ra) ra (landCode (n64 q)) q s (if x ≠ 0 ∧ y ≠ 0 then 1 else 0) ∧
    TagDenotes (lib q ra) ra (lorCode (n64 q)) q s (if x ≠ 0 ∨ y ≠ 0 then 1 else 0) := by
  obtain ⟨⟨s1, h1, h1'⟩, ⟨s2, h2, h2'⟩, -⟩ := C62_logical (ra := ra) h
  obtain ⟨k1, k2, -, -⟩ := C12_logical (m := absMem (n64 q) s.mem) (r := (s.reg .rdi).toNat) (a := (s.reg .rsi).toNat) (b := (s.reg .rdx).toNat)
    hq (by rw [absMem_at]; exact hx) (by rw [absMem_at]; exact hy)
  exact ⟨⟨s1, _, h1, h1', k1⟩, ⟨s2, _, h2, h2', k2⟩⟩

theorem C65_lnot (ra : BitVec 64) (hq : Modulus q) (h : TagReady q s) (hx : Rep q (opAt q s .rsi) x) :
    TagDenotes (lib q ra) ra (lnotCode (n64 q)) q s (if x = 0 then 1 else 0) := by
  obtain ⟨-, -, ⟨s3, h3, h3'⟩⟩ := C62_logical (ra := ra) h
  obtain ⟨-, -, k3, -⟩ := C12_logical (m := absMem (n64 q) s.mem) (r := (s.reg .rdi).toNat) (a := (s.reg .rsi).toNat) (b := (s.reg .rsi).toNat)
    hq (by rw [absMem_at]; exact hx) (by rw [absMem_at]; exact hx)
  exact ⟨s3, _, h3, h3', k3⟩

/-- C65, `isTrue` of the element at `rdi`: no memory changes, whatever the memory and the stack pointer. -/
theorem C65_isTrue (env : String → Option (State → Option State)) (ra : BitVec 64) (hq : Modulus q) (hx : Rep q (opAt q s .rdi) x) :
    ∃ s', run env ra (isTrueCode (n64 q)) s = some s' ∧ s'.mem = s.mem ∧ (∀ r ∈ calleeSaved, s'.reg r = s.reg r) ∧
      s'.reg .rsp = s.reg .rsp + 8 ∧ (s'.reg .rax = 1 ∧ x ≠ 0 ∨ s'.reg .rax = 0 ∧ x = 0) := by
  obtain ⟨s', h1, h2, h3, h4, h5⟩ := isTrueCode_run (env := env) (ra := ra) (n := n64 q) (s := s)
  refine ⟨s', h1, h2, h3, h4, ?_⟩
  rw [isTrueInline_eq, show elemAt (n64 q) s.mem (s.reg .rdi) = opAt q s .rdi from rfl, Fr_isTrue_iff hq hx] at h5
  by_cases h0 : x = 0
  · exact .inr ⟨by simpa [h0] using h5, h0⟩
  · exact .inl ⟨by simpa [h0] using h5, h0⟩

/-! ## C66 -/

/-- The result does not overwrite an operand, or only one that is read before it is written (`BitOverwriteOK`). -/
def TagBitInPlace (q : Nat) (s : State) : Prop :=
  (s.reg .rdi = s.reg .rsi → BitOverwriteOK (opAt q s .rsi) (opAt q s .rdx)) ∧
  (s.reg .rdi = s.reg .rdx → BitOverwriteOK (opAt q s .rdx) (opAt q s .rsi))

theorem bitArg_fits {u : Elem} {m : Mem} {r p : Nat} (hq : Modulus q) (h : Rep q (m p) x) (hl : (m p).long = true) : ShortFits q (bitArg q u m r p) := by
  refine .inr (.inr ⟨by have := hq.bl; omega, lt_trans ?_ bitLen_lt⟩)
  have hv : val (m p).longVal < q := Rep.red h (.inl hl)
  unfold bitArg
  by_cases hr : p = r
  · have e : (m.setTy r true false) p = { (m r) with long := true, mont := false } := by rw [hr, Mem.setTy, set_same]
    rw [e, ← hr]
    cases (m p).mont <;> simp [toNormalInto, hv]
  · have e : (m.setTy r true false) p = m p := by rw [Mem.setTy, set_other _ _ hr]
    rw [e]
    split
    · exact (toNormalInto_rep hq u h hl).2.1
    · exact hv

/-- C66.  `&`, `|`, `^` of the canonical residues, reduced modulo `q`.  Missing: the long operands in Montgomery
form of the seven-limb moduli (C55); the in-place calls outside `TagBitInPlace` (`C66_and_violated`). -/
theorem C66_bitwise_partial (ra : BitVec 64) (hq : Modulus q) (h7a : FromOk q (opAt q s .rsi)) (h7b : FromOk q (opAt q s .rdx)) (h : TagReady q s)
    (ha : TagOperand q s .rsi) (hb : TagOperand q s .rdx) (hx : Rep q (opAt q s .rsi) x) (hy : Rep q (opAt q s .rdx) y)
    (hi : TagBitInPlace q s) :
    TagDenotes (lib q ra) ra (bandCode (n64 q)) q s ((x.val &&& y.val : Nat) : ZMod q) ∧
    TagDenotes (lib q ra) ra (borCode (n64 q)) q s ((x.val ||| y.val : Nat) : ZMod q) ∧
    TagDenotes (lib q ra) ra (bxorCode (n64 q)) q s ((x.val ^^^ y.val : Nat) : ZMod q) := by
  have hF := cmp_fits q
  have hx' : Rep q (absMem (n64 q) s.mem (s.reg .rsi).toNat) x := by rw [absMem_at]; exact hx
  have hy' : Rep q (absMem (n64 q) s.mem (s.reg .rdx).toNat) y := by rw [absMem_at]; exact hy
  have hm : BitFits q (opAt q s .rdi) (absMem (n64 q) s.mem) (s.reg .rdi).toNat (s.reg .rsi).toNat (s.reg .rdx).toNat :=
    ⟨fun h _ => bitArg_fits hq hx' h, fun _ h => bitArg_fits hq hy' h⟩
  obtain ⟨s1, h1, h1'⟩ := bandCode_run (ra := ra) hq.odd (n64_pos q) h7a h7b _ h.args ha.opnd hb.opnd (by omega) hm
  obtain ⟨s2, h2, h2'⟩ := borCode_run (ra := ra) hq.odd (n64_pos q) h7a h7b _ h.args ha.opnd hb.opnd (by omega) hm
  obtain ⟨s3, h3, h3'⟩ := bxorCode_run (ra := ra) hq.odd (n64_pos q) h7a h7b _ h.args ha.opnd hb.opnd (by omega) hm
  have i1 : (s.reg .rdi).toNat = (s.reg .rsi).toNat → BitOverwriteOK (absMem (n64 q) s.mem (s.reg .rsi).toNat) (absMem (n64 q) s.mem (s.reg .rdx).toNat) := by
    rw [absMem_at, absMem_at, BitVec.toNat_inj]; exact hi.1
  have i2 : (s.reg .rdi).toNat = (s.reg .rdx).toNat → BitOverwriteOK (absMem (n64 q) s.mem (s.reg .rdx).toNat) (absMem (n64 q) s.mem (s.reg .rsi).toNat) := by
    rw [absMem_at, absMem_at, BitVec.toNat_inj]; exact hi.2
  exact ⟨⟨s1, _, h1, tagReturns_of h1', (C13_and hq hx' hy' i1 i2).1⟩, ⟨s2, _, h2, tagReturns_of h2', (C13_or hq hx' hy' i1 i2).1⟩,
    ⟨s3, _, h3, tagReturns_of h3', (C13_xor hq hx' hy' i1 i2).1⟩⟩

/-- C66.  Complement within `bitLen q` bits, reduced modulo `q`.  Missing: the long operands in Montgomery form of
the seven-limb moduli (C55), and the in-place calls on an operand that is not long normal. -/
theorem C66_not_partial (ra : BitVec 64) (hq : Modulus q) (h7 : FromOk q (opAt q s .rsi)) (h : TagReady q s)
    (ha : TagOperand q s .rsi) (hx : Rep q (opAt q s .rsi) x)
    (hi : s.reg .rdi = s.reg .rsi → (opAt q s .rsi).long = true ∧ (opAt q s .rsi).mont = false) :
    TagDenotes (lib q ra) ra (bnotCode (n64 q)) q s ((2 ^ bitLen q - 1 - x.val : Nat) : ZMod q) := by
  obtain ⟨s1, h1, h1'⟩ := C62_bnot_partial (ra := ra) (opAt q s .rdi) hq.odd h7 h ha
  exact ⟨s1, _, h1, h1', (C13_not hq (by rw [absMem_at]; exact hx) (by rw [absMem_at, BitVec.toNat_inj]; exact hi)).1⟩

end residues

/-! ## The hypotheses are met -/

theorem bnR_seven : n64 bnR ≠ 7 := by rw [n64_bnR]; decide

example : TagDenotes (libCmp bnR 0) 0 (cmpStore "rlt") bnR (tagDemo (sS (-5)) (sL (bnR - 3)) (sM 77) 0 1 2)
    (if sval ((bnR - 3 : Nat) : ZMod bnR) < sval ((77 : Nat) : ZMod bnR) then 1 else 0) :=
  (C64_order_partial 0 bnR_modulus (.of_ne bnR_seven _) (.of_ne bnR_seven _) (tagDemo_ready (by decide) (by decide +kernel))
    (tagDemo_opnds (by decide) (by decide) (by decide)).1 (tagDemo_opnds (by decide) (by decide) (by decide)).2
    (Rep_iff.mpr (by decide +kernel)) (Rep_iff.mpr (by decide +kernel))).1
example : TagDecides (lib bnR 0) 0 (reqCode (n64 bnR)) bnR (tagDemo (sS 77) (sL (bnR - 3)) (sM 77) 1 0 2)
    (((77 : Nat) : ZMod bnR) = ((77 : Nat) : ZMod bnR)) :=
  C64_req_partial 0 bnR_modulus (.of bnR_conv _ _) (tagDemo_ready (by decide) (by decide +kernel))
    (tagDemo_opnds (by decide) (by decide) (by decide)).1 (tagDemo_opnds (by decide) (by decide) (by decide)).2
    (Rep_iff.mpr (by decide +kernel)) (Rep_iff.mpr (by decide +kernel))
example : TagDecides (lib bnR 0) 0 (rltCode (n64 bnR)) bnR (tagDemo (sS 77) (sL (bnR - 3)) (sM 77) 1 1 2)
    (sval ((bnR - 3 : Nat) : ZMod bnR) < sval ((77 : Nat) : ZMod bnR)) :=
  (C64_flags_partial 0 bnR_modulus (.of_ne bnR_seven _) (.of_ne bnR_seven _) (tagDemo_ready (by decide) (by decide +kernel))
    (tagDemo_opnds (by decide) (by decide) (by decide)).1 (tagDemo_opnds (by decide) (by decide) (by decide)).2
    (Rep_iff.mpr (by decide +kernel)) (Rep_iff.mpr (by decide +kernel))).1
example : TagDenotes (libCmp bnR 0) 0 (cmpStoreNot "req") bnR (tagDemo (sS (-5)) (sL (bnR - 3)) (sM 77) 1 1 1)
    (if ((bnR - 3 : Nat) : ZMod bnR) = ((bnR - 3 : Nat) : ZMod bnR) then 0 else 1) :=
  (C64_eq_partial 0 bnR_modulus (.of bnR_conv _ _) (tagDemo_ready (by decide) (by decide +kernel))
    (tagDemo_opnds (by decide) (by decide) (by decide)).1 (tagDemo_opnds (by decide) (by decide) (by decide)).2
    (Rep_iff.mpr (by decide +kernel)) (Rep_iff.mpr (by decide +kernel))).2
example : TagDenotes (lib bnR 0) 0 (landCode (n64 bnR)) bnR (tagDemo (sS (-5)) (sL (bnR - 3)) (sM 77) 0 0 2)
    (if ((bnR - 5 : Nat) : ZMod bnR) ≠ 0 ∧ ((77 : Nat) : ZMod bnR) ≠ 0 then 1 else 0) :=
  (C65_logical 0 bnR_modulus (tagDemo_ready (by decide) (by decide +kernel))
    (Rep_iff.mpr (by decide +kernel)) (Rep_iff.mpr (by decide +kernel))).1
example : TagDenotes (lib bnR 0) 0 (lnotCode (n64 bnR)) bnR (tagDemo (sS (-5)) (sL (bnR - 3)) (sM 77) 0 2 2)
    (if ((77 : Nat) : ZMod bnR) = 0 then 1 else 0) :=
  C65_lnot 0 bnR_modulus (tagDemo_ready (by decide) (by decide +kernel)) (Rep_iff.mpr (by decide +kernel))
example : ∃ s', run (lib bnR 0) 0 (isTrueCode (n64 bnR)) (tagDemo (sS (-5)) (sL (bnR - 3)) (sM 77) 2 0 0) = some s' ∧
    s'.mem = (tagDemo (sS (-5)) (sL (bnR - 3)) (sM 77) 2 0 0).mem ∧
    (∀ r ∈ calleeSaved, s'.reg r = (tagDemo (sS (-5)) (sL (bnR - 3)) (sM 77) 2 0 0).reg r) ∧ s'.reg .rsp = 4096 + 8 ∧
    (s'.reg .rax = 1 ∧ ((77 : Nat) : ZMod bnR) ≠ 0 ∨ s'.reg .rax = 0 ∧ ((77 : Nat) : ZMod bnR) = 0) :=
  C65_isTrue _ _ bnR_modulus (Rep_iff.mpr (by decide +kernel))
example : TagDenotes (lib bnR 0) 0 (bxorCode (n64 bnR)) bnR (tagDemo (sS (-5)) (sL (bnR - 3)) (sM 77) 1 1 2)
    ((((bnR - 3 : Nat) : ZMod bnR).val ^^^ ((77 : Nat) : ZMod bnR).val : Nat) : ZMod bnR) :=
  (C66_bitwise_partial 0 bnR_modulus (.of_ne bnR_seven _) (.of_ne bnR_seven _) (tagDemo_ready (by decide) (by decide +kernel))
    (tagDemo_opnds (by decide) (by decide) (by decide)).1 (tagDemo_opnds (by decide) (by decide) (by decide)).2
    (Rep_iff.mpr (by decide +kernel)) (Rep_iff.mpr (by decide +kernel))
    (by unfold TagBitInPlace BitOverwriteOK; decide +kernel)).2.2
example : TagDenotes (lib bnR 0) 0 (bnotCode (n64 bnR)) bnR (tagDemo (sS (-5)) (sL (bnR - 3)) (sM 77) 0 2 1)
    ((2 ^ bitLen bnR - 1 - ((77 : Nat) : ZMod bnR).val : Nat) : ZMod bnR) :=
  C66_not_partial 0 bnR_modulus (.of_ne bnR_seven _) (tagDemo_ready (by decide) (by decide +kernel))
    (tagDemo_opnds (by decide) (by decide) (by decide)).1 (Rep_iff.mpr (by decide +kernel)) (by decide)

/-- C66 fails in place on a Montgomery operand, as in the portable code: the tag of the result is written before the operand is
converted, so `band(a, a, b)` with `a = 1` and `b = 2`, both in Montgomery form, is not `0`. -/
theorem C66_and_violated (ra : BitVec 64) :
    let s := tagDemo (sM 1) (sM 2) (sS 0) 0 0 1
    Rep bnR (opAt bnR s .rsi) ((1 : Nat) : ZMod bnR) ∧ Rep bnR (opAt bnR s .rdx) ((2 : Nat) : ZMod bnR) ∧
      ∃ s', run (lib bnR ra) ra (bandCode (n64 bnR)) s = some s' ∧ ¬ Rep bnR (opAt bnR s' .rdi) ((1 &&& 2 : Nat) : ZMod bnR) := by
  obtain ⟨⟨s', h1, h2⟩, -⟩ := C62_bitwise_partial (ra := ra) (s := tagDemo (sM 1) (sM 2) (sS 0) 0 0 1) (sS 0) bnR_modulus.odd
    (.of_ne bnR_seven _) (.of_ne bnR_seven _) (.inl (by rw [n64_bnR]; decide)) (tagDemo_ready (by decide) (by decide +kernel))
    (tagDemo_opnds (by decide) (by decide) (by decide)).1 (tagDemo_opnds (by decide) (by decide) (by decide)).2
  refine ⟨Rep_iff.mpr (by decide +kernel), Rep_iff.mpr (by decide +kernel), s', h1, ?_⟩
  rw [h2.elem, Rep_iff]
  decide +kernel

/-- C66 fails for `bnot(a, a)` with a Montgomery operand, as in the portable code. -/
theorem C66_not_violated (ra : BitVec 64) :
    let s := tagDemo (sM 1) (sM 1) (sS 0) 0 0 1
    Rep bnR (opAt bnR s .rsi) ((1 : Nat) : ZMod bnR) ∧
      ∃ s', run (lib bnR ra) ra (bnotCode (n64 bnR)) s = some s' ∧
        ¬ Rep bnR (opAt bnR s' .rdi) ((2 ^ bitLen bnR - 1 - ((1 : Nat) : ZMod bnR).val : Nat) : ZMod bnR) := by
  obtain ⟨s', h1, h2⟩ := C62_bnot_partial (ra := ra) (s := tagDemo (sM 1) (sM 1) (sS 0) 0 0 1) (sS 0) bnR_modulus.odd
    (.of_ne bnR_seven _) (tagDemo_ready (by decide) (by decide +kernel)) (tagDemo_opnds (k := 1) (by decide) (by decide) (by decide)).1
  refine ⟨Rep_iff.mpr (by decide +kernel), s', h1, ?_⟩
  rw [h2.elem, show ((1 : Nat) : ZMod bnR).val = 1 from by decide +kernel, Rep_iff]
  decide +kernel

end FF.Props
