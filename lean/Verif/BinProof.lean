import Verif.BinFile
import Verif.BinSpec
import Verif.Chunk

/-!
# Proofs about the container reader
-/

namespace FF.Bin

@[simp] theorem leBytes_length (k n : Nat) : (leBytes k n).length = k := by
  induction k generalizing n with
  | zero => rfl
  | succ k ih => simp [leBytes, ih]

theorem valLE_leBytes (k n : Nat) : valLE (leBytes k n) = n % 256 ^ k := by
  induction k generalizing n with
  | zero => simp [leBytes, valLE, Nat.mod_one]
  | succ k ih =>
    rw [leBytes, valLE, ih, BitVec.toNat_ofNat, show (2 : Nat) ^ 8 = 256 by rfl, pow_succ, Nat.mul_comm (256 ^ k) 256, Nat.mod_mul]

theorem valLE_leBytes_of_lt {k n : Nat} (h : n < 256 ^ k) : valLE (leBytes k n) = n := by
  rw [valLE_leBytes, Nat.mod_eq_of_lt h]

theorem bytesAt_append {pre b rest : List Byte} : bytesAt (pre ++ (b ++ rest)) pre.length b.length = some b := by
  unfold bytesAt
  rw [if_pos (by simp)]
  simp

theorem bytesAt_of {addr pre b rest : List Byte} {p n : Nat} (h : addr = pre ++ (b ++ rest)) (hp : p = pre.length) (hn : n = b.length) :
    bytesAt addr p n = some b := by
  subst h hp hn; exact bytesAt_append

/-- The state of a reader that stands before `rest`. -/
def At (f : BinFile) (rest : List Byte) : Prop :=
  f.addr.length < 2 ^ 64 ∧ ∃ pre, f.addr = pre ++ rest ∧ f.pos = pre.length

theorem At.bytes {f : BinFile} {b rest : List Byte} (h : At f (b ++ rest)) : bytesAt f.addr f.pos b.length = some b := by
  obtain ⟨_, pre, h1, h2⟩ := h
  exact bytesAt_of h1 h2 rfl

theorem At.pos_mod {f : BinFile} {b rest : List Byte} (h : At f (b ++ rest)) : (f.pos + b.length) % 2 ^ 64 = f.pos + b.length := by
  obtain ⟨h0, pre, h1, h2⟩ := h
  have := congrArg List.length h1
  simp at this
  exact Nat.mod_eq_of_lt (by omega)

theorem At.next {f : BinFile} {b rest : List Byte} (h : At f (b ++ rest)) : At { f with pos := f.pos + b.length } rest := by
  obtain ⟨h0, pre, h1, h2⟩ := h
  exact ⟨h0, pre ++ b, by simpa using h1, by simp [h2]⟩

theorem readU32_at {f : BinFile} {v : Nat} {rest : List Byte} (h : At f (leBytes 4 v ++ rest)) (hv : v < 2 ^ 32) :
    readU32LE f = .ok v { f with pos := f.pos + 4 } ∧ At { f with pos := f.pos + 4 } rest := by
  have h1 := h.bytes
  have h2 := h.pos_mod
  have h3 := h.next
  rw [leBytes_length] at h1 h2 h3
  refine ⟨?_, h3⟩
  rw [readU32LE, h1]
  simp only
  rw [h2, valLE_leBytes_of_lt (by norm_num; omega)]

theorem readU64_at {f : BinFile} {v : Nat} {rest : List Byte} (h : At f (leBytes 8 v ++ rest)) (hv : v < 2 ^ 64) :
    readU64LE f = .ok v { f with pos := f.pos + 8 } ∧ At { f with pos := f.pos + 8 } rest := by
  have h1 := h.bytes
  have h2 := h.pos_mod
  have h3 := h.next
  rw [leBytes_length] at h1 h2 h3
  refine ⟨?_, h3⟩
  rw [readU64LE, h1]
  simp only
  rw [h2, valLE_leBytes_of_lt (by norm_num; omega)]

theorem read_at {f : BinFile} {b rest : List Byte} (h : At f (b ++ rest)) :
    read b.length f = .ok f.pos { f with pos := f.pos + b.length } ∧ At { f with pos := f.pos + b.length } rest :=
  ⟨by rw [read, h.pos_mod], h.next⟩

/-- The sections `ss` of one type hold the contents `ds`. -/
def HoldAll (addr : List Byte) (ss : List Section) (ds : List (List Byte)) : Prop :=
  List.Forall₂ (fun s d => s.size = d.length ∧ ∃ pre rest, addr = pre ++ (d ++ rest) ∧ s.start = pre.length) ss ds

/-- The section table agrees with contents `c`. -/
def Table (addr : List Byte) (secs : Nat → Option (List Section)) (c : Nat → List (List Byte)) : Prop :=
  ∀ t, HoldAll addr ((secs t).getD []) (c t)

theorem pushSection_getD (secs : Nat → Option (List Section)) (t : Nat) (s : Section) (k : Nat) :
    (pushSection secs t s k).getD [] = (secs k).getD [] ++ (if k = t then [s] else []) := by
  unfold pushSection
  by_cases hk : k = t
  · subst hk
    cases h : secs k <;> simp [h]
  · cases secs t <;> simp [hk]

theorem contents_cons (s : Nat × List Byte) (secs : List (Nat × List Byte)) (t : Nat) :
    contents (s :: secs) t = (if t = s.1 then [s.2] else []) ++ contents secs t := by
  unfold contents
  by_cases h : s.1 = t
  · simp [h]
  · simp [h, show ¬ t = s.1 from fun e => h e.symm]

theorem loadSections_spec (secs : List (Nat × List Byte)) (ht : ∀ s ∈ secs, s.1 < 2 ^ 32) {f : BinFile} {rest : List Byte}
    (h : At f (secs.flatMap encodeSection ++ rest)) {c : Nat → List (List Byte)} (hc : Table f.addr f.sections c) :
    ∃ f', loadSections secs.length f = .ok () f' ∧ f'.addr = f.addr ∧ f'.version = f.version ∧ f'.readingSection = f.readingSection ∧
      Table f'.addr f'.sections (fun t => c t ++ contents secs t) ∧ At f' rest := by
  induction secs generalizing f c with
  | nil => exact ⟨f, rfl, rfl, rfl, rfl, by simpa [contents] using hc, by simpa using h⟩
  | cons s secs ih =>
    have h' : At f (leBytes 4 s.1 ++ (leBytes 8 s.2.length ++ (s.2 ++ (secs.flatMap encodeSection ++ rest)))) := by
      simpa [encodeSection] using h
    obtain ⟨e1, a1⟩ := readU32_at h' (ht s (by simp))
    have hlen : s.2.length < 2 ^ 64 := by
      obtain ⟨h0, pre, h1, _⟩ := h'
      rw [h1] at h0
      simp at h0; omega
    obtain ⟨e2, a2⟩ := readU64_at a1 hlen
    have a3 := a2.next
    have hm := a2.pos_mod
    set g : BinFile := { f with
      pos := f.pos + 4 + 8 + s.2.length, sections := pushSection f.sections s.1 ⟨f.pos + 4 + 8, s.2.length⟩ } with hg
    have hload : loadSection f = .ok () g := by
      rw [loadSection, Act.bind, e1]
      simp only [Act.bind, e2]
      simp only at hm
      rw [hm]
    have hat : At g (secs.flatMap encodeSection ++ rest) := by
      obtain ⟨h0, pre, h1, h2⟩ := a3
      exact ⟨h0, pre, h1, h2⟩
    have htab : Table g.addr g.sections (fun t => c t ++ if t = s.1 then [s.2] else []) := by
      intro t
      simp only [hg]
      rw [pushSection_getD]
      refine List.rel_append (hc t) ?_
      by_cases hts : t = s.1
      · simp only [hts, if_true]
        refine List.Forall₂.cons ⟨rfl, ?_⟩ .nil
        obtain ⟨_, pre, h1, h2⟩ := a2
        exact ⟨pre, _, h1, h2⟩
      · simp [hts]
    obtain ⟨f', r1, r2, r3, r4, r5, r6⟩ := ih (fun x hx => ht x (by simp [hx])) hat htab
    refine ⟨f', ?_, by rw [r2, hg], by rw [r3, hg], by rw [r4, hg], ?_, r6⟩
    · rw [List.length_cons, loadSections, Act.bind, hload]; exact r1
    · intro t
      have := r5 t
      show HoldAll _ _ (c t ++ contents (s :: secs) t)
      rw [contents_cons, ← List.append_assoc]
      exact this

/-- An opened file, idle, whose sections are `c`. -/
structure Opened (f : BinFile) (c : Nat → List (List Byte)) : Prop where
  table : Table f.addr f.sections c
  len : f.addr.length < 2 ^ 64

theorem openFile_spec {type : List Byte} (h4 : type.length = 4) {version maxVersion : Nat} (hv : version ≤ maxVersion)
    (hv32 : version < 2 ^ 32) {secs : List (Nat × List Byte)} (ht : ∀ s ∈ secs, s.1 < 2 ^ 32) (hn : secs.length < 2 ^ 32)
    {extra : List Byte} (hl : (encodeFile type version secs ++ extra).length < 2 ^ 64) :
    ∃ f, openFile (encodeFile type version secs ++ extra) type maxVersion = .ok () f ∧ Opened f (contents secs) ∧
      f.readingSection = none ∧ f.version = version := by
  set addr := encodeFile type version secs ++ extra with ha
  have hadr : addr = type ++ (leBytes 4 version ++ (leBytes 4 secs.length ++ (secs.flatMap encodeSection ++ extra))) := by
    simp [ha, encodeFile]
  set f0 : BinFile := ⟨addr, 4, fun _ => none, 0, none⟩ with hf0
  have a0 : At f0 (leBytes 4 version ++ (leBytes 4 secs.length ++ (secs.flatMap encodeSection ++ extra))) :=
    ⟨hl, type, hadr, h4.symm⟩
  obtain ⟨e1, a1⟩ := readU32_at a0 hv32
  have a1' : At { f0 with pos := f0.pos + 4, version := version } (leBytes 4 secs.length ++ (secs.flatMap encodeSection ++ extra)) := a1
  obtain ⟨e2, a2⟩ := readU32_at a1' hn
  obtain ⟨f', r1, r2, r3, r4, r5, r6⟩ := loadSections_spec secs ht a2 (c := fun _ => []) (fun t => by simp [hf0, HoldAll])
  refine ⟨{ f' with pos := 0, readingSection := none }, ?_, ⟨?_, ?_⟩, rfl, ?_⟩
  · rw [openFile]
    have hb : bytesAt addr 0 4 = some type := bytesAt_of (pre := []) (by simpa using hadr) rfl h4.symm
    rw [hb]
    simp only [ne_eq, not_true, if_false]
    unfold Act.bind
    rw [e1]
    simp only [show ¬ maxVersion < version by omega, if_false]
    rw [e2]
    simp only [r1]
  · simpa using r5
  · exact r6.1
  · exact r3

theorem HoldAll.get {addr : List Byte} {ss : List Section} {ds : List (List Byte)} (h : HoldAll addr ss ds) (i : Nat) :
    (ss[i]? = none ∧ ds[i]? = none) ∨
      ∃ s d, ss[i]? = some s ∧ ds[i]? = some d ∧ s.size = d.length ∧ ∃ pre rest, addr = pre ++ (d ++ rest) ∧ s.start = pre.length := by
  induction h generalizing i with
  | nil => simp
  | cons h1 h2 ih =>
    cases i with
    | zero => right; exact ⟨_, _, rfl, rfl, h1.1, h1.2⟩
    | succ i => simpa using ih i

theorem Opened.find {f : BinFile} {c : Nat → List (List Byte)} (h : Opened f c) (t i : Nat) :
    (findSection f t i = none ∧ (c t)[i]? = none) ∨
      ∃ s d, findSection f t i = some s ∧ (c t)[i]? = some d ∧ s.size = d.length ∧
        ∃ pre rest, f.addr = pre ++ (d ++ rest) ∧ s.start = pre.length := by
  have he : findSection f t i = ((f.sections t).getD [])[i]? := by
    unfold findSection
    cases hs : f.sections t with
    | none => simp
    | some v =>
      simp only [Option.getD_some]
      split
      · rename_i hle; rw [List.getElem?_eq_none hle]
      · rfl
  rw [he]
  exact (h.table t).get i

/-! ### Histories -/

/-- A call on the modelled object and what its user learns; `none` is undefined behaviour.  The bytes behind a returned pointer are
looked up at once. -/
def BinFile.step (f : BinFile) : Op → Option (Reply × BinFile)
  | .start id pos =>
    match startReadSection id pos f with
    | .ok _ f' => some (.done, f')
    | .throws f' => some (.refused, f')
    | .ub => none
  | .stop check =>
    match endReadSection check f with
    | .ok _ f' => some (.done, f')
    | .throws f' => some (.refused, f')
    | .ub => none
  | .u32 =>
    match readU32LE f with
    | .ok v f' => some (.num v, f')
    | .throws f' => some (.refused, f')
    | .ub => none
  | .u64 =>
    match readU64LE f with
    | .ok v f' => some (.num v, f')
    | .throws f' => some (.refused, f')
    | .ub => none
  | .bytes n =>
    match read n f with
    | .ok p f' => (bytesAt f'.addr p n).map fun l => (.bytes l, f')
    | .throws f' => some (.refused, f')
    | .ub => none
  | .size id pos =>
    match getSectionSize id pos f with
    | .ok v f' => some (.num v, f')
    | .throws f' => some (.refused, f')
    | .ub => none
  | .data id pos =>
    match getSectionData id pos f, getSectionSize id pos f with
    | .ok p f', .ok n _ => (bytesAt f'.addr p n).map fun l => (.bytes l, f')
    | .throws f', _ => some (.refused, f')
    | _, _ => none

def BinFile.run : BinFile → List Op → Option (List Reply × BinFile)
  | f, [] => some ([], f)
  | f, o :: os =>
    match f.step o with
    | none => none
    | some (r, f') =>
      match f'.run os with
      | none => none
      | some (rs, f'') => some (r :: rs, f'')

/-- The object and the reader its user has in mind. -/
def Rel (c : Nat → List (List Byte)) (f : BinFile) (a : Reader) : Prop :=
  Opened f c ∧
    match a.cur with
    | none => f.readingSection = none
    | some (d, used) => ∃ s pre rest, f.readingSection = some s ∧ s.size = d.length ∧ f.addr = pre ++ (d ++ rest) ∧
        s.start = pre.length ∧ f.pos = s.start + used ∧ used ≤ d.length

theorem Rel.take {c : Nat → List (List Byte)} {f : BinFile} {a a' : Reader} {n : Nat} {l : List Byte} (h : Rel c f a)
    (ht : a.take n = some (l, a')) :
    bytesAt f.addr f.pos n = some l ∧ (f.pos + n) % 2 ^ 64 = f.pos + n ∧ Rel c { f with pos := f.pos + n } a' := by
  obtain ⟨ho, hc⟩ := h
  rcases a with ⟨cur⟩
  match cur, hc with
  | none, _ => simp [Reader.take] at ht
  | some (d, used), hc =>
    obtain ⟨s, pre, rest, h1, h2, h3, h4, h5, h6⟩ := hc
    simp only [Reader.take] at ht
    split at ht
    · rename_i hle
      simp only [Option.some.injEq, Prod.mk.injEq] at ht
      obtain ⟨rfl, rfl⟩ := ht
      have hlen := congrArg List.length h3
      simp at hlen
      have := ho.len
      refine ⟨?_, Nat.mod_eq_of_lt (by omega), ⟨⟨ho.table, ho.len⟩, s, pre, rest, h1, h2, h3, h4, by simp [h5]; omega, hle⟩⟩
      have e : f.addr = (pre ++ d.take used) ++ ((d.drop used).take n ++ ((d.drop used).drop n ++ rest)) := by
        rw [h3, List.append_assoc, ← List.append_assoc (List.take n _), List.take_append_drop, ← List.append_assoc (List.take used d),
          List.take_append_drop]
      exact bytesAt_of e (by simp; omega) (by simp; omega)
    · cases ht

theorem Rel.step {c : Nat → List (List Byte)} {f : BinFile} {a a' : Reader} {o : Op} {r : Reply} (h : Rel c f a)
    (hs : a.step c o = some (r, a')) : ∃ f', f.step o = some (r, f') ∧ Rel c f' a' := by
  cases o with
  | start id pos =>
    simp only [Reader.step] at hs
    simp only [BinFile.step, startReadSection]
    rcases h.1.find id pos with ⟨e1, e2⟩ | ⟨s, d, e1, e2, e3, pre, rest, e4, e5⟩
    · rw [e1]; rw [e2] at hs
      simp only [Option.some.injEq, Prod.mk.injEq] at hs
      obtain ⟨rfl, rfl⟩ := hs
      exact ⟨f, rfl, h⟩
    · rw [e1]; rw [e2] at hs
      rcases a with ⟨cur⟩
      match cur, h.2 with
      | none, hc =>
        simp only [Option.some.injEq, Prod.mk.injEq] at hs
        obtain ⟨rfl, rfl⟩ := hs
        simp only at hc
        simp only [hc, ne_eq, not_true, if_false]
        exact ⟨_, rfl, ⟨h.1.table, h.1.len⟩, s, pre, rest, rfl, e3, e4, e5, rfl, by omega⟩
      | some (d', used), hc =>
        simp only [Option.some.injEq, Prod.mk.injEq] at hs
        obtain ⟨rfl, rfl⟩ := hs
        obtain ⟨s', _, _, h1, _⟩ := hc
        simp only [h1, ne_eq, reduceCtorEq, not_false_eq_true, if_true]
        exact ⟨f, rfl, h⟩
  | stop check =>
    simp only [BinFile.step, endReadSection]
    cases check with
    | false =>
      simp only [Reader.step, Option.some.injEq, Prod.mk.injEq] at hs
      obtain ⟨rfl, rfl⟩ := hs
      exact ⟨_, rfl, ⟨h.1.table, h.1.len⟩, rfl⟩
    | true =>
      simp only [Reader.step] at hs
      simp only [if_true]
      rcases a with ⟨cur⟩
      match cur, h.2 with
      | none, _ => cases hs
      | some (d, used), hc =>
        obtain ⟨s, pre, rest, h1, h2, h3, h4, h5, h6⟩ := hc
        have hlen := congrArg List.length h3
        simp at hlen
        have := h.1.len
        simp only [h1]
        have e : ((f.pos : Int) - s.start) % 2 ^ 64 = used := by omega
        simp only at hs
        split at hs
        · rename_i hu
          simp only [Option.some.injEq, Prod.mk.injEq] at hs
          obtain ⟨rfl, rfl⟩ := hs
          rw [if_neg (by rw [e, h2, hu]; simp)]
          exact ⟨_, rfl, ⟨h.1.table, h.1.len⟩, rfl⟩
        · rename_i hu
          simp only [Option.some.injEq, Prod.mk.injEq] at hs
          obtain ⟨rfl, rfl⟩ := hs
          rw [if_pos (by rw [e, h2]; exact_mod_cast hu)]
          exact ⟨_, rfl, h⟩
  | u32 =>
    simp only [Reader.step, Option.map_eq_some_iff] at hs
    obtain ⟨⟨l, b⟩, ht, hs⟩ := hs
    simp only [Prod.mk.injEq] at hs
    obtain ⟨rfl, rfl⟩ := hs
    obtain ⟨h1, h2, h3⟩ := h.take ht
    simp only [BinFile.step, readU32LE, h1, h2]
    exact ⟨_, rfl, h3⟩
  | u64 =>
    simp only [Reader.step, Option.map_eq_some_iff] at hs
    obtain ⟨⟨l, b⟩, ht, hs⟩ := hs
    simp only [Prod.mk.injEq] at hs
    obtain ⟨rfl, rfl⟩ := hs
    obtain ⟨h1, h2, h3⟩ := h.take ht
    simp only [BinFile.step, readU64LE, h1, h2]
    exact ⟨_, rfl, h3⟩
  | bytes n =>
    simp only [Reader.step, Option.map_eq_some_iff] at hs
    obtain ⟨⟨l, b⟩, ht, hs⟩ := hs
    simp only [Prod.mk.injEq] at hs
    obtain ⟨rfl, rfl⟩ := hs
    obtain ⟨h1, h2, h3⟩ := h.take ht
    simp only [BinFile.step, read, h1, h2, Option.map_some]
    exact ⟨_, rfl, h3⟩
  | size id pos =>
    simp only [Reader.step] at hs
    simp only [BinFile.step, getSectionSize]
    rcases h.1.find id pos with ⟨e1, e2⟩ | ⟨s, d, e1, e2, e3, pre, rest, e4, e5⟩
    · rw [e1]; rw [e2] at hs
      simp only [Option.some.injEq, Prod.mk.injEq] at hs
      obtain ⟨rfl, rfl⟩ := hs
      exact ⟨f, rfl, h⟩
    · rw [e1]; rw [e2] at hs
      simp only [Option.some.injEq, Prod.mk.injEq] at hs
      obtain ⟨rfl, rfl⟩ := hs
      simp only [e3]
      exact ⟨f, rfl, h⟩
  | data id pos =>
    simp only [Reader.step] at hs
    simp only [BinFile.step, getSectionData, getSectionSize]
    rcases h.1.find id pos with ⟨e1, e2⟩ | ⟨s, d, e1, e2, e3, pre, rest, e4, e5⟩
    · rw [e1]; rw [e2] at hs
      simp only [Option.some.injEq, Prod.mk.injEq] at hs
      obtain ⟨rfl, rfl⟩ := hs
      exact ⟨f, rfl, h⟩
    · rw [e1]; rw [e2] at hs
      simp only [Option.some.injEq, Prod.mk.injEq] at hs
      obtain ⟨rfl, rfl⟩ := hs
      simp only [bytesAt_of e4 e5 e3, Option.map_some]
      exact ⟨f, rfl, h⟩

theorem Rel.run {c : Nat → List (List Byte)} {f : BinFile} {a a' : Reader} {os : List Op} {rs : List Reply} (h : Rel c f a)
    (hs : a.run c os = some (rs, a')) : ∃ f', f.run os = some (rs, f') ∧ Rel c f' a' := by
  induction os generalizing f a rs with
  | nil =>
    simp only [Reader.run, Option.some.injEq, Prod.mk.injEq] at hs
    obtain ⟨rfl, rfl⟩ := hs
    exact ⟨f, rfl, h⟩
  | cons o os ih =>
    simp only [Reader.run] at hs
    split at hs
    · cases hs
    · rename_i r b hb
      split at hs
      · cases hs
      · rename_i rs' b' hb'
        simp only [Option.some.injEq, Prod.mk.injEq] at hs
        obtain ⟨rfl, rfl⟩ := hs
        obtain ⟨f1, e1, h1⟩ := h.step hb
        obtain ⟨f2, e2, h2⟩ := ih h1 hb'
        exact ⟨f2, by simp only [BinFile.run, e1, e2], h2⟩

/-- With a section open, no call but `stop` closes it or opens another; the position moves by the bytes consumed. -/
theorem step_open {f f' : BinFile} {s : Section} (hs : f.readingSection = some s) {o : Op} {r : Reply} (hstop : ∀ b, o ≠ .stop b)
    (h : f.step o = some (r, f')) : f'.readingSection = some s ∧ (f'.pos : Int) % 2 ^ 64 = (f.pos + o.consumes : Int) % 2 ^ 64 := by
  cases o with
  | start id pos =>
    simp only [BinFile.step, startReadSection] at h
    cases hb : findSection f id pos with
    | none => rw [hb] at h; simp at h; rw [← h.2]; exact ⟨hs, by simp [Op.consumes]⟩
    | some x => rw [hb] at h; simp [hs] at h; rw [← h.2]; exact ⟨hs, by simp [Op.consumes]⟩
  | stop b => exact absurd rfl (hstop b)
  | u32 =>
    simp only [BinFile.step, readU32LE] at h
    cases hb : bytesAt f.addr f.pos 4 with
    | none => simp [hb] at h
    | some x => simp [hb] at h; rw [← h.2]; exact ⟨hs, by simp only [Op.consumes]; omega⟩
  | u64 =>
    simp only [BinFile.step, readU64LE] at h
    cases hb : bytesAt f.addr f.pos 8 with
    | none => simp [hb] at h
    | some x => simp [hb] at h; rw [← h.2]; exact ⟨hs, by simp only [Op.consumes]; omega⟩
  | bytes n =>
    simp only [BinFile.step, Bin.read] at h
    cases hb : bytesAt f.addr f.pos n with
    | none => simp [hb] at h
    | some x => simp [hb] at h; rw [← h.2]; exact ⟨hs, by simp only [Op.consumes]; omega⟩
  | size id pos =>
    simp only [BinFile.step, getSectionSize] at h
    cases hb : findSection f id pos <;> simp [hb] at h <;> rw [← h.2] <;> exact ⟨hs, by simp [Op.consumes]⟩
  | data id pos =>
    simp only [BinFile.step, getSectionData, getSectionSize] at h
    cases hb : findSection f id pos with
    | none => simp [hb] at h; rw [← h.2]; exact ⟨hs, by simp [Op.consumes]⟩
    | some x =>
      simp only [hb] at h
      cases hc : bytesAt f.addr x.start x.size <;> simp [hc] at h
      rw [← h.2]; exact ⟨hs, by simp [Op.consumes]⟩

theorem run_open {s : Section} {os : List Op} (hstop : ∀ o ∈ os, ∀ b, o ≠ .stop b) : ∀ {f f' : BinFile} {rs : List Reply},
    f.readingSection = some s → f.run os = some (rs, f') →
    f'.readingSection = some s ∧ (f'.pos : Int) % 2 ^ 64 = (f.pos + (os.map Op.consumes).sum : Int) % 2 ^ 64 := by
  induction os with
  | nil => intro f f' rs hs h; simp only [BinFile.run, Option.some.injEq, Prod.mk.injEq] at h; rw [← h.2]; exact ⟨hs, by simp⟩
  | cons o os ih =>
    intro f f' rs hs h
    simp only [BinFile.run] at h
    cases h1 : f.step o with
    | none => rw [h1] at h; cases h
    | some p =>
      obtain ⟨r, f1⟩ := p
      rw [h1] at h
      simp only at h
      cases h2 : f1.run os with
      | none => rw [h2] at h; cases h
      | some p =>
        obtain ⟨rs', f2⟩ := p
        rw [h2] at h
        simp only [Option.some.injEq, Prod.mk.injEq] at h
        obtain ⟨a1, a2⟩ := step_open hs (hstop o (by simp)) h1
        obtain ⟨b1, b2⟩ := ih (fun o ho => hstop o (by simp [ho])) a1 h2
        rw [← h.2]
        refine ⟨b1, ?_⟩
        rw [List.map_cons, List.sum_cons]
        push_cast
        push_cast at b2
        omega

end FF.Bin
