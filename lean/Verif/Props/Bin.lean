import Verif.BinProof

/-!
# Properties C50-C53 and C59: container files, section reading, and the witness and key headers
-/

namespace FF.Props

open FF.Bin

/-- C50.  A file laid out as type, version and sections (followed by anything) opens; the object is idle, and for every type and index
the size and the bytes of the section are those of the file, in order, repeated types included; other indices are refused. -/
theorem C50_open {type : List Byte} (h4 : type.length = 4) {version maxVersion : Nat} (hv : version ≤ maxVersion)
    (hv32 : version < 2 ^ 32) {secs : List (Nat × List Byte)} (ht : ∀ s ∈ secs, s.1 < 2 ^ 32) (hn : secs.length < 2 ^ 32)
    {extra : List Byte} (hl : (encodeFile type version secs ++ extra).length < 2 ^ 64) :
    ∃ f, openFile (encodeFile type version secs ++ extra) type maxVersion = .ok () f ∧ f.readingSection = none ∧ f.version = version ∧
      ∀ t i, match (contents secs t)[i]? with
        | some d => getSectionSize t i f = .ok d.length f ∧
            ∃ p, getSectionData t i f = .ok p f ∧ bytesAt f.addr p d.length = some d
        | none => getSectionSize t i f = .throws f ∧ getSectionData t i f = .throws f := by
  obtain ⟨f, h1, h2, h3, h4⟩ := openFile_spec h4 hv hv32 ht hn hl
  refine ⟨f, h1, h3, h4, fun t i => ?_⟩
  rcases h2.find t i with ⟨e1, e2⟩ | ⟨s, d, e1, e2, e3, pre, rest, e4, e5⟩
  · rw [e2]; simp only [getSectionSize, getSectionData, e1, and_self]
  · rw [e2]
    simp only [getSectionSize, getSectionData, e1, e3]
    exact ⟨trivial, s.start, rfl, bytesAt_of e4 e5 rfl⟩

/-- C50.  Another type is refused. -/
theorem C50_type {addr type : List Byte} {maxVersion : Nat} (h4 : 4 ≤ addr.length) (h : addr.take 4 ≠ type) :
    ∃ f, openFile addr type maxVersion = .throws f := by
  rw [openFile, bytesAt, if_pos (by omega)]
  simp only [List.drop_zero, h, ne_eq, not_false_eq_true, if_true]
  exact ⟨_, rfl⟩

/-- C50.  A newer version is refused. -/
theorem C50_version {type rest : List Byte} (h4 : type.length = 4) {version maxVersion : Nat} (hv : maxVersion < version)
    (hv32 : version < 2 ^ 32) (hl : (type ++ (leBytes 4 version ++ rest)).length < 2 ^ 64) :
    ∃ f, openFile (type ++ (leBytes 4 version ++ rest)) type maxVersion = .throws f := by
  have a0 : At ⟨type ++ (leBytes 4 version ++ rest), 4, fun _ => none, 0, none⟩ (leBytes 4 version ++ rest) :=
    ⟨hl, type, rfl, h4.symm⟩
  obtain ⟨e1, _⟩ := readU32_at a0 hv32
  have hb : bytesAt (type ++ (leBytes 4 version ++ rest)) 0 4 = some type := bytesAt_of (pre := []) rfl rfl h4.symm
  rw [openFile, hb]
  simp only [ne_eq, not_true, if_false]
  unfold Act.bind
  rw [e1]
  simp only [hv, if_true]
  exact ⟨_, rfl⟩

example : ∃ f, openFile (encodeFile [1, 2, 3, 4] 1 [(7, [5, 6]), (8, []), (7, [9])]) [1, 2, 3, 4] 2 = .ok () f ∧
    contents [(7, [5, 6]), (8, []), (7, [9])] 7 = [[5, 6], [(9 : Byte)]] := by
  obtain ⟨f, h, _⟩ := C50_open (type := [1, 2, 3, 4]) rfl (version := 1) (maxVersion := 2) (by omega) (by omega)
    (secs := [(7, [5, 6]), (8, []), (7, [9])]) (by decide) (by decide) (extra := []) (by decide)
  exact ⟨f, by simpa using h, by decide⟩

/-- C51.  For every history of calls inside the contract on an opened file, the object answers what the reader of the specification
answers: sections open only when they exist and none is open, reads give consecutive bytes of the section, closing with check succeeds
exactly when the whole section was consumed, and refused calls change nothing. -/
theorem C51_history {c : Nat → List (List Byte)} {f : BinFile} (ho : Opened f c) (hi : f.readingSection = none) {os : List Op}
    {rs : List Reply} {a' : Reader} (hs : Reader.run c ⟨none⟩ os = some (rs, a')) : ∃ f', f.run os = some (rs, f') ∧ Rel c f' a' :=
  Rel.run ⟨ho, hi⟩ hs

/-- C51.  The same from the file itself. -/
theorem C51_file {type : List Byte} (h4 : type.length = 4) {version maxVersion : Nat} (hv : version ≤ maxVersion)
    (hv32 : version < 2 ^ 32) {secs : List (Nat × List Byte)} (ht : ∀ s ∈ secs, s.1 < 2 ^ 32) (hn : secs.length < 2 ^ 32)
    {extra : List Byte} (hl : (encodeFile type version secs ++ extra).length < 2 ^ 64) {os : List Op}
    {rs : List Reply} {a' : Reader} (hs : Reader.run (contents secs) ⟨none⟩ os = some (rs, a')) :
    ∃ f f', openFile (encodeFile type version secs ++ extra) type maxVersion = .ok () f ∧ f.run os = some (rs, f') := by
  obtain ⟨f, h1, h2, h3, h4⟩ := openFile_spec h4 hv hv32 ht hn hl
  obtain ⟨f', e, _⟩ := C51_history h2 h3 hs
  exact ⟨f, f', h1, e⟩

/-- C51.  A refused call leaves the object unchanged, whatever its state. -/
theorem C51_refused {f f' : BinFile} {o : Op} (h : f.step o = some (.refused, f')) : f' = f := by
  cases o with
  | start id pos =>
    simp only [BinFile.step, startReadSection] at h
    split at h
    · simp at h
    · rename_i x g hx
      split at hx
      · injection hx with hx
        injection h with h; injection h with _ h; rw [← h, ← hx]
      · split at hx
        · injection hx with hx
          injection h with h; injection h with _ h; rw [← h, ← hx]
        · cases hx
    · cases h
  | stop check =>
    simp only [BinFile.step, endReadSection] at h
    split at h
    · simp at h
    · rename_i x g hx
      split at hx
      · split at hx
        · cases hx
        · split at hx
          · injection hx with hx
            injection h with h; injection h with _ h; rw [← h, ← hx]
          · cases hx
      · cases hx
    · cases h
  | u32 =>
    simp only [BinFile.step, readU32LE] at h
    cases hb : bytesAt f.addr f.pos 4 <;> simp [hb] at h
  | u64 =>
    simp only [BinFile.step, readU64LE] at h
    cases hb : bytesAt f.addr f.pos 8 <;> simp [hb] at h
  | bytes n => simp [BinFile.step, Bin.read] at h
  | size id pos =>
    simp only [BinFile.step, getSectionSize] at h
    cases hb : findSection f id pos
    · simp [hb] at h; exact h.symm
    · simp [hb] at h
  | data id pos =>
    simp only [BinFile.step, getSectionData, getSectionSize] at h
    cases hb : findSection f id pos
    · simp [hb] at h; exact h.symm
    · simp [hb] at h

example : Reader.run (contents [(1, [5, 0, 0, 0, 9]), (2, [])]) ⟨none⟩
    [.start 3 0, .start 1 0, .start 2 0, .u32, .stop true, .bytes 1, .stop true, .start 2 0, .stop true] =
      some ([.refused, .done, .refused, .num 5, .refused, .bytes [9], .done, .done, .done], ⟨none⟩) := by
  rfl

/-- C51, for reads that need not stay inside the section.  After opening section `i` of type `t` and any calls but closing (reads of any
length, inside the section or beyond it, queries, attempts to open other sections), closing with check is accepted exactly when
the bytes consumed are as many as the section has, and refused otherwise. -/
theorem C51_close {c : Nat → List (List Byte)} {f f₁ : BinFile} (ho : Opened f c) (hi : f.readingSection = none) {t i : Nat} {d : List Byte}
    (hd : (c t)[i]? = some d) {os : List Op} (hstop : ∀ o ∈ os, ∀ b, o ≠ .stop b) {rs : List Reply}
    (hr : f.run (.start t i :: os) = some (rs, f₁)) (hlen : (os.map Op.consumes).sum < 2 ^ 64) :
    f₁.step (.stop true) =
      if (os.map Op.consumes).sum = d.length then some (.done, { f₁ with readingSection := none }) else some (.refused, f₁) := by
  rcases ho.find t i with ⟨_, e2⟩ | ⟨s, d', e1, e2, e3, pre, rest, e4, e5⟩
  · rw [hd] at e2; cases e2
  · rw [hd] at e2
    obtain rfl := Option.some.inj e2
    have hl := ho.len
    have hal := congrArg List.length e4
    simp only [List.length_append] at hal
    simp only [BinFile.run, BinFile.step, startReadSection, e1, hi, ne_eq, not_true_eq_false, if_false] at hr
    cases h2 : ({ f with pos := s.start, readingSection := some s } : BinFile).run os with
    | none => rw [h2] at hr; cases hr
    | some p =>
      obtain ⟨rs', f2⟩ := p
      rw [h2] at hr
      simp only [Option.some.injEq, Prod.mk.injEq] at hr
      obtain ⟨-, rfl⟩ := hr
      obtain ⟨b1, b2⟩ := run_open hstop rfl h2
      dsimp only at b2
      simp only [BinFile.step, endReadSection, b1, if_true]
      by_cases hc : (os.map Op.consumes).sum = d.length
      · rw [if_pos hc, if_neg (by omega)]
      · rw [if_neg hc, if_pos (by omega)]

/-- Reading one byte beyond a section of two bytes is answered (with a byte of the next section's header), and then the check refuses. -/
example : (match openFile (encodeFile [1, 2, 3, 4] 1 [(1, [7, 8]), (2, [9])]) [1, 2, 3, 4] 1 with
    | .ok _ f => (f.run [.start 1 0, .bytes 3, .stop true]).map Prod.fst
    | _ => none) = some [.done, .bytes [7, 8, 2], .refused] := by decide +kernel

/-- C51, the limit of the interface: closing with check when no section is open is undefined (a null pointer is followed). -/
theorem C51_close_idle {f : BinFile} (hi : f.readingSection = none) : f.step (.stop true) = none := by
  simp only [BinFile.step, endReadSection, hi, if_true]

/-! ## Headers -/

theorem bind_ok {α β : Type} {x : Act α} {g : α → Act β} {f f' : BinFile} {a : α} (h : x f = .ok a f') : (x >>= g) f = g a f' := by
  show Act.bind x g f = _
  unfold Act.bind
  rw [h]

/-- The object with another position and open section. -/
def goTo (f : BinFile) (p : Nat) (o : Option Section) : BinFile := { f with pos := p, readingSection := o }

section goTo

variable {f : BinFile} {p : Nat} {o : Option Section} {rest : List Byte}

theorem start_at {c : Nat → List (List Byte)} (ho : Opened f c) (hi : f.readingSection = none) {t i : Nat} {d : List Byte}
    (hd : (c t)[i]? = some d) : ∃ s rest, startReadSection t i f = .ok () (goTo f s.start (some s)) ∧
      s.size = d.length ∧ At (goTo f s.start (some s)) (d ++ rest) := by
  rcases ho.find t i with ⟨e1, e2⟩ | ⟨s, d', e1, e2, e3, pre, rest, e4, e5⟩
  · rw [hd] at e2; cases e2
  · rw [hd] at e2
    obtain rfl := Option.some.inj e2
    refine ⟨s, rest, ?_, e3, ho.len, pre, e4, e5⟩
    rw [startReadSection, e1]
    simp [hi, goTo]

theorem u32_at {v : Nat} (h : At (goTo f p o) (leBytes 4 v ++ rest)) (hv : v < 2 ^ 32) :
    readU32LE (goTo f p o) = .ok v (goTo f (p + 4) o) ∧ At (goTo f (p + 4) o) rest := readU32_at h hv

theorem ptr_at {b : List Byte} {n : Nat} (h : At (goTo f p o) (b ++ rest)) (hn : b.length = n) :
    Bin.read n (goTo f p o) = .ok p (goTo f (p + n) o) ∧ bytesAt f.addr p n = some b ∧ At (goTo f (p + n) o) rest := by
  subst hn
  exact ⟨(read_at h).1, h.bytes, (read_at h).2⟩

theorem mpz_at {v n : Nat} (h : At (goTo f p o) (leBytes n v ++ rest)) (hv : v < 256 ^ n) :
    Bin.read n (goTo f p o) = .ok p (goTo f (p + n) o) ∧
      mpzImportBytes n p (goTo f (p + n) o) = .ok v (goTo f (p + n) o) ∧ At (goTo f (p + n) o) rest := by
  have h1 := ptr_at h (leBytes_length n v)
  refine ⟨h1.1, ?_, h1.2.2⟩
  have h2 : bytesAt (goTo f (p + n) o).addr p n = some (leBytes n v) := h1.2.1
  rw [mpzImportBytes, h2]
  simp only [valLE_leBytes_of_lt hv]

theorem end_at {s : Section} (hp : p = s.start + s.size) (hlt : s.size < 2 ^ 64) :
    endReadSection true (goTo f p (some s)) = .ok () (goTo f p none) := by
  have h : ¬ (((goTo f p (some s)).pos : Int) - s.start) % 2 ^ 64 ≠ s.size := by
    simp only [goTo, hp]; push_cast; omega
  rw [endReadSection, if_pos rfl, show (goTo f p (some s)).readingSection = some s from rfl]
  simp only
  rw [if_neg h]
  rfl

theorem size_lt {d : List Byte} {s : Section} (h : At (goTo f p o) (d ++ rest)) (hs : s.size = d.length) : s.size < 2 ^ 64 := by
  obtain ⟨h0, pre, h1, _⟩ := h
  have := congrArg List.length h1
  simp at this
  omega

end goTo

/-- C52.  The header of a witness file: for every field size, prime and count, `loadHeader` on an idle opened file whose first section of
type 1 is the encoded header returns exactly those and leaves the reader idle, the sections untouched. -/
theorem C52_loadHeader {c : Nat → List (List Byte)} {f : BinFile} (ho : Opened f c) (hi : f.readingSection = none) {n8 prime nVars : Nat}
    (hn8 : n8 < 2 ^ 32) (hp : prime < 256 ^ n8) (hnv : nVars < 2 ^ 32) (hd : (c 1)[0]? = some (encodeWtnsHeader n8 prime nVars)) :
    ∃ f', wtnsLoadHeader f = .ok ⟨n8, prime, nVars⟩ f' ∧ f'.readingSection = none ∧ Opened f' c := by
  obtain ⟨s, rest, e1, hsz, a1⟩ := start_at ho hi hd
  have hszlt := size_lt a1 hsz
  simp only [encodeWtnsHeader, List.append_assoc] at a1
  obtain ⟨e2, a2⟩ := u32_at a1 hn8
  obtain ⟨e3, e4, a3⟩ := mpz_at a2 hp
  obtain ⟨e5, a4⟩ := u32_at a3 hnv
  have e6 := end_at (f := f) (p := s.start + 4 + n8 + 4) (s := s) (by simp [encodeWtnsHeader] at hsz; omega) hszlt
  refine ⟨goTo f (s.start + 4 + n8 + 4) none, ?_, rfl, ⟨ho.table, ho.len⟩⟩
  unfold wtnsLoadHeader
  rw [bind_ok e1, bind_ok e2, bind_ok e3, bind_ok e4, bind_ok e5, bind_ok e6]
  rfl

/-- C52, from the file. -/
theorem C52_file {type : List Byte} (h4 : type.length = 4) {version maxVersion : Nat} (hv : version ≤ maxVersion) (hv32 : version < 2 ^ 32)
    {secs : List (Nat × List Byte)} (ht : ∀ s ∈ secs, s.1 < 2 ^ 32) (hn : secs.length < 2 ^ 32) {extra : List Byte}
    (hl : (encodeFile type version secs ++ extra).length < 2 ^ 64) {n8 prime nVars : Nat}
    (hn8 : n8 < 2 ^ 32) (hp : prime < 256 ^ n8) (hnv : nVars < 2 ^ 32)
    (hd : (contents secs 1)[0]? = some (encodeWtnsHeader n8 prime nVars)) :
    ∃ f f', openFile (encodeFile type version secs ++ extra) type maxVersion = .ok () f ∧
      wtnsLoadHeader f = .ok ⟨n8, prime, nVars⟩ f' ∧ f'.readingSection = none := by
  obtain ⟨f, h1, h2, h3, h4⟩ := openFile_spec h4 hv hv32 ht hn hl
  obtain ⟨f', e, e2, _⟩ := C52_loadHeader h2 h3 hn8 hp hnv hd
  exact ⟨f, f', h1, e, e2⟩

example : ∃ f f', openFile (encodeFile [0x77, 0x74, 0x6e, 0x73] 2 [(1, encodeWtnsHeader 32 17 6), (2, [1])]) [0x77, 0x74, 0x6e, 0x73] 2 = .ok () f ∧
    wtnsLoadHeader f = .ok ⟨32, 17, 6⟩ f' ∧ f'.readingSection = none := by
  have := C52_file (type := [0x77, 0x74, 0x6e, 0x73]) rfl (version := 2) (maxVersion := 2) (by omega) (by omega)
    (secs := [(1, encodeWtnsHeader 32 17 6), (2, [1])]) (by decide) (by decide) (extra := []) (by decide) (n8 := 32) (prime := 17)
    (nVars := 6) (by omega) (by decide) (by omega) rfl
  simpa using this

/-- C53.  The header of a groth16 key: for every pair of fields, counts and points, `loadHeader` returns the encoded values, pointers to
the encoded points and the number of coefficients, and leaves the reader idle.  The point sizes must be expressible in 32 bits. -/
theorem C53_loadHeader {c : Nat → List (List Byte)} {f : BinFile} (ho : Opened f c) (hi : f.readingSection = none)
    {n8q q n8r r nVars nPublic domainSize : Nat} {alpha1 beta1 beta2 gamma2 delta1 delta2 coefs : List Byte}
    (hn8q : n8q * 4 < 2 ^ 32) (hq : q < 256 ^ n8q) (hn8r : 12 + n8r < 2 ^ 32) (hr : r < 256 ^ n8r) (hnv : nVars < 2 ^ 32)
    (hnp : nPublic < 2 ^ 32) (hds : domainSize < 2 ^ 32) (ha1 : alpha1.length = n8q * 2) (hb1 : beta1.length = n8q * 2)
    (hb2 : beta2.length = n8q * 4) (hg2 : gamma2.length = n8q * 4) (hd1 : delta1.length = n8q * 2) (hd2 : delta2.length = n8q * 4)
    (hs1 : (c 1)[0]? = some (leBytes 4 1))
    (hs2 : (c 2)[0]? = some (encodeGrothHeader n8q q n8r r nVars nPublic domainSize alpha1 beta1 beta2 gamma2 delta1 delta2))
    (hs4 : (c 4)[0]? = some coefs) :
    ∃ h f', zkeyLoadHeader f = .ok h f' ∧ f'.readingSection = none ∧ Opened f' c ∧
      h.n8q = n8q ∧ h.qPrime = q ∧ h.n8r = n8r ∧ h.rPrime = r ∧ h.nVars = nVars ∧ h.nPublic = nPublic ∧ h.domainSize = domainSize ∧
      h.nCoefs = coefs.length / (12 + n8r) ∧
      bytesAt f'.addr h.vk_alpha1 (n8q * 2) = some alpha1 ∧ bytesAt f'.addr h.vk_beta1 (n8q * 2) = some beta1 ∧
      bytesAt f'.addr h.vk_beta2 (n8q * 4) = some beta2 ∧ bytesAt f'.addr h.vk_gamma2 (n8q * 4) = some gamma2 ∧
      bytesAt f'.addr h.vk_delta1 (n8q * 2) = some delta1 ∧ bytesAt f'.addr h.vk_delta2 (n8q * 4) = some delta2 := by
  obtain ⟨s1, rest1, p1, psz, pa⟩ := start_at ho hi hs1
  obtain ⟨p2, _⟩ := u32_at pa (by omega)
  rw [leBytes_length] at psz
  have p3 := end_at (f := f) (p := s1.start + 4) (s := s1) (by omega) (by omega)
  have ho' : Opened (goTo f (s1.start + 4) none) c := ⟨ho.table, ho.len⟩
  obtain ⟨s, rest, e1, hsz, a1⟩ := start_at ho' rfl hs2
  have hszlt := size_lt a1 hsz
  change At (goTo f s.start (some s)) _ at a1
  change _ = Out.ok () (goTo f s.start (some s)) at e1
  simp only [encodeGrothHeader, List.append_assoc] at a1
  obtain ⟨e2, a2⟩ := u32_at a1 (by omega)
  obtain ⟨e3, e4, a3⟩ := mpz_at a2 hq
  obtain ⟨e5, a4⟩ := u32_at a3 (by omega)
  obtain ⟨e6, e7, a5⟩ := mpz_at a4 hr
  obtain ⟨e8, a6⟩ := u32_at a5 hnv
  obtain ⟨e9, a7⟩ := u32_at a6 hnp
  obtain ⟨e10, a8⟩ := u32_at a7 hds
  obtain ⟨e11, b1, a9⟩ := ptr_at a8 ha1
  obtain ⟨e12, b2, a10⟩ := ptr_at a9 hb1
  obtain ⟨e13, b3, a11⟩ := ptr_at a10 hb2
  obtain ⟨e14, b4, a12⟩ := ptr_at a11 hg2
  obtain ⟨e15, b5, a13⟩ := ptr_at a12 hd1
  obtain ⟨e16, b6, a14⟩ := ptr_at a13 hd2
  have m2 : n8q * 2 % 2 ^ 32 = n8q * 2 := Nat.mod_eq_of_lt (by omega)
  have m4 : n8q * 4 % 2 ^ 32 = n8q * 4 := Nat.mod_eq_of_lt (by omega)
  have m12 : (12 + n8r) % 2 ^ 32 = 12 + n8r := Nat.mod_eq_of_lt hn8r
  simp only [encodeGrothHeader, List.length_append, leBytes_length, ha1, hb1, hb2, hg2, hd1, hd2] at hsz
  have hend := end_at (f := f) (s := s)
    (p := s.start + 4 + n8q + 4 + n8r + 4 + 4 + 4 + n8q * 2 + n8q * 2 + n8q * 4 + n8q * 4 + n8q * 2 + n8q * 4) (by omega) hszlt
  have ho2 : ∀ pe, Opened (goTo f pe none) c := fun _ => ⟨ho.table, ho.len⟩
  have hsize : ∀ pe, getSectionSize 4 0 (goTo f pe none) = .ok coefs.length (goTo f pe none) := by
    intro pe
    rcases (ho2 pe).find 4 0 with ⟨x1, x2⟩ | ⟨s4, d4, x1, x2, x3, _⟩
    · rw [hs4] at x2; cases x2
    rw [hs4] at x2
    obtain rfl := Option.some.inj x2
    rw [getSectionSize, x1]; simp only [x3]
  refine ⟨⟨n8q, q, n8r, r, nVars, nPublic, domainSize, coefs.length / (12 + n8r), s.start + 4 + n8q + 4 + n8r + 4 + 4 + 4, _, _, _, _, _⟩,
    goTo f (s.start + 4 + n8q + 4 + n8r + 4 + 4 + 4 + n8q * 2 + n8q * 2 + n8q * 4 + n8q * 4 + n8q * 2 + n8q * 4) none,
    ?_, rfl, ho2 _, rfl, rfl, rfl, rfl, rfl, rfl, rfl, rfl, b1, b2, b3, b4, b5, b6⟩
  unfold zkeyLoadHeader
  rw [bind_ok p1, bind_ok p2]
  simp only [ne_eq, not_true, if_false]
  rw [bind_ok p3, bind_ok e1, bind_ok e2, bind_ok e3, bind_ok e4, bind_ok e5, bind_ok e6, bind_ok e7, bind_ok e8, bind_ok e9,
    bind_ok e10]
  simp only [m2, m4]
  rw [bind_ok e11, bind_ok e12, bind_ok e13, bind_ok e14, bind_ok e15, bind_ok e16, bind_ok hend, bind_ok (hsize _)]
  simp only [m12]
  rw [if_neg (by omega)]
  rfl

/-- C53.  Any other protocol is refused; the object is then left with section 1 open, so that opening any section is refused. -/
theorem C53_protocol {c : Nat → List (List Byte)} {f : BinFile} (ho : Opened f c) (hi : f.readingSection = none) {protocol : Nat}
    {more : List Byte} (h32 : protocol < 2 ^ 32) (h1 : protocol ≠ 1) (hs1 : (c 1)[0]? = some (leBytes 4 protocol ++ more)) :
    ∃ f', zkeyLoadHeader f = .throws f' ∧ f'.readingSection ≠ none ∧ ∀ t i, startReadSection t i f' = .throws f' := by
  obtain ⟨s1, rest1, p1, psz, pa⟩ := start_at ho hi hs1
  rw [List.append_assoc] at pa
  obtain ⟨p2, _⟩ := u32_at pa h32
  refine ⟨goTo f (s1.start + 4) (some s1), ?_, by simp [goTo], fun t i => ?_⟩
  · unfold zkeyLoadHeader
    rw [bind_ok p1, bind_ok p2]
    simp only [ne_eq, h1, not_false_eq_true, if_true]
    rfl
  · rw [startReadSection]
    cases findSection (goTo f (s1.start + 4) (some s1)) t i <;> simp [goTo]

/-- A key file with small fields. -/
example : ∃ f h f', openFile (encodeFile [1, 2, 3, 4] 1 [(1, leBytes 4 1), (4, List.replicate 26 7),
      (2, encodeGrothHeader 1 7 1 5 9 3 8 [1, 2] [3, 4] [5, 6, 7, 8] [1, 2, 3, 4] [9, 9] [4, 3, 2, 1])]) [1, 2, 3, 4] 1 = .ok () f ∧
    zkeyLoadHeader f = .ok h f' ∧ h.qPrime = 7 ∧ h.nCoefs = 2 := by
  obtain ⟨f, h1, h2, h3, h4⟩ := openFile_spec (type := [1, 2, 3, 4]) rfl (version := 1) (maxVersion := 1) (by omega) (by omega)
    (secs := [(1, leBytes 4 1), (4, List.replicate 26 7),
      (2, encodeGrothHeader 1 7 1 5 9 3 8 [1, 2] [3, 4] [5, 6, 7, 8] [1, 2, 3, 4] [9, 9] [4, 3, 2, 1])])
    (by decide) (by decide) (extra := []) (by decide)
  obtain ⟨h, f', e, _, _, _, e2, _, _, _, _, _, e3, _⟩ := C53_loadHeader h2 h3 (n8q := 1) (q := 7) (n8r := 1) (r := 5) (nVars := 9)
    (nPublic := 3) (domainSize := 8) (alpha1 := [1, 2]) (beta1 := [3, 4]) (beta2 := [5, 6, 7, 8]) (gamma2 := [1, 2, 3, 4]) (delta1 := [9, 9])
    (delta2 := [4, 3, 2, 1]) (coefs := List.replicate 26 7) (by omega) (by omega) (by omega) (by omega) (by omega) (by omega) (by omega)
    rfl rfl rfl rfl rfl rfl rfl rfl rfl
  exact ⟨f, h, f', by simpa using h1, e, e2, by rw [e3]; rfl⟩

/-! ## C59: malformed files

The full property says that every file that does not follow the format is refused.  The type and the version are checked (`C50_type`,
`C50_version`); nothing else is. -/

/-- C59 (part).  Whatever the bytes after the first four, a file of another type is refused without looking at them. -/
theorem C59_type_partial {head type : List Byte} {maxVersion : Nat} (h4 : head.length = 4) (h : head ≠ type) (rest : List Byte) :
    ∃ f, openFile (head ++ rest) type maxVersion = .throws f :=
  C50_type (by simp; omega) (by rw [← h4, List.take_left']; exact h; rfl)

/-- C59 (violated): a file cut anywhere inside the fixed header (type, version, count) makes the constructor read past its end. -/
theorem C59_violation_truncated {type : List Byte} (h4 : type.length = 4) {version maxVersion : Nat} (hv : version ≤ maxVersion)
    (hv32 : version < 2 ^ 32) {k : Nat} (hk : k < 12) :
    openFile ((type ++ leBytes 4 version ++ leBytes 4 0).take k) type maxVersion = .ub := by
  have hlen : (type ++ leBytes 4 version ++ leBytes 4 0).length = 12 := by simp [h4]
  rw [openFile]
  by_cases h1 : k < 4
  · rw [bytesAt, if_neg (by rw [List.length_take, hlen]; omega)]
  · have hb : bytesAt ((type ++ leBytes 4 version ++ leBytes 4 0).take k) 0 4 = some type := by
      rw [bytesAt, if_pos (by rw [List.length_take, hlen]; omega), List.drop_zero, List.take_take, min_eq_left (by omega),
        List.append_assoc, List.take_append_of_le_length (by omega), List.take_of_length_le (by omega)]
    rw [hb]
    simp only [ne_eq, not_true, if_false]
    unfold Act.bind
    by_cases h2 : k < 8
    · rw [readU32LE, bytesAt]
      simp only
      rw [if_neg (by rw [List.length_take, hlen]; omega)]
    · have e : (type ++ leBytes 4 version ++ leBytes 4 0).take k = type ++ (leBytes 4 version ++ (leBytes 4 0).take (k - 8)) := by
        rw [List.take_append, List.take_of_length_le (by simp; omega)]
        simp [h4]
      rw [e]
      have a0 : At ⟨type ++ (leBytes 4 version ++ (leBytes 4 0).take (k - 8)), 4, fun _ => none, 0, none⟩
          (leBytes 4 version ++ (leBytes 4 0).take (k - 8)) :=
        ⟨by simp; omega, type, rfl, h4.symm⟩
      rw [(readU32_at a0 hv32).1]
      simp only [show ¬ maxVersion < version by omega, if_false]
      rw [readU32LE, bytesAt]
      simp only
      rw [if_neg (by simp; omega)]

/-- C59 (violated): a section that claims more bytes than the file has is accepted, and its false size is handed out. -/
theorem C59_violation_size : ∃ (addr : List Byte) (f : BinFile) (n : Nat), openFile addr [1, 2, 3, 4] 1 = .ok () f ∧
    getSectionSize 1 0 f = .ok n f ∧ addr.length < n :=
  ⟨[1, 2, 3, 4] ++ leBytes 4 1 ++ leBytes 4 1 ++ (leBytes 4 1 ++ leBytes 8 1000), _, 1000, rfl, rfl, by decide⟩

end FF.Props
