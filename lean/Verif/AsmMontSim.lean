import Verif.AsmBuilderSim

/-!
# Which variable is cached while the Montgomery programs are printed

The manager goes wrong exactly when a variable is accessed in its stack slot while it is cached: in these programs only
variable 10 can be hit (`mov 10, 3` and `adox 9, 10`).
-/

namespace FF.X86

variable {g : Cfg} {s0 : State} {n : Nat} {opt : Bool}

/-- The configuration used for `n` limbs. -/
structure Shape (g : Cfg) (n : Nat) (opt : Bool) : Prop where
  ok : g.Ok
  pos : 0 < n
  need : g.need = 4 + n + 1 + ext opt
  used : g.N = nUsed g.need

theorem Shape.N_gt (h : Shape g n opt) : 4 < g.N := by
  have := h.used; have := h.need; have := h.pos
  unfold nUsed at *
  split at * <;> omega

theorem Shape.N_le (h : Shape g n opt) : g.N ≤ g.need := by
  have := h.used; have := h.need
  unfold nUsed at *
  split at * <;> omega

theorem Shape.spill (h : Shape g n opt) (hs : g.N < g.need) : g.N = 10 ∧ 7 ≤ n + ext opt := by
  have := h.used; have := h.need
  unfold nUsed at *
  split at * <;> omega

theorem cc_lt {N a : Nat} {c : Option Nat} (h : a < N) : cc N a c = c := by simp [cc, Nat.not_le.mpr h]
theorem cc_ge {N a : Nat} {c : Option Nat} (h : N ≤ a) : cc N a c = some a := by simp [cc, h]
theorem cc_cc {N a : Nat} {c : Option Nat} : cc N a (cc N a c) = cc N a c := by
  by_cases h : N ≤ a
  · simp [cc, h]
  · simp [cc, h]
theorem cc_step {N a : Nat} {c : Option Nat} : cc N (a + 1) (cc N a c) = cc N (a + 1) c := by
  by_cases h : N ≤ a + 1
  · simp [cc, h]
  · have : ¬ N ≤ a := by omega
    simp [cc, h, this]

theorem sim_clearTop (h : Shape g n opt) {c : Option Nat} (hc : c ≠ some (4 + n + ext opt)) :
    Sim g s0 c (clearTop n opt) c := by
  have h4 := h.N_gt
  have h5 := h.N_le
  have hn := h.need
  cases opt with
  | true => exact sim_mov h.ok (by simp only [T0, ext, if_true] at *; omega) (by omega) (by omega) (fun _ => hc)
  | false =>
    exact sim_mov h.ok (by simp only [T0, ext] at *; simp at hn; omega) (by omega) (by omega) (fun _ => by
      simpa [ext, T0, Nat.add_assoc] using hc)

/-- The part of the reduction loop common to both variants. -/
def secondLow (n : Nat) : List (Ins Arg) :=
  [o2 .mov vrdx (V 2), .mulx (V 0) vrdx (V T0), .mulx (V 1) (V 0) (mq 0), o2 .adcx (V 0) (V T0)] ++
  ((List.range' 1 (n - 1)).flatMap fun j =>
    [.mulx (V ((j + 1) % 2)) (V (T0 + j - 1)) (mq j), o2 .adcx (V (T0 + j - 1)) (V (j % 2)),
     o2 .adox (V (T0 + j - 1)) (V (T0 + j))]) ++
  [o2 .mov (V (T0 + n - 1)) (V 3), o2 .adcx (V (T0 + n - 1)) (V (n % 2)), o2 .adox (V (T0 + n - 1)) (V (T0 + n))]

theorem sim_secondLow (h : Shape g n opt) (hq : ∀ j < n, HwOk g s0 (.sym .q (8 * j))) {c : Option Nat}
    (hc : g.N < g.need → c ≠ some 10) : Sim g s0 c (secondLow n) (cc g.N (4 + n - 1) c) := by
  have h4 := h.N_gt
  have h5 := h.N_le
  have hn := h.need
  have hp := h.pos
  have hs := h.spill
  have hok := h.ok
  have hc' : ∀ k, g.N ≤ k → k < g.N + 1 → k < g.need → c ≠ some k := by
    intro k h1 h2 h3
    have h6 := hs (by omega)
    have : k = 10 := by omega
    rw [this]; exact hc (by omega)
  unfold secondLow
  have P1 : Sim g s0 c [o2 .mov vrdx (V 2), .mulx (V 0) vrdx (V T0), .mulx (V 1) (V 0) (mq 0), o2 .adcx (V 0) (V T0)] c := by
    have a1 : Sim g s0 c [o2 .mov vrdx (V 2)] c := sim_movRdx hok (by omega) (by omega)
    have a2 : Sim g s0 c [.mulx (V 0) vrdx (V T0)] c :=
      sim_mulx_rdx hok (by omega) (by omega) (by simp only [T0]; omega) (by simp only [T0]; omega)
    have a3 : Sim g s0 c [.mulx (V 1) (V 0) (mq 0)] (cc g.N 0 c) :=
      sim_mulx hok (by omega) (by omega) (by omega) (hq 0 hp)
    have a4 : Sim g s0 c [o2 .adcx (V 0) (V T0)] (cc g.N 0 c) :=
      sim_ad hok (Or.inl rfl) (by omega) (by simp only [T0]; omega) (fun _ h => by simp only [T0] at h; omega)
    rw [cc_lt (by omega)] at a3 a4
    exact a1.cons (a2.cons (a3.cons a4))
  have P2 := Sim.loop (g := g) (s0 := s0) (fun j => cc g.N (4 + j - 2) c)
    (fun j => [.mulx (V ((j + 1) % 2)) (V (T0 + j - 1)) (mq j), o2 .adcx (V (T0 + j - 1)) (V (j % 2)),
      o2 .adox (V (T0 + j - 1)) (V (T0 + j))]) 1 (n - 1) (by
      intro j hj hj'
      obtain ⟨i, rfl⟩ : ∃ i, j = i + 1 := ⟨j - 1, by omega⟩
      rw [show T0 + (i + 1) - 1 = 4 + i by simp only [T0]; omega, show T0 + (i + 1) = 4 + i + 1 by simp only [T0]; omega,
        show 4 + i + 1 - 2 = 3 + i by omega, show 4 + (i + 1 + 1) - 2 = 4 + i by omega]
      have b1 : Sim g s0 (cc g.N (3 + i) c) [.mulx (V ((i + 1 + 1) % 2)) (V (4 + i)) (mq (i + 1))]
          (cc g.N (4 + i) (cc g.N (3 + i) c)) :=
        sim_mulx hok (by omega) (by omega) (by omega) (hq _ (by omega))
      rw [show 4 + i = 3 + i + 1 by omega, cc_step] at b1
      rw [show 3 + i + 1 = 4 + i by omega] at b1
      have b2 : Sim g s0 (cc g.N (4 + i) c) [o2 .adcx (V (4 + i)) (V ((i + 1) % 2))] (cc g.N (4 + i) (cc g.N (4 + i) c)) :=
        sim_ad hok (Or.inl rfl) (by omega) (by omega) (fun _ h => by omega)
      have b3 : Sim g s0 (cc g.N (4 + i) c) [o2 .adox (V (4 + i)) (V (4 + i + 1))] (cc g.N (4 + i) (cc g.N (4 + i) c)) :=
        sim_ad hok (Or.inr rfl) (by omega) (by omega) (fun h1 h2 => by
          rw [cc_lt h1]; exact hc' _ h2 (by omega) (by omega))
      rw [cc_cc] at b2 b3
      exact b1.cons (b2.cons b3))
  simp only [show 4 + 1 - 2 = 3 from rfl, show 1 + (n - 1) = n by omega] at P2
  rw [cc_lt (show 3 < g.N by omega)] at P2
  obtain ⟨i, rfl⟩ : ∃ i, n = i + 1 := ⟨n - 1, by omega⟩
  rw [show 4 + (i + 1) - 2 = 3 + i by omega] at P2
  have P3 : Sim g s0 (cc g.N (3 + i) c) [o2 .mov (V (T0 + (i + 1) - 1)) (V 3),
      o2 .adcx (V (T0 + (i + 1) - 1)) (V ((i + 1) % 2)), o2 .adox (V (T0 + (i + 1) - 1)) (V (T0 + (i + 1)))]
      (cc g.N (4 + i) c) := by
    rw [show T0 + (i + 1) - 1 = 4 + i by simp only [T0]; omega, show T0 + (i + 1) = 4 + i + 1 by simp only [T0]; omega]
    have c1 : Sim g s0 (cc g.N (3 + i) c) [o2 .mov (V (4 + i)) (V 3)] (cc g.N (3 + i) c) :=
      sim_mov hok (by omega) (by omega) (by omega) (fun h1 => by
        by_cases h2 : g.N ≤ 3 + i
        · rw [cc_ge h2]; simp
        · rw [cc_lt (by omega)]; exact hc' _ h1 (by omega) (by omega))
    have c2 : Sim g s0 (cc g.N (3 + i) c) [o2 .adcx (V (4 + i)) (V ((i + 1) % 2))] (cc g.N (4 + i) (cc g.N (3 + i) c)) :=
      sim_ad hok (Or.inl rfl) (by omega) (by omega) (fun _ h => by omega)
    rw [show 4 + i = 3 + i + 1 by omega, cc_step] at c2
    rw [show 3 + i + 1 = 4 + i by omega] at c2
    have c3 : Sim g s0 (cc g.N (4 + i) c) [o2 .adox (V (4 + i)) (V (4 + i + 1))] (cc g.N (4 + i) (cc g.N (4 + i) c)) :=
      sim_ad hok (Or.inr rfl) (by omega) (by omega) (fun h1 h2 => by
        rw [cc_lt h1]; exact hc' _ h2 (by omega) (by omega))
    rw [cc_cc] at c3
    exact c1.cons (c2.cons c3)
  exact (P1.append P2).append P3

/-- The reduction loop. -/
theorem sim_second (h : Shape g n opt) (hq : ∀ j < n, HwOk g s0 (.sym .q (8 * j))) {c : Option Nat}
    (hc : g.N < g.need → c ≠ some 10) : Sim g s0 c (second n opt) (cc g.N (4 + n - 1 + ext opt) c) := by
  have h4 := h.N_gt
  have h5 := h.N_le
  have hn := h.need
  have hp := h.pos
  have hs := h.spill
  have hok := h.ok
  have hc' : ∀ k, g.N ≤ k → k < g.N + 1 → k < g.need → c ≠ some k := by
    intro k h1 h2 h3
    have h6 := hs (by omega)
    have : k = 10 := by omega
    rw [this]; exact hc (by omega)
  have P := sim_secondLow h hq hc
  obtain ⟨i, rfl⟩ : ∃ i, n = i + 1 := ⟨n - 1, by omega⟩
  rw [show 4 + (i + 1) - 1 = 4 + i by omega] at P
  unfold second
  unfold secondLow at P
  cases opt with
  | true =>
    simp only [ext, if_true, List.append_nil, Nat.add_zero]
    rw [show 4 + (i + 1) - 1 = 4 + i by omega]
    exact P
  | false =>
    simp only [ext, Bool.false_eq_true, if_false] at hn ⊢
    rw [show 4 + (i + 1) - 1 + 1 = 4 + i + 1 by omega, show T0 + (i + 1) = 4 + i + 1 by simp only [T0]; omega]
    rw [show T0 + (i + 1) = 4 + i + 1 by simp only [T0]; omega] at P
    refine P.append ?_
    have d1 : Sim g s0 (cc g.N (4 + i) c) [o2 .mov (V (4 + i + 1)) (V 3)] (cc g.N (4 + i) c) :=
      sim_mov hok (by omega) (by omega) (by omega) (fun h1 => by
        by_cases h2 : g.N ≤ 4 + i
        · rw [cc_ge h2]; simp
        · rw [cc_lt (by omega)]; exact hc' _ h1 (by omega) (by omega))
    have d2 : Sim g s0 (cc g.N (4 + i) c) [o2 .adcx (V (4 + i + 1)) (V 3)] (cc g.N (4 + i + 1) (cc g.N (4 + i) c)) :=
      sim_ad hok (Or.inl rfl) (by omega) (by omega) (fun _ h => by omega)
    rw [cc_step] at d2
    have d3 : Sim g s0 (cc g.N (4 + i + 1) c) [o2 .adox (V (4 + i + 1)) (V (4 + i + 1 + 1))]
        (cc g.N (4 + i + 1) (cc g.N (4 + i + 1) c)) :=
      sim_ad hok (Or.inr rfl) (by omega) (by omega) (fun h1 h2 => by
        rw [cc_lt h1]; exact hc' _ h2 (by omega) (by omega))
    rw [cc_cc] at d3
    exact d1.cons (d2.cons d3)

/-- The first product. -/
theorem sim_firstProduct (h : Shape g n opt) {o0 : Opd} {xo : Nat → Opd} (h0 : HwOk g s0 o0)
    (hx : ∀ j < n, HwOk g s0 (xo j)) :
    Sim g s0 none (firstProduct n opt (.hw o0) (fun j => .hw (xo j))) (cc g.N (4 + n + ext opt) none) := by
  have h4 := h.N_gt
  have h5 := h.N_le
  have hn := h.need
  have hp := h.pos
  have hok := h.ok
  unfold firstProduct
  have P1 : Sim g s0 none [.mulx (V 0) (V T0) (.hw o0)] (cc g.N 4 none) :=
    sim_mulx hok (by omega) (by omega) (by simp only [T0]; omega) h0
  have P2 := Sim.loop (g := g) (s0 := s0) (fun j => cc g.N (3 + j) none)
    (fun j => [.mulx (V (j % 2)) (V (T0 + j)) (.hw (xo j)), o2 .adcx (V (T0 + j)) (V ((j - 1) % 2))]) 1 (n - 1) (by
      intro j hj hj'
      have b1 : Sim g s0 (cc g.N (3 + j) none) [.mulx (V (j % 2)) (V (T0 + j)) (.hw (xo j))]
          (cc g.N (4 + j) (cc g.N (3 + j) none)) :=
        sim_mulx hok (by omega) (by omega) (by simp only [T0]; omega) (hx _ (by omega))
      rw [show 4 + j = 3 + j + 1 by omega, cc_step] at b1
      have b2 : Sim g s0 (cc g.N (3 + j + 1) none) [o2 .adcx (V (4 + j)) (V ((j - 1) % 2))]
          (cc g.N (4 + j) (cc g.N (3 + j + 1) none)) :=
        sim_ad hok (Or.inl rfl) (by omega) (by omega) (fun _ h => by omega)
      rw [show 3 + j + 1 = 4 + j by omega, cc_cc] at b2
      rw [show 3 + j + 1 = 4 + j by omega] at b1
      rw [show 3 + (j + 1) = 4 + j by omega]
      exact b1.cons b2)
  rw [show 1 + (n - 1) = n by omega] at P2
  have P3 : Sim g s0 (cc g.N (3 + n) none) [o2 .mov (V (T0 + n)) (V 3), o2 .adcx (V (T0 + n)) (V ((n - 1) % 2))]
      (cc g.N (4 + n) none) := by
    have c1 : Sim g s0 (cc g.N (3 + n) none) [o2 .mov (V (4 + n)) (V 3)] (cc g.N (3 + n) none) :=
      sim_mov hok (by omega) (by omega) (by omega) (fun h1 => by
        by_cases h2 : g.N ≤ 3 + n
        · rw [cc_ge h2]; simp
        · rw [cc_lt (by omega)]; simp)
    have c2 : Sim g s0 (cc g.N (3 + n) none) [o2 .adcx (V (4 + n)) (V ((n - 1) % 2))]
        (cc g.N (4 + n) (cc g.N (3 + n) none)) :=
      sim_ad hok (Or.inl rfl) (by omega) (by omega) (fun _ h => by omega)
    rw [show 4 + n = 3 + n + 1 by omega, cc_step] at c2
    rw [show 3 + n + 1 = 4 + n by omega] at c2
    exact c1.cons c2
  have P := (P1.append P2).append P3
  cases opt with
  | true =>
    simp only [ext, if_true, List.append_nil, Nat.add_zero]
    exact P
  | false =>
    simp only [ext, Bool.false_eq_true, if_false] at hn ⊢
    refine P.append ?_
    have d1 : Sim g s0 (cc g.N (4 + n) none) [o2 .mov (V (4 + n + 1)) (V 3)] (cc g.N (4 + n) none) :=
      sim_mov hok (by omega) (by omega) (by omega) (fun h1 => by
        by_cases h2 : g.N ≤ 4 + n
        · rw [cc_ge h2]; simp
        · rw [cc_lt (by omega)]; simp)
    have d2 : Sim g s0 (cc g.N (4 + n) none) [o2 .adcx (V (4 + n + 1)) (V 3)] (cc g.N (4 + n + 1) (cc g.N (4 + n) none)) :=
      sim_ad hok (Or.inl rfl) (by omega) (by omega) (fun _ h => by omega)
    rw [cc_step] at d2
    exact d1.cons d2

/-- A later product. -/
theorem sim_nextProduct (h : Shape g n opt) {xo : Nat → Opd} (hx : ∀ j < n, HwOk g s0 (xo j)) {c : Option Nat}
    (hc : c ≠ some (4 + n + ext opt)) :
    Sim g s0 c (nextProduct n opt (fun j => .hw (xo j))) (cc g.N (4 + n + ext opt) c) := by
  have h4 := h.N_gt
  have h5 := h.N_le
  have hn := h.need
  have hp := h.pos
  have hok := h.ok
  unfold nextProduct
  have P1 : Sim g s0 c (clearTop n opt) c := sim_clearTop h hc
  have P2 := Sim.loop (g := g) (s0 := s0) (fun j => cc g.N (4 + j) c)
    (fun j => [.mulx (V 1) (V 0) (.hw (xo j)), o2 .adcx (V (T0 + j)) (V 0), o2 .adox (V (T0 + j + 1)) (V 1)]) 0 n (by
      intro j hj hj'
      have b1 : Sim g s0 (cc g.N (4 + j) c) [.mulx (V 1) (V 0) (.hw (xo j))] (cc g.N 0 (cc g.N (4 + j) c)) :=
        sim_mulx hok (by omega) (by omega) (by omega) (hx _ (by omega))
      rw [cc_lt (a := 0) (by omega)] at b1
      have b2 : Sim g s0 (cc g.N (4 + j) c) [o2 .adcx (V (4 + j)) (V 0)] (cc g.N (4 + j) (cc g.N (4 + j) c)) :=
        sim_ad hok (Or.inl rfl) (by omega) (by omega) (fun _ h => by omega)
      rw [cc_cc] at b2
      have b3 : Sim g s0 (cc g.N (4 + j) c) [o2 .adox (V (4 + j + 1)) (V 1)] (cc g.N (4 + j + 1) (cc g.N (4 + j) c)) :=
        sim_ad hok (Or.inr rfl) (by omega) (by omega) (fun _ h => by omega)
      rw [cc_step] at b3
      exact b1.cons (b2.cons b3))
  rw [Nat.zero_add] at P2
  rw [cc_lt (a := 4 + 0) (by omega)] at P2
  have P := P1.append P2
  have e1 : Sim g s0 (cc g.N (4 + n) c) [o2 .adcx (V (4 + n)) (V 3)] (cc g.N (4 + n) (cc g.N (4 + n) c)) :=
    sim_ad hok (Or.inl rfl) (by omega) (by omega) (fun _ h => by omega)
  rw [cc_cc] at e1
  cases opt with
  | true =>
    simp only [ext, if_true, Nat.add_zero]
    exact P.append e1
  | false =>
    simp only [ext, Bool.false_eq_true, if_false] at hn ⊢
    refine P.append (e1.cons ?_)
    have d2 : Sim g s0 (cc g.N (4 + n) c) [o2 .adcx (V (4 + n + 1)) (V 3)] (cc g.N (4 + n + 1) (cc g.N (4 + n) c)) :=
      sim_ad hok (Or.inl rfl) (by omega) (by omega) (fun _ h => by omega)
    rw [cc_step] at d2
    have d3 : Sim g s0 (cc g.N (4 + n + 1) c) [o2 .adox (V (4 + n + 1)) (V 3)]
        (cc g.N (4 + n + 1) (cc g.N (4 + n + 1) c)) :=
      sim_ad hok (Or.inr rfl) (by omega) (by omega) (fun _ h => by omega)
    rw [cc_cc] at d3
    exact d2.cons d3

/-- The copy of the conversion from Montgomery form. -/
theorem sim_copyIn (h : Shape g n opt) {xo : Nat → Opd} (hm : ∀ j, (xo j).isMem = true)
    (hx : ∀ j < n, HwOk g s0 (xo j)) :
    Sim g s0 none (((List.range' 0 n).flatMap fun j => [o2 .mov (V (T0 + j)) (.hw (xo j))]) ++
        [o2 .mov (V (T0 + n)) (V 3)] ++ (if opt then [] else [o2 .mov (V (T0 + n + 1)) (V 3)]))
      (cc g.N (4 + n - 1) none) := by
  have h4 := h.N_gt
  have h5 := h.N_le
  have hn := h.need
  have hp := h.pos
  have hok := h.ok
  have P2 := Sim.loop (g := g) (s0 := s0) (fun j => cc g.N (4 + j - 1) none)
    (fun j => [o2 .mov (V (T0 + j)) (.hw (xo j))]) 0 n (by
      intro j hj hj'
      have b1 : Sim g s0 (cc g.N (4 + j - 1) none) [o2 .mov (V (4 + j)) (.hw (xo j))]
          (cc g.N (4 + j) (cc g.N (4 + j - 1) none)) :=
        sim_opmem hok (Or.inl rfl) (by omega) (hm j) (hx _ (by omega))
      rw [show 4 + j = 4 + j - 1 + 1 by omega] at b1
      rw [show 4 + (j + 1) - 1 = 4 + j - 1 + 1 by omega, ← cc_step]
      rw [show 4 + j - 1 + 1 - 1 = 4 + j - 1 by omega] at b1
      simp only [T0]
      rw [show 4 + j = 4 + j - 1 + 1 by omega]
      exact b1)
  rw [Nat.zero_add] at P2
  rw [cc_lt (a := 4 + 0 - 1) (by omega)] at P2
  have hne : ∀ k, 4 + n - 1 < k → cc g.N (4 + n - 1) none ≠ some k := by
    intro k hk
    by_cases h2 : g.N ≤ 4 + n - 1
    · rw [cc_ge h2]; simp; omega
    · rw [cc_lt (by omega)]; simp
  have c1 : Sim g s0 (cc g.N (4 + n - 1) none) [o2 .mov (V (4 + n)) (V 3)] (cc g.N (4 + n - 1) none) :=
    sim_mov hok (by omega) (by omega) (by omega) (fun h1 => hne _ (by omega))
  cases opt with
  | true =>
    simp only [if_true, List.append_nil]
    exact P2.append c1
  | false =>
    simp only [ext, Bool.false_eq_true, if_false] at hn ⊢
    refine (P2.append c1).append ?_
    exact sim_mov hok (by simp only [T0]; omega) (by omega) (by omega) (fun h1 => hne _ (by simp only [T0]; omega))

/-- All rounds, given the cache before (`A`) and after (`B`) each upper loop. -/
theorem sim_rounds (h : Shape g n opt) (hq : ∀ j < n, HwOk g s0 (.sym .q (8 * j))) (upper : Nat → List (Ins Arg))
    (B : Nat → Option Nat)
    (hA : ∀ i < n, Sim g s0 (if i = 0 then none else cc g.N (4 + n - 1 + ext opt) none) (upper i) (B i))
    (hB : ∀ i < n, g.N < g.need → B i ≠ some 10)
    (hB' : ∀ i < n, cc g.N (4 + n - 1 + ext opt) (B i) = cc g.N (4 + n - 1 + ext opt) none) :
    Sim g s0 none (rounds upper n opt) (cc g.N (4 + n - 1 + ext opt) none) := by
  have hp := h.pos
  have P := Sim.loop (g := g) (s0 := s0) (fun i => if i = 0 then none else cc g.N (4 + n - 1 + ext opt) none)
    (fun i => upper i ++ second n opt) 0 n (by
      intro i _ hi
      rw [Nat.zero_add] at hi
      have := (hA i hi).append (sim_second h hq (hB i hi))
      rw [hB' i hi] at this
      simpa only [if_neg (Nat.succ_ne_zero i)] using this)
  rw [Nat.zero_add] at P
  simp only [if_true, if_neg (show ¬ n = 0 by omega)] at P
  exact P

theorem cc_none_collapse (h : Shape g n opt) {c : Option Nat} (hc : g.N < g.need ∨ c = none) :
    cc g.N (4 + n - 1 + ext opt) c = cc g.N (4 + n - 1 + ext opt) none := by
  rcases hc with hc | rfl
  · have h1 := h.spill hc
    have h2 := h.need
    rw [cc_ge (by omega), cc_ge (by omega)]
  · rfl

/-- Product rounds are safe for every number of limbs. -/
theorem sim_product (h : Shape g n opt) (hq : ∀ j < n, HwOk g s0 (.sym .q (8 * j))) {yo xo : Nat → Opd} {o0 : Opd}
    (hy : ∀ j < n, HwOk g s0 (yo j)) (hx : ∀ j < n, HwOk g s0 (xo j)) (h0 : HwOk g s0 o0) :
    Sim g s0 none (rounds (fun i => [o2 .mov vrdx (.hw (yo i))] ++
      if i = 0 then firstProduct n opt (.hw o0) (fun j => .hw (xo j)) else nextProduct n opt (fun j => .hw (xo j))) n opt)
      (cc g.N (4 + n - 1 + ext opt) none) := by
  have hn := h.need
  have h5 := h.N_le
  refine sim_rounds h hq _ (fun _ => cc g.N (4 + n + ext opt) none) (fun i hi => ?_) (fun i hi hs => ?_) (fun i hi => ?_)
  · refine (sim_movRdx_hw h.ok (hy i hi)).append ?_
    by_cases hi0 : i = 0
    · rw [if_pos hi0, if_pos hi0]
      exact sim_firstProduct h h0 hx
    · rw [if_neg hi0, if_neg hi0]
      have := sim_nextProduct (s0 := s0) h hx (c := cc g.N (4 + n - 1 + ext opt) none) (by
        by_cases hh : g.N ≤ 4 + n - 1 + ext opt
        · rw [cc_ge hh]; simp only [ne_eq, Option.some.injEq]; have := h.pos; omega
        · rw [cc_lt (by omega)]; simp)
      rw [show 4 + n + ext opt = (4 + n - 1 + ext opt) + 1 by have := h.pos; omega, cc_step] at this
      rw [show 4 + n + ext opt = (4 + n - 1 + ext opt) + 1 by have := h.pos; omega]
      exact this
  · have h1 := h.spill hs
    rw [cc_ge (by omega)]
    simp; omega
  · by_cases hs : g.N < g.need
    · exact cc_none_collapse h (Or.inl hs)
    · rw [cc_lt (a := 4 + n + ext opt) (by omega)]

/-- Product by a word: safe unless variable 10 stays cached between rounds. -/
theorem sim_mul1 (h : Shape g n opt) (hq : ∀ j < n, HwOk g s0 (.sym .q (8 * j)))
    (hx : ∀ j < n, HwOk g s0 (.mem .rsi (8 * j))) (h7 : n + ext opt ≠ 7) :
    Sim g s0 none (rounds (upperMul1 n opt) n opt) (cc g.N (4 + n - 1 + ext opt) none) := by
  have hn := h.need
  have h5 := h.N_le
  refine sim_rounds h hq _ (fun i => if i = 0 then cc g.N (4 + n + ext opt) none else cc g.N (4 + n - 1 + ext opt) none)
    (fun i hi => ?_) (fun i hi hs => ?_) (fun i hi => ?_)
  · by_cases hi0 : i = 0
    · subst hi0
      simp only [upperMul1, if_true]
      exact (sim_movRdx_hw (m := .reg .rcx) h.ok (Or.inl rfl)).append (sim_firstProduct h (hx 0 h.pos) hx)
    · simp only [upperMul1, if_neg hi0]
      refine sim_clearTop h ?_
      by_cases hh : g.N ≤ 4 + n - 1 + ext opt
      · rw [cc_ge hh]; simp only [ne_eq, Option.some.injEq]; have := h.pos; omega
      · rw [cc_lt (by omega)]; simp
  · have h1 := h.spill hs
    split
    · rw [cc_ge (by omega)]; simp; omega
    · rw [cc_ge (by omega)]; simp; omega
  · by_cases hs : g.N < g.need
    · exact cc_none_collapse h (Or.inl hs)
    · split
      · rw [cc_lt (a := 4 + n + ext opt) (by omega)]
      · rw [cc_cc]

/-- Conversion from Montgomery form. -/
theorem sim_from (h : Shape g n opt) (hq : ∀ j < n, HwOk g s0 (.sym .q (8 * j)))
    (hx : ∀ j < n, HwOk g s0 (.mem .rsi (8 * j))) (h7 : n + ext opt ≠ 7) (h7' : n ≠ 7) :
    Sim g s0 none (rounds (upperFrom n opt) n opt) (cc g.N (4 + n - 1 + ext opt) none) := by
  have hn := h.need
  have h5 := h.N_le
  refine sim_rounds h hq _ (fun i => if i = 0 then cc g.N (4 + n - 1) none else cc g.N (4 + n - 1 + ext opt) none)
    (fun i hi => ?_) (fun i hi hs => ?_) (fun i hi => ?_)
  · by_cases hi0 : i = 0
    · subst hi0
      simp only [upperFrom, if_true]
      exact sim_copyIn (xo := fun j => .mem .rsi (8 * j)) h (fun _ => rfl) hx
    · simp only [upperFrom, if_neg hi0]
      refine sim_clearTop h ?_
      by_cases hh : g.N ≤ 4 + n - 1 + ext opt
      · rw [cc_ge hh]; simp only [ne_eq, Option.some.injEq]; have := h.pos; omega
      · rw [cc_lt (by omega)]; simp
  · have h1 := h.spill hs
    split
    · by_cases hh : g.N ≤ 4 + n - 1
      · rw [cc_ge hh]; simp; omega
      · rw [cc_lt (by omega)]; simp
    · rw [cc_ge (by omega)]; simp; omega
  · by_cases hs : g.N < g.need
    · exact cc_none_collapse h (Or.inl hs)
    · split
      · rw [cc_lt (a := 4 + n - 1) (by omega)]
      · rw [cc_cc]

end FF.X86
