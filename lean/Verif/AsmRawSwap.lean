import Verif.AsmRawMisc

/-!
# What `rawSwap` of the generated assembly does
-/

namespace FF.X86

/-- Not `rax`, not `rcx`. -/
def keepSwap (r : Reg) : Prop := r ≠ .rax ∧ r ≠ .rcx

/-- What the swap loop leaves behind for the cells from `k` on. -/
structure SwapPost (k m : Nat) (s s' : State) : Prop where
  fst : ∀ i, k ≤ i → i < k + m → s'.mem (cell (s.reg .rdi) i) = s.mem (cell (s.reg .rsi) i)
  snd : ∀ i, k ≤ i → i < k + m → s'.mem (cell (s.reg .rsi) i) = s.reg .rbx
  frame : ∀ a, (∀ i, k ≤ i → i < k + m → a ≠ cell (s.reg .rdi) i ∧ a ≠ cell (s.reg .rsi) i) → s'.mem a = s.mem a
  regs : ∀ r, keepSwap r → s'.reg r = s.reg r

theorem swapLoop_run (n : Nat) (hn : 8 * n ≤ 2 ^ 64) (m : Nat) : ∀ (k : Nat) (s : State), k + m ≤ n →
    Sep (s.reg .rdi) (s.reg .rsi) n →
    SwapPost k m s (steps ((List.range' k m).flatMap fun i =>
      [i2 .mov rax (.mem .rsi (8 * i)), i2 .mov rcx (.mem .rdi (8 * i)),
       i2 .mov (.mem .rdi (8 * i)) rax, i2 .mov (.mem .rsi (8 * i)) rbx]) s) := by
  induction m with
  | zero =>
    intro k s _ _
    exact ⟨fun i _ _ => by omega, fun i _ _ => by omega, fun _ _ => by simp [steps], fun _ _ => by simp [steps]⟩
  | succ m ih =>
    intro k s hk hsep
    rw [List.range'_succ, List.flatMap_cons, steps_append]
    generalize hs1 : steps [i2 .mov rax (.mem .rsi (8 * k)), i2 .mov rcx (.mem .rdi (8 * k)),
       i2 .mov (.mem .rdi (8 * k)) rax, i2 .mov (.mem .rsi (8 * k)) rbx] s = s1
    have hm : s1.mem = upd (upd s.mem (cell (s.reg .rdi) k) (s.mem (cell (s.reg .rsi) k))) (cell (s.reg .rsi) k)
        (s.reg .rbx) := by
      rw [← hs1]
      simp only [steps, List.foldl_cons, List.foldl_nil, step_mov, Opd.set, Opd.get, addr_eq]
      simp [upd]
    have hr : ∀ r, keepSwap r → s1.reg r = s.reg r := by
      intro r h
      rw [← hs1]
      simp only [steps, List.foldl_cons, List.foldl_nil, step_mov, Opd.set, Opd.get]
      rw [upd_ne _ _ h.2, upd_ne _ _ h.1]
    have hdi := hr .rdi ⟨by decide, by decide⟩
    have hsi := hr .rsi ⟨by decide, by decide⟩
    have hbx := hr .rbx ⟨by decide, by decide⟩
    have key := ih (k + 1) s1 (by omega) (by rw [hdi, hsi]; exact hsep)
    have hd : s1.mem (cell (s.reg .rdi) k) = s.mem (cell (s.reg .rsi) k) := by
      rw [hm, upd_ne _ _ (hsep k k (by omega) (by omega)), upd_same]
    have hs' : s1.mem (cell (s.reg .rsi) k) = s.reg .rbx := by rw [hm, upd_same]
    have hk' : ∀ b c : BitVec 64, (b = s.reg .rdi ∧ c = s.reg .rsi) ∨ (b = s.reg .rsi ∧ c = s.reg .rdi) →
        ∀ i, k + 1 ≤ i → i < k + 1 + m → cell b k ≠ cell b i ∧ cell b k ≠ cell c i := by
      intro b c h i h1 h2
      refine ⟨fun e => ?_, ?_⟩
      · have := cell_inj (by omega) (by omega) e; omega
      · rcases h with ⟨rfl, rfl⟩ | ⟨rfl, rfl⟩
        · exact hsep k i (by omega) (by omega)
        · exact fun e => hsep i k (by omega) (by omega) e.symm
    refine ⟨?_, ?_, ?_, ?_⟩
    · intro i h1 h2
      rcases Nat.eq_or_lt_of_le h1 with rfl | h
      · rw [key.frame _ (fun i h h' => by
          rw [hdi, hsi]; exact hk' _ _ (.inl ⟨rfl, rfl⟩) i h h'), hd]
      · have := key.fst i h (by omega)
        rw [hdi, hsi] at this
        rw [this, hm, upd_ne, upd_ne]
        · exact fun e => hsep k i (by omega) (by omega) e.symm
        · intro e; have := cell_inj (by omega) (by omega) e; omega
    · intro i h1 h2
      rcases Nat.eq_or_lt_of_le h1 with rfl | h
      · rw [key.frame _ (fun i h h' => by
          rw [hdi, hsi]; exact (hk' _ _ (.inr ⟨rfl, rfl⟩) i h h').symm), hs']
      · have := key.snd i h (by omega)
        rwa [hsi, hbx] at this
    · intro a ha
      rw [key.frame a (fun i h h' => by rw [hdi, hsi]; exact ha i (by omega) (by omega)), hm,
        upd_ne _ _ (ha k (by omega) (by omega)).2, upd_ne _ _ (ha k (by omega) (by omega)).1]
    · intro r h; rw [key.regs r h, hr r h]

theorem rawSwap_run (env : String → Option (State → Option State)) (ra : BitVec 64) (n : Nat) (hn : 8 * n ≤ 2 ^ 64)
    (s : State) (hsep : Sep (s.reg .rdi) (s.reg .rsi) n) :
    ∃ s', run env ra (rawSwap n) s = some s' ∧ rd s'.mem (s.reg .rdi) n = rd s.mem (s.reg .rsi) n ∧
      rd s'.mem (s.reg .rsi) n = List.replicate n (s.reg .rbx) ∧ s'.reg .rsp = s.reg .rsp + 8 := by
  have P := swapLoop_run n hn n 0 s (by omega) hsep
  refine ⟨_, by rw [rawSwap, run_code_ret, List.range_eq_range'], ?_, ?_, ?_⟩
  · simp only
    unfold rd
    apply List.map_congr_left
    intro i hi
    rw [List.mem_range'_1] at hi
    exact P.fst i hi.1 hi.2
  · rw [List.eq_replicate_iff]
    refine ⟨rd_length _ _ _, ?_⟩
    intro b hb
    rw [rd, List.mem_map] at hb
    obtain ⟨i, hi, rfl⟩ := hb
    rw [List.mem_range'_1] at hi
    exact P.snd i hi.1 hi.2
  · simp only [upd_same]
    rw [P.regs _ ⟨by decide, by decide⟩]

end FF.X86
