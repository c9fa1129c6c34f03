import Verif.Scan

/-
The multi-byte scanner only emits runs of at least two symbols. This makes the
sizes of the symbol table codecs come out tighter than the emission rule alone.
-/

namespace Hrk

/-- `emit`, but nothing for a run of one symbol. -/
def twoEmit {σ : Type} (S : Nat) (emit : Emit σ) : Emit σ := fun fs sym cnt lits =>
  if cnt = 0 ∨ 2 * S ≤ cnt then emit fs sym cnt lits else none

/-- The run being counted is empty or has two symbols. With `count = 0` the vector
extension finds nothing. -/
def TwoInv {σ : Type} (S W : Nat) (inp : Mem) (n : Nat) (s : ES σ) : Prop :=
  match s.pc with
  | .top | .ext => 2 * S ≤ s.count ∨
      (s.count = 0 ∧ (¬ (W ≠ 0 ∧ s.i + W + S < n) ∨ inp s.i ≠ s.sym.getD 0 0))
  | .scal | .second => s.count = 0 ∨ 2 * S ≤ s.count
  | .search => True
  | .sscan => ¬ (W ≠ 0 ∧ s.i + W + S < n)

theorem matchLen_zero {inp : Mem} {sym : List Byte} {i : Nat} (k : Nat) (h : inp i ≠ sym.getD 0 0) :
    matchLen inp sym i k 0 = 0 := by
  cases k with
  | zero => rfl
  | succ k =>
    unfold matchLen
    exact if_neg (by simpa using h)

theorem doEmit_two {σ : Type} {emit : Emit σ} {inp : Mem} {S : Nat} {s : ES σ} (h : s.count = 0 ∨ 2 * S ≤ s.count) :
    doEmit (twoEmit S emit) inp s = doEmit emit inp s := by
  unfold doEmit twoEmit
  rw [if_pos h]

theorem stepX_two {σ : Type} {emit : Emit σ} {S W : Nat} {unb : Bool} {inp : Mem} {n : Nat} (s : ES σ)
    (h : TwoInv S W inp n s) :
    stepX emit S W unb inp n s = stepX (twoEmit S emit) S W unb inp n s ∧
    (∀ s', stepX emit S W unb inp n s = .inl s' → TwoInv S W inp n s') ∧
    (∀ s', stepX emit S W unb inp n s = .inr s' → s'.count = 0 ∨ 2 * S ≤ s'.count) := by
  obtain ⟨pc, i, count, last, sym, fs, out⟩ := s
  cases pc with
  | top =>
    simp only [TwoInv] at h
    refine ⟨rfl, ?_, ?_⟩ <;> intro s' <;> simp only [stepX] <;> split <;> intro he <;> cases he
    · simpa only [TwoInv] using h
    · show count = 0 ∨ 2 * S ≤ count
      omega
  | ext =>
    simp only [TwoInv] at h
    refine ⟨rfl, ?_, ?_⟩ <;> intro s' <;> simp only [stepX]
    · by_cases hc : W ≠ 0 ∧ i + W + S < n
      · rw [if_pos hc]
        rcases h with h | ⟨h1, h | h⟩
        · split
          · intro he; cases he; simp only [TwoInv]; omega
          · split
            · intro he; cases he; simp only [TwoInv]; omega
            · split <;> intro he <;> cases he <;> simp only [TwoInv] <;> omega
        · exact absurd hc h
        · rw [if_pos (matchLen_zero W h)]
          intro he; cases he; simp only [TwoInv]; omega
      · rw [if_neg hc]
        intro he; cases he
        simp only [TwoInv]; omega
    · intro he
      exfalso
      revert he
      split
      · split
        · simp
        · split
          · simp
          · split <;> simp
      · simp
  | scal =>
    simp only [TwoInv] at h
    refine ⟨rfl, ?_, ?_⟩ <;> intro s' <;> simp only [stepX]
    · split
      · split
        · intro he; cases he; simp only [TwoInv]; omega
        · split <;> intro he <;> cases he <;> simp only [TwoInv] <;> omega
      · intro he; cases he; simp only [TwoInv]; omega
    · split
      · split
        · simp
        · split <;> simp
      · simp
  | second =>
    simp only [TwoInv] at h
    refine ⟨?_, ?_, ?_⟩
    · simp only [stepX]
      rw [doEmit_two (s := ⟨.second, i, count, last, sym, fs, out⟩) h]
    · intro s' he; simp only [stepX] at he; cases he; trivial
    · intro s' he; simp only [stepX] at he; cases he
  | search =>
    refine ⟨rfl, ?_, ?_⟩ <;> intro s' <;> simp only [stepX]
    · split
      · split <;> intro he <;> cases he <;> simp [TwoInv]
      · next hc => intro he; cases he; exact hc
    · split
      · split <;> simp
      · simp
  | sscan =>
    simp only [TwoInv] at h
    refine ⟨rfl, ?_, ?_⟩ <;> intro s' <;> simp only [stepX]
    · split <;> intro he <;> cases he <;> simp only [TwoInv]
      · omega
      · exact Or.inr ⟨trivial, Or.inl (by omega)⟩
    · split <;> simp

theorem not_ne (b : Byte) : b ≠ ~~~ b := by
  intro h
  have h1 := congrArg UInt8.toNat h
  rw [UInt8.toNat_not] at h1
  have := b.toNat_lt
  simp only [UInt8.size] at h1
  omega

theorem runX_two {σ : Type} (F : Fmt σ) {S W : Nat} {unb : Bool} (hS : 0 < S) (inp : Mem) (n : Nat) :
    runX F S W unb inp n = runX { F with emit := twoEmit S F.emit } S W unb inp n ∧
    ∀ s, runX F S W unb inp n = some s → s.count = 0 ∨ 2 * S ≤ s.count := by
  have h0 : TwoInv S W inp n
      (⟨.top, 0, 0, 0, (rd inp 0 S).map (fun b => ~~~ b), F.init, []⟩ : ES σ) := by
    refine Or.inr ⟨rfl, Or.inr ?_⟩
    obtain ⟨S, rfl⟩ : ∃ k, S = k + 1 := ⟨S - 1, by omega⟩
    have e : ((rd inp 0 (S + 1)).map (fun b => ~~~ b)).getD 0 0 = ~~~ inp 0 := by
      simp [rd, List.range_succ_eq_map]
    show inp 0 ≠ _
    rw [e]
    exact not_ne _
  unfold runX
  refine ⟨?_, ?_⟩
  · refine loop_congr (TwoInv S W inp n) ?_ _ _ h0
    intro s hs
    exact ⟨(stepX_two s hs).1, (stepX_two s hs).2.1⟩
  · intro s he
    refine loop_rule_partial (TwoInv S W inp n) (fun s => s.count = 0 ∨ 2 * S ≤ s.count) ?_ _ _ s h0 he
    intro s hs
    obtain ⟨_, h1, h2⟩ := stepX_two (emit := F.emit) (unb := unb) s hs
    cases hb : stepX F.emit S W unb inp n s with
    | inl s' => exact h1 s' hb
    | inr s' => exact h2 s' hb

namespace Cdc

variable {σ : Type} {c : Cdc σ} {P : σ → Prop}

/-- Like `OK.grow`, but the emission rules have to be looked at for runs of two symbols and
more only. -/
theorem grow_two (cpu : Cpu) {W : Nat} (hS : 0 < c.S) (hW : W = 0 ∨ c.S < W)
    (hrun : c.run cpu = runX c.F c.S W c.unb) (hf : c.first = fun _ _ => c.F.init) (hinit : P c.F.init)
    (p k e L : Nat) (hL : 0 < L)
    (h1 : EmitGrow (twoEmit c.S c.F.emit) P c.S c.unb e L) (h2 : EmitGrow (twoEmit c.S c.emitEnd) P c.S c.unb e L)
    (h3 : c.F.endRun.length ≤ k) (h4 : ∀ j, (c.F.endLit j).length ≤ k) (h5 : ∀ fs, P fs → (c.pre fs).length ≤ p)
    (inp : Mem) (n : Nat) : ∃ b, c.body cpu inp n = some b ∧ b.length ≤ n + c.S + (p + k) + e * ((n + c.S) / L) := by
  obtain ⟨r1, r2⟩ := runX_two c.F (W := W) (unb := c.unb) hS inp n
  obtain ⟨s, g1, g2⟩ := runX_scan { c.F with emit := twoEmit c.S c.F.emit } (unb := c.unb) hS hW inp n (n + c.S)
    (GrowCP P e L) (Nat.le_refl _) (by
      intro em hem
      rw [List.mem_singleton] at hem
      subst hem
      exact GrowCP.closed hL h1) ⟨hinit, by simp⟩
  rw [← r1] at g1
  have hcnt := r2 s g1
  have hfin : finish c.emitEnd c.F.endRun c.F.endLit inp s
      = finish (twoEmit c.S c.emitEnd) c.F.endRun c.F.endLit inp s := by
    unfold finish twoEmit
    rw [if_pos hcnt]
  have := (finish_scanOK (endRun := c.F.endRun) (endLit := c.F.endLit) (emit := c.F.emit) (Nat.le_refl _)
    (GrowCP.closed hL h2) g2).grow h3 h4
  have h6 := h5 _ hinit
  refine ⟨c.pre c.F.init ++ finish c.emitEnd c.F.endRun c.F.endLit inp s,
    by simp only [body, hrun, g1, hf, Option.map_some], ?_⟩
  rw [List.length_append, hfin]
  omega

end Cdc

end Hrk
