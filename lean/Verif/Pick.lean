import Verif.Masks

/-
The heuristic that picks the symbol of the single symbol codecs.
-/

namespace Hrk

/-- Variables of `rle8_single_compress_get_approx_optimal_symbol_sse2`
(src/rle8_extreme_cpu.c:55-72). `search` is the inner `while`. `prob` and `pcount` hold
`uint32_t` values. -/
structure PickS where
  search : Bool
  i : Nat
  count : Nat
  last : Byte
  prob : Byte → Nat
  pcount : Byte → Nat

/-- `x[b] = v` (src/rle8_extreme_cpu.c:67). -/
def setB (f : Byte → Nat) (b : Byte) (v : Nat) : Byte → Nat := fun x => if x = b then v else f x

/-- The two updates `prob[lastSymbol] += count; pcount[lastSymbol]++`
(src/rle8_extreme_cpu.c:98-99, 132-133). -/
def PickS.tally (s : PickS) : PickS :=
  { s with prob := setB s.prob s.last ((s.prob s.last + s.count) % 4294967296),
           pcount := setB s.pcount s.last ((s.pcount s.last + 1) % 4294967296) }

/-- One step of the two nested loops (src/rle8_extreme_cpu.c:75-130). -/
def pickStep (inp : Mem) (n : Nat) (s : PickS) : PickS ⊕ PickS :=
  if s.search then
    if s.i + 16 < n then
      match findPair inp 1 s.i 15 0 with
      | none => .inl { s with i := s.i + 15 }
      | some z => .inl { s with i := s.i + z + 1, count := 1, last := inp (s.i + z), search := false }
    else .inl { s with i := s.i + 1, count := 1, last := inp s.i, search := false }
  else if s.i + 16 < n then
    if matchLen inp [s.last] s.i 16 0 = 16 then
      .inl { s with count := (s.count + 15) % 4294967296, i := s.i + 15 + 1 }
    else if anyEq inp [s.last] s.i 16 = true ∨ s.count > 1 then
      .inl { ({ s with count := (s.count + matchLen inp [s.last] s.i 16 0) % 4294967296,
                       i := s.i + matchLen inp [s.last] s.i 16 0 }).tally with search := true }
    else .inl { s with search := true }
  else .inr s

/-- The same with the vector instructions; `.inr none` is undefined behaviour
(src/rle8_extreme_cpu.c:75-130). -/
def pickStepI (inp : Mem) (n : Nat) (s : PickS) : PickS ⊕ Option PickS :=
  if s.search then
    if s.i + 16 < n then
      let cmp := nextMask .sse2 inp s.i
      if cmp = 0 then .inl { s with i := s.i + 15 }
      else match ctz cmp with
        | none => .inr none
        | some z => .inl { s with i := s.i + z + 1, count := 1, last := inp (s.i + z), search := false }
    else .inl { s with i := s.i + 1, count := 1, last := inp s.i, search := false }
  else if s.i + 16 < n then
    let mask := symMask 16 inp [s.last] s.i
    if 0xFFFF = mask then .inl { s with count := (s.count + 15) % 4294967296, i := s.i + 15 + 1 }
    else if mask ≠ 0 ∨ s.count > 1 then
      match ctz (not32 mask) with
      | none => .inr none
      | some z => .inl { ({ s with count := (s.count + z) % 4294967296, i := s.i + z }).tally with search := true }
    else .inl { s with search := true }
  else .inr (some s)

/-- The initial values (src/rle8_extreme_cpu.c:55-72). -/
def pickInit (inp : Mem) : PickS :=
  ⟨false, 0, 0, ~~~ inp 0, fun _ => 0, fun b => if b = 0 ∧ inp 0 ≠ 0 then 4294967295 else 0⟩

/-- The symbol that saves most (src/rle8_extreme_cpu.c:135-150). The subtraction
cannot go below zero in either place it is used. -/
def pickMax (prob pcount : Byte → Nat) : Nat :=
  ((List.range 256).foldl (fun (a : Nat × Nat) i =>
    if pcount (b8 i) > 0 ∧ prob (b8 i) / pcount (b8 i) > 2 then
      if prob (b8 i) - pcount (b8 i) * 2 % 4294967296 > a.1 then (prob (b8 i) - pcount (b8 i) * 2 % 4294967296, i) else a
    else a) (0, 0)).2

/-- `rle8_single_compress_get_approx_optimal_symbol_sse2` (src/rle8_extreme_cpu.c:53-153);
`none` = not terminated or undefined (excluded by `pickO_eq` and `pickO_some`). -/
def pickOI (inp : Mem) (n : Nat) : Option Byte :=
  (loop (pickStepI inp n) (2 * n + 3) (pickInit inp)).join.map fun s =>
    b8 (pickMax s.tally.prob s.tally.pcount)

/-- The same without the vector instructions (src/rle8_extreme_cpu.c:53-153). -/
def pickO (inp : Mem) (n : Nat) : Option Byte :=
  (loop (pickStep inp n) (2 * n + 3) (pickInit inp)).map fun s =>
    b8 (pickMax s.tally.prob s.tally.pcount)

/-- The value of `pickOI` (src/rle8_extreme_cpu.c:53-153). -/
def pick (inp : Mem) (n : Nat) : Byte := (pickOI inp n).getD 0

theorem pickStepI_eq (inp : Mem) (n : Nat) (s : PickS) : pickStepI inp n s = (pickStep inp n s).map id some := by
  unfold pickStepI pickStep
  have hk : Simd.sse2.vec := Or.inl rfl
  split
  · split
    · have hc : ctz (nextMask .sse2 inp s.i) = findPair inp 1 s.i 15 0 := nextMask_ctz hk inp s.i
      dsimp only
      rw [hc]
      by_cases h0 : nextMask .sse2 inp s.i = 0
      · rw [if_pos h0, ← hc, h0, ctz_zero]
        rfl
      · rw [if_neg h0]
        cases hf : findPair inp 1 s.i 15 0 with
        | none =>
          rw [← hc] at hf
          exact absurd (ctz_none (nextMask_lt hk inp s.i) hf) h0
        | some z => rfl
    · rfl
  · split
    · have hfull : 0xFFFF = symMask 16 inp [s.last] s.i ↔ _ := symMask_full (W := 16) (inp := inp) (sym := [s.last]) rfl s.i
      dsimp only
      by_cases h1 : matchLen inp [s.last] s.i 16 0 = 16
      · rw [if_pos h1, if_pos (hfull.mpr h1)]
        rfl
      · rw [if_neg h1, if_neg (fun e => h1 (hfull.mp e)), symMask_ctz rfl (by decide) s.i h1]
        have e := symMask_ne 16 inp [s.last] s.i
        by_cases h2 : anyEq inp [s.last] s.i 16 = true ∨ s.count > 1
        · rw [if_pos h2, if_pos (h2.imp_left e.mpr)]
          rfl
        · rw [if_neg h2, if_neg (fun x => h2 (x.imp_left e.mp))]
          rfl
    · rfl

theorem pickO_eq (inp : Mem) (n : Nat) : pickOI inp n = pickO inp n := by
  unfold pickOI pickO
  rw [loop_map (fun _ => True) (fun s _ => ⟨pickStepI_eq inp n s, fun _ _ => trivial⟩) _ _ trivial]

theorem pick_eq (inp : Mem) (n : Nat) : pick inp n = (pickO inp n).getD 0 := by
  unfold pick
  rw [pickO_eq]

/-- Termination measure. -/
def pickMu (n : Nat) (s : PickS) : Nat := 2 * (n - s.i) + (if s.search then 0 else 1)

theorem pickStep_inv (inp : Mem) (n : Nat) (s : PickS) (h : s.search = true → s.i < n) :
    Post (pickStep inp n s) (fun s' => (s'.search = true → s'.i < n) ∧ pickMu n s' < pickMu n s) (fun _ => True) := by
  obtain ⟨search, i, count, last, prob, pcount⟩ := s
  simp only at h
  unfold pickStep
  cases search with
  | true =>
    have hi := h rfl
    simp only [if_true]
    by_cases hn : i + 16 < n
    · rw [if_pos hn]
      cases hf : findPair inp 1 i 15 0 with
      | none => simp [pickMu]; omega
      | some z =>
        obtain ⟨_, hz, _⟩ := findPair_spec _ _ _ _ _ _ hf
        simp [pickMu]; omega
    · rw [if_neg hn]
      simp [pickMu]; omega
  | false =>
    simp only [Bool.false_eq_true, if_false]
    by_cases hn : i + 16 < n
    · rw [if_pos hn]
      have hm := matchLen_le inp [last] i 16 0
      by_cases h16 : matchLen inp [last] i 16 0 = 16
      · rw [if_pos h16]
        simp [pickMu]; omega
      · rw [if_neg h16]
        by_cases hc : anyEq inp [last] i 16 = true ∨ count > 1
        · rw [if_pos hc]
          simp [pickMu, PickS.tally]; omega
        · rw [if_neg hc]
          simp [pickMu]; omega
    · rw [if_neg hn]
      trivial

theorem pickO_some (inp : Mem) (n : Nat) : pickO inp n = some (pick inp n) := by
  obtain ⟨r, h, _⟩ := loop_rule (body := pickStep inp n) (fun s => s.search = true → s.i < n) (fun _ => True)
    (pickMu n) (pickStep_inv inp n) (2 * n + 3) (pickInit inp) (by simp [pickInit]) (by simp [pickMu, pickInit])
  simp [pick_eq, pickO, h]

theorem findPair_congr1 {inp inp' : Mem} {i : Nat} : ∀ k off, (∀ j, j ≤ off + k → inp (i + j) = inp' (i + j)) →
    findPair inp 1 i k off = findPair inp' 1 i k off := by
  intro k
  induction k with
  | zero => intro off _; rfl
  | succ k ih =>
    intro off h
    unfold findPair
    have : pairAt inp 1 (i + off) = pairAt inp' 1 (i + off) := by
      unfold pairAt
      rw [rd_congr (m₁ := inp) (m₂ := inp') (fun j h1 h2 => ?_),
        rd_congr (m₁ := inp) (m₂ := inp') (a := i + off + 1) (fun j h1 h2 => ?_)]
      · have := h (j - i) (by omega); rwa [show i + (j - i) = j by omega] at this
      · have := h (j - i) (by omega); rwa [show i + (j - i) = j by omega] at this
    rw [this, ih (off + 1) (fun j hj => h j (by omega))]

theorem matchLen_congr' {inp inp' : Mem} {sym : List Byte} {i : Nat} : ∀ k off, (∀ j, j < off + k → inp (i + j) = inp' (i + j)) →
    matchLen inp sym i k off = matchLen inp' sym i k off := by
  intro k
  induction k with
  | zero => intro off _; rfl
  | succ k ih =>
    intro off h
    unfold matchLen
    rw [h off (by omega), ih (off + 1) (fun j hj => h j (by omega))]

/-- The symbol depends on the input only. -/
theorem pick_congr {inp inp' : Mem} {n : Nat} (hm : ∀ k, k < n + 1 → inp k = inp' k) : pick inp n = pick inp' n := by
  have h0 := hm 0 (by omega)
  rw [pick_eq, pick_eq]
  unfold pickO
  have : pickInit inp = pickInit inp' := by simp [pickInit, h0]
  rw [this]
  have : loop (pickStep inp n) (2 * n + 3) (pickInit inp') = loop (pickStep inp' n) (2 * n + 3) (pickInit inp') := by
    refine loop_congr (fun s => s.search = true → s.i < n) ?_ _ _ (by simp [pickInit])
    intro s hs
    refine ⟨?_, ?_⟩
    · unfold pickStep
      by_cases h1 : s.search = true
      · have := hs h1
        simp only [h1, if_true]
        by_cases hn : s.i + 16 < n
        · rw [if_pos hn, if_pos hn, findPair_congr1 (inp := inp) (inp' := inp') 15 0 (fun j hj => hm _ (by omega))]
          cases hf : findPair inp' 1 s.i 15 0 with
          | none => rfl
          | some z =>
            obtain ⟨_, hz, _⟩ := findPair_spec _ _ _ _ _ _ hf
            simp only
            rw [hm _ (by omega)]
        · rw [if_neg hn, if_neg hn, hm _ (by omega)]
      · rw [if_neg h1, if_neg h1]
        by_cases hn : s.i + 16 < n
        · rw [if_pos hn, if_pos hn, matchLen_congr' (inp := inp) (inp' := inp') 16 0 (fun j hj => hm _ (by omega)),
            anyEq_congr (inp := inp) (inp' := inp') (fun j h1 h2 => hm _ (by omega))]
        · rw [if_neg hn, if_neg hn]
    · intro s' hs'
      have := pickStep_inv inp n s hs
      rw [hs'] at this
      exact this.1
  rw [this]

end Hrk
