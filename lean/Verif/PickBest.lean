import Verif.Single

/-
Which symbol the heuristic of the single symbol codecs picks: the one nearly all of the input consists of.
-/

namespace Hrk

/-- What symbol `i` counts for (src/rle8_extreme_cpu.c:140-142). -/
def pickScore (prob pcount : Byte → Nat) (i : Nat) : Nat :=
  if pcount (b8 i) > 0 ∧ prob (b8 i) / pcount (b8 i) > 2 then prob (b8 i) - pcount (b8 i) * 2 % 4294967296 else 0

theorem pickMax_eq (prob pcount : Byte → Nat) : pickMax prob pcount =
    ((List.range 256).foldl (fun (a : Nat × Nat) i =>
      if pickScore prob pcount i > a.1 then (pickScore prob pcount i, i) else a) (0, 0)).2 := by
  unfold pickMax
  congr 2
  funext a i
  unfold pickScore
  by_cases h : pcount (b8 i) > 0 ∧ prob (b8 i) / pcount (b8 i) > 2
  · rw [if_pos h, if_pos h]
  · rw [if_neg h, if_neg h, if_neg (by omega)]

/-- A symbol that counts for more than every other one is picked. -/
theorem pickMax_best {prob pcount : Byte → Nat} {c K : Nat} (hc : c < 256) (hK : K < pickScore prob pcount c)
    (h : ∀ i, i < 256 → i ≠ c → pickScore prob pcount i ≤ K) : pickMax prob pcount = c := by
  rw [pickMax_eq]
  have key : ∀ (l : List Nat) (a : Nat × Nat), (∀ i ∈ l, i < 256) →
      (a.1 ≤ K ∧ c ∈ l) ∨ a = (pickScore prob pcount c, c) →
      (l.foldl (fun (a : Nat × Nat) i => if pickScore prob pcount i > a.1 then (pickScore prob pcount i, i) else a) a) =
        (pickScore prob pcount c, c) := by
    intro l
    induction l with
    | nil =>
      intro a _ ha
      rcases ha with ⟨_, ha⟩ | ha
      · cases ha
      · exact ha
    | cons i l ih =>
      intro a hl ha
      rw [List.foldl_cons]
      apply ih _ fun j hj => hl j (List.mem_cons_of_mem _ hj)
      have hi := hl i (by simp)
      by_cases hic : i = c
      · subst hic
        right
        rcases ha with ⟨ha, _⟩ | ha
        · rw [if_pos (by omega)]
        · rw [ha, if_neg (by simp)]
      · have := h i hi hic
        rcases ha with ⟨ha, hm⟩ | ha
        · left
          refine ⟨?_, ?_⟩
          · split
            · exact this
            · exact ha
          · rcases List.mem_cons.mp hm with hm | hm
            · exact absurd hm.symm hic
            · exact hm
        · right
          rw [if_neg (by rw [ha]; simp only; omega)]
          exact ha
  rw [key _ _ (fun i hi => List.mem_range.mp hi) (.inl ⟨by simp, List.mem_range.mpr hc⟩)]

section
variable {b : Byte} {inp : Mem} {n : Nat}

/-- Where nothing is repeated, of two neighbours one is another byte. -/
theorem cn_dif_pairs {i : Nat} : ∀ k, i + k < n → (∀ j, j < k → pairAt inp 1 (i + j) = false) →
    cn (dif b inp n) i + cn (dif b inp n) (i + 1) + k ≤ cn (dif b inp n) (i + k) + cn (dif b inp n) (i + k + 1) := by
  intro k
  induction k with
  | zero => intro _ _; exact Nat.le_refl _
  | succ k ih =>
    intro hn hj
    have h1 := ih (by omega) fun j hj' => hj j (by omega)
    have h2 := hj k (by omega)
    have e1 := cn_succ (dif b inp n) (i + k)
    have e2 := cn_succ (dif b inp n) (i + k + 1)
    simp only [← Nat.add_assoc]
    by_cases hd : dif b inp n (i + k) = true
    · rw [if_pos hd] at e1
      have := cn_mono (dif b inp n) (Nat.le_succ (i + k + 1))
      simp only [Nat.succ_eq_add_one] at this
      omega
    · have hd2 : dif b inp n (i + k + 1) = true := by
        refine dif_iff.mpr ⟨by omega, fun he => ?_⟩
        have : inp (i + k) = b := Classical.byContradiction fun hne => hd (dif_iff.mpr ⟨by omega, hne⟩)
        simp [pairAt, rd, he, this] at h2
      rw [if_pos hd2] at e2
      rw [if_neg hd] at e1
      omega

/-- What the heuristic has counted for the symbol `b` and for the others. -/
structure PickInv (b : Byte) (inp : Mem) (n : Nat) (s : PickS) : Prop where
  hi : s.i ≤ n
  lt : s.search = true → s.i < n
  other : ∀ x, x ≠ b → s.prob x + (if s.search = false ∧ s.last = x then s.count else 0) ≤ cn (dif b inp n) s.i
  cap : s.prob b + (if s.search = false then s.count else 0) ≤ s.i
  found : 15 * s.i ≤ 16 * (s.prob b + if s.search = false ∧ s.last = b then s.count else 0) + 15 * cn (dif b inp n) s.i +
    16 * cn (dif b inp n) (s.i + if s.search = true then 1 else 0)
  runs : s.pcount b ≤ cn (dif b inp n) (s.i + if s.search = true then 1 else 0)
  some : 0 < s.prob b → 0 < s.pcount b

theorem pickInit_inv (h0 : b ≠ 0 ∨ inp 0 = 0) : PickInv b inp n (pickInit inp) := by
  refine ⟨by simp [pickInit], by simp [pickInit], fun x _ => by simp [pickInit], by simp [pickInit], by simp [pickInit], ?_, by simp [pickInit]⟩
  have : (pickInit inp).pcount b = 0 := by
    simp only [pickInit]
    rw [if_neg]
    rintro ⟨h1, h2⟩
    rcases h0 with h | h
    · exact h h1
    · exact h2 h
  omega

theorem cn_dif_one {j : Nat} (hj : j < n) : cn (dif b inp n) (j + 1) = cn (dif b inp n) j + if inp j = b then 0 else 1 := by
  rw [cn_succ]
  by_cases h : inp j = b
  · rw [if_pos h, if_neg (by rw [dif_iff]; exact fun h' => h'.2 h)]
  · rw [if_neg h, if_pos (dif_iff.mpr ⟨hj, h⟩)]

/-- A new run begins at `i + z`. -/
theorem PickInv.begin {i count : Nat} {last : Byte} {prob pcount : Byte → Nat} (h : PickInv b inp n ⟨true, i, count, last, prob, pcount⟩) (z : Nat)
    (hz : i + z < n) (hp : ∀ j, j < z → pairAt inp 1 (i + j) = false) :
    PickInv b inp n ⟨false, i + z + 1, 1, inp (i + z), prob, pcount⟩ := by
  obtain ⟨hi, hlt, hother, hcap, hfound, hruns, hsome⟩ := h
  simp only [Bool.true_eq_false, false_and, if_false, if_true, Nat.add_zero] at *
  have k1 := cn_dif_pairs (b := b) z hz hp
  have k2 := cn_dif_one (b := b) (inp := inp) hz
  have k3 := cn_mono (dif b inp n) (show i ≤ i + z by omega)
  have k4 := cn_mono (dif b inp n) (show i + 1 ≤ i + z + 1 by omega)
  refine ⟨by simp only; omega, by simp, fun x hx => ?_, ?_, ?_, ?_, hsome⟩
  · have := hother x hx
    simp only [true_and]
    by_cases hx2 : inp (i + z) = x
    · rw [if_pos hx2]
      rw [if_neg (by rw [hx2]; exact hx)] at k2
      omega
    · rw [if_neg hx2]; omega
  · simp only [if_true]; omega
  · simp only [true_and, Bool.false_eq_true, if_false, Nat.add_zero]
    by_cases hb : inp (i + z) = b
    · rw [if_pos hb] at k2 ⊢
      omega
    · rw [if_neg hb] at k2 ⊢
      omega
  · simp only [Bool.false_eq_true, if_false, Nat.add_zero]
    omega

theorem matchLen_cn {last : Byte} {i m : Nat} (hm : ∀ j, j < m → inp (i + j) = last) (hn : i + m ≤ n) :
    cn (dif b inp n) (i + m) = cn (dif b inp n) i + if last = b then 0 else m := by
  induction m with
  | zero => simp
  | succ m ih =>
    rw [← Nat.add_assoc, cn_dif_one (by omega), ih (fun j hj => hm j (by omega)) (by omega), hm m (by omega)]
    by_cases h : last = b
    · simp [h]
    · simp [h]; omega

theorem pickStep_best (hn : n ≤ maxInput) (s : PickS) (h : PickInv b inp n s) :
    Post (pickStep inp n s) (PickInv b inp n) (fun s' => PickInv b inp n s' ∧ s'.search = false ∧ n ≤ s'.i + 16) := by
  unfold maxInput at hn
  obtain ⟨search, i, count, last, prob, pcount⟩ := s
  unfold pickStep
  cases search with
  | true =>
    have hi := h.lt rfl
    simp only at hi
    simp only [if_true]
    by_cases hw : i + 16 < n
    · rw [if_pos hw]
      cases hf : findPair inp 1 i 15 0 with
      | none =>
        have hp : ∀ j, j < 15 → pairAt inp 1 (i + j) = false := fun j hj => by simpa using findPair_none' _ _ hf j hj
        have k1 := cn_dif_pairs (b := b) (inp := inp) (n := n) (i := i) 15 (by omega) hp
        have k2 := cn_mono (dif b inp n) (show i ≤ i + 15 by omega)
        have k3 := cn_mono (dif b inp n) (show i + 1 ≤ i + 15 + 1 by omega)
        obtain ⟨_, _, hother, hcap, hfound, hruns, hsome⟩ := h
        simp only [Bool.true_eq_false, false_and, if_false, if_true, Nat.add_zero] at hother hcap hfound hruns hsome
        refine ⟨by simp only; omega, fun _ => by simp only; omega, fun x hx => ?_, ?_, ?_, ?_, hsome⟩
        · have := hother x hx
          simp only [Bool.true_eq_false, false_and, if_false, Nat.add_zero]; omega
        · simp only [Bool.true_eq_false, if_false, Nat.add_zero]; omega
        · simp only [Bool.true_eq_false, false_and, if_false, if_true, Nat.add_zero]; omega
        · simp only [if_true]; omega
      | some z =>
        obtain ⟨_, hz, _⟩ := findPair_spec _ _ _ _ _ _ hf
        exact h.begin z (by omega) fun j hj => by simpa using findPair_some' _ _ _ hf j (by omega)
    · rw [if_neg hw]
      exact h.begin 0 (by omega) fun j hj => by omega
  | false =>
    simp only [Bool.false_eq_true, if_false]
    by_cases hw : i + 16 < n
    · rw [if_pos hw]
      obtain ⟨_, _, hother, hcap, hfound, hruns, hsome⟩ := h
      simp only [true_and, Bool.false_eq_true, if_true, if_false, Nat.add_zero] at hother hcap hfound hruns hsome
      have hml := matchLen_le inp [last] i 16 0
      have hspec : ∀ j, j < matchLen inp [last] i 16 0 → inp (i + j) = last := fun j hj => by
        simpa [Nat.mod_one] using matchLen_spec inp [last] i 16 0 j hj
      have k1 := matchLen_cn (b := b) (n := n) hspec (by omega)
      by_cases h16 : matchLen inp [last] i 16 0 = 16
      · rw [if_pos h16]
        rw [h16] at k1
        rw [show i + 15 + 1 = i + 16 by omega]
        rw [Nat.mod_eq_of_lt (show count + 15 < 4294967296 by omega)]
        refine ⟨by simp only; omega, by simp, fun x hx => ?_, ?_, ?_, ?_, hsome⟩
        · have := hother x hx
          simp only [true_and]
          by_cases hl : last = x
          · rw [if_pos hl] at this ⊢
            rw [if_neg (by rw [hl]; exact hx)] at k1
            omega
          · rw [if_neg hl] at this ⊢
            omega
        · simp only [if_true]; omega
        · simp only [true_and, Bool.false_eq_true, if_false, Nat.add_zero]
          by_cases hl : last = b
          · rw [if_pos hl] at hfound k1 ⊢
            omega
          · rw [if_neg hl] at hfound k1 ⊢
            omega
        · simp only [Bool.false_eq_true, if_false, Nat.add_zero]
          omega
      · rw [if_neg h16]
        have hst : inp (i + matchLen inp [last] i 16 0) ≠ last := by
          simpa [Nat.mod_one] using matchLen_stop inp [last] i 16 0 (by omega)
        generalize hM : matchLen inp [last] i 16 0 = m at *
        have k2 := cn_dif_one (b := b) (inp := inp) (n := n) (j := i + m) (by omega)
        have k3 := cn_dif_one (b := b) (inp := inp) (n := n) (j := i) (by omega)
        by_cases hc : anyEq inp [last] i 16 = true ∨ count > 1
        · rw [if_pos hc]
          have hcm : (count + m) % 4294967296 = count + m := Nat.mod_eq_of_lt (by omega)
          refine ⟨by simp only [PickS.tally]; omega, fun _ => by simp only [PickS.tally]; omega, fun x hx => ?_, ?_, ?_, ?_, ?_⟩
          · have := hother x hx
            simp only [PickS.tally, setB, Bool.true_eq_false, false_and, if_false, Nat.add_zero]
            by_cases hl : last = x
            · rw [if_pos hl] at this
              rw [if_pos hl.symm, hcm, hl]
              rw [if_neg (by rw [hl]; exact hx)] at k1
              have := Nat.mod_le (prob x + (count + m)) 4294967296
              omega
            · rw [if_neg hl] at this
              rw [if_neg (fun e => hl e.symm)]
              omega
          · simp only [PickS.tally, setB, Bool.true_eq_false, if_false, Nat.add_zero]
            by_cases hl : last = b
            · rw [if_pos hl.symm, hcm, hl, Nat.mod_eq_of_lt (by omega)]
              omega
            · rw [if_neg (fun e => hl e.symm)]
              omega
          · simp only [PickS.tally, setB, Bool.true_eq_false, false_and, if_false, if_true, Nat.add_zero]
            by_cases hl : last = b
            · rw [if_pos hl] at hfound k1
              rw [if_pos hl.symm, hcm, hl, Nat.mod_eq_of_lt (by omega)]
              omega
            · rw [if_neg hl] at hfound k1
              rw [if_neg (fun e => hl e.symm)]
              omega
          · simp only [PickS.tally, setB, if_true]
            by_cases hl : last = b
            · rw [if_pos hl] at k1
              rw [if_pos hl.symm, hl]
              rw [if_neg (by rw [← hl]; exact hst)] at k2
              have := Nat.mod_le (pcount b + 1) 4294967296
              omega
            · rw [if_neg (fun e => hl e.symm)]
              omega
          · simp only [PickS.tally, setB]
            have := dif_le (b := b) (inp := inp) (n := n) i
            have := others_le (b := b) (inp := inp) (n := n)
            by_cases hl : b = last
            · rw [if_pos hl, if_pos hl, ← hl]
              intro _
              rw [Nat.mod_eq_of_lt (by omega)]
              omega
            · rw [if_neg hl, if_neg hl]
              exact hsome
        · rw [if_neg hc]
          have hne : inp i ≠ last := by
            intro he
            refine hc (.inl (List.any_eq_true.mpr ⟨0, List.mem_range.mpr (by omega), ?_⟩))
            simpa using he
          refine ⟨by simp only; omega, fun _ => by simp only; omega, fun x hx => ?_, ?_, ?_, ?_, hsome⟩
          · have := hother x hx
            simp only [Bool.true_eq_false, false_and, if_false, Nat.add_zero]; omega
          · simp only [Bool.true_eq_false, if_false, Nat.add_zero]; omega
          · simp only [Bool.true_eq_false, false_and, if_false, if_true, Nat.add_zero]
            by_cases hl : last = b
            · rw [if_pos hl] at hfound
              rw [if_neg (by rw [← hl]; exact hne)] at k3
              omega
            · rw [if_neg hl] at hfound
              omega
          · simp only [if_true]; omega
    · rw [if_neg hw]
      exact ⟨h, rfl, by simp only; omega⟩

/-- The symbol that all but few bytes of the input are is picked, unless it is 0 and the first byte is not. -/
theorem pick_best (hn : n ≤ maxInput) (h0 : b ≠ 0 ∨ inp 0 = 0) (hk : 6 * others b inp n + 20 ≤ n) : pick inp n = b := by
  have hO := pickO_some inp n
  unfold pickO at hO
  cases hl : loop (pickStep inp n) (2 * n + 3) (pickInit inp) with
  | none => rw [hl] at hO; cases hO
  | some s =>
    rw [hl] at hO
    simp only [Option.map_some, Option.some.injEq] at hO
    rw [← hO]
    obtain ⟨⟨hi, _, hother, hcap, hfound, hruns, hsome⟩, hs, he⟩ := loop_rule_partial (body := pickStep inp n) (PickInv b inp n)
      (fun s' => PickInv b inp n s' ∧ s'.search = false ∧ n ≤ s'.i + 16) (fun s => pickStep_best hn s) _ _ s (pickInit_inv h0) hl
    unfold maxInput at hn
    simp only [hs, true_and, Bool.false_eq_true, if_true, if_false, Nat.add_zero] at *
    have hd := dif_le (b := b) (inp := inp) (n := n) s.i
    have hb : b8 b.toNat = b := by simp [b8]
    have hle := others_le (b := b) (inp := inp) (n := n)
    generalize cn (dif b inp n) s.i = d at *
    generalize others b inp n = k at *
    have hmax : pickMax s.tally.prob s.tally.pcount = b.toNat := by
      refine pickMax_best (K := k) b.toNat_lt ?_ fun i hi' hne => ?_
      · have key : 15 * s.i ≤ 16 * s.tally.prob b + 31 * d ∧ s.tally.pcount b ≤ d + 1 ∧ (0 < s.tally.prob b → 0 < s.tally.pcount b) := by
          simp only [PickS.tally, setB]
          by_cases hl : b = s.last
          · rw [if_pos hl, if_pos hl, ← hl]
            rw [if_pos hl.symm] at hfound
            rw [Nat.mod_eq_of_lt (show s.prob b + s.count < 4294967296 by omega), Nat.mod_eq_of_lt (show s.pcount b + 1 < 4294967296 by omega)]
            omega
          · rw [if_neg hl, if_neg hl]
            rw [if_neg (fun e => hl e.symm)] at hfound
            exact ⟨by omega, by omega, hsome⟩
        obtain ⟨k1, k2, k3⟩ := key
        unfold pickScore
        rw [hb]
        generalize s.tally.prob b = P at *
        generalize s.tally.pcount b = Q at *
        have k4 := k3 (by omega)
        have : 3 ≤ P / Q := (Nat.le_div_iff_mul_le k4).mpr (by omega)
        rw [if_pos ⟨k4, by omega⟩, Nat.mod_eq_of_lt (by omega)]
        omega
      · have hx : b8 i ≠ b := by
          intro e
          apply hne
          rw [← e, b8_toNat, Nat.mod_eq_of_lt hi']
        have := hother _ hx
        have hp : s.tally.prob (b8 i) ≤ k := by
          simp only [PickS.tally, setB]
          by_cases hl : b8 i = s.last
          · rw [if_pos hl]
            rw [if_pos hl.symm] at this
            rw [← hl]
            have := Nat.mod_le (s.prob (b8 i) + s.count) 4294967296
            omega
          · rw [if_neg hl]; omega
        unfold pickScore
        split <;> omega
    rw [hmax, hb]

end

end Hrk
