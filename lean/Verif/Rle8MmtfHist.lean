import Verif.Rle8MmtfPack

/-
Histories of rle8_mmtf128: the decoder's follows the encoder's, and a repeat section does what
decoding its blocks one by one would do.
-/

namespace Hrk

/-- Two histories that agree on the rows and lanes that exist. -/
def HSame (h h' : Nat → Vec) : Prop := ∀ r j, r < 256 → j < 16 → h r j = h' r j

theorem HSame.refl (h : Nat → Vec) : HSame h h := fun _ _ _ _ => rfl
theorem HSame.symm {h h' : Nat → Vec} (H : HSame h h') : HSame h' h := fun r j hr hj => (H r j hr hj).symm
theorem HSame.trans {h h' h'' : Nat → Vec} (H : HSame h h') (H' : HSame h' h'') : HSame h h'' :=
  fun r j hr hj => (H r j hr hj).trans (H' r j hr hj)

/-- Every lane holds every symbol once. -/
def HGood (h : Nat → Vec) : Prop := ∃ T : Nat → List Byte, ∀ j, j < 16 → Holds256 h j (T j)

theorem b8_inj {a b : Nat} (ha : a < 256) (hb : b < 256) : b8 a = b8 b ↔ a = b := by
  constructor
  · intro h
    have := congrArg UInt8.toNat h
    rw [b8_toNat, b8_toNat] at this
    omega
  · rintro rfl; rfl

/-- One block there and back. -/
theorem block_rt {he : Nat → Vec} {blk : List Byte} (hg : HGood he) (hl : blk.length = 16) :
    ∃ he' o, mtfBlock false 1 16 he blk = some (he', o) ∧ o.length = 16 ∧ HGood he' ∧
      ∀ hd, HSame he hd → ∃ hd', mtfBlock true 1 16 hd o = some (hd', blk) ∧ HSame he' hd' := by
  obtain ⟨T, hT⟩ := hg
  have ht : ∀ j, j < 16 → (T j).idxOf (vload blk j) < 256 := fun j hj => (hT j hj).idx_lt _
  obtain ⟨he', o, h1, h2, h3, h4⟩ := mtfBlock_spec (dec := false) (parts := 1) (w := 16) (h := he) (blk := blk)
    (t := fun j => (T j).idxOf (vload blk j)) (by omega) (by
      intro j hj
      refine ⟨ht j (by omega), fun r hr => ?_⟩
      simp only [Bool.false_eq_true, if_false]
      exact (hT j (by omega)).match_iff _ hr)
  refine ⟨he', o, h1, h2, ⟨_, fun j hj => (hT j hj).moved (ht j hj) fun r => h4 r j (by omega)⟩, ?_⟩
  intro hd hs
  obtain ⟨hd', o', h5, h6, h7, h8⟩ := mtfBlock_spec (dec := true) (parts := 1) (w := 16) (h := hd) (blk := o)
    (t := fun j => (T j).idxOf (vload blk j)) (by omega) (by
      intro j hj
      refine ⟨ht j (by omega), fun r hr => ?_⟩
      simp only [if_true]
      rw [show vload o j = o.getD j 0 from rfl, h3 j hj]
      simp only [mtfGot, Bool.false_eq_true, if_false]
      rw [b8_inj (ht j (by omega)) hr]
      exact ⟨Eq.symm, Eq.symm⟩)
  refine ⟨hd', ?_, ?_⟩
  · rw [h5]
    congr 2
    apply List.ext_getElem (by omega)
    intro j hj hj'
    have h9 := h7 j (by omega)
    rw [getD_of_lt _ _ hj] at h9
    rw [h9]
    simp only [mtfGot, if_true]
    have hj16 : j < 16 := by omega
    rw [← hs _ j (ht j hj16) hj16, ← (hT j hj16).row (ht j hj16), List.getElem_idxOf, ← getD_of_lt _ _ hj']
    rfl
  · intro r j hr hj
    rw [h4 r j (by omega), h8 r j (by omega)]
    unfold mtfMoved
    by_cases h0 : r = 0
    · rw [if_pos h0, if_pos h0]; exact hs _ _ (ht j hj) hj
    · rw [if_neg h0, if_neg h0]
      split
      · exact hs _ _ (by omega) hj
      · exact hs _ _ hr hj

theorem hinit_good : HGood (fun r => vset1 (b8 r)) := by
  refine ⟨fun _ => mtfTable, fun j _ => ⟨List.Perm.refl _, fun r hr => ?_⟩⟩
  simp [mtfTable, hr, vset1]

/-! ### Repeat sections -/

theorem rot1_congr {s : Nat} {h h' : Nat → Vec} (hs : s < 256) (H : HSame h h') : HSame (rot1 s h) (rot1 s h') := by
  intro r j hr hj
  unfold rot1
  by_cases h0 : r = 0
  · rw [if_pos h0, if_pos h0]; exact H _ _ hs hj
  · rw [if_neg h0, if_neg h0]
    split
    · exact H _ _ (by omega) hj
    · exact H _ _ hr hj

/-- Decoding a block that repeats one index. -/
theorem block_uniform (h : Nat → Vec) (s : Byte) :
    ∃ h', mtfBlock true 1 16 h (List.replicate 16 s) = some (h', vstore 16 (h s.toNat)) ∧ HSame (rot1 s.toNat h) h' := by
  have hsl : s.toNat < 256 := s.toNat_lt
  have hv : ∀ j, j < 16 → vload (List.replicate 16 s) j = s := by
    intro j hj
    unfold vload
    rw [getD_of_lt _ _ (by simpa using hj), List.getElem_replicate]
  obtain ⟨h', o, h1, h2, h3, h4⟩ := mtfBlock_spec (dec := true) (parts := 1) (w := 16) (h := h) (blk := List.replicate 16 s)
    (t := fun _ => s.toNat) (by omega) (by
      intro j hj
      refine ⟨hsl, fun r hr => ?_⟩
      simp only [if_true]
      rw [hv j (by omega)]
      constructor
      · rintro rfl; rw [b8_toNat]; omega
      · rintro rfl; exact (b8_of_toNat s).symm)
  refine ⟨h', ?_, ?_⟩
  · rw [h1]
    congr 2
    apply List.ext_getElem (by simp [vstore, h2])
    intro j hj hj'
    have := h3 j (by omega)
    rw [getD_of_lt _ _ hj] at this
    rw [this]
    simp [mtfGot, vstore]
  · intro r j hr hj
    rw [h4 r j (by omega)]
    unfold mtfMoved rot1
    by_cases h0 : r = 0
    · rw [if_pos h0, if_pos h0]
    · rw [if_neg h0, if_neg h0]
      split <;> rfl

theorem rleSingles_add (s : Nat) : ∀ (a b : Nat) (h : Nat → Vec),
    rleSingles s (a + b) h = ((rleSingles s b (rleSingles s a h).1).1, (rleSingles s a h).2 ++ (rleSingles s b (rleSingles s a h).1).2)
  | 0, b, h => by rw [Nat.zero_add]; rfl
  | a + 1, b, h => by
    rw [Nat.succ_add]
    simp only [rleSingles, rleSingles_add s a b (rot1 s h), List.append_assoc]

/-- `k` rotations at once. -/
def rotK (s k : Nat) (h : Nat → Vec) : Nat → Vec := fun r => if s < r then h r else if r < k then h (s + 1 - k + r) else h (r - k)

theorem rotK_succ {s k : Nat} (hk : k ≤ s) (h : Nat → Vec) : rot1 s (rotK s k h) = rotK s (k + 1) h := by
  funext r
  unfold rot1 rotK
  by_cases h0 : r = 0
  · subst h0
    rw [if_pos rfl, if_neg (by omega), if_neg (by omega), if_neg (by omega), if_pos (by omega)]
    congr 1; omega
  · rw [if_neg h0]
    by_cases h1 : r ≤ s
    · rw [if_pos h1, if_neg (show ¬ s < r - 1 by omega), if_neg (show ¬ s < r by omega)]
      by_cases h2 : r < k + 1
      · rw [if_pos (by omega), if_pos h2]; congr 1; omega
      · rw [if_neg (by omega), if_neg h2]; congr 1; omega
    · rw [if_neg h1, if_pos (by omega), if_pos (by omega)]

theorem rotK_zero (s : Nat) (h : Nat → Vec) : rotK s 0 h = h := by
  funext r
  unfold rotK
  split
  · rfl
  · rw [if_neg (by omega)]; rfl

theorem rotK_full (s : Nat) (h : Nat → Vec) : rotK s (s + 1) h = h := by
  funext r
  unfold rotK
  split
  · rfl
  · rw [if_pos (by omega)]; congr 1; omega

theorem rleSingles_rot (s : Nat) (h : Nat → Vec) : ∀ (j k : Nat), k + j ≤ s + 1 →
    rleSingles s j (rotK s k h) = (rotK s (k + j) h, ((List.range' k j).map fun i => vstore 16 (h (s - i))).flatten)
  | 0, k, _ => by simp [rleSingles]
  | j + 1, k, hk => by
    rw [rleSingles, rotK_succ (by omega), rleSingles_rot s h j (k + 1) (by omega)]
    have e : rotK s k h s = h (s - k) := by
      unfold rotK
      rw [if_neg (by omega), if_neg (by omega)]
    rw [e, List.range'_succ, List.map_cons, List.flatten_cons, Nat.add_right_comm, Nat.add_assoc]

theorem rleSingles_small {s c : Nat} (hc : c ≤ s + 1) (h : Nat → Vec) :
    rleSingles s c h = (rotK s c h, ((List.range c).map fun i => vstore 16 (h (s - i))).flatten) := by
  have := rleSingles_rot s h c 0 (by omega)
  rw [rotK_zero, Nat.zero_add, ← List.range_eq_range'] at this
  exact this

theorem rleSingles_round (s : Nat) (h : Nat → Vec) : rleSingles s (s + 1) h = (h, rleRound s h) := by
  rw [rleSingles_small (Nat.le_refl _), rotK_full]
  rfl

theorem rleSingles_rounds (s : Nat) (h : Nat → Vec) : ∀ k, rleSingles s (k * (s + 1)) h = (h, rleRounds s h k)
  | 0 => by rw [Nat.zero_mul]; rfl
  | k + 1 => by
    rw [Nat.succ_mul, Nat.add_comm, rleSingles_add, rleSingles_round]
    simp only
    rw [rleSingles_rounds s h k]
    rfl

theorem rleRounds_eq (s : Nat) (h : Nat → Vec) : ∀ k, rleRounds s h k = (List.replicate k (rleRound s h)).flatten
  | 0 => rfl
  | k + 1 => by rw [rleRounds, List.replicate_succ, List.flatten_cons, rleRounds_eq s h k]

theorem rleSingles_split (s c : Nat) (h : Nat → Vec) :
    rleSingles s c h = ((rleSingles s (c % (s + 1)) h).1, (List.replicate (c / (s + 1)) (rleRound s h)).flatten ++
      (rleSingles s (c % (s + 1)) h).2) := by
  conv => lhs; rw [← Nat.div_add_mod c (s + 1), Nat.mul_comm, rleSingles_add, rleSingles_rounds]
  simp only [rleRounds_eq]

/-- The shortcuts for the indices 0, 1 and 2 and the rounds are what block by block decoding does. -/
theorem rleOut_eq (s c : Nat) (h : Nat → Vec) : rleOut s c h = rleSingles s c h := by
  rw [rleSingles_split]
  unfold rleOut
  by_cases h0 : s = 0
  · subst h0
    rw [if_pos rfl]
    simp only [Nat.zero_add, Nat.mod_one, Nat.div_one, rleSingles, List.append_nil]
    simp [rleRound]
  · rw [if_neg h0]
    by_cases h1 : s = 1
    · subst h1
      rw [if_pos rfl]
      have e : rleRound 1 h = vstore 16 (h 1) ++ vstore 16 (h 0) := by
        simp [rleRound, List.range_succ]
      simp only [Nat.reduceAdd, e]
      by_cases h2 : c % 2 = 0
      · rw [if_pos h2, h2]; simp [rleSingles]
      · have h3 : c % 2 = 1 := by omega
        rw [if_neg h2, h3]
        simp only [rleSingles, List.append_nil, Prod.mk.injEq, and_true]
        funext r
        unfold rot1
        grind
    · rw [if_neg h1]
      by_cases h2 : s = 2
      · subst h2
        rw [if_pos rfl]
        have e : rleRound 2 h = vstore 16 (h 2) ++ vstore 16 (h 1) ++ vstore 16 (h 0) := by
          simp [rleRound, List.range_succ]
        simp only [Nat.reduceAdd, e]
        by_cases h3 : c % 3 = 2
        · rw [if_pos h3, h3]
          simp only [rleSingles, List.append_nil, Prod.mk.injEq]
          constructor
          · funext r
            unfold rot1
            grind
          · simp [rot1]
        · rw [if_neg h3]
          by_cases h4 : c % 3 = 1
          · rw [if_pos h4, h4]
            simp only [rleSingles, List.append_nil, Prod.mk.injEq, and_true]
            funext r
            unfold rot1
            grind
          · have h5 : c % 3 = 0 := by omega
            rw [if_neg h4, h5]
            simp [rleSingles]
      · rw [if_neg h2]
        simp only [rleRounds_eq]

theorem rleSingles_congr {s : Nat} (hs : s < 256) : ∀ (c : Nat) (h h' : Nat → Vec), HSame h h' →
    HSame (rleSingles s c h).1 (rleSingles s c h').1 ∧ (rleSingles s c h).2 = (rleSingles s c h').2
  | 0, _, _, H => ⟨H, rfl⟩
  | c + 1, h, h', H => by
    have h1 := rleSingles_congr hs c _ _ (rot1_congr hs H)
    simp only [rleSingles]
    exact ⟨h1.1, by rw [h1.2, vstore_congr fun j hj => H s j hs hj]⟩

/-- Block by block. -/
theorem decBlocks_uniform (s : Byte) : ∀ (c : Nat) (h : Nat → Vec),
    ∃ h', decBlocks h (List.replicate c (List.replicate 16 s)) = some (h', (rleSingles s.toNat c h).2) ∧
      HSame (rleSingles s.toNat c h).1 h'
  | 0, h => ⟨h, rfl, HSame.refl _⟩
  | c + 1, h => by
    obtain ⟨h1, e1, e2⟩ := block_uniform h s
    obtain ⟨h2, e3, e4⟩ := decBlocks_uniform s c h1
    have h3 := rleSingles_congr (s.toNat_lt) c _ _ e2
    refine ⟨h2, ?_, ?_⟩
    · rw [List.replicate_succ, decBlocks, e1]
      simp only [e3, rleSingles, h3.2]
    · exact h3.1.trans e4

/-- Decoding a repeat section gives what decoding its blocks gives. -/
theorem rle_run {s : Byte} {c : Nat} {h hd' : Nat → Vec} {os : List Byte}
    (he : decBlocks h (List.replicate c (List.replicate 16 s)) = some (hd', os)) :
    HSame hd' (rleOut s.toNat c h).1 ∧ (rleOut s.toNat c h).2 = os := by
  obtain ⟨h', e1, e2⟩ := decBlocks_uniform s c h
  rw [e1] at he
  simp only [Option.some.injEq, Prod.mk.injEq] at he
  rw [rleOut_eq, ← he.1, ← he.2]
  exact ⟨e2.symm, rfl⟩

/-! ### The remaining bytes -/

theorem tail_rt {he : Nat → Vec} (hg : HGood he) {hd : Nat → Vec} (hs : HSame he hd) :
    ∀ (xs : List Byte) (i : Nat) (r : List Byte), i + xs.length ≤ 16 →
      (mtfTailEnc he i xs).length = xs.length ∧ dcTail hd xs.length i (mtfTailEnc he i xs ++ r) = some xs
  | [], i, r, _ => ⟨rfl, rfl⟩
  | x :: xs, i, r, hl => by
    rw [List.length_cons] at hl
    obtain ⟨T, hT⟩ := hg
    have H := hT i (by omega)
    have hfind : (List.range 256).find? (fun d => he d i == x) = some ((T i).idxOf x) := by
      rw [List.find?_eq_some_iff_getElem]
      refine ⟨?_, (T i).idxOf x, by simpa using H.idx_lt x, by simp, ?_⟩
      · rw [beq_iff_eq]; exact ((H.match_iff x (H.idx_lt x)).mpr rfl).symm
      · intro j hj
        simp only [List.getElem_range, Bool.not_eq_eq_eq_not, Bool.not_true, beq_eq_false_iff_ne]
        intro h1
        have hj' : j < 256 := by have := H.idx_lt x; omega
        have := (H.match_iff x hj').mp h1.symm
        omega
    obtain ⟨h1, h2⟩ := tail_rt ⟨T, hT⟩ hs xs (i + 1) r (by omega)
    have hlt := H.idx_lt x
    simp only [mtfTailEnc, hfind]
    refine ⟨by simp [h1], ?_⟩
    have e : (b8 ((T i).idxOf x)).toNat = (T i).idxOf x := by rw [b8_toNat]; omega
    simp only [List.cons_append, List.nil_append, List.length_cons, dcTail, e]
    rw [if_pos (by omega), h2, Option.map_some]
    have ei : i / 16 = 0 := by omega
    have ei' : i % 16 = i := by omega
    rw [ei, ei', Nat.add_zero, ← hs _ _ hlt (by omega), ← (H.match_iff x hlt).mpr rfl]

end Hrk
