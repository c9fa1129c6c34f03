import Verif.LowEntropyDec

/-
The information block: `symbolsByProb` is a permutation of the byte values, and reading what was
written gives the flags and the inverse permutation.
-/

namespace Hrk

theorem absent_eq (pc : Nat → Nat) : ∀ i acc, absent pc i acc = (List.range i).filter (fun j => pc j == 0) ++ acc := by
  intro i
  induction i with
  | zero => intro acc; simp [absent]
  | succ i ih =>
    intro acc
    unfold absent
    rw [ih, List.range_succ, List.filter_append]
    by_cases h : pc i = 0 <;> simp [h]

theorem pickFold (pc : Nat → Nat) (used : Nat → Bool) : ∀ (l : List Nat) (b : Nat × Nat),
    let r := l.foldl (fun (b : Nat × Nat) i => if used i = false ∧ pc i > b.1 then (pc i, i) else b) b
    (r = b ∧ ∀ i ∈ l, ¬ (used i = false ∧ pc i > b.1)) ∨ (r.2 ∈ l ∧ used r.2 = false) := by
  intro l
  induction l with
  | nil => intro b; simp
  | cons i l ih =>
    intro b
    simp only [List.foldl_cons]
    by_cases h : used i = false ∧ pc i > b.1
    · rw [if_pos h]
      rcases ih (pc i, i) with ⟨h1, _⟩ | ⟨h1, h2⟩
      · right
        rw [h1]
        exact ⟨List.mem_cons_self .., h.1⟩
      · right
        exact ⟨List.mem_cons_of_mem _ h1, h2⟩
    · rw [if_neg h]
      rcases ih b with ⟨h1, h2⟩ | ⟨h1, h2⟩
      · left
        refine ⟨h1, ?_⟩
        intro j hj
        rcases List.mem_cons.mp hj with rfl | hj
        · exact h
        · exact h2 j hj
      · right
        exact ⟨List.mem_cons_of_mem _ h1, h2⟩

theorem pickBest_spec {pc : Nat → Nat} {used : Nat → Bool} (h : ∃ i, i < 256 ∧ used i = false ∧ pc i > 0) :
    pickBest pc used < 256 ∧ used (pickBest pc used) = false := by
  unfold pickBest
  rcases pickFold pc used (List.range 256) (0, 0) with ⟨h1, h2⟩ | ⟨h1, h2⟩
  · obtain ⟨i, hi, hu, hp⟩ := h
    exact absurd ⟨hu, hp⟩ (h2 i (List.mem_range.mpr hi))
  · exact ⟨List.mem_range.mp h1, h2⟩

theorem chosen_spec {pc : Nat → Nat} : ∀ (k : Nat) (used : Nat → Bool), (∀ i, i < 256 → used i = false → pc i > 0) →
    ((List.range 256).filter fun i => !used i).length = k →
    (chosen pc k used).Nodup ∧ (∀ i, i ∈ chosen pc k used ↔ i < 256 ∧ used i = false) ∧ (chosen pc k used).length = k := by
  intro k
  induction k with
  | zero =>
    intro used _ hk
    rw [List.length_eq_zero_iff, List.filter_eq_nil_iff] at hk
    refine ⟨by simp [chosen], ?_, by simp [chosen]⟩
    intro i
    simp only [chosen, List.not_mem_nil, false_iff, not_and]
    intro hi
    have := hk i (List.mem_range.mpr hi)
    simpa using this
  | succ k ih =>
    intro used hpos hk
    have hex : ∃ i, i < 256 ∧ used i = false ∧ pc i > 0 := by
      have : (List.range 256).filter (fun i => !used i) ≠ [] := by
        intro h; rw [h] at hk; simp at hk
      obtain ⟨i, hi⟩ := List.exists_mem_of_ne_nil _ this
      rw [List.mem_filter, List.mem_range] at hi
      exact ⟨i, hi.1, by simpa using hi.2, hpos i hi.1 (by simpa using hi.2)⟩
    obtain ⟨h1, h2⟩ := pickBest_spec hex
    unfold chosen
    generalize pickBest pc used = r at h1 h2
    have hnd : ((List.range 256).filter fun i => !used i).Nodup := List.nodup_range.filter _
    have hmem : r ∈ (List.range 256).filter fun i => !used i := by
      rw [List.mem_filter, List.mem_range]; exact ⟨h1, by simp [h2]⟩
    have hlen : ((List.range 256).filter fun i => !(used i || i == r)).length = k := by
      have : (List.range 256).filter (fun i => !(used i || i == r)) = ((List.range 256).filter fun i => !used i).erase r := by
        rw [hnd.erase_eq_filter, List.filter_filter]
        apply List.filter_congr
        intro i _
        cases used i <;> simp [bne]
      rw [this, List.length_erase_of_mem hmem, hk]
      rfl
    obtain ⟨g1, g2, g3⟩ := ih (fun i => used i || i == r) (by
      intro i hi hu
      simp only [Bool.or_eq_false_iff] at hu
      exact hpos i hi hu.1) hlen
    refine ⟨?_, ?_, by simp [g3]⟩
    · rw [List.nodup_cons]
      refine ⟨?_, g1⟩
      rw [g2 r]
      simp
    · intro i
      rw [List.mem_cons, g2 i]
      simp only [Bool.or_eq_false_iff, beq_eq_false_iff_ne, ne_eq]
      constructor
      · rintro (rfl | ⟨h3, h4, _⟩)
        · exact ⟨h1, h2⟩
        · exact ⟨h3, h4⟩
      · rintro ⟨h3, h4⟩
        by_cases h5 : i = r
        · exact Or.inl h5
        · exact Or.inr ⟨h3, h4, h5⟩

/-- The order of the symbols, as numbers. -/
def symOrder (pc : Nat → Nat) : List Nat :=
  chosen pc (256 - (absent pc 256 []).length) (fun i => pc i == 0) ++ absent pc 256 []

theorem filter_compl_length (p : Nat → Bool) (l : List Nat) :
    (l.filter fun i => !p i).length = l.length - (l.filter p).length := by
  induction l with
  | nil => simp
  | cons a l ih =>
    have := List.length_filter_le p l
    cases h : p a <;> simp [h, ih] <;> omega

theorem chosen_all (pc : Nat → Nat) :
    (chosen pc (256 - (absent pc 256 []).length) (fun i => pc i == 0)).Nodup ∧
    (∀ i, i ∈ chosen pc (256 - (absent pc 256 []).length) (fun i => pc i == 0) ↔ i < 256 ∧ pc i ≠ 0) ∧
    (chosen pc (256 - (absent pc 256 []).length) (fun i => pc i == 0)).length = 256 - (absent pc 256 []).length := by
  have := chosen_spec (pc := pc) (256 - (absent pc 256 []).length) (fun i => pc i == 0) (by
    intro i _ h
    simp at h
    omega) (by
    rw [filter_compl_length, absent_eq, List.append_nil]
    simp)
  simpa using this

theorem absent_length_le (pc : Nat → Nat) : (absent pc 256 []).length ≤ 256 := by
  rw [absent_eq, List.append_nil]
  have := List.length_filter_le (fun j => pc j == 0) (List.range 256)
  rwa [List.length_range] at this

theorem symOrder_length (pc : Nat → Nat) : (symOrder pc).length = 256 := by
  unfold symOrder
  rw [List.length_append, (chosen_all pc).2.2]
  have := absent_length_le pc
  omega

theorem symOrder_mem (pc : Nat → Nat) (i : Nat) : i ∈ symOrder pc ↔ i < 256 := by
  unfold symOrder
  rw [List.mem_append, (chosen_all pc).2.1, absent_eq, List.append_nil, List.mem_filter, List.mem_range]
  by_cases h : pc i = 0 <;> simp [h]

theorem symOrder_nodup (pc : Nat → Nat) : (symOrder pc).Nodup := by
  unfold symOrder
  rw [List.nodup_append]
  refine ⟨(chosen_all pc).1, ?_, ?_⟩
  · rw [absent_eq, List.append_nil]; exact List.nodup_range.filter _
  · intro a ha b hb
    rw [(chosen_all pc).2.1] at ha
    rw [absent_eq, List.append_nil, List.mem_filter] at hb
    intro he
    subst he
    simp at hb
    exact ha.2 hb.2

theorem map_b8_nodup {l : List Nat} (h : l.Nodup) (hl : ∀ i ∈ l, i < 256) : (l.map b8).Nodup := by
  induction l with
  | nil => simp
  | cons a l ih =>
    rw [List.nodup_cons] at h
    rw [List.map_cons, List.nodup_cons]
    refine ⟨?_, ih h.2 (fun i hi => hl i (List.mem_cons_of_mem _ hi))⟩
    intro hm
    obtain ⟨j, hj, he⟩ := List.mem_map.mp hm
    have := b8_inj_lt (hl j (List.mem_cons_of_mem _ hj)) (hl a (List.mem_cons_self ..)) he
    subst this
    exact h.1 hj

theorem infoOf_byProb (pc : Nat → Nat) (rle : Nat → Bool) : (infoOf pc rle).byProb = (symOrder pc).map b8 := rfl

/-- `symbolsByProb` holds every byte value exactly once. -/
theorem byProb_perm (pc : Nat → Nat) (rle : Nat → Bool) :
    (infoOf pc rle).byProb.length = 256 ∧ (infoOf pc rle).byProb.Nodup ∧ ∀ b, b ∈ (infoOf pc rle).byProb := by
  rw [infoOf_byProb]
  refine ⟨by rw [List.length_map, symOrder_length], map_b8_nodup (symOrder_nodup pc) (fun i hi => (symOrder_mem pc i).mp hi), ?_⟩
  intro b
  rw [List.mem_map]
  exact ⟨b.toNat, (symOrder_mem pc _).mpr b.toNat_lt, by simp [b8]⟩

/-! ### Assigning counts -/

theorem assignFrom_notin : ∀ (l : List Byte) i f b, b ∉ l → assignFrom i l f b = f b := by
  intro l
  induction l with
  | nil => intro i f b _; rfl
  | cons s l ih =>
    intro i f b hb
    rw [List.mem_cons, not_or] at hb
    unfold assignFrom
    rw [ih _ _ _ hb.2, if_neg hb.1]

theorem assignFrom_getD : ∀ (l : List Byte) i f k, l.Nodup → k < l.length → i + l.length ≤ 256 →
    assignFrom i l f (l.getD k 0) = i + k := by
  intro l
  induction l with
  | nil => intro i f k _ h _; simp at h
  | cons s l ih =>
    intro i f k hn hk hi
    rw [List.nodup_cons] at hn
    rw [List.length_cons] at hk hi
    unfold assignFrom
    cases k with
    | zero =>
      rw [List.getD_cons_zero, assignFrom_notin _ _ _ _ hn.1, if_pos rfl]
      rfl
    | succ k =>
      rw [List.getD_cons_succ, Nat.mod_eq_of_lt (by omega), ih (i + 1) _ k hn.2 (by omega) (by omega)]
      omega

/-- Two assignments in a row are one. -/
theorem assign_two {l₁ l₂ : List Byte} (hn : (l₁ ++ l₂).Nodup) (hl : (l₁ ++ l₂).length = 256) (hl1 : l₁.length < 256)
    (f : Byte → Nat) : ∀ c, c < 256 → assignFrom (l₁.length % 256) l₂ (assignFrom 0 l₁ f) ((l₁ ++ l₂).getD c 0) = c := by
  intro c hc
  rw [List.nodup_append] at hn
  rw [List.length_append] at hl
  rw [Nat.mod_eq_of_lt hl1]
  by_cases h : c < l₁.length
  · rw [getD_app_l h, assignFrom_notin, assignFrom_getD _ _ _ _ hn.1 h (by omega)]
    · omega
    · intro hm
      have : l₁.getD c 0 ∈ l₁ := by
        rw [List.getD_eq_getElem?_getD, List.getElem?_eq_getElem h]
        exact List.getElem_mem h
      exact hn.2.2 _ this _ hm rfl
  · obtain ⟨k, rfl⟩ : ∃ k, c = l₁.length + k := ⟨c - l₁.length, by omega⟩
    rw [getD_app_r, assignFrom_getD _ _ _ _ hn.2.1 (by omega) (by omega)]

/-! ### Flags -/

/-- The bitmap byte made of eight flags. -/
def packFlags (r0 r1 r2 r3 r4 r5 r6 r7 : Bool) : Byte :=
  let f (r : Bool) (j : Nat) : Byte := b8 (if r then 1 else 0) <<< b8 j
  (((((((((0 : Byte) ||| f r0 0) ||| f r1 1) ||| f r2 2) ||| f r3 3) ||| f r4 4) ||| f r5 5) ||| f r6 6) ||| f r7 7)

theorem packFlags_bits : ∀ r0 r1 r2 r3 r4 r5 r6 r7 : Bool, ∀ j : Fin 8,
    (packFlags r0 r1 r2 r3 r4 r5 r6 r7 &&& ((1 : Byte) <<< b8 j.val) != 0) = [r0, r1, r2, r3, r4, r5, r6, r7].getD j.val false := by
  decide +kernel

theorem flagByte_eq (rle : Byte → Bool) (i : Nat) :
    flagByte rle i = packFlags (rle (b8 (0 + i * 8))) (rle (b8 (1 + i * 8))) (rle (b8 (2 + i * 8))) (rle (b8 (3 + i * 8)))
      (rle (b8 (4 + i * 8))) (rle (b8 (5 + i * 8))) (rle (b8 (6 + i * 8))) (rle (b8 (7 + i * 8))) := by
  unfold flagByte packFlags
  rw [show List.range 8 = [0, 1, 2, 3, 4, 5, 6, 7] from rfl]
  rfl

theorem flagByte_bit (rle : Byte → Bool) (b : Byte) :
    (flagByte rle (b.toNat / 8) &&& ((1 : Byte) <<< b8 (b.toNat % 8)) != 0) = rle b := by
  rw [flagByte_eq, packFlags_bits _ _ _ _ _ _ _ _ ⟨b.toNat % 8, by omega⟩]
  simp only
  have hb : b = b8 (b.toNat % 8 + b.toNat / 8 * 8) := by
    rw [show b.toNat % 8 + b.toNat / 8 * 8 = b.toNat by omega]; simp [b8]
  generalize b.toNat / 8 = i at hb
  have hj : b.toNat % 8 < 8 := by omega
  generalize b.toNat % 8 = j at hb hj
  subst hb
  match j, hj with
  | 0, _ => rfl
  | 1, _ => rfl
  | 2, _ => rfl
  | 3, _ => rfl
  | 4, _ => rfl
  | 5, _ => rfl
  | 6, _ => rfl
  | 7, _ => rfl

theorem filter_singleton {l : List Byte} (hn : l.Nodup) {x : Byte} (hx : x ∈ l) {p : Byte → Bool}
    (hp : ∀ b ∈ l, p b = true ↔ b = x) : l.filter p = [x] := by
  have : l.filter p = l.filter (· == x) := by
    apply List.filter_congr
    intro b hb
    have := hp b hb
    by_cases h : b = x
    · rw [this.mpr h]; simp [h]
    · have : p b = false := by simpa [h] using mt this.mp h
      rw [this]; simp [h]
  rw [this, List.filter_beq, hn.count, if_pos hx]
  rfl

theorem bytes_nodup : ((List.range 256).map b8).Nodup :=
  map_b8_nodup List.nodup_range (fun _ hi => List.mem_range.mp hi)

theorem mem_bytes (b : Byte) : b ∈ (List.range 256).map b8 :=
  List.mem_map.mpr ⟨b.toNat, List.mem_range.mpr b.toNat_lt, by simp [b8]⟩

theorem leftOver_gen {p : List Byte} {k : Nat} (hn : p.Nodup) (hm : ∀ b, b ∈ p) {q : Nat → Bool}
    (h : (p.drop k).length = 1 ∨ p.drop k = ((List.range 256).filter q).map b8) :
    ((List.range 256).map b8).filter (fun b => !(p.take k).contains b) = p.drop k := by
  have hsplit : ∀ b, (!(p.take k).contains b) = true ↔ b ∈ p.drop k := by
    intro b
    have h1 := hm b
    rw [← List.take_append_drop k p] at hn h1
    rw [List.nodup_append] at hn
    rw [List.mem_append] at h1
    have h3 : (!(p.take k).contains b) = true ↔ b ∉ p.take k := by simp
    rw [h3]
    constructor
    · intro h; exact h1.resolve_left h
    · intro h h2; exact hn.2.2 _ h2 _ h rfl
  obtain ⟨f, hf⟩ : ∃ f : Byte → Bool, f = fun b => !(p.take k).contains b := ⟨_, rfl⟩
  have hsplit : ∀ b, f b = true ↔ b ∈ p.drop k := by intro b; rw [hf]; exact hsplit b
  rw [← hf]
  clear hf
  generalize p.drop k = d at *
  rcases h with hd | hd
  · obtain ⟨y, hy⟩ := List.length_eq_one_iff.mp hd
    rw [hy] at hsplit ⊢
    apply filter_singleton bytes_nodup (mem_bytes y)
    intro b _
    rw [hsplit b, List.mem_singleton]
  · rw [hd, List.filter_map]
    rw [hd] at hsplit
    congr 1
    apply List.filter_congr
    intro i hi
    have hi' := List.mem_range.mp hi
    simp only [Function.comp_apply]
    rw [Bool.eq_iff_iff, hsplit (b8 i)]
    constructor
    · intro hm2
      obtain ⟨j, hj, he⟩ := List.mem_map.mp hm2
      rw [List.mem_filter] at hj
      have := b8_inj_lt (List.mem_range.mp hj.1) hi' he
      rw [← this]
      exact hj.2
    · intro hq
      exact List.mem_map.mpr ⟨i, List.mem_filter.mpr ⟨hi, hq⟩, rfl⟩

/-- How many symbols are written. -/
def LeInfo.written (x : LeInfo) : Nat := if x.symbolCount = 0 then 255 else x.symbolCount

theorem written_lt (pc : Nat → Nat) (rle : Nat → Bool) : (infoOf pc rle).written < 256 := by
  unfold LeInfo.written
  have : (infoOf pc rle).symbolCount < 256 := Nat.mod_lt _ (by omega)
  split <;> omega

theorem written_eq (pc : Nat → Nat) (rle : Nat → Bool) :
    (infoOf pc rle).written = 255 ∨ (infoOf pc rle).written = 256 - (absent pc 256 []).length := by
  have hab := absent_length_le pc
  have hsc : (infoOf pc rle).symbolCount = (256 - (absent pc 256 []).length) % 256 := rfl
  unfold LeInfo.written
  rw [hsc]
  generalize (absent pc 256 []).length = a at *
  by_cases h : a = 0
  · left; subst h; rfl
  · by_cases h2 : a = 256
    · left; subst h2; rfl
    · right
      rw [Nat.mod_eq_of_lt (by omega), if_neg (by omega)]

/-- The symbols the reader finds left over are those the writer left out, in order. -/
theorem leftOver (pc : Nat → Nat) (rle : Nat → Bool) :
    ((List.range 256).map b8).filter (fun b => !((infoOf pc rle).byProb.take (infoOf pc rle).written).contains b) =
      (infoOf pc rle).byProb.drop (infoOf pc rle).written := by
  obtain ⟨hl, hn, hm⟩ := byProb_perm pc rle
  have hw := written_eq pc rle
  refine leftOver_gen (q := fun j => pc j == 0) hn hm ?_
  rcases hw with hw | hw
  · left
    rw [hw, List.length_drop, hl]
  · right
    rw [hw, infoOf_byProb]
    unfold symOrder
    rw [List.map_append, List.drop_append_of_le_length (by rw [List.length_map, (chosen_all pc).2.2] <;> omega),
      List.drop_of_length_le (by rw [List.length_map, (chosen_all pc).2.2] <;> omega), List.nil_append]
    exact congrArg (List.map b8) ((absent_eq pc 256 []).trans (List.append_nil _))

/-- Reading an information block gives the flags and the inverse of the symbol order. -/
theorem readInfo_writeInfo (pc : Nat → Nat) (rle : Nat → Bool) (rest : List Byte) :
    ∃ y, readInfo (writeInfo (infoOf pc rle) ++ rest) = some (y, rest) ∧ y.rle = (infoOf pc rle).rle ∧
      ∀ c, c < 256 → y.toCount ((infoOf pc rle).byProb.getD c 0) = c := by
  have hk1 := written_lt pc rle
  have hk3 := leftOver pc rle
  obtain ⟨hl, hn, hm⟩ := byProb_perm pc rle
  have hsc : (infoOf pc rle).symbolCount < 256 := Nat.mod_lt _ (by omega)
  generalize infoOf pc rle = x at *
  unfold LeInfo.written at *
  unfold writeInfo readInfo
  have h32 : ((List.range 32).map (flagByte x.rle)).length = 32 := by simp
  have h1 : takeN 32 ((List.range 32).map (flagByte x.rle) ++ [b8 x.symbolCount] ++
      x.byProb.take (if x.symbolCount = 0 then 255 else x.symbolCount) ++ rest) =
      some ((List.range 32).map (flagByte x.rle), b8 x.symbolCount ::
        (x.byProb.take (if x.symbolCount = 0 then 255 else x.symbolCount) ++ rest)) := by
    rw [List.append_assoc, List.append_assoc]
    exact takeN_append _ _ h32
  rw [h1]
  simp only [rdU8, b8_toNat]
  rw [Nat.mod_eq_of_lt hsc]
  generalize (if x.symbolCount = 0 then 255 else x.symbolCount) = k at *
  have hlen : (x.byProb.take k).length = k := by rw [List.length_take]; omega
  have h2 : takeN k (x.byProb.take k ++ rest) = some (x.byProb.take k, rest) := takeN_append _ _ hlen
  rw [h2]
  simp only
  refine ⟨_, rfl, ?_, ?_⟩
  · funext b
    simp only
    have hb := b.toNat_lt
    have : ((List.range 32).map (flagByte x.rle)).getD (b.toNat / 8) 0 = flagByte x.rle (b.toNat / 8) := by
      rw [List.getD_eq_getElem?_getD, List.getElem?_map, List.getElem?_range (by omega)]
      rfl
    rw [this, flagByte_bit]
  · intro c hc
    simp only
    rw [hk3]
    have := assign_two (l₁ := x.byProb.take k) (l₂ := x.byProb.drop k) (by rw [List.take_append_drop]; exact hn)
      (by rw [List.take_append_drop]; exact hl) (by omega) (fun _ => 0) c hc
    rwa [List.take_append_drop] at this

end Hrk
