import Verif.LowEntropy

/-
What a low entropy stream stands for, and that the encoder and the decoders agree with it.
-/

namespace Hrk

/-- The bytes a sequence of symbols and (run symbol, count) pairs stands for; counts are at most `mx`. -/
def leRef (rle : Byte → Bool) (cnt : Byte → Nat) (mx : Nat) : List Byte → Option (List Byte)
  | [] => some []
  | [b] => if rle b then none else some [b]
  | b :: c :: r =>
    if rle b then
      (if cnt c ≤ mx then (leRef rle cnt mx r).map fun t => b :: List.replicate (cnt c) b ++ t else none)
    else (leRef rle cnt mx (c :: r)).map fun t => b :: t

variable {rle : Byte → Bool} {cnt : Byte → Nat} {mx : Nat}

theorem leRef_lit {b : Byte} (h : rle b = false) (r : List Byte) :
    leRef rle cnt mx (b :: r) = (leRef rle cnt mx r).map fun t => b :: t := by
  cases r with
  | nil => simp [leRef, h]
  | cons c r => simp [leRef, h]

theorem leRef_run {b c : Byte} (h : rle b = true) (hc : cnt c ≤ mx) (r : List Byte) :
    leRef rle cnt mx (b :: c :: r) = (leRef rle cnt mx r).map fun t => b :: List.replicate (cnt c) b ++ t := by
  simp [leRef, h, hc]

theorem leRef_lits {l : List Byte} (h : ∀ b ∈ l, rle b = false) (r : List Byte) :
    leRef rle cnt mx (l ++ r) = (leRef rle cnt mx r).map fun t => l ++ t := by
  induction l with
  | nil => simp
  | cons b l ih =>
    rw [List.cons_append, leRef_lit (h b (List.mem_cons_self ..)), ih (fun b hb => h b (List.mem_cons_of_mem _ hb))]
    simp [Option.map_map, Function.comp_def]

/-- Every two bytes stand for at least one. -/
theorem leRef_length : ∀ (l t : List Byte), leRef rle cnt mx l = some t → l.length ≤ 2 * t.length := by
  intro l
  induction l using leRef.induct (rle := rle) (cnt := cnt) (mx := mx) with
  | case1 => intro t h; simp
  | case2 b h => intro t ht; simp [leRef, h] at ht
  | case3 b h => intro t ht; simp [leRef, h] at ht; subst ht; simp
  | case4 b c r h hc ih =>
    intro t ht
    rw [leRef_run h hc] at ht
    cases hr : leRef rle cnt mx r with
    | none => simp [hr] at ht
    | some t' =>
      simp [hr] at ht
      subst ht
      have := ih t' hr
      simp
      omega
  | case5 b c r h hc => intro t ht; simp [leRef, h, hc] at ht
  | case6 b c r h ih =>
    intro t ht
    rw [leRef_lit (by simpa using h)] at ht
    cases hr : leRef rle cnt mx (c :: r) with
    | none => simp [hr] at ht
    | some t' =>
      simp [hr] at ht
      subst ht
      have := ih t' hr
      simp at this ⊢
      omega

/-! ### Encoder -/

theorem leMatch_le (inp : Mem) (b : Byte) : ∀ k a, leMatch inp b a k ≤ k := by
  intro k
  induction k with
  | zero => intro a; simp [leMatch]
  | succ k ih =>
    intro a
    unfold leMatch
    have := ih (a + 1)
    split <;> omega

theorem leMatch_eq (inp : Mem) (b : Byte) : ∀ k a j, j < leMatch inp b a k → inp (a + j) = b := by
  intro k
  induction k with
  | zero => intro a j h; simp [leMatch] at h
  | succ k ih =>
    intro a j h
    unfold leMatch at h
    by_cases hb : inp a = b
    · rw [if_pos hb] at h
      cases j with
      | zero => exact hb
      | succ j =>
        rw [show a + (j + 1) = a + 1 + j by omega]
        exact ih (a + 1) j (by omega)
    · rw [if_neg hb] at h; omega

theorem rd_run {m : Mem} {a k : Nat} {b : Byte} (h : ∀ j, j < k → m (a + j) = b) : rd m a k = List.replicate k b := by
  apply List.ext_getElem?
  intro j
  rw [List.getElem?_replicate]
  unfold rd
  by_cases hj : j < k
  · simp [hj, h j hj]
  · simp [hj]

theorem rd_cons' (m : Mem) (a k : Nat) : rd m a (k + 1) = m a :: rd m (a + 1) k := by
  unfold rd
  rw [List.range_succ_eq_map]
  simp [Function.comp_def, Nat.add_assoc, Nat.add_comm 1]

theorem rd_split (m : Mem) (a j k : Nat) : rd m a (j + k) = rd m a j ++ rd m (a + j) k := by
  induction j generalizing a with
  | zero => simp [rd]
  | succ j ih =>
    rw [show j + 1 + k = (j + k) + 1 by omega, rd_cons', rd_cons', ih, List.cons_append,
      show a + 1 + j = a + (j + 1) by omega]

theorem leStep_spec {x : LeInfo} {inp : Mem} {range i : Nat} (hr : range ≤ 255) (hr2 : range ≤ mx + 1)
    (hc : ∀ c, c < 256 → cnt (x.byProb.getD c 0) = c) :
    i < (leStep x inp range i).2 ∧ (leStep x inp range i).2 ≤ i + max 1 range ∧
      ∀ tail t, leRef x.rle cnt mx tail = some t →
        leRef x.rle cnt mx ((leStep x inp range i).1 ++ tail) = some (rd inp i ((leStep x inp range i).2 - i) ++ t) := by
  unfold leStep
  by_cases hb : x.rle (inp i) = true
  · simp only [hb, if_true]
    have h1 := leMatch_le inp (inp i) (range - 1) (i + 1)
    have h2 := leMatch_eq inp (inp i) (range - 1) (i + 1)
    generalize leMatch inp (inp i) (i + 1) (range - 1) = q at *
    refine ⟨by omega, by omega, ?_⟩
    intro tail t ht
    simp only [List.cons_append, List.nil_append]
    rw [leRef_run hb (by rw [hc _ (by omega), Nat.mod_eq_of_lt (by omega)]; omega), ht, hc _ (by omega), show i + 1 + q - i = q + 1 by omega, rd_cons', rd_run h2,
      Nat.mod_eq_of_lt (by omega)]
    simp
  · simp only [hb]
    refine ⟨by simp, by simp <;> omega, ?_⟩
    intro tail t ht
    simp only [Bool.false_eq_true, if_false, List.cons_append, List.nil_append]
    rw [leRef_lit (by simpa using hb), ht, show i + 1 - i = 0 + 1 by omega, rd_cons']
    simp [rd]

theorem leEncode_spec {x : LeInfo} {inp : Mem} {n blk : Nat} (hb : 0 < blk) (hb2 : blk ≤ 255) (hb3 : blk ≤ mx + 1)
    (hc : ∀ c, c < 256 → cnt (x.byProb.getD c 0) = c) :
    ∃ d, leEncode blk x inp n = some d ∧ leRef x.rle cnt mx d = some (rd inp 0 n) := by
  unfold leEncode
  refine loop_rule
    (fun s => s.1 ≤ n ∧ ∀ tail t, leRef x.rle cnt mx tail = some t → leRef x.rle cnt mx (s.2 ++ tail) = some (rd inp 0 s.1 ++ t))
    (fun d => leRef x.rle cnt mx d = some (rd inp 0 n)) (fun s => n - s.1) ?_ _ _ ?_ (by simp)
  · intro s hs
    obtain ⟨i, out⟩ := s
    have hi : i ≤ n := hs.1
    have ho : ∀ tail t, leRef x.rle cnt mx tail = some t → leRef x.rle cnt mx (out ++ tail) = some (rd inp 0 i ++ t) := hs.2
    unfold leLoopStep
    simp only
    have key : ∀ range, range ≤ 255 → range ≤ mx + 1 → i < n → i + max 1 range ≤ n →
        ((leStep x inp range i).2 ≤ n ∧ ∀ tail t, leRef x.rle cnt mx tail = some t →
          leRef x.rle cnt mx (out ++ (leStep x inp range i).1 ++ tail) = some (rd inp 0 (leStep x inp range i).2 ++ t)) ∧
          n - (leStep x inp range i).2 < n - i := by
      intro range hr hr2 hin hle
      obtain ⟨h1, h2, h3⟩ := leStep_spec (x := x) (inp := inp) (range := range) (i := i) hr hr2 hc
      refine ⟨⟨by omega, ?_⟩, by omega⟩
      intro tail t ht
      rw [List.append_assoc, ho _ _ (h3 tail t ht)]
      generalize (leStep x inp range i).2 = e at *
      rw [show e = i + (e - i) by omega, rd_split, Nat.zero_add, List.append_assoc, show i + (e - i) - i = e - i by omega]
    generalize hT : n - 256 = T
    by_cases h1 : i < T
    · rw [if_pos h1]
      exact key blk hb2 hb3 (by omega) (by omega)
    · rw [if_neg h1]
      by_cases h2 : i < n
      · rw [if_pos h2]
        exact key (min (n - i - 1) blk) (by omega) (by omega) h2 (by omega)
      · rw [if_neg h2]
        have := ho [] [] rfl
        simp only [List.append_nil] at this
        rw [Post_inr, this, show i = n by omega]
  · refine ⟨by simp, ?_⟩
    intro tail t ht
    simpa [rd] using ht

/-! ### Decoder -/

theorem storeRep_spec (w : Nat) (b : Byte) : ∀ n o (m : Mem) k,
    storeRep w b n o m k = if o ≤ k ∧ k < o + n * w then b else m k := by
  intro n
  induction n with
  | zero => intro o m k; simp [storeRep] <;> omega
  | succ n ih =>
    intro o m k
    unfold storeRep
    rw [ih]
    unfold wr
    rw [Nat.succ_mul]
    generalize n * w = q
    by_cases h1 : o + w ≤ k ∧ k < o + w + q
    · rw [if_pos h1, if_pos (by omega)]
    · rw [if_neg h1]
      by_cases h2 : o ≤ k ∧ k < o + w
      · rw [if_pos h2, if_pos (by omega)]
      · rw [if_neg h2, if_neg (by omega)]

/-- A fill wrote the run and at most `sl` bytes behind it. -/
def FillOK (fill : Mem → Nat → Nat → Byte → Option Mem) (cap sl mx : Nat) : Prop :=
  ∀ m o c b, c ≤ mx → o + c + sl ≤ cap → ∃ m', fill m o c b = some m' ∧
    (∀ k, o ≤ k → k < o + c → m' k = b) ∧ ∀ k, (k < o ∨ o + c + sl ≤ k) → m' k = m k

theorem fillLong_ok (w aOut cap : Nat) (hw : w = 16 ∨ w = 32) : FillOK (fillLong w aOut cap) cap 32 255 := by
  intro m o c b hc hcap
  unfold fillLong
  by_cases h0 : c = 0
  · rw [if_pos h0]
    exact ⟨m, rfl, by intro k h1 h2; omega, fun _ _ => rfl⟩
  · rw [if_neg h0]
    by_cases h1 : c ≤ w
    · rw [if_pos h1, if_pos (by omega)]
      refine ⟨_, rfl, ?_, ?_⟩
      · intro k h2 h3; simp only [wr]; rw [if_pos (by omega)]
      · intro k h2; simp only [wr]; rw [if_neg (by omega)]
    · rw [if_neg h1]
      have hu : (aOut + o) % w < w := Nat.mod_lt _ (by omega)
      generalize (aOut + o) % w = un at hu
      by_cases h2 : un ≠ 0
      · simp only [if_pos h2]
        have hk : c - (w - un) ≤ (c - (w - un) + w - 1) / w * w ∧ (c - (w - un) + w - 1) / w * w ≤ c - (w - un) + w - 1 := by
          rcases hw with rfl | rfl <;> omega
        generalize (c - (w - un) + w - 1) / w = k at hk
        rw [if_pos (by omega)]
        refine ⟨_, rfl, ?_, ?_⟩
        · intro j h3 h4
          rw [storeRep_spec]
          unfold wr
          by_cases h5 : o + (w - un) ≤ j ∧ j < o + (w - un) + k * w
          · rw [if_pos h5]
          · rw [if_neg h5, if_pos (by omega)]
        · intro j h3
          rw [storeRep_spec]
          unfold wr
          rw [if_neg (by omega), if_neg (by omega)]
      · simp only [if_neg h2]
        have hk : c ≤ (c + w - 1) / w * w ∧ (c + w - 1) / w * w ≤ c + w - 1 := by
          rcases hw with rfl | rfl <;> omega
        generalize (c + w - 1) / w = k at hk
        rw [if_pos (by omega)]
        refine ⟨_, rfl, ?_, ?_⟩
        · intro j h3 h4
          rw [storeRep_spec, if_pos (by omega)]
        · intro j h3
          rw [storeRep_spec, if_neg (by omega)]

theorem fillShort_ok (skip0 : Bool) (cap : Nat) : FillOK (fillShort skip0 cap) cap 32 32 := by
  intro m o c b hc hcap
  unfold fillShort
  by_cases h0 : skip0 = true ∧ c = 0
  · rw [if_pos h0]
    exact ⟨m, rfl, by intro k h1 h2; omega, fun _ _ => rfl⟩
  · rw [if_neg h0, if_pos (by omega)]
    refine ⟨_, rfl, ?_, ?_⟩
    · intro k h2 h3; simp only [wr]; rw [if_pos (by omega)]
    · intro k h2; simp only [wr]; rw [if_neg (by omega)]

theorem fillTail_ok (aOut cap : Nat) : FillOK (fillTail aOut cap) cap 0 255 := by
  intro m o c b hc hcap
  unfold fillTail
  rw [if_pos (by omega)]
  by_cases h1 : c < 16
  · rw [if_pos h1]
    refine ⟨_, rfl, ?_, ?_⟩
    · intro k h2 h3; simp only [wr]; rw [if_pos (by omega)]
    · intro k h2; simp only [wr]; rw [if_neg (by omega)]
  · rw [if_neg h1]
    refine ⟨_, rfl, ?_, ?_⟩ <;>
    · have hu : (aOut + o) % 16 < 16 := Nat.mod_lt _ (by omega)
      generalize (aOut + o) % 16 = un at hu
      intro k
      by_cases h2 : un ≠ 0
      · simp only [if_pos h2]
        generalize hr : c - (16 - un) = r
        have hr2 : r = r / 16 * 16 + r % 16 := by omega
        have hr3 : r % 16 < 16 := by omega
        by_cases h3 : r % 16 ≠ 0
        · simp only [if_pos h3]
          generalize r / 16 = q at *
          generalize r % 16 = s at *
          unfold wr
          simp only [storeRep_spec]
          intros
          grind
        · simp only [if_neg h3]
          generalize r / 16 = q at *
          generalize r % 16 = s at *
          unfold wr
          simp only [storeRep_spec]
          intros
          grind
      · simp only [if_neg h2]
        have hr2 : c = c / 16 * 16 + c % 16 := by omega
        have hr3 : c % 16 < 16 := by omega
        by_cases h3 : c % 16 ≠ 0
        · simp only [if_pos h3]
          generalize c / 16 = q at *
          generalize c % 16 = s at *
          unfold wr
          simp only [storeRep_spec]
          intros
          grind
        · simp only [if_neg h3]
          generalize c / 16 = q at *
          generalize c % 16 = s at *
          simp only [storeRep_spec]
          intros
          grind


/-- Decoder invariant: `G` is what the output from `o0` to `N` has to become, `m0` the buffer at the start. -/
structure LeInv (rle : Byte → Bool) (cnt : Byte → Nat) (mx : Nat) (src : Mem) (pEnd o0 N : Nat) (G : Nat → Byte)
    (m0 : Mem) (s : LeS) : Prop where
  pos : s.pos ≤ pEnd
  lo : o0 ≤ s.o
  ref : ∃ t, leRef rle cnt mx (rd src s.pos (pEnd - s.pos)) = some t ∧ s.o + t.length = N ∧
    ∀ k, k < t.length → t.getD k 0 = G (s.o + k)
  done : ∀ k, o0 ≤ k → k < s.o → s.m k = G k
  out : ∀ k, k < o0 ∨ N ≤ k → s.m k = m0 k

theorem leRef_none_of_cnt {b c : Byte} (h : rle b = true) (hc : ¬ cnt c ≤ mx) (r : List Byte) :
    leRef rle cnt mx (b :: c :: r) = none := by simp [leRef, h, hc]

/-- A stretch of literals in memory. -/
theorem leRef_mem_lits {src : Mem} {p L w : Nat} (hw : w ≤ L) (h : ∀ k, k < w → rle (src (p + k)) = false)
    {t : List Byte} (ht : leRef rle cnt mx (rd src p L) = some t) :
    ∃ t', leRef rle cnt mx (rd src (p + w) (L - w)) = some t' ∧ t = rd src p w ++ t' := by
  rw [show L = w + (L - w) by omega, rd_split, leRef_lits] at ht
  · cases hr : leRef rle cnt mx (rd src (p + w) (L - w)) with
    | none => simp [hr] at ht
    | some t' =>
      simp [hr] at ht
      exact ⟨t', rfl, ht.symm⟩
  · intro b hb
    simp only [rd, List.mem_map, List.mem_range] at hb
    obtain ⟨k, hk, rfl⟩ := hb
    exact h k hk

/-- A run in memory. -/
theorem leRef_mem_run {src : Mem} {p L : Nat} (hL : 0 < L) (h : rle (src p) = true)
    {t : List Byte} (ht : leRef rle cnt mx (rd src p L) = some t) :
    2 ≤ L ∧ cnt (src (p + 1)) ≤ mx ∧ ∃ t', leRef rle cnt mx (rd src (p + 2) (L - 2)) = some t' ∧
      t = src p :: List.replicate (cnt (src (p + 1))) (src p) ++ t' := by
  by_cases h1 : L = 1
  · subst h1
    rw [show 1 = 0 + 1 from rfl, rd_cons'] at ht
    simp [leRef, h] at ht
  · have h2 : 2 ≤ L := by omega
    obtain ⟨L, rfl⟩ : ∃ k, L = k + 1 + 1 := ⟨L - 2, by omega⟩
    rw [rd_cons', rd_cons'] at ht
    by_cases hc : cnt (src (p + 1)) ≤ mx
    · rw [leRef_run h hc] at ht
      refine ⟨h2, hc, ?_⟩
      rw [show L + 1 + 1 - 2 = L by omega]
      cases hr : leRef rle cnt mx (rd src (p + 2) L) with
      | none => simp [hr] at ht
      | some t' =>
        simp [hr] at ht
        exact ⟨t', rfl, by simpa using ht.symm⟩
    · rw [leRef_none_of_cnt h hc] at ht
      cases ht

theorem getD_app_l {l₁ l₂ : List Byte} {k : Nat} (h : k < l₁.length) : (l₁ ++ l₂).getD k 0 = l₁.getD k 0 := by
  simp [List.getD, List.getElem?_append, h]

theorem getD_app_r {l₁ l₂ : List Byte} {k : Nat} : (l₁ ++ l₂).getD (l₁.length + k) 0 = l₂.getD k 0 := by
  simp [List.getD, List.getElem?_append_right]

theorem firstHit_none {src : Mem} {hit : Byte → Bool} {p w : Nat} (h : firstHit src hit p w = none) :
    ∀ k, k < w → hit (src (p + k)) = false := by
  intro k hk
  unfold firstHit at h
  rw [List.find?_eq_none] at h
  simpa using h k (List.mem_range.mpr hk)

theorem firstHit_some {src : Mem} {hit : Byte → Bool} {p w k : Nat} (h : firstHit src hit p w = some k) :
    k < w ∧ hit (src (p + k)) = true ∧ ∀ j, j < k → hit (src (p + j)) = false := by
  unfold firstHit at h
  rw [List.find?_range_eq_some] at h
  obtain ⟨h1, h2, h3⟩ := h
  refine ⟨List.mem_range.mp h2, h1, ?_⟩
  intro j hj
  simpa using h3 j hj

/-- The bit trick finds the first run symbol. -/
theorem maskHit_eq {w : Nat} (hw : w ≤ 32) (src : Mem) (sym : Byte) (p : Nat) :
    maskHit w src sym p = firstHit src (fun b => b == sym) p w := by
  have hbit : ∀ j, (movemask w (veq (vmem src p) (vset1 sym))).testBit j = (decide (j < w) && decide (src (p + j) = sym)) :=
    fun j => mask_testBit _ _ _ _
  unfold maskHit
  cases hf : firstHit src (fun b => b == sym) p w with
  | none =>
    have hno := firstHit_none hf
    simp only
    rw [if_pos]
    refine Nat.eq_of_testBit_eq fun j => ?_
    rw [hbit, Nat.zero_testBit]
    by_cases hj : j < w
    · have := hno j hj
      simp only [beq_eq_false_iff_ne] at this
      rw [decide_eq_false this, Bool.and_false]
    · rw [decide_eq_false hj, Bool.false_and]
  | some k =>
    obtain ⟨h1, h2, h3⟩ := firstHit_some hf
    have hk : (movemask w (veq (vmem src p) (vset1 sym))).testBit k = true := by
      rw [hbit, decide_eq_true h1, decide_eq_true (by simpa using h2)]; rfl
    simp only
    rw [if_neg (fun e => by rw [e, Nat.zero_testBit] at hk; cases hk)]
    refine ctz_at (by omega) hk fun j hj => ?_
    have := h3 j hj
    simp only [beq_eq_false_iff_ne] at this
    rw [hbit, decide_eq_false this, Bool.and_false]

/-- Literals followed by a run, or literals only: the two ways an iteration of a vector loop can go. -/
theorem leFast_spec {src : Mem} {len pEnd cap o0 N w : Nat} {G : Nat → Byte} {m0 : Mem} {s : LeS}
    {find : Nat → Option Nat} {fill : Mem → Nat → Nat → Byte → Option Mem}
    (hw : 0 < w) (hw2 : w ≤ 32) (hfind : ∀ p, find p = firstHit src rle p w) (hf : FillOK fill N 32 mx)
    (hlen : pEnd ≤ len) (hcap : N ≤ cap) (h : LeInv rle cnt mx src pEnd o0 N G m0 s) :
    Post (leFast w find cnt fill src len pEnd cap s)
      (fun s' => LeInv rle cnt mx src pEnd o0 N G m0 s' ∧ len - s'.pos < len - s.pos)
      (fun r => ∃ s', r = some s' ∧ LeInv rle cnt mx src pEnd o0 N G m0 s') := by
  obtain ⟨hpos, hlo, ⟨t, ht, htl, htG⟩, hdone, hout⟩ := h
  unfold leFast
  by_cases h1 : s.pos + 256 < pEnd
  · rw [if_pos h1]
    have hsz := leRef_length _ _ ht
    rw [rd_length] at hsz
    rw [if_pos (by omega)]
    rw [hfind]
    cases hfh : firstHit src rle s.pos w with
    | none =>
      simp only [Post_inl]
      have hno := firstHit_none hfh
      obtain ⟨t', ht', rfl⟩ := leRef_mem_lits (p := s.pos) (L := pEnd - s.pos) (w := w) (by omega)
        (fun k hk => hno k hk) ht
      simp only [List.length_append, rd_length] at htl htG hsz
      refine ⟨⟨by simp only; omega, by simp only; omega, ⟨t', ?_, by simp only; omega, ?_⟩, ?_, ?_⟩, by omega⟩
      · simp only
        rw [show pEnd - (s.pos + w) = pEnd - s.pos - w by omega]
        exact ht'
      · intro k hk
        have := htG (w + k) (by omega)
        have h2 : ((rd src s.pos w) ++ t').getD (w + k) 0 = t'.getD k 0 := by
          have := getD_app_r (l₁ := rd src s.pos w) (l₂ := t') (k := k)
          rwa [rd_length] at this
        rw [h2] at this
        rw [this, Nat.add_assoc]
      · intro k hk1 hk2
        simp only [wr] at hk2 ⊢
        by_cases hk3 : s.o ≤ k
        · rw [if_pos (by omega)]
          have := htG (k - s.o) (by omega)
          rw [getD_app_l (by rw [rd_length]; omega), rd_getD _ _ _ _ _ (by omega)] at this
          rw [this]
          congr 1
          omega
        · rw [if_neg (by omega)]
          exact hdone k hk1 (by omega)
      · intro k hk
        simp only [wr]
        rw [if_neg (by omega)]
        exact hout k hk
    | some k =>
      obtain ⟨hk1, hk2, hk3⟩ := firstHit_some hfh
      obtain ⟨t1, ht1, rfl⟩ := leRef_mem_lits (p := s.pos) (L := pEnd - s.pos) (w := k) (by omega)
        (fun j hj => hk3 j hj) ht
      obtain ⟨hL, hc, t2, ht2, rfl⟩ := leRef_mem_run (by omega) hk2 ht1
      have hsz2 := leRef_length _ _ ht2
      simp only [List.length_append, List.length_cons, List.length_replicate, rd_length] at htl htG hsz hsz2
      generalize hcn : cnt (src (s.pos + k + 1)) = c at *
      obtain ⟨m2, hf1, hf2, hf3⟩ := hf (wr s.m s.o w fun j => src (s.pos + j)) (s.o + k + 1) c (src (s.pos + k)) hc (by omega)
      simp only
      rw [if_pos (by omega), hcn, hf1]
      simp only [Post_inl]
      refine ⟨⟨by simp only; omega, by simp only; omega, ⟨t2, ?_, by simp only; omega, ?_⟩, ?_, ?_⟩, by omega⟩
      · simp only
        rw [show pEnd - (s.pos + k + 2) = pEnd - s.pos - k - 2 by omega]
        exact ht2
      · intro j hj
        simp only
        have := htG (k + (c + 1 + j)) (by omega)
        have h2 : ((rd src s.pos k) ++ (src (s.pos + k) :: List.replicate c (src (s.pos + k)) ++ t2)).getD (k + (c + 1 + j)) 0
            = t2.getD j 0 := by
          have h3 := getD_app_r (l₁ := rd src s.pos k)
            (l₂ := src (s.pos + k) :: List.replicate c (src (s.pos + k)) ++ t2) (k := c + 1 + j)
          rw [rd_length] at h3
          rw [h3]
          have h4 := getD_app_r (l₁ := src (s.pos + k) :: List.replicate c (src (s.pos + k))) (l₂ := t2) (k := j)
          rwa [List.length_cons, List.length_replicate] at h4
        rw [h2] at this
        rw [this]
        congr 1
        omega
      · intro j hj1 hj2
        simp only at hj2 ⊢
        by_cases hj3 : s.o + k + 1 ≤ j
        · rw [hf2 j hj3 (by omega)]
          have := htG (j - s.o) (by omega)
          rw [show j - s.o = k + (j - s.o - k) by omega] at this
          have h3 := getD_app_r (l₁ := rd src s.pos k)
            (l₂ := src (s.pos + k) :: List.replicate c (src (s.pos + k)) ++ t2) (k := j - s.o - k)
          rw [rd_length] at h3
          rw [h3, getD_app_l (by simp; omega), show j - s.o - k = (j - s.o - k - 1) + 1 by omega,
            List.getD_cons_succ] at this
          rw [show s.o + (k + (j - s.o - k - 1 + 1)) = j by omega] at this
          rw [← this]
          rw [List.getD_eq_getElem?_getD, List.getElem?_replicate, if_pos (by omega)]
          rfl
        · rw [hf3 j (by omega)]
          simp only [wr]
          by_cases hj4 : s.o ≤ j
          · rw [if_pos (by omega)]
            have := htG (j - s.o) (by omega)
            rw [show s.o + (j - s.o) = j by omega] at this
            rw [← this]
            by_cases hj5 : j - s.o < k
            · rw [getD_app_l (by rw [rd_length]; omega), rd_getD _ _ _ _ _ hj5]
            · have h3 := getD_app_r (l₁ := rd src s.pos k)
                (l₂ := src (s.pos + k) :: List.replicate c (src (s.pos + k)) ++ t2) (k := 0)
              rw [rd_length] at h3
              rw [show j - s.o = k + 0 by omega, h3]
              simp
          · rw [if_neg (by omega)]
            exact hdone j hj1 (by omega)
      · intro j hj
        simp only
        rw [hf3 j (by omega)]
        simp only [wr]
        rw [if_neg (by omega)]
        exact hout j hj
  · rw [if_neg h1]
    exact ⟨s, rfl, hpos, hlo, ⟨t, ht, htl, htG⟩, hdone, hout⟩

theorem FillOK.mono {fill : Mem → Nat → Nat → Byte → Option Mem} {cap sl mx N mx' : Nat} (h : FillOK fill cap sl mx)
    (h1 : N ≤ cap) (h2 : mx' ≤ mx) : FillOK fill N sl mx' :=
  fun m o c b hc ho => h m o c b (by omega) (by omega)

theorem leTail_spec {x : LeDInfo} {src : Mem} {len pEnd cap aOut o0 N : Nat} {G : Nat → Byte} {m0 : Mem} {s : LeS}
    (hmx : mx ≤ 255) (hlen : pEnd ≤ len) (hcap : N ≤ cap) (h : LeInv x.rle x.toCount mx src pEnd o0 N G m0 s) :
    Post (leTail x src len pEnd aOut cap s)
      (fun s' => LeInv x.rle x.toCount mx src pEnd o0 N G m0 s' ∧ len - s'.pos < len - s.pos)
      (fun r => ∃ s', r = some s' ∧ LeInv x.rle x.toCount mx src pEnd o0 N G m0 s' ∧ s'.o = N) := by
  obtain ⟨hpos, hlo, ⟨t, ht, htl, htG⟩, hdone, hout⟩ := h
  unfold leTail
  by_cases h1 : s.pos < pEnd
  · rw [if_pos h1]
    have hsz := leRef_length _ _ ht
    rw [rd_length] at hsz
    rw [if_pos (by omega)]
    simp only
    by_cases hb : x.rle (src s.pos) = true
    · rw [if_pos hb]
      obtain ⟨hL, hc, t2, ht2, rfl⟩ := leRef_mem_run (by omega) hb ht
      simp only [List.length_append, List.length_cons, List.length_replicate] at htl htG hsz
      generalize hcn : x.toCount (src (s.pos + 1)) = c at *
      obtain ⟨m2, hf1, hf2, hf3⟩ := (fillTail_ok aOut cap) (wr s.m s.o 1 fun _ => src s.pos) (s.o + 1) c (src s.pos)
        (by omega) (by omega)
      rw [if_pos (by omega), hf1]
      simp only [Post_inl]
      refine ⟨⟨by simp only; omega, by simp only; omega, ⟨t2, ?_, by simp only; omega, ?_⟩, ?_, ?_⟩, by omega⟩
      · simp only
        rw [show pEnd - (s.pos + 2) = pEnd - s.pos - 2 by omega]
        exact ht2
      · intro j hj
        simp only
        have := htG (c + 1 + j) (by omega)
        have h4 := getD_app_r (l₁ := src s.pos :: List.replicate c (src s.pos)) (l₂ := t2) (k := j)
        rw [List.length_cons, List.length_replicate] at h4
        rw [h4] at this
        rw [this]
        congr 1
        omega
      · intro j hj1 hj2
        simp only at hj2 ⊢
        by_cases hj3 : s.o + 1 ≤ j
        · rw [hf2 j hj3 (by omega)]
          have := htG (j - s.o) (by omega)
          rw [getD_app_l (by simp; omega), show j - s.o = (j - s.o - 1) + 1 by omega, List.getD_cons_succ] at this
          rw [show s.o + (j - s.o - 1 + 1) = j by omega] at this
          rw [← this]
          rw [List.getD_eq_getElem?_getD, List.getElem?_replicate, if_pos (by omega)]
          rfl
        · rw [hf3 j (by omega)]
          simp only [wr]
          by_cases hj4 : s.o ≤ j
          · rw [if_pos (by omega)]
            have := htG 0 (by omega)
            rw [show s.o + 0 = j by omega] at this
            rw [← this]
            simp
          · rw [if_neg (by omega)]
            exact hdone j hj1 (by omega)
      · intro j hj
        simp only
        rw [hf3 j (by omega)]
        simp only [wr]
        rw [if_neg (by omega)]
        exact hout j hj
    · rw [if_neg hb]
      obtain ⟨t', ht', rfl⟩ := leRef_mem_lits (p := s.pos) (L := pEnd - s.pos) (w := 1) (by omega)
        (fun k hk => by rw [show s.pos + k = s.pos by omega]; simpa using hb) ht
      simp only [List.length_append, rd_length] at htl htG hsz
      rw [Post_inl]
      refine ⟨⟨by simp only; omega, by simp only; omega, ⟨t', ?_, by simp only; omega, ?_⟩, ?_, ?_⟩, by simp only; omega⟩
      · simp only
        rw [show pEnd - (s.pos + 1) = pEnd - s.pos - 1 by omega]
        exact ht'
      · intro k hk
        have := htG (1 + k) (by omega)
        have h2 := getD_app_r (l₁ := rd src s.pos 1) (l₂ := t') (k := k)
        rw [rd_length] at h2
        rw [h2] at this
        rw [this, Nat.add_assoc]
      · intro k hk1 hk2
        simp only [wr] at hk2 ⊢
        by_cases hk3 : s.o ≤ k
        · rw [if_pos (by omega)]
          have := htG (k - s.o) (by omega)
          rw [getD_app_l (by rw [rd_length]; omega), rd_getD _ _ _ _ _ (by omega)] at this
          rw [show s.o + (k - s.o) = k by omega, show s.pos + (k - s.o) = s.pos by omega] at this
          exact this
        · rw [if_neg (by omega)]
          exact hdone k hk1 (by omega)
      · intro k hk
        simp only [wr]
        rw [if_neg (by omega)]
        exact hout k hk
  · rw [if_neg h1]
    refine ⟨s, rfl, ⟨hpos, hlo, ⟨t, ht, htl, htG⟩, hdone, hout⟩, ?_⟩
    rw [show pEnd - s.pos = 0 by omega, rd_zero] at ht
    simp only [leRef, Option.some.injEq] at ht
    subst ht
    simpa using htl

theorem b8_inj_lt {i j : Nat} (hi : i < 256) (hj : j < 256) (h : b8 i = b8 j) : i = j := by
  have := congrArg UInt8.toNat h
  rw [b8_toNat, b8_toNat] at this
  omega

theorem filter_length_one {p : Nat → Bool} {l : List Nat} (h : (l.filter p).length = 1) {i j : Nat} (hi : i ∈ l) (hj : j ∈ l)
    (h1 : p i = true) (h2 : p j = true) : i = j := by
  have e1 : i ∈ l.filter p := List.mem_filter.mpr ⟨hi, h1⟩
  have e2 : j ∈ l.filter p := List.mem_filter.mpr ⟨hj, h2⟩
  match hl : l.filter p, h with
  | [a], _ =>
    rw [hl] at e1 e2
    simp at e1 e2
    omega

/-- With one run symbol the comparison with the first one is the flag. -/
theorem firstRle_hit {rle : Byte → Bool} (h : rleCount rle = 1) (b : Byte) : (b == firstRle rle) = rle b := by
  unfold rleCount at h
  have hl : ((List.range 256).filter fun i => rle (b8 i)).length ≤ 256 := by
    have := List.length_filter_le (fun i => rle (b8 i)) (List.range 256)
    rwa [List.length_range] at this
  have h1 : ((List.range 256).filter fun i => rle (b8 i)).length = 1 := by
    generalize ((List.range 256).filter fun i => rle (b8 i)).length = q at *
    omega
  unfold firstRle
  cases hf : (List.range 256).find? fun i => rle (b8 i) with
  | none =>
    rw [List.find?_eq_none] at hf
    have : (List.range 256).filter (fun i => rle (b8 i)) = [] := by
      rw [List.filter_eq_nil_iff]; exact hf
    rw [this] at h1
    simp at h1
  | some i =>
    have hi1 := List.find?_some hf
    have hi2 := List.mem_of_find?_eq_some hf
    simp only [Option.getD_some]
    have hb : b8 b.toNat = b := by simp [b8]
    cases hr : rle b with
    | true =>
      have := filter_length_one h1 (i := b.toNat) (j := i) (List.mem_range.mpr b.toNat_lt) hi2 (by simp only [hb, hr]) hi1
      rw [← this, hb]
      simp
    | false =>
      simp only [beq_eq_false_iff_ne, ne_eq]
      intro he
      rw [he] at hr
      rw [hi1] at hr
      cases hr

/-- `*_decompress_with_info` writes what the stream stands for, and nothing else. -/
theorem leDecode_spec {short : Bool} {cpu : Cpu} {x : LeDInfo} {src : Mem} {len pos pEnd aOut cap o : Nat} {m : Mem}
    {d t : List Byte} (hd : rd src pos d.length = d) (hpe : pEnd = pos + d.length) (hlen : pEnd ≤ len)
    (hcap : o + t.length ≤ cap)
    (ht : leRef x.rle x.toCount mx d = some t) (hmx : mx ≤ 255) (hmx2 : short = true → mx ≤ 32)
    (h256 : ∃ b, x.rle b = false) :
    ∃ m', leDecode short cpu x src len pos pEnd aOut cap o t.length m = some (some m') ∧
      (∀ k, k < t.length → m' (o + k) = t.getD k 0) ∧ ∀ k, (k < o ∨ o + t.length ≤ k) → m' k = m k := by
  unfold leDecode
  by_cases h0 : rleCount x.rle = 0
  · rw [if_pos h0]
    have hnone : ∀ b, x.rle b = false := by
      unfold rleCount at h0
      have hlt : ((List.range 256).filter fun i => x.rle (b8 i)).length < 256 := by
        obtain ⟨b, hb⟩ := h256
        have hb' : b8 b.toNat = b := by simp [b8]
        have := List.length_filter_lt_length_iff_exists (l := List.range 256) (p := fun i => x.rle (b8 i))
        rw [List.length_range] at this
        exact this.mpr ⟨b.toNat, List.mem_range.mpr b.toNat_lt, by simp [hb', hb]⟩
      have h1 : ((List.range 256).filter fun i => x.rle (b8 i)).length = 0 := by
        generalize ((List.range 256).filter fun i => x.rle (b8 i)).length = q at *
        omega
      intro b
      have hb' : b8 b.toNat = b := by simp [b8]
      rw [List.length_eq_zero_iff, List.filter_eq_nil_iff] at h1
      have := h1 b.toNat (List.mem_range.mpr b.toNat_lt)
      rw [hb'] at this
      simpa using this
    have htd : t = d := by
      have := leRef_lits (cnt := x.toCount) (mx := mx) (l := d) (fun b _ => hnone b) []
      rw [List.append_nil, ht] at this
      simpa [leRef] using this
    subst htd
    rw [if_pos (by omega)]
    refine ⟨_, rfl, ?_, ?_⟩
    · intro k hk
      simp only [wr]
      rw [if_pos (by omega), show o + k - o = k by omega, ← hd, rd_getD _ _ _ _ _ hk]
    · intro k hk
      simp only [wr]
      rw [if_neg (by omega)]
  · rw [if_neg h0]
    simp only
    generalize hwide : (if (rleCount x.rle == 1) = true then cpu.avx2 else cpu.avx) = wide
    have hw : (if wide = true then 32 else 16) = 16 ∨ (if wide = true then 32 else 16) = 32 := by
      cases wide <;> simp
    generalize (if wide = true then 32 else 16) = w at hw
    have hfind : ∀ p, (if (rleCount x.rle == 1) = true then maskHit w src (firstRle x.rle) else fun p => firstHit src x.rle p w) p =
        firstHit src x.rle p w := by
      intro p
      by_cases h1 : rleCount x.rle = 1
      · rw [if_pos (by rw [h1]; rfl), maskHit_eq (by omega)]
        congr 1
        funext b
        exact firstRle_hit h1 b
      · rw [if_neg (by simpa using h1)]
    generalize (if (rleCount x.rle == 1) = true then maskHit w src (firstRle x.rle) else fun p => firstHit src x.rle p w) = find at hfind
    have hfill : FillOK (if short = true then fillShort (!(rleCount x.rle == 1) && !wide) cap else fillLong w aOut cap)
        (o + t.length) 32 mx := by
      cases short with
      | true => exact (fillShort_ok _ cap).mono hcap (hmx2 rfl)
      | false => exact (fillLong_ok w aOut cap hw).mono hcap hmx
    generalize (if short = true then fillShort (!(rleCount x.rle == 1) && !wide) cap else fillLong w aOut cap) = fill at hfill
    have hinv : LeInv x.rle x.toCount mx src pEnd o (o + t.length) (fun k => t.getD (k - o) 0) m ⟨pos, o, m⟩ := by
      refine ⟨by simp only; omega, Nat.le_refl _, ⟨t, ?_, rfl, ?_⟩, ?_, fun _ _ => rfl⟩
      · simp only
        rw [show pEnd - pos = d.length by omega, hd, ht]
      · intro k _
        simp only
        rw [show o + k - o = k by omega]
      · intro k h1 h2
        simp only at h2
        omega
    obtain ⟨r1, e1, s1, rfl, i1⟩ := loop_rule (LeInv x.rle x.toCount mx src pEnd o (o + t.length) (fun k => t.getD (k - o) 0) m)
      _ (fun s => len - s.pos)
      (fun s hs => leFast_spec (w := w) (by omega) (by omega) hfind hfill hlen hcap hs) (len + 2) _ hinv (by simp only; omega)
    obtain ⟨r2, e2, s2, rfl, i2, i3⟩ := loop_rule (LeInv x.rle x.toCount mx src pEnd o (o + t.length) (fun k => t.getD (k - o) 0) m)
      _ (fun s => len - s.pos)
      (fun s hs => leTail_spec (aOut := aOut) hmx hlen hcap hs) (len + 2) _ i1 (by omega)
    rw [e1]
    simp only
    rw [e2]
    refine ⟨s2.m, rfl, ?_, i2.out⟩
    intro k hk
    rw [i2.done (o + k) (by omega) (by omega)]
    rw [show o + k - o = k by omega]

end Hrk
