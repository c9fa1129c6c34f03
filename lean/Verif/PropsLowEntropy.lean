import Verif.LowEntropyInfo

/-
Theorems about the low entropy codecs.
-/

namespace Hrk

theorem LeCfg.info_eq (c : LeCfg) (inp : Mem) (n : Nat) :
    c.info inp n = infoOf (tally c.blk inp n).pcount (if c.onlyMax then flagMax (tally c.blk inp n) else flagAll (tally c.blk inp n)) :=
  rfl

theorem LeCfg.blk_cases (c : LeCfg) : c.blk = 32 ∧ c.short = true ∨ c.blk = 255 ∧ c.short = false := by
  unfold LeCfg.blk
  cases c.short <;> simp

/-- What a successful compression wrote. -/
theorem LeCfg.compress_ok {c : LeCfg} {inp : Mem} {n outSize ret : Nat} {out : List Byte}
    (h : c.compress (some inp) n true outSize = .ok ret out) :
    ∃ d, leEncode c.blk (c.info inp n) inp n = some d ∧
      out = le32 (8 + (writeInfo (c.info inp n)).length + d.length) ++ le32 n ++ writeInfo (c.info inp n) ++ d ∧
      ret = (8 + (writeInfo (c.info inp n)).length + d.length) % 4294967296 ∧
      8 + (writeInfo (c.info inp n)).length + d.length ≤ outSize := by
  simp only [LeCfg.compress] at h
  split at h
  · cases h
  split at h
  · cases h
  split at h
  · cases h
  split at h
  · cases h
  split at h
  · cases h
  split at h
  · cases h
  next d hd =>
  split at h
  · next hle =>
    cases h
    exact ⟨d, hd, rfl, rfl, hle⟩
  · cases h

/-! ### C34 -/

/-- C34: for every input, whichever flags and symbol order its statistics give, the information block read back
(whatever follows it) gives the same flags, and a count table that inverts the symbol order. -/
theorem C34_info_roundtrip (c : LeCfg) (inp : Mem) (n : Nat) (rest : List Byte) :
    ∃ y, readInfo (writeInfo (c.info inp n) ++ rest) = some (y, rest) ∧ y.rle = (c.info inp n).rle ∧
      ∀ k, k < 256 → y.toCount ((c.info inp n).byProb.getD k 0) = k :=
  readInfo_writeInfo _ _ rest

/-- C34: the symbol order is a permutation of the 256 byte values. -/
theorem C34_order_perm (c : LeCfg) (inp : Mem) (n : Nat) :
    (c.info inp n).byProb.length = 256 ∧ (c.info inp n).byProb.Nodup ∧ ∀ b, b ∈ (c.info inp n).byProb :=
  byProb_perm _ _

/-! ### C07, C08 -/

/-- The round trip, for inputs of which not all 256 byte values are run symbols. -/
theorem LeCfg.roundTrip (c : LeCfg) (cpu : Cpu) (inp : Mem) (n outSize ret : Nat) (out : List Byte) (hn : 0 < n)
    (hn2 : n < 4294967296) (ho : outSize < 4294967296) (hc : c.compress (some inp) n true outSize = .ok ret out)
    (h256 : ∃ b, (c.info inp n).rle b = false) (tail : List Byte) (m : Mem) (a : DArgs)
    (hpi : a.pIn = some (out ++ tail)) (hin : out.length ≤ a.inSize) (hpo : a.pOut = some m) (hos : n ≤ a.outSize)
    (hcap : n ≤ a.cap) :
    ∃ m', leDecompress c.short cpu a = .ok n m' ∧ (∀ k, k < n → m' k = inp k) ∧ (∀ k, n ≤ k → m' k = m k) := by
  obtain ⟨d, hd, rfl, _, hle⟩ := LeCfg.compress_ok hc
  obtain ⟨y, hy1, hy2, hy3⟩ := C34_info_roundtrip c inp n (d ++ tail)
  generalize hx : c.info inp n = x at *
  have hb := c.blk_cases
  obtain ⟨d', hd1, hd2⟩ := leEncode_spec (cnt := y.toCount) (mx := c.blk - 1) (x := x) (inp := inp) (n := n) (blk := c.blk)
    (by omega) (by omega) (by omega) hy3
  rw [hd] at hd1
  cases hd1
  simp only [leDecompress, hpi, hpo]
  simp only [List.length_append, le32_length] at hin
  rw [if_neg (by omega)]
  simp only [List.append_assoc, rdU32_le32]
  rw [if_neg (by omega), hy1]
  simp only
  rw [Nat.mod_eq_of_lt (by omega), Nat.mod_eq_of_lt (by omega)]
  obtain ⟨src, hsrc⟩ : ∃ src, src = le32 (8 + (writeInfo x).length + d.length) ++ (le32 n ++ (writeInfo x ++ (d ++ tail))) :=
    ⟨_, rfl⟩
  rw [← hsrc]
  have hsl : src.length = 8 + (writeInfo x).length + d.length + tail.length := by rw [hsrc]; simp; omega
  rw [← hy2] at hd2 h256
  have := leDecode_spec (short := c.short) (cpu := cpu) (x := y) (src := fun k => src.getD k 0) (len := src.length)
    (pos := src.length - (d ++ tail).length) (pEnd := 8 + (writeInfo x).length + d.length) (aOut := a.aOut) (cap := a.cap)
    (o := 0) (m := m) (d := d) (t := rd inp 0 n) (mx := c.blk - 1) ?_ ?_ ?_ ?_ hd2 (by omega)
    (by intro hs; rw [hs] at hb; simp at hb; omega) h256
  · obtain ⟨m', h1, h2, h3⟩ := this
    rw [rd_length] at h1 h2 h3
    rw [h1]
    refine ⟨m', rfl, ?_, fun k hk => h3 k (by omega)⟩
    intro k hk
    have := h2 k hk
    rw [Nat.zero_add, rd_getD _ _ _ _ _ hk, Nat.zero_add] at this
    exact this
  · apply List.ext_getElem?
    intro j
    rw [rd_getElem?]
    split
    · next hj =>
      have h1 : src = (le32 (8 + (writeInfo x).length + d.length) ++ le32 n ++ writeInfo x) ++ (d ++ tail) := by
        rw [hsrc]; simp only [List.append_assoc]
      have h2 : src.length - (d ++ tail).length =
          (le32 (8 + (writeInfo x).length + d.length) ++ le32 n ++ writeInfo x).length := by
        rw [hsl]; simp; omega
      rw [h2, h1, getD_app_r, getD_app_l hj, List.getElem?_eq_getElem hj, List.getD_eq_getElem?_getD,
        List.getElem?_eq_getElem hj]
      rfl
    · next hj => simp; omega
  · rw [hsl, List.length_append]; omega
  · rw [hsl]; omega
  · rw [rd_length]; omega

/-- At most one symbol is flagged by the `only_max_frequency` functions. -/
theorem flagMax_one (t : Tally) {i j : Nat} (hi : flagMax t i = true) (hj : flagMax t j = true) : i = j := by
  simp [flagMax] at hi hj
  omega

/-- C07: `rle8_low_entropy_compress_only_max_frequency` followed by `rle8_low_entropy_decompress` reproduces every
input, for every CPU and every pair of buffer addresses. -/
theorem LeCfg.onlyMax_roundTrip (short : Bool) (cpu : Cpu) :
    RoundTripExact 4294967295 (LeCfg.compress ⟨short, true⟩) (leDecompress short cpu) := by
  intro inp n outSize ret out hn hn2 ho hc tail m a h1 h2 h3 h4 h5
  refine LeCfg.roundTrip ⟨short, true⟩ cpu inp n outSize ret out hn (by omega) ho hc ?_ tail m a h1 h2 h3 h4 h5
  show ∃ b : Byte, flagMax (tally (LeCfg.blk ⟨short, true⟩) inp n) b.toNat = false
  generalize tally (LeCfg.blk ⟨short, true⟩) inp n = t
  by_cases h : flagMax t 0 = true
  · refine ⟨1, ?_⟩
    cases h1 : flagMax t (1 : Byte).toNat with
    | false => rfl
    | true => exact absurd (flagMax_one t h h1) (by decide)
  · exact ⟨0, by simpa using h⟩

theorem C07_only_max_roundtrip (cpu : Cpu) :
    RoundTripExact 4294967295 (LeCfg.compress ⟨false, true⟩) (leDecompress false cpu) := LeCfg.onlyMax_roundTrip false cpu

/-- C08, same for the short codec. -/
theorem C08_only_max_roundtrip (cpu : Cpu) :
    RoundTripExact 4294967295 (LeCfg.compress ⟨true, true⟩) (leDecompress true cpu) := LeCfg.onlyMax_roundTrip true cpu

theorem tallyLoop_succ (blk : Nat) (inp : Mem) (n : Nat) :
    tallyLoop blk inp (n + 1) = tallyStep blk inp (tallyLoop blk inp n) n := by
  unfold tallyLoop
  rw [List.range_succ, List.foldl_append]
  rfl

/-- A value that does not occur has count 0. -/
theorem tally_absent {blk : Nat} {inp : Mem} {n : Nat} {v : Byte} (hn : 0 < n) (h : ∀ k, k < n → inp k ≠ v) :
    (tally blk inp n).pcount v.toNat = 0 := by
  have key : ∀ k, k < n → (tallyLoop blk inp (k + 1)).pcount v.toNat = 0 ∧ (tallyLoop blk inp (k + 1)).last ≠ v.toNat := by
    intro k
    have hne : ∀ k, k < n → (inp k).toNat ≠ v.toNat := fun k hk he => h k hk (UInt8.toNat_inj.mp he)
    induction k with
    | zero =>
      intro hk
      have h0 := hne 0 hk
      rw [tallyLoop_succ, show tallyLoop blk inp 0 = tallyInit inp from rfl]
      unfold tallyStep tallyInit
      by_cases hz : (inp 0).toNat = 0
      · simp only [hz, if_true, ne_eq, not_true_eq_false, if_false]
        refine ⟨trivial, ?_⟩
        show (0 : Nat) ≠ _
        omega
      · simp only [hz, if_false, ne_eq, not_false_eq_true, if_true]
        refine ⟨?_, h0⟩
        unfold upd
        by_cases hv : v.toNat = 0
        · simp [hv]
        · simp [hv]
    | succ k ih =>
      intro hk
      obtain ⟨h1, h2⟩ := ih (by omega)
      rw [tallyLoop_succ]
      generalize tallyLoop blk inp (k + 1) = t at *
      unfold tallyStep
      by_cases hz : (inp (k + 1)).toNat = t.last
      · rw [if_pos hz]; exact ⟨h1, h2⟩
      · rw [if_neg hz]
        refine ⟨?_, hne (k + 1) hk⟩
        simp only [upd]
        rw [if_neg (by omega)]
        exact h1
  obtain ⟨h1, h2⟩ := key (n - 1) (by omega)
  rw [show n - 1 + 1 = n by omega] at h1 h2
  simp only [tally, upd]
  rw [if_neg (by omega)]
  exact h1

/-- C07, for `rle8_low_entropy_compress`: every input in which some byte value does not occur, or occurs
without being a run symbol, is reproduced. Missing: inputs with all 256 values flagged, where the
claim is false (`C07_violated`). -/
theorem C07_roundtrip_partial (cpu : Cpu) (inp : Mem) (n outSize ret : Nat) (out : List Byte) (hn : 0 < n)
    (hn2 : n < 4294967296) (ho : outSize < 4294967296)
    (hc : LeCfg.compress ⟨false, false⟩ (some inp) n true outSize = .ok ret out)
    (h256 : (∃ v, ∀ k, k < n → inp k ≠ v) ∨ ∃ v, (LeCfg.info ⟨false, false⟩ inp n).rle v = false)
    (tail : List Byte) (m : Mem) (a : DArgs)
    (hpi : a.pIn = some (out ++ tail)) (hin : out.length ≤ a.inSize) (hpo : a.pOut = some m) (hos : n ≤ a.outSize)
    (hcap : n ≤ a.cap) :
    ∃ m', leDecompress false cpu a = .ok n m' ∧ (∀ k, k < n → m' k = inp k) ∧ (∀ k, n ≤ k → m' k = m k) := by
  refine LeCfg.roundTrip ⟨false, false⟩ cpu inp n outSize ret out hn hn2 ho hc ?_ tail m a hpi hin hpo hos hcap
  rcases h256 with ⟨v, hv⟩ | h
  · refine ⟨v, ?_⟩
    show flagAll (tally (LeCfg.blk ⟨false, false⟩) inp n) v.toNat = false
    unfold flagAll
    rw [tally_absent hn hv]
    rfl
  · exact h

/-- C08, same for `rle8_low_entropy_short_compress`; missing as for `C07_roundtrip_partial` (`C08_violated`). -/
theorem C08_roundtrip_partial (cpu : Cpu) (inp : Mem) (n outSize ret : Nat) (out : List Byte) (hn : 0 < n)
    (hn2 : n < 4294967296) (ho : outSize < 4294967296)
    (hc : LeCfg.compress ⟨true, false⟩ (some inp) n true outSize = .ok ret out)
    (h256 : (∃ v, ∀ k, k < n → inp k ≠ v) ∨ ∃ v, (LeCfg.info ⟨true, false⟩ inp n).rle v = false)
    (tail : List Byte) (m : Mem) (a : DArgs)
    (hpi : a.pIn = some (out ++ tail)) (hin : out.length ≤ a.inSize) (hpo : a.pOut = some m) (hos : n ≤ a.outSize)
    (hcap : n ≤ a.cap) :
    ∃ m', leDecompress true cpu a = .ok n m' ∧ (∀ k, k < n → m' k = inp k) ∧ (∀ k, n ≤ k → m' k = m k) := by
  refine LeCfg.roundTrip ⟨true, false⟩ cpu inp n outSize ret out hn hn2 ho hc ?_ tail m a hpi hin hpo hos hcap
  rcases h256 with ⟨v, hv⟩ | h
  · refine ⟨v, ?_⟩
    show flagAll (tally (LeCfg.blk ⟨true, false⟩) inp n) v.toNat = false
    unfold flagAll
    rw [tally_absent hn hv]
    rfl
  · exact h

/-! ### C07, C08: the violation -/

/-- Every byte value twice: `0 0 1 1 2 2 ... 255 255`. -/
def pairsInp : Mem := fun k => b8 (k / 2)

theorem pairs_tally (blk : Nat) (hb : 3 ≤ blk) : ∀ i, i < 512 →
    (tallyLoop blk pairsInp (i + 1)).last = i / 2 ∧ (tallyLoop blk pairsInp (i + 1)).count = i % 2 + 1 ∧
      ∀ s, (tallyLoop blk pairsInp (i + 1)).prob s = (if s < i / 2 then 2 else 0) ∧
        (tallyLoop blk pairsInp (i + 1)).pcount s = if s < i / 2 then 1 else 0 := by
  intro i
  have hv : ∀ k, k < 512 → (pairsInp k).toNat = k / 2 := by
    intro k hk
    unfold pairsInp
    rw [b8_toNat]
    omega
  induction i with
  | zero =>
    intro _
    rw [tallyLoop_succ, show tallyLoop blk pairsInp 0 = tallyInit pairsInp from rfl]
    unfold tallyStep tallyInit
    rw [hv 0 (by omega)]
    simp
  | succ i ih =>
    intro hi
    obtain ⟨h1, h2, h3⟩ := ih (by omega)
    rw [tallyLoop_succ]
    generalize tallyLoop blk pairsInp (i + 1) = t at *
    unfold tallyStep
    rw [hv (i + 1) hi, h1, h2]
    by_cases he : (i + 1) / 2 = i / 2
    · rw [if_pos he]
      simp only
      refine ⟨by omega, by omega, ?_⟩
      rw [he]
      exact h3
    · rw [if_neg he]
      refine ⟨rfl, by simp only; omega, ?_⟩
      intro s
      simp only [upd]
      have h4 : (i % 2 + 1) / blk = 0 := Nat.div_eq_of_lt (by omega)
      have h5 : i % 2 = 1 := by omega
      rw [h4, h5, (h3 s).1, (h3 s).2, (h3 _).1, (h3 _).2, if_neg (Nat.lt_irrefl _), if_neg (Nat.lt_irrefl _)]
      by_cases hs : s = i / 2
      · rw [if_pos hs, if_pos hs, if_pos (by omega), if_pos (by omega)]
        exact ⟨rfl, rfl⟩
      · rw [if_neg hs, if_neg hs]
        by_cases hl : s < i / 2
        · rw [if_pos hl, if_pos hl, if_pos (by omega), if_pos (by omega)]
          exact ⟨rfl, rfl⟩
        · rw [if_neg hl, if_neg hl, if_neg (by omega), if_neg (by omega)]
          exact ⟨rfl, rfl⟩

theorem pairs_flags (short : Bool) (b : Byte) : (LeCfg.info ⟨short, false⟩ pairsInp 512).rle b = true := by
  show flagAll (tally (LeCfg.blk ⟨short, false⟩) pairsInp 512) b.toNat = true
  have hb : 3 ≤ LeCfg.blk ⟨short, false⟩ := by cases short <;> decide
  obtain ⟨h1, h2, h3⟩ := pairs_tally _ hb 511 (by omega)
  rw [show 511 + 1 = 512 from rfl] at h1 h2 h3
  have hlt := b.toNat_lt
  have hp : (tally (LeCfg.blk ⟨short, false⟩) pairsInp 512).prob b.toNat = 2 ∧
      (tally (LeCfg.blk ⟨short, false⟩) pairsInp 512).pcount b.toNat = 1 := by
    simp only [tally, upd, h1, h2, (h3 _).1, (h3 _).2]
    by_cases hs : b.toNat = 511 / 2
    · rw [if_pos hs, if_pos hs]
      exact ⟨rfl, rfl⟩
    · rw [if_neg hs, if_neg hs, if_pos (by omega), if_pos (by omega)]
      exact ⟨rfl, rfl⟩
  simp only [flagAll, hp.1, hp.2]
  rfl

/-- What is already written stays. -/
theorem leLoopStep_prefix {blk : Nat} {x : LeInfo} {inp : Mem} {n : Nat} (s : Nat × List Byte) :
    Post (leLoopStep blk x inp n s) (fun s' => ∃ t, s'.2 = s.2 ++ t) (fun r => r = s.2) := by
  unfold leLoopStep
  generalize n - 256 = T
  by_cases h1 : s.1 < T
  · rw [if_pos h1]; exact ⟨_, rfl⟩
  · rw [if_neg h1]
    by_cases h2 : s.1 < n
    · rw [if_pos h2]; exact ⟨_, rfl⟩
    · rw [if_neg h2]; rfl

theorem loop_prefix {step : Nat × List Byte → (Nat × List Byte) ⊕ List Byte}
    (hs : ∀ s, Post (step s) (fun s' => ∃ t, s'.2 = s.2 ++ t) (fun r => r = s.2)) : ∀ f s r,
    loop step f s = some r → ∃ t, r = s.2 ++ t := by
  intro f
  induction f with
  | zero => intro s r h; cases h
  | succ f ih =>
    intro s r h
    rw [loop] at h
    have hstep := hs s
    cases hq : step s with
    | inl s2 =>
      rw [hq] at h hstep
      obtain ⟨t, ht⟩ := hstep
      obtain ⟨t2, ht2⟩ := ih s2 r h
      exact ⟨t ++ t2, by rw [ht2, ht, List.append_assoc]⟩
    | inr r2 =>
      rw [hq] at h hstep
      cases h
      exact ⟨[], by simpa using hstep⟩

theorem loop_prefix2 {step : Nat × List Byte → (Nat × List Byte) ⊕ List Byte} {s0 s1 s2 : Nat × List Byte} {f : Nat}
    {r : List Byte} (hs : ∀ s, Post (step s) (fun s' => ∃ t, s'.2 = s.2 ++ t) (fun r => r = s.2))
    (h0 : step s0 = .inl s1) (h1 : step s1 = .inl s2) (h : loop step f s0 = some r) : ∃ t, r = s2.2 ++ t := by
  match f, h with
  | 0, h => cases h
  | 1, h => simp only [loop, h0] at h; cases h
  | f + 2, h =>
    rw [loop, h0] at h
    simp only at h
    rw [loop, h1] at h
    exact loop_prefix hs _ _ _ h

theorem pairs_stream (short : Bool) (x : LeInfo) (hx : ∀ b, x.rle b = true) {d : List Byte}
    (h : leEncode (LeCfg.blk ⟨short, false⟩) x pairsInp 512 = some d) :
    ∃ t, d = 0 :: x.byProb.getD 1 0 :: 1 :: x.byProb.getD 1 0 :: t := by
  unfold leEncode at h
  have hm : ∀ i, (i = 0 ∨ i = 2) → leMatch pairsInp (pairsInp i) (i + 1) (LeCfg.blk ⟨short, false⟩ - 1) = 1 := by
    intro i hi
    rcases hi with rfl | rfl <;> cases short <;> decide
  have hstep : ∀ i out, (i = 0 ∨ i = 2) → leLoopStep (LeCfg.blk ⟨short, false⟩) x pairsInp 512 (i, out) =
      .inl (i + 2, out ++ [pairsInp i, x.byProb.getD 1 0]) := by
    intro i out hi
    unfold leLoopStep leStep
    simp only [hx, if_true, hm i hi]
    rw [if_pos (by omega)]
  have hpre := leLoopStep_prefix (blk := LeCfg.blk ⟨short, false⟩) (x := x) (inp := pairsInp) (n := 512)
  generalize leLoopStep (LeCfg.blk ⟨short, false⟩) x pairsInp 512 = step at h hstep hpre
  obtain ⟨t, ht⟩ := loop_prefix2 hpre (hstep 0 [] (Or.inl rfl)) (hstep 2 _ (Or.inr rfl)) h
  exact ⟨t, ht⟩

/-- The encoder never writes more than two bytes per input byte. -/
theorem leEncode_length {blk : Nat} {x : LeInfo} {inp : Mem} {n : Nat} {d : List Byte} (hb : 0 < blk) (hb2 : blk ≤ 255)
    (h : leEncode blk x inp n = some d) : d.length ≤ 2 * n := by
  refine loop_rule_partial (fun s => s.1 ≤ n ∧ s.2.length ≤ 2 * s.1) (fun d => d.length ≤ 2 * n) ?_ _ _ _ ?_ h
  · intro s hs
    obtain ⟨i, out⟩ := s
    have h1 : i ≤ n := hs.1
    have h2 : out.length ≤ 2 * i := hs.2
    have key : ∀ range, i + max 1 range ≤ n → (leStep x inp range i).2 ≤ n ∧
        (out ++ (leStep x inp range i).1).length ≤ 2 * (leStep x inp range i).2 := by
      intro range hr
      unfold leStep
      have := leMatch_le inp (inp i) (range - 1) (i + 1)
      by_cases hb : x.rle (inp i) = true
      · simp only [hb, if_true, List.length_append, List.length_cons, List.length_nil]
        omega
      · simp only [hb, if_false, Bool.false_eq_true, List.length_append, List.length_cons, List.length_nil]
        omega
    unfold leLoopStep
    generalize hT : n - 256 = T
    by_cases h3 : i < T
    · simp only [if_pos h3, Post_inl]
      exact key blk (by omega)
    · simp only [if_neg h3]
      by_cases h4 : i < n
      · simp only [if_pos h4, Post_inl]
        exact key _ (by omega)
      · simp only [if_neg h4, Post_inr]
        omega
  · simp

theorem writeInfo_length (pc : Nat → Nat) (rle : Nat → Bool) :
    (writeInfo (infoOf pc rle)).length = 33 + (infoOf pc rle).written := by
  have h1 := (byProb_perm pc rle).1
  have h2 := written_lt pc rle
  have h3 : writeInfo (infoOf pc rle) = (List.range 32).map (flagByte (infoOf pc rle).rle) ++ [b8 (infoOf pc rle).symbolCount] ++
    (infoOf pc rle).byProb.take (infoOf pc rle).written := rfl
  rw [h3]
  simp only [List.length_append, List.length_map, List.length_range, List.length_cons, List.length_nil, List.length_take, h1]
  omega

/-- Compression succeeds if the buffer has room for two bytes per input byte. -/
theorem LeCfg.compress_big (c : LeCfg) (inp : Mem) (n outSize : Nat) (hn : 0 < n) (h1 : 2 * n + 300 ≤ outSize)
    (h2 : outSize < 4294967296) : ∃ ret out, c.compress (some inp) n true outSize = .ok ret out := by
  have hb := c.blk_cases
  obtain ⟨y, _, _, hy3⟩ := C34_info_roundtrip c inp n []
  obtain ⟨d, hd, _⟩ := leEncode_spec (cnt := y.toCount) (mx := c.blk - 1) (x := c.info inp n) (inp := inp) (n := n) (blk := c.blk)
    (by omega) (by omega) (by omega) hy3
  have hl := leEncode_length (by omega) (by omega) hd
  have hw : (writeInfo (c.info inp n)).length ≤ 288 := by
    rw [c.info_eq, writeInfo_length]
    have := written_lt (tally c.blk inp n).pcount (if c.onlyMax then flagMax (tally c.blk inp n) else flagAll (tally c.blk inp n))
    omega
  simp only [LeCfg.compress]
  have hbd : leBounds n ≤ n + 297 := Nat.mod_le _ _
  rw [if_neg (by simp; omega), if_neg (by omega), if_neg (by omega), if_neg (by omega), if_neg (by rw [Nat.mod_eq_of_lt (by omega)]; omega), hd]
  simp only
  rw [if_pos (by omega)]
  exact ⟨_, _, rfl⟩

/-- The round trip fails for `0 0 1 1 ... 255 255`: all 256 byte values are run symbols, `rleSymbolCount` wraps to 0, and
the decoder copies the stream instead of decoding it. -/
theorem LeCfg.pairs_violated (short : Bool) (cpu : Cpu) :
    ¬ RoundTripExact 4294967295 (LeCfg.compress ⟨short, false⟩) (leDecompress short cpu) := by
  intro h
  obtain ⟨ret, out, hc⟩ := LeCfg.compress_big ⟨short, false⟩ pairsInp 512 2000 (by omega) (by omega) (by omega)
  obtain ⟨m', h1, h2, _⟩ := h pairsInp 512 2000 ret out (by omega) (by omega) (by omega) hc [] (fun _ => 0)
    ⟨some out, out.length, some (fun _ => 0), 512, 512, 0, 0⟩ (by simp) (Nat.le_refl _) rfl (Nat.le_refl _) (Nat.le_refl _)
  obtain ⟨d, hd, hout, _, hle⟩ := LeCfg.compress_ok hc
  obtain ⟨t, ht⟩ := pairs_stream short _ (pairs_flags short) hd
  obtain ⟨y, hy1, hy2, hy3⟩ := C34_info_roundtrip ⟨short, false⟩ pairsInp 512 d
  have hall : ∀ b, y.rle b = true := by intro b; rw [hy2]; exact pairs_flags short b
  have hcount : rleCount y.rle = 0 := by
    unfold rleCount
    rw [List.filter_eq_self.mpr (fun i _ => hall (b8 i)), List.length_range]
  generalize LeCfg.info ⟨short, false⟩ pairsInp 512 = x at *
  simp only [leDecompress] at h1
  have hol : out.length ≠ 0 := by rw [hout]; simp
  rw [if_neg (by omega)] at h1
  rw [hout] at h1
  simp only [List.append_assoc, rdU32_le32] at h1
  split at h1
  · cases h1
  rw [hy1] at h1
  simp only [leDecode, if_pos hcount] at h1
  rw [← List.append_assoc, ← List.append_assoc, ← hout] at h1
  have hsl : out.length = 8 + (writeInfo x).length + d.length := by rw [hout]; simp; omega
  split at h1
  · cases h1
  · cases h1
  · next m'' hm =>
    cases h1
    split at hm
    · cases hm
      have e1 := h2 1 (by omega)
      have e3 := h2 3 (by omega)
      have hp : out.length - d.length = (le32 (8 + (writeInfo x).length + d.length) ++ le32 512 ++ writeInfo x).length := by
        rw [hsl]; simp; omega
      simp only [wr] at e1 e3
      rw [if_pos (by omega), hp, hout, getD_app_r, ht] at e1 e3
      simp only [Nat.sub_zero, List.getD_cons_succ, List.getD_cons_zero] at e1 e3
      have : pairsInp 1 = pairsInp 3 := e1.symm.trans e3
      exact absurd this (by decide)
    · cases hm

/-- C07 is false for `rle8_low_entropy_compress`. -/
theorem C07_violated (cpu : Cpu) :
    ¬ RoundTripExact 4294967295 (LeCfg.compress ⟨false, false⟩) (leDecompress false cpu) := LeCfg.pairs_violated false cpu

/-- C08 is false for `rle8_low_entropy_short_compress`. -/
theorem C08_violated (cpu : Cpu) :
    ¬ RoundTripExact 4294967295 (LeCfg.compress ⟨true, false⟩) (leDecompress true cpu) := LeCfg.pairs_violated true cpu

end Hrk
