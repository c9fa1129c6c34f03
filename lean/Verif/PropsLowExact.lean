import Verif.PropsDescribe

/-
C07, C08: exactly which inputs the plain low entropy codecs restore.
-/

namespace Hrk

/-- A value that is never followed by itself has as many pieces as occurrences. -/
theorem pieces_singles (blk : Nat) (v : Byte) : ∀ l : List Byte, (∀ p, p + 1 < l.length → ¬ (l.getD p 0 = v ∧ l.getD (p + 1) 0 = v)) →
    l.count v ≤ pieces blk v (runsOf l) ∧ (∀ b r, l = b :: r → ∃ k t, runsOf l = (b, k) :: t) := by
  intro l
  induction l with
  | nil => intro _; exact ⟨by simp, by simp⟩
  | cons b r ih =>
    intro h
    obtain ⟨ih1, ih2⟩ := ih (fun p hp => h (p + 1) (by simp only [List.length_cons]; omega))
    cases r with
    | nil =>
      refine ⟨?_, fun b' r' e => ?_⟩
      · by_cases hb : b = v
        · simp [runsOf, pieces, hb]
        · simp [runsOf, pieces, hb]
      · cases e; exact ⟨1, [], rfl⟩
    | cons c r =>
      obtain ⟨k, t, hk⟩ := ih2 c r rfl
      rw [hk] at ih1
      by_cases hbc : b = c
      · have hr : runsOf (b :: c :: r) = (c, k + 1) :: t := by rw [runsOf, hk]; simp [hbc]
        have hv : b ≠ v := fun e => h 0 (by simp) ⟨e, hbc ▸ e⟩
        have hcv : c ≠ v := hbc ▸ hv
        refine ⟨?_, fun b' r' e => ?_⟩
        · rw [hr, List.count_cons_of_ne (by simpa using hv)]
          refine Nat.le_trans ih1 (Nat.le_of_eq ?_)
          cases t <;> simp [pieces, hcv]
        · cases e; rw [hr, hbc]; exact ⟨_, _, rfl⟩
      · have hr : runsOf (b :: c :: r) = (b, 1) :: (c, k) :: t := by rw [runsOf, hk]; simp [hbc]
        refine ⟨?_, fun b' r' e => ?_⟩
        · rw [hr, pieces]
          by_cases hv : b = v
          · rw [if_pos hv, hv, List.count_cons_self]; generalize 1 / blk = q; omega
          · rw [if_neg hv, List.count_cons_of_ne (by simpa using hv)]; omega
        · cases e; rw [hr]; exact ⟨_, _, rfl⟩

/-- A value whose runs are two bytes or longer on average is somewhere followed by itself. -/
theorem twice {blk : Nat} {v : Byte} {inp : Mem} {n : Nat} (hv : v ∈ rd inp 0 n)
    (h : 2 * pieces blk v (runsOf (rd inp 0 n)) ≤ (rd inp 0 n).count v) : ∃ p, p + 1 < n ∧ inp p = v ∧ inp (p + 1) = v := by
  by_cases hx : ∃ p, p + 1 < n ∧ inp p = v ∧ inp (p + 1) = v
  · exact hx
  · exfalso
    have hc := List.count_pos_iff.mpr hv
    have := (pieces_singles blk v (rd inp 0 n) (fun p hp hq => hx ⟨p, by simpa [rd] using hp, by
      have hp : p + 1 < n := by simpa [rd] using hp
      rw [rd_getD _ _ _ _ _ (by omega), rd_getD _ _ _ _ _ (by omega)] at hq
      simpa using hq⟩)).1
    omega

/-- Every second byte is one of the first 255 of the table. -/
def OddListed (x : LeInfo) (d : List Byte) : Prop :=
  d.length % 2 = 0 ∧ ∀ j, 2 * j + 1 < d.length → ∃ i, i < 255 ∧ d.getD (2 * j + 1) 0 = x.byProb.getD i 0

/-- With all values flagged every second byte of the stream is one of the first 255 of the table. -/
theorem all_stream {blk : Nat} (hb : 2 ≤ blk) (hb2 : blk ≤ 255) {x : LeInfo} {inp : Mem} {n : Nat} (hx : ∀ b, x.rle b = true) {d : List Byte}
    (h : leEncode blk x inp n = some d) :
    OddListed x d := by
  unfold leEncode at h
  refine loop_rule_partial (fun s : Nat × List Byte => OddListed x s.2) (OddListed x) ?_ _ _ _ ?_ h
  · intro s hs
    obtain ⟨i, out⟩ := s
    have hs : OddListed x out := hs
    have h1 := And.left hs
    have h2 := And.right hs
    have key : ∀ range, range ≤ 255 → OddListed x (out ++ (leStep x inp range i).1) := by
      intro range hr
      have hm := leMatch_le inp (inp i) (range - 1) (i + 1)
      unfold leStep
      simp only [hx, if_true]
      generalize leMatch inp (inp i) (i + 1) (range - 1) = c at hm
      refine ⟨by simp only [List.length_append, List.length_cons, List.length_nil]; omega, fun j hj => ?_⟩
      simp only [List.length_append, List.length_cons, List.length_nil] at hj
      by_cases hl : 2 * j + 1 < out.length
      · obtain ⟨i', h3, h4⟩ := h2 j hl
        refine ⟨i', h3, ?_⟩
        rw [← h4, List.getD_eq_getElem?_getD, List.getElem?_append_left hl, List.getD_eq_getElem?_getD]
      · have he : 2 * j + 1 = out.length + 1 := by omega
        refine ⟨c % 256, by omega, ?_⟩
        rw [he, List.getD_eq_getElem?_getD, List.getElem?_append_right (by omega)]
        simp
    unfold leLoopStep
    dsimp only
    generalize n - 256 = T
    by_cases h3 : i < T
    · simp only [if_pos h3, Post_inl]; exact key blk hb2
    · simp only [if_neg h3]
      by_cases h4 : i < n
      · simp only [if_pos h4, Post_inl]; exact key _ (by omega)
      · simp only [if_neg h4, Post_inr]; exact ⟨h1, h2⟩
  · exact ⟨rfl, fun j hj => absurd hj (by simp)⟩

/-- With all 256 values flagged the input is never restored from its stream. -/
theorem LeCfg.all_fails (short : Bool) (cpu : Cpu) (inp : Mem) (n outSize ret : Nat) (out : List Byte) (hn : 0 < n)
    (hn2 : n < 4294967295)
    (hc : LeCfg.compress ⟨short, false⟩ (some inp) n true outSize = .ok ret out)
    (hall : ∀ v, (LeCfg.info ⟨short, false⟩ inp n).rle v = true) (m : Mem) (a : DArgs)
    (hpi : a.pIn = some out) (hpo : a.pOut = some m) :
    ¬ ∃ m', leDecompress short cpu a = .ok n m' ∧ ∀ k, k < n → m' k = inp k := by
  rintro ⟨m', h1, h2⟩
  have hb := LeCfg.blk_cases ⟨short, false⟩
  obtain ⟨d, hd, hout, _, hle⟩ := LeCfg.compress_ok hc
  obtain ⟨_, hodd⟩ := all_stream (by omega) (by omega) hall hd
  obtain ⟨hpl, hpn, _⟩ := C34_order_perm ⟨short, false⟩ inp n
  obtain ⟨y, hy1, hy2, _⟩ := C34_info_roundtrip ⟨short, false⟩ inp n d
  have hw := (C73_flags_partial short inp n hn2 _ (by simp [getInfoApi, show n ≠ 0 by omega])
    ((LeCfg.info ⟨short, false⟩ inp n).byProb.getD 255 0)).mp (hall _)
  obtain ⟨p, hp1, hp2, hp3⟩ := twice hw.1 hw.2
  have hcount : rleCount y.rle = 0 := by
    unfold rleCount
    rw [List.filter_eq_self.mpr (fun i _ => by rw [hy2]; exact hall (b8 i)), List.length_range]
  have hne : ∀ i, i < 255 → (LeCfg.info ⟨short, false⟩ inp n).byProb.getD i 0 ≠ (LeCfg.info ⟨short, false⟩ inp n).byProb.getD 255 0 := by
    generalize (LeCfg.info ⟨short, false⟩ inp n).byProb = l at hpl hpn
    intro i hi e
    rw [List.getD_eq_getElem?_getD, List.getD_eq_getElem?_getD, List.getElem?_eq_getElem (by omega), List.getElem?_eq_getElem (by omega)] at e
    exact List.pairwise_iff_getElem.mp hpn i 255 (by omega) (by omega) hi (by simpa using e)
  generalize LeCfg.info ⟨short, false⟩ inp n = x at *
  simp only [leDecompress, hpi, hpo] at h1
  split at h1
  · cases h1
  rw [hout] at h1
  simp only [List.append_assoc, rdU32_le32] at h1
  rw [Nat.mod_eq_of_lt (show n < 4294967296 by omega)] at h1
  split at h1
  · cases h1
  rw [hy1] at h1
  simp only [leDecode, if_pos hcount] at h1
  rw [← List.append_assoc, ← List.append_assoc, ← hout] at h1
  have hsl : out.length = 8 + (writeInfo x).length + d.length := by rw [hout]; simp; omega
  split at h1
  · cases h1
  · cases h1
  · next m'' hm =>
    cases h1
    split at hm
    · next hfit =>
      cases hm
      have hpos : out.length - d.length = (le32 (8 + (writeInfo x).length + d.length) ++ le32 n ++ writeInfo x).length := by
        rw [hsl]; simp; omega
      have hget : ∀ k, k < n → d.getD k 0 = inp k := by
        intro k hk
        have e := h2 k hk
        simp only [wr] at e
        rw [if_pos (by omega), hpos, hout, getD_app_r] at e
        simpa using e
      rcases Nat.mod_two_eq_zero_or_one p with hm | hm
      · obtain ⟨i, hi, e⟩ := hodd (p / 2) (by omega)
        rw [show 2 * (p / 2) + 1 = p + 1 by omega, hget _ hp1, hp3] at e
        exact hne i hi e.symm
      · obtain ⟨i, hi, e⟩ := hodd (p / 2) (by omega)
        rw [show 2 * (p / 2) + 1 = p by omega, hget _ (by omega), hp2] at e
        exact hne i hi e.symm
    · cases hm

/-- C07, C08, both codecs: see `C07_exact`. -/
theorem LeCfg.exact (short : Bool) (cpu : Cpu) (inp : Mem) (n outSize ret : Nat) (out : List Byte) (hn : 0 < n)
    (hn2 : n < 4294967295) (ho : outSize < 4294967296)
    (hc : LeCfg.compress ⟨short, false⟩ (some inp) n true outSize = .ok ret out) (m : Mem) (a : DArgs)
    (hpi : a.pIn = some out) (hin : out.length ≤ a.inSize) (hpo : a.pOut = some m) (hos : n ≤ a.outSize) (hcap : n ≤ a.cap) :
    (∃ m', leDecompress short cpu a = .ok n m' ∧ ∀ k, k < n → m' k = inp k) ↔
      ∃ v, v ∉ rd inp 0 n ∨ (rd inp 0 n).count v < 2 * pieces (LeCfg.blk ⟨short, false⟩) v (runsOf (rd inp 0 n)) := by
  have hf := C73_flags_partial short inp n hn2 (LeCfg.info ⟨short, false⟩ inp n) (by simp [getInfoApi, show n ≠ 0 by omega])
  constructor
  · intro h
    by_cases hx : ∃ v, (LeCfg.info ⟨short, false⟩ inp n).rle v = false
    · obtain ⟨v, hv⟩ := hx
      refine ⟨v, ?_⟩
      have := hf v
      by_cases hm : v ∈ rd inp 0 n
      · right
        rcases Nat.lt_or_ge ((rd inp 0 n).count v) (2 * pieces (LeCfg.blk ⟨short, false⟩) v (runsOf (rd inp 0 n))) with h | h
        · exact h
        · rw [this.mpr ⟨hm, h⟩] at hv; cases hv
      · exact .inl hm
    · refine absurd h (LeCfg.all_fails short cpu inp n outSize ret out hn hn2 hc (fun v => ?_) m a hpi hpo)
      cases hv : (LeCfg.info ⟨short, false⟩ inp n).rle v with
      | true => rfl
      | false => exact absurd ⟨v, hv⟩ hx
  · rintro ⟨v, hv⟩
    have hnot : (LeCfg.info ⟨short, false⟩ inp n).rle v = false := by
      cases he : (LeCfg.info ⟨short, false⟩ inp n).rle v with
      | false => rfl
      | true =>
        have := (hf v).mp he
        rcases hv with hv | hv
        · exact absurd this.1 hv
        · omega
    obtain ⟨m', g1, g2, _⟩ := LeCfg.roundTrip ⟨short, false⟩ cpu inp n outSize ret out hn (by omega) ho hc ⟨v, hnot⟩ [] m a
      (by simpa using hpi) hin hpo hos hcap
    exact ⟨m', g1, g2⟩

/-- C07: exactly which inputs `rle8_low_entropy_compress` and `rle8_low_entropy_decompress` restore: those in which some byte value does
not occur or has runs that are, by the pieces they are counted as, shorter than two bytes on average. -/
theorem C07_exact (cpu : Cpu) (inp : Mem) (n outSize ret : Nat) (out : List Byte) (hn : 0 < n)
    (hn2 : n < 4294967295) (ho : outSize < 4294967296)
    (hc : LeCfg.compress ⟨false, false⟩ (some inp) n true outSize = .ok ret out) (m : Mem) (a : DArgs)
    (hpi : a.pIn = some out) (hin : out.length ≤ a.inSize) (hpo : a.pOut = some m) (hos : n ≤ a.outSize) (hcap : n ≤ a.cap) :
    (∃ m', leDecompress false cpu a = .ok n m' ∧ ∀ k, k < n → m' k = inp k) ↔
      ∃ v, v ∉ rd inp 0 n ∨ (rd inp 0 n).count v < 2 * pieces 255 v (runsOf (rd inp 0 n)) :=
  LeCfg.exact false cpu inp n outSize ret out hn hn2 ho hc m a hpi hin hpo hos hcap

/-- C08, same for `rle8_low_entropy_short_compress` and `rle8_low_entropy_short_decompress`. -/
theorem C08_exact (cpu : Cpu) (inp : Mem) (n outSize ret : Nat) (out : List Byte) (hn : 0 < n)
    (hn2 : n < 4294967295) (ho : outSize < 4294967296)
    (hc : LeCfg.compress ⟨true, false⟩ (some inp) n true outSize = .ok ret out) (m : Mem) (a : DArgs)
    (hpi : a.pIn = some out) (hin : out.length ≤ a.inSize) (hpo : a.pOut = some m) (hos : n ≤ a.outSize) (hcap : n ≤ a.cap) :
    (∃ m', leDecompress true cpu a = .ok n m' ∧ ∀ k, k < n → m' k = inp k) ↔
      ∃ v, v ∉ rd inp 0 n ∨ (rd inp 0 n).count v < 2 * pieces 32 v (runsOf (rd inp 0 n)) :=
  LeCfg.exact true cpu inp n outSize ret out hn hn2 ho hc m a hpi hin hpo hos hcap

/-- The hypotheses are met: every input of up to a gigabyte can be compressed into a large enough buffer. -/
example (short : Bool) (inp : Mem) (n : Nat) (hn : 0 < n) (h : n ≤ 1073741824) :
    ∃ ret out, LeCfg.compress ⟨short, false⟩ (some inp) n true (2 * n + 300) = .ok ret out :=
  LeCfg.compress_big _ inp n _ hn (Nat.le_refl _) (by omega)

/-- `7 7 7 1` is restored: 1 occurs once, in one piece. -/
example : (rd (fun k => [7, 7, 7, 1].getD k 0) 0 4).count 1 < 2 * pieces 255 1 (runsOf (rd (fun k => [7, 7, 7, 1].getD k 0) 0 4)) := by decide

end Hrk
