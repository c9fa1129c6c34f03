import Verif.Rle8m

/-
Theorems about `rle8m`.
-/

namespace Hrk

/-- `ds` are the streams of `cnt` sections of `sz` bytes from `start` on and of a last one of `last` bytes. -/
def MSec (x : LeInfo) (inp : Mem) (sz last : Nat) : Nat → Nat → List (List Byte) → Prop
  | 0, start, ds => ∃ d, ds = [d] ∧ leEncode 255 x (fun k => inp (start + k)) last = some d
  | cnt + 1, start, ds => ∃ d ds', ds = d :: ds' ∧ leEncode 255 x (fun k => inp (start + k)) sz = some d ∧
      MSec x inp sz last cnt (start + sz) ds'

theorem mSection_ok {x : LeInfo} {inp : Mem} {start size index outSize : Nat} {d : List Byte}
    (h : mSection x inp start size index outSize = .ok d) :
    0 < size ∧ leEncode 255 x (fun k => inp (start + k)) size = some d ∧ index + d.length ≤ outSize := by
  unfold mSection at h
  split at h
  · cases h
  split at h
  · cases h
  split at h
  · cases h
  next d' hd =>
  split at h
  · next hle =>
    cases h
    exact ⟨by omega, hd, hle⟩
  · cases h

theorem mSections_ok {x : LeInfo} {inp : Mem} {sz last outSize : Nat} : ∀ cnt start index ds,
    mSections x inp sz last outSize cnt start index = .inr ds →
    MSec x inp sz last cnt start ds ∧ index + ds.flatten.length ≤ outSize := by
  intro cnt
  induction cnt with
  | zero =>
    intro start index ds h
    unfold mSections at h
    split at h
    · next d hd =>
      cases h
      obtain ⟨_, h1, h2⟩ := mSection_ok hd
      exact ⟨⟨d, rfl, h1⟩, by simpa using h2⟩
    · cases h
  | succ cnt ih =>
    intro start index ds h
    unfold mSections at h
    split at h
    · next d hd =>
      split at h
      · next ds' hds =>
        cases h
        obtain ⟨_, h1, h2⟩ := mSection_ok hd
        obtain ⟨h3, h4⟩ := ih _ _ _ hds
        refine ⟨⟨d, ds', rfl, h1, h3⟩, ?_⟩
        rw [List.flatten_cons, List.length_append]
        omega
      · cases h
    · cases h

theorem mOffsets_length (ds : List (List Byte)) : ∀ index, (mOffsets index ds).length = 4 * (ds.length - 1) := by
  induction ds with
  | nil => intro; rfl
  | cons d ds ih =>
    intro index
    cases ds with
    | nil => rfl
    | cons e ds =>
      simp only [mOffsets, List.length_append, le32_length, ih, List.length_cons]
      omega

theorem MSec.length {x : LeInfo} {inp : Mem} {sz last : Nat} : ∀ cnt start ds, MSec x inp sz last cnt start ds →
    ds.length = cnt + 1 := by
  intro cnt
  induction cnt with
  | zero => rintro start ds ⟨d, rfl, _⟩; rfl
  | succ cnt ih =>
    rintro start ds ⟨d, ds', rfl, _, h⟩
    rw [List.length_cons, ih _ _ h]

/-- What a successful compression wrote. -/
theorem mCompress_ok {k : Nat} {inp : Mem} {n outSize ret : Nat} {out : List Byte}
    (h : mCompress k (some inp) n true outSize = .ok ret out) :
    0 < k ∧ ∃ x w ds, x = LeCfg.info ⟨false, false⟩ inp n ∧ w = writeInfo x ∧
      MSec x inp (n / k) (n - n / k * (k - 1)) (k - 1) 0 ds ∧
      12 + 4 * (k - 1) + w.length + ds.flatten.length ≤ outSize ∧
      ret = (12 + 4 * (k - 1) + w.length + ds.flatten.length) % 4294967296 ∧
      out = le32 (12 + 4 * (k - 1) + w.length + ds.flatten.length) ++ le32 n ++ le32 k ++
        mOffsets (12 + 4 * (k - 1) + w.length) ds ++ w ++ ds.flatten := by
  simp only [mCompress] at h
  split at h
  · cases h
  next hg =>
  split at h
  · cases h
  split at h
  · cases h
  split at h
  · cases h
  split at h
  · cases h
  · cases h
  · cases h
  · next ds hds =>
    cases h
    obtain ⟨h1, h2⟩ := mSections_ok _ _ _ _ hds
    exact ⟨by omega, _, _, ds, rfl, rfl, h1, h2, rfl, rfl⟩

theorem rd_drop {src d r : List Byte} {pos : Nat} (h : src.drop pos = d ++ r) :
    rd (fun k => src.getD k 0) pos d.length = d := by
  apply List.ext_getElem?
  intro j
  rw [rd_getElem?]
  by_cases hj : j < d.length
  · rw [if_pos hj]
    have h1 : src[pos + j]? = (d ++ r)[j]? := by rw [← h, List.getElem?_drop]
    rw [List.getElem?_append, if_pos hj, List.getElem?_eq_getElem hj] at h1
    simp only [List.getD_eq_getElem?_getD, h1, Option.getD_some]
    rw [List.getElem?_eq_getElem hj]
  · rw [if_neg hj, List.getElem?_eq_none (by omega)]

theorem drop_more {src d r : List Byte} {pos : Nat} (h : src.drop pos = d ++ r) : src.drop (pos + d.length) = r := by
  rw [← List.drop_drop, h]
  simp

theorem drop_length_le {src d r : List Byte} {pos : Nat} (h : src.drop pos = d ++ r) (hd : 0 < d.length) :
    pos + d.length ≤ src.length := by
  have := congrArg List.length h
  simp only [List.length_drop, List.length_append] at this
  omega

theorem drop_length_le' {src d r : List Byte} {pos : Nat} (h : src.drop pos = d ++ r) (hp : pos ≤ src.length) :
    pos + d.length ≤ src.length := by
  have := congrArg List.length h
  simp only [List.length_drop, List.length_append] at this
  omega

/-- The sections `ds` stand for the bytes of `inp` from `start` on: `cnt` of them for `sz` bytes each, the last one
for `last` bytes. -/
def MRef (y : LeDInfo) (mx : Nat) (inp : Mem) (sz last : Nat) : Nat → Nat → List (List Byte) → Prop
  | 0, start, ds => ∃ d, ds = [d] ∧ leRef y.rle y.toCount mx d = some (rd inp start last)
  | cnt + 1, start, ds => ∃ d ds', ds = d :: ds' ∧ leRef y.rle y.toCount mx d = some (rd inp start sz) ∧
      MRef y mx inp sz last cnt (start + sz) ds'

theorem rd_shift (inp : Mem) (start n : Nat) : rd (fun k => inp (start + k)) 0 n = rd inp start n := by
  unfold rd
  simp

theorem MSec.ref {x : LeInfo} {y : LeDInfo} {inp : Mem} {sz last : Nat}
    (hr : y.rle = x.rle) (hinv : ∀ k, k < 256 → y.toCount (x.byProb.getD k 0) = k) :
    ∀ cnt start ds, MSec x inp sz last cnt start ds → MRef y 254 inp sz last cnt start ds := by
  have key : ∀ start size d, leEncode 255 x (fun k => inp (start + k)) size = some d →
      leRef y.rle y.toCount 254 d = some (rd inp start size) := by
    intro start size d he
    obtain ⟨d', h1, h2⟩ := leEncode_spec (cnt := y.toCount) (mx := 254) (x := x) (inp := fun k => inp (start + k)) (n := size)
      (blk := 255) (by omega) (by omega) (by omega) hinv
    rw [he] at h1
    cases h1
    rw [← hr, rd_shift] at h2
    exact h2
  intro cnt
  induction cnt with
  | zero => rintro start ds ⟨d, rfl, h⟩; exact ⟨d, rfl, key _ _ _ h⟩
  | succ cnt ih => rintro start ds ⟨d, ds', rfl, h, h'⟩; exact ⟨d, ds', rfl, key _ _ _ h, ih _ _ h'⟩

theorem MRef.length {y : LeDInfo} {mx : Nat} {inp : Mem} {sz last : Nat} : ∀ cnt start ds, MRef y mx inp sz last cnt start ds →
    ds.length = cnt + 1 := by
  intro cnt
  induction cnt with
  | zero => rintro start ds ⟨d, rfl, _⟩; rfl
  | succ cnt ih =>
    rintro start ds ⟨d, ds', rfl, _, h⟩
    rw [List.length_cons, ih _ _ h]

/-- Decoding the sections. -/
theorem mDecSections_spec {cpu : Cpu} {y : LeDInfo} {mx : Nat} {inp : Mem} {src : List Byte} {inSize aOut cap sz last : Nat}
    (hmx : mx ≤ 255) (h256 : ∃ b, y.rle b = false) (hsrc : inSize < 4294967296) :
    ∀ cnt i start pos o m ds tail rest, MRef y mx inp sz last cnt start ds → src.drop pos = ds.flatten ++ tail →
      pos ≤ src.length → inSize = pos + ds.flatten.length → src.drop (12 + 4 * i) = mOffsets pos ds ++ rest →
      o + cnt * sz + last ≤ cap →
      ∃ m', mDecSections cpu y src inSize aOut cap sz last cnt i pos o m = some (some m') ∧
        (∀ k, k < cnt * sz + last → m' (o + k) = inp (start + k)) ∧
        ∀ k, (k < o ∨ o + (cnt * sz + last) ≤ k) → m' k = m k := by
  intro cnt
  induction cnt with
  | zero =>
    intro i start pos o m ds tail rest hs hd hp hi ho hc
    obtain ⟨d, rfl, h2⟩ := hs
    simp only [List.flatten_cons, List.flatten_nil, List.append_nil] at hd hi
    have hl := drop_length_le' hd hp
    obtain ⟨m', g1, g2, g3⟩ := leDecode_spec (short := false) (cpu := cpu) (aOut := aOut) (cap := cap) (o := o) (m := m) (len := src.length)
      (rd_drop hd) hi (by omega) (by rw [rd_length]; omega) h2 hmx (by intro h; cases h) h256
    rw [rd_length] at g1 g2 g3
    refine ⟨m', g1, ?_, ?_⟩
    · intro k hk
      rw [g2 k (by omega), rd_getD _ _ _ _ _ (by omega)]
    · intro k hk
      exact g3 k (by omega)
  | succ cnt ih =>
    intro i start pos o m ds tail rest hs hd hp hi ho hc
    obtain ⟨d, ds', rfl, h2, hs'⟩ := hs
    have hlen := hs'.length
    obtain ⟨e, ds'', rfl⟩ : ∃ e ds'', ds' = e :: ds'' := by
      cases ds' with
      | nil => cases hlen
      | cons e ds'' => exact ⟨e, ds'', rfl⟩
    rw [List.flatten_cons, List.append_assoc] at hd
    rw [List.flatten_cons, List.length_append] at hi
    have hl := drop_length_le' hd hp
    have hl2 := drop_length_le' (drop_more hd) hl
    have hmul : (cnt + 1) * sz = cnt * sz + sz := Nat.succ_mul _ _
    have ho1 : src.drop (12 + 4 * i) = le32 (pos + d.length) ++ (mOffsets (pos + d.length) (e :: ds'') ++ rest) := by
      rw [ho, mOffsets, List.append_assoc]
      intro hh; cases hh
    have hu : u32At src (12 + 4 * i) = some (pos + d.length) := by
      unfold u32At
      rw [ho1, rdU32_le32, Option.map_some, Nat.mod_eq_of_lt (by omega)]
    obtain ⟨m1, g1, g2, g3⟩ := leDecode_spec (short := false) (cpu := cpu) (aOut := aOut) (cap := cap) (o := o) (m := m) (len := src.length)
      (rd_drop hd) rfl (by omega) (by rw [rd_length]; omega) h2 hmx (by intro h; cases h) h256
    rw [rd_length] at g1 g2 g3
    obtain ⟨m2, f1, f2, f3⟩ := ih (i + 1) (start + sz) (pos + d.length) (o + sz) m1 (e :: ds'') tail rest hs' (drop_more hd) hl
      (by omega) (by have := drop_more ho1; rw [le32_length] at this; rw [← this]; congr 1) (by omega)
    refine ⟨m2, ?_, ?_, ?_⟩
    · rw [mDecSections, hu]
      simp only [g1, f1]
    · intro k hk
      by_cases hk2 : k < sz
      · rw [f3 _ (by omega), g2 k hk2, rd_getD _ _ _ _ _ hk2]
      · have := f2 (k - sz) (by omega)
        rw [show o + sz + (k - sz) = o + k by omega, show start + sz + (k - sz) = start + k by omega] at this
        exact this
    · intro k hk
      rw [f3 k (by omega), g3 k (by omega)]

/-- The bytes `src` start with (sizes, number `k` of sections, end offsets, information block for `y`, sections) stand for the
first `n` bytes of `inp`; `len` is the length of the stream. -/
def MStandsBy (y : LeDInfo) (k : Nat) (src : List Byte) (len : Nat) (inp : Mem) (n : Nat) : Prop :=
  ∃ w ds tail, 0 < k ∧ k < 4294967296 ∧ 0 < n ∧ n < 4294967296 ∧ len < 4294967296 ∧
    len = 12 + 4 * (k - 1) + w.length + ds.flatten.length ∧
    src = le32 len ++ le32 n ++ le32 k ++ mOffsets (12 + 4 * (k - 1) + w.length) ds ++ w ++ ds.flatten ++ tail ∧
    readInfo (w ++ (ds.flatten ++ tail)) = some (y, ds.flatten ++ tail) ∧
    MRef y 255 inp (n / k) (n - n / k * (k - 1)) (k - 1) 0 ds

/-- The same, where not all 256 byte values are run symbols. -/
def MStands (src : List Byte) (len : Nat) (inp : Mem) (n : Nat) : Prop :=
  ∃ y k, MStandsBy y k src len inp n ∧ ∃ b, y.rle b = false

theorem leRef_mono {rle : Byte → Bool} {cnt : Byte → Nat} {mx mx' : Nat} (h : mx ≤ mx') : ∀ (l t : List Byte),
    leRef rle cnt mx l = some t → leRef rle cnt mx' l = some t := by
  intro l
  induction l using leRef.induct (rle := rle) (cnt := cnt) (mx := mx) with
  | case1 => intro t ht; simpa [leRef] using ht
  | case2 b hb => intro t ht; simp [leRef, hb] at ht
  | case3 b hb => intro t ht; simp [leRef, hb] at ht ⊢; exact ht
  | case4 b c r hb hc ih =>
    intro t ht
    have hc' : cnt c ≤ mx' := by omega
    simp only [leRef, hb, hc, hc', if_true, Option.map_eq_some_iff] at ht ⊢
    obtain ⟨u, hu, rfl⟩ := ht
    exact ⟨u, ih u hu, rfl⟩
  | case5 b c r hb hc => intro t ht; simp [leRef, hb, hc] at ht
  | case6 b c r hb ih =>
    intro t ht
    simp only [leRef, hb, if_false, Bool.false_eq_true, Option.map_eq_some_iff] at ht ⊢
    obtain ⟨u, hu, rfl⟩ := ht
    exact ⟨u, ih u hu, rfl⟩

theorem MRef.mono {y : LeDInfo} {mx mx' : Nat} {inp : Mem} {sz last : Nat} (h : mx ≤ mx') : ∀ cnt start ds,
    MRef y mx inp sz last cnt start ds → MRef y mx' inp sz last cnt start ds := by
  intro cnt
  induction cnt with
  | zero => rintro start ds ⟨d, rfl, h1⟩; exact ⟨d, rfl, leRef_mono h _ _ h1⟩
  | succ cnt ih => rintro start ds ⟨d, ds', rfl, h1, h2⟩; exact ⟨d, ds', rfl, leRef_mono h _ _ h1, ih _ _ h2⟩

/-- What `rle8m_compress` writes stands for its input. -/
theorem mCompress_standsBy {k : Nat} {inp : Mem} {n outSize ret : Nat} {out : List Byte} (hk : k < 4294967296) (hn : 0 < n)
    (hn2 : n < 4294967296) (ho : outSize < 4294967296) (hc : mCompress k (some inp) n true outSize = .ok ret out)
    (tail : List Byte) :
    ∃ y : LeDInfo, y.rle = (LeCfg.info ⟨false, false⟩ inp n).rle ∧ MStandsBy y k (out ++ tail) out.length inp n := by
  obtain ⟨hk0, x, w, ds, hx, hw, hs, hle, hret, hout⟩ := mCompress_ok hc
  obtain ⟨y, hy1, hy2, hy3⟩ := C34_info_roundtrip ⟨false, false⟩ inp n (ds.flatten ++ tail)
  rw [← hx, ← hw] at hy1
  rw [← hx] at hy2 hy3
  have hlen := hs.length
  have hl : out.length = 12 + 4 * (k - 1) + w.length + ds.flatten.length := by
    rw [hout]
    simp only [List.length_append, le32_length, mOffsets_length, hlen]
    omega
  refine ⟨y, by rw [hy2, hx], w, ds, tail, hk0, hk, hn, hn2, by omega, hl, ?_, hy1, ?_⟩
  · rw [hl, hout]
  · exact MRef.mono (by omega) _ _ _ (hs.ref hy2 hy3)

theorem mCompress_stands {k : Nat} {inp : Mem} {n outSize ret : Nat} {out : List Byte} (hk : k < 4294967296) (hn : 0 < n)
    (hn2 : n < 4294967296) (ho : outSize < 4294967296) (hc : mCompress k (some inp) n true outSize = .ok ret out)
    (h256 : LeCfg.notAll ⟨false, false⟩ inp n) (tail : List Byte) : MStands (out ++ tail) out.length inp n := by
  obtain ⟨y, hy, h⟩ := mCompress_standsBy hk hn hn2 ho hc tail
  obtain ⟨b, hb⟩ := h256
  exact ⟨y, k, h, b, by rw [hy]; exact hb⟩

/-- C27 for `rle8m_decompress`: whatever the CPU and the addresses are, it writes what the stream stands for and nothing else. `inSize`
has to be the length of the stream (`C26_rle8m_violated`). -/
theorem C27_rle8m_portable (cpu : Cpu) (src : List Byte) (len : Nat) (inp : Mem) (n : Nat) (h : MStands src len inp n) (m : Mem)
    (a : DArgs) (hpi : a.pIn = some src) (hin : a.inSize = len) (hpo : a.pOut = some m) (hos : n ≤ a.outSize)
    (hcap : n ≤ a.cap) :
    ∃ m', mDecompress cpu a = .ok n m' ∧ (∀ k, k < n → m' k = inp k) ∧ ∀ k, n ≤ k → m' k = m k := by
  obtain ⟨y, k, ⟨w, ds, tail, hk0, hk, hn, hn2, hl2, hlen, hsrc, hy, href⟩, h256⟩ := h
  obtain ⟨P, hP⟩ : ∃ P, P = 12 + 4 * (k - 1) + w.length := ⟨_, rfl⟩
  rw [← hP] at hlen hsrc
  have hdl := href.length
  have hol := mOffsets_length ds P
  rw [hdl] at hol
  simp only [mDecompress, hpi, hpo]
  rw [if_neg (by omega)]
  have e1 : rdU32 src = some (len, le32 n ++ (le32 k ++ (mOffsets P ds ++ (w ++ (ds.flatten ++ tail))))) := by
    rw [hsrc]
    simp only [List.append_assoc, rdU32_le32]
    rw [Nat.mod_eq_of_lt hl2]
  rw [e1]
  simp only [rdU32_le32]
  rw [Nat.mod_eq_of_lt hn2, if_neg (by omega), Nat.mod_eq_of_lt hk, if_neg (by omega),
    if_neg (by simp only [List.length_append, hol]; omega)]
  have e2 : (mOffsets P ds ++ (w ++ (ds.flatten ++ tail))).drop (4 * (k - 1)) =
      w ++ (ds.flatten ++ tail) := by
    rw [show 4 * (k - 1) = (mOffsets P ds).length by omega]
    simp
  rw [e2, hy]
  have hsl : src.length = len + tail.length := by
    rw [hsrc]
    simp only [List.length_append, le32_length, hol]
    omega
  have hpos : src.length - (ds.flatten ++ tail).length = P := by
    rw [hsl, List.length_append]
    omega
  have hdiv : n / k * (k - 1) ≤ n := Nat.le_trans (Nat.mul_le_mul_left _ (by omega)) (Nat.div_mul_le_self n k)
  have hcomm : (k - 1) * (n / k) = n / k * (k - 1) := Nat.mul_comm _ _
  have hA : ∀ (A B : List Byte) p, p = A.length → (A ++ B).drop p = B := by
    intro A B p hp
    rw [hp]
    simp
  obtain ⟨m', h1, h2, h3⟩ := mDecSections_spec (cpu := cpu) (y := y) (inp := inp) (src := src) (inSize := a.inSize) (aOut := a.aOut)
    (cap := a.cap) (Nat.le_refl 255) h256 (by omega) (k - 1) 0 0 P 0 m ds tail
    (w ++ (ds.flatten ++ tail)) href
    (by
      rw [hsrc, List.append_assoc]
      apply hA
      simp only [List.length_append, le32_length, hol]
      omega)
    (by omega) (by omega)
    (by
      rw [hsrc]
      have := hA (le32 len ++ le32 n ++ le32 k) (mOffsets P ds ++ (w ++ (ds.flatten ++ tail))) 12 rfl
      simpa only [List.append_assoc] using this)
    (by omega)
  simp only [hpos, h1]
  refine ⟨m', rfl, ?_, ?_⟩
  · intro j hj
    have := h2 j (by omega)
    simpa only [Nat.zero_add] using this
  · intro j hj
    exact h3 j (by omega)

/-! ### C09 -/

/-- C09: for every number `k` of sub-sections for which compression succeeds, decompression reproduces the input, on every CPU, for every
pair of addresses, and writes nothing else. Missing: inputs with 256 run symbols, for which it is false (`C09_violated`). -/
theorem C09_roundtrip_partial (cpu : Cpu) (k : Nat) (hk : k < 4294967296) (inp : Mem) (n outSize ret : Nat) (out : List Byte)
    (hn : 0 < n) (hn2 : n < 4294967296) (ho : outSize < 4294967296)
    (hc : mCompress k (some inp) n true outSize = .ok ret out)
    (h256 : (∃ v, ∀ j, j < n → inp j ≠ v) ∨ ∃ v, (LeCfg.info ⟨false, false⟩ inp n).rle v = false)
    (tail : List Byte) (m : Mem) (a : DArgs) (hpi : a.pIn = some (out ++ tail)) (hin : a.inSize = out.length)
    (hpo : a.pOut = some m) (hos : n ≤ a.outSize) (hcap : n ≤ a.cap) :
    ∃ m', mDecompress cpu a = .ok n m' ∧ (∀ j, j < n → m' j = inp j) ∧ ∀ j, n ≤ j → m' j = m j := by
  have h : LeCfg.notAll ⟨false, false⟩ inp n := by
    rcases h256 with ⟨v, hv⟩ | h
    · refine ⟨v, ?_⟩
      show flagAll (tally (LeCfg.blk ⟨false, false⟩) inp n) v.toNat = false
      unfold flagAll
      rw [tally_absent hn hv]
      rfl
    · exact h
  exact C27_rle8m_portable cpu _ _ inp n (mCompress_stands hk hn hn2 ho hc h tail) m a hpi hin hpo hos hcap

end Hrk
