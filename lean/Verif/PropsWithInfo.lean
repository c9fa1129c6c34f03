import Verif.WithInfo
import Verif.PropsLowEntropy

/-! # C68: a symbol table made from one input, used for another

A program that packs many small blocks makes the table once, stores it once, and packs every block with it. -/

namespace Hrk

theorem getInfoApi_eq {c : LeCfg} {A : Mem} {nA : Nat} {x : LeInfo} (h : getInfoApi c (some A) nA true = some x) :
    x = c.info A nA := by
  unfold getInfoApi at h
  dsimp only at h
  by_cases h0 : nA = 0
  · rw [if_pos (Or.inl h0)] at h; simp at h
  · rw [if_neg (by simp [h0])] at h; cases h; rfl

theorem writeInfo_info_length (c : LeCfg) (A : Mem) (nA : Nat) :
    34 ≤ (writeInfo (c.info A nA)).length ∧ (writeInfo (c.info A nA)).length ≤ 288 := by
  rw [c.info_eq, writeInfo_length]
  have h := written_lt (tally c.blk A nA).pcount (if c.onlyMax then flagMax (tally c.blk A nA) else flagAll (tally c.blk A nA))
  refine ⟨?_, by omega⟩
  have : 0 < (infoOf (tally c.blk A nA).pcount
      (if c.onlyMax then flagMax (tally c.blk A nA) else flagAll (tally c.blk A nA))).written := by
    unfold LeInfo.written
    by_cases h0 : (infoOf (tally c.blk A nA).pcount
      (if c.onlyMax then flagMax (tally c.blk A nA) else flagAll (tally c.blk A nA))).symbolCount = 0
    · rw [if_pos h0]; decide
    · rw [if_neg h0]; exact Nat.pos_of_ne_zero h0
  omega

theorem compressWithApi_ok {short : Bool} {B : Mem} {nB outSize ret : Nat} {x : LeInfo} {d : List Byte}
    (h : compressWithApi short (some B) nB (some x) true outSize = .ok ret d) :
    leEncode (if short then 32 else 255) x B nB = some d ∧ d.length ≤ outSize ∧ ret = d.length % 4294967296 := by
  unfold compressWithApi at h
  dsimp only at h
  split at h
  · cases h
  · cases he : leEncode (if short then 32 else 255) x B nB with
    | none => rw [he] at h; cases h
    | some d' =>
      rw [he] at h
      dsimp only at h
      split at h
      · cases h; exact ⟨rfl, by assumption, rfl⟩
      · cases h

/-- A block in the middle of a buffer. -/
theorem rd_middle (pre d tail : List Byte) : rd (fun k => (pre ++ d ++ tail).getD k 0) pre.length d.length = d := by
  apply List.ext_getElem?
  intro j
  rw [rd_getElem?]
  split
  · next hj =>
    rw [List.append_assoc, getD_app_r, getD_app_l hj, List.getElem?_eq_getElem hj, List.getD_eq_getElem?_getD,
      List.getElem?_eq_getElem hj]
    rfl
  · next hj => simp; omega

/-! ### The table survives being written and read -/

/-- C68, the table: 289 bytes of room are enough for every table, it takes between 34 and 288 bytes, and reading it back
uses up exactly these bytes, whatever follows them and whatever (other than 0) is passed as their number. -/
theorem C68_table (tbl : LeCfg) (A : Mem) (nA : Nat) (x : LeInfo) (hx : getInfoApi tbl (some A) nA true = some x)
    (room : Nat) (hr : 289 ≤ room) :
    ∃ w, writeInfoApi (some x) true room = .ok w.length w ∧ 34 ≤ w.length ∧ w.length ≤ 288 ∧
      ∀ tail inSize, 0 < inSize → ∃ y, readInfoApi (some (w ++ tail)) inSize true = .ok w.length y ∧ y.rle = x.rle := by
  have hx := getInfoApi_eq hx
  subst hx
  obtain ⟨h1, h2⟩ := writeInfo_info_length tbl A nA
  refine ⟨writeInfo (tbl.info A nA), ?_, h1, h2, ?_⟩
  · unfold writeInfoApi
    dsimp only
    rw [if_neg (by simp; omega), if_pos (by omega)]
  · intro tail inSize hi
    obtain ⟨y, hy1, hy2, _⟩ := C34_info_roundtrip tbl A nA tail
    refine ⟨y, ?_, hy2⟩
    unfold readInfoApi
    dsimp only
    rw [if_neg (by simp; omega), hy1]
    dsimp only
    rw [List.length_append, Nat.add_sub_cancel]

/-! ### Blocks -/

/-- C68: the table `x` is made from `A` by any of the four functions that make one, and leaves at least one byte value
unflagged. It is written and read back as `y`. Then every block `B`, whatever it has to do with `A`, that was packed with
`x` is restored with `y`, wherever in the source and in the output it stands, on every CPU, and nothing around it in the
output changes. Blocks of the short codec may also be restored by the ordinary one. Missing: tables that flag all 256
values (`C68_violated`). -/
theorem C68_roundtrip_partial (tbl : LeCfg) (A : Mem) (nA : Nat) (x : LeInfo)
    (hx : getInfoApi tbl (some A) nA true = some x) (hnot : ∃ b, x.rle b = false)
    (room wret : Nat) (w : List Byte) (hw : writeInfoApi (some x) true room = .ok wret w)
    (after : List Byte) (inSize : Nat) (hin : 0 < inSize) :
    ∃ y, readInfoApi (some (w ++ after)) inSize true = .ok wret y ∧
      ∀ (short short' : Bool), (short' = true → short = true) →
      ∀ (B : Mem) (nB outSize ret : Nat) (d : List Byte), nB < 2147483648 →
        compressWithApi short (some B) nB (some x) true outSize = .ok ret d →
        ret = d.length ∧
        ∀ (cpu : Cpu) (pre tail : List Byte) (aOut cap o : Nat) (m : Mem), o + nB ≤ cap →
          ∃ m', decompressWithApi short' cpu y (pre ++ d ++ tail) pre.length (pre.length + ret) aOut cap o nB m = .ok nB m' ∧
            (∀ k, k < nB → m' (o + k) = B k) ∧ ∀ k, (k < o ∨ o + nB ≤ k) → m' k = m k := by
  have hx := getInfoApi_eq hx
  subst hx
  have hw' : w = writeInfo (tbl.info A nA) ∧ wret = w.length := by
    unfold writeInfoApi at hw
    dsimp only at hw
    split at hw
    · cases hw
    · split at hw
      · cases hw; exact ⟨rfl, rfl⟩
      · cases hw
  obtain ⟨rfl, rfl⟩ := hw'
  obtain ⟨y, hy1, hy2, hy3⟩ := C34_info_roundtrip tbl A nA after
  generalize tbl.info A nA = x at *
  refine ⟨y, ?_, ?_⟩
  · unfold readInfoApi
    dsimp only
    rw [if_neg (by simp; omega), hy1]
    dsimp only
    rw [List.length_append, Nat.add_sub_cancel]
  · intro short short' hss B nB outSize ret d hn hc
    obtain ⟨hd, hl, hret⟩ := compressWithApi_ok hc
    have hb : 0 < (if short then 32 else 255) ∧ (if short then 32 else 255) ≤ 255 := by cases short <;> decide
    have h2 := leEncode_length hb.1 hb.2 hd
    rw [Nat.mod_eq_of_lt (by omega)] at hret
    refine ⟨hret, ?_⟩
    intro cpu pre tail aOut cap o m hcap
    obtain ⟨d', hd1, hd2⟩ := leEncode_spec (cnt := y.toCount) (mx := (if short then 32 else 255) - 1) (x := x) (inp := B)
      (n := nB) (blk := if short then 32 else 255) hb.1 hb.2 (by omega) hy3
    rw [hd] at hd1
    cases hd1
    rw [← hy2] at hd2 hnot
    obtain ⟨m', h1, h2, h3⟩ := leDecode_spec (short := short') (cpu := cpu) (x := y)
      (src := fun k => (pre ++ d ++ tail).getD k 0) (len := (pre ++ d ++ tail).length)
      (pos := pre.length) (pEnd := pre.length + ret) (aOut := aOut) (cap := cap) (o := o) (m := m) (d := d) (t := rd B 0 nB)
      (mx := (if short then 32 else 255) - 1) (rd_middle pre d tail) (by rw [hret])
      (by rw [hret]; simp only [List.length_append]; omega) (by rw [rd_length]; exact hcap) hd2 (by omega)
      (by intro hs; rw [hss hs]; decide) hnot
    rw [rd_length] at h1 h2 h3
    refine ⟨m', by unfold decompressWithApi; rw [h1], ?_, h3⟩
    intro k hk
    have := h2 k hk
    rw [rd_getD _ _ _ _ _ hk, Nat.zero_add] at this
    exact this

/-- C68: the tables of the two functions that flag at most one symbol always leave one unflagged. -/
theorem C68_only_max (short : Bool) (A : Mem) (nA : Nat) (x : LeInfo)
    (hx : getInfoApi ⟨short, true⟩ (some A) nA true = some x) : ∃ b, x.rle b = false := by
  have hx := getInfoApi_eq hx
  subst hx
  show ∃ b : Byte, flagMax (tally (LeCfg.blk ⟨short, true⟩) A nA) b.toNat = false
  generalize tally (LeCfg.blk ⟨short, true⟩) A nA = t
  by_cases h : flagMax t 0 = true
  · refine ⟨1, ?_⟩
    cases h1 : flagMax t (1 : Byte).toNat with
    | false => rfl
    | true => exact absurd (flagMax_one t h h1) (by decide)
  · exact ⟨0, by simpa using h⟩

/-- C68: so do the tables of the others, if some byte value does not occur in `A`. -/
theorem C68_absent (tbl : LeCfg) (A : Mem) (nA : Nat) (x : LeInfo) (hx : getInfoApi tbl (some A) nA true = some x)
    (v : Byte) (hv : ∀ k, k < nA → A k ≠ v) : ∃ b, x.rle b = false := by
  have hn : 0 < nA := by
    rcases Nat.eq_zero_or_pos nA with h0 | h0
    · subst h0; simp [getInfoApi] at hx
    · exact h0
  obtain ⟨short, om⟩ := tbl
  cases om with
  | true => exact C68_only_max short A nA x hx
  | false =>
    have hx := getInfoApi_eq hx
    subst hx
    refine ⟨v, ?_⟩
    show flagAll (tally (LeCfg.blk ⟨short, false⟩) A nA) v.toNat = false
    unfold flagAll
    rw [tally_absent hn hv]
    rfl

/-- C68: with two bytes of room for every byte of the block, packing succeeds with every table. -/
theorem C68_room (tbl : LeCfg) (A : Mem) (nA : Nat) (x : LeInfo) (hx : getInfoApi tbl (some A) nA true = some x)
    (short : Bool) (B : Mem) (nB outSize : Nat) (hn : 0 < nB) (ho : 2 * nB ≤ outSize) :
    ∃ ret d, compressWithApi short (some B) nB (some x) true outSize = .ok ret d ∧ d.length ≤ 2 * nB := by
  have hx := getInfoApi_eq hx
  subst hx
  obtain ⟨y, _, _, hy3⟩ := C34_info_roundtrip tbl A nA []
  have hb : 0 < (if short then 32 else 255) ∧ (if short then 32 else 255) ≤ 255 := by cases short <;> decide
  obtain ⟨d, hd, _⟩ := leEncode_spec (cnt := y.toCount) (mx := (if short then 32 else 255) - 1) (x := tbl.info A nA) (inp := B)
    (n := nB) (blk := if short then 32 else 255) hb.1 hb.2 (by omega) hy3
  have hl := leEncode_length hb.1 hb.2 hd
  refine ⟨d.length % 4294967296, d, ?_, hl⟩
  unfold compressWithApi
  dsimp only
  rw [if_neg (by simp; omega), hd]
  dsimp only
  rw [if_pos (by omega)]

/-! ### What goes wrong -/

/-- C68, the room: the function asks for as many bytes as the block has, and accepts such a buffer. With every table that
flags a symbol `b`, the block of the single byte `b` then overruns it. -/
theorem C68_room_violated (short : Bool) (x : LeInfo) (b : Byte) (hb : x.rle b = true) :
    compressWithApi short (some fun _ => b) 1 (some x) true 1 = .ub := by
  have h : ∀ blk, leEncode blk x (fun _ => b) 1 = some [b, x.byProb.getD 0 0] := by
    intro blk
    unfold leEncode
    simp [loop, leLoopStep, leStep, leMatch, hb]
  unfold compressWithApi
  dsimp only
  rw [if_neg (by simp), h]
  rfl

/-- Such tables exist: `C68_room_violated` with the table of five equal bytes. -/
theorem C68_room_violated_reached (tbl : LeCfg) (short : Bool) :
    ∃ x, getInfoApi tbl (some fun _ => 7) 5 true = some x ∧
      compressWithApi short (some fun _ => 7) 1 (some x) true 1 = .ub := by
  refine ⟨tbl.info (fun _ => 7) 5, rfl, C68_room_violated short _ 7 ?_⟩
  obtain ⟨s, o⟩ := tbl
  revert s o
  decide +kernel

/-- C68, the reading: `inSize` is not respected. A source of one byte, announced as such, is read behind its end. -/
theorem C68_read_violated : readInfoApi (some [0]) 1 true = .ub := rfl

/-- C68: a source of 288 bytes is never left. -/
theorem C68_read_room (src : List Byte) (inSize : Nat) (pInfo : Bool) (h : 288 ≤ src.length) :
    readInfoApi (some src) inSize pInfo ≠ .ub := by
  unfold readInfoApi
  dsimp only
  by_cases h0 : pInfo = false ∨ inSize = 0
  · rw [if_pos h0]; intro h; cases h
  · rw [if_neg h0]
    have : ∃ r, readInfo src = some r := by
      unfold readInfo
      have e1 : takeN 32 src = some (src.take 32, src.drop 32) := if_pos (by omega)
      rw [e1]
      dsimp only
      cases hr : src.drop 32 with
      | nil =>
        have := congrArg List.length hr
        simp only [List.length_drop, List.length_nil] at this
        omega
      | cons c r =>
        have hl := congrArg List.length hr
        simp only [List.length_drop, List.length_cons] at hl
        have hc : c.toNat < 256 := c.toNat_lt
        have e2 : takeN (if c.toNat = 0 then 255 else c.toNat) r =
            some (r.take (if c.toNat = 0 then 255 else c.toNat), r.drop (if c.toNat = 0 then 255 else c.toNat)) := by
          refine if_pos ?_
          by_cases h0 : c.toNat = 0
          · rw [if_pos h0]; omega
          · rw [if_neg h0]; omega
        simp only [rdU8, e2]
        exact ⟨_, rfl⟩
    obtain ⟨r, hr⟩ := this
    rw [hr]
    intro h
    cases h

/-- What is packed first, with a table that flags everything: two equal bytes. -/
theorem allFlags_three {x : LeInfo} (hx : ∀ b, x.rle b = true) (short : Bool) (b : Byte) :
    leEncode (if short then 32 else 255) x (fun _ => b) 3 = some [b, x.byProb.getD 1 0, b, x.byProb.getD 0 0] := by
  unfold leEncode
  cases short <;> simp [loop, leLoopStep, leStep, leMatch, hx]

/-- C68 is false of tables that flag all 256 values, and these exist: with the table of `0 0 1 1 2 2 ... 255 255` there is
a block of three bytes that is packed (into four bytes) and not restored, on any CPU. -/
theorem C68_violated (short : Bool) (cpu : Cpu) :
    ∃ x w y, getInfoApi ⟨false, false⟩ (some pairsInp) 512 true = some x ∧
      writeInfoApi (some x) true 289 = .ok w.length w ∧ readInfoApi (some w) w.length true = .ok w.length y ∧
      ∃ B d, compressWithApi short (some B) 3 (some x) true 6 = .ok 4 d ∧
        ∀ aOut m m', decompressWithApi short cpu y d 0 4 aOut 3 0 3 m = .ok 3 m' → ∃ k, k < 3 ∧ m' k ≠ B k := by
  have hx : getInfoApi ⟨false, false⟩ (some pairsInp) 512 true = some (LeCfg.info ⟨false, false⟩ pairsInp 512) := rfl
  obtain ⟨w, hw, hw34, _, _⟩ := C68_table _ _ _ _ hx 289 (Nat.le_refl _)
  have hw' : w = writeInfo (LeCfg.info ⟨false, false⟩ pairsInp 512) := by
    unfold writeInfoApi at hw
    dsimp only at hw
    split at hw
    · cases hw
    · split at hw
      · injection hw with _ h; exact h.symm
      · cases hw
  obtain ⟨y, hy1, hy2, _⟩ := C34_info_roundtrip ⟨false, false⟩ pairsInp 512 []
  rw [List.append_nil, ← hw'] at hy1
  have hflags : ∀ b, (LeCfg.info ⟨false, false⟩ pairsInp 512).rle b = true := pairs_flags false
  have hcount : rleCount y.rle = 0 := by
    unfold rleCount
    rw [List.filter_eq_self.mpr (fun i _ => by rw [hy2]; exact hflags (b8 i)), List.length_range]
  generalize LeCfg.info ⟨false, false⟩ pairsInp 512 = x at *
  obtain ⟨b, hb⟩ : ∃ b : Byte, b ≠ x.byProb.getD 1 0 := by
    by_cases h : (0 : Byte) = x.byProb.getD 1 0
    · exact ⟨1, by rw [← h]; decide⟩
    · exact ⟨0, h⟩
  refine ⟨x, w, y, hx, hw, ?_, fun _ => b, [b, x.byProb.getD 1 0, b, x.byProb.getD 0 0], ?_, ?_⟩
  · unfold readInfoApi
    dsimp only
    rw [if_neg (by simp; intro h; rw [h] at hw34; simp at hw34), hy1]
    rfl
  · unfold compressWithApi
    dsimp only
    rw [if_neg (by simp), allFlags_three hflags]
    rfl
  · intro aOut m m' h
    refine ⟨1, by omega, ?_⟩
    unfold decompressWithApi leDecode at h
    rw [if_pos hcount, if_pos (by simp)] at h
    injection h with _ h
    rw [← h]
    simp only [wr]
    rw [if_pos (by omega)]
    exact fun e => hb (by simpa using e.symm)

/-! ### The hypotheses are met -/

/-- Table of `1 1 1 1 1 0 2`, block `5 1 1 1 1 0 0`: five bytes. -/
example : ∃ x d, getInfoApi ⟨false, false⟩ (some fun k => [1, 1, 1, 1, 1, 0, 2].getD k 0) 7 true = some x ∧
    (∃ b, x.rle b = false) ∧
    compressWithApi false (some fun k => [5, 1, 1, 1, 1, 0, 0].getD k 0) 7 (some x) true 14 = .ok 5 d := by
  refine ⟨_, [5, 1, 3, 0, 0], rfl, ⟨5, by decide +kernel⟩, ?_⟩
  decide +kernel

end Hrk
