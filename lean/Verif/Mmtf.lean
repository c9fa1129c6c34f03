import Verif.Vec
import Verif.Spec

/-
The multi lane move to front transforms of src/mmtf.c.
-/

namespace Hrk

/-- What a transform returns: `fail` is `return 0`, `ub` an access outside its buffers (or an
aligned access to an unaligned address), `ok r out` the return value and the bytes written to
`pOut` (the return values of src/mmtf.c:35-105 and src/bit_mmtf.c). -/
inductive TRes where
  | fail
  | ub
  | ok (ret : Nat) (out : List Byte)
  deriving DecidableEq, Repr

/-- Variables of the inner loop (src/mmtf.c:129-136, 270-277, 542-555, 761-774). `k` is `pHistory` as a row of `history`; row `r` of `hist` is
the `r`-th vector (vector pair in the `_sse2` functions) of `history`. -/
structure MtfS where
  k : Nat
  index : Vec
  cur : Vec
  out : Vec
  prev : Vec
  h0 : Vec
  hist : Nat → Vec

/-- Is the loop condition false: `0xFFFF == _mm_movemask_epi8(prevMatched)`
(src/mmtf.c:138, 206, 279, 341), `0xFFFFFFFF ==` (408, 479, 639, 704), and both halves in the
`_sse2` functions (557, 776), whose `_lo` and `_hi` registers are the lanes `0..16` and `16..32`. -/
def allMatched (parts w : Nat) (prev : Vec) : Bool :=
  (List.range parts).all fun p => movemask w (fun j => prev (p * w + j)) == 2 ^ w - 1

/-- `matched`: the encoder compares symbols with the history row, the decoder compares indices
with the row number (src/mmtf.c:131, 143, 271, 283 and copies). -/
def mtfMatch (dec : Bool) (a index cur : Vec) : Vec := if dec then veq a index else veq a cur

/-- What is stored where `matched`: the encoder writes the row number, the decoder the history
row (src/mmtf.c:145, 287 and copies). -/
def mtfVal (dec : Bool) (index cur : Vec) : Vec := if dec then cur else index

/-- One round of the inner loop (src/mmtf.c:138-153 and its copies at 206-221, 279-295,
341-357, 408-423, 479-494, 557-579, 639-655, 704-720, 776-799). A read of row 256 would leave
`history`. -/
def mtfStep (dec : Bool) (parts w : Nat) (a : Vec) (s : MtfS) : MtfS ⊕ Option MtfS :=
  if allMatched parts w s.prev then .inr (some s)
  else if s.k < 256 then
    .inl {
      k := s.k + 1
      index := vadd s.index (vset1 1)
      cur := s.hist s.k
      out := vor s.out (vand (mtfMatch dec a (vadd s.index (vset1 1)) (s.hist s.k))
        (mtfVal dec (vadd s.index (vset1 1)) (s.hist s.k)))
      h0 := vor s.h0 (vand (mtfMatch dec a (vadd s.index (vset1 1)) (s.hist s.k)) (s.hist s.k))
      hist := fun r => if r = s.k then vor (vandnot s.prev s.cur) (vand s.prev (s.hist s.k)) else s.hist r
      prev := vor s.prev (mtfMatch dec a (vadd s.index (vset1 1)) (s.hist s.k)) }
  else .inr none

/-- Registers before the inner loop (src/mmtf.c:129-136 encoder, 270-277 decoder, and copies). -/
def mtfInit (dec : Bool) (a : Vec) (hist : Nat → Vec) : MtfS where
  k := 1
  index := vzero
  cur := hist 0
  out := if dec then vand (hist 0) (mtfMatch dec a vzero (hist 0)) else vzero
  prev := mtfMatch dec a vzero (hist 0)
  h0 := vand (mtfMatch dec a vzero (hist 0)) (hist 0)
  hist := hist

/-- One block of the outer loop (src/mmtf.c:122-159, 263-301 and copies): new history and the
block written. `none`: the inner loop left `history`. -/
def mtfBlock (dec : Bool) (parts w : Nat) (hist : Nat → Vec) (blk : List Byte) :
    Option ((Nat → Vec) × List Byte) :=
  (loop (mtfStep dec parts w (vload blk)) 256 (mtfInit dec (vload blk) hist)).join.map fun s =>
    (fun r => if r = 0 then s.h0 else s.hist r, vstore (parts * w) s.out)

/-- The bytes behind the last full block, encoder (src/mmtf.c:161-175 and copies): the first row
that holds the symbol; nothing is written if there is none. -/
def mtfTailEnc (hist : Nat → Vec) : Nat → List Byte → List Byte
  | _, [] => []
  | i, x :: xs =>
    (match (List.range 256).find? (fun d => hist d i == x) with
      | some d => [b8 d]
      | none => []) ++ mtfTailEnc hist (i + 1) xs

/-- The bytes behind the last full block, decoder (src/mmtf.c:303-310 and copies). -/
def mtfTailDec (hist : Nat → Vec) : Nat → List Byte → List Byte
  | _, [] => []
  | i, x :: xs => hist x.toNat i :: mtfTailDec hist (i + 1) xs

/-- The outer loop (src/mmtf.c:119-175, 260-310 and copies): `src` are the bytes from `pIn` on, `out` those written so far. `al` is set in
the functions that use aligned loads and stores (`_mm_stream_load_si128`, `_mm_stream_si128`). -/
def mtfOuter (dec : Bool) (parts w : Nat) (al : Bool) (aIn aOut : Nat)
    (s : (Nat → Vec) × List Byte × List Byte) : ((Nat → Vec) × List Byte × List Byte) ⊕ Option (List Byte) :=
  if parts * w ≤ s.2.1.length then
    if al ∧ ((aIn + s.2.2.length) % (parts * w) ≠ 0 ∨ (aOut + s.2.2.length) % (parts * w) ≠ 0) then .inr none
    else
      match mtfBlock dec parts w s.1 (s.2.1.take (parts * w)) with
      | none => .inr none
      | some (h, o) => .inl (h, s.2.1.drop (parts * w), s.2.2 ++ o)
  else .inr (some (s.2.2 ++ (if dec then mtfTailDec s.1 0 s.2.1 else mtfTailEnc s.1 0 s.2.1)))

/-- One of `mmtf{128,256}_{encode,decode}_{aligned,unaligned}[_sse41,_sse2]` (src/mmtf.c:109-819).
`src` holds the `inSize` bytes at `pIn`. Buffers do not overlap. -/
def mtfRun (dec : Bool) (parts w : Nat) (al : Bool) (aIn aOut : Nat) (src : List Byte) : TRes :=
  match (loop (mtfOuter dec parts w al aIn aOut) (src.length + 1) (fun r => vset1 (b8 r), src, [])).join with
  | none => .ub
  | some out => .ok src.length out

/-- `mmtf128_encode` (`dec = false`) and `mmtf128_decode` (src/mmtf.c:35-65). -/
def mmtf128 (dec : Bool) (cpu : Cpu) (aIn aOut : Nat) (src : List Byte) (outSize : Nat) : TRes :=
  if src.length > outSize then .fail
  else if cpu.sse2 = false then .fail
  else if aIn % 16 = 0 ∧ aOut % 32 = 0 ∧ cpu.sse41 then mtfRun dec 1 16 true aIn aOut src
  else mtfRun dec 1 16 false aIn aOut src

/-- `mmtf256_encode` (`dec = false`) and `mmtf256_decode` (src/mmtf.c:69-105). -/
def mmtf256 (dec : Bool) (cpu : Cpu) (aIn aOut : Nat) (src : List Byte) (outSize : Nat) : TRes :=
  if src.length > outSize then .fail
  else if cpu.sse2 = false then .fail
  else if cpu.avx2 = false then mtfRun dec 2 16 false aIn aOut src
  else if aIn % 32 = 0 ∧ aOut % 32 = 0 then mtfRun dec 1 32 true aIn aOut src
  else mtfRun dec 1 32 false aIn aOut src

/-- `mmtf_bounds` (src/mmtf.c:28-31) and `bitmmtf_bounds` (src/bit_mmtf.c:11-14). -/
def mmtfBounds (n : Nat) : Nat := n

/-! ### The inner loop moves one row to the front of every lane -/

theorem allMatched_iff {parts w : Nat} {prev : Vec} (hw : 0 < w) :
    allMatched parts w prev = true ↔ ∀ j, j < parts * w → prev j ≥ 128 := by
  unfold allMatched
  simp only [List.all_eq_true, List.mem_range, beq_iff_eq, movemask_full]
  constructor
  · intro h j hj
    have h1 : j / w < parts := Nat.div_lt_of_lt_mul (by rw [Nat.mul_comm]; exact hj)
    have h2 := h (j / w) h1 (j % w) (Nat.mod_lt _ hw)
    rwa [Nat.mul_comm, Nat.div_add_mod] at h2
  · intro h p hp j hj
    apply h
    calc p * w + j < p * w + w := by omega
      _ = (p + 1) * w := by rw [Nat.add_mul, Nat.one_mul]
      _ ≤ parts * w := Nat.mul_le_mul_right _ hp

/-- Lane `j` has its match in row `t j` and nowhere else. -/
def MtfAt (dec : Bool) (L : Nat) (a : Vec) (h : Nat → Vec) (t : Nat → Nat) : Prop :=
  ∀ j, j < L → t j < 256 ∧ ∀ r, r < 256 → ((if dec then a j = b8 r else a j = h r j) ↔ r = t j)

/-- What the loop finds in lane `j`. -/
def mtfGot (dec : Bool) (h : Nat → Vec) (r j : Nat) : Byte := if dec then h r j else b8 r

/-- Invariant of the inner loop over the history `h` it started from. -/
structure MtfInv (dec : Bool) (L : Nat) (h : Nat → Vec) (t : Nat → Nat) (s : MtfS) : Prop where
  lo : 1 ≤ s.k
  hi : s.k ≤ 256
  index : ∀ j, s.index j = b8 (s.k - 1)
  cur : ∀ j, j < L → s.cur j = h (s.k - 1) j
  prev : ∀ j, j < L → s.prev j = if t j < s.k then 255 else 0
  out : ∀ j, j < L → s.out j = if t j < s.k then mtfGot dec h (t j) j else 0
  h0 : ∀ j, j < L → s.h0 j = if t j < s.k then h (t j) j else 0
  hist : ∀ r j, j < L → s.hist r j = if 1 ≤ r ∧ r < s.k ∧ r ≤ t j then h (r - 1) j else h r j

theorem mtfMatch_at {dec : Bool} {L : Nat} {a : Vec} {h : Nat → Vec} {t : Nat → Nat} (ht : MtfAt dec L a h t)
    {j r : Nat} (hj : j < L) (hr : r < 256) {idx cur : Vec} (hi : idx j = b8 r) (hc : cur j = h r j) :
    mtfMatch dec a idx cur j = if t j = r then 255 else 0 := by
  have h1 := (ht j hj).2 r hr
  unfold mtfMatch
  cases dec
  · simp only [Bool.false_eq_true, if_false, veq, hc] at h1 ⊢
    by_cases h2 : a j = h r j
    · rw [if_pos h2, if_pos (h1.mp h2).symm]
    · rw [if_neg h2, if_neg (fun h3 => h2 (h1.mpr h3.symm))]
  · simp only [if_true, veq, hi] at h1 ⊢
    by_cases h2 : a j = b8 r
    · rw [if_pos h2, if_pos (h1.mp h2).symm]
    · rw [if_neg h2, if_neg (fun h3 => h2 (h1.mpr h3.symm))]

theorem byte_or_zero (x : Byte) : x ||| 0 = x := by simp
theorem byte_zero_or (x : Byte) : 0 ||| x = x := by simp
theorem byte_zero_and (x : Byte) : 0 &&& x = 0 := by simp
theorem byte_not_zero : ~~~ (0 : Byte) = 255 := by decide
theorem byte_not_255 : ~~~ (255 : Byte) = 0 := by decide

theorem mtfInit_inv {dec : Bool} {L : Nat} {a : Vec} {h : Nat → Vec} {t : Nat → Nat} (ht : MtfAt dec L a h t) :
    MtfInv dec L h t (mtfInit dec a h) := by
  have hm : ∀ j, j < L → mtfMatch dec a vzero (h 0) j = if t j = 0 then 255 else 0 := fun j hj =>
    mtfMatch_at ht hj (by omega) rfl rfl
  have hk : (mtfInit dec a h).k = 1 := rfl
  refine ⟨Nat.le_refl _, by rw [hk]; omega, fun j => rfl, fun j _ => rfl, ?_, ?_, ?_, ?_⟩
  · intro j hj
    rw [hk]
    show mtfMatch dec a vzero (h 0) j = _
    rw [hm j hj]
    by_cases h0 : t j = 0 <;> simp [h0]
  · intro j hj
    rw [hk]
    cases dec
    · show (0 : Byte) = _
      by_cases h0 : t j = 0
      · simp [h0, b8, mtfGot]
      · rw [if_neg (by omega)]
    · show h 0 j &&& mtfMatch true a vzero (h 0) j = _
      rw [hm j hj]
      by_cases h0 : t j = 0
      · rw [if_pos h0, if_pos (by omega), UInt8.and_comm, byte_and_255, h0]; rfl
      · rw [if_neg h0, if_neg (by omega)]; simp
  · intro j hj
    rw [hk]
    show mtfMatch dec a vzero (h 0) j &&& h 0 j = _
    rw [hm j hj]
    by_cases h0 : t j = 0
    · rw [if_pos h0, if_pos (by omega), byte_and_255, h0]
    · rw [if_neg h0, if_neg (by omega), byte_zero_and]
  · intro r j hj
    rw [hk, if_neg (by omega)]
    rfl

theorem mtfStep_inv {dec : Bool} {parts w : Nat} {a : Vec} {h : Nat → Vec} {t : Nat → Nat} (hw : 0 < w)
    (ht : MtfAt dec (parts * w) a h t) (s : MtfS) (hI : MtfInv dec (parts * w) h t s) :
    Post (mtfStep dec parts w a s) (fun s' => MtfInv dec (parts * w) h t s' ∧ 256 - s'.k < 256 - s.k)
      (fun r => ∃ s', r = some s' ∧ MtfInv dec (parts * w) h t s' ∧ ∀ j, j < parts * w → t j < s'.k) := by
  unfold mtfStep
  by_cases hall : allMatched parts w s.prev = true
  · rw [if_pos hall]
    refine ⟨s, rfl, hI, ?_⟩
    intro j hj
    have h1 := (allMatched_iff hw).mp hall j hj
    rw [hI.prev j hj] at h1
    by_cases h2 : t j < s.k
    · exact h2
    · rw [if_neg h2] at h1; exact absurd h1 (by decide)
  · rw [if_neg hall]
    have hex : ∃ j, j < parts * w ∧ s.k ≤ t j := by
      apply Classical.byContradiction
      intro hno
      apply hall
      rw [allMatched_iff hw]
      intro j hj
      rw [hI.prev j hj, if_pos]
      · decide
      · apply Classical.byContradiction
        intro h3
        exact hno ⟨j, hj, by omega⟩
    obtain ⟨j0, hj0, hk0⟩ := hex
    have hk : s.k < 256 := by have := (ht j0 hj0).1; omega
    have hlo := hI.lo
    rw [if_pos hk]
    have hidx : ∀ j, vadd s.index (vset1 1) j = b8 s.k := by
      intro j
      simp only [vadd, vset1, hI.index j]
      apply UInt8.toNat_inj.mp
      rw [UInt8.toNat_add, b8_toNat, b8_toNat]
      simp only [UInt8.reduceToNat]
      omega
    have hcur : ∀ j, j < parts * w → s.hist s.k j = h s.k j := by
      intro j hj
      rw [hI.hist _ _ hj, if_neg (by omega)]
    have hm : ∀ j, j < parts * w → mtfMatch dec a (vadd s.index (vset1 1)) (s.hist s.k) j = if t j = s.k then 255 else 0 :=
      fun j hj => mtfMatch_at ht hj hk (hidx j) (hcur j hj)
    refine ⟨⟨Nat.le_add_left _ _, hk, hidx, fun j hj => hcur j hj, fun j hj => ?_, fun j hj => ?_, fun j hj => ?_,
      fun r j hj => ?_⟩, by simp only; omega⟩
    · show s.prev j ||| mtfMatch dec a (vadd s.index (vset1 1)) (s.hist s.k) j = if t j < s.k + 1 then 255 else 0
      rw [hI.prev j hj, hm j hj]
      rcases Nat.lt_trichotomy (t j) s.k with h1 | h1 | h1
      · rw [if_pos h1, if_neg (by omega), if_pos (by omega), byte_or_zero]
      · rw [if_neg (by omega), if_pos h1, if_pos (by omega), byte_zero_or]
      · rw [if_neg (by omega), if_neg (by omega), if_neg (by omega), byte_zero_or]
    · show s.out j ||| (mtfMatch dec a (vadd s.index (vset1 1)) (s.hist s.k) j &&&
        mtfVal dec (vadd s.index (vset1 1)) (s.hist s.k) j) = if t j < s.k + 1 then _ else 0
      have hv : mtfVal dec (vadd s.index (vset1 1)) (s.hist s.k) j = mtfGot dec h s.k j := by
        unfold mtfVal mtfGot
        cases dec
        · exact hidx j
        · exact hcur j hj
      rw [hI.out j hj, hm j hj, hv]
      rcases Nat.lt_trichotomy (t j) s.k with h1 | h1 | h1
      · rw [if_pos h1, if_neg (by omega), if_pos (by omega), byte_zero_and, byte_or_zero]
      · rw [if_neg (by omega), if_pos h1, if_pos (by omega), byte_zero_or, byte_and_255, h1]
      · rw [if_neg (by omega), if_neg (by omega), if_neg (by omega), byte_zero_and, byte_zero_or]
    · show s.h0 j ||| (mtfMatch dec a (vadd s.index (vset1 1)) (s.hist s.k) j &&& s.hist s.k j) =
        if t j < s.k + 1 then _ else 0
      rw [hI.h0 j hj, hm j hj, hcur j hj]
      rcases Nat.lt_trichotomy (t j) s.k with h1 | h1 | h1
      · rw [if_pos h1, if_neg (by omega), if_pos (by omega), byte_zero_and, byte_or_zero]
      · rw [if_neg (by omega), if_pos h1, if_pos (by omega), byte_zero_or, byte_and_255, h1]
      · rw [if_neg (by omega), if_neg (by omega), if_neg (by omega), byte_zero_and, byte_zero_or]
    · show (if r = s.k then vor (vandnot s.prev s.cur) (vand s.prev (s.hist s.k)) else s.hist r) j =
        if 1 ≤ r ∧ r < s.k + 1 ∧ r ≤ t j then h (r - 1) j else h r j
      by_cases hr : r = s.k
      · rw [if_pos hr, hr]
        simp only [vor, vandnot, vand]
        rw [hI.prev j hj, hI.cur j hj, hcur j hj]
        by_cases h1 : t j < s.k
        · rw [if_pos h1, if_neg (by omega), byte_not_255, byte_zero_and, byte_and_255, byte_zero_or]
        · rw [if_neg h1, if_pos (by omega), byte_not_zero, byte_zero_and, byte_and_255, byte_or_zero]
      · rw [if_neg hr, hI.hist r j hj]
        by_cases h1 : 1 ≤ r ∧ r < s.k ∧ r ≤ t j
        · rw [if_pos h1, if_pos (by omega)]
        · rw [if_neg h1, if_neg (by omega)]

/-- The history after one block. -/
def mtfMoved (h : Nat → Vec) (t : Nat → Nat) (r j : Nat) : Byte :=
  if r = 0 then h (t j) j else if r ≤ t j then h (r - 1) j else h r j

theorem mtfBlock_spec {dec : Bool} {parts w : Nat} {h : Nat → Vec} {blk : List Byte} {t : Nat → Nat} (hw : 0 < w)
    (ht : MtfAt dec (parts * w) (vload blk) h t) :
    ∃ h' o, mtfBlock dec parts w h blk = some (h', o) ∧ o.length = parts * w ∧
      (∀ j, j < parts * w → o.getD j 0 = mtfGot dec h (t j) j) ∧
      (∀ r j, j < parts * w → h' r j = mtfMoved h t r j) := by
  obtain ⟨r, h1, s, rfl, hI, h2⟩ := loop_rule (body := mtfStep dec parts w (vload blk)) (MtfInv dec (parts * w) h t) _
    (fun s => 256 - s.k) (mtfStep_inv hw ht) 256 _ (mtfInit_inv ht) (by show 256 - 1 < 256; omega)
  refine ⟨_, _, by unfold mtfBlock; rw [h1]; rfl, by simp [vstore], ?_, ?_⟩
  · intro j hj
    simp only [vstore, List.getD, List.getElem?_map, List.getElem?_range hj, Option.map_some, Option.getD_some]
    rw [hI.out j hj, if_pos (h2 j hj)]
  · intro r j hj
    have h3 := h2 j hj
    unfold mtfMoved
    by_cases hr : r = 0
    · simp only [if_pos hr]
      rw [hI.h0 j hj, if_pos h3]
    · simp only [if_neg hr]
      rw [hI.hist r j hj]
      by_cases h4 : r ≤ t j
      · rw [if_pos h4, if_pos (by omega)]
      · rw [if_neg h4, if_neg (by omega)]

/-! ### Lanes -/

theorem getElem_cons_eraseIdx : ∀ (T : List Byte) (i : Nat) (h : i < T.length), (T[i] :: T.eraseIdx i).Perm T
  | _ :: _, 0, _ => List.Perm.refl _
  | a :: T, i + 1, h => by
    simp only [List.getElem_cons_succ, List.eraseIdx_cons_succ]
    exact (List.Perm.swap _ _ _).trans ((getElem_cons_eraseIdx T i (by simpa using h)).cons a)

theorem getD_of_lt (T : List Byte) (i : Nat) (h : i < T.length) : T.getD i 0 = T[i] := by
  simp [List.getD, h]

theorem mtfTable_length : mtfTable.length = 256 := by simp [mtfTable]

/-- Lane `j` of a history holds the table `T`. -/
def Holds256 (h : Nat → Vec) (j : Nat) (T : List Byte) : Prop :=
  T.Perm mtfTable ∧ ∀ r, r < 256 → T[r]? = some (h r j)

theorem mtfTable_nodup : mtfTable.Nodup := by decide +kernel
theorem mem_mtfTable (x : Byte) : x ∈ mtfTable := byte_forall (P := fun x => x ∈ mtfTable) (by decide +kernel) x

namespace Holds256

variable {h : Nat → Vec} {j : Nat} {T : List Byte}

theorem len (H : Holds256 h j T) : T.length = 256 := by rw [H.1.length_eq, mtfTable_length]
theorem nodup (H : Holds256 h j T) : T.Nodup := H.1.nodup_iff.mpr mtfTable_nodup
theorem mem (H : Holds256 h j T) (x : Byte) : x ∈ T := H.1.mem_iff.mpr (mem_mtfTable x)
theorem idx_lt (H : Holds256 h j T) (x : Byte) : T.idxOf x < 256 := by
  rw [← H.len]; exact List.idxOf_lt_length_iff.mpr (H.mem x)

theorem row (H : Holds256 h j T) {r : Nat} (hr : r < 256) : T[r]'(by rw [H.len]; exact hr) = h r j := by
  have := H.2 r hr
  rw [List.getElem?_eq_getElem (by rw [H.len]; exact hr)] at this
  exact Option.some.inj this

theorem match_iff (H : Holds256 h j T) (x : Byte) {r : Nat} (hr : r < 256) : x = h r j ↔ r = T.idxOf x := by
  constructor
  · intro hx
    rw [hx, ← H.row hr, H.nodup.idxOf_getElem]
  · intro hx
    rw [← H.row hr]
    subst hx
    rw [List.getElem_idxOf]

theorem moved (H : Holds256 h j T) {t : Nat → Nat} (ht : t j < 256) {h' : Nat → Vec}
    (hm : ∀ r, h' r j = mtfMoved h t r j) : Holds256 h' j (h (t j) j :: T.eraseIdx (t j)) := by
  have hl := H.len
  constructor
  · refine List.Perm.trans ?_ H.1
    have h1 := getElem_cons_eraseIdx T (t j) (by omega)
    rwa [H.row ht] at h1
  · intro r hr
    rw [hm r]
    unfold mtfMoved
    cases r with
    | zero => rfl
    | succ r =>
      rw [List.getElem?_cons_succ, List.getElem?_eraseIdx, if_neg (show ¬ r + 1 = 0 by omega)]
      by_cases h1 : r < t j
      · rw [if_pos h1, if_pos (show r + 1 ≤ t j by omega), H.2 r (by omega)]; rfl
      · rw [if_neg h1, if_neg (show ¬ r + 1 ≤ t j by omega), H.2 (r + 1) hr]

end Holds256

/-- The coder of one lane. -/
def mtfCode (dec : Bool) : List Byte → List Byte → List Byte := if dec then unmtf else mtf

theorem laneAt_append (L j : Nat) : ∀ (xs ys : List Byte) (i : Nat),
    laneAt L j i (xs ++ ys) = laneAt L j i xs ++ laneAt L j (i + xs.length) ys
  | [], ys, i => by simp [laneAt]
  | x :: xs, ys, i => by
    simp only [List.cons_append, laneAt, laneAt_append L j xs ys (i + 1), List.length_cons]
    have : i + 1 + xs.length = i + (xs.length + 1) := by omega
    rw [this]
    split <;> simp

theorem laneAt_shift (L j : Nat) : ∀ (xs : List Byte) (i : Nat), laneAt L j (i + L) xs = laneAt L j i xs
  | [], i => rfl
  | x :: xs, i => by
    have h := laneAt_shift L j xs (i + 1)
    have h2 : i + L + 1 = i + 1 + L := by omega
    simp only [laneAt, Nat.add_mod_right, h2, h]

theorem laneAt_short {L j : Nat} : ∀ (xs : List Byte) (i : Nat), i + xs.length ≤ L →
    laneAt L j i xs = if i ≤ j ∧ j < i + xs.length then [xs.getD (j - i) 0] else []
  | [], i, _ => by rw [if_neg (by simp)]; rfl
  | x :: xs, i, h => by
    simp only [List.length_cons] at h
    rw [laneAt, laneAt_short xs (i + 1) (by omega), Nat.mod_eq_of_lt (by omega), List.length_cons]
    by_cases h1 : i = j
    · subst h1
      rw [if_pos rfl, if_neg (by omega), if_pos (by omega)]; simp
    · rw [if_neg h1]
      by_cases h2 : i + 1 ≤ j ∧ j < i + 1 + xs.length
      · rw [if_pos h2, if_pos (by omega)]
        have h3 : j - i = (j - (i + 1)) + 1 := by omega
        rw [h3, List.getD_cons_succ]
      · rw [if_neg h2, if_neg (by omega)]

theorem lane_block {L j : Nat} {blk rest : List Byte} (hl : blk.length = L) (hj : j < L) :
    lane L j (blk ++ rest) = blk.getD j 0 :: lane L j rest := by
  unfold lane
  rw [laneAt_append, laneAt_short blk 0 (by omega), if_pos (by omega), hl, laneAt_shift]
  simp

theorem lane_ext {L : Nat} (hL : 0 < L) : ∀ (xs ys : List Byte) (i : Nat), xs.length = ys.length →
    (∀ j, j < L → laneAt L j i xs = laneAt L j i ys) → xs = ys
  | [], ys, _, h, _ => by cases ys with
    | nil => rfl
    | cons y ys => simp at h
  | x :: xs, [], _, h, _ => by simp at h
  | x :: xs, y :: ys, i, h, hj => by
    have h1 := hj (i % L) (Nat.mod_lt _ hL)
    simp only [laneAt, if_true] at h1
    injection h1 with h1 _
    subst h1
    congr 1
    refine lane_ext hL xs ys (i + 1) (by simpa using h) ?_
    intro j hjL
    have h2 := hj j hjL
    simp only [laneAt] at h2
    by_cases h3 : i % L = j
    · rw [if_pos h3, if_pos h3] at h2
      injection h2
    · rwa [if_neg h3, if_neg h3] at h2

theorem mtfTail_spec {dec : Bool} {L : Nat} {h : Nat → Vec} {T : Nat → List Byte} :
    ∀ (xs : List Byte) (i : Nat), i + xs.length ≤ L → (∀ j, j < L → Holds256 h j (T j)) →
      (if dec then mtfTailDec h i xs else mtfTailEnc h i xs).length = xs.length ∧
      ∀ j, j < L → laneAt L j i (if dec then mtfTailDec h i xs else mtfTailEnc h i xs) =
        mtfCode dec (T j) (laneAt L j i xs)
  | [], i, _, _ => by
    cases dec <;> simp [mtfTailDec, mtfTailEnc, laneAt, mtfCode, mtf, unmtf]
  | x :: xs, i, hi, hT => by
    simp only [List.length_cons] at hi
    have ih := mtfTail_spec (dec := dec) xs (i + 1) (by omega) hT
    have H := hT i (by omega)
    have hcons : (if dec then mtfTailDec h i (x :: xs) else mtfTailEnc h i (x :: xs)) =
        (if dec then h x.toNat i else b8 ((T i).idxOf x)) ::
          (if dec then mtfTailDec h (i + 1) xs else mtfTailEnc h (i + 1) xs) := by
      cases dec
      · have hf : (List.range 256).find? (fun d => h d i == x) = some ((T i).idxOf x) := by
          rw [List.find?_range_eq_some]
          refine ⟨?_, List.mem_range.mpr (H.idx_lt x), ?_⟩
          · rw [beq_iff_eq]; exact ((H.match_iff x (H.idx_lt x)).mpr rfl).symm
          · intro d hd
            have h1 := H.idx_lt x
            simp only [Bool.not_eq_true', beq_eq_false_iff_ne]
            intro h2
            have := (H.match_iff x (by omega)).mp h2.symm
            omega
        simp [mtfTailEnc, hf]
      · simp [mtfTailDec]
    rw [hcons]
    refine ⟨by simp [ih.1], ?_⟩
    intro j hj
    have hnil : ∀ k, k + xs.length ≤ L → j < k → laneAt L j k xs = [] := by
      intro k hk hjk
      rw [laneAt_short xs k hk, if_neg (by omega)]
    simp only [laneAt, ih.2 j hj]
    by_cases h1 : i % L = j
    · rw [if_pos h1, if_pos h1]
      have h2 : i = j := by rwa [Nat.mod_eq_of_lt (by omega)] at h1
      rw [hnil (i + 1) (by omega) (by omega)]
      subst h2
      cases dec
      · simp [mtfCode, mtf]
      · simp only [mtfCode, if_true, unmtf]
        rw [← H.row x.toNat_lt, getD_of_lt _ _ (by rw [H.len]; exact x.toNat_lt)]
    · rw [if_neg h1, if_neg h1]

theorem mtfCode_cons {dec : Bool} {h : Nat → Vec} {j : Nat} {T : List Byte} (H : Holds256 h j T) (x : Byte)
    (xs : List Byte) {t : Nat} (ht : t = if dec then x.toNat else T.idxOf x) :
    mtfCode dec T (x :: xs) = mtfGot dec h t j :: mtfCode dec (h t j :: T.eraseIdx t) xs := by
  subst ht
  cases dec
  · simp only [mtfCode, Bool.false_eq_true, if_false, mtf, mtfGot]
    rw [List.erase_eq_eraseIdx_of_idxOf rfl, ← (H.match_iff x (H.idx_lt x)).mpr rfl]
  · simp only [mtfCode, if_true, unmtf, mtfGot]
    rw [← H.row x.toNat_lt, getD_of_lt _ _ (by rw [H.len]; exact x.toNat_lt)]

theorem mtfLoop_spec {dec : Bool} {parts w : Nat} {al : Bool} {aIn aOut : Nat} (hp : 0 < parts) (hw : 0 < w) :
    ∀ (fuel : Nat) (h : Nat → Vec) (src out : List Byte) (T : Nat → List Byte), src.length < fuel →
      (∀ j, j < parts * w → Holds256 h j (T j)) →
      (al = true → (aIn + out.length) % (parts * w) = 0 ∧ (aOut + out.length) % (parts * w) = 0) →
      ∃ o, (loop (mtfOuter dec parts w al aIn aOut) fuel (h, src, out)).join = some (out ++ o) ∧
        o.length = src.length ∧ ∀ j, j < parts * w → lane (parts * w) j o = mtfCode dec (T j) (lane (parts * w) j src)
  | 0, _, _, _, _, hf, _, _ => by omega
  | fuel + 1, h, src, out, T, hf, hT, hal => by
    have hL : 0 < parts * w := Nat.mul_pos hp hw
    unfold loop
    by_cases hlen : parts * w ≤ src.length
    · have hblk : (src.take (parts * w)).length = parts * w := by rw [List.length_take]; omega
      let t : Nat → Nat := fun j =>
        if dec then ((src.take (parts * w)).getD j 0).toNat else (T j).idxOf ((src.take (parts * w)).getD j 0)
      have htl : ∀ j, j < parts * w → t j < 256 := by
        intro j hj
        simp only [t]
        split
        · exact UInt8.toNat_lt _
        · exact (hT j hj).idx_lt _
      have hAt : MtfAt dec (parts * w) (vload (src.take (parts * w))) h t := by
        intro j hj
        refine ⟨htl j hj, ?_⟩
        intro r hr
        simp only [vload, t]
        cases dec
        · exact (hT j hj).match_iff _ hr
        · simp only [if_true]
          constructor
          · intro h1; rw [h1, b8_toNat]; omega
          · intro h1; rw [h1, b8_of_toNat]
      obtain ⟨h', o, hb, hol, hog, hh'⟩ := mtfBlock_spec hw hAt
      obtain ⟨o', ho', hol', hlanes⟩ := mtfLoop_spec (dec := dec) (al := al) (aIn := aIn) (aOut := aOut) hp hw fuel h'
        (src.drop (parts * w)) (out ++ o) (fun j => h (t j) j :: (T j).eraseIdx (t j))
        (by rw [List.length_drop]; omega)
        (fun j hj => (hT j hj).moved (htl j hj) (fun r => hh' r j hj))
        (by
          intro ha
          have := hal ha
          rw [List.length_append, hol, ← Nat.add_assoc, ← Nat.add_assoc, Nat.add_mod_right, Nat.add_mod_right]
          exact this)
      have hnal : ¬ (al = true ∧ ((aIn + out.length) % (parts * w) ≠ 0 ∨ (aOut + out.length) % (parts * w) ≠ 0)) := by
        rintro ⟨ha, hb⟩
        have := hal ha
        rcases hb with hb | hb
        · exact hb this.1
        · exact hb this.2
      have hstep : mtfOuter dec parts w al aIn aOut (h, src, out) = .inl (h', src.drop (parts * w), out ++ o) := by
        unfold mtfOuter
        simp only [if_pos hlen, if_neg hnal, hb]
      rw [hstep]
      refine ⟨o ++ o', ?_, ?_, ?_⟩
      · simp only [ho', List.append_assoc]
      · rw [List.length_append, hol, hol', List.length_drop]; omega
      · intro j hj
        rw [lane_block hol hj, hlanes j hj, hog j hj]
        conv => rhs; rw [← List.take_append_drop (parts * w) src, lane_block hblk hj]
        rw [mtfCode_cons (hT j hj) _ _ rfl]
    · have hstep : mtfOuter dec parts w al aIn aOut (h, src, out) =
          .inr (some (out ++ (if dec then mtfTailDec h 0 src else mtfTailEnc h 0 src))) := by
        unfold mtfOuter
        simp only [if_neg hlen]
      rw [hstep]
      have := mtfTail_spec (dec := dec) (h := h) (T := T) (L := parts * w) src 0 (by omega) hT
      exact ⟨_, rfl, this.1, this.2⟩

theorem mtfRun_spec {dec : Bool} {parts w : Nat} {al : Bool} {aIn aOut : Nat} (hp : 0 < parts) (hw : 0 < w)
    (src : List Byte) (hal : al = true → aIn % (parts * w) = 0 ∧ aOut % (parts * w) = 0) :
    ∃ o, mtfRun dec parts w al aIn aOut src = .ok src.length o ∧ o.length = src.length ∧
      ∀ j, j < parts * w → lane (parts * w) j o = mtfCode dec mtfTable (lane (parts * w) j src) := by
  have hinit : ∀ j, j < parts * w → Holds256 (fun r => vset1 (b8 r)) j mtfTable := by
    intro j _
    refine ⟨List.Perm.refl _, ?_⟩
    intro r hr
    simp [mtfTable, List.getElem?_range hr, vset1]
  obtain ⟨o, h1, h2, h3⟩ := mtfLoop_spec (dec := dec) (al := al) (aIn := aIn) (aOut := aOut) hp hw (src.length + 1) _ src []
    (fun _ => mtfTable) (by omega) hinit (by simpa using hal)
  refine ⟨o, ?_, h2, h3⟩
  unfold mtfRun
  rw [h1]
  rfl

theorem unmtf_mtf : ∀ (xs T : List Byte), T.Perm mtfTable → unmtf T (mtf T xs) = xs
  | [], _, _ => rfl
  | x :: xs, T, hT => by
    have hmem : x ∈ T := hT.mem_iff.mpr (mem_mtfTable x)
    have hlt : T.idxOf x < T.length := List.idxOf_lt_length_iff.mpr hmem
    have hlen : T.length = 256 := by rw [hT.length_eq, mtfTable_length]
    have hidx : (b8 (T.idxOf x)).toNat = T.idxOf x := by rw [b8_toNat]; omega
    have hget : T.getD (T.idxOf x) 0 = x := by rw [getD_of_lt _ _ hlt, List.getElem_idxOf]
    simp only [mtf, unmtf, hidx, hget]
    rw [← List.erase_eq_eraseIdx_of_idxOf rfl]
    rw [unmtf_mtf xs (x :: T.erase x) ((List.perm_cons_erase hmem).symm.trans hT)]

end Hrk
