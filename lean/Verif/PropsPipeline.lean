import Verif.PropsReuse
import Verif.PropsArchive
import Verif.PropsMtf

/-
C81: the transforms and the codecs can be put one behind the other in any order; undoing them in the opposite order restores the data.
-/

namespace Hrk

/-! ### Specification -/

/-- One stage: a transform (`mmtf128` or `mmtf256`, `bitmmtf8`, `bitmmtf16`) or a codec of the table. -/
inductive Stage where
  | mmtf (wide : Bool)
  | bit8
  | bit16
  | codec (row : Row)

/-- What the calls of a stage have around them. Forth: processor, addresses, buffer size, the uninitialised register of src/rle8_mmtf.c, what the buffer
holds before, and the memory behind the data. Back: processor, addresses, how much larger than necessary the buffer of a transform is, what the buffer
holds before, and the memory behind the stream. -/
structure Around where
  ce : Cpu
  aIn : Nat
  aOut : Nat
  outSize : Nat
  junk : Vec
  held : Mem
  past : Mem
  cd : Cpu
  bIn : Nat
  bOut : Nat
  more : Nat
  m : Mem
  behind : Mem

/-- The bytes `l`, with `past` behind them. -/
def withPast (l : List Byte) (past : Mem) : Mem := fun k => if k < l.length then l.getD k 0 else past k

def TRes.written : TRes → Option (List Byte)
  | .ok _ out => some out
  | _ => none

def CRes.written : CRes → Option (List Byte)
  | .ok _ out => some out
  | _ => none

/-- What the stage makes of the bytes `src`; `none` if the call fails or is undefined, or if there is more than the library supports (1 GiB). -/
def Stage.forth (s : Stage) (u : Around) (src : List Byte) : Option (List Byte) :=
  if maxInput < src.length then none else
  match s with
  | .mmtf wide => (Hrk.mmtf (if wide then 32 else 16) false u.ce u.aIn u.aOut src u.outSize).written
  | .bit8 => (bitmmtf8Encode (some src) true u.outSize).written
  | .bit16 => (bitmmtf16Encode (some src) true u.outSize).written
  | .codec row => (row.comp.run u.ce u.junk u.held (some (withPast src u.past)) src.length true u.outSize).written

/-- Undo the stage. A codec is told no more than the stream: the size of the buffer is taken from its first bytes (`readOne`). -/
def Stage.back (s : Stage) (u : Around) (code : List Byte) : Option (List Byte) :=
  match s with
  | .mmtf wide => (Hrk.mmtf (if wide then 32 else 16) true u.cd u.bIn u.bOut code (code.length + u.more)).written
  | .bit8 => (bitmmtf8Decode (some code) true (code.length + u.more)).written
  | .bit16 => (bitmmtf16Decode (some code) true (code.length + u.more)).written
  | .codec row => (readOne row.comp row.dec ⟨u.cd, u.m, u.bIn, u.bOut⟩ (code ++ rd u.behind 0 64)).map Prod.fst

/-- All stages in order. -/
def forthAll : List (Stage × Around) → List Byte → Option (List Byte)
  | [], src => some src
  | (s, u) :: rest, src => (s.forth u src).bind (forthAll rest)

/-- All stages undone, the last one first. -/
def backAll : List (Stage × Around) → List Byte → Option (List Byte)
  | [], code => some code
  | (s, u) :: rest, code => (backAll rest code).bind (s.back u)

/-- The codecs that are covered: those of the table, except the two low entropy codecs of C07 and C08. -/
def Stage.covered : Stage → Prop
  | .codec row => row ∈ table ∧ row.comp ≠ .le false false ∧ row.comp ≠ .le true false
  | _ => True

/-- How large a buffer the stream of `n` bytes can need, whatever the codec. -/
def room (n : Nat) : Nat := n + n / 221 + 361

/-- The same behind `k` stages. -/
def roomAfter : Nat → Nat → Nat
  | 0, n => n
  | k + 1, n => roomAfter k (room n)

/-! ### Lemmas -/

theorem rd_withPast (l : List Byte) (past : Mem) : rd (withPast l past) 0 l.length = l := by
  apply List.ext_getElem
  · simp
  · intro i h1 h2
    simp only [rd, List.getElem_map, List.getElem_range, Nat.zero_add, withPast]
    rw [if_pos h2]
    simp [h2]

theorem CRes.written_some {r : CRes} {out : List Byte} (h : r.written = some out) : ∃ ret, r = .ok ret out := by
  cases r <;> simp [CRes.written] at h
  exact ⟨_, by rw [h]⟩

theorem mmtf_small {L : Nat} {dec : Bool} {cpu : Cpu} {aIn aOut : Nat} {src : List Byte} {o : Nat} (h : o < src.length) :
    mmtf L dec cpu aIn aOut src o = .fail := by
  unfold mmtf mmtf128 mmtf256
  simp [h]

theorem bitApi_small {f : List Byte → List Byte} {src : List Byte} {o : Nat} (h : o < src.length) : bitApi f (some src) true o = .fail := by
  unfold bitApi
  simp only
  rw [if_pos (.inr h)]

theorem wide_cases (wide : Bool) : (if wide then 32 else 16 : Nat) = 16 ∨ (if wide then 32 else 16 : Nat) = 32 := by cases wide <;> simp

theorem readOne_stored {row : Row} (hr : row ∈ table) (hn : row.comp ≠ .le false false) (hn' : row.comp ≠ .le true false) {x : Item} {out : List Byte}
    (h : x.stored row.comp out) (d : Desk) (slack : List Byte) (hs : 64 ≤ slack.length) :
    readOne row.comp row.dec d (out ++ slack) = some (x.bytes, slack) := by
  have := C51_archive_partial row hr hn hn' [(x, out, d)] slack hs (by simpa using h)
  simp only [List.map_cons, List.map_nil, readAll, List.flatten_cons, List.flatten_nil, List.append_nil] at this
  cases e : readOne row.comp row.dec d (out ++ slack) with
  | none => rw [e] at this; cases this
  | some p => rw [e] at this; obtain ⟨a, b⟩ := p; simpa using this

theorem Stage.undo (s : Stage) (u : Around) (hs : s.covered) (he : u.ce.sse2 = true) (hd : u.cd.sse2 = true) (ho : u.outSize < 4294967296)
    {src code : List Byte} (h : s.forth u src = some code) : s.back u code = some src := by
  unfold Stage.forth at h
  split at h
  · cases h
  rename_i hmax
  cases s with
  | mmtf wide =>
    simp only at h
    by_cases hl : u.outSize < src.length
    · rw [mmtf_small hl] at h; cases h
    · have hl' : src.length ≤ u.outSize := by omega
      obtain ⟨c, h1, h2, h3⟩ := C11_mmtf_roundtrip _ (wide_cases wide) u.ce u.cd he hd u.aIn u.aOut u.bIn u.bOut src u.outSize (src.length + u.more) hl' (by omega)
      rw [h1] at h
      cases h
      simp only [Stage.back, h2, h3, TRes.written]
  | bit8 =>
    simp only at h
    by_cases hl : u.outSize < src.length
    · rw [bitmmtf8Encode, bitApi_small hl] at h; cases h
    · obtain ⟨c, h1, h2, h3⟩ := C13_bitmmtf8_roundtrip src u.outSize (src.length + u.more) (by omega) (by omega)
      rw [h1] at h
      cases h
      simp only [Stage.back, h2, h3, TRes.written]
  | bit16 =>
    simp only at h
    by_cases hl : u.outSize < src.length
    · rw [bitmmtf16Encode, bitApi_small hl] at h; cases h
    · obtain ⟨c, h1, h2, h3⟩ := C13_bitmmtf16_roundtrip src u.outSize (src.length + u.more) (by omega) (by omega)
      rw [h1] at h
      cases h
      simp only [Stage.back, h2, h3, TRes.written]
  | codec row =>
    simp only at h
    obtain ⟨ret, hc⟩ := CRes.written_some h
    have h0 : 0 < src.length := by
      rcases Nat.eq_zero_or_pos src.length with e | e
      · rw [(C50_refusal row.comp u.ce u.junk u.held _ _ true u.outSize).mpr (.inr (.inr (.inl e)))] at hc
        cases hc
      · exact e
    have hst : (Item.mk (withPast src u.past) src.length u.ce u.outSize u.junk u.held).stored row.comp code := ⟨h0, by simp only; omega, ho, ret, hc⟩
    simp only [Stage.back]
    rw [readOne_stored hs.1 hs.2.1 hs.2.2 hst _ _ (by simp)]
    simp only [Option.map_some, Item.bytes, rd_withPast]

/-! ### The property -/

/-- C81: whatever the order of the stages, and whatever processors, addresses, buffers and left-overs the calls have around them, undoing the stages in
the opposite order restores the data. Missing: the two low entropy codecs of C07 and C08. -/
theorem C81_chain_partial (ss : List (Stage × Around))
    (h : ∀ x ∈ ss, x.1.covered ∧ x.2.ce.sse2 = true ∧ x.2.cd.sse2 = true ∧ x.2.outSize < 4294967296) (src out : List Byte)
    (e : forthAll ss src = some out) : backAll ss out = some src := by
  induction ss generalizing src with
  | nil => simp only [forthAll, Option.some.injEq] at e; rw [e]; rfl
  | cons x xs ih =>
    obtain ⟨s, u⟩ := x
    obtain ⟨h1, h2, h3, h4⟩ := h (s, u) (by simp)
    simp only [forthAll] at e
    cases hc : s.forth u src with
    | none => rw [hc] at e; cases e
    | some code =>
      rw [hc] at e
      simp only [backAll, ih (fun y hy => h y (by simp [hy])) code e, Option.bind_some]
      exact s.undo u h1 h2 h3 h4 hc

/-- C81: so no two files give the same result. -/
theorem C81_injective_partial (ss : List (Stage × Around))
    (h : ∀ x ∈ ss, x.1.covered ∧ x.2.ce.sse2 = true ∧ x.2.cd.sse2 = true ∧ x.2.outSize < 4294967296) (src src' out : List Byte)
    (e : forthAll ss src = some out) (e' : forthAll ss src' = some out) : src = src' := by
  have := (C81_chain_partial ss h src out e).symm.trans (C81_chain_partial ss h src' out e')
  exact Option.some.inj this

theorem room_mono {a b : Nat} (h : a ≤ b) : room a ≤ room b := by
  unfold room
  have : a / 221 ≤ b / 221 := Nat.div_le_div_right h
  omega

theorem roomAfter_mono (k : Nat) : ∀ {a b : Nat}, a ≤ b → roomAfter k a ≤ roomAfter k b := by
  induction k with
  | zero => intro a b h; exact h
  | succ k ih => intro a b h; exact ih (room_mono h)

theorem roomAfter_ge (k : Nat) : ∀ a : Nat, a ≤ roomAfter k a := by
  induction k with
  | zero => intro a; exact Nat.le_refl _
  | succ k ih => intro a; exact Nat.le_trans (by unfold room; omega) (ih (room a))

theorem TRes.written_ok {ret : Nat} {out : List Byte} : (TRes.ok ret out).written = some out := rfl

theorem Stage.forth_ok (s : Stage) (u : Around) (hs : s.covered) (he : u.ce.sse2 = true) (ho : u.outSize < 4294967296) {src : List Byte} (h0 : 0 < src.length)
    (hn : src.length ≤ maxInput) (hr : room src.length ≤ u.outSize)
    (hu : ∀ row, s = .codec row → src.length ≤ row.comp.upTo ∨ row.comp = .rsh ∨ row.comp = .mm ∨ ∃ b, row.comp = .le b true) :
    ∃ code, s.forth u src = some code ∧ 0 < code.length ∧ code.length ≤ room src.length := by
  have hl : src.length ≤ u.outSize := by unfold room at hr; omega
  have hself : src.length ≤ room src.length := by unfold room; omega
  unfold Stage.forth
  rw [if_neg (by omega)]
  cases s with
  | mmtf wide =>
    obtain ⟨c, h1, h2, _⟩ := C11_mmtf_roundtrip _ (wide_cases wide) u.ce u.ce he he u.aIn u.aOut u.bIn u.bOut src u.outSize src.length hl (Nat.le_refl _)
    exact ⟨c, by simp only [h1, TRes.written_ok], by omega, by omega⟩
  | bit8 =>
    obtain ⟨c, h1, h2, _⟩ := C13_bitmmtf8_roundtrip src u.outSize src.length hl (Nat.le_refl _)
    exact ⟨c, by simp only [h1, TRes.written_ok], by omega, by omega⟩
  | bit16 =>
    obtain ⟨c, h1, h2, _⟩ := C13_bitmmtf16_roundtrip src u.outSize src.length hl (Nat.le_refl _)
    exact ⟨c, by simp only [h1, TRes.written_ok], by omega, by omega⟩
  | codec row =>
    have key : table.all (fun r => decide r.comp.exists?) = true := by decide +kernel
    have hk := List.all_eq_true.mp key row hs.1
    rw [decide_eq_true_eq] at hk
    have hb := bounds_of_le hn
    have fin : ∀ (size : Nat) (out : List Byte), size ≤ room src.length → out.length ≤ room src.length →
        row.comp.run u.ce u.junk (fun _ => 0) (some (withPast src u.past)) src.length true size = .ok out.length out →
        ∃ code, (row.comp.run u.ce u.junk u.held (some (withPast src u.past)) src.length true u.outSize).written = some code ∧
          0 < code.length ∧ code.length ≤ room src.length := by
      intro size out h1 h2 h3
      have h4 := C50_room row.comp u.ce u.junk _ _ size u.outSize out.length out _ u.held (by omega) ho h3
      have h5 := (stored_header (x := ⟨withPast src u.past, src.length, u.ce, u.outSize, u.junk, u.held⟩) (f := row.comp) (out := out)
        ⟨h0, hn, ho, _, h4⟩).2 []
      refine ⟨out, by rw [h4]; rfl, ?_, h2⟩
      cases out with
      | nil => simp [sizes, rdU32] at h5
      | cons => simp
    unfold maxInput at hn
    rcases hu row rfl with h | e | e | ⟨b, e⟩
    · obtain ⟨out, h1, h2⟩ := row.comp.fits hk u.ce u.junk (fun _ => 0) (inp := withPast src u.past) h0 h
      exact fin _ out (by unfold room; omega) (by unfold room; omega) h1
    · obtain ⟨out, h1, h2⟩ := C20_sh_partial (fun _ => 0) (withPast src u.past) src.length (src.length + src.length / 221 + 18) h0 hn (Nat.le_refl _) (by omega)
      exact fin (src.length + src.length / 221 + 18) out (by unfold room; omega) (by unfold room; omega) (by rw [e]; exact h1)
    · obtain ⟨out, h1, h2⟩ := C20_mmtf128_partial u.junk (fun _ => 0) (withPast src u.past) src.length (src.length + 13) h0 hn (Nat.le_refl _)
      exact fin (src.length + 13) out (by unfold room; omega) (by unfold room; omega) (by rw [e]; exact h1)
    · have hle : leBounds src.length = src.length + 297 := Nat.mod_eq_of_lt (by omega)
      obtain ⟨out, h1, h2⟩ := C20_low_entropy_only_max_fits b (withPast src u.past) src.length (leBounds src.length) h0 hn (Nat.le_refl _) (by omega)
      exact fin (leBounds src.length) out (by rw [hle]; unfold room; omega) (by rw [hle] at h2; unfold room; omega) (by rw [e]; exact h1)

/-- C81: no stage fails either, if the buffers have the room `k` stages can need. Missing: data that is or becomes larger than the codec of a stage can take
with certainty (`CName.upTo`, C75). -/
theorem C81_total_partial (ss : List (Stage × Around)) (src : List Byte) (h0 : 0 < src.length) (hM : roomAfter ss.length src.length ≤ maxInput)
    (h : ∀ x ∈ ss, x.1.covered ∧ x.2.ce.sse2 = true ∧ x.2.cd.sse2 = true ∧ roomAfter ss.length src.length ≤ x.2.outSize ∧ x.2.outSize < 4294967296 ∧
      ∀ row, x.1 = .codec row →
        roomAfter ss.length src.length ≤ row.comp.upTo ∨ row.comp = .rsh ∨ row.comp = .mm ∨ ∃ b, row.comp = .le b true) :
    ∃ out, forthAll ss src = some out ∧ out.length ≤ roomAfter ss.length src.length ∧ backAll ss out = some src := by
  have key : ∀ (ss : List (Stage × Around)) (M : Nat) (src : List Byte), 0 < src.length → roomAfter ss.length src.length ≤ M → M ≤ maxInput →
      (∀ x ∈ ss, x.1.covered ∧ x.2.ce.sse2 = true ∧ M ≤ x.2.outSize ∧ x.2.outSize < 4294967296 ∧
        ∀ row, x.1 = .codec row → M ≤ row.comp.upTo ∨ row.comp = .rsh ∨ row.comp = .mm ∨ ∃ b, row.comp = .le b true) →
      ∃ out, forthAll ss src = some out ∧ out.length ≤ M := by
    intro ss
    induction ss with
    | nil => intro M src _ h1 _ _; exact ⟨src, rfl, h1⟩
    | cons x xs ih =>
      intro M src h0 h1 h2 h
      obtain ⟨s, u⟩ := x
      obtain ⟨g1, g2, g3, g4, g5⟩ := h (s, u) (by simp)
      have h3 : roomAfter xs.length (room src.length) ≤ M := h1
      have h4 := roomAfter_ge xs.length (room src.length)
      have h5 : src.length ≤ room src.length := by unfold room; omega
      simp only at g3 g4
      obtain ⟨code, e, c0, c1⟩ := s.forth_ok u g1 g2 g4 h0 (by omega) (by omega) (fun row hrow => by
        rcases g5 row hrow with h | h
        · exact .inl (by omega)
        · exact .inr h)
      have h6 := roomAfter_mono xs.length c1
      obtain ⟨out, e', l⟩ := ih M code c0 (by omega) h2 (fun y hy => h y (by simp [hy]))
      exact ⟨out, by simp only [forthAll, e, Option.bind_some, e'], l⟩
  obtain ⟨out, e, l⟩ := key ss _ src h0 (Nat.le_refl _) hM (fun x hx => by
    obtain ⟨a, b, _, d, f, g⟩ := h x hx
    exact ⟨a, b, d, f, g⟩)
  exact ⟨out, e, l, C81_chain_partial ss (fun x hx => by
    obtain ⟨a, b, c, _, f, _⟩ := h x hx
    exact ⟨a, b, c, f⟩) src out e⟩

/-! ### The hypotheses can be met -/

/-- 3000 bytes of room and AVX2 forth, 7 bytes more than necessary and no more than SSE2 back, odd addresses. -/
def anAround : Around := ⟨withAvx2, 3, 5, 3000, fun _ => 0, fun _ => 0xAA, fun _ => 0x55, noSimd, 1, 9, 7, fun k => b8 k, fun _ => 0xCC⟩

/-- `mmtf256`, `bitmmtf16`, `rle16_3symlut_byte`, `rle8_sh` and at last `rle8_mmtf128`. -/
def fiveStages : List (Stage × Around) :=
  [(.mmtf true, anAround), (.bit16, { anAround with ce := noSimd, cd := withAvx2 }),
   (.codec ⟨"Extreme16Byte_3SL", .sl 3 2 true, .sl 3 2 true⟩, anAround), (.codec ⟨"Rle8SH", .rsh, .rsh⟩, anAround),
   (.codec ⟨"Extreme8MultiMTF128", .mm, .mm⟩, { anAround with m := fun _ => 1 })]

example : ∃ out, forthAll fiveStages (rd sampleInp 0 60) = some out ∧ out.length ≤ 1880 ∧ backAll fiveStages out = some (rd sampleInp 0 60) := by
  have hl : (rd sampleInp 0 60).length = 60 := rd_length _ _ _
  have hr : roomAfter fiveStages.length (rd sampleInp 0 60).length = 1880 := by rw [hl]; decide
  have := C81_total_partial fiveStages (rd sampleInp 0 60) (by omega) (by rw [hr]; decide) (fun x hx => ?_)
  · rw [hr] at this; exact this
  · rw [hr]
    simp only [fiveStages, List.mem_cons, List.not_mem_nil, or_false] at hx
    rcases hx with rfl | rfl | rfl | rfl | rfl
    · exact ⟨trivial, rfl, rfl, by decide, by decide, fun row h => by cases h⟩
    · exact ⟨trivial, rfl, rfl, by decide, by decide, fun row h => by cases h⟩
    · exact ⟨⟨by decide +kernel, by decide, by decide⟩, rfl, rfl, by decide, by decide, fun row h => by cases h; exact .inl (by decide)⟩
    · exact ⟨⟨by decide +kernel, by decide, by decide⟩, rfl, rfl, by decide, by decide, fun row h => by cases h; exact .inr (.inl rfl)⟩
    · exact ⟨⟨by decide +kernel, by decide, by decide⟩, rfl, rfl, by decide, by decide, fun row h => by cases h; exact .inr (.inr (.inl rfl))⟩

end Hrk
