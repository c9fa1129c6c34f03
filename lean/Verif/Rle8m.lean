import Verif.LowEntropyApi

/-
`rle8m`: the low entropy codec with sub-sections that can be decoded independently
(src/rle8_low_entropy_cpu.c:124-250).
-/

namespace Hrk

/-- `rle8m_compress_bounds` (src/rle8_low_entropy_cpu.c:126-129): `2 + subSections - 1 + 1` is `uint32_t`
arithmetic, the multiplication by `sizeof` is not, and the result is cut to 32 bits. -/
def mBounds (k n : Nat) : Nat := (n + 256 / 8 + 1 + 256 + 4 * ((2 + k) % 4294967296)) % 4294967296

/-- Outcome of one call of `compress_with_info` (src/rle8_low_entropy_cpu.c:474-543). -/
inductive SRes where
  | giveUp
  | ub
  | hang
  | ok (d : List Byte)

/-- `rle8_low_entropy_compress_with_info(pIn + start, size, ..., pOut + index, outSize - index)`
(src/rle8_low_entropy_cpu.c:474-477 for the checks). -/
def mSection (x : LeInfo) (inp : Mem) (start size index outSize : Nat) : SRes :=
  if size = 0 then .giveUp
  else if (outSize - index) % 4294967296 < size then .giveUp
  else
    match leEncode 255 x (fun k => inp (start + k)) size with
    | none => .hang
    | some d => if index + d.length ≤ outSize then .ok d else .ub

/-- The sections of `rle8m_compress` (src/rle8_low_entropy_cpu.c:164-186): `cnt` sections of `sz` bytes and a last
one of `last` bytes. The result is the list of their streams. -/
def mSections (x : LeInfo) (inp : Mem) (sz last outSize : Nat) : Nat → Nat → Nat → SRes ⊕ List (List Byte)
  | 0, start, index =>
    match mSection x inp start last index outSize with
    | .ok d => .inr [d]
    | e => .inl e
  | cnt + 1, start, index =>
    match mSection x inp start sz index outSize with
    | .ok d =>
      match mSections x inp sz last outSize cnt (start + sz) (index + d.length) with
      | .inr ds => .inr (d :: ds)
      | .inl e => .inl e
    | e => .inl e

/-- End offsets of the sections (src/rle8_low_entropy_cpu.c:173), all but the last one; each is cut to 32 bits. -/
def mOffsets (index : Nat) : List (List Byte) → List Byte
  | [] => []
  | [_] => []
  | d :: ds => le32 (index + d.length) ++ mOffsets (index + d.length) ds

/-- `rle8m_compress` (src/rle8_low_entropy_cpu.c:131-191). -/
def mCompress (k : Nat) : Compress :=
  fun pIn inSize pOut outSize =>
    match pIn with
    | none => .fail
    | some inp =>
      if inSize = 0 ∨ pOut = false ∨ outSize < mBounds k inSize ∨ k = 0 then .fail
      else
        let x := LeCfg.info ⟨false, false⟩ inp inSize
        let w := writeInfo x
        let index := 12 + 4 * (k - 1)
        if outSize < 12 then .ub
        else if outSize < 256 / 8 + 256 + 1 then .giveUp
        else if outSize < index + w.length then .ub
        else
          let sz := inSize / k
          match mSections x inp sz (inSize - sz * (k - 1)) outSize (k - 1) 0 (index + w.length) with
          | .inl .giveUp => .giveUp
          | .inl .ub => .ub
          | .inl _ => .hang
          | .inr ds =>
            .ok ((index + w.length + ds.flatten.length) % 4294967296)
              (le32 (index + w.length + ds.flatten.length) ++ le32 inSize ++ le32 k ++ mOffsets (index + w.length) ds ++ w ++
                ds.flatten)

/-- The `uint32_t` at `p`, `none` if it is not inside the readable bytes
(src/rle8_low_entropy_cpu.c:198-225). -/
def u32At (src : List Byte) (p : Nat) : Option Nat := (rdU32 (src.drop p)).map (·.1)

/-- The section loop of `rle8m_decompress` and the last section (src/rle8_low_entropy_cpu.c:223-247). `size` always
equals the expected size, because `decompress_with_info` returns its argument. -/
def mDecSections (cpu : Cpu) (x : LeDInfo) (src : List Byte) (inSize aOut cap sz last : Nat) :
    Nat → Nat → Nat → Nat → Mem → Option (Option Mem)
  | 0, _, pos, o, m =>
    leDecode false cpu x (fun k => src.getD k 0) src.length pos inSize aOut cap o last m
  | cnt + 1, i, pos, o, m =>
    match u32At src (12 + 4 * i) with
    | none => some none
    | some pEnd =>
      match leDecode false cpu x (fun k => src.getD k 0) src.length pos pEnd aOut cap o sz m with
      | none => none
      | some none => some none
      | some (some m') => mDecSections cpu x src inSize aOut cap sz last cnt (i + 1) pEnd (o + sz) m'

/-- `rle8m_decompress` (src/rle8_low_entropy_cpu.c:193-250). The end of the last section is `pIn + inSize`, not the
stored size. -/
def mDecompress (cpu : Cpu) : Decompress :=
  fun a =>
    match a.pIn, a.pOut with
    | none, _ => .fail
    | _, none => .fail
    | some src, some m =>
      if a.inSize = 0 ∨ a.outSize = 0 then .fail
      else
        match rdU32 src with
        | none => .ub
        | some (expIn, r) =>
          match rdU32 r with
          | none => .ub
          | some (expOut, r) =>
            if expOut > a.outSize ∨ expIn > a.inSize then .fail
            else
              match rdU32 r with
              | none => .ub
              | some (k, r) =>
                if k = 0 then .fail
                else if r.length < 4 * (k - 1) then .ub
                else
                  match readInfo (r.drop (4 * (k - 1))) with
                  | none => .ub
                  | some (x, r') =>
                    match mDecSections cpu x src a.inSize a.aOut a.cap (expOut / k) (expOut - expOut / k * (k - 1))
                        (k - 1) 0 (src.length - r'.length) 0 m with
                    | none => .hang
                    | some none => .ub
                    | some (some m') => .ok expOut m'

end Hrk
