import Verif.Basic

/-
The specification the property theorems are stated against. It knows nothing
about stream formats, SIMD or the encoders: only about the C calling
conventions of `compress` and `decompress`.
-/

namespace Hrk

/-- Outcome of a `compress` call.
* `fail`: returned 0, nothing written.
* `giveUp`: returned 0, having written something inside the caller's output buffer.
* `ub`: wrote outside the caller's output buffer.
* `hang`: never returned.
* `ok ret out`: returned `ret`, having written `out` to the start of `pOut`. -/
inductive CRes where
  | fail
  | giveUp
  | ub
  | hang
  | ok (ret : Nat) (out : List Byte)
  deriving DecidableEq

/-- Outcome of a `decompress` call.
* `fail`: returned 0, nothing written.
* `ub`: accessed memory outside the buffers.
* `hang`: never returned.
* `ok ret m`: returned `ret`; the output buffer now holds `m`. -/
inductive DRes where
  | fail
  | ub
  | hang
  | ok (ret : Nat) (m : Mem)

/-- `compress(pIn, inSize, pOut, outSize)`. `none`/`false` is a NULL pointer. The
memory behind the first `inSize` bytes of `pIn` is part of `pIn`. `outSize` is
also the real size of the output buffer. -/
abbrev Compress := (pIn : Option Mem) → (inSize : Nat) → (pOut : Bool) → (outSize : Nat) → CRes

/-- The buffers of a `decompress` call: `src` is everything readable at `pIn`,
`cap` everything writable at `pOut`, `aIn`/`aOut` are the two addresses. -/
structure DArgs where
  pIn : Option (List Byte)
  inSize : Nat
  pOut : Option Mem
  outSize : Nat
  cap : Nat
  aIn : Nat
  aOut : Nat

/-- `decompress(pIn, inSize, pOut, outSize)`. -/
abbrev Decompress := DArgs → DRes

/-- The largest input the library supports (`rle_compress_bounds`). -/
def maxInput : Nat := 1073741824

/-- `rle_compress_bounds`, src/rle8_extreme_cpu.c:22-28. -/
def bounds (n : Nat) : Nat :=
  if n > 1073741824 then 0 else n + (16 + 4 + 1 + 4 + 1 + 64) * 2 + (3 * 4) + 1

/-- `rle_decompress_additional_size`, src/rle8_extreme_cpu.c:17-20. -/
def addSize : Nat := 128

/-- `pOut` of size at least `bnd inSize` suffices: compression succeeds, does not
leave the buffer, and returns at most `bnd inSize`. -/
def FitsBounds (bnd : Nat → Nat) (comp : Compress) : Prop :=
  ∀ (inp : Mem) (n outSize : Nat), 0 < n → n ≤ maxInput → bnd n ≤ outSize → outSize < 4294967296 →
    ∃ out, comp (some inp) n true outSize = .ok out.length out ∧ out.length ≤ bnd n

/-- The same for inputs of at most `lim` bytes. -/
def FitsUpTo (lim : Nat) (bnd : Nat → Nat) (comp : Compress) : Prop :=
  ∀ (inp : Mem) (n outSize : Nat), 0 < n → n ≤ maxInput → n ≤ lim → bnd n ≤ outSize → outSize < 4294967296 →
    ∃ out, comp (some inp) n true outSize = .ok out.length out ∧ out.length ≤ bnd n

/-- A successful compression expands its input by at most `a` bytes, plus `e` bytes for
every `L` bytes of input. -/
def GrowsAtMost (a e L : Nat) (comp : Compress) : Prop :=
  ∀ (inp : Mem) (n outSize ret : Nat) (out : List Byte), comp (some inp) n true outSize = .ok ret out →
    out.length ≤ n + a + e * (n / L)

/-- Decompressing what was compressed gives the input back. The caller passes
the stream followed by `slack` (at least 64 readable bytes; their content is
arbitrary), an `inSize` covering the stream, an `outSize` of at least `n`, and a
buffer of at least `n + 128` bytes. Then decompression returns `n`, the first
`n` bytes of the buffer are the input, and nothing beyond `n + 128` changed. -/
def RoundTrip (comp : Compress) (decomp : Decompress) : Prop :=
  ∀ (inp : Mem) (n outSize ret : Nat) (out : List Byte), 0 < n → n ≤ maxInput →
    comp (some inp) n true outSize = .ok ret out →
    ∀ (slack : List Byte) (m : Mem) (a : DArgs), 64 ≤ slack.length →
      a.pIn = some (out ++ slack) → out.length ≤ a.inSize → a.pOut = some m →
      n ≤ a.outSize → n + addSize ≤ a.cap →
      ∃ m', decomp a = .ok n m' ∧ (∀ k, k < n → m' k = inp k) ∧
        (∀ k, n + addSize ≤ k → m' k = m k)

/-- The same for every input of at most `lim` bytes, whether or not the library claims to support that size. -/
def RoundTripUpTo (lim : Nat) (comp : Compress) (decomp : Decompress) : Prop :=
  ∀ (inp : Mem) (n outSize ret : Nat) (out : List Byte), 0 < n → n ≤ lim →
    comp (some inp) n true outSize = .ok ret out →
    ∀ (slack : List Byte) (m : Mem) (a : DArgs), 64 ≤ slack.length →
      a.pIn = some (out ++ slack) → out.length ≤ a.inSize → a.pOut = some m →
      n ≤ a.outSize → n + addSize ≤ a.cap →
      ∃ m', decomp a = .ok n m' ∧ (∀ k, k < n → m' k = inp k) ∧
        (∀ k, n + addSize ≤ k → m' k = m k)

/-- The stream starts with the uncompressed and the compressed size, `compress`
returns the latter, which is the number of bytes it wrote, and `decompress`
returns the former. -/
def HeaderTruthful (comp : Compress) (decomp : Decompress) : Prop :=
  (∀ inp n outSize ret out, n < 4294967296 → outSize < 4294967296 →
    comp (some inp) n true outSize = .ok ret out →
      ret = out.length ∧ ∃ body, out = le32 n ++ le32 ret ++ body) ∧
  (∀ a r m', decomp a = .ok r m' → ∃ src rest, a.pIn = some src ∧ rdU32 src = some (r, rest))

/-- `compress` returns 0 without touching anything when it has to. -/
def CompressGuards (bnd : Nat → Nat) (comp : Compress) : Prop :=
  ∀ pIn n pOut outSize, (pIn = none ∨ pOut = false ∨ n = 0 ∨ outSize < bnd n) →
    comp pIn n pOut outSize = .fail

/-- `decompress` returns 0 without touching anything when a pointer is NULL or a
size is 0, and when the stored sizes `x` (uncompressed) or `y` (compressed) do
not fit. -/
def DecompressGuards (decomp : Decompress) : Prop :=
  (∀ a, (a.pIn = none ∨ a.pOut = none ∨ a.inSize = 0 ∨ a.outSize = 0) → decomp a = .fail) ∧
  (∀ a x y rest, x < 4294967296 → y < 4294967296 → a.pIn = some (le32 x ++ le32 y ++ rest) →
    (a.outSize < x ∨ a.inSize < y) → decomp a = .fail)

/-- The same when at least one byte can be read behind the sizes. -/
def DecompressGuardsNext (decomp : Decompress) : Prop :=
  (∀ a, (a.pIn = none ∨ a.pOut = none ∨ a.inSize = 0 ∨ a.outSize = 0) → decomp a = .fail) ∧
  (∀ a x y next rest, x < 4294967296 → y < 4294967296 → a.pIn = some (le32 x ++ le32 y ++ next :: rest) →
    (a.outSize < x ∨ a.inSize < y) → decomp a = .fail)

theorem DecompressGuards.next {decomp : Decompress} (h : DecompressGuards decomp) : DecompressGuardsNext decomp :=
  ⟨h.1, fun a x y _ _ => h.2 a x y _⟩

/-- Bytes behind the stream do not matter: with `t` appended to the stream (and
counted in `inSize`) the result is the same as without. -/
def TrailingIgnored (comp : Compress) (decomp : Decompress) : Prop :=
  ∀ (inp : Mem) (n outSize ret : Nat) (out : List Byte), 0 < n → n ≤ maxInput →
    comp (some inp) n true outSize = .ok ret out →
    ∀ (t slack₁ slack₂ : List Byte) (m : Mem) (a : DArgs), 64 ≤ slack₁.length → 64 ≤ slack₂.length →
      a.pOut = some m → n ≤ a.outSize → n + addSize ≤ a.cap →
      ∃ m₁ m₂,
        decomp { a with pIn := some (out ++ slack₁), inSize := out.length } = .ok n m₁ ∧
        decomp { a with pIn := some (out ++ t ++ slack₂), inSize := out.length + t.length } = .ok n m₂ ∧
        ∀ k, k < n → m₁ k = m₂ k

/-- Decompressing a compressed stream never leaves an output buffer of exactly
`n + 128` bytes and never reads more than 64 bytes behind the stream. -/
def StaysInside (comp : Compress) (decomp : Decompress) : Prop :=
  ∀ (inp : Mem) (n outSize ret : Nat) (out : List Byte), 0 < n → n ≤ maxInput →
    outSize < 4294967296 → comp (some inp) n true outSize = .ok ret out →
    ∀ (slack : List Byte) (m : Mem) (a : DArgs), slack.length = 64 →
      a.pIn = some (out ++ slack) → a.pOut = some m → a.cap = n + 128 →
      decomp a ≠ .ub

/-- If some decoder variant returns on `src`, then `src` stands for some `out`, and
`out` is what the variant wrote. `ref` is the sequence of bytes a byte string
stands for. -/
def PortableSound {ι : Type} (ref : List Byte → Option (List Byte)) (variants : ι → Decompress) : Prop :=
  ∀ i src (a : DArgs) r m', a.pIn = some src → variants i a = .ok r m' →
    ∃ out, ref src = some out ∧ ∀ k, k < out.length → m' k = out.getD k 0

/-- If `src` stands for `out`, then every variant returns on it (given slack) and
writes `out`. -/
def PortableComplete {ι : Type} (ref : List Byte → Option (List Byte)) (variants : ι → Decompress) : Prop :=
  ∀ src out, ref src = some out → ∀ x y rest, rdU32 src = some (x, rest) →
    (∃ rest', rdU32 rest = some (y, rest')) →
    ∀ i slack (a : DArgs) m, 64 ≤ slack.length → a.pIn = some (src ++ slack) → a.pOut = some m →
      0 < a.inSize → 0 < a.outSize → x ≤ a.outSize → y ≤ a.inSize → out.length + addSize ≤ a.cap →
      ∃ m', variants i a = .ok x m' ∧ (∀ k, k < out.length → m' k = out.getD k 0) ∧
        ∀ k, out.length + addSize ≤ k → m' k = m k

/-- Every decoder variant, on every byte string, means the same thing. -/
def Portable {ι : Type} (ref : List Byte → Option (List Byte)) (variants : ι → Decompress) : Prop :=
  PortableSound ref variants ∧ PortableComplete ref variants

/-- The output of `compress` is determined by the first `n + ext` bytes at `pIn`. -/
def DependsOnPrefix (ext : Nat) (comp : Compress) : Prop :=
  ∀ (inp inp' : Mem) n pOut outSize, (∀ k, k < n + ext → inp k = inp' k) →
    comp (some inp) n pOut outSize = comp (some inp') n pOut outSize

/-- An input that repeats one symbol of `S` bytes compresses to at most `c` bytes,
whatever its length. -/
def ConstBounded (S c : Nat) (comp : Compress) : Prop :=
  ∀ (inp : Mem) (sym : List Byte) (n outSize ret : Nat) (out : List Byte), sym.length = S → n ≤ maxInput →
    (∀ k, k < n → inp k = sym.getD (k % S) 0) →
    comp (some inp) n true outSize = .ok ret out → out.length ≤ c

/-- Neither direction ever hangs, whatever it is given. -/
def Terminates (comp : Compress) (decomp : Decompress) : Prop :=
  (∀ pIn n pOut outSize, comp pIn n pOut outSize ≠ .hang) ∧ (∀ a, decomp a ≠ .hang)

/-- The round trip of the low entropy codecs, which need no slack at all: the caller passes the stream,
followed by anything (`tail`), and a buffer of at least `n` bytes; decompression returns `n`, the
first `n` bytes of the buffer are the input, and nothing else in it changed. -/
def RoundTripExact (lim : Nat) (comp : Compress) (decomp : Decompress) : Prop :=
  ∀ (inp : Mem) (n outSize ret : Nat) (out : List Byte), 0 < n → n ≤ lim → outSize < 4294967296 →
    comp (some inp) n true outSize = .ok ret out →
    ∀ (tail : List Byte) (m : Mem) (a : DArgs),
      a.pIn = some (out ++ tail) → out.length ≤ a.inSize → a.pOut = some m →
      n ≤ a.outSize → n ≤ a.cap →
      ∃ m', decomp a = .ok n m' ∧ (∀ k, k < n → m' k = inp k) ∧ (∀ k, n ≤ k → m' k = m k)

/-- Decompressing what was compressed from an input in `dom` writes nothing outside a buffer of exactly `n` bytes and
reads nothing behind the stream, whatever the other arguments are. -/
def StaysInsideExact (dom : Mem → Nat → Prop) (comp : Compress) (decomp : Decompress) : Prop :=
  ∀ (inp : Mem) (n outSize ret : Nat) (out : List Byte), 0 < n → n < 4294967296 → outSize < 4294967296 → dom inp n →
    comp (some inp) n true outSize = .ok ret out →
    ∀ (m : Mem) (a : DArgs), a.pIn = some out → a.pOut = some m → a.cap = n → decomp a ≠ .ub

/-- `TrailingIgnored` for inputs in `dom`, and for a codec that needs no slack. -/
def TrailingIgnoredExact (dom : Mem → Nat → Prop) (comp : Compress) (decomp : Decompress) : Prop :=
  ∀ (inp : Mem) (n outSize ret : Nat) (out : List Byte), 0 < n → n < 4294967296 → outSize < 4294967296 → dom inp n →
    comp (some inp) n true outSize = .ok ret out →
    ∀ (t : List Byte) (m : Mem) (a : DArgs), a.pOut = some m → n ≤ a.outSize → n ≤ a.cap →
      ∃ m₁ m₂,
        decomp { a with pIn := some out, inSize := out.length } = .ok n m₁ ∧
        decomp { a with pIn := some (out ++ t), inSize := out.length + t.length } = .ok n m₂ ∧
        ∀ k, m₁ k = m₂ k

/-- `HeaderTruthful` for the codecs that store the compressed size first. -/
def HeaderTruthfulRev (comp : Compress) (decomp : Decompress) : Prop :=
  (∀ inp n outSize ret out, n < 4294967296 → outSize < 4294967296 →
    comp (some inp) n true outSize = .ok ret out →
      ret = out.length ∧ ∃ body, out = le32 ret ++ le32 n ++ body) ∧
  (∀ a r m', decomp a = .ok r m' → ∃ src rest rest' x, a.pIn = some src ∧ rdU32 src = some (x, rest) ∧
    rdU32 rest = some (r, rest'))

/-- `DecompressGuards` for the codecs that store the compressed size `y` first. -/
def DecompressGuardsRev (decomp : Decompress) : Prop :=
  (∀ a, (a.pIn = none ∨ a.pOut = none ∨ a.inSize = 0 ∨ a.outSize = 0) → decomp a = .fail) ∧
  (∀ a x y rest, x < 4294967296 → y < 4294967296 → a.pIn = some (le32 y ++ le32 x ++ rest) →
    (a.outSize < x ∨ a.inSize < y) → decomp a = .fail)

/-- CPU feature flags (src/simd_platform.c:28-53), as far as a dispatcher looks at them. -/
structure Cpu where
  sse2 : Bool
  ssse3 : Bool
  sse41 : Bool
  avx : Bool
  avx2 : Bool
  avx512f : Bool

/-! ### Move to front -/

/-- The symbols `0, 1, ..., 255` in order. -/
def mtfTable : List Byte := (List.range 256).map b8

/-- Textbook move to front coder: write the position of the symbol, move it to the front. -/
def mtf : List Byte → List Byte → List Byte
  | _, [] => []
  | T, x :: xs => b8 (T.idxOf x) :: mtf (x :: T.erase x) xs

/-- Textbook move to front decoder. -/
def unmtf : List Byte → List Byte → List Byte
  | _, [] => []
  | T, i :: is => T.getD i.toNat 0 :: unmtf (T.getD i.toNat 0 :: T.eraseIdx i.toNat) is

/-- The elements at positions congruent to `j` modulo `L`, when the list starts at position `i`. -/
def laneAt (L j : Nat) : Nat → List Byte → List Byte
  | _, [] => []
  | i, x :: xs => if i % L = j then x :: laneAt L j (i + 1) xs else laneAt L j (i + 1) xs

/-- Every `L`-th element, from element `j` on. -/
def lane (L j : Nat) (xs : List Byte) : List Byte := laneAt L j 0 xs

/-! ### Bit differences -/

/-- Every byte xor the one before it, the first one xor `p`. -/
def xorDelta : Byte → List Byte → List Byte
  | _, [] => []
  | p, x :: xs => (x ^^^ p) :: xorDelta x xs

/-- The inverse: every byte xor the byte written before it. -/
def xorSum : Byte → List Byte → List Byte
  | _, [] => []
  | p, x :: xs => (x ^^^ p) :: xorSum (x ^^^ p) xs

/-- Every byte xor the byte two places before it; a last single byte is kept as it is. -/
def xorDelta16 : Byte → Byte → List Byte → List Byte
  | p, q, x :: y :: xs => (x ^^^ p) :: (y ^^^ q) :: xorDelta16 x y xs
  | _, _, r => r

/-- The inverse of `xorDelta16`. -/
def xorSum16 : Byte → Byte → List Byte → List Byte
  | p, q, x :: y :: xs => (x ^^^ p) :: (y ^^^ q) :: xorSum16 (x ^^^ p) (y ^^^ q) xs
  | _, _, r => r

end Hrk
