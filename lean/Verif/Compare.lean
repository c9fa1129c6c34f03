import Verif.Vec

/-
`MemoryEquals`, the comparison the fuzzer validates round trips with
(src/rle_fuzz.c:445-526).
-/

namespace Hrk

/-- `_mm256_load_si256`, `_mm256_stream_load_si256` (`al`) and `_mm256_loadu_si256` of `p + off`
(src/rle_fuzz.c:470-508), where `p` points to the `len` bytes of `a` at address `base`. `none`: the load leaves the buffer, or is
an aligned load from an address that is not a multiple of 32. -/
def ld256 (al : Bool) (base : Nat) (a : Mem) (len off : Nat) : Option Vec :=
  if off + 32 ≤ len ∧ (al = true → (base + off) % 32 = 0) then some fun j => a (off + j) else none

/-- The arguments of `MemoryEquals`: addresses and contents of the buffers, `length`
(src/rle_fuzz.c:445). -/
structure CmpArgs where
  pa : Nat
  pb : Nat
  a : Mem
  b : Mem
  len : Nat

namespace CmpArgs

/-- "if aligned" (src/rle_fuzz.c:461). -/
def aligned (x : CmpArgs) : Bool := x.pa % 32 == 0 && x.pb % 32 == 0

/-- `c = or(c, xor(load(pBufferA + off), load(pBufferB + off)))` (src/rle_fuzz.c:470-473, 482, 496-499, 508). -/
def accum (x : CmpArgs) (off : Nat) (c : Vec) : Option Vec :=
  (ld256 x.aligned x.pa x.a x.len off).bind fun u =>
    (ld256 x.aligned x.pb x.b x.len off).map fun v => vor c (vxor u v)

/-- Variables of the vector loops: `offset`, `cmp` (src/rle_fuzz.c:450-459). -/
structure St where
  off : Nat
  c0 : Vec
  c1 : Vec
  c2 : Vec
  c3 : Vec

/-- One round of the loop over 128 bytes (src/rle_fuzz.c:468-474, 494-500). -/
def step4 (x : CmpArgs) (s : St) : St ⊕ Option St :=
  if s.off < x.len - 128 then
    match x.accum s.off s.c0, x.accum (s.off + 32) s.c1, x.accum (s.off + 64) s.c2, x.accum (s.off + 96) s.c3 with
    | some c0, some c1, some c2, some c3 => .inl ⟨s.off + 128, c0, c1, c2, c3⟩
    | _, _, _, _ => .inr none
  else .inr (some s)

/-- One round of the loop over 32 bytes (src/rle_fuzz.c:481-482, 507-508). -/
def step1 (x : CmpArgs) (s : St) : St ⊕ Option St :=
  if s.off < x.len - 32 then
    match x.accum s.off s.c0 with
    | some c0 => .inl ⟨s.off + 32, c0, s.c1, s.c2, s.c3⟩
    | none => .inr none
  else .inr (some s)

/-- The vector part (src/rle_fuzz.c:450-513); both branches of the alignment test do the same with
different loads. The result is `offset` and `_mm256_movemask_epi8(cmp[0]) != 0`. -/
def simd (x : CmpArgs) : Option (Nat × Bool) :=
  if x.len - 32 = 0 then some (0, false)
  else
    ((if x.len - 128 = 0 then some (some ⟨0, vzero, vzero, vzero, vzero⟩)
      else (loop x.step4 (x.len + 1) ⟨0, vzero, vzero, vzero, vzero⟩).map fun r =>
        r.map fun s => (⟨s.off, vor (vor s.c0 s.c1) (vor s.c2 s.c3), s.c1, s.c2, s.c3⟩ : St)).bind id).bind fun s =>
    ((loop x.step1 (x.len + 1) s).bind id).map fun s => (s.off, decide (movemask 32 s.c0 ≠ 0))

/-- The `uint64_t` loop and the byte loop (src/rle_fuzz.c:515-523). `none`: a load leaves a buffer. -/
def stepTail (x : CmpArgs) (off : Nat) : Nat ⊕ Option Bool :=
  if off < x.len - 8 then
    if off + 8 ≤ x.len then
      if rd x.a off 8 = rd x.b off 8 then .inl (off + 8) else .inr (some false)
    else .inr none
  else if off < x.len then
    if x.a off = x.b off then .inl (off + 1) else .inr (some false)
  else .inr (some true)

/-- `MemoryEquals` (src/rle_fuzz.c:445-526). `none`: a load leaves a buffer or is misaligned, or the
function does not return. -/
def memoryEquals (x : CmpArgs) : Option Bool :=
  x.simd.bind fun r => if r.2 then some false else (loop x.stepTail (x.len + 1) r.1).bind id

end CmpArgs

end Hrk
