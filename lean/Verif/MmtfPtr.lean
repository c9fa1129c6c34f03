import Verif.PropsMtf

/-!
The entry points of `mmtf128` and `mmtf256` with the pointers as the caller passes them.
-/
namespace Hrk

/-- `mmtf128_encode`, `mmtf128_decode` (`L = 16`), `mmtf256_encode` and `mmtf256_decode` (`L = 32`) called with `inSize = n`
(src/mmtf.c:35-105). A pointer is NULL or an address with, at `pIn`, `n` readable bytes. Nothing looks whether a pointer is NULL: the
first byte read or written through it is undefined behaviour, and with `n > 0` every path reads `pIn[0]` and writes `pOut[0]`
(src/mmtf.c:109-819); which of them comes first makes no difference here. -/
def mmtfPtr (L : Nat) (dec : Bool) (cpu : Cpu) (pIn : Option (Nat × Mem)) (n : Nat) (pOut : Option Nat) (outSize : Nat) : TRes :=
  if n > outSize then .fail
  else if cpu.sse2 = false then .fail
  else
    match pIn, pOut with
    | some (aIn, src), some aOut => mmtf L dec cpu aIn aOut (rd src 0 n) outSize
    | _, _ => if n = 0 then .ok 0 [] else .ub

end Hrk
