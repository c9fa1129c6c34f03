import Verif.RecentSpec
import Verif.Codec
import Verif.Spec

/-
What it means that runs are stored in one piece, for the records a decompressor reads.
-/

namespace Hrk

/-- Does the run of `cnt` bytes of `sym` that ends in front of position `p` go on there: by a byte for the codecs that count bytes, by a whole
symbol for those that count symbols? -/
def GoesOn (S : Nat) (unb : Bool) (inp : Mem) (sym : List Byte) (cnt p : Nat) : Prop :=
  if unb then inp p = sym.getD (cnt % S) 0 else rd inp p S = sym

/-- The run ends here: it does not go on, or fewer than `g` bytes of the input are left. -/
def RunEnds (S g : Nat) (unb : Bool) (inp : Mem) (n : Nat) (sym : List Byte) (cnt p : Nat) : Prop :=
  n < p + g ∨ ¬ GoesOn S unb inp sym cnt p

/-- With its header parser `hdr` and from the state `fs` a decompressor reads the records `rs` from `src`; then its state is `fs'` and `src'` is
left. -/
def ReadsRecs {σ : Type} (hdr : σ → List Byte → Option (Hdr σ)) : σ → List Byte → List Rec → σ → List Byte → Prop
  | fs, src, [], fs', src' => fs = fs' ∧ src = src'
  | fs, src, r :: rs, fs', src' => ∃ f t, hdr fs src = some (.go r.lits.length r.sym (some r.count) f (r.lits ++ t)) ∧ ReadsRecs hdr f t rs fs' src'

/-- No run of the records ends before it has to. -/
def AllEnd (S g : Nat) (unb : Bool) (inp : Mem) (n : Nat) (rs : List Rec) : Prop :=
  ∀ A r B, rs = A ++ r :: B → RunEnds S g unb inp n r.sym r.count ((A ++ [r]).flatMap Rec.plain).length

/-- What the decompressor finds behind the records: the end, or a last piece of bytes as they are. -/
def LastPiece {σ : Type} (hdr : σ → List Byte → Option (Hdr σ)) (fs : σ) (src rest : List Byte) : Prop :=
  rest = [] ∧ (hdr fs src = some .ret ∨ ∃ l, hdr fs src = some (.wrap none l)) ∨
    ∃ sym f t, hdr fs src = some (.go rest.length sym none f (rest ++ t))

/-- What the decompressor (`start`: the bytes in front of the records, `hdr`: the header of a record) reads in every output of a compressor are
records and a last piece that stand for the input and at most `S` bytes behind it, and no run ends before it has to. -/
def RunsWhole {σ : Type} (S g : Nat) (unb : Bool) (start : List Byte → Option (Option (σ × List Byte)))
    (hdr : σ → List Byte → Option (Hdr σ)) (comp : Compress) : Prop :=
  ∀ inp n outSize ret out, n ≤ maxInput → comp (some inp) n true outSize = .ok ret out →
    ∃ fs src rs fs' src' rest T, start (out.drop 8) = some (some (fs, src)) ∧ ReadsRecs hdr fs src rs fs' src' ∧ LastPiece hdr fs' src' rest ∧
      rs.flatMap Rec.plain ++ rest = rd inp 0 T ∧ n ≤ T ∧ T ≤ n + S ∧ AllEnd S g unb inp n rs

end Hrk
