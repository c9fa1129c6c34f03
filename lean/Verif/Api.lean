import Verif.Spec
import Verif.Stream

/-
The argument checks and headers shared by the run-length codecs.
-/

namespace Hrk

/-- The common shape of `*_compress` (src/rleX_extreme_cpu_encode.h:16-24, 605-608): argument
checks, the two header words (and `extra`, e.g. a mode byte), the encoded body. The
body may depend on the input only; `none` means it does not terminate. -/
def apiCompress (body : Mem → Nat → Option (List Byte)) : Compress :=
  fun pIn inSize pOut outSize =>
    match pIn with
    | none => .fail
    | some inp =>
      if inSize = 0 ∨ pOut = false ∨ outSize < bounds inSize then .fail
      else
        match body inp inSize with
        | none => .hang
        | some b =>
          if (le32 inSize ++ le32 (8 + b.length) ++ b).length ≤ outSize then
            .ok ((8 + b.length) % 4294967296) (le32 inSize ++ le32 (8 + b.length) ++ b)
          else .ub

/-- The common shape of `*_decompress` (src/rleX_extreme_cpu.h:82-111): argument checks, the
header words, what comes before the first record (`start`, e.g. a mode byte; `none` = read
past the source, `some none` = `return 0`), then the decoder loop. `rle8_decompress`
(src/rle8_extreme_cpu.h:702-764) loads the mode byte before it compares the sizes: see `R8Cfg.decompress`. -/
def apiDecompress {σ : Type} (start : List Byte → Option (Option (σ × List Byte)))
    (hdr : σ → List Byte → Option (Hdr σ)) (v : DecV) : Decompress :=
  fun a =>
    match a.pIn, a.pOut with
    | none, _ => .fail
    | _, none => .fail
    | some src, some m =>
      if a.inSize = 0 ∨ a.outSize = 0 then .fail
      else
        match rdU32 src with
        | none => .ub
        | some (expOut, r) =>
          match rdU32 r with
          | none => .ub
          | some (expIn, r) =>
            if expOut > a.outSize ∨ expIn > a.inSize then .fail
            else
              match start r with
              | none => .ub
              | some none => .fail
              | some (some (fs, r')) =>
                match loop (decMStep hdr v a.aIn a.aOut a.cap) (r'.length + 1)
                  ⟨fs, r', 8 + (r.length - r'.length), 0, m⟩ with
                | none => .hang
                | some none => .ub
                | some (some m') => .ok expOut m'

theorem bounds_of_le {n : Nat} (h : n ≤ maxInput) : bounds n = n + 193 := by
  unfold bounds maxInput at *
  rw [if_neg (by omega)]

/-- A loop that produced a result through `join` produced it. -/
theorem join_eq_some {α : Type} {x : Option (Option α)} {y : α} (h : x.join = some y) : x = some (some y) := by
  cases x with
  | none => simp at h
  | some z => simpa using h

/-- A body compressor whose output is decoded by the scalar decoder gives
a codec that round-trips, with any decoder variant whose vectors fit the slack. -/
theorem roundTripUpTo_of_decS {lim : Nat} (hlim : lim < 4294967296) {σ : Type} (start : List Byte → Option (Option (σ × List Byte)))
    (hdr : σ → List Byte → Option (Hdr σ)) {P : σ → Prop} {S : Nat} (v : DecV)
    (body : Mem → Nat → Option (List Byte)) (hS : S + 112 ≤ 128) (hH : HdrOK hdr P S)
    (hW : 0 < v.copyW) (hW2 : v.copyW ≤ 64) (hk : v.setK.ok S) (hk2 : v.setK.width ≤ 112)
    (hb : ∀ inp n b, 0 < n → n ≤ lim → body inp n = some b →
      ∃ fs r T, P fs ∧ (∀ tail, start (b ++ tail) = some (some (fs, r ++ tail))) ∧
        n ≤ T ∧ T ≤ n + S ∧ ∀ K tail, K ≤ tail.length →
        decS hdr K (r.length + 1) ⟨fs, r ++ tail, []⟩ = some (rd inp 0 T)) :
    RoundTripUpTo lim (apiCompress body) (apiDecompress start hdr v) := by
  intro inp n outSize ret out hn hn2 hc slack m a hsl hpi hin hpo ho hcap
  simp only [apiCompress] at hc
  split at hc
  · cases hc
  · split at hc
    · cases hc
    · next b hbody =>
      split at hc
      · cases hc
        obtain ⟨fs, r, T, hP, hst, hT1, hT2, hd⟩ := hb inp n b hn hn2 hbody
        have hd := hd v.copyW slack (by omega)
        simp only [addSize] at *
        obtain ⟨m', h1, h2, h3⟩ := decM_refines hH v hW hk a.aIn a.aOut a.cap 112 (by omega) hk2 _ _ _
          (8 + ((b ++ slack).length - (r ++ slack).length)) m
          hd hP (by intro k hk; simp at hk) (by simp; omega)
        have h1' : loop (decMStep hdr v a.aIn a.aOut a.cap) ((r ++ slack).length + 1)
            ⟨fs, r ++ slack, 8 + ((b ++ slack).length - (r ++ slack).length), 0, m⟩ = some (some m') :=
          loop_mono _ ((r ++ slack).length + 1) _ _ (join_eq_some h1) (by simp)
        refine ⟨m', ?_, ?_, fun k hk => h3 k (by simp; omega)⟩
        · simp only [apiDecompress, hpi, hpo]
          simp only [List.length_append, le32_length] at hin
          rw [if_neg (by omega)]
          simp only [List.append_assoc, rdU32_le32]
          rw [if_neg (by omega)]
          simp only [hst, h1']
          congr 1
          omega
        · intro k hk
          have := h2 k (by simp; omega)
          rw [this, rd_getD _ _ _ _ _ (by omega), Nat.zero_add]
      · cases hc

theorem fitsUpTo_of_size (lim : Nat) (body : Mem → Nat → Option (List Byte))
    (hb : ∀ inp n, 0 < n → n ≤ lim → ∃ b, body inp n = some b ∧ b.length ≤ n + 185) :
    FitsUpTo lim bounds (apiCompress body) := by
  intro inp n outSize hn hn2 hlim ho ho2
  obtain ⟨b, h1, h2⟩ := hb inp n hn hlim
  have hbn := bounds_of_le hn2
  refine ⟨le32 n ++ le32 (8 + b.length) ++ b, ?_, ?_⟩
  · simp only [apiCompress]
    rw [if_neg (by simp; omega)]
    simp only [h1]
    rw [if_pos (by simp; omega)]
    congr 1
    simp
    omega
  · simp; omega

theorem fitsBounds_of_size (body : Mem → Nat → Option (List Byte))
    (hb : ∀ inp n, 0 < n → n ≤ maxInput → ∃ b, body inp n = some b ∧ b.length ≤ n + 185) :
    FitsBounds bounds (apiCompress body) := fun inp n outSize h1 h2 h3 h4 =>
  fitsUpTo_of_size maxInput body hb inp n outSize h1 h2 h2 h3 h4

end Hrk
