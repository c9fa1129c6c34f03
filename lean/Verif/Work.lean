import Verif.Api
import Verif.Scan
import Verif.LowEntropy
import Verif.Rle8m
import Verif.RleSh
import Verif.Rle8Mmtf

/-
How much the decompressors do before they return: rounds of their loops, each of which does a bounded amount of work.
Used by C60.
-/

namespace Hrk

/-! ### The model -/

/-- What the rounds of a loop cost altogether, if a round that begins with `s` costs `w s` (every `while` and `for` of the decoders,
e.g. src/rleX_extreme_cpu_decode.h:43). -/
def work {σ ρ : Type} (w : σ → Nat) (body : σ → σ ⊕ ρ) : Nat → σ → Nat
  | 0, _ => 0
  | f + 1, s => w s + match body s with
    | .inl s' => work w body f s'
    | .inr _ => 0

/-- The vector stores of a copy, and the test that ends it (src/rleX_extreme_common.h:32-170). -/
def copyWork (W cap inAddr : Nat) (src : List Byte) (o lit : Nat) (m : Mem) : Nat :=
  if lit ≤ W then 1
  else if inAddr % W ≠ 0 then
    if o + W ≤ cap ∧ W ≤ src.length then
      1 + work (fun _ => 1) (copyBody W cap src o lit) (lit + 1) (wr m o W (fun j => src.getD j 0), W - inAddr % W)
    else 1
  else work (fun _ => 1) (copyBody W cap src o lit) (lit + 1) (m, 0)

/-- The stores of a fill, and the test that ends it (src/rleX_extreme_common.h:172-306). -/
def setWork (k : SetK) (cap outAddr : Nat) (sym : List Byte) (o cnt : Nat) (m : Mem) : Nat :=
  match k with
  | .multi G reg => work (fun _ => 1) (setBody G cap (reg sym) o cnt) (cnt + 1) (m, 0)
  | .aligned W =>
    if cnt ≤ W then 1
    else if outAddr % W ≠ 0 then
      if o + W ≤ cap then
        1 + work (fun _ => 1) (setBody W cap (vset1N sym) o cnt) (cnt + 1) (wr m o W (vset1N sym), W - outAddr % W)
      else 1
    else work (fun _ => 1) (setBody W cap (vset1N sym) o cnt) (cnt + 1) (m, 0)

/-- One iteration of a decoder: its header, its copy and its fill (src/rleX_extreme_cpu_decode.h:43-163). -/
def recWork {σ : Type} (hdr : σ → List Byte → Option (Hdr σ)) (v : DecV) (aIn aOut cap : Nat) (s : MS σ) : Nat :=
  1 + match hdr s.fs s.src with
  | none => 0
  | some .ret => 0
  | some (.wrap _ _) => 1
  | some (.go lit sym cnt _ rest) =>
    let pos := s.pos + (s.src.length - rest.length)
    copyWork v.copyW cap (aIn + pos) rest s.o lit s.m + match memcpyV v.copyW cap (aIn + pos) rest s.o lit s.m with
    | none => 0
    | some m =>
      match cnt with
      | none => 0
      | some c => setWork v.setK cap (aOut + (s.o + lit)) sym (s.o + lit) c m

/-- All iterations of `apiDecompress` (e.g. src/rleX_extreme_cpu.h:82-111). -/
def apiWork {σ : Type} (start : List Byte → Option (Option (σ × List Byte)))
    (hdr : σ → List Byte → Option (Hdr σ)) (v : DecV) (a : DArgs) : Nat :=
  match a.pIn, a.pOut with
  | none, _ => 0
  | _, none => 0
  | some src, some m =>
    if a.inSize = 0 ∨ a.outSize = 0 then 0
    else
      match rdU32 src with
      | none => 0
      | some (expOut, r) =>
        match rdU32 r with
        | none => 0
        | some (expIn, r) =>
          if expOut > a.outSize ∨ expIn > a.inSize then 0
          else
            match start r with
            | some (some (fs, r')) =>
              work (recWork hdr v a.aIn a.aOut a.cap) (decMStep hdr v a.aIn a.aOut a.cap) (r'.length + 1)
                ⟨fs, r', 8 + (r.length - r'.length), 0, m⟩
            | _ => 0

/-- The stores of a run in the vector loops of the low entropy decoders (src/rle8_low_entropy_cpu.c:657-683, 742-768, 803-831, 880-912,
src/rle8_low_entropy_short_cpu.c:248-250, 309-310, 344-351, 400-406). -/
def fillWork (short : Bool) (w aOut o cnt : Nat) : Nat :=
  if short then 2
  else if cnt = 0 then 0
  else if cnt ≤ w then 1
  else
    let un := (aOut + o) % w
    if un ≠ 0 then 1 + (cnt - (w - un) + w - 1) / w else (cnt + w - 1) / w

/-- One round of the vector loop (src/rle8_low_entropy_cpu.c:627-685, 712-770, 779-842, 856-923,
src/rle8_low_entropy_short_cpu.c:218-252, 279-312, 321-362, 376-417). -/
def leFastWork (short : Bool) (w : Nat) (find : Nat → Option Nat) (toCount : Byte → Nat) (src : Mem) (len pEnd aOut cap : Nat) (s : LeS) : Nat :=
  1 + if s.pos + 256 < pEnd ∧ s.pos + w ≤ len ∧ s.o + w ≤ cap then
      match find s.pos with
      | none => 0
      | some k => if s.pos + k + 1 < len then fillWork short w aOut (s.o + k + 1) (toCount (src (s.pos + k + 1))) else 0
    else 0

/-- The stores of a run in the last part of the low entropy decoders (src/rle8_low_entropy_cpu.c:980-1017,
src/rle8_low_entropy_short_cpu.c:490-527). -/
def fillTailWork (aOut o cnt : Nat) : Nat :=
  if cnt < 16 then cnt
  else
    let un := (aOut + o) % 16
    (if un ≠ 0 then 1 else 0) + (if un ≠ 0 then cnt - (16 - un) else cnt) / 16 + 1

/-- One round of the last part (src/rle8_low_entropy_cpu.c:969-1019, src/rle8_low_entropy_short_cpu.c:479-529). -/
def leTailWork (x : LeDInfo) (src : Mem) (len pEnd aOut : Nat) (s : LeS) : Nat :=
  1 + if s.pos < pEnd ∧ s.pos + 1 < len ∧ x.rle (src s.pos) = true then fillTailWork aOut (s.o + 1) (x.toCount (src (s.pos + 1))) else 0

/-- All rounds of `leDecode`; without run symbols the bytes copied (src/rle8_low_entropy_cpu.c:930-1022,
src/rle8_low_entropy_short_cpu.c:440-532). -/
def leWork (short : Bool) (cpu : Cpu) (x : LeDInfo) (src : Mem) (len pos pEnd aOut cap o expOut : Nat) (m : Mem) : Nat :=
  if rleCount x.rle = 0 then (if pos + expOut ≤ len ∧ o + expOut ≤ cap then expOut else 0)
  else
    let single := rleCount x.rle == 1
    let wide := if single then cpu.avx2 else cpu.avx
    let w := if wide then 32 else 16
    let find := if single then maskHit w src (firstRle x.rle) else fun p => firstHit src x.rle p w
    let fill := if short then fillShort (!single && !wide) cap else fillLong w aOut cap
    work (leFastWork short w find x.toCount src len pEnd aOut cap) (leFast w find x.toCount fill src len pEnd cap) (len + 2) ⟨pos, o, m⟩ +
      match loop (leFast w find x.toCount fill src len pEnd cap) (len + 2) ⟨pos, o, m⟩ with
      | some (some s) => work (leTailWork x src len pEnd aOut) (leTail x src len pEnd aOut cap) (len + 2) s
      | _ => 0

/-- `rle8_low_entropy[_short]_decompress` (src/rle8_low_entropy_cpu.c:101-122, src/rle8_low_entropy_short_cpu.c:103-124). -/
def leApiWork (short : Bool) (cpu : Cpu) (a : DArgs) : Nat :=
  match a.pIn, a.pOut with
  | none, _ => 0
  | _, none => 0
  | some src, some m =>
    if a.inSize = 0 ∨ a.outSize = 0 then 0
    else
      match rdU32 src with
      | none => 0
      | some (expIn, r) =>
        match rdU32 r with
        | none => 0
        | some (expOut, r) =>
          if expOut > a.outSize ∨ expIn > a.inSize then 0
          else
            match readInfo r with
            | none => 0
            | some (x, r') => leWork short cpu x (fun k => src.getD k 0) src.length (src.length - r'.length) expIn a.aOut a.cap 0 expOut m

/-- The sections of rle8m (src/rle8_low_entropy_cpu.c:223-247). -/
def mSectionsWork (cpu : Cpu) (x : LeDInfo) (src : List Byte) (inSize aOut cap sz last : Nat) :
    Nat → Nat → Nat → Nat → Mem → Nat
  | 0, _, pos, o, m => leWork false cpu x (fun k => src.getD k 0) src.length pos inSize aOut cap o last m
  | cnt + 1, i, pos, o, m =>
    match u32At src (12 + 4 * i) with
    | none => 0
    | some pEnd =>
      leWork false cpu x (fun k => src.getD k 0) src.length pos pEnd aOut cap o sz m +
        match leDecode false cpu x (fun k => src.getD k 0) src.length pos pEnd aOut cap o sz m with
        | some (some m') => mSectionsWork cpu x src inSize aOut cap sz last cnt (i + 1) pEnd (o + sz) m'
        | _ => 0

/-- `rle8m_decompress` (src/rle8_low_entropy_cpu.c:193-250). -/
def mWork (cpu : Cpu) (a : DArgs) : Nat :=
  match a.pIn, a.pOut with
  | none, _ => 0
  | _, none => 0
  | some src, some m =>
    if a.inSize = 0 ∨ a.outSize = 0 then 0
    else
      match rdU32 src with
      | none => 0
      | some (expIn, r) =>
        match rdU32 r with
        | none => 0
        | some (expOut, r) =>
          if expOut > a.outSize ∨ expIn > a.inSize then 0
          else
            match rdU32 r with
            | none => 0
            | some (k, r) =>
              if k = 0 then 0
              else if r.length < 4 * (k - 1) then 0
              else
                match readInfo (r.drop (4 * (k - 1))) with
                | none => 0
                | some (x, r') =>
                  mSectionsWork cpu x src a.inSize a.aOut a.cap (expOut / k) (expOut - expOut / k * (k - 1))
                      (k - 1) 0 (src.length - r'.length) 0 m

/-- The rounds of `rle8_sh_decompress` and the bytes they store (src/rle_sh.c:509-697). -/
def shWork (a : DArgs) : Nat :=
  match a.pIn, a.pOut with
  | none, _ => 0
  | _, none => 0
  | some src, some m =>
    if a.inSize = 0 ∨ a.outSize = 0 then 0
    else
      match rdU32 src with
      | none => 0
      | some (expOut, r) =>
        match rdU32 r with
        | none => 0
        | some (expIn, r) =>
          if a.outSize < expOut ∨ a.inSize < expIn then 0
          else if expIn = 0 then 0
          else
            match src[expIn - 1]? with
            | none => 0
            | some b =>
              work (fun s => 1 + match shStep src a.cap s with
                | .inl s' => s'.o - s.o
                | .inr _ => 0) (shStep src a.cap) (8 * expIn + 1) ⟨⟨b.toNat, 8, expIn - 1⟩, 0x7F, shSt0, r, 0, m⟩

/-- The sections of `rle8_mmtf128_decompress` and the bytes they store (src/rle8_mmtf.c:649-1291). -/
def mmWork (a : DArgs) : Nat :=
  match a.pIn, a.pOut with
  | none, _ => 0
  | _, none => 0
  | some src, some m =>
    if a.inSize = 0 ∨ a.outSize = 0 then 0
    else
      match rdU32 src with
      | none => 0
      | some (expOut, r) =>
        match rdU32 r with
        | none => 0
        | some (expIn, r) =>
          if expOut > a.outSize ∨ expIn > a.inSize then 0
          else
            work (fun s => 1 + match dcStep a.cap expOut s with
              | .inl s' => s'.o - s.o
              | .inr none => 0
              | .inr (some _) => expOut - s.o) (dcStep a.cap expOut) (r.length + 1) ⟨false, fun r => vset1 (b8 r), r, 0, m⟩

/-! ### Bounds -/

/-- A potential that pays for the rounds; `Q` is what is left of it for the result. -/
theorem work_le {σ ρ : Type} {w : σ → Nat} {body : σ → σ ⊕ ρ} (I : σ → Prop) (A : Nat) (P : σ → Nat) (Q : ρ → Nat)
    (h : ∀ s, I s → match body s with
      | .inl s' => A * w s + P s' ≤ P s ∧ I s'
      | .inr r => A * w s + Q r ≤ P s) :
    ∀ fuel s, I s → A * work w body fuel s + ((loop body fuel s).map Q).getD 0 ≤ P s
  | 0, s, _ => by simp [work, loop]
  | fuel + 1, s, hs => by
    have h1 := h s hs
    rw [work, loop]
    cases hb : body s with
    | inl s' =>
      rw [hb] at h1
      have h2 := work_le I A P Q h fuel s' h1.2
      dsimp only
      rw [Nat.mul_add]
      omega
    | inr r =>
      rw [hb] at h1
      simpa using h1

theorem work_pos_le {W X n : Nat} (hW : 16 ≤ W) (h : n * W ≤ X + 2 * W) : 16 * n ≤ X + 32 := by
  by_cases hn : n ≤ 2
  · omega
  · have h1 : (n - 2) * 16 ≤ (n - 2) * W := Nat.mul_le_mul (Nat.le_refl _) hW
    have h2 : n * W = (n - 2) * W + 2 * W := by rw [← Nat.add_mul]; congr 1; omega
    omega

theorem copyBody_work {W cap : Nat} {src : List Byte} {o lit fuel : Nat} {m : Mem} {r : Nat} (hr : r ≤ W) (hl : W < lit) (ho : o + r ≤ cap) :
    work (fun _ => 1) (copyBody W cap src o lit) fuel (m, r) * W ≤ lit + 2 * W ∧
    work (fun _ => 1) (copyBody W cap src o lit) fuel (m, r) * W ≤ (cap - o) + 2 * W := by
  constructor
  · have := work_le (w := fun _ => 1) (body := copyBody W cap src o lit) (fun s => s.2 < lit + W) W
      (fun s => lit + 2 * W - s.2) (fun _ => 0) (fun s hs => by
        unfold copyBody
        by_cases h1 : s.2 < lit
        · rw [if_pos h1]
          by_cases h2 : o + s.2 + W ≤ cap ∧ s.2 + W ≤ src.length
          · rw [if_pos h2]; dsimp only at hs ⊢; omega
          · rw [if_neg h2]; dsimp only at hs ⊢; omega
        · rw [if_neg h1]; dsimp only at hs ⊢; omega) fuel (m, r) (by show r < lit + W; omega)
    rw [Nat.mul_comm]
    dsimp only at this
    omega
  · have := work_le (w := fun _ => 1) (body := copyBody W cap src o lit) (fun s => o + s.2 ≤ cap) W
      (fun s => cap + W - (o + s.2)) (fun _ => 0) (fun s hs => by
        unfold copyBody
        by_cases h1 : s.2 < lit
        · rw [if_pos h1]
          by_cases h2 : o + s.2 + W ≤ cap ∧ s.2 + W ≤ src.length
          · rw [if_pos h2]; dsimp only at hs ⊢; omega
          · rw [if_neg h2]; dsimp only at hs ⊢; omega
        · rw [if_neg h1]; dsimp only at hs ⊢; omega) fuel (m, r) ho
    rw [Nat.mul_comm]
    dsimp only at this
    omega

theorem setBody_work {W cap : Nat} {reg : Vec} {o cnt fuel : Nat} {m : Mem} {r : Nat} (hr : r ≤ W) (hl : r < cnt + W) (ho : o + r ≤ cap) :
    work (fun _ => 1) (setBody W cap reg o cnt) fuel (m, r) * W ≤ cnt + 2 * W ∧
    work (fun _ => 1) (setBody W cap reg o cnt) fuel (m, r) * W ≤ (cap - o) + 2 * W := by
  constructor
  · have := work_le (w := fun _ => 1) (body := setBody W cap reg o cnt) (fun s => s.2 < cnt + W) W
      (fun s => cnt + 2 * W - s.2) (fun _ => 0) (fun s hs => by
        unfold setBody
        by_cases h1 : s.2 < cnt
        · rw [if_pos h1]
          by_cases h2 : o + s.2 + W ≤ cap
          · rw [if_pos h2]; dsimp only at hs ⊢; omega
          · rw [if_neg h2]; dsimp only at hs ⊢; omega
        · rw [if_neg h1]; dsimp only at hs ⊢; omega) fuel (m, r) hl
    rw [Nat.mul_comm]
    dsimp only at this
    omega
  · have := work_le (w := fun _ => 1) (body := setBody W cap reg o cnt) (fun s => o + s.2 ≤ cap) W
      (fun s => cap + W - (o + s.2)) (fun _ => 0) (fun s hs => by
        unfold setBody
        by_cases h1 : s.2 < cnt
        · rw [if_pos h1]
          by_cases h2 : o + s.2 + W ≤ cap
          · rw [if_pos h2]; dsimp only at hs ⊢; omega
          · rw [if_neg h2]; dsimp only at hs ⊢; omega
        · rw [if_neg h1]; dsimp only at hs ⊢; omega) fuel (m, r) ho
    rw [Nat.mul_comm]
    dsimp only at this
    omega

theorem copyWork_le {W cap inAddr : Nat} {src : List Byte} {o lit : Nat} {m : Mem} (hW : 16 ≤ W) (ho : o ≤ cap) :
    16 * copyWork W cap inAddr src o lit m ≤ lit + 48 ∧ 16 * copyWork W cap inAddr src o lit m ≤ (cap - o) + 48 := by
  unfold copyWork
  by_cases h1 : lit ≤ W
  · rw [if_pos h1]; omega
  · rw [if_neg h1]
    by_cases h2 : inAddr % W ≠ 0
    · rw [if_pos h2]
      by_cases h3 : o + W ≤ cap ∧ W ≤ src.length
      · rw [if_pos h3]
        obtain ⟨x, y⟩ := copyBody_work (W := W) (cap := cap) (src := src) (o := o) (lit := lit) (fuel := lit + 1)
          (m := wr m o W (fun j => src.getD j 0)) (r := W - inAddr % W) (by omega) (by omega) (by omega)
        have x := work_pos_le hW x
        have y := work_pos_le hW y
        omega
      · rw [if_neg h3]; omega
    · rw [if_neg h2]
      obtain ⟨x, y⟩ := copyBody_work (W := W) (cap := cap) (src := src) (o := o) (lit := lit) (fuel := lit + 1)
        (m := m) (r := 0) (by omega) (by omega) (by omega)
      have x := work_pos_le hW x
      have y := work_pos_le hW y
      omega

theorem setWork_le {k : SetK} {cap outAddr : Nat} {sym : List Byte} {o cnt : Nat} {m : Mem} (hW : 16 ≤ k.width) (ho : o ≤ cap) :
    16 * setWork k cap outAddr sym o cnt m ≤ cnt + 48 ∧ 16 * setWork k cap outAddr sym o cnt m ≤ (cap - o) + 48 := by
  cases k with
  | multi G reg =>
    have hW : 16 ≤ G := hW
    unfold setWork
    dsimp only
    obtain ⟨x, y⟩ := setBody_work (W := G) (cap := cap) (reg := reg sym) (o := o) (cnt := cnt) (fuel := cnt + 1)
      (m := m) (r := 0) (by omega) (by omega) (by omega)
    have x := work_pos_le hW x
    have y := work_pos_le hW y
    omega
  | aligned W =>
    have hW : 16 ≤ W := hW
    unfold setWork
    dsimp only
    by_cases h1 : cnt ≤ W
    · rw [if_pos h1]; omega
    · rw [if_neg h1]
      by_cases h2 : outAddr % W ≠ 0
      · rw [if_pos h2]
        by_cases h3 : o + W ≤ cap
        · rw [if_pos h3]
          obtain ⟨x, y⟩ := setBody_work (W := W) (cap := cap) (reg := vset1N sym) (o := o) (cnt := cnt) (fuel := cnt + 1)
            (m := wr m o W (vset1N sym)) (r := W - outAddr % W) (by omega) (by omega) (by omega)
          have x := work_pos_le hW x
          have y := work_pos_le hW y
          omega
        · rw [if_neg h3]; omega
      · rw [if_neg h2]
        obtain ⟨x, y⟩ := setBody_work (W := W) (cap := cap) (reg := vset1N sym) (o := o) (cnt := cnt) (fuel := cnt + 1)
          (m := m) (r := 0) (by omega) (by omega) (by omega)
        have x := work_pos_le hW x
        have y := work_pos_le hW y
        omega

/-- What a loop keeps true holds of its result. -/
theorem loop_post {σ ρ : Type} {body : σ → σ ⊕ ρ} (I : σ → Prop) (R : ρ → Prop)
    (h : ∀ s, I s → match body s with
      | .inl s' => I s'
      | .inr r => R r) : ∀ fuel s r, I s → loop body fuel s = some r → R r
  | 0, _, _, _, h => by cases h
  | fuel + 1, s, r, hs, he => by
    have h1 := h s hs
    rw [loop] at he
    cases hb : body s with
    | inl s' => rw [hb] at h1 he; exact loop_post I R h fuel s' r h1 he
    | inr r' =>
      rw [hb] at h1 he
      cases he
      exact h1

theorem copyLoop_fits {W cap : Nat} {src : List Byte} {o lit : Nat} {m m' : Mem} {r : Nat} (ho : o + r ≤ cap)
    (h : copyLoop W cap src o lit m r = some m') : o + lit ≤ cap := by
  unfold copyLoop at h
  cases hl : loop (copyBody W cap src o lit) (lit + 1) (m, r) with
  | none => rw [hl] at h; cases h
  | some x =>
    rw [hl] at h
    have h : x = some m' := h
    have := loop_post (body := copyBody W cap src o lit) (fun s => o + s.2 ≤ cap) (fun r => r ≠ none → o + lit ≤ cap) (fun s hs => by
      unfold copyBody
      by_cases h1 : s.2 < lit
      · rw [if_pos h1]
        by_cases h2 : o + s.2 + W ≤ cap ∧ s.2 + W ≤ src.length
        · rw [if_pos h2]; dsimp only at hs ⊢; omega
        · rw [if_neg h2]; dsimp only; exact fun h => absurd rfl h
      · rw [if_neg h1]; dsimp only at hs ⊢; omega) _ _ _ ho hl
    exact this (by rw [h]; exact Option.some_ne_none _)

theorem setLoop_fits {W cap : Nat} {reg : Vec} {o cnt : Nat} {m m' : Mem} {r : Nat} (ho : o + r ≤ cap)
    (h : setLoop W cap reg o cnt m r = some m') : o + cnt ≤ cap := by
  unfold setLoop at h
  cases hl : loop (setBody W cap reg o cnt) (cnt + 1) (m, r) with
  | none => rw [hl] at h; cases h
  | some x =>
    rw [hl] at h
    have h : x = some m' := h
    have := loop_post (body := setBody W cap reg o cnt) (fun s => o + s.2 ≤ cap) (fun r => r ≠ none → o + cnt ≤ cap) (fun s hs => by
      unfold setBody
      by_cases h1 : s.2 < cnt
      · rw [if_pos h1]
        by_cases h2 : o + s.2 + W ≤ cap
        · rw [if_pos h2]; dsimp only at hs ⊢; omega
        · rw [if_neg h2]; dsimp only; exact fun h => absurd rfl h
      · rw [if_neg h1]; dsimp only at hs ⊢; omega) _ _ _ ho hl
    exact this (by rw [h]; exact Option.some_ne_none _)

theorem memcpyV_fits {W cap inAddr : Nat} {src : List Byte} {o lit : Nat} {m m' : Mem} (ho : o ≤ cap)
    (h : memcpyV W cap inAddr src o lit m = some m') : o + lit ≤ cap := by
  unfold memcpyV at h
  by_cases h1 : lit ≤ W
  · rw [if_pos h1] at h
    by_cases h3 : o + W ≤ cap ∧ W ≤ src.length
    · omega
    · rw [if_neg h3] at h; cases h
  · rw [if_neg h1] at h
    by_cases h2 : inAddr % W ≠ 0
    · rw [if_pos h2] at h
      by_cases h3 : o + W ≤ cap ∧ W ≤ src.length
      · rw [if_pos h3] at h; exact copyLoop_fits (by omega) h
      · rw [if_neg h3] at h; cases h
    · rw [if_neg h2] at h; exact copyLoop_fits (by omega) h

theorem memsetV_fits {k : SetK} {cap outAddr : Nat} {sym : List Byte} {o cnt : Nat} {m m' : Mem} (ho : o ≤ cap)
    (h : memsetV k cap outAddr sym o cnt m = some m') : o + cnt ≤ cap := by
  cases k with
  | multi G reg => exact setLoop_fits (by omega) h
  | aligned W =>
    unfold memsetV at h
    dsimp only at h
    by_cases h1 : cnt ≤ W
    · rw [if_pos h1] at h
      by_cases h3 : o + W ≤ cap
      · omega
      · rw [if_neg h3] at h; cases h
    · rw [if_neg h1] at h
      by_cases h2 : outAddr % W ≠ 0
      · rw [if_pos h2] at h
        by_cases h3 : o + W ≤ cap
        · rw [if_pos h3] at h; exact setLoop_fits (by omega) h
        · rw [if_neg h3] at h; cases h
      · rw [if_neg h2] at h; exact setLoop_fits (by omega) h

theorem decM_work {σ : Type} {hdr : σ → List Byte → Option (Hdr σ)} (hL : HdrLocal hdr) {v : DecV} (hW : 16 ≤ v.copyW)
    (hk : 16 ≤ v.setK.width) {aIn aOut cap fuel : Nat} (s : MS σ) (hs : s.o ≤ cap) :
    16 * work (recWork hdr v aIn aOut cap) (decMStep hdr v aIn aOut cap) fuel s ≤ 112 * (s.src.length + 1) + (cap - s.o) := by
  have := work_le (w := recWork hdr v aIn aOut cap) (body := decMStep hdr v aIn aOut cap) (fun s => s.o ≤ cap) 16
    (fun s => 112 * (s.src.length + 1) + (cap - s.o)) (fun _ => 0) (fun s hs => by
      unfold recWork decMStep
      cases hh : hdr s.fs s.src with
      | none => dsimp only; omega
      | some h =>
        cases h with
        | ret => dsimp only; omega
        | wrap cnt rest =>
          dsimp only
          cases memcpyWrap v.copyW cap (aIn + (s.pos + (s.src.length - rest.length))) rest s.o s.m with
          | none => dsimp only; omega
          | some m =>
            dsimp only
            by_cases hc : cnt = none
            · rw [if_pos hc]; dsimp only; omega
            · rw [if_neg hc]; dsimp only; omega
        | go lit sym cnt fs rest =>
          have hl := hL.go _ _ _ _ _ _ _ hh
          dsimp only
          obtain ⟨c1, c2⟩ := copyWork_le (W := v.copyW) (cap := cap) (inAddr := aIn + (s.pos + (s.src.length - rest.length))) (src := rest) (o := s.o)
            (lit := lit) (m := s.m) hW hs
          generalize copyWork v.copyW cap (aIn + (s.pos + (s.src.length - rest.length))) rest s.o lit s.m = cw at c1 c2
          cases hm : memcpyV v.copyW cap (aIn + (s.pos + (s.src.length - rest.length))) rest s.o lit s.m with
          | none => dsimp only; rw [Nat.add_zero cw]; omega
          | some m =>
            have hf := memcpyV_fits hs hm
            dsimp only
            cases cnt with
            | none => dsimp only; rw [Nat.add_zero cw]; omega
            | some c =>
              dsimp only
              obtain ⟨s1, s2⟩ := setWork_le (k := v.setK) (cap := cap) (outAddr := aOut + (s.o + lit)) (sym := sym) (o := s.o + lit) (cnt := c) (m := m) hk hf
              generalize setWork v.setK cap (aOut + (s.o + lit)) sym (s.o + lit) c m = sw at s1 s2
              cases hm2 : memsetV v.setK cap (aOut + (s.o + lit)) sym (s.o + lit) c m with
              | none =>
                show 16 * (1 + (cw + sw)) + 0 ≤ 112 * (s.src.length + 1) + (cap - s.o)
                omega
              | some m2 =>
                have hf2 := memsetV_fits hf hm2
                show 16 * (1 + (cw + sw)) + (112 * ((rest.drop lit).length + 1) + (cap - (s.o + lit + c))) ≤ 112 * (s.src.length + 1) + (cap - s.o) ∧
                  s.o + lit + c ≤ cap
                rw [List.length_drop]
                omega) fuel s hs
  omega

theorem apiWork_le {σ : Type} {start : List Byte → Option (Option (σ × List Byte))} {hdr : σ → List Byte → Option (Hdr σ)}
    (hs : ∀ r fs r', start r = some (some (fs, r')) → r'.length ≤ r.length) (hL : HdrLocal hdr) {v : DecV} (hW : 16 ≤ v.copyW)
    (hk : 16 ≤ v.setK.width) (a : DArgs) (src : List Byte) (hsrc : a.pIn = some src) :
    apiWork start hdr v a ≤ 7 * src.length + a.cap / 16 := by
  unfold apiWork
  rw [hsrc]
  cases a.pOut with
  | none => exact Nat.zero_le _
  | some m =>
    dsimp only
    by_cases h1 : a.inSize = 0 ∨ a.outSize = 0
    · rw [if_pos h1]; exact Nat.zero_le _
    · rw [if_neg h1]
      cases hu : rdU32 src with
      | none => exact Nat.zero_le _
      | some p =>
        obtain ⟨x, r⟩ := p
        dsimp only
        cases hu2 : rdU32 r with
        | none => exact Nat.zero_le _
        | some p =>
          obtain ⟨y, r2⟩ := p
          dsimp only
          by_cases h2 : x > a.outSize ∨ y > a.inSize
          · rw [if_pos h2]; exact Nat.zero_le _
          · rw [if_neg h2]
            cases hst : start r2 with
            | none => exact Nat.zero_le _
            | some q =>
              cases q with
              | none => exact Nat.zero_le _
              | some q =>
                obtain ⟨fs, r'⟩ := q
                dsimp only
                have l1 := hs _ _ _ hst
                have l2 : r2.length + 4 = r.length := by
                  unfold rdU32 at hu2; split at hu2
                  · cases hu2; simp
                  · cases hu2
                have l3 : r.length + 4 = src.length := by
                  unfold rdU32 at hu; split at hu
                  · cases hu; simp
                  · cases hu
                have := decM_work hL hW hk (aIn := a.aIn) (aOut := a.aOut) (cap := a.cap) (fuel := r'.length + 1)
                  ⟨fs, r', 8 + (r2.length - r'.length), 0, m⟩ (Nat.zero_le _)
                dsimp only at this
                omega

/-! ### The low entropy decoders -/

theorem assignFrom_lt : ∀ (l : List Byte) (i : Nat) (f : Byte → Nat), i < 256 → (∀ b, f b < 256) → ∀ b, assignFrom i l f b < 256
  | [], _, _, _, hf, b => hf b
  | s :: r, i, f, hi, hf, b => by
    rw [assignFrom]
    refine assignFrom_lt r _ _ (Nat.mod_lt _ (by decide)) (fun c => ?_) b
    split
    · exact hi
    · exact hf c

theorem readInfo_toCount {src r : List Byte} {x : LeDInfo} (h : readInfo src = some (x, r)) (b : Byte) : x.toCount b ≤ 255 := by
  unfold readInfo at h
  cases h1 : takeN 32 src with
  | none => rw [h1] at h; cases h
  | some p =>
    obtain ⟨bits, r1⟩ := p
    rw [h1] at h
    dsimp only at h
    cases h2 : rdU8 r1 with
    | none => rw [h2] at h; cases h
    | some p =>
      obtain ⟨c, r2⟩ := p
      rw [h2] at h
      dsimp only at h
      cases h3 : takeN (if c = 0 then 255 else c) r2 with
      | none => rw [h3] at h; cases h
      | some p =>
        obtain ⟨syms, r3⟩ := p
        rw [h3] at h
        dsimp only at h
        injection h with h
        injection h with hx hr
        subst hx
        exact Nat.le_of_lt_succ (assignFrom_lt _ _ _ (Nat.mod_lt _ (by decide)) (assignFrom_lt _ _ _ (by decide) fun _ => by decide) b)

theorem fillWork_le {short : Bool} {w aOut o cnt : Nat} (hw : w = 16 ∨ w = 32) (hc : cnt ≤ 255) : fillWork short w aOut o cnt ≤ 17 := by
  unfold fillWork
  cases short with
  | true => rw [if_pos rfl]; decide
  | false =>
    dsimp only
    rw [if_neg Bool.false_ne_true]
    by_cases h0 : cnt = 0
    · rw [if_pos h0]; omega
    · rw [if_neg h0]
      by_cases h1 : cnt ≤ w
      · rw [if_pos h1]; omega
      · rw [if_neg h1]
        rcases hw with rfl | rfl
        · by_cases h2 : (aOut + o) % 16 ≠ 0
          · rw [if_pos h2]; omega
          · rw [if_neg h2]; omega
        · by_cases h2 : (aOut + o) % 32 ≠ 0
          · rw [if_pos h2]; omega
          · rw [if_neg h2]; omega

theorem fillTailWork_le {aOut o cnt : Nat} (hc : cnt ≤ 255) : fillTailWork aOut o cnt ≤ 17 := by
  unfold fillTailWork
  by_cases h0 : cnt < 16
  · rw [if_pos h0]; omega
  · rw [if_neg h0]
    dsimp only
    by_cases h2 : (aOut + o) % 16 ≠ 0
    · rw [if_pos h2, if_pos h2]; omega
    · rw [if_neg h2, if_neg h2]; omega

theorem leTail_work {x : LeDInfo} (hx : ∀ b, x.toCount b ≤ 255) {src : Mem} {len pEnd aOut cap : Nat} (fuel : Nat) (s : LeS) :
    work (leTailWork x src len pEnd aOut) (leTail x src len pEnd aOut cap) fuel s ≤ 18 * (len + 1 - s.pos) + 1 := by
  have := work_le (w := leTailWork x src len pEnd aOut) (body := leTail x src len pEnd aOut cap) (fun _ => True) 1
    (fun s => 18 * (len + 1 - s.pos) + 1) (fun _ => 0) (fun s _ => by
      unfold leTailWork leTail
      by_cases h1 : s.pos < pEnd
      · rw [if_pos h1]
        by_cases h2 : s.pos < len ∧ s.o < cap
        · rw [if_pos h2]
          dsimp only
          by_cases h3 : x.rle (src s.pos) = true
          · rw [if_pos h3]
            by_cases h4 : s.pos + 1 < len
            · rw [if_pos h4, if_pos ⟨h1, h4, h3⟩]
              have hf := fillTailWork_le (aOut := aOut) (o := s.o + 1) (hx (src (s.pos + 1)))
              generalize fillTailWork aOut (s.o + 1) (x.toCount (src (s.pos + 1))) = fw at hf
              cases fillTail aOut cap (wr s.m s.o 1 fun _ => src s.pos) (s.o + 1) (x.toCount (src (s.pos + 1))) (src s.pos) with
              | none => dsimp only; omega
              | some m => dsimp only; exact ⟨by omega, trivial⟩
            · rw [if_neg h4, if_neg (fun h => h4 h.2.1)]; dsimp only; omega
          · rw [if_neg h3, if_neg (fun h => h3 h.2.2)]; dsimp only; exact ⟨by omega, trivial⟩
        · rw [if_neg h2]
          dsimp only
          by_cases h5 : s.pos < pEnd ∧ s.pos + 1 < len ∧ x.rle (src s.pos) = true
          · rw [if_pos h5]
            have hf := fillTailWork_le (aOut := aOut) (o := s.o + 1) (hx (src (s.pos + 1)))
            omega
          · rw [if_neg h5]; omega
      · rw [if_neg h1, if_neg (fun h => h1 h.1)]; dsimp only; omega) fuel s trivial
  omega

theorem leFast_work {short : Bool} {w : Nat} (hw : w = 16 ∨ w = 32) {find : Nat → Option Nat} {toCount : Byte → Nat}
    (hx : ∀ b, toCount b ≤ 255) {fill : Mem → Nat → Nat → Byte → Option Mem} {src : Mem} {len pEnd aOut cap : Nat} (fuel : Nat) (s : LeS) :
    work (leFastWork short w find toCount src len pEnd aOut cap) (leFast w find toCount fill src len pEnd cap) fuel s +
      (match loop (leFast w find toCount fill src len pEnd cap) fuel s with
        | some (some s) => 18 * (len + 1 - s.pos) + 1
        | _ => 0) ≤ 18 * (len + 1 - s.pos) + 2 := by
  have := work_le (w := leFastWork short w find toCount src len pEnd aOut cap) (body := leFast w find toCount fill src len pEnd cap)
    (fun _ => True) 1 (fun s => 18 * (len + 1 - s.pos) + 2) (fun r => match r with
      | some s => 18 * (len + 1 - s.pos) + 1
      | none => 0) (fun s _ => by
      unfold leFastWork leFast
      by_cases h1 : s.pos + 256 < pEnd
      · rw [if_pos h1]
        by_cases h2 : s.pos + w ≤ len ∧ s.o + w ≤ cap
        · rw [if_pos h2, if_pos ⟨h1, h2⟩]
          dsimp only
          cases find s.pos with
          | none => dsimp only; exact ⟨by omega, trivial⟩
          | some k =>
            dsimp only
            by_cases h3 : s.pos + k + 1 < len
            · rw [if_pos h3, if_pos h3]
              have hf := fillWork_le (short := short) (aOut := aOut) (o := s.o + k + 1) hw (hx (src (s.pos + k + 1)))
              generalize fillWork short w aOut (s.o + k + 1) (toCount (src (s.pos + k + 1))) = fw at hf
              cases fill (wr s.m s.o w fun k => src (s.pos + k)) (s.o + k + 1) (toCount (src (s.pos + k + 1))) (src (s.pos + k)) with
              | none => dsimp only; omega
              | some m => dsimp only; exact ⟨by omega, trivial⟩
            · rw [if_neg h3, if_neg h3]; dsimp only; omega
        · rw [if_neg h2, if_neg (fun h => h2 h.2)]; dsimp only; omega
      · rw [if_neg h1, if_neg (fun h => h1 h.1)]; dsimp only; omega) fuel s trivial
  cases hl : loop (leFast w find toCount fill src len pEnd cap) fuel s with
  | none => rw [hl] at this; simpa using this
  | some z =>
    rw [hl] at this
    cases z with
    | none => simpa using this
    | some z => simpa using this

/-- One call of the low entropy decoder. -/
theorem leWork_le {short : Bool} {cpu : Cpu} {x : LeDInfo} (hx : ∀ b, x.toCount b ≤ 255) {src : Mem} {len pos pEnd aOut cap o expOut : Nat} {m : Mem} :
    leWork short cpu x src len pos pEnd aOut cap o expOut m ≤ 18 * len + 20 := by
  unfold leWork
  by_cases h0 : rleCount x.rle = 0
  · rw [if_pos h0]
    split <;> omega
  · rw [if_neg h0]
    dsimp only
    have hw : (if (if (rleCount x.rle == 1) = true then cpu.avx2 else cpu.avx) = true then 32 else 16) = 16 ∨
        (if (if (rleCount x.rle == 1) = true then cpu.avx2 else cpu.avx) = true then 32 else 16) = 32 := by
      generalize (if (rleCount x.rle == 1) = true then cpu.avx2 else cpu.avx) = b
      cases b
      · exact Or.inl rfl
      · exact Or.inr rfl
    have h1 := leFast_work (short := short) hw (find := if (rleCount x.rle == 1) = true then maskHit (if (if (rleCount x.rle == 1) = true then cpu.avx2 else cpu.avx) = true then 32 else 16) src (firstRle x.rle) else fun p => firstHit src x.rle p (if (if (rleCount x.rle == 1) = true then cpu.avx2 else cpu.avx) = true then 32 else 16))
      hx (fill := if short = true then fillShort (!(rleCount x.rle == 1) && !(if (rleCount x.rle == 1) = true then cpu.avx2 else cpu.avx)) cap
        else fillLong (if (if (rleCount x.rle == 1) = true then cpu.avx2 else cpu.avx) = true then 32 else 16) aOut cap)
      (src := src) (len := len) (pEnd := pEnd) (aOut := aOut) (cap := cap) (len + 2) ⟨pos, o, m⟩
    dsimp only at h1
    refine Nat.le_trans (Nat.add_le_add_left ?_ _) (Nat.le_trans h1 (by omega))
    generalize loop (leFast _ _ _ _ _ _ _ _) _ _ = z
    cases z with
    | none => exact Nat.le_refl _
    | some z =>
      cases z with
      | none => exact Nat.le_refl _
      | some s => exact leTail_work hx _ s

theorem leApiWork_le (short : Bool) (cpu : Cpu) (a : DArgs) (src : List Byte) (hsrc : a.pIn = some src) :
    leApiWork short cpu a ≤ 18 * src.length + 20 := by
  unfold leApiWork
  rw [hsrc]
  cases a.pOut with
  | none => exact Nat.zero_le _
  | some m =>
    dsimp only
    by_cases h1 : a.inSize = 0 ∨ a.outSize = 0
    · rw [if_pos h1]; exact Nat.zero_le _
    · rw [if_neg h1]
      cases rdU32 src with
      | none => exact Nat.zero_le _
      | some p =>
        obtain ⟨x, r⟩ := p
        dsimp only
        cases rdU32 r with
        | none => exact Nat.zero_le _
        | some p =>
          obtain ⟨y, r2⟩ := p
          dsimp only
          by_cases h2 : y > a.outSize ∨ x > a.inSize
          · rw [if_pos h2]; exact Nat.zero_le _
          · rw [if_neg h2]
            cases hi : readInfo r2 with
            | none => exact Nat.zero_le _
            | some p =>
              obtain ⟨i, r'⟩ := p
              exact leWork_le (readInfo_toCount hi)

theorem mSectionsWork_le {cpu : Cpu} {x : LeDInfo} (hx : ∀ b, x.toCount b ≤ 255) {src : List Byte} {inSize aOut cap sz last : Nat} :
    ∀ cnt i pos o m, mSectionsWork cpu x src inSize aOut cap sz last cnt i pos o m ≤ (cnt + 1) * (18 * src.length + 20)
  | 0, i, pos, o, m => by
    rw [mSectionsWork, Nat.zero_add, Nat.one_mul]
    exact leWork_le hx
  | cnt + 1, i, pos, o, m => by
    rw [mSectionsWork]
    cases u32At src (12 + 4 * i) with
    | none => exact Nat.zero_le _
    | some pEnd =>
      dsimp only
      have h1 := leWork_le (short := false) (cpu := cpu) hx (src := fun k => src.getD k 0) (len := src.length) (pos := pos) (pEnd := pEnd)
        (aOut := aOut) (cap := cap) (o := o) (expOut := sz) (m := m)
      rw [Nat.add_mul (cnt + 1), Nat.one_mul, Nat.add_comm]
      refine Nat.add_le_add ?_ h1
      cases leDecode false cpu x (fun k => src.getD k 0) src.length pos pEnd aOut cap o sz m with
      | none => exact Nat.zero_le _
      | some z =>
        cases z with
        | none => exact Nat.zero_le _
        | some m' => exact mSectionsWork_le hx cnt _ _ _ _

theorem rdU32_drop4 {src r : List Byte} {x : Nat} (h : rdU32 src = some (x, r)) : r.length + 4 = src.length := by
  unfold rdU32 at h
  split at h
  · cases h; simp
  · cases h

/-- rle8m: at most as often as there are sections. -/
theorem mWork_le (cpu : Cpu) (a : DArgs) (src : List Byte) (hsrc : a.pIn = some src) :
    mWork cpu a ≤ (src.length / 4) * (18 * src.length + 20) := by
  unfold mWork
  rw [hsrc]
  cases a.pOut with
  | none => exact Nat.zero_le _
  | some m =>
    dsimp only
    by_cases h1 : a.inSize = 0 ∨ a.outSize = 0
    · rw [if_pos h1]; exact Nat.zero_le _
    · rw [if_neg h1]
      cases hu1 : rdU32 src with
      | none => exact Nat.zero_le _
      | some p =>
        obtain ⟨x, r⟩ := p
        dsimp only
        cases hu2 : rdU32 r with
        | none => exact Nat.zero_le _
        | some p =>
          obtain ⟨y, r2⟩ := p
          dsimp only
          by_cases h2 : y > a.outSize ∨ x > a.inSize
          · rw [if_pos h2]; exact Nat.zero_le _
          · rw [if_neg h2]
            cases hu3 : rdU32 r2 with
            | none => exact Nat.zero_le _
            | some p =>
              obtain ⟨k, r3⟩ := p
              dsimp only
              by_cases h3 : k = 0
              · rw [if_pos h3]; exact Nat.zero_le _
              · rw [if_neg h3]
                by_cases h4 : r3.length < 4 * (k - 1)
                · rw [if_pos h4]; exact Nat.zero_le _
                · rw [if_neg h4]
                  cases hi : readInfo (r3.drop (4 * (k - 1))) with
                  | none => exact Nat.zero_le _
                  | some p =>
                    obtain ⟨i, r'⟩ := p
                    dsimp only
                    refine Nat.le_trans (mSectionsWork_le (readInfo_toCount hi) ..) (Nat.mul_le_mul ?_ (Nat.le_refl _))
                    have e1 := rdU32_drop4 hu1
                    have e2 := rdU32_drop4 hu2
                    have e3 := rdU32_drop4 hu3
                    omega

/-! ### rle8_sh and rle8_mmtf128 -/

/-- A potential that pays for all but one per round. -/
theorem work_fuel {σ ρ : Type} {w : σ → Nat} {body : σ → σ ⊕ ρ} (I : σ → Prop) (P : σ → Nat)
    (h : ∀ s, I s → match body s with
      | .inl s' => w s + P s' ≤ P s + 1 ∧ I s'
      | .inr _ => w s ≤ P s + 1) : ∀ fuel s, I s → work w body fuel s ≤ P s + fuel
  | 0, s, _ => Nat.zero_le _
  | fuel + 1, s, hs => by
    have h1 := h s hs
    rw [work]
    cases hb : body s with
    | inl s' =>
      rw [hb] at h1
      have h2 := work_fuel I P h fuel s' h1.2
      dsimp only at h1 ⊢
      omega
    | inr r =>
      rw [hb] at h1
      dsimp only at h1 ⊢
      omega

theorem ShDec.emit_o {full : List Byte} {cap : Nat} {s s' : ShDec} {k : Nat} {l : List Byte} (h : s.emit full cap k l = some s') :
    s.o ≤ s'.o ∧ s'.o ≤ cap := by
  unfold ShDec.emit at h
  cases hc : s.h.consume full k with
  | none => rw [hc] at h; cases h
  | some h' =>
    rw [hc] at h
    dsimp only at h
    by_cases hl : s.o + l.length ≤ cap
    · rw [if_pos hl] at h
      injection h with h
      rw [← h]
      dsimp only
      omega
    · rw [if_neg hl] at h; cases h

theorem ShDec.lit_o {full : List Byte} {cap : Nat} {s s' : ShDec} (h : s.lit full cap = some s') : s.o ≤ s'.o ∧ s'.o ≤ cap := by
  unfold ShDec.lit at h
  cases hs : s.src with
  | nil => rw [hs] at h; cases h
  | cons x r => rw [hs] at h; have q := ShDec.emit_o h; exact q

theorem ShDec.one_o {full : List Byte} {cap : Nat} {s s' : ShDec} (h : s.one full cap = some s') : s.o ≤ s'.o ∧ s'.o ≤ cap := by
  unfold ShDec.one at h
  by_cases h1 : s.h.v.testBit 0 = false
  · rw [if_pos h1] at h; have q := ShDec.emit_o h; exact q
  · rw [if_neg h1] at h
    by_cases h2 : s.h.v.testBit 1 = false
    · rw [if_pos h2] at h; exact ShDec.lit_o h
    · rw [if_neg h2] at h
      by_cases h3 : s.h.v.testBit 2 = false
      · rw [if_pos h3] at h; have q := ShDec.emit_o h; exact q
      · rw [if_neg h3] at h; have q := ShDec.emit_o h; exact q

theorem ShDec.many_o {full : List Byte} {cap : Nat} : ∀ (c : Nat) (s s' : ShDec), s.o ≤ cap → ShDec.many full cap c s = some s' →
    s.o ≤ s'.o ∧ s'.o ≤ cap
  | 0, s, s', hs, h => by cases h; exact ⟨Nat.le_refl _, hs⟩
  | c + 1, s, s', hs, h => by
    rw [ShDec.many] at h
    cases ho : s.one full cap with
    | none => rw [ho] at h; cases h
    | some s1 =>
      rw [ho] at h
      have h1 := ShDec.one_o ho
      have h2 := ShDec.many_o c s1 s' h1.2 h
      omega

theorem shStep_o {full : List Byte} {cap : Nat} {s s' : ShDec} (h : shStep full cap s = .inl s') : s.o ≤ s'.o ∧ s'.o ≤ cap := by
  have go : ∀ (x : Option ShDec), (∀ y, x = some y → s.o ≤ y.o ∧ y.o ≤ cap) → shGo x = .inl s' → s.o ≤ s'.o ∧ s'.o ≤ cap := by
    intro x hx h
    cases x with
    | none => cases h
    | some y => injection h with h; exact h ▸ hx y rfl
  unfold shStep at h
  by_cases h0 : s.h.v.testBit 0 = false
  · rw [if_pos h0] at h; exact go _ (fun _ h => by have q := ShDec.emit_o h; exact q) h
  · rw [if_neg h0] at h
    by_cases h1 : s.h.v.testBit 1 = false
    · rw [if_pos h1] at h; exact go _ (fun _ h => ShDec.lit_o h) h
    · rw [if_neg h1] at h
      by_cases h2 : s.h.v.testBit 2 = false
      · rw [if_pos h2] at h; exact go _ (fun _ h => by have q := ShDec.emit_o h; exact q) h
      · rw [if_neg h2] at h
        by_cases h3 : s.h.v.testBit 3 = false
        · rw [if_pos h3] at h; exact go _ (fun _ h => by have q := ShDec.emit_o h; exact q) h
        · rw [if_neg h3] at h
          by_cases h4 : s.h.v.testBit 4 = false
          · rw [if_pos h4] at h
            refine go _ (fun y h => ?_) h
            unfold ShDec.runSmall at h
            cases hr : rdU8 s.src with
            | none => rw [hr] at h; cases h
            | some p => rw [hr] at h; have q := ShDec.emit_o h; exact q
          · rw [if_neg h4] at h
            by_cases h5 : s.h.v.testBit 5 = false
            · rw [if_pos h5] at h
              by_cases h6 : s.h.v.testBit 6 = false
              · rw [if_pos h6] at h
                refine go _ (fun y h => ?_) h
                unfold ShDec.copySmall at h
                cases hr : rdU8 s.src with
                | none => rw [hr] at h; cases h
                | some p =>
                  obtain ⟨c, r⟩ := p
                  rw [hr] at h
                  dsimp only at h
                  cases ht : takeN (c + 7) r with
                  | none => rw [ht] at h; cases h
                  | some q => rw [ht] at h; have q := ShDec.emit_o h; exact q
              · rw [if_neg h6] at h
                refine go _ (fun y h => ?_) h
                unfold ShDec.runLarge at h
                cases hr : rdU32 s.src with
                | none => rw [hr] at h; cases h
                | some p =>
                  obtain ⟨c, r⟩ := p
                  rw [hr] at h
                  dsimp only at h
                  cases r with
                  | nil => cases h
                  | cons x r => have q := ShDec.emit_o h; exact q
            · rw [if_neg h5] at h
              by_cases h6 : s.h.v.testBit 6 = false
              · rw [if_pos h6] at h
                cases hc : s.h.consume full 7 with
                | none => rw [hc] at h; cases h
                | some z =>
                  rw [hc] at h
                  dsimp only at h
                  cases hr : rdU32 s.src with
                  | none => rw [hr] at h; cases h
                  | some p =>
                    obtain ⟨c, r⟩ := p
                    rw [hr] at h
                    dsimp only at h
                    by_cases h7 : c = 0
                    · rw [if_pos h7] at h; cases h
                    · rw [if_neg h7] at h
                      refine go _ (fun y h => ?_) h
                      unfold ShDec.copyLarge at h
                      cases ht : takeN (c + 7) r with
                      | none => rw [ht] at h; cases h
                      | some q => rw [ht] at h; have q := ShDec.emit_o h; exact q
              · rw [if_neg h6] at h
                refine go _ (fun y h => ?_) h
                unfold ShDec.encoded at h
                cases hr : rdU8 s.src with
                | none => rw [hr] at h; cases h
                | some p =>
                  obtain ⟨c, r⟩ := p
                  rw [hr] at h
                  dsimp only at h
                  cases he : ShDec.emit full cap { s with src := r } 7 [] with
                  | none => rw [he] at h; cases h
                  | some s1 =>
                    rw [he] at h
                    have e1 := ShDec.emit_o he
                    have e2 := ShDec.many_o _ _ _ e1.2 h
                    dsimp only at e1
                    omega

theorem shWork_le (a : DArgs) (src : List Byte) (hsrc : a.pIn = some src) : shWork a ≤ 8 * src.length + 1 + a.cap := by
  unfold shWork
  rw [hsrc]
  cases a.pOut with
  | none => exact Nat.zero_le _
  | some m =>
    dsimp only
    by_cases h1 : a.inSize = 0 ∨ a.outSize = 0
    · rw [if_pos h1]; exact Nat.zero_le _
    · rw [if_neg h1]
      cases rdU32 src with
      | none => exact Nat.zero_le _
      | some p =>
        obtain ⟨x, r⟩ := p
        dsimp only
        cases rdU32 r with
        | none => exact Nat.zero_le _
        | some p =>
          obtain ⟨y, r2⟩ := p
          dsimp only
          by_cases h2 : a.outSize < x ∨ a.inSize < y
          · rw [if_pos h2]; exact Nat.zero_le _
          · rw [if_neg h2]
            by_cases h3 : y = 0
            · rw [if_pos h3]; exact Nat.zero_le _
            · rw [if_neg h3]
              cases hb : src[y - 1]? with
              | none => exact Nat.zero_le _
              | some b =>
                have hl : y - 1 < src.length := (List.getElem?_eq_some_iff.mp hb).1
                dsimp only
                refine Nat.le_trans (work_fuel (fun s => s.o ≤ a.cap) (fun s => a.cap - s.o) (fun s hs => ?_) _ _ (Nat.zero_le _)) ?_
                · cases he : shStep src a.cap s with
                  | inl s' =>
                    have := shStep_o he
                    show 1 + (s'.o - s.o) + (a.cap - s'.o) ≤ a.cap - s.o + 1 ∧ s'.o ≤ a.cap
                    omega
                  | inr z => dsimp only; omega
                · dsimp only; omega

theorem MDec.store_o {cap : Nat} {s s' : MDec} {h : Nat → Vec} {src x : List Byte} (e : s.store cap h src x = some s') : s.o ≤ s'.o ∧ s'.o ≤ cap := by
  unfold MDec.store at e
  by_cases hl : s.o + x.length ≤ cap
  · rw [if_pos hl] at e
    injection e with e
    rw [← e]
    dsimp only
    omega
  · rw [if_neg hl] at e; cases e

theorem dcGroup_o {cap g d : Nat} {unp : List Byte → List Byte} {s s' : MDec} (e : dcGroup cap g d unp s = some s') : s.o ≤ s'.o ∧ s'.o ≤ cap := by
  unfold dcGroup at e
  cases ht : takeN d s.src with
  | none => rw [ht] at e; cases e
  | some p =>
    obtain ⟨x, r⟩ := p
    rw [ht] at e
    dsimp only at e
    cases hd : decBlocks s.h (blocks16 g (unp x)) with
    | none => rw [hd] at e; cases e
    | some q => rw [hd] at e; exact MDec.store_o e

theorem dcWhile_o {cap g d : Nat} {unp : List Byte → List Byte} : ∀ (fuel c : Nat) (s : MDec) (c' : Nat) (s' : MDec), s.o ≤ cap →
    dcWhile cap g d unp fuel c s = some (c', s') → s.o ≤ s'.o ∧ s'.o ≤ cap
  | 0, c, s, c', s', hs, e => by cases e; exact ⟨Nat.le_refl _, hs⟩
  | fuel + 1, c, s, c', s', hs, e => by
    rw [dcWhile] at e
    by_cases hg : g ≤ c
    · rw [if_pos hg] at e
      cases hd : dcGroup cap g d unp s with
      | none => rw [hd] at e; cases e
      | some s1 =>
        rw [hd] at e
        have h1 := dcGroup_o hd
        have h2 := dcWhile_o fuel _ s1 c' s' h1.2 e
        omega
    · rw [if_neg hg] at e; cases e; exact ⟨Nat.le_refl _, hs⟩

theorem dcCopy_o {cap : Nat} {mode : Byte} {c : Nat} {s s' : MDec} (hs : s.o ≤ cap) (e : dcCopy cap mode c s = some s') : s.o ≤ s'.o ∧ s'.o ≤ cap := by
  have last : ∀ {g d : Nat} {unp : List Byte → List Byte} {c : Nat} {s : MDec}, s.o ≤ cap → (dcWhile cap g d unp c c s).map (·.2) = some s' →
      s.o ≤ s'.o ∧ s'.o ≤ cap := by
    intro g d unp c s hs e
    cases hw : dcWhile cap g d unp c c s with
    | none => rw [hw] at e; cases e
    | some p =>
      rw [hw] at e
      injection e with e
      exact dcWhile_o _ _ _ p.1 _ hs (by rw [hw, ← e])
  unfold dcCopy at e
  by_cases h1 : mode &&& 6 = 0
  · rw [if_pos h1] at e; exact last hs e
  · rw [if_neg h1] at e
    by_cases h2 : mode &&& 6 = 6
    · rw [if_pos h2] at e
      cases hw : dcWhile cap 4 16 unpack2x4 c c s with
      | none => rw [hw] at e; cases e
      | some p =>
        rw [hw] at e
        have q1 := dcWhile_o _ _ _ p.1 p.2 hs hw
        have q2 := last q1.2 e
        omega
    · rw [if_neg h2] at e
      by_cases h3 : mode &&& 6 = 4
      · rw [if_pos h3] at e
        cases hw : dcWhile cap 6 36 unpack3x6 c c s with
        | none => rw [hw] at e; cases e
        | some p =>
          rw [hw] at e
          have q1 := dcWhile_o _ _ _ p.1 p.2 hs hw
          have q2 := last q1.2 e
          omega
      · rw [if_neg h3] at e
        cases hw : dcWhile cap 2 16 unpack4x2 c c s with
        | none => rw [hw] at e; cases e
        | some p =>
          obtain ⟨c', s1⟩ := p
          rw [hw] at e
          have q1 := dcWhile_o _ _ _ c' s1 hs hw
          dsimp only at e
          by_cases h4 : c' = 0
          · rw [if_pos h4] at e; cases e; exact q1
          · rw [if_neg h4] at e
            have q2 := dcGroup_o e
            omega

theorem dcStep_o {cap expOut : Nat} {s : MDec} (hs : s.o ≤ cap) : match dcStep cap expOut s with
    | .inl s' => s.o ≤ s'.o ∧ s'.o ≤ cap
    | .inr none => True
    | .inr (some _) => expOut ≤ cap := by
  unfold dcStep
  by_cases h1 : s.rle = false
  · rw [if_pos h1]
    cases hsrc : s.src with
    | nil => trivial
    | cons mode r =>
      dsimp only
      by_cases h2 : mode.toNat % 2 = 1
      · rw [if_pos h2]
        cases rdU32 (mode :: r) with
        | none => trivial
        | some p =>
          obtain ⟨v, r⟩ := p
          dsimp only
          cases hc : dcCopy cap mode (v >>> 3) { s with src := r } with
          | none => trivial
          | some s' => have q := dcCopy_o (s := { s with src := r }) hs hc; exact q
      · rw [if_neg h2]
        cases hc : dcCopy cap mode (mode.toNat >>> 3) { s with src := r } with
        | none => trivial
        | some s' => have q := dcCopy_o (s := { s with src := r }) hs hc; exact q
  · rw [if_neg h1]
    cases hsrc : s.src with
    | nil => trivial
    | cons last r =>
      dsimp only
      generalize (if last.toNat % 2 = 1 then (rdU32 (last :: r)).map fun p => (p.1 >>> 1, p.2) else some (last.toNat >>> 1, r)) = z
      cases z with
      | none => trivial
      | some p =>
        obtain ⟨count, r⟩ := p
        dsimp only
        by_cases h3 : count = 0
        · rw [if_pos h3]
          by_cases h4 : expOut < s.o
          · rw [if_pos h4]; trivial
          · rw [if_neg h4]
            cases ht : dcTail s.h (expOut - s.o) 0 r with
            | none => trivial
            | some t =>
              have hl : ∀ (k i : Nat) (src t : List Byte), dcTail s.h k i src = some t → t.length = k := by
                intro k
                induction k with
                | zero => intro i src t h; cases h; rfl
                | succ k ih =>
                  intro i src t h
                  unfold dcTail at h
                  cases src with
                  | nil => cases h
                  | cons x src =>
                    dsimp only at h
                    by_cases h5 : x.toNat * 16 + i < 4096
                    · rw [if_pos h5] at h
                      cases hd : dcTail s.h k (i + 1) src with
                      | none => rw [hd] at h; cases h
                      | some t' =>
                        rw [hd] at h
                        injection h with h
                        rw [← h, List.length_cons, ih _ _ _ hd]
                    · rw [if_neg h5] at h; cases h
              have := hl _ _ _ _ ht
              dsimp only
              by_cases h6 : s.o + t.length ≤ cap
              · rw [if_pos h6]; dsimp only; omega
              · rw [if_neg h6]; trivial
        · rw [if_neg h3]
          cases r with
          | nil => trivial
          | cons symbol r =>
            dsimp only
            cases hst : s.store cap (rleOut symbol.toNat count s.h).1 r (rleOut symbol.toNat count s.h).2 with
            | none => trivial
            | some s' => have q := MDec.store_o hst; exact q

theorem mmWork_le (a : DArgs) (src : List Byte) (hsrc : a.pIn = some src) : mmWork a ≤ src.length + a.cap := by
  unfold mmWork
  rw [hsrc]
  cases a.pOut with
  | none => exact Nat.zero_le _
  | some m =>
    dsimp only
    by_cases h1 : a.inSize = 0 ∨ a.outSize = 0
    · rw [if_pos h1]; exact Nat.zero_le _
    · rw [if_neg h1]
      cases hu1 : rdU32 src with
      | none => exact Nat.zero_le _
      | some p =>
        obtain ⟨x, r⟩ := p
        dsimp only
        cases hu2 : rdU32 r with
        | none => exact Nat.zero_le _
        | some p =>
          obtain ⟨y, r2⟩ := p
          dsimp only
          by_cases h2 : x > a.outSize ∨ y > a.inSize
          · rw [if_pos h2]; exact Nat.zero_le _
          · rw [if_neg h2]
            have e1 := rdU32_drop4 hu1
            have e2 := rdU32_drop4 hu2
            refine Nat.le_trans (work_fuel (fun s => s.o ≤ a.cap) (fun s => a.cap - s.o) (fun s hs => ?_) _ _ (Nat.zero_le _)) ?_
            · have := dcStep_o (expOut := x) hs
              cases he : dcStep a.cap x s with
              | inl s' =>
                rw [he] at this
                show 1 + (s'.o - s.o) + (a.cap - s'.o) ≤ a.cap - s.o + 1 ∧ s'.o ≤ a.cap
                dsimp only at hs this
                omega
              | inr z =>
                rw [he] at this
                cases z with
                | none => dsimp only; omega
                | some m' =>
                  show 1 + (x - s.o) ≤ a.cap - s.o + 1
                  dsimp only at this
                  omega
            · dsimp only; omega

end Hrk
