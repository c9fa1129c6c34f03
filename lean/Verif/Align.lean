import Verif.Api
import Verif.LowEntropy
import Verif.Rle8m

/-
The decompressors with the alignment of their vector accesses checked. `_mm_load_si128`, `_mm_stream_load_si128`,
`_mm_store_si128` and their 32 and 64 byte versions fault if the address is not a multiple of the vector size;
the other models (`Codec`, `LowEntropy`) do not look at the address. Here every such access to a buffer of the caller is checked.
Used by C59.
-/

namespace Hrk

/-- What happens in a part of a decoder: `fault`: an aligned load or store gets an address that is not aligned; `out`: an access
outside the buffers; `done`: the part was executed (src/rleX_extreme_common.h:32-269). -/
inductive Chk (α : Type) where
  | fault
  | out
  | done (x : α)

/-- Nothing faults. -/
def Chk.of {α : Type} : Option α → Chk α
  | none => .out
  | some x => .done x

/-! ### The model -/

/-- `copyBody` with the aligned load from `pCIn` checked, whose address is `inAddr + (pCIn - pInStart)`
(src/rleX_extreme_common.h:52-57, 80-85, 108-113, 136-141, 164-169). -/
def copyBodyC (W cap inAddr : Nat) (src : List Byte) (o lit : Nat) (s : Mem × Nat) : (Mem × Nat) ⊕ Chk Mem :=
  if s.2 < lit then
    if (inAddr + s.2) % W ≠ 0 then .inr .fault
    else if o + s.2 + W ≤ cap ∧ s.2 + W ≤ src.length then
      .inl (wr s.1 (o + s.2) W (fun j => src.getD (s.2 + j) 0), s.2 + W)
    else .inr .out
  else .inr (.done s.1)

/-- The copy loop (src/rleX_extreme_common.h:52-57). -/
def copyLoopC (W cap inAddr : Nat) (src : List Byte) (o lit : Nat) (m : Mem) (r : Nat) : Chk Mem :=
  (loop (copyBodyC W cap inAddr src o lit) (lit + 1) (m, r)).getD .out

/-- `memcpyV` with checked loads (src/rleX_extreme_common.h:32-170). The first vector is loaded by `_mm_loadu_si128`. -/
def memcpyC (W cap inAddr : Nat) (src : List Byte) (o lit : Nat) (m : Mem) : Chk Mem :=
  if lit ≤ W then
    if o + W ≤ cap ∧ W ≤ src.length then .done (wr m o W (fun j => src.getD j 0)) else .out
  else if inAddr % W ≠ 0 then
    if o + W ≤ cap ∧ W ≤ src.length then
      copyLoopC W cap inAddr src o lit (wr m o W (fun j => src.getD j 0)) (inAddr / W * W + W - inAddr)
    else .out
  else copyLoopC W cap inAddr src o lit m 0

/-- `setBody` of MEMSET_SSE, MEMSET_AVX and MEMSET_AVX512, with the aligned store to `pCOut` checked
(src/rleX_extreme_common.h:188-192, 210-214, 261-265). -/
def setBodyC (W cap outAddr : Nat) (reg : Vec) (o cnt : Nat) (s : Mem × Nat) : (Mem × Nat) ⊕ Chk Mem :=
  if s.2 < cnt then
    if (outAddr + s.2) % W ≠ 0 then .inr .fault
    else if o + s.2 + W ≤ cap then .inl (wr s.1 (o + s.2) W reg, s.2 + W)
    else .inr .out
  else .inr (.done s.1)

/-- The fill loop (src/rleX_extreme_common.h:188-192). -/
def setLoopC (W cap outAddr : Nat) (reg : Vec) (o cnt : Nat) (m : Mem) (r : Nat) : Chk Mem :=
  (loop (setBodyC W cap outAddr reg o cnt) (cnt + 1) (m, r)).getD .out

/-- `memsetV` with checked stores. MEMSET_*_MULTI and the loops of the 24 and 48 bit decoders use `_mm_storeu_si128`
(src/rleX_extreme_common.h:172-306). -/
def memsetC (k : SetK) (cap outAddr : Nat) (sym : List Byte) (o cnt : Nat) (m : Mem) : Chk Mem :=
  match k with
  | .multi G reg => Chk.of (setLoop G cap (reg sym) o cnt m 0)
  | .aligned W =>
    if cnt ≤ W then
      if o + W ≤ cap then .done (wr m o W (vset1N sym)) else .out
    else if outAddr % W ≠ 0 then
      if o + W ≤ cap then
        setLoopC W cap outAddr (vset1N sym) o cnt (wr m o W (vset1N sym)) (outAddr / W * W + W - outAddr)
      else .out
    else setLoopC W cap outAddr (vset1N sym) o cnt m 0

/-- One iteration of a decoder with checked accesses (src/rleX_extreme_cpu_decode.h:43-163). A copy of `SIZE_MAX` bytes uses no
aligned access (`memcpyWrap`). -/
def decMStepC {σ : Type} (hdr : σ → List Byte → Option (Hdr σ)) (v : DecV) (aIn aOut cap : Nat) (s : MS σ) : MS σ ⊕ Chk Mem :=
  match hdr s.fs s.src with
  | none => .inr .out
  | some .ret => .inr (.done s.m)
  | some (.wrap cnt rest) =>
    match memcpyWrap v.copyW cap (aIn + (s.pos + (s.src.length - rest.length))) rest s.o s.m with
    | none => .inr .out
    | some m => if cnt = none then .inr (.done m) else .inr .out
  | some (.go lit sym cnt fs rest) =>
    let pos := s.pos + (s.src.length - rest.length)
    match memcpyC v.copyW cap (aIn + pos) rest s.o lit s.m with
    | .fault => .inr .fault
    | .out => .inr .out
    | .done m =>
      match cnt with
      | none => .inr (.done m)
      | some c =>
        match memsetC v.setK cap (aOut + (s.o + lit)) sym (s.o + lit) c m with
        | .fault => .inr .fault
        | .out => .inr .out
        | .done m => .inl ⟨fs, rest.drop lit, pos + lit, s.o + lit + c, m⟩

/-- `apiDecompress` with checked accesses; `none`: a misaligned access (e.g. src/rleX_extreme_cpu.h, the `_decompress` functions). -/
def apiDecompressC {σ : Type} (start : List Byte → Option (Option (σ × List Byte)))
    (hdr : σ → List Byte → Option (Hdr σ)) (v : DecV) (a : DArgs) : Option DRes :=
  match a.pIn, a.pOut with
  | none, _ => some .fail
  | _, none => some .fail
  | some src, some m =>
    if a.inSize = 0 ∨ a.outSize = 0 then some .fail
    else
      match rdU32 src with
      | none => some .ub
      | some (expOut, r) =>
        match rdU32 r with
        | none => some .ub
        | some (expIn, r) =>
          if expOut > a.outSize ∨ expIn > a.inSize then some .fail
          else
            match start r with
            | none => some .ub
            | some none => some .fail
            | some (some (fs, r')) =>
              match loop (decMStepC hdr v a.aIn a.aOut a.cap) (r'.length + 1) ⟨fs, r', 8 + (r.length - r'.length), 0, m⟩ with
              | none => some .hang
              | some .fault => none
              | some .out => some .ub
              | some (.done m') => some (.ok expOut m')

/-- `n` aligned stores of `w` bytes from `o` on, checked (src/rle8_low_entropy_cpu.c:675-679, 760-764, 823-827, 904-908,
1004-1009). -/
def storeRepC (w aOut : Nat) (b : Byte) : Nat → Nat → Mem → Option Mem
  | 0, _, m => some m
  | n + 1, o, m => if (aOut + o) % w ≠ 0 then none else storeRepC w aOut b n (o + w) (wr m o w fun _ => b)

/-- `none` of `storeRepC` is a fault. -/
def Chk.aligned {α : Type} : Option α → Chk α
  | none => .fault
  | some x => .done x

/-- `fillLong` with checked stores (src/rle8_low_entropy_cpu.c:657-683, 742-768, 803-831, 880-912). -/
def fillLongC (w aOut cap : Nat) (m : Mem) (o cnt : Nat) (b : Byte) : Chk Mem :=
  if cnt = 0 then .done m
  else if cnt ≤ w then (if o + w ≤ cap then .done (wr m o w fun _ => b) else .out)
  else
    let un := (aOut + o) % w
    if un ≠ 0 then
      let o1 := o + (w - un)
      let k := (cnt - (w - un) + w - 1) / w
      if o + w ≤ cap ∧ o1 + k * w ≤ cap then .aligned (storeRepC w aOut b k o1 (wr m o w fun _ => b)) else .out
    else
      let k := (cnt + w - 1) / w
      if o + k * w ≤ cap then .aligned (storeRepC w aOut b k o m) else .out

/-- `fillTail` with checked stores (src/rle8_low_entropy_cpu.c:980-1017, src/rle8_low_entropy_short_cpu.c:490-527). -/
def fillTailC (aOut cap : Nat) (m : Mem) (o cnt : Nat) (b : Byte) : Chk Mem :=
  if o + cnt ≤ cap then
    if cnt < 16 then .done (wr m o cnt fun _ => b)
    else
      let un := (aOut + o) % 16
      let m1 := if un ≠ 0 then wr m o 16 fun _ => b else m
      let o1 := if un ≠ 0 then o + (16 - un) else o
      let rem := if un ≠ 0 then cnt - (16 - un) else cnt
      match storeRepC 16 aOut b (rem / 16) o1 m1 with
      | none => .fault
      | some m2 => .done (if rem % 16 ≠ 0 then wr m2 (o1 + rem / 16 * 16 - (16 - rem % 16)) 16 fun _ => b else m2)
  else .out

/-- `leFast` with checked stores (src/rle8_low_entropy_cpu.c:627-685, 712-770, 779-842, 856-923,
src/rle8_low_entropy_short_cpu.c:218-252, 279-312, 321-362, 376-417). -/
def leFastC (w : Nat) (find : Nat → Option Nat) (toCount : Byte → Nat) (fill : Mem → Nat → Nat → Byte → Chk Mem)
    (src : Mem) (len pEnd cap : Nat) (s : LeS) : LeS ⊕ Chk LeS :=
  if s.pos + 256 < pEnd then
    if s.pos + w ≤ len ∧ s.o + w ≤ cap then
      let m1 := wr s.m s.o w fun k => src (s.pos + k)
      match find s.pos with
      | none => .inl ⟨s.pos + w, s.o + w, m1⟩
      | some k =>
        if s.pos + k + 1 < len then
          match fill m1 (s.o + k + 1) (toCount (src (s.pos + k + 1))) (src (s.pos + k)) with
          | .fault => .inr .fault
          | .out => .inr .out
          | .done m2 => .inl ⟨s.pos + k + 2, s.o + k + 1 + toCount (src (s.pos + k + 1)), m2⟩
        else .inr .out
    else .inr .out
  else .inr (.done s)

/-- `leTail` with checked stores (src/rle8_low_entropy_cpu.c:969-1019, src/rle8_low_entropy_short_cpu.c:479-529). -/
def leTailC (x : LeDInfo) (src : Mem) (len pEnd aOut cap : Nat) (s : LeS) : LeS ⊕ Chk LeS :=
  if s.pos < pEnd then
    if s.pos < len ∧ s.o < cap then
      let b := src s.pos
      let m1 := wr s.m s.o 1 fun _ => b
      if x.rle b then
        if s.pos + 1 < len then
          match fillTailC aOut cap m1 (s.o + 1) (x.toCount (src (s.pos + 1))) b with
          | .fault => .inr .fault
          | .out => .inr .out
          | .done m2 => .inl ⟨s.pos + 2, s.o + 1 + x.toCount (src (s.pos + 1)), m2⟩
        else .inr .out
      else .inl ⟨s.pos + 1, s.o + 1, m1⟩
    else .inr .out
  else .inr (.done s)

/-- `leDecode` with checked stores (src/rle8_low_entropy_cpu.c:930-1022, src/rle8_low_entropy_short_cpu.c:440-532). The runs of the
short vector versions are stored by `_mm_storeu_si128`. `none`: does not return. -/
def leDecodeC (short : Bool) (cpu : Cpu) (x : LeDInfo) (src : Mem) (len pos pEnd aOut cap o expOut : Nat) (m : Mem) :
    Option (Chk Mem) :=
  if rleCount x.rle = 0 then
    if pos + expOut ≤ len ∧ o + expOut ≤ cap then some (.done (wr m o expOut fun k => src (pos + k))) else some .out
  else
    let single := rleCount x.rle == 1
    let wide := if single then cpu.avx2 else cpu.avx
    let w := if wide then 32 else 16
    let find := if single then maskHit w src (firstRle x.rle) else fun p => firstHit src x.rle p w
    let fill := if short then fun m o cnt b => Chk.of (fillShort (!single && !wide) cap m o cnt b) else fillLongC w aOut cap
    match loop (leFastC w find x.toCount fill src len pEnd cap) (len + 2) ⟨pos, o, m⟩ with
    | none => none
    | some .fault => some .fault
    | some .out => some .out
    | some (.done s) =>
      match loop (leTailC x src len pEnd aOut cap) (len + 2) s with
      | none => none
      | some .fault => some .fault
      | some .out => some .out
      | some (.done s) => some (.done s.m)

/-- `leDecompress` with checked stores; `none`: a misaligned access (src/rle8_low_entropy_cpu.c:101-122,
src/rle8_low_entropy_short_cpu.c:103-124). -/
def leDecompressC (short : Bool) (cpu : Cpu) (a : DArgs) : Option DRes :=
  match a.pIn, a.pOut with
  | none, _ => some .fail
  | _, none => some .fail
  | some src, some m =>
    if a.inSize = 0 ∨ a.outSize = 0 then some .fail
    else
      match rdU32 src with
      | none => some .ub
      | some (expIn, r) =>
        match rdU32 r with
        | none => some .ub
        | some (expOut, r) =>
          if expOut > a.outSize ∨ expIn > a.inSize then some .fail
          else
            match readInfo r with
            | none => some .ub
            | some (x, r') =>
              match leDecodeC short cpu x (fun k => src.getD k 0) src.length (src.length - r'.length) expIn
                a.aOut a.cap 0 expOut m with
              | none => some .hang
              | some .fault => none
              | some .out => some .ub
              | some (.done m') => some (.ok expOut m')

/-- The sections of rle8m with checked stores (src/rle8_low_entropy_cpu.c:223-247). -/
def mDecSectionsC (cpu : Cpu) (x : LeDInfo) (src : List Byte) (inSize aOut cap sz last : Nat) :
    Nat → Nat → Nat → Nat → Mem → Option (Chk Mem)
  | 0, _, pos, o, m =>
    leDecodeC false cpu x (fun k => src.getD k 0) src.length pos inSize aOut cap o last m
  | cnt + 1, i, pos, o, m =>
    match u32At src (12 + 4 * i) with
    | none => some .out
    | some pEnd =>
      match leDecodeC false cpu x (fun k => src.getD k 0) src.length pos pEnd aOut cap o sz m with
      | none => none
      | some .fault => some .fault
      | some .out => some .out
      | some (.done m') => mDecSectionsC cpu x src inSize aOut cap sz last cnt (i + 1) pEnd (o + sz) m'

/-- `rle8m_decompress` with checked stores; `none`: a misaligned access (src/rle8_low_entropy_cpu.c:193-250). -/
def mDecompressC (cpu : Cpu) (a : DArgs) : Option DRes :=
  match a.pIn, a.pOut with
  | none, _ => some .fail
  | _, none => some .fail
  | some src, some m =>
    if a.inSize = 0 ∨ a.outSize = 0 then some .fail
    else
      match rdU32 src with
      | none => some .ub
      | some (expIn, r) =>
        match rdU32 r with
        | none => some .ub
        | some (expOut, r) =>
          if expOut > a.outSize ∨ expIn > a.inSize then some .fail
          else
            match rdU32 r with
            | none => some .ub
            | some (k, r) =>
              if k = 0 then some .fail
              else if r.length < 4 * (k - 1) then some .ub
              else
                match readInfo (r.drop (4 * (k - 1))) with
                | none => some .ub
                | some (x, r') =>
                  match mDecSectionsC cpu x src a.inSize a.aOut a.cap (expOut / k) (expOut - expOut / k * (k - 1))
                      (k - 1) 0 (src.length - r'.length) 0 m with
                  | none => some .hang
                  | some .fault => none
                  | some .out => some .ub
                  | some (.done m') => some (.ok expOut m')

/-! ### Nothing faults -/

/-- A loop whose rounds do the same up to the form of the result. -/
theorem loop_chk {σ ρ ρ' : Type} {body : σ → σ ⊕ ρ} {body' : σ → σ ⊕ ρ'} (f : ρ → ρ') (I : σ → Prop)
    (h : ∀ s, I s → (∃ s', body s = .inl s' ∧ body' s = .inl s' ∧ I s') ∨ ∃ r, body s = .inr r ∧ body' s = .inr (f r)) :
    ∀ fuel s, I s → loop body' fuel s = (loop body fuel s).map f
  | 0, _, _ => rfl
  | fuel + 1, s, hs => by
    rcases h s hs with ⟨s', h1, h2, h3⟩ | ⟨r, h1, h2⟩
    · rw [loop, loop, h1, h2]; exact loop_chk f I h fuel s' h3
    · rw [loop, loop, h1, h2]; rfl

/-- The address behind the first vector. -/
theorem next_aligned {W x : Nat} (hW : 0 < W) : x / W * W + W - x = W - x % W ∧ (x + (W - x % W)) % W = 0 := by
  have h1 := Nat.div_add_mod x W
  have h2 := Nat.mod_lt x hW
  rw [Nat.mul_comm] at h1
  refine ⟨by omega, ?_⟩
  have : x + (W - x % W) = W * (x / W + 1) := by rw [Nat.mul_add, Nat.mul_one, Nat.mul_comm W]; omega
  rw [this]
  exact Nat.mul_mod_right ..

theorem copyLoopC_eq {W cap inAddr : Nat} {src : List Byte} {o lit : Nat} {m : Mem} {r : Nat} (hr : (inAddr + r) % W = 0) :
    copyLoopC W cap inAddr src o lit m r = Chk.of (copyLoop W cap src o lit m r) := by
  unfold copyLoopC copyLoop
  rw [loop_chk (body := copyBody W cap src o lit) Chk.of (fun s => (inAddr + s.2) % W = 0) ?_ _ (m, r) hr]
  · cases loop (copyBody W cap src o lit) (lit + 1) (m, r) with
    | none => rfl
    | some x => rfl
  · intro s hs
    unfold copyBody copyBodyC
    by_cases h1 : s.2 < lit
    · rw [if_pos h1, if_pos h1, if_neg (not_not_intro hs)]
      by_cases h2 : o + s.2 + W ≤ cap ∧ s.2 + W ≤ src.length
      · rw [if_pos h2, if_pos h2]
        refine Or.inl ⟨_, rfl, rfl, ?_⟩
        show (inAddr + (s.2 + W)) % W = 0
        rw [← Nat.add_assoc, Nat.add_mod_right]
        exact hs
      · rw [if_neg h2, if_neg h2]; exact Or.inr ⟨_, rfl, rfl⟩
    · rw [if_neg h1, if_neg h1]; exact Or.inr ⟨_, rfl, rfl⟩

theorem memcpyC_eq {W cap inAddr : Nat} {src : List Byte} {o lit : Nat} {m : Mem} (hW : 0 < W) :
    memcpyC W cap inAddr src o lit m = Chk.of (memcpyV W cap inAddr src o lit m) := by
  unfold memcpyC memcpyV
  obtain ⟨n1, n2⟩ := next_aligned (x := inAddr) hW
  by_cases h1 : lit ≤ W
  · rw [if_pos h1, if_pos h1]; split <;> rfl
  · rw [if_neg h1, if_neg h1]
    by_cases h2 : inAddr % W ≠ 0
    · rw [if_pos h2, if_pos h2]
      by_cases h3 : o + W ≤ cap ∧ W ≤ src.length
      · rw [if_pos h3, if_pos h3, n1, copyLoopC_eq n2]
      · rw [if_neg h3, if_neg h3]; rfl
    · rw [if_neg h2, if_neg h2]
      exact copyLoopC_eq (by rw [Nat.add_zero]; exact Decidable.not_not.mp h2)

theorem setLoopC_eq {W cap outAddr : Nat} {reg : Vec} {o cnt : Nat} {m : Mem} {r : Nat} (hr : (outAddr + r) % W = 0) :
    setLoopC W cap outAddr reg o cnt m r = Chk.of (setLoop W cap reg o cnt m r) := by
  unfold setLoopC setLoop
  rw [loop_chk (body := setBody W cap reg o cnt) Chk.of (fun s => (outAddr + s.2) % W = 0) ?_ _ (m, r) hr]
  · cases loop (setBody W cap reg o cnt) (cnt + 1) (m, r) with
    | none => rfl
    | some x => rfl
  · intro s hs
    unfold setBody setBodyC
    by_cases h1 : s.2 < cnt
    · rw [if_pos h1, if_pos h1, if_neg (not_not_intro hs)]
      by_cases h2 : o + s.2 + W ≤ cap
      · rw [if_pos h2, if_pos h2]
        refine Or.inl ⟨_, rfl, rfl, ?_⟩
        show (outAddr + (s.2 + W)) % W = 0
        rw [← Nat.add_assoc, Nat.add_mod_right]
        exact hs
      · rw [if_neg h2, if_neg h2]; exact Or.inr ⟨_, rfl, rfl⟩
    · rw [if_neg h1, if_neg h1]; exact Or.inr ⟨_, rfl, rfl⟩

theorem memsetC_eq {k : SetK} {cap outAddr : Nat} {sym : List Byte} {o cnt : Nat} {m : Mem} (hk : 0 < k.width) :
    memsetC k cap outAddr sym o cnt m = Chk.of (memsetV k cap outAddr sym o cnt m) := by
  cases k with
  | multi G reg => rfl
  | aligned W =>
    unfold memsetC memsetV
    dsimp only
    obtain ⟨n1, n2⟩ := next_aligned (x := outAddr) (W := W) hk
    by_cases h1 : cnt ≤ W
    · rw [if_pos h1, if_pos h1]; split <;> rfl
    · rw [if_neg h1, if_neg h1]
      by_cases h2 : outAddr % W ≠ 0
      · rw [if_pos h2, if_pos h2]
        by_cases h3 : o + W ≤ cap
        · rw [if_pos h3, if_pos h3, n1, setLoopC_eq n2]
        · rw [if_neg h3, if_neg h3]; rfl
      · rw [if_neg h2, if_neg h2]
        exact setLoopC_eq (by rw [Nat.add_zero]; exact Decidable.not_not.mp h2)

theorem apiDecompressC_eq {σ : Type} (start : List Byte → Option (Option (σ × List Byte)))
    (hdr : σ → List Byte → Option (Hdr σ)) (v : DecV) (hW : 0 < v.copyW) (hk : 0 < v.setK.width) (a : DArgs) :
    apiDecompressC start hdr v a = some (apiDecompress start hdr v a) := by
  have key : ∀ fuel (s : MS σ), loop (decMStepC hdr v a.aIn a.aOut a.cap) fuel s =
      (loop (decMStep hdr v a.aIn a.aOut a.cap) fuel s).map Chk.of := by
    intro fuel s
    refine loop_chk Chk.of (fun _ => True) (fun s _ => ?_) fuel s trivial
    unfold decMStepC decMStep
    cases hdr s.fs s.src with
    | none => exact Or.inr ⟨_, rfl, rfl⟩
    | some h =>
      cases h with
      | ret => exact Or.inr ⟨_, rfl, rfl⟩
      | wrap cnt rest =>
        dsimp only
        cases memcpyWrap v.copyW a.cap (a.aIn + (s.pos + (s.src.length - rest.length))) rest s.o s.m with
        | none => exact Or.inr ⟨_, rfl, rfl⟩
        | some m =>
          dsimp only
          by_cases hc : cnt = none
          · rw [if_pos hc, if_pos hc]; exact Or.inr ⟨_, rfl, rfl⟩
          · rw [if_neg hc, if_neg hc]; exact Or.inr ⟨_, rfl, rfl⟩
      | go lit sym cnt fs rest =>
        dsimp only
        rw [memcpyC_eq hW]
        cases memcpyV v.copyW a.cap (a.aIn + (s.pos + (s.src.length - rest.length))) rest s.o lit s.m with
        | none => exact Or.inr ⟨_, rfl, rfl⟩
        | some m =>
          dsimp only [Chk.of]
          cases cnt with
          | none => exact Or.inr ⟨_, rfl, rfl⟩
          | some c =>
            dsimp only
            rw [memsetC_eq hk]
            cases memsetV v.setK a.cap (a.aOut + (s.o + lit)) sym (s.o + lit) c m with
            | none => exact Or.inr ⟨_, rfl, rfl⟩
            | some m => exact Or.inl ⟨_, rfl, rfl, trivial⟩
  unfold apiDecompressC apiDecompress
  cases a.pIn with
  | none => rfl
  | some src =>
    cases a.pOut with
    | none => rfl
    | some m =>
      dsimp only
      by_cases h1 : a.inSize = 0 ∨ a.outSize = 0
      · rw [if_pos h1, if_pos h1]
      · rw [if_neg h1, if_neg h1]
        cases rdU32 src with
        | none => rfl
        | some p =>
          obtain ⟨x, r⟩ := p
          dsimp only
          cases rdU32 r with
          | none => rfl
          | some p =>
            obtain ⟨y, r⟩ := p
            dsimp only
            by_cases h2 : x > a.outSize ∨ y > a.inSize
            · rw [if_pos h2, if_pos h2]
            · rw [if_neg h2, if_neg h2]
              cases start r with
              | none => rfl
              | some q =>
                cases q with
                | none => rfl
                | some q =>
                  obtain ⟨fs, r'⟩ := q
                  dsimp only
                  rw [key]
                  cases loop (decMStep hdr v a.aIn a.aOut a.cap) (r'.length + 1) ⟨fs, r', 8 + (r.length - r'.length), 0, m⟩ with
                  | none => rfl
                  | some z => cases z <;> rfl

theorem storeRepC_eq {w aOut : Nat} {b : Byte} : ∀ (n o : Nat) (m : Mem), (aOut + o) % w = 0 →
    storeRepC w aOut b n o m = some (storeRep w b n o m)
  | 0, _, _, _ => rfl
  | n + 1, o, m, h => by
    rw [storeRepC, if_neg (not_not_intro h), storeRep]
    refine storeRepC_eq n (o + w) _ ?_
    rw [← Nat.add_assoc, Nat.add_mod_right]
    exact h

theorem fillLongC_eq {w aOut cap : Nat} {m : Mem} {o cnt : Nat} {b : Byte} (hw : 0 < w) :
    fillLongC w aOut cap m o cnt b = Chk.of (fillLong w aOut cap m o cnt b) := by
  unfold fillLongC fillLong
  by_cases h0 : cnt = 0
  · rw [if_pos h0, if_pos h0]; rfl
  · rw [if_neg h0, if_neg h0]
    by_cases h1 : cnt ≤ w
    · rw [if_pos h1, if_pos h1]; split <;> rfl
    · rw [if_neg h1, if_neg h1]
      dsimp only
      by_cases h2 : (aOut + o) % w ≠ 0
      · rw [if_pos h2, if_pos h2]
        split
        · rw [storeRepC_eq]
          · rfl
          · rw [← Nat.add_assoc]; exact (next_aligned hw).2
        · rfl
      · rw [if_neg h2, if_neg h2]
        split
        · rw [storeRepC_eq _ _ _ (by omega)]; rfl
        · rfl

theorem fillTailC_eq {aOut cap : Nat} {m : Mem} {o cnt : Nat} {b : Byte} :
    fillTailC aOut cap m o cnt b = Chk.of (fillTail aOut cap m o cnt b) := by
  unfold fillTailC fillTail
  by_cases h0 : o + cnt ≤ cap
  · rw [if_pos h0, if_pos h0]
    by_cases h1 : cnt < 16
    · rw [if_pos h1, if_pos h1]; rfl
    · rw [if_neg h1, if_neg h1]
      dsimp only
      rw [storeRepC_eq]
      · rfl
      · by_cases h2 : (aOut + o) % 16 ≠ 0
        · rw [if_pos h2]; omega
        · rw [if_neg h2]; omega
  · rw [if_neg h0, if_neg h0]; rfl

theorem leFastC_eq {w : Nat} {find : Nat → Option Nat} {toCount : Byte → Nat} {fill : Mem → Nat → Nat → Byte → Option Mem}
    {fillC : Mem → Nat → Nat → Byte → Chk Mem} (hf : ∀ m o cnt b, fillC m o cnt b = Chk.of (fill m o cnt b))
    {src : Mem} {len pEnd cap : Nat} (fuel : Nat) (s : LeS) :
    loop (leFastC w find toCount fillC src len pEnd cap) fuel s = (loop (leFast w find toCount fill src len pEnd cap) fuel s).map Chk.of := by
  refine loop_chk Chk.of (fun _ => True) (fun s _ => ?_) fuel s trivial
  unfold leFastC leFast
  by_cases h1 : s.pos + 256 < pEnd
  · rw [if_pos h1, if_pos h1]
    by_cases h2 : s.pos + w ≤ len ∧ s.o + w ≤ cap
    · rw [if_pos h2, if_pos h2]
      dsimp only
      cases find s.pos with
      | none => exact Or.inl ⟨_, rfl, rfl, trivial⟩
      | some k =>
        dsimp only
        by_cases h3 : s.pos + k + 1 < len
        · rw [if_pos h3, if_pos h3, hf]
          cases fill (wr s.m s.o w fun k => src (s.pos + k)) (s.o + k + 1) (toCount (src (s.pos + k + 1))) (src (s.pos + k)) with
          | none => exact Or.inr ⟨_, rfl, rfl⟩
          | some m => exact Or.inl ⟨_, rfl, rfl, trivial⟩
        · rw [if_neg h3, if_neg h3]; exact Or.inr ⟨_, rfl, rfl⟩
    · rw [if_neg h2, if_neg h2]; exact Or.inr ⟨_, rfl, rfl⟩
  · rw [if_neg h1, if_neg h1]; exact Or.inr ⟨_, rfl, rfl⟩

theorem leTailC_eq {x : LeDInfo} {src : Mem} {len pEnd aOut cap : Nat} (fuel : Nat) (s : LeS) :
    loop (leTailC x src len pEnd aOut cap) fuel s = (loop (leTail x src len pEnd aOut cap) fuel s).map Chk.of := by
  refine loop_chk Chk.of (fun _ => True) (fun s _ => ?_) fuel s trivial
  unfold leTailC leTail
  by_cases h1 : s.pos < pEnd
  · rw [if_pos h1, if_pos h1]
    by_cases h2 : s.pos < len ∧ s.o < cap
    · rw [if_pos h2, if_pos h2]
      dsimp only
      by_cases h3 : x.rle (src s.pos) = true
      · rw [if_pos h3, if_pos h3]
        by_cases h4 : s.pos + 1 < len
        · rw [if_pos h4, if_pos h4, fillTailC_eq]
          cases fillTail aOut cap (wr s.m s.o 1 fun _ => src s.pos) (s.o + 1) (x.toCount (src (s.pos + 1))) (src s.pos) with
          | none => exact Or.inr ⟨_, rfl, rfl⟩
          | some m => exact Or.inl ⟨_, rfl, rfl, trivial⟩
        · rw [if_neg h4, if_neg h4]; exact Or.inr ⟨_, rfl, rfl⟩
      · rw [if_neg h3, if_neg h3]; exact Or.inl ⟨_, rfl, rfl, trivial⟩
    · rw [if_neg h2, if_neg h2]; exact Or.inr ⟨_, rfl, rfl⟩
  · rw [if_neg h1, if_neg h1]; exact Or.inr ⟨_, rfl, rfl⟩

theorem leDecodeC_eq {short : Bool} {cpu : Cpu} {x : LeDInfo} {src : Mem} {len pos pEnd aOut cap o expOut : Nat} {m : Mem} :
    leDecodeC short cpu x src len pos pEnd aOut cap o expOut m = (leDecode short cpu x src len pos pEnd aOut cap o expOut m).map Chk.of := by
  unfold leDecodeC leDecode
  by_cases h0 : rleCount x.rle = 0
  · rw [if_pos h0, if_pos h0]; split <;> rfl
  · rw [if_neg h0, if_neg h0]
    dsimp only
    rw [leFastC_eq (fill := if short = true then fillShort (!(rleCount x.rle == 1) && !(if (rleCount x.rle == 1) = true then cpu.avx2 else cpu.avx)) cap
      else fillLong (if (if (rleCount x.rle == 1) = true then cpu.avx2 else cpu.avx) = true then 32 else 16) aOut cap)]
    · generalize loop (leFast _ _ _ _ _ _ _ _) _ _ = z
      cases z with
      | none => rfl
      | some z =>
        cases z with
        | none => rfl
        | some s =>
          show (match loop (leTailC x src len pEnd aOut cap) (len + 2) s with
            | none => none
            | some Chk.fault => some (Chk.fault : Chk Mem)
            | some Chk.out => some Chk.out
            | some (Chk.done s) => some (Chk.done s.m)) = _
          rw [leTailC_eq]
          dsimp only
          cases loop (leTail x src len pEnd aOut cap) (len + 2) s with
          | none => rfl
          | some z => cases z <;> rfl
    · intro m o cnt b
      cases short with
      | true => rfl
      | false =>
        show fillLongC _ _ _ _ _ _ _ = Chk.of (fillLong _ _ _ _ _ _ _)
        exact fillLongC_eq (by split <;> split <;> omega)

theorem leDecompressC_eq (short : Bool) (cpu : Cpu) (a : DArgs) : leDecompressC short cpu a = some (leDecompress short cpu a) := by
  unfold leDecompressC leDecompress
  cases a.pIn with
  | none => rfl
  | some src =>
    cases a.pOut with
    | none => rfl
    | some m =>
      dsimp only
      by_cases h1 : a.inSize = 0 ∨ a.outSize = 0
      · rw [if_pos h1, if_pos h1]
      · rw [if_neg h1, if_neg h1]
        cases rdU32 src with
        | none => rfl
        | some p =>
          obtain ⟨x, r⟩ := p
          dsimp only
          cases rdU32 r with
          | none => rfl
          | some p =>
            obtain ⟨y, r⟩ := p
            dsimp only
            by_cases h2 : y > a.outSize ∨ x > a.inSize
            · rw [if_pos h2, if_pos h2]
            · rw [if_neg h2, if_neg h2]
              cases readInfo r with
              | none => rfl
              | some q =>
                obtain ⟨i, r'⟩ := q
                dsimp only
                rw [leDecodeC_eq]
                cases leDecode short cpu i (fun k => src.getD k 0) src.length (src.length - r'.length) x a.aOut a.cap 0 y m with
                | none => rfl
                | some z => cases z <;> rfl

theorem mDecSectionsC_eq {cpu : Cpu} {x : LeDInfo} {src : List Byte} {inSize aOut cap sz last : Nat} : ∀ cnt i pos o m,
    mDecSectionsC cpu x src inSize aOut cap sz last cnt i pos o m =
      (mDecSections cpu x src inSize aOut cap sz last cnt i pos o m).map Chk.of := by
  intro cnt
  induction cnt with
  | zero => intro i pos o m; unfold mDecSectionsC mDecSections; exact leDecodeC_eq
  | succ cnt ih =>
    intro i pos o m
    unfold mDecSectionsC mDecSections
    cases u32At src (12 + 4 * i) with
    | none => rfl
    | some pEnd =>
      dsimp only
      rw [leDecodeC_eq]
      cases leDecode false cpu x (fun k => src.getD k 0) src.length pos pEnd aOut cap o sz m with
      | none => rfl
      | some z =>
        cases z with
        | none => rfl
        | some m' => exact ih _ _ _ _

theorem mDecompressC_eq (cpu : Cpu) (a : DArgs) : mDecompressC cpu a = some (mDecompress cpu a) := by
  unfold mDecompressC mDecompress
  cases a.pIn with
  | none => rfl
  | some src =>
    cases a.pOut with
    | none => rfl
    | some m =>
      dsimp only
      by_cases h1 : a.inSize = 0 ∨ a.outSize = 0
      · rw [if_pos h1, if_pos h1]
      · rw [if_neg h1, if_neg h1]
        cases rdU32 src with
        | none => rfl
        | some p =>
          obtain ⟨x, r⟩ := p
          dsimp only
          cases rdU32 r with
          | none => rfl
          | some p =>
            obtain ⟨y, r⟩ := p
            dsimp only
            by_cases h2 : y > a.outSize ∨ x > a.inSize
            · rw [if_pos h2, if_pos h2]
            · rw [if_neg h2, if_neg h2]
              cases rdU32 r with
              | none => rfl
              | some p =>
                obtain ⟨k, r⟩ := p
                dsimp only
                by_cases h3 : k = 0
                · rw [if_pos h3, if_pos h3]
                · rw [if_neg h3, if_neg h3]
                  by_cases h4 : r.length < 4 * (k - 1)
                  · rw [if_pos h4, if_pos h4]
                  · rw [if_neg h4, if_neg h4]
                    cases readInfo (r.drop (4 * (k - 1))) with
                    | none => rfl
                    | some q =>
                      obtain ⟨i, r'⟩ := q
                      dsimp only
                      rw [mDecSectionsC_eq]
                      cases mDecSections cpu i src a.inSize a.aOut a.cap (y / k) (y - y / k * (k - 1)) (k - 1) 0 (src.length - r'.length) 0 m with
                      | none => rfl
                      | some z => cases z <;> rfl

end Hrk
