import Verif.Vec

/-
The part all run-length decoders share: record headers, literal copies and run
fills. `decS` works on lists, `decM` is the code with vector sized block
stores, alignment tests and capacities.
-/

namespace Hrk

/-- What one record header tells the decoder.
* `ret`: the stream ends here (`return` right after reading the header).
* `go lit sym cnt fs rest`: copy `lit` literal bytes from `rest`, then write
  `c` bytes of the repeated symbol `sym` if `cnt = some c`; `cnt = none` ends
  the stream after the literals (`if (!symbolCount) return;`).
* `wrap cnt rest`: the stored offset was 0 where the code subtracts 1, so
  `offset` is `SIZE_MAX` (only `rle128_byte_packed` streams contain this)
(src/rleX_extreme_cpu_decode.h:45-127). -/
inductive Hdr (σ : Type) where
  | ret
  | wrap (cnt : Option Nat) (rest : List Byte)
  | go (lit : Nat) (sym : List Byte) (cnt : Option Nat) (fs : σ) (rest : List Byte)

/-- A stream format: what the encoder writes for a run (`emit`), for the two
kinds of stream ends, and how the decoder parses a record header. `σ` is the
state both sides carry from record to record (last symbol, LUT)
(src/rleX_extreme_cpu_encode.h, src/rleX_extreme_cpu_decode.h). -/
structure Fmt (σ : Type) where
  /-- state before the first record -/
  init : σ
  /-- `emit st sym count lits`: header bytes for a run of `count` bytes after
  `lits` literal bytes, or `none` when the encoder decides not to emit. -/
  emit : σ → List Byte → Nat → Nat → Option (List Byte × σ)
  /-- terminator when the input ends with a run -/
  endRun : List Byte
  /-- terminator header when `lits` literal bytes follow -/
  endLit : Nat → List Byte
  /-- decoder side header parser; `none` = read past the end of the source -/
  hdr : σ → List Byte → Option (Hdr σ)

/-- Decoder state between records: format state, rest of the source, output
(src/rleX_extreme_cpu_decode.h:16-43). -/
structure DS (σ : Type) where
  fs : σ
  src : List Byte
  acc : List Byte

/-- One record of a scalar decoder. `K` is the number of readable bytes the
vector code wants behind each literal block (src/rleX_extreme_cpu_decode.h:43-163). -/
def decStep {σ : Type} (hdr : σ → List Byte → Option (Hdr σ)) (K : Nat) (s : DS σ) :
    DS σ ⊕ Option (List Byte) :=
  match hdr s.fs s.src with
  | none => .inr none
  | some .ret => .inr (some s.acc)
  | some (.wrap cnt rest) =>
    if cnt = none ∧ K ≤ rest.length then .inr (some s.acc) else .inr none
  | some (.go lit sym cnt fs rest) =>
    if lit + K ≤ rest.length then
      match cnt with
      | none => .inr (some (s.acc ++ rest.take lit))
      | some c => .inl ⟨fs, rest.drop lit, s.acc ++ rest.take lit ++ runBytes sym c⟩
    else .inr none

/-- Scalar decoder: `some out` when decoding ends properly, `none` when it
reads outside the source or is still running after `fuel` records
(src/rleX_extreme_cpu_decode.h:43-163). -/
def decS {σ : Type} (hdr : σ → List Byte → Option (Hdr σ)) (K : Nat) (fuel : Nat) (s : DS σ) :
    Option (List Byte) :=
  (loop (decStep hdr K) fuel s).join

/-! ### Vector code -/

/-- `while (pCOut < pOut) { store W; pCIn += W; pCOut += W; }` of the MEMCPY
macros (src/rleX_extreme_common.h:52-57, 80-85, 108-113, 136-141, 164-169).
`r` is `pCOut - pOut` before the copy, which equals `pCIn - pInStart`. The
state is the memory and `r`; `none` is an access outside source or target.
Prefetches have no semantics. -/
def copyBody (W cap : Nat) (src : List Byte) (o lit : Nat) (s : Mem × Nat) :
    (Mem × Nat) ⊕ Option Mem :=
  if s.2 < lit then
    if o + s.2 + W ≤ cap ∧ s.2 + W ≤ src.length then
      .inl (wr s.1 (o + s.2) W (fun j => src.getD (s.2 + j) 0), s.2 + W)
    else .inr none
  else .inr (some s.1)

/-- The copy loop as a whole (src/rleX_extreme_common.h:52-57). -/
def copyLoop (W cap : Nat) (src : List Byte) (o lit : Nat) (m : Mem) (r : Nat) : Option Mem :=
  (loop (copyBody W cap src o lit) (lit + 1) (m, r)).join

/-- MEMCPY_SSE / SSE41 / AVX / AVX2 / AVX512 with vector width `W`
(src/rleX_extreme_common.h:32-170). `inAddr` is the numeric address of
`pInStart`; `src` the readable bytes from `pInStart` on; `o` is `pOut`
relative to the start of the output buffer of `cap` bytes. -/
def memcpyV (W cap inAddr : Nat) (src : List Byte) (o lit : Nat) (m : Mem) : Option Mem :=
  if lit ≤ W then
    if o + W ≤ cap ∧ W ≤ src.length then some (wr m o W (fun j => src.getD j 0)) else none
  else if inAddr % W ≠ 0 then
    if o + W ≤ cap ∧ W ≤ src.length then
      copyLoop W cap src o lit (wr m o W (fun j => src.getD j 0)) (W - inAddr % W)
    else none
  else copyLoop W cap src o lit m 0

/-- The same macro entered with `offset == SIZE_MAX`: the size test fails, the
unaligned prologue may store one vector, `pOut += offset` moves one byte back
and the loop does not run (src/rleX_extreme_common.h:37-57). -/
def memcpyWrap (W cap inAddr : Nat) (src : List Byte) (o : Nat) (m : Mem) : Option Mem :=
  if inAddr % W ≠ 0 then
    if o + W ≤ cap ∧ W ≤ src.length then some (wr m o W (fun j => src.getD j 0)) else none
  else some m

/-- `while (pCOut < pCOutEnd) { store G; pCOut += G; }`, the loop of the MEMSET
macros. `G` is the vector width, or the three-vector group of the 24 and 48 bit
decoders, and `reg` what is in the registers (src/rleX_extreme_common.h:276-279). -/
def setBody (G cap : Nat) (reg : Vec) (o cnt : Nat) (s : Mem × Nat) :
    (Mem × Nat) ⊕ Option Mem :=
  if s.2 < cnt then
    if o + s.2 + G ≤ cap then
      .inl (wr s.1 (o + s.2) G reg, s.2 + G)
    else .inr none
  else .inr (some s.1)

/-- The fill loop as a whole (src/rleX_extreme_common.h:276-279). -/
def setLoop (G cap : Nat) (reg : Vec) (o cnt : Nat) (m : Mem) (r : Nat) : Option Mem :=
  (loop (setBody G cap reg o cnt) (cnt + 1) (m, r)).join

/-- Which MEMSET a decoder uses: `multi G` is MEMSET_*_MULTI
(src/rleX_extreme_common.h:271-306) or the three-vector loops of the 24/48 bit
decoders, and `reg` computes the registers from the symbol; `aligned W` is MEMSET_SSE/AVX/AVX512
(172-269) of a `_mm_set1_epi8`. -/
inductive SetK where
  | multi (G : Nat) (reg : List Byte → Vec)
  | aligned (W : Nat)

/-- The MEMSET macros. `outAddr` is the numeric address of `pOut`
(src/rleX_extreme_common.h:172-306). -/
def memsetV (k : SetK) (cap outAddr : Nat) (sym : List Byte) (o cnt : Nat) (m : Mem) : Option Mem :=
  match k with
  | .multi G reg => setLoop G cap (reg sym) o cnt m 0
  | .aligned W =>
    if cnt ≤ W then
      if o + W ≤ cap then some (wr m o W (vset1N sym)) else none
    else if outAddr % W ≠ 0 then
      if o + W ≤ cap then
        setLoop W cap (vset1N sym) o cnt (wr m o W (vset1N sym)) (W - outAddr % W)
      else none
    else setLoop W cap (vset1N sym) o cnt m 0

/-- Vector widths of one decoder variant (src/rleX_extreme_common.h:308-312). -/
structure DecV where
  copyW : Nat
  setK : SetK

/-- Number of bytes one store of a run fill touches (src/rleX_extreme_common.h:172-306). -/
def SetK.width : SetK → Nat
  | .multi G _ => G
  | .aligned W => W

/-- State of the real decoder loop: `src`/`pos` are the unread source bytes and
their offset, `o` is `pOut` relative to the buffer start, `m` the buffer
(src/rleX_extreme_cpu_decode.h:16-43). -/
structure MS (σ : Type) where
  fs : σ
  src : List Byte
  pos : Nat
  o : Nat
  m : Mem

/-- One iteration of `while (true)` of a decoder (e.g.
src/rleX_extreme_cpu_decode.h:43-163). `aIn`/`aOut` are the buffers' base
addresses, `cap` the size of the output buffer. Result: final memory. -/
def decMStep {σ : Type} (hdr : σ → List Byte → Option (Hdr σ)) (v : DecV) (aIn aOut cap : Nat)
    (s : MS σ) : MS σ ⊕ Option Mem :=
  match hdr s.fs s.src with
  | none => .inr none
  | some .ret => .inr (some s.m)
  | some (.wrap cnt rest) =>
    match memcpyWrap v.copyW cap (aIn + (s.pos + (s.src.length - rest.length))) rest s.o s.m with
    | none => .inr none
    | some m => if cnt = none then .inr (some m) else .inr none
  | some (.go lit sym cnt fs rest) =>
    let pos := s.pos + (s.src.length - rest.length)
    match memcpyV v.copyW cap (aIn + pos) rest s.o lit s.m with
    | none => .inr none
    | some m =>
      match cnt with
      | none => .inr (some m)
      | some c =>
        match memsetV v.setK cap (aOut + (s.o + lit)) sym (s.o + lit) c m with
        | none => .inr none
        | some m => .inl ⟨fs, rest.drop lit, pos + lit, s.o + lit + c, m⟩

/-- The decoder loop (src/rleX_extreme_cpu_decode.h:43-163). -/
def decM {σ : Type} (hdr : σ → List Byte → Option (Hdr σ)) (v : DecV) (aIn aOut cap : Nat)
    (fuel : Nat) (s : MS σ) : Option Mem :=
  (loop (decMStep hdr v aIn aOut cap) fuel s).join

/-! ### Block copies and fills do what memcpy and memset do -/

theorem copyLoop_spec {W cap : Nat} {src : List Byte} {o lit : Nat} {m : Mem} {r : Nat}
    (hW : 0 < W) (hs : lit + W ≤ src.length) (hc : o + lit + W ≤ cap)
    (hr : r ≤ W) (hpre : ∀ k, k < r → m (o + k) = src.getD k 0) :
    ∃ m', copyLoop W cap src o lit m r = some m' ∧
      (∀ k, k < lit → m' (o + k) = src.getD k 0) ∧
      (∀ k, k < o → m' k = m k) ∧ (∀ k, o + lit + W ≤ k → m' k = m k) := by
  have key := loop_rule (body := copyBody W cap src o lit)
    (fun s : Mem × Nat => (∀ k, k < s.2 → s.1 (o + k) = src.getD k 0) ∧ (∀ k, k < o → s.1 k = m k) ∧
      (∀ k, o + lit + W ≤ k → s.1 k = m k))
    (fun r => ∃ m', r = some m' ∧ (∀ k, k < lit → m' (o + k) = src.getD k 0) ∧
      (∀ k, k < o → m' k = m k) ∧ (∀ k, o + lit + W ≤ k → m' k = m k))
    (fun s => lit - s.2) ?_ (lit + 1) (m, r) ⟨hpre, fun _ _ => rfl, fun _ _ => rfl⟩ (by simp; omega)
  · obtain ⟨r', h1, m', h2, h3⟩ := key
    exact ⟨m', by simp [copyLoop, h1, h2], h3⟩
  · rintro ⟨m1, r1⟩ ⟨h1, h2, h3⟩
    simp only [copyBody]
    split
    · next hlt =>
      rw [if_pos (by omega)]
      refine ⟨⟨?_, ?_, ?_⟩, by simp; omega⟩
      · intro k hk
        by_cases hk2 : k < r1
        · simp only; rw [wr_out (by omega)]; exact h1 k hk2
        · simp only at hk ⊢; rw [wr_in (by omega) (by omega)]; congr 1; omega
      · intro k hk; simp only; rw [wr_out (by omega)]; exact h2 k hk
      · intro k hk; simp only; rw [wr_out (by omega)]; exact h3 k hk
    · next hge =>
      exact ⟨m1, rfl, fun k hk => h1 k (by simp only; omega), h2, h3⟩

theorem memcpyV_spec {W cap inAddr : Nat} {src : List Byte} {o lit : Nat} {m : Mem}
    (hW : 0 < W) (hs : lit + W ≤ src.length) (hc : o + lit + W ≤ cap) :
    ∃ m', memcpyV W cap inAddr src o lit m = some m' ∧
      (∀ k, k < lit → m' (o + k) = src.getD k 0) ∧
      (∀ k, k < o → m' k = m k) ∧ (∀ k, o + lit + W ≤ k → m' k = m k) := by
  unfold memcpyV
  have hw1 : ∀ k, k < W → wr m o W (fun j => src.getD j 0) (o + k) = src.getD k 0 := by
    intro k hk; rw [wr_in (by omega) (by omega)]; congr 1; omega
  split
  · next h =>
    rw [if_pos (by omega)]
    refine ⟨_, rfl, fun k hk => hw1 k (by omega), fun k hk => wr_out (by omega),
      fun k hk => wr_out (by omega)⟩
  · next h =>
    split
    · next hu =>
      rw [if_pos (by omega)]
      obtain ⟨m', h1, h2, h3, h4⟩ := copyLoop_spec (cap := cap) (o := o)
        (m := wr m o W (fun j => src.getD j 0))
        (r := W - inAddr % W) hW hs hc (by omega) (fun k hk => hw1 k (by omega))
      refine ⟨m', h1, h2, fun k hk => ?_, fun k hk => ?_⟩
      · rw [h3 k hk, wr_out (by omega)]
      · rw [h4 k hk, wr_out (by omega)]
    · exact copyLoop_spec hW hs hc (by omega) (by intro k hk; omega)

theorem memcpyWrap_spec {W cap inAddr : Nat} {src : List Byte} {o : Nat} {m : Mem}
    (hs : W ≤ src.length) (hc : o + W ≤ cap) :
    ∃ m', memcpyWrap W cap inAddr src o m = some m' ∧
      (∀ k, k < o → m' k = m k) ∧ (∀ k, o + W ≤ k → m' k = m k) := by
  unfold memcpyWrap
  split
  · rw [if_pos ⟨hc, hs⟩]
    exact ⟨_, rfl, fun k hk => wr_out (by omega), fun k hk => wr_out (by omega)⟩
  · exact ⟨m, rfl, fun _ _ => rfl, fun _ _ => rfl⟩

theorem setLoop_spec {G cap : Nat} {sym : List Byte} {o cnt : Nat} {m : Mem} {r : Nat}
    (hG : 0 < G) (hc : o + cnt + G ≤ cap)
    (hp : ∀ k j, k % G = r % G → sym.getD ((k + j) % sym.length) 0 = sym.getD (j % sym.length) 0)
    (hpre : ∀ k, k < r → m (o + k) = sym.getD (k % sym.length) 0) :
    ∃ m', setLoop G cap (vset1N sym) o cnt m r = some m' ∧
      (∀ k, k < cnt → m' (o + k) = sym.getD (k % sym.length) 0) ∧
      (∀ k, k < o → m' k = m k) ∧ (∀ k, o + cnt + G ≤ k → m' k = m k) := by
  have key := loop_rule (body := setBody G cap (vset1N sym) o cnt)
    (fun s : Mem × Nat => s.2 % G = r % G ∧
      (∀ k, k < s.2 → s.1 (o + k) = sym.getD (k % sym.length) 0) ∧
      (∀ k, k < o → s.1 k = m k) ∧ (∀ k, o + cnt + G ≤ k → s.1 k = m k))
    (fun r => ∃ m', r = some m' ∧ (∀ k, k < cnt → m' (o + k) = sym.getD (k % sym.length) 0) ∧
      (∀ k, k < o → m' k = m k) ∧ (∀ k, o + cnt + G ≤ k → m' k = m k))
    (fun s => cnt - s.2) ?_ (cnt + 1) (m, r) ⟨rfl, hpre, fun _ _ => rfl, fun _ _ => rfl⟩ (by simp; omega)
  · obtain ⟨r', h1, m', h2, h3⟩ := key
    exact ⟨m', by simp [setLoop, h1, h2], h3⟩
  · rintro ⟨m1, r1⟩ ⟨h0, h1, h2, h3⟩
    simp only [setBody]
    split
    · next hlt =>
      rw [if_pos (by omega)]
      refine ⟨⟨by simpa using h0, ?_, ?_, ?_⟩, by simp; omega⟩
      · intro k hk
        by_cases hk2 : k < r1
        · simp only; rw [wr_out (by omega)]; exact h1 k hk2
        · simp only at hk ⊢; rw [wr_in (by omega) (by omega)]
          have := hp r1 (k - r1) h0
          rw [show r1 + (k - r1) = k by omega] at this
          rw [this]; show sym.getD _ 0 = _; congr 2; omega
      · intro k hk; simp only; rw [wr_out (by omega)]; exact h2 k hk
      · intro k hk; simp only; rw [wr_out (by omega)]; exact h3 k hk
    · next hge =>
      exact ⟨m1, rfl, fun k hk => h1 k (by simp only; omega), h2, h3⟩

theorem setLoop_congr {G cap : Nat} {r₁ r₂ : Vec} (h : ∀ j, j < G → r₁ j = r₂ j) : setLoop G cap r₁ = setLoop G cap r₂ := by
  have : setBody G cap r₁ = setBody G cap r₂ := by
    funext o cnt s
    have e : wr s.1 (o + s.2) G r₁ = wr s.1 (o + s.2) G r₂ := by
      funext a
      unfold wr
      split
      · exact h _ (by omega)
      · rfl
    unfold setBody
    rw [e]
  funext o cnt m r
  unfold setLoop
  rw [this]

/-- A fill can be done with this kind of store: the group is a whole number of
symbols and the registers hold the symbol again and again, or the symbol is a single byte. -/
def SetK.ok (k : SetK) (S : Nat) : Prop :=
  match k with
  | .multi G reg => 0 < G ∧ 0 < S ∧ G % S = 0 ∧ ∀ sym j, sym.length = S → j < G → reg sym j = vset1N sym j
  | .aligned W => 0 < W ∧ S = 1

theorem memsetV_spec {k : SetK} {cap outAddr : Nat} {sym : List Byte} {o cnt : Nat} {m : Mem}
    (hk : k.ok sym.length) (hc : o + cnt + k.width ≤ cap) :
    ∃ m', memsetV k cap outAddr sym o cnt m = some m' ∧
      (∀ j, j < cnt → m' (o + j) = sym.getD (j % sym.length) 0) ∧
      (∀ j, j < o → m' j = m j) ∧ (∀ j, o + cnt + k.width ≤ j → m' j = m j) := by
  cases k with
  | multi G reg =>
    obtain ⟨h1, h2, h3, h4⟩ := hk
    simp only [memsetV]
    rw [setLoop_congr (h4 sym · rfl)]
    refine setLoop_spec h1 hc ?_ (by intro k hk; omega)
    intro k j hkj
    congr 1
    have : k % sym.length = 0 := by
      have hd : sym.length ∣ G := Nat.dvd_of_mod_eq_zero h3
      have : G ∣ k := Nat.dvd_of_mod_eq_zero (by simpa using hkj)
      exact Nat.mod_eq_zero_of_dvd (Nat.dvd_trans hd this)
    rw [Nat.add_mod, this]; simp
  | aligned W =>
    obtain ⟨h1, h2⟩ := hk
    simp only [SetK.width] at hc ⊢
    have hper : ∀ k j : Nat, sym.getD ((k + j) % sym.length) 0 = sym.getD (j % sym.length) 0 := by
      intro k j; rw [h2]; simp [Nat.mod_one]
    have hw1 : ∀ k, k < W → wr m o W (vset1N sym) (o + k)
        = sym.getD (k % sym.length) 0 := by
      intro k hk; rw [wr_in (by omega) (by omega)]; show sym.getD _ 0 = _; congr 2; omega
    simp only [memsetV]
    split
    · rw [if_pos (by omega)]
      exact ⟨_, rfl, fun k hk => hw1 k (by omega), fun k hk => wr_out (by omega),
        fun k hk => wr_out (by omega)⟩
    · split
      · rw [if_pos (by omega)]
        obtain ⟨m', g1, g2, g3, g4⟩ := setLoop_spec (cap := cap) (o := o) (cnt := cnt) (sym := sym)
          (m := wr m o W (vset1N sym))
          (r := W - outAddr % W) h1 hc (fun k j _ => hper k j) (fun k hk => hw1 k (by omega))
        refine ⟨m', g1, g2, fun k hk => ?_, fun k hk => ?_⟩
        · rw [g3 k hk, wr_out (by omega)]
        · rw [g4 k hk, wr_out (by omega)]
      · exact setLoop_spec h1 hc (fun k j _ => hper k j) (by intro k hk; omega)

/-! ### `decM` refines `decS` -/

theorem decS_length {σ : Type} {hdr : σ → List Byte → Option (Hdr σ)} {K : Nat} :
    ∀ (f : Nat) (s : DS σ) (out : List Byte), decS hdr K f s = some out →
      s.acc.length ≤ out.length := by
  intro f
  induction f with
  | zero => intro s out h; simp [decS, loop] at h
  | succ f ih =>
    intro s out h
    simp only [decS, loop] at h
    split at h
    · rename_i s' hb
      have := ih s' out h
      simp only [decStep] at hb
      split at hb
      · cases hb
      · cases hb
      · split at hb <;> cases hb
      · split at hb
        · split at hb
          · cases hb
          · cases hb
            simp at this
            omega
        · cases hb
    · rename_i r hb
      simp only [Option.join_some] at h
      subst h
      simp only [decStep] at hb
      split at hb
      · cases hb
      · cases hb; omega
      · split at hb <;> cases hb
        omega
      · split at hb
        · split at hb
          · cases hb
            simp
          · cases hb
        · cases hb

/-- The memory holds `acc` at its start. -/
def Holds (m : Mem) (acc : List Byte) : Prop := ∀ k, k < acc.length → m k = acc.getD k 0

theorem Holds.rd {m : Mem} {acc : List Byte} (h : Holds m acc) : rd m 0 acc.length = acc := by
  apply List.ext_getElem?
  intro k
  rw [rd_getElem?]
  split
  · next hk =>
    rw [Nat.zero_add, h k hk]
    simp [List.getD, hk]
  · next hk => simp [Nat.le_of_not_lt hk]

/-- The header parser only produces symbols of `S` bytes, and keeps `P`. -/
def HdrOK {σ : Type} (hdr : σ → List Byte → Option (Hdr σ)) (P : σ → Prop) (S : Nat) : Prop :=
  ∀ fs src lit sym cnt fs' rest, P fs → hdr fs src = some (.go lit sym cnt fs' rest) →
    sym.length = S ∧ P fs'

theorem getD_append_left {l₁ l₂ : List Byte} {k : Nat} (h : k < l₁.length) :
    (l₁ ++ l₂).getD k 0 = l₁.getD k 0 := by
  simp [List.getD, List.getElem?_append, h]

theorem getD_append_right {l₁ l₂ : List Byte} {k : Nat} (h : l₁.length ≤ k) :
    (l₁ ++ l₂).getD k 0 = l₂.getD (k - l₁.length) 0 := by
  simp [List.getD, List.getElem?_append_right h]

theorem Holds.append {m m' : Mem} {acc x : List Byte} (h : Holds m acc)
    (h1 : ∀ k, k < acc.length → m' k = m k)
    (h2 : ∀ k, k < x.length → m' (acc.length + k) = x.getD k 0) : Holds m' (acc ++ x) := by
  intro k hk
  by_cases hlt : k < acc.length
  · rw [h1 k hlt, h k hlt, getD_append_left hlt]
  · have := h2 (k - acc.length) (by simp at hk; omega)
    rw [show acc.length + (k - acc.length) = k by omega] at this
    rw [this, getD_append_right (by omega)]

theorem take_getD {l : List Byte} {n k : Nat} (h : k < n) : (l.take n).getD k 0 = l.getD k 0 := by
  simp [List.getD, List.getElem?_take, h]

theorem runBytes_getD {s : List Byte} {c k : Nat} (h : k < c) :
    (runBytes s c).getD k 0 = s.getD (k % s.length) 0 := by
  simp only [List.getD_eq_getElem?_getD, runBytes_getElem?, h, if_true, Option.getD_some]

/-- The vector decoder does what the scalar decoder does, for every alignment,
provided the output buffer has one vector (or fill group) of slack. Nothing at
or above `out.length + slack` is touched. -/
theorem decM_refines {σ : Type} {hdr : σ → List Byte → Option (Hdr σ)} {P : σ → Prop} {S : Nat}
    (hH : HdrOK hdr P S) (v : DecV) (hW : 0 < v.copyW) (hk : v.setK.ok S) (aIn aOut cap slack : Nat)
    (hs1 : v.copyW ≤ slack) (hs2 : v.setK.width ≤ slack) :
    ∀ (f : Nat) (s : DS σ) (out : List Byte) (pos : Nat) (m : Mem),
      decS hdr v.copyW f s = some out → P s.fs → Holds m s.acc → out.length + slack ≤ cap →
      ∃ m', decM hdr v aIn aOut cap f ⟨s.fs, s.src, pos, s.acc.length, m⟩ = some m' ∧
        Holds m' out ∧ ∀ k, out.length + slack ≤ k → m' k = m k := by
  intro f
  induction f with
  | zero => intro s out pos m h; simp [decS, loop] at h
  | succ f ih =>
    rintro ⟨fs, src, acc⟩ out pos m h hP hm hcap
    have hlen := decS_length _ _ _ h
    simp only [decS, loop, decStep] at h
    simp only at hP hm hlen
    simp only [decM, loop, decMStep]
    cases hh : hdr fs src with
    | none => simp [hh] at h
    | some hd =>
      cases hd with
      | ret =>
        simp only [hh, Option.join_some, Option.some.injEq, exists_eq_left'] at h ⊢
        subst h
        exact ⟨hm, fun _ _ => trivial⟩
      | wrap cnt rest =>
        simp only [hh] at h ⊢
        split at h
        · rename_i heq
          split at heq <;> cases heq
        · rename_i r heq
          split at heq
          · next hc =>
            cases heq
            simp only [Option.join_some, Option.some.injEq] at h
            subst h
            obtain ⟨hc0, hc1⟩ := hc
            subst hc0
            obtain ⟨m', h1, h2, h3⟩ := memcpyWrap_spec (m := m) (o := acc.length) (cap := cap)
              (inAddr := aIn + (pos + (src.length - rest.length))) hc1 (by omega)
            simp only [h1, if_true, Option.join_some, Option.some.injEq, exists_eq_left']
            exact ⟨fun k hk => by rw [h2 k hk]; exact hm k hk, fun k hk => h3 k (by omega)⟩
          · cases heq
            simp at h
      | go lit sym cnt fs' rest =>
        have hH' := hH fs src lit sym cnt fs' rest hP hh
        simp only [hh] at h ⊢
        by_cases hl : lit + v.copyW ≤ rest.length
        · rw [if_pos hl] at h
          cases cnt with
          | none =>
            simp at h
            subst h
            simp at hcap
            rw [Nat.min_eq_left (by omega)] at hcap
            obtain ⟨m', h1, h2, h3, h4⟩ := memcpyV_spec (m := m) (o := acc.length) (cap := cap)
              (inAddr := aIn + (pos + (src.length - rest.length))) hW hl (by omega)
            rw [h1]
            simp only [Option.join_some, Option.some.injEq, exists_eq_left']
            refine ⟨Holds.append hm h3 ?_, ?_⟩
            · intro k hk
              simp at hk
              rw [h2 k (by omega), take_getD (by omega)]
            · intro k hk
              simp at hk
              exact h4 k (by omega)
          | some cnt =>
            simp only at h
            change decS hdr v.copyW f _ = some out at h
            have hl2 := decS_length _ _ _ h
            simp only [List.length_append, List.length_take, runBytes_length] at hl2
            obtain ⟨m1, h1, h2, h3, h4⟩ := memcpyV_spec (m := m) (o := acc.length) (cap := cap)
              (inAddr := aIn + (pos + (src.length - rest.length))) hW hl (by omega)
            rw [h1]
            simp only
            obtain ⟨m2, g1, g2, g3, g4⟩ := memsetV_spec (m := m1) (o := acc.length + lit)
              (cap := cap) (k := v.setK) (sym := sym) (cnt := cnt)
              (outAddr := aOut + (acc.length + lit)) (by rw [hH'.1]; exact hk) (by omega)
            rw [g1]
            simp only
            have hl3 : (acc ++ List.take lit rest).length = acc.length + lit := by
              simp; omega
            have hm2 : Holds m2 (acc ++ List.take lit rest ++ runBytes sym cnt) := by
              refine Holds.append (m := m1) (Holds.append hm h3 ?_) ?_ ?_
              · intro k hk
                simp at hk
                rw [h2 k (by omega), take_getD (by omega)]
              · intro k hk
                exact g3 k (by omega)
              · intro k hk
                simp at hk
                rw [hl3, g2 k hk, runBytes_getD hk]
            obtain ⟨m3, k1, k2, k3⟩ := ih ⟨fs', rest.drop lit, _⟩ out
              (pos + (src.length - rest.length) + lit) m2 h hH'.2 hm2 hcap
            have hl4 : (acc ++ List.take lit rest ++ runBytes sym cnt).length
              = acc.length + lit + cnt := by rw [List.length_append, hl3]; simp
            simp only [hl4] at k1
            refine ⟨m3, k1, k2, fun k hk => ?_⟩
            rw [k3 k hk, g4 k (by omega), h4 k (by omega)]
        · rw [if_neg hl] at h
          simp at h

end Hrk
