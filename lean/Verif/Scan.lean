import Verif.ApiProps

/-
Any scanner that ends in a good state gives a good codec. A scanner is a
function from the input to the final encoder variables; the closing block of
the encoder (`finish`) turns these into the stream.
-/

namespace Hrk

/-- What is known when an encoder main loop ends: everything before `lastRLE` is
in the stream, the last `count` bytes are a run of `sym`, and the scan stopped
at most `S` bytes behind the input. -/
structure FinalOK {σ : Type} (S : Nat) (unb : Bool) (inp : Mem) (n : Nat)
    (CP : σ → List Byte → Nat → Prop) (s : ES σ) : Prop where
  cp : CP s.fs s.out s.lastRLE
  len : s.sym.length = S
  last : s.lastRLE + s.count ≤ s.i
  lo : n ≤ s.i
  hi : s.i ≤ n + S
  run : RunAt inp s.sym s.i s.count
  dvd : unb = true ∨ S ∣ s.count

/-- The scanner terminates in a good state, and keeps every invariant of the emission
rules `E` it uses. -/
def ScanRun {σ : Type} (E : List (Emit σ)) (S : Nat) (unb : Bool) (fs0 : Mem → Nat → σ)
    (run : Mem → Nat → Option (ES σ)) : Prop :=
  ∀ (inp : Mem) (n B : Nat) (CP : σ → List Byte → Nat → Prop), n + S ≤ B → (∀ e ∈ E, Closed e inp S unb B CP) →
    CP (fs0 inp n) [] 0 → ∃ s, run inp n = some s ∧ FinalOK S unb inp n CP s

/-- The scanner reads nothing at or behind `n + S`. -/
def ScanCongr {σ : Type} (S : Nat) (run : Mem → Nat → Option (ES σ)) : Prop :=
  ∀ (inp inp' : Mem) (n : Nat), (∀ k, k < n + S → inp k = inp' k) → run inp n = run inp' n

/-- A run-length codec with an 8 byte header.
* `emitEnd` is the emission test of the closing block; `extra` are further emission rules
  of the scanner, if it has more than `F.emit`.
* `first` is the state the encoder starts with, `pre` what it writes in front of the
  first record, `start` how the decoder reads that back.
* `run` is the scanner the dispatcher picks.
* `hdrV` and `decV` are the header parser and the copy and fill loops of the decoder the
  dispatcher picks
(src/rleX_extreme_cpu.h, src/rleX_Xsl.h, src/rleX_Xsl_short.h, src/rle8_extreme_cpu.h). -/
structure Cdc (σ : Type) where
  F : Fmt σ
  emitEnd : Emit σ
  extra : List (Emit σ) := []
  S : Nat
  unb : Bool
  first : Mem → Nat → σ := fun _ _ => F.init
  pre : σ → List Byte := fun _ => []
  start : List Byte → Option (Option (σ × List Byte)) := fun r => some (some (F.init, r))
  run : Cpu → Mem → Nat → Option (ES σ)
  hdrV : Cpu → σ → List Byte → Option (Hdr σ) := fun _ => F.hdr
  decV : Cpu → DecV

namespace Cdc

variable {σ : Type}

/-- The stream behind the header (src/rleX_extreme_cpu_encode.h:21-608). -/
def body (c : Cdc σ) (cpu : Cpu) (inp : Mem) (n : Nat) : Option (List Byte) :=
  (c.run cpu inp n).map fun s => c.pre (c.first inp n) ++ finish c.emitEnd c.F.endRun c.F.endLit inp s

/-- `*_compress` (src/rleX_extreme_cpu.h:47-60). -/
def compress (c : Cdc σ) (cpu : Cpu) : Compress := apiCompress (c.body cpu)

/-- `*_decompress` (src/rleX_extreme_cpu.h:82-111). -/
def decompress (c : Cdc σ) (cpu : Cpu) : Decompress := apiDecompress c.start (c.hdrV cpu) (c.decV cpu)

/-- What a byte string stands for. -/
def ref (c : Cdc σ) : List Byte → Option (List Byte) := refDecode c.start c.F.hdr

/-- Everything that has to be shown about a codec. `P` is what the encoder keeps true of the
state, `D` what the decoder keeps true on arbitrary streams. -/
structure OK (c : Cdc σ) (P : σ → Prop) (D : σ → Prop := P) : Prop where
  sub : ∀ fs, P fs → D fs := by intro fs h; exact h
  extra : ∀ e ∈ c.extra, EmitOK e c.F.hdr P c.S c.unb (1073741824 + 16) := by intro e he; nomatch he
  pos : 0 < c.S
  le : c.S ≤ 16
  fmt : FmtOK c.F P c.S c.unb (1073741824 + 16)
  emitEnd : EmitOK c.emitEnd c.F.hdr P c.S c.unb (1073741824 + 16)
  hdr : HdrOK c.F.hdr D c.S
  loc : HdrLocal c.F.hdr
  decV : ∀ cpu, 0 < (c.decV cpu).copyW ∧ (c.decV cpu).copyW ≤ 64 ∧ (c.decV cpu).setK.ok c.S ∧
    (c.decV cpu).setK.width ≤ 112
  scan : ∀ cpu, ScanRun (c.F.emit :: c.extra) c.S c.unb c.first (c.run cpu)
  congr : ∀ cpu, ScanCongr c.S (c.run cpu)
  first : ∀ inp n, P (c.first inp n)
  firstCongr : ∀ inp inp' n, (∀ k, k < n + c.S → inp k = inp' k) → c.first inp n = c.first inp' n
  start : ∀ inp n tail, c.start (c.pre (c.first inp n) ++ tail) = some (some (c.first inp n, tail))
  startLoc : StartLocal D c.start
  rel : ∀ cpu, HdrRel c.F.hdr (c.hdrV cpu)
  locV : ∀ cpu, HdrLocal (c.hdrV cpu)

theorem startId {P : σ → Prop} {fs : σ} (h : P fs) : StartLocal P (fun r => some (some (fs, r))) := by
  intro src fs' r he
  cases he
  exact ⟨h, fun _ => rfl⟩

theorem finish_scanOK {emit emitEnd : Emit σ} {endRun : List Byte} {endLit : Nat → List Byte} {inp : Mem}
    {n S B : Nat} {unb : Bool} {CP : σ → List Byte → Nat → Prop} {s : ES σ} (hB : n + S ≤ B)
    (hc : Closed emitEnd inp S unb B CP) (h : FinalOK S unb inp n CP s) :
    ScanOK endRun endLit inp n S CP (finish emitEnd endRun endLit inp s) := by
  obtain ⟨hcp, hlen, hlast, hlo, hhi, hrun, hdvd⟩ := h
  unfold finish
  split
  · next bytes fs' he =>
    have := hc _ _ _ _ _ _ _ _ hcp hlen hdvd (by omega) (hrun.toRun (by omega)) he
    rw [show s.lastRLE + (s.i - s.count - s.lastRLE) + s.count = s.i by omega] at this
    exact ⟨fs', _, s.i, s.i, this, hlo, hhi, Nat.le_refl _, Or.inl ⟨rfl, rfl⟩⟩
  · exact ⟨_, _, _, s.i, hcp, hlo, hhi, by omega, Or.inr rfl⟩

variable {c : Cdc σ} {P D : σ → Prop}

theorem OK.body_scan (h : c.OK P D) (cpu : Cpu) (inp : Mem) (n B : Nat) (CP : σ → List Byte → Nat → Prop)
    (hB : n + c.S ≤ B) (h1 : ∀ e ∈ c.F.emit :: c.extra, Closed e inp c.S c.unb B CP)
    (h2 : Closed c.emitEnd inp c.S c.unb B CP) (h0 : CP (c.first inp n) [] 0) :
    ∃ b, c.body cpu inp n = some (c.pre (c.first inp n) ++ b) ∧ ScanOK c.F.endRun c.F.endLit inp n c.S CP b := by
  obtain ⟨s, g1, g2⟩ := h.scan cpu inp n B CP hB h1 h0
  exact ⟨_, by simp [body, g1], finish_scanOK (emit := c.F.emit) hB h2 g2⟩

/-- The encoder and the parser of a codec are inverse for records of up to `B` bytes. -/
structure Upto (c : Cdc σ) (P : σ → Prop) (B : Nat) : Prop where
  extra : ∀ e ∈ c.extra, EmitOK e c.F.hdr P c.S c.unb B := by intro e he; nomatch he
  fmt : FmtOK c.F P c.S c.unb B
  emitEnd : EmitOK c.emitEnd c.F.hdr P c.S c.unb B

theorem OK.upto (h : c.OK P D) : c.Upto P (1073741824 + 16) := ⟨h.extra, h.fmt, h.emitEnd⟩

theorem OK.decode (h : c.OK P D) {B : Nat} (hu : c.Upto P B) (cpu : Cpu) (inp : Mem) (n : Nat) (hn : n + 16 ≤ B) :
    ∃ b, c.body cpu inp n = some (c.pre (c.first inp n) ++ b) ∧
      ∃ T, n ≤ T ∧ T ≤ n + c.S ∧ ∀ K tail, K ≤ tail.length →
      decS c.F.hdr K (b.length + 1) ⟨c.first inp n, b ++ tail, []⟩ = some (rd inp 0 T) := by
  have := h.le
  obtain ⟨b, h1, h2⟩ := h.body_scan cpu inp n B _ (by omega)
    (List.forall_mem_cons.mpr ⟨DecCP.closed hu.fmt.emit, fun e he => DecCP.closed (hu.extra e he)⟩)
    (DecCP.closed hu.emitEnd) (DecCP.init (h.first inp n))
  exact ⟨b, h1, h2.decode hu.fmt.ends (by omega)⟩

theorem OK.roundTripUpTo (h : c.OK P D) {B lim : Nat} (hu : c.Upto P B) (hB : lim + 16 ≤ B) (hlim : lim < 4294967296)
    (ce cd : Cpu) : RoundTripUpTo lim (c.compress ce) (c.decompress cd) := by
  obtain ⟨v1, v2, v3, v4⟩ := h.decV cd
  have := h.le
  refine roundTripUpTo_of_decS hlim c.start (c.hdrV cd) (P := D) (S := c.S) (c.decV cd) _ (by omega)
    ((h.rel cd).hdrOK h.hdr) v1 v2 v3 v4 ?_
  intro inp n b _ hn hb
  obtain ⟨b', h1, T, h2, h3, h4⟩ := h.decode hu ce inp n (by omega)
  rw [h1] at hb
  cases hb
  refine ⟨c.first inp n, b', T, h.sub _ (h.first inp n), fun tail => ?_, h2, h3, fun K tail hK => ?_⟩
  · rw [List.append_assoc, h.start]
  · exact (h.rel cd).decS _ _ _ (h4 K tail hK)

theorem OK.roundTrip (h : c.OK P D) (ce cd : Cpu) : RoundTrip (c.compress ce) (c.decompress cd) :=
  h.roundTripUpTo (lim := maxInput) h.upto (by unfold maxInput; omega) (by unfold maxInput; omega) ce cd

theorem OK.size (h : c.OK P D) (cpu : Cpu) (p e : Nat) (h1 : ∀ e ∈ c.F.emit :: c.extra, EmitSize e P c.S c.unb)
    (h2 : EmitSize c.emitEnd P c.S c.unb) (h3 : c.F.endRun.length ≤ e) (h4 : ∀ k, (c.F.endLit k).length ≤ e)
    (h5 : ∀ fs, (c.pre fs).length ≤ p)
    (inp : Mem) (n : Nat) : ∃ b, c.body cpu inp n = some b ∧ b.length ≤ n + c.S + (p + e) := by
  obtain ⟨b, g1, g2⟩ := h.body_scan cpu inp n (n + c.S) _ (Nat.le_refl _) (fun e he => SizeCP.closed (h1 e he)) (SizeCP.closed h2)
    ⟨h.first inp n, by simp⟩
  have := g2.size h3 h4
  have := h5 (c.first inp n)
  exact ⟨_, g1, by rw [List.length_append]; omega⟩

theorem OK.grow (h : c.OK P D) (cpu : Cpu) (p k e L : Nat) (hL : 0 < L)
    (h1 : ∀ em ∈ c.F.emit :: c.extra, EmitGrow em P c.S c.unb e L)
    (h2 : EmitGrow c.emitEnd P c.S c.unb e L) (h3 : c.F.endRun.length ≤ k) (h4 : ∀ j, (c.F.endLit j).length ≤ k)
    (h5 : ∀ fs, P fs → (c.pre fs).length ≤ p)
    (inp : Mem) (n : Nat) : ∃ b, c.body cpu inp n = some b ∧ b.length ≤ n + c.S + (p + k) + e * ((n + c.S) / L) := by
  obtain ⟨b, g1, g2⟩ := h.body_scan cpu inp n (n + c.S) _ (Nat.le_refl _) (fun e he => GrowCP.closed hL (h1 e he))
    (GrowCP.closed hL h2) ⟨h.first inp n, by simp⟩
  have := g2.grow h3 h4
  have := h5 (c.first inp n) (h.first inp n)
  exact ⟨_, g1, by rw [List.length_append]; omega⟩

theorem growsAtMost {A a e L : Nat} {cpu : Cpu} (hL : c.S ≤ L) (hL0 : 0 < L)
    (h : ∀ inp n, ∃ b, c.body cpu inp n = some b ∧ b.length ≤ n + a + e * ((n + c.S) / L)) (hA : 8 + a + e ≤ A) :
    GrowsAtMost A e L (c.compress cpu) := by
  intro inp n outSize ret out hc
  obtain ⟨b, h1, h2⟩ := h inp n
  obtain ⟨g1, b', g2, rfl, rfl⟩ := apiCompress_len _ _ _ _ _ _ hc
  rw [h1] at g2
  cases g2
  have h3 : (n + c.S) / L ≤ n / L + 1 := by
    rw [← Nat.add_div_right _ hL0]
    exact Nat.div_le_div_right (by omega)
  have h4 : e * ((n + c.S) / L) ≤ e * (n / L + 1) := Nat.mul_le_mul_left _ h3
  rw [Nat.mul_add] at h4
  simp only [List.length_append, le32_length] at g1 ⊢
  omega

theorem fitsUpTo {lim a e L : Nat} {cpu : Cpu}
    (h : ∀ inp n, ∃ b, c.body cpu inp n = some b ∧ b.length ≤ n + a + e * ((n + c.S) / L))
    (hA : a + e * ((lim + c.S) / L) ≤ 185) : FitsUpTo lim bounds (c.compress cpu) := by
  refine fitsUpTo_of_size lim _ fun inp n _ hn => ?_
  obtain ⟨b, h1, h2⟩ := h inp n
  have h4 : e * ((n + c.S) / L) ≤ e * ((lim + c.S) / L) := Nat.mul_le_mul_left _ (Nat.div_le_div_right (by omega))
  exact ⟨b, h1, by omega⟩

theorem OK.total (h : c.OK P D) (cpu : Cpu) (inp : Mem) (n : Nat) : ∃ b, c.body cpu inp n = some b := by
  obtain ⟨b, g1, _⟩ := h.body_scan cpu inp n (n + c.S) (fun _ _ _ => True) (Nat.le_refl _) (fun _ _ => closed_true)
    closed_true trivial
  exact ⟨_, g1⟩

theorem header (c : Cdc σ) (ce cd : Cpu) : HeaderTruthful (c.compress ce) (c.decompress cd) :=
  headerTruthful_api _ _ _ _

theorem cguards (c : Cdc σ) (cpu : Cpu) : CompressGuards bounds (c.compress cpu) := compressGuards_api _

theorem dguards (c : Cdc σ) (cpu : Cpu) : DecompressGuards (c.decompress cpu) := decompressGuards_api _ _ _

theorem OK.trailing (h : c.OK P D) (ce cd : Cpu) : TrailingIgnored (c.compress ce) (c.decompress cd) :=
  trailingIgnored_of_roundTrip (h.roundTrip ce cd)

theorem OK.inside (h : c.OK P D) (ce cd : Cpu) : StaysInside (c.compress ce) (c.decompress cd) :=
  staysInside_of_roundTrip (h.roundTrip ce cd) (c.dguards cd) (c.header ce cd)
    (fun _ _ _ _ _ h => (apiCompress_len _ _ _ _ _ _ h).1)

/-- Decoders that share the header parser agree on every byte string. -/
theorem OK.portable (h : c.OK P D) (he : ∀ cpu, c.hdrV cpu = c.F.hdr) : Portable c.ref c.decompress := by
  refine ⟨?_, portableComplete_api c.hdrV c.decV h.startLoc h.hdr h.loc h.rel h.decV⟩
  have := portableSound_api c.decV h.startLoc h.hdr (fun i => (h.decV i).2.2.1)
  intro cpu
  unfold decompress
  rw [he cpu]
  exact this cpu

/-- Every decoder gives the bytes a valid byte string stands for; those that share the
header parser do not return on anything else. -/
theorem OK.portable_partial (h : c.OK P D) : PortableComplete c.ref c.decompress ∧
    PortableSound c.ref (fun cpu : {cpu : Cpu // c.hdrV cpu = c.F.hdr} => c.decompress cpu.1) := by
  refine ⟨portableComplete_api c.hdrV c.decV h.startLoc h.hdr h.loc h.rel h.decV, ?_⟩
  have := portableSound_api c.decV h.startLoc h.hdr (fun i => (h.decV i).2.2.1)
  intro cpu
  simp only [decompress, cpu.2]
  exact this cpu.1

theorem OK.terminates (h : c.OK P D) (ce cd : Cpu) : Terminates (c.compress ce) (c.decompress cd) :=
  terminates_api _ _ _ _ (h.total ce) (h.locV cd)

theorem OK.prefix (h : c.OK P D) (cpu : Cpu) : DependsOnPrefix c.S (c.compress cpu) := by
  refine dependsOnPrefix_api _ ?_
  intro inp inp' n hm
  unfold body
  rw [← h.congr cpu inp inp' n hm, h.firstCongr inp inp' n hm]
  obtain ⟨s, g1, g2⟩ := h.scan cpu inp n (n + c.S) (fun _ _ _ => True) (Nat.le_refl _) (fun _ _ => closed_true) trivial
  have := g2.hi
  have := g2.last
  rw [g1]
  simp only [Option.map_some, finish]
  rw [rd_congr (m₁ := inp) (m₂ := inp') (a := s.lastRLE) (fun j h1 h2 => hm j (by omega)),
    rd_congr (m₁ := inp) (m₂ := inp') (a := s.lastRLE) (k := s.i - s.lastRLE) (fun j h1 h2 => hm j (by omega))]

/-- Inputs above 2^30 bytes are not refused. -/
theorem OK.huge (h : c.OK P D) (cpu : Cpu) (inp : Mem) (n : Nat) (hn : 1073741824 < n) :
    bounds n = 0 ∧ (∀ outSize, c.compress cpu (some inp) n true outSize ≠ .fail) ∧
      c.compress cpu (some inp) n true 0 = .ub := by
  have hb : bounds n = 0 := by unfold bounds; rw [if_pos hn]
  obtain ⟨b, h1⟩ := h.total cpu inp n
  refine ⟨hb, fun outSize => ?_, ?_⟩
  · simp only [compress, apiCompress, hb, h1]
    rw [if_neg (by simp; omega)]
    split <;> simp
  · simp only [compress, apiCompress, hb, h1]
    rw [if_neg (by simp; omega), if_neg (by simp)]

end Cdc

/-! ### The multi-byte scanner as an instance -/

/-- The scanner loop of `encX` (src/rleX_extreme_cpu_encode.h:26-382). -/
def runX {σ : Type} (F : Fmt σ) (S W : Nat) (unb : Bool) (inp : Mem) (n : Nat) : Option (ES σ) :=
  loop (stepX F.emit S W unb inp n) (6 * n + 6)
    ⟨.top, 0, 0, 0, (rd inp 0 S).map (fun b => ~~~ b), F.init, []⟩

theorem runX_scan {σ : Type} (F : Fmt σ) {S W : Nat} {unb : Bool} (hS : 0 < S) (hW : W = 0 ∨ S < W) :
    ScanRun [F.emit] S unb (fun _ _ => F.init) (runX F S W unb) := by
  intro inp n B CP hB hc h0
  have hc := hc _ (List.mem_singleton.mpr rfl)
  obtain ⟨s, h1, h2, h3, h4⟩ := loop_rule (body := stepX F.emit S W unb inp n) (XInv S unb inp n CP)
    (fun s' => XInv S unb inp n CP s' ∧ n ≤ s'.i ∧ s'.pc = .top) (muX n)
    (fun s hs => stepX_inv hS hW hB hc s hs) (6 * n + 6)
    ⟨.top, 0, 0, 0, (rd inp 0 S).map (fun b => ~~~ b), F.init, []⟩
    ⟨h0, by simp, by simp, by simp, by simp, fun _ => ⟨by simp, by intro k hk; simp at hk⟩, by simp, by simp⟩
    (by simp [muX, PC.rank])
  obtain ⟨hcp, hlen, hlast, htop, hntop, hcnt, hdvd, hdvd2⟩ := h2
  obtain ⟨g1, g2⟩ := hcnt (Or.inl h4)
  exact ⟨s, h1, hcp, hlen, g1, h3, htop h4, g2, Or.inr (hdvd (Or.inl h4))⟩

theorem runX_congr {σ : Type} (F : Fmt σ) {S W : Nat} {unb : Bool} (hS : 0 < S) (hW : W = 0 ∨ S < W) :
    ScanCongr S (runX F S W unb) := by
  intro inp inp' n hm
  have hc : Closed F.emit inp S unb (n + S) (fun _ _ _ => True) := closed_true
  have h0 : XInv S unb inp n (fun _ _ _ => True)
    (⟨.top, 0, 0, 0, (rd inp 0 S).map (fun b => ~~~ b), F.init, []⟩ : ES σ) :=
    ⟨trivial, by simp, by simp, by simp, by simp, fun _ => ⟨by simp, by intro k hk; simp at hk⟩, by simp, by simp⟩
  unfold runX
  rw [rd_congr (m₁ := inp') (m₂ := inp) (fun j h1 h2 => (hm j (by omega)).symm)]
  refine loop_congr (XInv S unb inp n (fun _ _ _ => True)) (b₁ := stepX F.emit S W unb inp n)
    (b₂ := stepX F.emit S W unb inp' n) ?_ _ _ h0
  intro s hs
  refine ⟨stepX_congr hW hm s hs, ?_⟩
  intro s' hs'
  have := stepX_inv hS hW (Nat.le_refl _) hc s hs
  rw [hs'] at this
  exact this.1

end Hrk
