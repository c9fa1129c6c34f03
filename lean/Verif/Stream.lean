import Verif.ScanX

/-
From "the scanner emitted records for genuine runs" to "decoding gives back the
input", for any format whose header parser inverts its header writer.
-/

namespace Hrk

/-- The writer half `emit` is inverted by the parser `hdr`, for runs and literal
lengths below `B`. `P` is an invariant of the state both sides carry. -/
def EmitOK {σ : Type} (emit : Emit σ) (hdr : σ → List Byte → Option (Hdr σ)) (P : σ → Prop) (S : Nat)
    (unb : Bool) (B : Nat) : Prop :=
  ∀ fs sym cnt lits bytes fs', P fs → sym.length = S → (unb = true ∨ S ∣ cnt) →
    lits + cnt ≤ B → emit fs sym cnt lits = some (bytes, fs') →
    P fs' ∧ 0 < bytes.length ∧
      ∀ tail, hdr fs (bytes ++ tail) = some (.go lits sym (some cnt) fs' tail)

/-- The two terminators are understood by the parser. -/
structure EndOK {σ : Type} (endRun : List Byte) (endLit : Nat → List Byte)
    (hdr : σ → List Byte → Option (Hdr σ)) (P : σ → Prop) (B : Nat) : Prop where
  endRun : ∀ fs tail, P fs →
    hdr fs (endRun ++ tail) = some .ret ∨
    (∃ rest, hdr fs (endRun ++ tail) = some (.wrap none rest) ∧ tail.length ≤ rest.length) ∨
    (∃ sym fs', hdr fs (endRun ++ tail) = some (.go 0 sym none fs' tail))
  endLit : ∀ fs lits tail, P fs → lits ≤ B →
    ∃ sym fs', hdr fs (endLit lits ++ tail) = some (.go lits sym none fs' tail)

/-- Whole format. -/
structure FmtOK {σ : Type} (F : Fmt σ) (P : σ → Prop) (S : Nat) (unb : Bool) (B : Nat) : Prop where
  init : P F.init
  emit : EmitOK F.emit F.hdr P S unb B
  ends : EndOK F.endRun F.endLit F.hdr P B

theorem EmitOK.mono {σ : Type} {emit : Emit σ} {hdr : σ → List Byte → Option (Hdr σ)} {P : σ → Prop} {S : Nat}
    {unb : Bool} {B B' : Nat} (h : EmitOK emit hdr P S unb B) (hB : B' ≤ B) : EmitOK emit hdr P S unb B' :=
  fun fs sym cnt lits bytes fs' a b c d e => h fs sym cnt lits bytes fs' a b c (Nat.le_trans d hB) e

theorem FmtOK.mono {σ : Type} {F : Fmt σ} {P : σ → Prop} {S : Nat} {unb : Bool} {B B' : Nat}
    (h : FmtOK F P S unb B) (hB : B' ≤ B) : FmtOK F P S unb B' where
  init := h.init
  emit := h.emit.mono hB
  ends := ⟨h.ends.endRun, fun fs lits tail a b => h.ends.endLit fs lits tail a (Nat.le_trans b hB)⟩

/-- Decoding the records in `out` from the start leads to the state after the
first `last` input bytes, whatever follows. -/
def DecCP {σ : Type} (hdr : σ → List Byte → Option (Hdr σ)) (fs0 : σ) (inp : Mem) (P : σ → Prop)
    (fs : σ) (out : List Byte) (last : Nat) : Prop :=
  P fs ∧ ∃ k, k ≤ out.length ∧ ∀ K tail f, K ≤ tail.length →
    decS hdr K (k + f) ⟨fs0, out ++ tail, []⟩ = decS hdr K f ⟨fs, tail, rd inp 0 last⟩

theorem DecCP.init {σ : Type} {hdr : σ → List Byte → Option (Hdr σ)} {fs0 : σ} {inp : Mem}
    {P : σ → Prop} (h : P fs0) : DecCP hdr fs0 inp P fs0 [] 0 :=
  ⟨h, 0, Nat.le_refl _, by intro K tail f _; simp⟩

theorem decS_go {σ : Type} {hdr : σ → List Byte → Option (Hdr σ)} {K f : Nat} {fs fs' : σ}
    {src acc lits tail sym : List Byte} {cnt : Nat}
    (h : hdr fs src = some (.go lits.length sym (some cnt) fs' (lits ++ tail))) (hK : K ≤ tail.length) :
    decS hdr K (f + 1) ⟨fs, src, acc⟩ = decS hdr K f ⟨fs', tail, acc ++ lits ++ runBytes sym cnt⟩ := by
  simp only [decS, loop, decStep, h]
  rw [if_pos (by simp; omega)]
  simp

theorem DecCP.closed {σ : Type} {emit : Emit σ} {hdr : σ → List Byte → Option (Hdr σ)} {fs0 : σ}
    {inp : Mem} {P : σ → Prop} {S : Nat} {unb : Bool} {B : Nat}
    (h : EmitOK emit hdr P S unb B) : Closed emit inp S unb B (DecCP hdr fs0 inp P) := by
  rintro fs out last sym cnt lits bytes fs' ⟨hP, k, hk, hd⟩ hl hu hB hr he
  obtain ⟨h1, h3, h4⟩ := h fs sym cnt lits bytes fs' hP hl hu (by omega) he
  refine ⟨h1, k + 1, by simp; omega, ?_⟩
  intro K tail f hK
  have := hd K (bytes ++ (rd inp last lits ++ tail)) (f + 1) (by simp; omega)
  rw [show k + 1 + f = k + (f + 1) by omega]
  simp only [List.append_assoc] at this ⊢
  rw [this, decS_go (lits := rd inp last lits) (tail := tail) (by rw [rd_length]; exact h4 _) hK]
  rw [← hr]
  have e : rd inp 0 last ++ rd inp last lits = rd inp 0 (last + lits) := by
    have := rd_append inp 0 last lits; simpa using this
  have e2 : rd inp 0 (last + lits) ++ rd inp (last + lits) cnt = rd inp 0 (last + lits + cnt) := by
    have := rd_append inp 0 (last + lits) cnt; simpa using this
  rw [e, e2]

/-- Decoding a finished stream yields the input, followed by at most `S` bytes
of over-read. -/
theorem ScanOK.decode {σ : Type} {endRun : List Byte} {endLit : Nat → List Byte}
    {hdr : σ → List Byte → Option (Hdr σ)} {fs0 : σ} {inp : Mem} {P : σ → Prop} {n S B : Nat}
    {res : List Byte} (he : EndOK endRun endLit hdr P B) (hB : n + S ≤ B)
    (h : ScanOK endRun endLit inp n S (DecCP hdr fs0 inp P) res) :
    ∃ T, n ≤ T ∧ T ≤ n + S ∧ ∀ K tail, K ≤ tail.length →
      decS hdr K (res.length + 1) ⟨fs0, res ++ tail, []⟩ = some (rd inp 0 T) := by
  obtain ⟨fs, out, last, T, ⟨hP, k, hk, hd⟩, hT1, hT2, hl, hres⟩ := h
  refine ⟨T, hT1, hT2, ?_⟩
  intro K tail hK
  rcases hres with ⟨rfl, rfl⟩ | rfl
  · have := hd K (endRun ++ tail) ((out ++ endRun).length + 1 - k) (by simp; omega)
    rw [show k + ((out ++ endRun).length + 1 - k) = (out ++ endRun).length + 1 by simp; omega] at this
    rw [List.append_assoc, this]
    rw [show (out ++ endRun).length + 1 - k = ((out ++ endRun).length - k) + 1 by simp; omega]
    rcases he.endRun fs tail hP with h | ⟨rest, h, h'⟩ | ⟨sym, fs', h⟩
    · simp only [decS, loop, decStep, h, Option.join_some]
    · simp only [decS, loop, decStep, h]
      rw [if_pos ⟨trivial, by omega⟩]; simp
    · simp only [decS, loop, decStep, h]
      rw [if_pos (by omega)]; simp
  · obtain ⟨sym, fs', h⟩ := he.endLit fs (T - last) (rd inp last (T - last) ++ tail) hP (by omega)
    have := hd K (endLit (T - last) ++ (rd inp last (T - last) ++ tail))
      ((out ++ endLit (T - last) ++ rd inp last (T - last)).length + 1 - k) (by simp; omega)
    rw [show k + ((out ++ endLit (T - last) ++ rd inp last (T - last)).length + 1 - k)
      = (out ++ endLit (T - last) ++ rd inp last (T - last)).length + 1 by simp; omega] at this
    simp only [List.append_assoc] at this ⊢
    rw [this]
    rw [show (out ++ (endLit (T - last) ++ rd inp last (T - last))).length + 1 - k
      = ((out ++ (endLit (T - last) ++ rd inp last (T - last))).length - k) + 1 by simp; omega]
    simp only [decS, loop, decStep, h]
    rw [if_pos (by simp; omega)]
    simp only [Option.join_some, Option.some.injEq]
    have e := rd_append inp 0 last (T - last)
    rw [show last + (T - last) = T by omega, Nat.zero_add] at e
    rw [← e]
    simp

/-! ### Size of a stream -/

/-- Bytes written so far are at most the bytes consumed so far. -/
def SizeCP {σ : Type} (P : σ → Prop) (fs : σ) (out : List Byte) (last : Nat) : Prop :=
  P fs ∧ out.length ≤ last

/-- Emitting a run never costs more than the run is long. -/
def EmitSize {σ : Type} (emit : Emit σ) (P : σ → Prop) (S : Nat) (unb : Bool) : Prop :=
  ∀ fs sym cnt lits bytes fs', P fs → sym.length = S → (unb = true ∨ S ∣ cnt) →
    emit fs sym cnt lits = some (bytes, fs') → P fs' ∧ bytes.length ≤ cnt

theorem SizeCP.closed {σ : Type} {emit : Emit σ} {inp : Mem} {P : σ → Prop} {S : Nat} {unb : Bool}
    {B : Nat} (h : EmitSize emit P S unb) : Closed emit inp S unb B (SizeCP P) := by
  rintro fs out last sym cnt lits bytes fs' ⟨hP, hk⟩ hl hu hB hr he
  obtain ⟨h1, h2⟩ := h fs sym cnt lits bytes fs' hP hl hu he
  exact ⟨h1, by simp; omega⟩

theorem ScanOK.size {σ : Type} {endRun : List Byte} {endLit : Nat → List Byte} {inp : Mem}
    {P : σ → Prop} {n S e : Nat} {res : List Byte} (h1 : endRun.length ≤ e)
    (h2 : ∀ k, (endLit k).length ≤ e) (h : ScanOK endRun endLit inp n S (SizeCP P) res) :
    res.length ≤ n + S + e := by
  obtain ⟨fs, out, last, T, ⟨hP, hk⟩, hT1, hT2, hl, hres⟩ := h
  rcases hres with ⟨rfl, rfl⟩ | rfl
  · simp; omega
  · have := h2 (T - last); simp; omega

/-- Emitting a run costs at most `e` bytes more than the run is long for every `L` literals
in front of it. -/
def EmitGrow {σ : Type} (emit : Emit σ) (P : σ → Prop) (S : Nat) (unb : Bool) (e L : Nat) : Prop :=
  ∀ fs sym cnt lits bytes fs', P fs → sym.length = S → (unb = true ∨ S ∣ cnt) →
    emit fs sym cnt lits = some (bytes, fs') → P fs' ∧ bytes.length ≤ cnt + e * (lits / L)

/-- Emitting a run costs at most `e` bytes more than the run is long, and then there are at
least `L` literals in front of it. -/
def EmitGrowIf {σ : Type} (emit : Emit σ) (P : σ → Prop) (S : Nat) (unb : Bool) (e L : Nat) : Prop :=
  ∀ fs sym cnt lits bytes fs', P fs → sym.length = S → (unb = true ∨ S ∣ cnt) →
    emit fs sym cnt lits = some (bytes, fs') → P fs' ∧ bytes.length ≤ cnt + if L ≤ lits then e else 0

theorem EmitGrowIf.grow {σ : Type} {emit : Emit σ} {P : σ → Prop} {S : Nat} {unb : Bool} {e L : Nat} (hL : 0 < L)
    (h : EmitGrowIf emit P S unb e L) : EmitGrow emit P S unb e L := by
  intro fs sym cnt lits bytes fs' hP hl hu he
  obtain ⟨h1, h2⟩ := h fs sym cnt lits bytes fs' hP hl hu he
  refine ⟨h1, Nat.le_trans h2 (Nat.add_le_add_left ?_ _)⟩
  split
  · next hc =>
    have : 1 ≤ lits / L := (Nat.le_div_iff_mul_le hL).mpr (by omega)
    have := Nat.mul_le_mul_left e this
    omega
  · omega

/-- Size of the stream so far. -/
def GrowCP {σ : Type} (P : σ → Prop) (e L : Nat) (fs : σ) (out : List Byte) (last : Nat) : Prop :=
  P fs ∧ out.length ≤ last + e * (last / L)

theorem GrowCP.closed {σ : Type} {emit : Emit σ} {inp : Mem} {P : σ → Prop} {S : Nat} {unb : Bool}
    {B e L : Nat} (hL : 0 < L) (h : EmitGrow emit P S unb e L) : Closed emit inp S unb B (GrowCP P e L) := by
  rintro fs out last sym cnt lits bytes fs' ⟨hP, hk⟩ hl hu hB hr he
  obtain ⟨h1, h2⟩ := h fs sym cnt lits bytes fs' hP hl hu he
  refine ⟨h1, ?_⟩
  simp only [List.length_append, rd_length]
  have h3 : last / L + lits / L ≤ (last + lits + cnt) / L := by
    rw [Nat.le_div_iff_mul_le hL, Nat.add_mul]
    have := Nat.div_mul_le_self last L
    have := Nat.div_mul_le_self lits L
    omega
  have h4 : e * (last / L + lits / L) ≤ e * ((last + lits + cnt) / L) := Nat.mul_le_mul_left _ h3
  rw [Nat.mul_add] at h4
  omega

theorem ScanOK.grow {σ : Type} {endRun : List Byte} {endLit : Nat → List Byte} {inp : Mem}
    {P : σ → Prop} {n S e L k : Nat} {res : List Byte} (h1 : endRun.length ≤ k)
    (h2 : ∀ j, (endLit j).length ≤ k) (h : ScanOK endRun endLit inp n S (GrowCP P e L) res) :
    res.length ≤ n + S + k + e * ((n + S) / L) := by
  obtain ⟨fs, out, last, T, ⟨hP, hk⟩, hT1, hT2, hl, hres⟩ := h
  have h4 : e * (last / L) ≤ e * ((n + S) / L) := Nat.mul_le_mul_left _ (Nat.div_le_div_right (by omega))
  rcases hres with ⟨rfl, rfl⟩ | rfl
  · simp; omega
  · have := h2 (T - last); simp; omega

end Hrk
