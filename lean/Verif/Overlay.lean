import Verif.Api
import Verif.LowEntropy
import Verif.Rle8m

/-
What a decompressor does to the output buffer: it lays bytes over it, and which bytes it lays where is decided by the
stream and the sizes, never by what the buffer held. Used by C58.
-/

namespace Hrk

/-- The memory `m` with the bytes of `W` laid over it. -/
def ov (W : Nat → Option Byte) (m : Mem) : Mem := fun k => (W k).getD (m k)

theorem ov_none (m : Mem) : ov (fun _ => none) m = m := rfl

theorem ov_ov (W W' : Nat → Option Byte) (m : Mem) : ov W' (ov W m) = ov (fun k => (W' k).or (W k)) m := by
  funext k
  unfold ov
  dsimp only
  cases W' k <;> rfl

theorem wr_ov (m : Mem) (o n : Nat) (f : Nat → Byte) :
    wr m o n f = ov (fun k => if o ≤ k ∧ k < o + n then some (f (k - o)) else none) m := by
  funext k
  unfold wr ov
  dsimp only
  split <;> rfl

/-- A part of a decoder that leaves the buffers or lays bytes over the output, whatever the output held. -/
def Lays (f : Mem → Option Mem) : Prop := (∀ m, f m = none) ∨ ∃ W, ∀ m, f m = some (ov W m)

theorem Lays.none : Lays fun _ => none := Or.inl fun _ => rfl

theorem Lays.id : Lays fun m => some m := Or.inr ⟨fun _ => .none, fun _ => rfl⟩

theorem Lays.wr (o n : Nat) (f : Nat → Byte) : Lays fun m => some (wr m o n f) :=
  Or.inr ⟨_, fun m => congrArg some (wr_ov m o n f)⟩

theorem Lays.comp {f g : Mem → Option Mem} (hf : Lays f) (hg : Lays g) : Lays fun m => (f m).bind g := by
  rcases hf with hf | ⟨W, hf⟩
  · exact Or.inl fun m => by (try dsimp only); rw [hf]; rfl
  · rcases hg with hg | ⟨W', hg⟩
    · exact Or.inl fun m => by (try dsimp only); rw [hf]; exact hg _
    · exact Or.inr ⟨_, fun m => by (try dsimp only); rw [hf]; show g _ = _; rw [hg, ov_ov]⟩

theorem Lays.ite {f g : Mem → Option Mem} (c : Prop) [Decidable c] (hf : Lays f) (hg : Lays g) :
    Lays fun m => if c then f m else g m := by
  by_cases h : c
  · simpa only [if_pos h] using hf
  · simpa only [if_neg h] using hg

/-- One round of a loop whose state is a control state and the output: leave the buffers, end, or go on. -/
def StepLays {C D S R : Type} (mk : C → Mem → S) (mkR : D → Mem → R) (body : S → S ⊕ Option R) (c : C) : Prop :=
  (∀ m, body (mk c m) = .inr none) ∨ (∃ d W, ∀ m, body (mk c m) = .inr (some (mkR d (ov W m)))) ∨
    ∃ c' W, ∀ m, body (mk c m) = .inl (mk c' (ov W m))

theorem loop_lays {C D S R : Type} {mk : C → Mem → S} {mkR : D → Mem → R} {body : S → S ⊕ Option R}
    (h : ∀ c, StepLays mk mkR body c) : ∀ (fuel : Nat) (c : C),
    (∀ m, loop body fuel (mk c m) = none) ∨ (∀ m, loop body fuel (mk c m) = some none) ∨
      ∃ d W, ∀ m, loop body fuel (mk c m) = some (some (mkR d (ov W m)))
  | 0, _ => Or.inl fun _ => rfl
  | fuel + 1, c => by
    rcases h c with h1 | ⟨d, W, h1⟩ | ⟨c', W, h1⟩
    · exact Or.inr (Or.inl fun m => by rw [loop, h1])
    · exact Or.inr (Or.inr ⟨d, W, fun m => by rw [loop, h1]⟩)
    · rcases loop_lays h fuel c' with h2 | h2 | ⟨d, W', h2⟩
      · exact Or.inl fun m => by rw [loop, h1]; exact h2 _
      · exact Or.inr (Or.inl fun m => by rw [loop, h1]; exact h2 _)
      · exact Or.inr (Or.inr ⟨d, _, fun m => by rw [loop, h1]; show loop body fuel _ = _; rw [h2, ov_ov]⟩)

/-- The same for loops that end with the memory. -/
theorem loop_lays_mem {C S : Type} {mk : C → Mem → S} {body : S → S ⊕ Option Mem}
    (h : ∀ c, StepLays mk (fun (_ : Unit) m => m) body c) (fuel : Nat) (c : C) :
    (∀ m, loop body fuel (mk c m) = none) ∨ (∀ m, loop body fuel (mk c m) = some none) ∨
      ∃ W, ∀ m, loop body fuel (mk c m) = some (some (ov W m)) := by
  rcases loop_lays h fuel c with h | h | ⟨_, W, h⟩
  · exact Or.inl h
  · exact Or.inr (Or.inl h)
  · exact Or.inr (Or.inr ⟨W, h⟩)

theorem loop_lays_join {C S : Type} {mk : C → Mem → S} {body : S → S ⊕ Option Mem}
    (h : ∀ c, StepLays mk (fun (_ : Unit) m => m) body c) (fuel : Nat) (c : C) :
    Lays fun m => (loop body fuel (mk c m)).join := by
  rcases loop_lays_mem h fuel c with h | h | ⟨W, h⟩
  · exact Or.inl fun m => by (try dsimp only); rw [h]; rfl
  · exact Or.inl fun m => by (try dsimp only); rw [h]; rfl
  · exact Or.inr ⟨W, fun m => by (try dsimp only); rw [h]; rfl⟩

/-! ### The decoders of the extreme codecs -/

theorem copyLoop_lays (W cap : Nat) (src : List Byte) (o lit r : Nat) : Lays fun m => copyLoop W cap src o lit m r := by
  unfold copyLoop
  refine loop_lays_join (mk := fun (r : Nat) m => (m, r)) (fun r => ?_) (lit + 1) r
  unfold copyBody StepLays
  dsimp only
  by_cases h1 : r < lit
  · simp only [if_pos h1]
    by_cases h2 : o + r + W ≤ cap ∧ r + W ≤ src.length
    · simp only [if_pos h2]
      exact Or.inr (Or.inr ⟨r + W, _, fun m => by rw [wr_ov]⟩)
    · simp only [if_neg h2]
      exact Or.inl fun _ => by first | rfl | trivial
  · simp only [if_neg h1]
    exact Or.inr (Or.inl ⟨(), fun _ => none, fun _ => rfl⟩)

theorem setLoop_lays (G cap : Nat) (reg : Vec) (o cnt r : Nat) : Lays fun m => setLoop G cap reg o cnt m r := by
  unfold setLoop
  refine loop_lays_join (mk := fun (r : Nat) m => (m, r)) (fun r => ?_) (cnt + 1) r
  unfold setBody StepLays
  dsimp only
  by_cases h1 : r < cnt
  · simp only [if_pos h1]
    by_cases h2 : o + r + G ≤ cap
    · simp only [if_pos h2]
      exact Or.inr (Or.inr ⟨r + G, _, fun m => by rw [wr_ov]⟩)
    · simp only [if_neg h2]
      exact Or.inl fun _ => by first | rfl | trivial
  · simp only [if_neg h1]
    exact Or.inr (Or.inl ⟨(), fun _ => none, fun _ => rfl⟩)

theorem memcpyV_lays (W cap inAddr : Nat) (src : List Byte) (o lit : Nat) : Lays (memcpyV W cap inAddr src o lit) := by
  unfold memcpyV
  refine Lays.ite _ (Lays.ite _ (Lays.wr ..) Lays.none) (Lays.ite _ (Lays.ite _ ?_ Lays.none) (copyLoop_lays ..))
  exact Lays.comp (f := fun m => some (wr m o W fun j => src.getD j 0)) (Lays.wr ..) (copyLoop_lays W cap src o lit _)

theorem memcpyWrap_lays (W cap inAddr : Nat) (src : List Byte) (o : Nat) : Lays (memcpyWrap W cap inAddr src o) := by
  unfold memcpyWrap
  exact Lays.ite _ (Lays.ite _ (Lays.wr ..) Lays.none) Lays.id

theorem memsetV_lays (k : SetK) (cap outAddr : Nat) (sym : List Byte) (o cnt : Nat) : Lays (memsetV k cap outAddr sym o cnt) := by
  unfold memsetV
  cases k with
  | multi G reg => exact setLoop_lays ..
  | aligned W =>
    refine Lays.ite _ (Lays.ite _ (Lays.wr ..) Lays.none) (Lays.ite _ (Lays.ite _ ?_ Lays.none) (setLoop_lays ..))
    exact Lays.comp (f := fun m => some (wr m o W (vset1N sym))) (Lays.wr ..) (setLoop_lays W cap (vset1N sym) o cnt _)

theorem decM_lays {σ : Type} (hdr : σ → List Byte → Option (Hdr σ)) (v : DecV) (aIn aOut cap : Nat)
    (c : σ × List Byte × Nat × Nat) :
    StepLays (fun (c : σ × List Byte × Nat × Nat) m => (⟨c.1, c.2.1, c.2.2.1, c.2.2.2, m⟩ : MS σ)) (fun (_ : Unit) m => m)
      (decMStep hdr v aIn aOut cap) c := by
  obtain ⟨fs, src, pos, o⟩ := c
  unfold StepLays decMStep
  dsimp only
  cases hh : hdr fs src with
  | none => exact Or.inl fun _ => rfl
  | some x =>
    cases x with
    | ret => exact Or.inr (Or.inl ⟨(), fun _ => none, fun _ => rfl⟩)
    | wrap cnt rest =>
      dsimp only
      rcases memcpyWrap_lays v.copyW cap (aIn + (pos + (src.length - rest.length))) rest o with h | ⟨W, h⟩
      · exact Or.inl fun m => by rw [h]
      · by_cases hc : cnt = none
        · exact Or.inr (Or.inl ⟨(), W, fun m => by rw [h]; exact if_pos hc⟩)
        · exact Or.inl fun m => by rw [h]; exact if_neg hc
    | go lit sym cnt fs' rest =>
      dsimp only
      rcases memcpyV_lays v.copyW cap (aIn + (pos + (src.length - rest.length))) rest o lit with h | ⟨W, h⟩
      · exact Or.inl fun m => by rw [h]
      · cases cnt with
        | none => exact Or.inr (Or.inl ⟨(), W, fun m => by (try dsimp only); rw [h]⟩)
        | some c =>
          rcases memsetV_lays v.setK cap (aOut + (o + lit)) sym (o + lit) c with g | ⟨W', g⟩
          · exact Or.inl fun m => by (try dsimp only); rw [h]; dsimp only; rw [g]
          · exact Or.inr (Or.inr ⟨(fs', rest.drop lit, pos + (src.length - rest.length) + lit, o + lit + c), _, fun m => by
              rw [h]; dsimp only; rw [g, ov_ov]⟩)

/-- A call of a decompressor, as a function of what the output buffer held: it fails, leaves the buffers or does not
return whatever that was, or it returns a size and lays bytes over the buffer. -/
def CallLays (d : Mem → DRes) : Prop :=
  (∀ m, d m = .fail) ∨ (∀ m, d m = .ub) ∨ (∀ m, d m = .hang) ∨ ∃ r W, ∀ m, d m = .ok r (ov W m)

theorem apiDecompress_lays {σ : Type} (start : List Byte → Option (Option (σ × List Byte)))
    (hdr : σ → List Byte → Option (Hdr σ)) (v : DecV) (a : DArgs) :
    CallLays fun m => apiDecompress start hdr v { a with pOut := some m } := by
  obtain ⟨pIn, inSize, pOut, outSize, cap, aIn, aOut⟩ := a
  unfold CallLays apiDecompress
  dsimp only
  cases pIn with
  | none => exact Or.inl fun _ => rfl
  | some src =>
    dsimp only
    by_cases h0 : inSize = 0 ∨ outSize = 0
    · simp only [if_pos h0]
      exact Or.inl fun _ => by first | rfl | trivial
    simp only [if_neg h0]
    cases rdU32 src with
    | none => exact Or.inr (Or.inl fun _ => rfl)
    | some p =>
      obtain ⟨x, r⟩ := p
      dsimp only
      cases rdU32 r with
      | none => exact Or.inr (Or.inl fun _ => rfl)
      | some p =>
        obtain ⟨y, r⟩ := p
        dsimp only
        by_cases h1 : x > outSize ∨ y > inSize
        · simp only [if_pos h1]
          exact Or.inl fun _ => by first | rfl | trivial
        simp only [if_neg h1]
        cases start r with
        | none => exact Or.inr (Or.inl fun _ => rfl)
        | some q =>
          cases q with
          | none => exact Or.inl fun _ => rfl
          | some q =>
            obtain ⟨fs, r'⟩ := q
            dsimp only
            rcases loop_lays_mem (decM_lays hdr v aIn aOut cap) (r'.length + 1) (fs, r', 8 + (r.length - r'.length), 0) with h | h | ⟨W, h⟩
            · exact Or.inr (Or.inr (Or.inl fun m => by rw [h]))
            · exact Or.inr (Or.inl fun m => by rw [h])
            · exact Or.inr (Or.inr (Or.inr ⟨x, W, fun m => by rw [h]⟩))

/-! ### The low entropy decoders -/

theorem storeRep_ov (w : Nat) (b : Byte) : ∀ n o, ∃ W, ∀ m, storeRep w b n o m = ov W m
  | 0, o => ⟨fun _ => none, fun _ => rfl⟩
  | n + 1, o => by
    obtain ⟨W, h⟩ := storeRep_ov w b n (o + w)
    exact ⟨_, fun m => by rw [storeRep, h, wr_ov, ov_ov]⟩

theorem storeRep_lays (w : Nat) (b : Byte) (n o : Nat) : Lays fun m => some (storeRep w b n o m) := by
  obtain ⟨W, h⟩ := storeRep_ov w b n o
  exact Or.inr ⟨W, fun m => by (try dsimp only); rw [h]⟩

theorem fillLong_lays (w aOut cap o cnt : Nat) (b : Byte) : Lays fun m => fillLong w aOut cap m o cnt b := by
  unfold fillLong
  refine Lays.ite _ Lays.id (Lays.ite _ (Lays.ite _ (Lays.wr ..) Lays.none) ?_)
  dsimp only
  refine Lays.ite _ (Lays.ite _ ?_ Lays.none) (Lays.ite _ (storeRep_lays ..) Lays.none)
  exact Lays.comp (f := fun m => some (wr m o w fun _ => b)) (Lays.wr ..) (storeRep_lays w b _ _)

theorem fillShort_lays (skip0 : Bool) (cap o cnt : Nat) (b : Byte) : Lays fun m => fillShort skip0 cap m o cnt b := by
  unfold fillShort
  exact Lays.ite _ Lays.id (Lays.ite _ (Lays.wr ..) Lays.none)

theorem fillTail_lays (aOut cap o cnt : Nat) (b : Byte) : Lays fun m => fillTail aOut cap m o cnt b := by
  unfold fillTail
  refine Lays.ite _ (Lays.ite _ (Lays.wr ..) ?_) Lays.none
  dsimp only
  have h1 : ∃ W, ∀ m : Mem, (if (aOut + o) % 16 ≠ 0 then wr m o 16 fun _ => b else m) = ov W m := by
    by_cases h : (aOut + o) % 16 ≠ 0
    · exact ⟨_, fun m => by rw [if_pos h, wr_ov]⟩
    · exact ⟨fun _ => none, fun m => by rw [if_neg h, ov_none]⟩
  obtain ⟨W, h1⟩ := h1
  generalize (if (aOut + o) % 16 ≠ 0 then o + (16 - (aOut + o) % 16) else o) = o1
  generalize (if (aOut + o) % 16 ≠ 0 then cnt - (16 - (aOut + o) % 16) else cnt) = rem
  obtain ⟨W', h2⟩ := storeRep_ov 16 b (rem / 16) o1
  by_cases h3 : rem % 16 ≠ 0
  · exact Or.inr ⟨_, fun m => by (try dsimp only); rw [if_pos h3, h1, h2, ov_ov, wr_ov, ov_ov]⟩
  · exact Or.inr ⟨_, fun m => by (try dsimp only); rw [if_neg h3, h1, h2, ov_ov]⟩

theorem leFast_lays (w : Nat) (find : Nat → Option Nat) (toCount : Byte → Nat) (fill : Mem → Nat → Nat → Byte → Option Mem)
    (hf : ∀ o cnt b, Lays fun m => fill m o cnt b) (src : Mem) (len pEnd cap : Nat) (c : Nat × Nat) :
    StepLays (fun (c : Nat × Nat) m => (⟨c.1, c.2, m⟩ : LeS)) (fun (c : Nat × Nat) m => (⟨c.1, c.2, m⟩ : LeS))
      (leFast w find toCount fill src len pEnd cap) c := by
  obtain ⟨pos, o⟩ := c
  unfold StepLays leFast
  dsimp only
  by_cases h1 : pos + 256 < pEnd
  · simp only [if_pos h1]
    by_cases h2 : pos + w ≤ len ∧ o + w ≤ cap
    · simp only [if_pos h2]
      cases find pos with
      | none => exact Or.inr (Or.inr ⟨(pos + w, o + w), _, fun m => by dsimp only; rw [wr_ov]⟩)
      | some k =>
        dsimp only
        by_cases h3 : pos + k + 1 < len
        · simp only [if_pos h3]
          rcases hf (o + k + 1) (toCount (src (pos + k + 1))) (src (pos + k)) with h | ⟨W, h⟩
          · dsimp only at h
            exact Or.inl fun m => by rw [h]
          · dsimp only at h
            exact Or.inr (Or.inr ⟨(pos + k + 2, o + k + 1 + toCount (src (pos + k + 1))), _, fun m => by
              rw [h]; dsimp only; rw [wr_ov, ov_ov]⟩)
        · simp only [if_neg h3]
          exact Or.inl fun _ => by first | rfl | trivial
    · simp only [if_neg h2]
      exact Or.inl fun _ => by first | rfl | trivial
  · simp only [if_neg h1]
    exact Or.inr (Or.inl ⟨(pos, o), fun _ => none, fun _ => rfl⟩)

theorem leTail_lays (x : LeDInfo) (src : Mem) (len pEnd aOut cap : Nat) (c : Nat × Nat) :
    StepLays (fun (c : Nat × Nat) m => (⟨c.1, c.2, m⟩ : LeS)) (fun (c : Nat × Nat) m => (⟨c.1, c.2, m⟩ : LeS))
      (leTail x src len pEnd aOut cap) c := by
  obtain ⟨pos, o⟩ := c
  unfold StepLays leTail
  dsimp only
  by_cases h1 : pos < pEnd
  · simp only [if_pos h1]
    by_cases h2 : pos < len ∧ o < cap
    · simp only [if_pos h2]
      by_cases hb : x.rle (src pos) = true
      · simp only [if_pos hb]
        by_cases h3 : pos + 1 < len
        · simp only [if_pos h3]
          rcases fillTail_lays aOut cap (o + 1) (x.toCount (src (pos + 1))) (src pos) with h | ⟨W, h⟩
          · dsimp only at h
            exact Or.inl fun m => by rw [h]
          · dsimp only at h
            exact Or.inr (Or.inr ⟨(pos + 2, o + 1 + x.toCount (src (pos + 1))), _, fun m => by
              rw [h]; dsimp only; rw [wr_ov, ov_ov]⟩)
        · simp only [if_neg h3]
          exact Or.inl fun _ => by first | rfl | trivial
      · simp only [if_neg hb]
        exact Or.inr (Or.inr ⟨(pos + 1, o + 1), _, fun m => by dsimp only; rw [wr_ov]⟩)
    · simp only [if_neg h2]
      exact Or.inl fun _ => by first | rfl | trivial
  · simp only [if_neg h1]
    exact Or.inr (Or.inl ⟨(pos, o), fun _ => none, fun _ => rfl⟩)

/-- The decoder behind the information block: does not return, leaves the buffers, or lays bytes over the output. -/
def RunLays (f : Mem → Option (Option Mem)) : Prop :=
  (∀ m, f m = none) ∨ (∀ m, f m = some none) ∨ ∃ W, ∀ m, f m = some (some (ov W m))

theorem leDecode_lays (short : Bool) (cpu : Cpu) (x : LeDInfo) (src : Mem) (len pos pEnd aOut cap o expOut : Nat) :
    RunLays (leDecode short cpu x src len pos pEnd aOut cap o expOut) := by
  unfold RunLays leDecode
  by_cases h0 : rleCount x.rle = 0
  · simp only [if_pos h0]
    by_cases h1 : pos + expOut ≤ len ∧ o + expOut ≤ cap
    · simp only [if_pos h1]
      exact Or.inr (Or.inr ⟨_, fun m => by rw [wr_ov]⟩)
    · simp only [if_neg h1]
      exact Or.inr (Or.inl fun _ => by first | rfl | trivial)
  · simp only [if_neg h0]
    generalize hw : (if (if (rleCount x.rle == 1) = true then cpu.avx2 else cpu.avx) = true then 32 else 16 : Nat) = w
    generalize (if (rleCount x.rle == 1) = true then maskHit w src (firstRle x.rle) else fun p => firstHit src x.rle p w) = find
    have hfill : ∀ o cnt b, Lays fun m => (if short = true then
        fillShort (!(rleCount x.rle == 1) && !(if (rleCount x.rle == 1) = true then cpu.avx2 else cpu.avx)) cap
        else fillLong w aOut cap) m o cnt b := by
      intro o cnt b
      by_cases hs : short = true
      · simp only [if_pos hs]
        exact fillShort_lays ..
      · simp only [if_neg hs]
        exact fillLong_lays ..
    generalize (if short = true then
        fillShort (!(rleCount x.rle == 1) && !(if (rleCount x.rle == 1) = true then cpu.avx2 else cpu.avx)) cap
        else fillLong w aOut cap) = fill at hfill
    rcases loop_lays (leFast_lays w find x.toCount fill hfill src len pEnd cap) (len + 2) (pos, o) with h | h | ⟨⟨p, q⟩, W, h⟩
    · exact Or.inl fun m => by rw [h]
    · exact Or.inr (Or.inl fun m => by rw [h])
    · rcases loop_lays (leTail_lays x src len pEnd aOut cap) (len + 2) (p, q) with g | g | ⟨⟨p', q'⟩, W', g⟩
      · exact Or.inl fun m => by rw [h]; dsimp only; rw [g]
      · exact Or.inr (Or.inl fun m => by rw [h]; dsimp only; rw [g])
      · exact Or.inr (Or.inr ⟨_, fun m => by rw [h]; dsimp only; rw [g, ov_ov]⟩)

theorem leDecompress_lays (short : Bool) (cpu : Cpu) (a : DArgs) :
    CallLays fun m => leDecompress short cpu { a with pOut := some m } := by
  obtain ⟨pIn, inSize, pOut, outSize, cap, aIn, aOut⟩ := a
  unfold CallLays leDecompress
  dsimp only
  cases pIn with
  | none => exact Or.inl fun _ => rfl
  | some src =>
    dsimp only
    by_cases h0 : inSize = 0 ∨ outSize = 0
    · simp only [if_pos h0]
      exact Or.inl fun _ => by first | rfl | trivial
    simp only [if_neg h0]
    cases rdU32 src with
    | none => exact Or.inr (Or.inl fun _ => rfl)
    | some p =>
      obtain ⟨y, r⟩ := p
      dsimp only
      cases rdU32 r with
      | none => exact Or.inr (Or.inl fun _ => rfl)
      | some p =>
        obtain ⟨x, r⟩ := p
        dsimp only
        by_cases h1 : x > outSize ∨ y > inSize
        · simp only [if_pos h1]
          exact Or.inl fun _ => by first | rfl | trivial
        simp only [if_neg h1]
        cases readInfo r with
        | none => exact Or.inr (Or.inl fun _ => rfl)
        | some q =>
          obtain ⟨i, r'⟩ := q
          dsimp only
          rcases leDecode_lays short cpu i (fun k => src.getD k 0) src.length (src.length - r'.length) y aOut cap 0 x with h | h | ⟨W, h⟩
          · exact Or.inr (Or.inr (Or.inl fun m => by rw [h]))
          · exact Or.inr (Or.inl fun m => by rw [h])
          · exact Or.inr (Or.inr (Or.inr ⟨x, W, fun m => by rw [h]⟩))

theorem mDecSections_lays (cpu : Cpu) (x : LeDInfo) (src : List Byte) (inSize aOut cap sz last : Nat) : ∀ cnt i pos o,
    RunLays (mDecSections cpu x src inSize aOut cap sz last cnt i pos o)
  | 0, _, pos, o => leDecode_lays ..
  | cnt + 1, i, pos, o => by
    unfold RunLays
    simp only [mDecSections]
    cases u32At src (12 + 4 * i) with
    | none => exact Or.inr (Or.inl fun _ => rfl)
    | some pEnd =>
      dsimp only
      rcases leDecode_lays false cpu x (fun k => src.getD k 0) src.length pos pEnd aOut cap o sz with h | h | ⟨W, h⟩
      · exact Or.inl fun m => by rw [h]
      · exact Or.inr (Or.inl fun m => by rw [h])
      · rcases mDecSections_lays cpu x src inSize aOut cap sz last cnt (i + 1) pEnd (o + sz) with g | g | ⟨W', g⟩
        · exact Or.inl fun m => by rw [h]; dsimp only; rw [g]
        · exact Or.inr (Or.inl fun m => by rw [h]; dsimp only; rw [g])
        · exact Or.inr (Or.inr ⟨_, fun m => by rw [h]; dsimp only; rw [g, ov_ov]⟩)

theorem mDecompress_lays (cpu : Cpu) (a : DArgs) : CallLays fun m => mDecompress cpu { a with pOut := some m } := by
  obtain ⟨pIn, inSize, pOut, outSize, cap, aIn, aOut⟩ := a
  unfold CallLays mDecompress
  dsimp only
  cases pIn with
  | none => exact Or.inl fun _ => rfl
  | some src =>
    dsimp only
    by_cases h0 : inSize = 0 ∨ outSize = 0
    · simp only [if_pos h0]
      exact Or.inl fun _ => by first | rfl | trivial
    simp only [if_neg h0]
    cases rdU32 src with
    | none => exact Or.inr (Or.inl fun _ => rfl)
    | some p =>
      obtain ⟨y, r⟩ := p
      dsimp only
      cases rdU32 r with
      | none => exact Or.inr (Or.inl fun _ => rfl)
      | some p =>
        obtain ⟨x, r⟩ := p
        dsimp only
        by_cases h1 : x > outSize ∨ y > inSize
        · simp only [if_pos h1]
          exact Or.inl fun _ => by first | rfl | trivial
        simp only [if_neg h1]
        cases rdU32 r with
        | none => exact Or.inr (Or.inl fun _ => rfl)
        | some p =>
          obtain ⟨k, r⟩ := p
          dsimp only
          by_cases hk : k = 0
          · simp only [if_pos hk]
            exact Or.inl fun _ => by first | rfl | trivial
          simp only [if_neg hk]
          by_cases h2 : r.length < 4 * (k - 1)
          · simp only [if_pos h2]
            exact Or.inr (Or.inl fun _ => by first | rfl | trivial)
          simp only [if_neg h2]
          cases readInfo (r.drop (4 * (k - 1))) with
          | none => exact Or.inr (Or.inl fun _ => rfl)
          | some q =>
            obtain ⟨i, r'⟩ := q
            dsimp only
            rcases mDecSections_lays cpu i src inSize aOut cap (x / k) (x - x / k * (k - 1)) (k - 1) 0 (src.length - r'.length) 0 with h | h | ⟨W, h⟩
            · exact Or.inr (Or.inr (Or.inl fun m => by rw [h]))
            · exact Or.inr (Or.inl fun m => by rw [h])
            · exact Or.inr (Or.inr (Or.inr ⟨x, W, fun m => by rw [h]⟩))

end Hrk
