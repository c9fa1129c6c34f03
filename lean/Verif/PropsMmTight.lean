import Verif.MmTightEnd

/-
C76: rle8_mmtf128 uses no more bits for a section than its indices need, no section for what the one before it
could repeat, and no long header for a short section.
-/

namespace Hrk

/-- The sections of what `rle8_mmtf128_compress` returned: they spell the input, each is no longer than it has to
be, blocks made of one index are repeated. `first` tells whether that is known of the bits of the first section. -/
def MmEconomic (first : Prop) (inp : Mem) (n : Nat) (out : List Byte) : Prop :=
  ∃ (secs : List MmSec) (tail : List Byte), MmAlt false secs ∧ (∀ s ∈ secs, s.ok) ∧
    out.drop 8 = secsBytes secs ++ [0] ++ tail ∧ tail.length = n % 16 ∧
    MmText (fun _ => mtfTable) (secsBlocks secs).flatten tail (rd inp 0 n) ∧
    (∀ s ∈ secs, s.Proper) ∧ MmApart secs ∧ (∀ s ∈ secs.tail, s.Tight) ∧ (first → ∀ s ∈ secs, s.Tight)

theorem mm_economic (junk : Vec) (m0 inp : Mem) (n outSize ret : Nat) (out : List Byte) (h0 : 0 < n)
    (hn : n < 4294967296) (ho : outSize < 4294967296) (hc : mmCompress junk m0 (some inp) n true outSize = .ok ret out) :
    MmEconomic (∀ hi : Byte, noneAbove hi junk = true) inp n out := by
  obtain ⟨secs', wide, tail', rest, w1, w2, w3, w4⟩ := C27_mmtf128_written junk m0 inp n outSize ret out h0 hn ho hc
  simp only [mmCompress] at hc
  split at hc
  · cases hc
  obtain ⟨s, h1, W, X, Y, hcc, xs, secs0, H, T⟩ := meLoop_tight (n / 16) 0 _ _ _ _ _ _ _ (EInv.init junk m0 inp n) (SecInv.init junk m0 n)
    (by omega)
  rw [Nat.zero_add] at H
  rw [h1] at hc
  simp only at hc
  obtain ⟨V, f1, f2, f3, f4, f5⟩ := meFinish_spec H (by omega) (rd inp (16 * (n / 16)) (n % 16)) (by rw [rd_length]; omega)
  split at hc
  · obtain ⟨secs, a1, a2, a3⟩ := meFinish_tight H T (by omega) f1 f2
    have htl := (tail_rt H.good (HSame.refl _) (rd inp (16 * (n / 16)) (n % 16)) 0 [] (by rw [rd_length]; omega)).1
    rw [rd_length] at htl
    cases hc
    generalize mtfTailEnc s.hist 0 (rd inp (16 * (n / 16)) (n % 16)) = t at *
    rw [f2] at w3
    have e1 : (le32 n ++ le32 (meFinish s (rd inp (16 * (n / 16)) (n % 16))).2 ++ (V ++ [0] ++ t)).drop 8 = V ++ [0] ++ t := rfl
    rw [e1, ← a1, List.append_assoc, List.append_assoc, List.append_assoc] at w3
    obtain ⟨e2, e3, e4⟩ := secs_pre (w := false) false secs secs' a3 w1 (fun x hx => (a2.ok x hx).1) w2 w3
    subst e2
    have h16 : (secsBlocks secs).flatten.length = 16 * (secsBlocks secs).length := flat_len16 _ (by
      intro b hb
      unfold secsBlocks at hb
      obtain ⟨l, hl, hbl⟩ := List.mem_flatten.mp hb
      obtain ⟨x, hx, rfl⟩ := List.mem_map.mp hl
      exact sec_blocks16 x b hbl)
    have e5 := w4.1
    rw [rd_length, h16] at e5
    have e6 := congrArg List.length e4
    rw [List.length_append, htl] at e6
    have e7 : rest = [] := List.eq_nil_of_length_eq_zero (by omega)
    rw [e7, List.append_nil] at e4
    subst e4
    refine ⟨secs, t, a3, fun x hx => (a2.ok x hx).1, ?_, htl, w4, fun x hx => (a2.ok x hx).2, a2.apart, a2.tight, a2.tight0⟩
    rw [f2, e1, a1]
  · cases hc

/-- C76, all sections but the first one: the bits per index of a section are the fewest its blocks can be packed
with. The bits of the first section also depend on a register that was never set. -/
theorem C76_mmtf128_partial (junk : Vec) (m0 inp : Mem) (n outSize ret : Nat) (out : List Byte) (h0 : 0 < n)
    (hn : n < 4294967296) (ho : outSize < 4294967296) (hc : mmCompress junk m0 (some inp) n true outSize = .ok ret out) :
    MmEconomic False inp n out := by
  obtain ⟨secs, tail, h1, h2, h3, h4, h5, h6, h7, h8, -⟩ := mm_economic junk m0 inp n outSize ret out h0 hn ho hc
  exact ⟨secs, tail, h1, h2, h3, h4, h5, h6, h7, h8, False.elim⟩

/-- C76 in full, if the register happens to be zero. -/
theorem C76_mmtf128_zeroed (m0 inp : Mem) (n outSize ret : Nat) (out : List Byte) (h0 : 0 < n)
    (hn : n < 4294967296) (ho : outSize < 4294967296) (hc : mmCompress (vset1 0) m0 (some inp) n true outSize = .ok ret out) :
    MmEconomic True inp n out := by
  obtain ⟨secs, tail, h1, h2, h3, h4, h5, h6, h7, h8, h9⟩ := mm_economic (vset1 0) m0 inp n outSize ret out h0 hn ho hc
  refine ⟨secs, tail, h1, h2, h3, h4, h5, h6, h7, h8, fun _ => h9 fun hi => ?_⟩
  rw [noneAbove_iff]
  intro j _
  show hi &&& 0 = 0
  exact UInt8.and_zero

/-- Both hold of a real call: the first section here has one block of indices below four, and takes two bits per
index. -/
example : MmEconomic True regInp 16 ([16, 0, 0, 0, 14, 0, 0, 0, 14] ++ [0, 0x55, 0, 0x55] ++ [0]) :=
  C76_mmtf128_zeroed (fun _ => 0) regInp 16 64 14 _ (by decide) (by decide) (by decide) C29_mmtf128_register_violated.1

/-- A block of small indices, a repeated block, two of larger ones. -/
def tightInp : Mem := fun j =>
  (([0, 1, 0, 1, 0, 1, 0, 1, 0, 1, 0, 1, 0, 1, 0, 1] ++ [0, 1, 0, 1, 0, 1, 0, 1, 0, 1, 0, 1, 0, 1, 0, 1] ++
   [9, 1, 9, 1, 9, 1, 9, 1, 9, 1, 9, 1, 9, 1, 9, 1] ++ [9, 0, 9, 0, 9, 0, 9, 0, 9, 0, 9, 0, 9, 0, 9, 0] ++ [7] : List Byte)).getD j 0

/-- Whatever the register holds, the section behind the repeated block takes four bits per index. -/
example : ∃ ret out, mmCompress (vset1 255) (fun _ => 0) (some tightInp) 65 true 128 = .ok ret out ∧ MmEconomic False tightInp 65 out ∧
    out.drop 25 = [2, 0] ++ [18] ++ [0x90, 0x01, 0x90, 0x01, 0x90, 0x01, 0x90, 0x01, 0x90, 0x01, 0x90, 0x01, 0x90, 0x01, 0x90, 0x01] ++ [0, 8] := by
  refine ⟨46, [65, 0, 0, 0, 46, 0, 0, 0, 8] ++ [0, 1, 0, 1, 0, 1, 0, 1, 0, 1, 0, 1, 0, 1, 0, 1] ++ [2, 0] ++ [18] ++
    [0x90, 0x01, 0x90, 0x01, 0x90, 0x01, 0x90, 0x01, 0x90, 0x01, 0x90, 0x01, 0x90, 0x01, 0x90, 0x01] ++ [0, 8], by decide +kernel, C76_mmtf128_partial (vset1 255) (fun _ => 0) tightInp 65 128 46 _ (by decide) (by decide) (by decide)
    (by decide +kernel), by decide +kernel⟩

/-- C76 fails for the first section: one block of indices below four is stored with eight bits per index if the
register held ones. -/
theorem C76_mmtf128_violated :
    ∃ (junk : Vec) (inp : Mem) (n outSize ret : Nat) (out : List Byte), 0 < n ∧ n < 4294967296 ∧ outSize < 4294967296 ∧
      mmCompress junk (fun _ => 0) (some inp) n true outSize = .ok ret out ∧ ¬ MmEconomic True inp n out := by
  refine ⟨vset1 255, regInp, 16, 64, 26, _, by decide, by decide, by decide, C29_mmtf128_register_violated.2, ?_⟩
  rintro ⟨secs, tail, h1, h2, h3, h4, h5, h6, h7, h8, h9⟩
  have hok : ∀ x ∈ [MmSec.copy false .plain 1 [0, 1, 0, 1, 0, 1, 0, 1, 0, 1, 0, 1, 0, 1, 0, 1]], x.ok := by
    intro x hx
    rw [List.mem_singleton.mp hx]
    exact ⟨by decide, by decide⟩
  rw [List.append_assoc] at h3
  obtain ⟨e1, -, -⟩ := secs_pre (w := false) (w' := false) (r := tail) (r' := []) false secs
    [.copy false .plain 1 [0, 1, 0, 1, 0, 1, 0, 1, 0, 1, 0, 1, 0, 1, 0, 1]] h1 trivial h2 hok (by
      rw [show mmEnd false = [0] from rfl, ← List.append_assoc, ← h3]; rfl)
  have h10 := h9 trivial (.copy false .plain 1 [0, 1, 0, 1, 0, 1, 0, 1, 0, 1, 0, 1, 0, 1, 0, 1]) (by rw [e1]; exact List.mem_cons_self)
  exact absurd (h10 (by decide) .two (by decide)) (by decide)

/-- The blocks of a section share their bits: here the second block has indices below four as well, but it is stored
with eight bits per index because of the first one. -/
theorem C76_mmtf128_block_violated :
    ∃ (inp : Mem) (out : List Byte) (ret : Nat) (body : List Byte), mmCompress (vset1 0) (fun _ => 0) (some inp) 32 true 64 = .ok ret out ∧
      out.drop 8 = (MmSec.copy false .plain 2 body).bytes ++ [0] ∧
      ∃ b1 b2, MmKind.plain.blocks 2 body = [b1, b2] ∧ ∀ x ∈ b2, x.toNat < 2 ^ MmKind.two.bits := by
  refine ⟨fun j => if j = 0 then 200 else if j = 17 then 1 else if 16 = j then 200 else 0,
    [32, 0, 0, 0, 42, 0, 0, 0] ++ [16] ++ [200] ++ List.replicate 15 0 ++ [0, 1] ++ List.replicate 14 0 ++ [0], 42, [200] ++ List.replicate 15 0 ++ [0, 1] ++ List.replicate 14 0,
    by decide +kernel, by decide +kernel, [200] ++ List.replicate 15 0, [0, 1] ++ List.replicate 14 0, by decide +kernel, by decide +kernel⟩

end Hrk
