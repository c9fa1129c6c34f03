import Verif.MmMeaning

/-
C27 and C28 for rle8_mmtf128, on arbitrary byte strings: decompression gives what the string spells, and leaves
its buffers exactly when the string does not spell as many bytes as its header says.
-/

namespace Hrk

theorem tabs_init : Tabs (fun r => vset1 (b8 r)) (fun _ => mtfTable) := by
  intro j _
  refine ⟨List.Perm.refl _, fun r hr => ?_⟩
  simp [mtfTable, hr, vset1]

theorem MmSpells.append {r t : List Byte} (h : MmSpells r t) (more : List Byte) : MmSpells (r ++ more) t := by
  obtain ⟨secs, wide, tail, rest, h1, h2, h3, h4⟩ := h
  exact ⟨secs, wide, tail, rest ++ more, h1, h2, by rw [h3]; simp, h4⟩

theorem mm_spells_loop {r t : List Byte} (h : MmSpells r t) {cap : Nat} (hc : t.length ≤ cap) (m : Mem) :
    ∃ k, loop (dcStep cap t.length) k ⟨false, fun r => vset1 (b8 r), r, 0, m⟩ = some (some (wrL m 0 t)) := by
  obtain ⟨secs, wide, tail, rest, h1, h2, h3, h4⟩ := h
  exact loop_fwd_mm secs ⟨false, fun r => vset1 (b8 r), r, 0, m⟩ _ wide tail rest t tabs_init hc h1 h2 h3 h4 (Nat.zero_add _)

/-- C27 for rle8_mmtf128, on every byte string whose sizes pass the checks: either it spells as many bytes as its
header says, and decompression writes exactly these and nothing else, or it does not, and a buffer is left. -/
theorem C27_mmtf128_meaning (src : List Byte) (x len : Nat) (r : List Byte) (hx : x < 4294967296) (hlen : len < 4294967296)
    (hsrc : src = le32 x ++ le32 len ++ r) (a : DArgs) (m : Mem) (hpi : a.pIn = some src) (hpo : a.pOut = some m)
    (h0 : 0 < a.inSize) (ho : 0 < a.outSize) (hin : len ≤ a.inSize) (hout : x ≤ a.outSize) (hcap : x ≤ a.cap) :
    (∃ t, MmSpells r t ∧ t.length = x ∧ mmDecompress a = .ok x (wrL m 0 t)) ∨
    ((∀ t, MmSpells r t → t.length ≠ x) ∧ mmDecompress a = .ub) := by
  have heq : mmDecompress a = match loop (dcStep a.cap x) (r.length + 1) ⟨false, fun r => vset1 (b8 r), r, 0, m⟩ with
      | none => .hang
      | some none => .ub
      | some (some m') => .ok x m' := by
    unfold mmDecompress
    rw [hpi, hpo, hsrc]
    simp only
    rw [if_neg (by omega)]
    simp only [List.append_assoc, rdU32_le32, Nat.mod_eq_of_lt hx, Nat.mod_eq_of_lt hlen]
    rw [if_neg (by omega)]
    rfl
  cases hq : loop (dcStep a.cap x) (r.length + 1) ⟨false, fun r => vset1 (b8 r), r, 0, m⟩ with
  | none =>
    rw [hq] at heq
    exact absurd heq ((C36_mmtf128_terminates vzero (fun _ => 0)).2 a)
  | some q =>
    rw [hq] at heq
    cases q with
    | some m' =>
      obtain ⟨secs, wide, tail, rest, t, c1, c2, c3, c4, c5, c6, c7⟩ := loop_conv_mm _ _ _ _ tabs_init
        (by show 0 ≤ a.cap; omega) hq
      have c5 : 0 + t.length = x := c5
      refine Or.inl ⟨t, ⟨secs, wide, tail, rest, c1, c2, c3, c4⟩, by omega, ?_⟩
      rw [heq, c7]
    | none =>
      refine Or.inr ⟨fun t ht hl => ?_, heq⟩
      subst hl
      obtain ⟨k, hk⟩ := mm_spells_loop ht hcap m
      have f1 := loop_mono _ (max (r.length + 1) k) _ _ hq (by omega)
      have f2 := loop_mono _ (max (r.length + 1) k) _ _ hk (by omega)
      rw [f1] at f2
      cases f2

/-- A byte string spells at most one thing of a given length. -/
theorem C27_mmtf128_unique (r t t' : List Byte) (h : MmSpells r t) (h' : MmSpells r t') (hl : t.length = t'.length) : t = t' := by
  have key : ∀ m, wrL m 0 t = wrL m 0 t' := by
    intro m
    obtain ⟨k, hk⟩ := mm_spells_loop h (Nat.le_refl _) m
    obtain ⟨k', hk'⟩ := mm_spells_loop h' (Nat.le_refl _) m
    rw [← hl] at hk'
    have f1 := loop_mono _ (max k k') _ _ hk (by omega)
    have f2 := loop_mono _ (max k k') _ _ hk' (by omega)
    rw [f1] at f2
    exact Option.some.inj (Option.some.inj f2)
  apply List.ext_getElem hl
  intro i h1 h2
  have := congrFun (key fun _ => 0) i
  have e1 := wrL_in (m := fun _ => 0) (a := 0) (l := t) (k := i) h1
  have e2 := wrL_in (m := fun _ => 0) (a := 0) (l := t') (k := i) h2
  rw [Nat.zero_add] at e1 e2
  rw [e1, e2, getD_of_lt _ _ h1, getD_of_lt _ _ h2] at this
  exact this

/-- What `rle8_mmtf128_compress` returns spells its input behind the two sizes, whatever the uninitialised
register and the output buffer held. -/
theorem C27_mmtf128_written (junk : Vec) (m0 inp : Mem) (n outSize ret : Nat) (out : List Byte) (h0 : 0 < n)
    (hn : n < 4294967296) (ho : outSize < 4294967296) (hc : mmCompress junk m0 (some inp) n true outSize = .ok ret out) :
    MmSpells (out.drop 8) (rd inp 0 n) := by
  have hrt := C14_roundtrip junk m0 inp n outSize ret out h0 (by omega) ho hc
  obtain ⟨_, V, t, _, _, _, hout, hol, _⟩ := mmCompress_ok hn hc
  have hl : out.length < 4294967296 := by omega
  have hd8 : out.drop 8 = V ++ [0] ++ t := by
    conv => lhs; rw [hout]
    rfl
  obtain ⟨m', e1, e2, _⟩ := hrt [] (fun _ => 0) ⟨some out, out.length, some fun _ => 0, n, n, 0, 0⟩ (by simp) (Nat.le_refl _) rfl
    (Nat.le_refl _) (Nat.le_refl _)
  rcases C27_mmtf128_meaning out n out.length (V ++ [0] ++ t) hn hl hout ⟨some out, out.length, some fun _ => 0, n, n, 0, 0⟩
    (fun _ => 0) rfl rfl (by show 0 < out.length; rw [hout]; simp [le32]) h0 (Nat.le_refl _) (Nat.le_refl _) (Nat.le_refl _) with
    ⟨u, f1, f2, f3⟩ | ⟨_, f3⟩
  · rw [f3] at e1
    cases e1
    have : u = rd inp 0 n := by
      apply List.ext_getElem (by rw [rd_length, f2])
      intro i h1 h2
      have := e2 i (by omega)
      have g1 := wrL_in (m := fun _ => 0) (a := 0) (l := u) (k := i) h1
      rw [Nat.zero_add] at g1
      rw [g1, getD_of_lt _ _ h1] at this
      rw [this, rd_getElem, Nat.zero_add]
    rw [← this, hd8]
    exact f1
  · rw [f3] at e1
    cases e1

/-- With at most one block of bytes behind the blocks, as in every stream the compressor writes, each of the
sixteen columns of the text is the textbook move to front decoding of that column of the indices, tail
included. -/
theorem C27_mmtf128_columns (I tail t : List Byte) (h : MmText (fun _ => mtfTable) I tail t) (k : Nat) (hI : I.length = 16 * k)
    (ht : tail.length ≤ 16) : ∀ j, j < 16 → lane 16 j t = unmtf mtfTable (lane 16 j (I ++ tail)) := by
  obtain ⟨h1, h2, h3⟩ := h
  intro j hj
  rw [← List.take_append_drop I.length t, lane_mul (k := k) (by rw [List.length_take]; omega), lane_mul hI, unmtf_app, h2 j hj]
  congr 1
  unfold lane
  rw [laneAt_short _ 0 (by rw [List.length_drop]; omega), laneAt_short tail 0 (by omega), List.length_drop,
    show t.length - I.length = tail.length by omega]
  by_cases hjt : j < tail.length
  · rw [if_pos (by omega), if_pos (by omega), Nat.sub_zero, unmtf, unmtf]
    have := (h3 j hjt).2
    rw [show j % 16 = j by omega, show j / 16 = 0 by omega, Nat.add_zero] at this
    rw [List.getD_eq_getElem?_getD (l := t.drop I.length), List.getElem?_drop, ← List.getD_eq_getElem?_getD, this]
    rfl
  · rw [if_neg (by omega), if_neg (by omega)]
    rfl

/-- C28 for rle8_mmtf128 on every byte string that spells as many bytes as its header says: nothing outside the
stream is read and nothing outside `outSize` bytes is written, whatever sizes the caller passes and whatever
follows the stream. Missing: the other byte strings, on which `C27_mmtf128_meaning` shows that a buffer is left
(`C28_mmtf128_violated`). -/
theorem C28_mmtf128_partial (src t r : List Byte) (len : Nat) (hsrc : src = le32 t.length ++ le32 len ++ r)
    (ht : t.length < 4294967296) (hlen : len < 4294967296) (h : MmSpells r t) (more : List Byte) (a : DArgs)
    (hpi : a.pIn = some (src ++ more)) (hcap : a.outSize ≤ a.cap) : mmDecompress a ≠ .ub := by
  obtain ⟨g1, g2⟩ := C25_mmtf128_guards
  have fail : mmDecompress a = .fail → mmDecompress a ≠ .ub := by intro h; rw [h]; simp
  have hsrc' : src ++ more = le32 t.length ++ le32 len ++ (r ++ more) := by rw [hsrc]; simp
  cases hpo : a.pOut with
  | none => exact fail (g1 a (Or.inr (Or.inl hpo)))
  | some m =>
    by_cases z1 : a.inSize = 0
    · exact fail (g1 a (Or.inr (Or.inr (Or.inl z1))))
    by_cases z2 : a.outSize = 0
    · exact fail (g1 a (Or.inr (Or.inr (Or.inr z2))))
    by_cases z3 : a.outSize < t.length ∨ a.inSize < len
    · exact fail (g2 a t.length len (r ++ more) ht hlen (by rw [hpi, hsrc']) z3)
    rcases C27_mmtf128_meaning (src ++ more) t.length len (r ++ more) ht hlen hsrc' a m hpi hpo (by omega) (by omega)
      (by omega) (by omega) (by omega) with ⟨_, _, _, h3⟩ | ⟨h3, _⟩
    · rw [h3]; simp
    · exact absurd rfl (h3 t (h.append more))

/-- The stream of the example: one block with two bits per index and two single bytes. -/
def mmExSec : MmSec := .copy false .two 1 [0x1B, 0, 0, 0xE4]

/-- The hypotheses of `C28_mmtf128_partial` can be met, also by a stream no compressor writes: its terminator has
four bytes. -/
example : ∃ src t r len, src = le32 t.length ++ le32 len ++ r ∧ t.length < 4294967296 ∧ len < 4294967296 ∧
    MmSpells r t ∧ t.length = 18 :=
  ⟨le32 18 ++ le32 19 ++ ([14, 0x1B, 0, 0, 0xE4] ++ le32 1 ++ [5, 0]), [3, 0, 0, 0, 2, 0, 0, 1, 1, 0, 0, 2, 0, 0, 0, 3, 5, 0],
    [14, 0x1B, 0, 0, 0xE4] ++ le32 1 ++ [5, 0], 19, rfl, by decide, by decide,
    ⟨[mmExSec], true, [5, 0], [], trivial, by
      intro s hs
      rw [List.mem_singleton.mp hs]
      exact ⟨by decide, rfl⟩, rfl, by
      unfold MmText
      decide +kernel⟩, rfl⟩

end Hrk
