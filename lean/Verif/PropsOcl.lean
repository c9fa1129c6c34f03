import Verif.Ocl
import Verif.Rle8mApi

/-
C10: the OpenCL kernels, under every schedule.
-/

namespace Hrk

/-- Where a work-group stands: what is left of its stream, together with the run it is storing, stands for the rest of its section. -/
structure KInv (rle : Byte → Bool) (cnt : Byte → Nat) (buf : List Byte) (inp : Mem) (pEnd o0 size : Nat) (s : KS) (m : Mem) : Prop where
  pos : s.pos ≤ pEnd
  lo : o0 ≤ s.o
  ref : ∃ t, leRef rle cnt 255 (rd (fun k => buf.getD k 0) s.pos (pEnd - s.pos)) = some t ∧ s.o + s.left + t.length = o0 + size ∧
    (∀ j, j < s.left → inp (s.o + j) = s.b) ∧ ∀ j, j < t.length → t.getD j 0 = inp (s.o + s.left + j)
  done : ∀ j, o0 ≤ j → j < s.o → m j = inp j

theorem kStep_spec {rle : Byte → Bool} {cnt : Byte → Nat} {buf : List Byte} {inp : Mem} {cap pEnd o0 size : Nat} {s : KS} {m : Mem}
    (h : KInv rle cnt buf inp pEnd o0 size s m) (hb : pEnd ≤ buf.length) (hc : o0 + size ≤ cap) :
    ∃ s' m', kStep rle cnt buf cap pEnd s m = some (s', m') ∧ KInv rle cnt buf inp pEnd o0 size s' m' ∧
      (∀ j, (j < o0 ∨ o0 + size ≤ j) → m' j = m j) ∧ (s'.o = s.o + 1 ∨ s.o = o0 + size ∧ s' = s) := by
  obtain ⟨hpos, hlo, ⟨t, ht, htl, hrun, htG⟩, hdone⟩ := h
  obtain ⟨pos, o, left, b⟩ := s
  simp only at hpos hlo ht htl hrun htG hdone
  unfold kStep
  simp only
  by_cases h1 : 0 < left
  · rw [if_pos h1, if_pos (by omega)]
    refine ⟨_, _, rfl, ⟨hpos, by simp only; omega, ⟨t, ht, by simp only; omega, ?_, ?_⟩, ?_⟩, ?_, Or.inl rfl⟩
    · intro j hj
      have := hrun (j + 1) (by simp only at hj; omega)
      rw [show o + (j + 1) = o + 1 + j by omega] at this
      exact this
    · intro j hj
      rw [htG j hj]
      simp only
      rw [show o + 1 + (left - 1) + j = o + left + j by omega]
    · intro j hj1 hj2
      simp only [wr] at hj2 ⊢
      by_cases hj : o ≤ j
      · rw [if_pos (by omega), ← hrun 0 h1, show o + 0 = j by omega]
      · rw [if_neg (by omega)]
        exact hdone j hj1 (by omega)
    · intro j hj
      simp only [wr]
      rw [if_neg (by omega)]
  · rw [if_neg h1]
    have hl0 : left = 0 := by omega
    subst hl0
    by_cases h2 : pos < pEnd
    · rw [if_pos h2]
      by_cases hr : rle (buf.getD pos 0) = true
      · obtain ⟨hL, hcnt, t', ht', rfl⟩ := leRef_mem_run (src := fun k => buf.getD k 0) (p := pos) (L := pEnd - pos) (by omega) hr ht
        simp only [List.cons_append, List.length_cons, List.length_append, List.length_replicate] at htl htG
        rw [if_pos (by omega), if_pos hr, if_pos (by omega)]
        refine ⟨_, _, rfl, ⟨by simp only; omega, by simp only; omega, ⟨t', ?_, by simp only; omega, ?_, ?_⟩, ?_⟩, ?_, Or.inl rfl⟩
        · simp only
          rw [show pEnd - (pos + 2) = pEnd - pos - 2 by omega]
          exact ht'
        · intro j hj
          simp only at hj ⊢
          have := htG (j + 1) (by omega)
          rw [List.getD_cons_succ, getD_app_l (by rw [List.length_replicate]; exact hj)] at this
          rw [show o + 1 + j = o + 0 + (j + 1) by omega, ← this, List.getD_eq_getElem?_getD, List.getElem?_replicate, if_pos hj]
          rfl
        · intro j hj
          simp only
          have := htG (cnt (buf.getD (pos + 1) 0) + j + 1) (by omega)
          have h3 := getD_app_r (l₁ := List.replicate (cnt (buf.getD (pos + 1) 0)) (buf.getD pos 0)) (l₂ := t') (k := j)
          rw [List.length_replicate] at h3
          rw [List.getD_cons_succ, h3] at this
          rw [this, show o + 0 + (cnt (buf.getD (pos + 1) 0) + j + 1) = o + 1 + cnt (buf.getD (pos + 1) 0) + j by omega]
        · intro j hj1 hj2
          simp only [wr] at hj2 ⊢
          by_cases hj : o ≤ j
          · rw [if_pos (by omega)]
            have := htG 0 (by omega)
            rw [List.getD_cons_zero] at this
            rw [this, show o + 0 + 0 = j by omega]
          · rw [if_neg (by omega)]
            exact hdone j hj1 (by omega)
        · intro j hj
          simp only [wr]
          rw [if_neg (by omega)]
      · obtain ⟨t', ht', rfl⟩ := leRef_mem_lits (src := fun k => buf.getD k 0) (p := pos) (L := pEnd - pos) (w := 1) (by omega)
          (fun k hk => by rw [show pos + k = pos by omega]; simpa using hr) ht
        rw [show rd (fun k => buf.getD k 0) pos 1 = [buf.getD pos 0] from rfl] at htl htG
        simp only [List.cons_append, List.nil_append, List.length_cons] at htl htG
        rw [if_pos (by omega), if_neg hr]
        refine ⟨_, _, rfl, ⟨by simp only; omega, by simp only; omega, ⟨t', ?_, by simp only; omega, ?_, ?_⟩, ?_⟩, ?_, Or.inl rfl⟩
        · simp only
          rw [show pEnd - (pos + 1) = pEnd - pos - 1 by omega]
          exact ht'
        · intro j hj
          exact absurd hj (by simp)
        · intro j hj
          have := htG (j + 1) (by omega)
          rw [List.getD_cons_succ] at this
          rw [this]
          simp only
          rw [show o + 0 + (j + 1) = o + 1 + 0 + j by omega]
        · intro j hj1 hj2
          simp only [wr] at hj2 ⊢
          by_cases hj : o ≤ j
          · rw [if_pos (by omega)]
            have := htG 0 (by omega)
            rw [List.getD_cons_zero] at this
            rw [this, show o + 0 + 0 = j by omega]
          · rw [if_neg (by omega)]
            exact hdone j hj1 (by omega)
        · intro j hj
          simp only [wr]
          rw [if_neg (by omega)]
    · rw [if_neg h2]
      have ht0 := ht
      rw [show pEnd - pos = 0 by omega] at ht
      simp only [rd, List.range_zero, List.map_nil, leRef, Option.some.injEq] at ht
      subst ht
      refine ⟨_, _, rfl, ⟨hpos, hlo, ⟨[], ht0, htl, hrun, htG⟩, hdone⟩, fun _ _ => rfl, Or.inr ⟨?_, rfl⟩⟩
      simp only [List.length_nil] at htl ⊢
      omega

/-- A work-group has returned exactly when it has stored its whole section. -/
theorem KInv.done_iff {rle : Byte → Bool} {cnt : Byte → Nat} {buf : List Byte} {inp : Mem} {pEnd o0 size : Nat} {s : KS} {m : Mem}
    (h : KInv rle cnt buf inp pEnd o0 size s m) : (s.left = 0 ∧ pEnd ≤ s.pos) ↔ s.o = o0 + size := by
  obtain ⟨hpos, hlo, ⟨t, ht, htl, hrun, htG⟩, hdone⟩ := h
  constructor
  · intro ⟨h1, h2⟩
    rw [show pEnd - s.pos = 0 by omega] at ht
    simp only [rd, List.range_zero, List.map_nil, leRef, Option.some.injEq] at ht
    subst ht
    simp only [List.length_nil] at htl
    omega
  · intro h1
    have h2 := leRef_length _ _ ht
    rw [rd_length] at h2
    omega

/-- The input of the kernels: section `i` occupies the bytes from `off i` to `off (i + 1)` of `buf`, and stands for the bytes
of `inp` from `i * sz` on: `sz` of them, or what is left up to `n` for the last one. -/
structure KSections (rle : Byte → Bool) (cnt : Byte → Nat) (buf : List Byte) (inp : Mem) (k n sz : Nat) (off : Nat → Nat) : Prop where
  fits : k * sz ≤ n
  le : ∀ i, i < k → off i ≤ off (i + 1)
  len : ∀ i, i < k → off (i + 1) ≤ buf.length
  ref : ∀ i, i < k → leRef rle cnt 255 (rd (fun k => buf.getD k 0) (off i) (off (i + 1) - off i)) =
    some (rd inp (i * sz) (if i + 1 < k then sz else n - i * sz))

/-- Number of bytes of section `i`. -/
def secSize (k n sz i : Nat) : Nat := if i + 1 < k then sz else n - i * sz

theorem sec_bounds {k n sz i : Nat} (hk : k * sz ≤ n) (hi : i < k) :
    i * sz + secSize k n sz i ≤ n ∧ ∀ j, j < k → j ≠ i → i * sz + secSize k n sz i ≤ j * sz ∨ j * sz + secSize k n sz j ≤ i * sz := by
  have h0 : i * sz ≤ k * sz := Nat.mul_le_mul_right _ (by omega)
  have hs : ∀ a b, a < b → a * sz + sz ≤ b * sz := by
    intro a b hab
    rw [← Nat.succ_mul]
    exact Nat.mul_le_mul_right _ hab
  have h1 := hs i k hi
  refine ⟨?_, ?_⟩
  · unfold secSize
    split <;> omega
  · intro j hj hne
    unfold secSize
    by_cases hij : i < j
    · have := hs i j hij
      rw [if_pos (by omega)]
      omega
    · have := hs j i (by omega)
      rw [if_pos (e := n - j * sz) (by omega)]
      omega

/-- The invariant of all work-groups. -/
def OclInv (rle : Byte → Bool) (cnt : Byte → Nat) (buf : List Byte) (inp : Mem) (k n sz : Nat) (off : Nat → Nat) (m0 : Mem) (g : GS) : Prop :=
  (∀ i, i < k → KInv rle cnt buf inp (off (i + 1)) (i * sz) (secSize k n sz i) (g.gs i) g.m) ∧ ∀ j, n ≤ j → g.m j = m0 j

theorem kInit_inv {rle : Byte → Bool} {cnt : Byte → Nat} {buf : List Byte} {inp : Mem} {k n sz : Nat} {off : Nat → Nat}
    (h : KSections rle cnt buf inp k n sz off) (hn : n < 4294967296) (m0 : Mem) :
    OclInv rle cnt buf inp k n sz off m0 (kInit off sz m0) := by
  refine ⟨?_, fun _ _ => rfl⟩
  intro i hi
  have hb := (sec_bounds h.fits hi).1
  unfold kInit
  simp only
  rw [Nat.mod_eq_of_lt (by omega)]
  refine ⟨h.le i hi, Nat.le_refl _, ⟨_, h.ref i hi, ?_, ?_, ?_⟩, ?_⟩
  · rw [rd_length]; rfl
  · intro j hj; exact absurd hj (by simp)
  · intro j hj
    rw [rd_length] at hj
    rw [rd_getD _ _ _ _ _ hj]
    rfl
  · intro j h1 h2
    simp only at h2
    omega

/-- One step of one work-group keeps the invariant of all of them. -/
theorem kStep_inv {rle : Byte → Bool} {cnt : Byte → Nat} {buf : List Byte} {inp : Mem} {cap k n sz : Nat} {off : Nat → Nat} {m0 : Mem} {g : GS}
    (h : KSections rle cnt buf inp k n sz off) (hc : n ≤ cap) (hg : OclInv rle cnt buf inp k n sz off m0 g) {i : Nat} (hi : i < k) :
    ∃ s m, kStep rle cnt buf cap (off (i + 1)) (g.gs i) g.m = some (s, m) ∧
      OclInv rle cnt buf inp k n sz off m0 ⟨fun j => if j = i then s else g.gs j, m⟩ ∧
      (∀ j, (j < i * sz ∨ i * sz + secSize k n sz i ≤ j) → m j = g.m j) ∧
      (s.o = (g.gs i).o + 1 ∨ (g.gs i).o = i * sz + secSize k n sz i ∧ s = g.gs i) := by
  obtain ⟨hb1, hb2⟩ := sec_bounds h.fits hi
  obtain ⟨s, m, h1, h2, h3, h4⟩ := kStep_spec (cap := cap) (hg.1 i hi) (h.len i hi) (by omega)
  refine ⟨s, m, h1, ⟨?_, ?_⟩, h3, h4⟩
  · intro j hj
    simp only
    by_cases hji : j = i
    · rw [if_pos hji, hji]
      exact h2
    · rw [if_neg hji]
      obtain ⟨p1, p2, p3, p4⟩ := hg.1 j hj
      refine ⟨p1, p2, p3, ?_⟩
      intro q hq1 hq2
      have hd := hb2 j hj hji
      obtain ⟨t, _, ht, _⟩ := p3
      rw [h3 q (by omega)]
      exact p4 q hq1 hq2
  · intro j hj
    simp only
    rw [h3 j (by omega)]
    exact hg.2 j hj

theorem kRun_inv {rle : Byte → Bool} {cnt : Byte → Nat} {buf : List Byte} {inp : Mem} {cap k n sz : Nat} {off : Nat → Nat} {m0 : Mem}
    (h : KSections rle cnt buf inp k n sz off) (hc : n ≤ cap) : ∀ σ g, OclInv rle cnt buf inp k n sz off m0 g →
    ∃ g', kRun rle cnt buf cap k off σ g = some g' ∧ OclInv rle cnt buf inp k n sz off m0 g' ∧
      ∀ i, i < k → min (i * sz + secSize k n sz i) ((g.gs i).o + σ.count i) ≤ (g'.gs i).o := by
  intro σ
  induction σ with
  | nil =>
    intro g hg
    refine ⟨g, rfl, hg, fun i _ => ?_⟩
    simp only [List.count_nil]
    omega
  | cons i σ ih =>
    intro g hg
    rw [kRun]
    by_cases hi : i < k
    · rw [if_pos hi]
      obtain ⟨s, m, h1, h2, _, h4⟩ := kStep_inv (cap := cap) h hc hg hi
      rw [h1]
      obtain ⟨g', e1, e2, e3⟩ := ih _ h2
      refine ⟨g', e1, e2, ?_⟩
      intro j hj
      have := e3 j hj
      simp only at this
      by_cases hji : j = i
      · subst hji
        rw [if_pos rfl] at this
        rw [List.count_cons_self]
        rcases h4 with h4 | ⟨h4, h5⟩
        · omega
        · rw [h5] at this
          omega
      · rw [if_neg hji] at this
        rw [List.count_cons_of_ne (fun hh => hji hh.symm)]
        exact this
    · rw [if_neg hi]
      obtain ⟨g', e1, e2, e3⟩ := ih _ hg
      refine ⟨g', e1, e2, ?_⟩
      intro j hj
      rw [List.count_cons_of_ne (by omega)]
      exact e3 j hj

/-! ### C10, the kernels -/

/-- C10: under every schedule no work-group leaves the buffers; whenever all of them have returned, the output buffer holds the input
and nothing behind it was changed. -/
theorem C10_kernel_schedule_independent {rle : Byte → Bool} {cnt : Byte → Nat} {buf : List Byte} {inp : Mem} {cap k n sz : Nat}
    {off : Nat → Nat} (h : KSections rle cnt buf inp k n sz off) (hk : 0 < k) (hc : n ≤ cap) (hn : n < 4294967296) (m0 : Mem)
    (σ : List Nat) :
    ∃ g, kRun rle cnt buf cap k off σ (kInit off sz m0) = some g ∧
      ((∀ i, i < k → kDone off g i) → ∀ j, g.m j = if j < n then inp j else m0 j) := by
  obtain ⟨g, h1, h2, _⟩ := kRun_inv h hc σ _ (kInit_inv h hn m0)
  refine ⟨g, h1, ?_⟩
  intro hd j
  by_cases hj : j < n
  · rw [if_pos hj]
    -- the section `j` lies in
    have hex : ∃ i, i < k ∧ i * sz ≤ j ∧ j < i * sz + secSize k n sz i := by
      by_cases hlast : (k - 1) * sz ≤ j
      · refine ⟨k - 1, by omega, hlast, ?_⟩
        unfold secSize
        rw [if_neg (by omega)]
        omega
      · have hz : 0 < sz := by
          rcases Nat.eq_zero_or_pos sz with h0 | h0
          · rw [h0, Nat.mul_zero] at hlast; omega
          · exact h0
        have hlt : j / sz < k - 1 := (Nat.div_lt_iff_lt_mul hz).mpr (by omega)
        refine ⟨j / sz, by omega, Nat.div_mul_le_self j sz, ?_⟩
        unfold secSize
        rw [if_pos (by omega)]
        have h3 := Nat.div_add_mod j sz
        have h4 := Nat.mod_lt j hz
        rw [Nat.mul_comm] at h3
        omega
    obtain ⟨i, hi, hj1, hj2⟩ := hex
    have hinv := h2.1 i hi
    have := hinv.done_iff.mp (hd i hi)
    exact hinv.done j hj1 (by omega)
  · rw [if_neg hj]
    exact h2.2 j (by omega)

/-- C10: at every point of every schedule, whatever work-group `i` does next only changes bytes of its own sub-section. -/
theorem C10_kernel_own_section {rle : Byte → Bool} {cnt : Byte → Nat} {buf : List Byte} {inp : Mem} {cap k n sz : Nat}
    {off : Nat → Nat} (h : KSections rle cnt buf inp k n sz off) (hc : n ≤ cap) (hn : n < 4294967296) (m0 : Mem)
    (σ : List Nat) (g : GS) (hg : kRun rle cnt buf cap k off σ (kInit off sz m0) = some g) (i : Nat) (hi : i < k) :
    ∃ s m, kStep rle cnt buf cap (off (i + 1)) (g.gs i) g.m = some (s, m) ∧
      ∀ j, m j ≠ g.m j → i * sz ≤ j ∧ (i + 1 < k → j < (i + 1) * sz) ∧ j < n := by
  obtain ⟨g', h1, h2, _⟩ := kRun_inv (cap := cap) h hc σ _ (kInit_inv h hn m0)
  rw [hg] at h1
  cases h1
  obtain ⟨s, m, e1, _, e3, _⟩ := kStep_inv (cap := cap) h hc h2 hi
  refine ⟨s, m, e1, ?_⟩
  intro j hj
  have hb := (sec_bounds h.fits hi).1
  have h3 : ¬ (j < i * sz ∨ i * sz + secSize k n sz i ≤ j) := fun hh => hj (e3 j hh)
  refine ⟨by omega, ?_, by omega⟩
  intro hlt
  have : secSize k n sz i = sz := by unfold secSize; rw [if_pos hlt]
  rw [Nat.succ_mul]
  omega

/-- C10: every schedule that gives every work-group as many steps as its section has bytes runs all of them to their end. -/
theorem C10_kernel_completes {rle : Byte → Bool} {cnt : Byte → Nat} {buf : List Byte} {inp : Mem} {cap k n sz : Nat}
    {off : Nat → Nat} (h : KSections rle cnt buf inp k n sz off) (hc : n ≤ cap) (hn : n < 4294967296) (m0 : Mem)
    (σ : List Nat) (hσ : ∀ i, i < k → secSize k n sz i ≤ σ.count i) :
    ∃ g, kRun rle cnt buf cap k off σ (kInit off sz m0) = some g ∧ ∀ i, i < k → kDone off g i := by
  obtain ⟨g, h1, h2, h3⟩ := kRun_inv (cap := cap) h hc σ _ (kInit_inv h hn m0)
  refine ⟨g, h1, ?_⟩
  intro i hi
  have hinv := h2.1 i hi
  have hb := (sec_bounds h.fits hi).1
  have h4 := h3 i hi
  have h5 := hσ i hi
  have h6 : ((kInit off sz m0).gs i).o = i * sz := by
    show i * sz % 4294967296 = i * sz
    exact Nat.mod_eq_of_lt (by omega)
  rw [h6] at h4
  obtain ⟨t, _, ht, _⟩ := hinv.ref
  exact hinv.done_iff.mpr (by omega)

/-! ### C10, the host side -/

/-- Start of section `i` in the uploaded bytes. -/
def secStart (ds : List (List Byte)) (i : Nat) : Nat := (ds.take i).flatten.length

theorem secStart_cons (d : List Byte) (ds : List (List Byte)) (i : Nat) : secStart (d :: ds) (i + 1) = d.length + secStart ds i := by
  unfold secStart
  rw [List.take_succ_cons, List.flatten_cons, List.length_append]

/-- The sections one by one. -/
theorem MRef.get {y : LeDInfo} {mx : Nat} {inp : Mem} {sz last : Nat} : ∀ cnt start ds, MRef y mx inp sz last cnt start ds →
    ∀ i, i ≤ cnt → ∃ d rest, ds.flatten.drop (secStart ds i) = d ++ rest ∧ secStart ds (i + 1) = secStart ds i + d.length ∧
      secStart ds i + d.length ≤ ds.flatten.length ∧
      leRef y.rle y.toCount mx d = some (rd inp (start + i * sz) (if i < cnt then sz else last)) := by
  intro cnt
  induction cnt with
  | zero =>
    intro start ds h i hi
    obtain ⟨d, rfl, h⟩ := h
    obtain rfl : i = 0 := by omega
    refine ⟨d, [], by simp [secStart], by simp [secStart], by simp [secStart], ?_⟩
    rw [if_neg (by omega), Nat.zero_mul, Nat.add_zero]
    exact h
  | succ cnt ih =>
    intro start ds h i hi
    obtain ⟨d, ds', rfl, h, h'⟩ := h
    cases i with
    | zero =>
      refine ⟨d, ds'.flatten, by simp [secStart], by simp [secStart], by simp [secStart], ?_⟩
      rw [if_pos (by omega), Nat.zero_mul, Nat.add_zero]
      exact h
    | succ i =>
      obtain ⟨e, rest, h1, h2, h3, h4⟩ := ih _ _ h' i (by omega)
      refine ⟨e, rest, ?_, ?_, ?_, ?_⟩
      · rw [secStart_cons, List.flatten_cons, ← List.drop_drop]
        simpa using h1
      · rw [secStart_cons, secStart_cons, h2, Nat.add_assoc]
      · rw [secStart_cons, List.flatten_cons, List.length_append]
        omega
      · rw [h4, show start + sz + i * sz = start + (i + 1) * sz by rw [Nat.succ_mul]; omega]
        by_cases hc : i < cnt
        · rw [if_pos hc, if_pos (by omega)]
        · rw [if_neg hc, if_neg (by omega)]

theorem mOffsets_get : ∀ (ds : List (List Byte)) (P j : Nat), j + 1 < ds.length →
    ∃ rest, (mOffsets P ds).drop (4 * j) = le32 (P + secStart ds (j + 1)) ++ rest := by
  intro ds
  induction ds with
  | nil => intro P j h; simp at h
  | cons d ds ih =>
    intro P j h
    obtain ⟨e, ds', rfl⟩ : ∃ e ds', ds = e :: ds' := by
      cases ds with
      | nil => simp at h
      | cons e ds' => exact ⟨e, ds', rfl⟩
    rw [show mOffsets P (d :: e :: ds') = le32 (P + d.length) ++ mOffsets (P + d.length) (e :: ds') from rfl]
    cases j with
    | zero =>
      refine ⟨mOffsets (P + d.length) (e :: ds'), ?_⟩
      rw [secStart_cons]
      simp [secStart]
    | succ j =>
      obtain ⟨rest, hr⟩ := ih (P + d.length) j (by simp only [List.length_cons] at h ⊢; omega)
      refine ⟨rest, ?_⟩
      rw [secStart_cons, ← Nat.add_assoc, ← hr, show 4 * (j + 1) = (le32 (P + d.length)).length + 4 * j by rw [le32_length]; omega,
        ← List.drop_drop, List.drop_left]

theorem secStart_all (ds : List (List Byte)) : secStart ds ds.length = ds.flatten.length := by
  unfold secStart
  rw [List.take_length]

theorem oclFlags_eq (rle : Byte → Bool) (b : Byte) : oclFlags rle b = rle b := by
  unfold oclFlags oclSingle
  split
  · next h =>
    have h1 : ((List.range 256).filter fun i => rle (b8 i)).length = 1 := by simpa using h
    have : rleCount rle = 1 := by unfold rleCount; rw [h1]
    exact firstRle_hit this b
  · rfl

/-- The bytes and offsets the host hands to the kernels describe the sections. -/
theorem ocl_sections {y : LeDInfo} {k : Nat} {src : List Byte} {len : Nat} {inp : Mem} {n : Nat} (h : MStandsBy y k src len inp n) :
    ∃ w ds tail, src = le32 len ++ le32 n ++ le32 k ++ mOffsets (12 + 4 * (k - 1) + w.length) ds ++ w ++ ds.flatten ++ tail ∧
      readInfo (w ++ (ds.flatten ++ tail)) = some (y, ds.flatten ++ tail) ∧ ds.length = k ∧
      len = 12 + 4 * (k - 1) + w.length + ds.flatten.length ∧
      KSections (oclFlags y.rle) y.toCount ds.flatten inp k n (n / k) (oclOffsets src k (12 + 4 * (k - 1) + w.length) len) := by
  obtain ⟨w, ds, tail, hk0, hk, hn, hn2, hl2, hlen, hsrc, hy, href⟩ := h
  refine ⟨w, ds, tail, hsrc, hy, ?_⟩
  obtain ⟨P, hP⟩ : ∃ P, P = 12 + 4 * (k - 1) + w.length := ⟨_, rfl⟩
  rw [← hP] at hlen hsrc ⊢
  have hdl := href.length
  have hdk : ds.length = k := by omega
  refine ⟨hdk, hlen, ?_⟩
  have hmono : ∀ i, i < k → secStart ds (i + 1) ≤ ds.flatten.length := by
    intro i hi
    obtain ⟨d, rest, _, h2, h3, _⟩ := href.get _ _ _ i (by omega)
    omega
  have hoff : ∀ i, i ≤ k → oclOffsets src k P len i = secStart ds i := by
    intro i hi
    unfold oclOffsets
    by_cases h0 : i = 0
    · rw [if_pos h0, h0]; rfl
    · rw [if_neg h0]
      by_cases hik : i < k
      · rw [if_pos hik]
        obtain ⟨rest, hr⟩ := mOffsets_get ds P (i - 1) (by omega)
        rw [show i - 1 + 1 = i by omega] at hr
        have hu : u32At src (12 + 4 * (i - 1)) = some (P + secStart ds i) := by
          unfold u32At
          have hd : src.drop (12 + 4 * (i - 1)) = le32 (P + secStart ds i) ++ (rest ++ (w ++ (ds.flatten ++ tail))) := by
            rw [hsrc]
            have : ∀ (A B : List Byte), A.length = 12 → (A ++ B).drop (12 + 4 * (i - 1)) = B.drop (4 * (i - 1)) := by
              intro A B hA
              rw [← List.drop_drop, ← hA]
              simp
            have h2 := this (le32 len ++ le32 n ++ le32 k) (mOffsets P ds ++ (w ++ (ds.flatten ++ tail))) rfl
            simp only [List.append_assoc] at h2 ⊢
            rw [h2, List.drop_append, hr, List.append_assoc]
            have h3 : 4 * (i - 1) - (mOffsets P ds).length = 0 := by rw [mOffsets_length]; omega
            rw [h3, List.drop_zero]
          rw [hd, rdU32_le32, Option.map_some]
          have := hmono (i - 1) (by omega)
          rw [show i - 1 + 1 = i by omega] at this
          rw [Nat.mod_eq_of_lt (by omega)]
        rw [hu, Option.getD_some]
        have := hmono (i - 1) (by omega)
        rw [show i - 1 + 1 = i by omega] at this
        rw [Nat.mod_eq_of_lt (a := P) (by omega)]
        omega
      · rw [if_neg hik]
        obtain rfl : i = k := by omega
        rw [Nat.mod_eq_of_lt (a := P) (by omega), ← hdk, secStart_all]
        omega
  have hfl : oclFlags y.rle = y.rle := funext (oclFlags_eq y.rle)
  refine ⟨by rw [Nat.mul_comm]; exact Nat.div_mul_le_self n k, ?_, ?_, ?_⟩
  · intro i hi
    obtain ⟨d, rest, _, h2, h3, _⟩ := href.get _ _ _ i (by omega)
    rw [hoff i (by omega), hoff (i + 1) (by omega)]
    omega
  · intro i hi
    rw [hoff (i + 1) (by omega)]
    exact hmono i hi
  · intro i hi
    obtain ⟨d, rest, h1, h2, h3, h4⟩ := href.get _ _ _ i (by omega)
    rw [hoff i (by omega), hoff (i + 1) (by omega), h2, Nat.add_sub_cancel_left, rd_drop h1, hfl, h4, Nat.zero_add]
    by_cases hc : i < k - 1
    · rw [if_pos hc, if_pos (by omega)]
    · rw [if_neg hc, if_neg (by omega)]
      have : i = k - 1 := by omega
      rw [this, Nat.mul_comm]

/-- What `rle8m_opencl_decompress` does with a valid stream, once `rle8m_opencl_init` was called with large enough sizes. -/
theorem oclDecompress_valid {y : LeDInfo} {k : Nat} {src : List Byte} {len : Nat} {inp : Mem} {n : Nat} (h : MStandsBy y k src len inp n)
    (e : OclEnv) (i o s : Nat) (hi : len ≤ i) (ho : n ≤ o) (hs : k ≤ s) (hcalls : e.callsOk = true) (m : Mem) (a : DArgs)
    (hpi : a.pIn = some src) (hin : len ≤ a.inSize) (hpo : a.pOut = some m) (hos : n ≤ a.outSize) (hcap : n ≤ a.cap) :
    ∃ off buf, KSections (oclFlags y.rle) y.toCount buf inp k n (n / k) off ∧
      oclDecompress e (some (i, o, s)) a = (some (i, o, s),
        match kRun (oclFlags y.rle) y.toCount buf o k off e.sched (kInit off (n / k) e.gpu) with
        | none => .ub
        | some g => if ∀ i, i < k → kDone off g i then .ok n (wr m 0 n fun j => g.m j) else .hang) := by
  have hk0 : 0 < k ∧ k < 4294967296 ∧ 0 < n ∧ n < 4294967296 ∧ len < 4294967296 := by
    obtain ⟨w, ds, tail, h0, h1, h2, h3, h4, _⟩ := h
    exact ⟨h0, h1, h2, h3, h4⟩
  obtain ⟨w, ds, tail, hsrc, hy, hdk, hlen, hsec⟩ := ocl_sections h
  obtain ⟨P, hP⟩ : ∃ P, P = 12 + 4 * (k - 1) + w.length := ⟨_, rfl⟩
  rw [← hP] at hlen hsrc hsec
  refine ⟨_, _, hsec, ?_⟩
  have hol := mOffsets_length ds P
  rw [hdk] at hol
  simp only [oclDecompress, hpi, hpo]
  rw [if_neg (by omega)]
  have e1 : rdU32 src = some (len, le32 n ++ (le32 k ++ (mOffsets P ds ++ (w ++ (ds.flatten ++ tail))))) := by
    rw [hsrc]
    simp only [List.append_assoc, rdU32_le32]
    rw [Nat.mod_eq_of_lt (by omega)]
  rw [e1]
  simp only [rdU32_le32]
  rw [Nat.mod_eq_of_lt (by omega), if_neg (by omega), Nat.mod_eq_of_lt (by omega), if_neg (by omega),
    if_neg (by simp only [List.length_append, hol]; omega)]
  have e2 : (mOffsets P ds ++ (w ++ (ds.flatten ++ tail))).drop (4 * (k - 1)) =
      w ++ (ds.flatten ++ tail) := by
    rw [← hol]
    simp
  rw [e2, hy]
  have hsl : src.length = len + tail.length := by
    rw [hsrc]
    simp only [List.length_append, le32_length, hol]
    omega
  have hpos : src.length - (ds.flatten ++ tail).length = P := by
    rw [hsl, List.length_append]
    omega
  have hup : (len + 18446744073709551616 - P) % 18446744073709551616 = ds.flatten.length := by omega
  simp only [hpos, hup]
  rw [if_neg (by omega)]
  have hinit : oclInit e.initOk (some (i, o, s)) ds.flatten.length n k = (some (i, o, s), true, false) := by
    simp only [oclInit]
    rw [if_pos (by omega)]
  rw [hinit]
  simp only [hcalls]
  rw [if_neg (by decide), if_neg (by rw [List.length_append]; omega), List.take_left]
  simp only [Bool.false_eq_true, if_false]
  cases kRun (oclFlags y.rle) y.toCount ds.flatten o k (oclOffsets src k P len) e.sched (kInit (oclOffsets src k P len) (n / k) e.gpu) with
  | none => rfl
  | some g =>
    simp only
    by_cases hd : ∀ i, i < k → kDone (oclOffsets src k P len) g i
    · rw [if_pos hd, if_pos hd, if_pos hcap]
    · rw [if_neg hd, if_neg hd]

/-- C10: `rle8m_opencl_decompress` after `rle8m_opencl_init` with sizes that are large enough. Whatever `rle8m_compress` produced (also with
256 run symbols), whatever order the work-groups run in, and whatever the GPU buffer held before: if the schedule runs every work-group to
its end the input is returned and nothing else is written, and no schedule makes a work-group leave a buffer. -/
theorem C10_opencl_roundtrip (k : Nat) (hk : k < 4294967296) (inp : Mem) (n outSize ret : Nat) (out : List Byte) (hn : 0 < n)
    (hn2 : n < 4294967296) (ho : outSize < 4294967296) (hc : mCompress k (some inp) n true outSize = .ok ret out)
    (e : OclEnv) (i o s : Nat) (hi : out.length ≤ i) (hon : n ≤ o) (hs : k ≤ s) (hcalls : e.callsOk = true)
    (tail : List Byte) (m : Mem) (a : DArgs) (hpi : a.pIn = some (out ++ tail)) (hin : out.length ≤ a.inSize)
    (hpo : a.pOut = some m) (hos : n ≤ a.outSize) (hcap : n ≤ a.cap) :
    (oclDecompress e (some (i, o, s)) a = (some (i, o, s), .hang) ∨
      ∃ m', oclDecompress e (some (i, o, s)) a = (some (i, o, s), .ok n m') ∧ ∀ j, m' j = if j < n then inp j else m j) ∧
    ((∀ g, g < k → n ≤ e.sched.count g) → oclDecompress e (some (i, o, s)) a ≠ (some (i, o, s), .hang)) := by
  obtain ⟨y, _, hst⟩ := mCompress_standsBy hk hn hn2 ho hc tail
  obtain ⟨off, buf, hsec, heq⟩ := oclDecompress_valid hst e i o s hi hon hs hcalls m a hpi hin hpo hos hcap
  have hk0 : 0 < k := hst.choose_spec.choose_spec.choose_spec.1
  obtain ⟨g, h1, h2⟩ := C10_kernel_schedule_independent hsec hk0 hon hn2 e.gpu e.sched
  rw [heq, h1]
  simp only
  by_cases hd : ∀ i, i < k → kDone off g i
  · rw [if_pos hd]
    refine ⟨Or.inr ⟨_, rfl, ?_⟩, fun _ hh => by cases hh⟩
    intro j
    simp only [wr, Nat.zero_add, Nat.zero_le, true_and]
    by_cases hj : j < n
    · rw [if_pos hj, if_pos hj, Nat.sub_zero, h2 hd, if_pos hj]
    · rw [if_neg hj, if_neg hj]
  · rw [if_neg hd]
    refine ⟨Or.inl rfl, ?_⟩
    intro hσ
    obtain ⟨g', e1, e2⟩ := C10_kernel_completes hsec hon hn2 e.gpu e.sched (fun i hi => by
      have := (sec_bounds hsec.fits hi).1
      have := hσ i hi
      omega)
    rw [h1] at e1
    cases e1
    exact absurd e2 hd

/-- C10 is false without initialisation: the first call of `rle8m_opencl_decompress` stores through the NULL pointer
`pSubSectionOffsets`, before it calls `rle8m_opencl_init` itself. -/
theorem C10_uninitialised_violated (k : Nat) (hk : k < 4294967296) (inp : Mem) (n outSize ret : Nat) (out : List Byte) (hn : 0 < n)
    (hn2 : n < 4294967296) (ho : outSize < 4294967296) (hc : mCompress k (some inp) n true outSize = .ok ret out)
    (e : OclEnv) (m : Mem) (a : DArgs) (hpi : a.pIn = some out) (hin : out.length ≤ a.inSize)
    (hpo : a.pOut = some m) (hos : n ≤ a.outSize) : oclDecompress e none a = (none, .ub) := by
  obtain ⟨y, _, w, ds, tail, hk0, _, _, _, hl, hlen, hsrc, hy, href⟩ := mCompress_standsBy hk hn hn2 ho hc []
  rw [List.append_nil] at hsrc
  obtain ⟨P, hP⟩ : ∃ P, P = 12 + 4 * (k - 1) + w.length := ⟨_, rfl⟩
  rw [← hP] at hlen hsrc
  have hol := mOffsets_length ds P
  rw [href.length] at hol
  simp only [oclDecompress, hpi, hpo]
  rw [if_neg (by omega)]
  have e1 : rdU32 out = some (out.length, le32 n ++ (le32 k ++ (mOffsets P ds ++ (w ++ (ds.flatten ++ tail))))) := by
    obtain ⟨L, hL⟩ : ∃ L, L = out.length := ⟨_, rfl⟩
    rw [← hL] at hsrc hl ⊢
    rw [hsrc]
    simp only [List.append_assoc, rdU32_le32]
    rw [Nat.mod_eq_of_lt (by omega)]
  rw [e1]
  simp only [rdU32_le32]
  rw [Nat.mod_eq_of_lt (by omega), if_neg (by omega), Nat.mod_eq_of_lt (by omega), if_neg (by omega),
    if_neg (by simp only [List.length_append, hol]; omega)]
  have e2 : (mOffsets P ds ++ (w ++ (ds.flatten ++ tail))).drop (4 * (k - 1)) =
      w ++ (ds.flatten ++ tail) := by
    rw [show 4 * (k - 1) = (mOffsets P ds).length by omega]
    simp
  rw [e2, hy]

/-- Environment in which everything works, the GPU buffer holds 7s and a new allocation holds 0s. -/
def env7 (σ : List Nat) : OclEnv := ⟨true, true, σ, fun _ => 7, fun _ => 0⟩

theorem ocl_stale : (match (oclDecompress (env7 [0, 0, 0]) (some (1, 1, 1)) ⟨some trailStream, trailStream.length, some (fun _ => 0), 3, 3, 0, 0⟩).2 with
    | .ok r m => decide (r = 3 ∧ m 0 = 7 ∧ m 1 = 7 ∧ m 2 = 7)
    | _ => false) = true := by
  decide +kernel

/-- C10 is also false if `rle8m_opencl_init` was called with sizes that are too small: `rle8m_opencl_decompress` initialises again, and the
offsets it has just computed are lost with the old allocation. The call claims success, but the output is not the input (here: `0 0 0`, while
the buffer holds what was in the GPU buffer). -/
theorem C10_reinit_violated :
    mCompress 1 (some fun _ => 0) 3 true 1000 = .ok trailStream.length trailStream ∧
    ∃ m', (oclDecompress (env7 [0, 0, 0]) (some (1, 1, 1))
        ⟨some trailStream, trailStream.length, some (fun _ => 0), 3, 3, 0, 0⟩).2 = .ok 3 m' ∧ m' 0 = 7 := by
  refine ⟨trailStream_eq, ?_⟩
  have := ocl_stale
  split at this
  · next r m h =>
    simp only [decide_eq_true_eq] at this
    refine ⟨m, ?_, this.2.1⟩
    rw [h, this.1]
  · cases this

/-- The hypotheses of `C10_opencl_roundtrip` are met: three sections of `sampleInp`, a schedule that interleaves them. -/
example : ∃ ret out, mCompress 3 (some sampleInp) 60 true 500 = .ok ret out ∧ out.length ≤ 500 ∧
    ∀ g, g < 3 → 60 ≤ ((List.range 60).flatMap fun _ => [2, 0, 1]).count g := by
  obtain ⟨out, h1, h2⟩ := C20_rle8m_partial 3 sampleInp 60 500 (by omega) (by omega) (by omega) (by omega)
  exact ⟨_, out, h1, h2, by decide +kernel⟩

/-! ### C25 -/

/-- C25: the OpenCL decompressor refuses the same arguments and streams as the others before it touches the device, and
leaves its buffers on the device as they are. -/
theorem C25_opencl_guards (e : OclEnv) (st : OclSt) :
    DecompressGuardsRev (fun a => (oclDecompress e st a).2) ∧
      (∀ a x y rest, x < 4294967296 → y < 4294967296 → a.pIn = some (le32 y ++ le32 x ++ le32 0 ++ rest) →
        (oclDecompress e st a).2 = .fail) ∧
      (∀ a x y rest, x < 4294967296 → y < 4294967296 → a.pIn = some (le32 y ++ le32 x ++ rest) →
        x > a.outSize ∨ y > a.inSize → (oclDecompress e st a).1 = st) := by
  refine ⟨⟨?_, ?_⟩, ?_, ?_⟩
  · intro a h
    simp only [oclDecompress]
    split
    · rfl
    · rfl
    next src m hpi hpo =>
    rw [if_pos]
    rcases h with h | h | h | h
    · rw [hpi] at h; cases h
    · rw [hpo] at h; cases h
    · exact Or.inl h
    · exact Or.inr h
  · intro a x y rest hx hy hpi h
    simp only [oclDecompress, hpi]
    split
    · next h => cases h
    · rfl
    next src m hs hpo =>
    cases hs
    by_cases h0 : a.inSize = 0 ∨ a.outSize = 0
    · rw [if_pos h0]
    · rw [if_neg h0]
      simp only [List.append_assoc, rdU32_le32]
      rw [Nat.mod_eq_of_lt hx, Nat.mod_eq_of_lt hy, if_pos (by omega)]
  · intro a x y rest hx hy hpi
    simp only [oclDecompress, hpi]
    split
    · next h => cases h
    · rfl
    next src m hs hpo =>
    cases hs
    by_cases h0 : a.inSize = 0 ∨ a.outSize = 0
    · rw [if_pos h0]
    · rw [if_neg h0]
      simp only [List.append_assoc, rdU32_le32]
      split
      · rfl
      · rfl
  · intro a x y rest hx hy hpi h
    simp only [oclDecompress, hpi]
    split
    · next h => cases h
    · rfl
    next src m hs hpo =>
    cases hs
    by_cases h0 : a.inSize = 0 ∨ a.outSize = 0
    · rw [if_pos h0]
    · rw [if_neg h0]
      simp only [List.append_assoc, rdU32_le32]
      rw [Nat.mod_eq_of_lt hx, Nat.mod_eq_of_lt hy, if_pos (by omega)]

example : (oclDecompress (env7 [0, 0, 0]) (some (1, 1, 1)) ⟨some trailStream, trailStream.length, some (fun _ => 0), 2, 3, 0, 0⟩).2 = .fail :=
  (C25_opencl_guards _ _).1.2 _ 3 (trailStream.length) (trailStream.drop 8) (by decide) (by decide +kernel) (by decide +kernel) (by decide)

end Hrk
