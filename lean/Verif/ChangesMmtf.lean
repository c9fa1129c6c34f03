import Verif.Rle8MmtfApi
import Verif.PropsChanges

/-
The size of a rle8_mmtf128 stream: blocks that repeat the block before them cost nothing.
-/

namespace Hrk

/-- A block moves its bytes to the front of the history; if they are there already, the transformed block is zero. -/
theorem block_front {h h' : Nat → Vec} {blk o : List Byte} (hg : HGood h) (hb : mtfBlock false 1 16 h blk = some (h', o)) :
    (∀ j, j < 16 → h' 0 j = vload blk j) ∧ ((∀ j, j < 16 → vload blk j = h 0 j) → o = List.replicate 16 0) := by
  obtain ⟨T, hT⟩ := hg
  have ht : ∀ j, j < 16 → (T j).idxOf (vload blk j) < 256 := fun j hj => (hT j hj).idx_lt _
  obtain ⟨he', o', h1, h2, h3, h4⟩ := mtfBlock_spec (dec := false) (parts := 1) (w := 16) (h := h) (blk := blk)
    (t := fun j => (T j).idxOf (vload blk j)) (by omega) (by
      intro j hj
      refine ⟨ht j (by omega), fun r hr => ?_⟩
      simp only [Bool.false_eq_true, if_false]
      exact (hT j (by omega)).match_iff _ hr)
  rw [h1] at hb
  simp only [Option.some.injEq, Prod.mk.injEq] at hb
  obtain ⟨rfl, rfl⟩ := hb
  constructor
  · intro j hj
    rw [h4 0 j (by omega)]
    unfold mtfMoved
    rw [if_pos rfl]
    exact (((hT j hj).match_iff _ (ht j hj)).mpr rfl).symm
  · intro hz
    apply List.ext_getElem (by simp; omega)
    intro j hj hj'
    have h9 := h3 j (by omega)
    rw [getD_of_lt _ _ hj] at h9
    rw [h9]
    have h0 := ((hT j (by omega)).match_iff (vload blk j) (r := 0) (by omega)).mp (hz j (by omega))
    simp only [mtfGot, Bool.false_eq_true, if_false, List.getElem_replicate]
    rw [← h0]; rfl

/-- What the stream takes so far, with what is still due however the input goes on. -/
def mmDue (s : MEnc) : Nat := if s.copying then s.pOut + 5 else if s.symbol = 0 then s.last + 5 else s.last + 11

theorem mmDue_ge (s : MEnc) : (s.copying = true → s.pOut + 5 ≤ mmDue s) ∧ (s.copying = false → s.last + 5 ≤ mmDue s) := by
  unfold mmDue
  constructor <;> intro h <;> rw [h]
  · simp
  · simp only [Bool.false_eq_true, if_false]; split <;> omega

theorem closeRle_end (b : Buf) (last count : Nat) (x : Byte) : (closeRle b last count x).2 ≤ last + 5 := by
  unfold closeRle
  split
  · show last + 2 ≤ _; omega
  · exact Nat.le_refl _

/-- One block. -/
theorem EInv.due {inp : Mem} {n : Nat} {s : MEnc} {i : Nat} {W X Y : List Byte} {hc : Nat → Vec} {xs : List (List Byte)}
    (H : EInv inp n s i W X Y hc xs) (hi : i < 268435456) (h : Nat → Vec) {o : List Byte} (hol : o.length = 16) :
    mmDue (meOut s h o) ≤ mmDue s + if o = List.replicate 16 0 then 0 else 25 := by
  have hlen := H.len
  have hz : o = List.replicate 16 0 → allEq 0 (vload o) = true ∧ o.getD 0 0 = 0 := by
    intro h; exact ⟨(allEq_iff hol).mpr h, by rw [h]; rfl⟩
  obtain ⟨d1, d2⟩ := mmDue_ge s
  unfold meOut
  by_cases hcp : s.copying = true
  · rw [if_pos hcp]
    have d1 := d1 hcp
    obtain ⟨hp, hrd, hmask, hW⟩ := H.copy hcp
    obtain ⟨V, hV⟩ := closeCopy_spec (b := s.b) H.blocks H.count hrd hmask (by omega)
    rw [← hp] at hV
    have h1 := hV.pOut_eq
    have h2 := hV.len
    by_cases hu : allEq (o.getD 0 0) (vload o) = true
    · rw [if_pos hu]
      unfold mmDue
      simp only [Bool.false_eq_true, if_false, hcp, if_true]
      split
      · split <;> omega
      · rename_i hs
        rw [if_neg (fun e => hs (hz e).2)]
        omega
    · rw [if_neg hu]
      unfold mmDue
      simp only [hcp, if_true]
      rw [if_neg (fun e => hu (by rw [(hz e).2]; exact (hz e).1))]
      omega
  · rw [if_neg hcp]
    have hcf : s.copying = false := by simpa using hcp
    have d2 := d2 hcf
    by_cases he : allEq s.symbol (vload o) = true
    · rw [if_pos he]
      unfold mmDue
      simp only [hcf, Bool.false_eq_true, if_false]
      split <;> omega
    · rw [if_neg he]
      have hr := closeRle_end s.b s.last s.count s.symbol
      have hs0 : o = List.replicate 16 0 → s.symbol ≠ 0 := fun e h0 => he (by rw [h0]; exact (hz e).1)
      by_cases hu : allEq (o.getD 0 0) (vload o) = true
      · simp only
        rw [if_pos hu]
        by_cases ho : o = List.replicate 16 0
        · have hd : mmDue s = s.last + 11 := by
            unfold mmDue
            simp only [hcf, Bool.false_eq_true, if_false]
            rw [if_neg (hs0 ho)]
          rw [hd, if_pos ho]
          unfold mmDue
          simp only [hcf, Bool.false_eq_true, if_false]
          rw [if_pos (hz ho).2]
          omega
        · rw [if_neg ho]
          generalize mmDue s = D at *
          unfold mmDue
          simp only [hcf, Bool.false_eq_true, if_false]
          split <;> omega
      · simp only
        rw [if_neg hu, if_neg (fun e => hu (by rw [(hz e).2]; exact (hz e).1))]
        generalize mmDue s = D at *
        unfold mmDue
        simp only [if_true]
        omega

/-- Is there a change in block `i`? -/
theorem cn_block (p : Nat → Bool) (i : Nat) {j : Nat} (hj : j < 16) (h : p (16 * i + j) = true) : cn p (16 * i) + 1 ≤ cn p (16 * (i + 1)) :=
  cn_lt p (by omega) (by omega) h

/-- All blocks. -/
theorem meLoop_due {inp : Mem} {n : Nat} : ∀ (k i : Nat) (s : MEnc) (W X Y : List Byte) (hc : Nat → Vec) (xs : List (List Byte)),
    EInv inp n s i W X Y hc xs → i + k ≤ 268435456 →
    (0 < i → ∀ j, j < 16 → s.hist 0 j = inp (16 * (i - 1) + j)) →
    ∀ s', meLoop inp i k s = some s' →
      mmDue s' + 25 * cn (fun j => inp j != inp (j + 16)) (16 * (i - 1)) ≤
        mmDue s + 25 * cn (fun j => inp j != inp (j + 16)) (16 * (i + k - 1)) + if i = 0 ∧ 0 < k then 25 else 0
  | 0, i, s, W, X, Y, hc, xs, H, _, _, s', h => by
    simp only [meLoop, Option.some.injEq] at h
    subst h
    rw [Nat.add_zero]; omega
  | k + 1, i, s, W, X, Y, hc, xs, H, hk, hf, s', hl => by
    obtain ⟨h, o, h1, W', X', Y', hc', xs', H'⟩ := H.step (by omega)
    obtain ⟨g1, g2⟩ := block_front H.good h1
    obtain ⟨h'', o'', e1, hol, _, _⟩ := block_rt H.good (blk := rd inp (16 * i) 16) (by simp)
    rw [h1] at e1
    simp only [Option.some.injEq, Prod.mk.injEq] at e1
    obtain ⟨rfl, rfl⟩ := e1
    have hd := H.due (by omega) h hol
    rw [meLoop, h1] at hl
    have hv : ∀ j, j < 16 → vload (rd inp (16 * i) 16) j = inp (16 * i + j) := by
      intro j hj
      unfold vload
      rw [getD_of_lt _ _ (by simp; omega)]
      simp [rd]
    have hhist : (meOut s h o).hist = h := by
      unfold meOut
      split
      · split <;> rfl
      · split
        · rfl
        · simp only; split <;> rfl
    have ih := meLoop_due k (i + 1) _ W' X' Y' hc' xs' H' (by omega) (by
      intro _ j hj
      rw [hhist, g1 j hj, hv j hj]; rfl) s' hl
    rw [if_neg (show ¬ (i + 1 = 0 ∧ 0 < k) by omega), show i + 1 - 1 = i by omega, show i + 1 + k - 1 = i + (k + 1) - 1 by omega] at ih
    generalize hp : (fun j => inp j != inp (j + 16)) = p at *
    by_cases hi : i = 0
    · subst hi
      rw [if_pos ⟨rfl, by omega⟩]
      simp only [Nat.zero_sub, Nat.mul_zero, Nat.zero_add] at *
      split at hd <;> omega
    · rw [if_neg (by omega)]
      by_cases hz : o = List.replicate 16 0
      · rw [if_pos hz] at hd
        have := cn_mono p (show 16 * (i - 1) ≤ 16 * i by omega)
        omega
      · rw [if_neg hz] at hd
        have hex : ∃ j, j < 16 ∧ inp (16 * (i - 1) + j) ≠ inp (16 * i + j) := by
          apply Classical.byContradiction
          intro hne
          apply hz
          apply g2
          intro j hj
          rw [hv j hj, hf (by omega) j hj]
          apply Classical.byContradiction
          intro hc
          exact hne ⟨j, hj, fun e => hc e.symm⟩
        obtain ⟨j, hj, hne⟩ := hex
        have hpj : p (16 * (i - 1) + j) = true := by
          rw [← hp]
          simp only [bne_iff_ne, ne_eq]
          rw [show 16 * (i - 1) + j + 16 = 16 * i + j by omega]
          exact hne
        have := cn_block p (i - 1) hj hpj
        rw [show i - 1 + 1 = i by omega] at this
        omega

/-! ### C48 -/

/-- C48 for `rle8_mmtf128_compress`: at most 25 bytes for every byte that differs from the one 16 bytes behind it. -/
theorem C48_mmtf128_changes (junk : Vec) (m0 inp : Mem) (n outSize ret : Nat) (out : List Byte) (hn : n < 4294967296)
    (he : mmCompress junk m0 (some inp) n true outSize = .ok ret out) : out.length ≤ 25 * changes 16 inp n + 59 := by
  unfold mmCompress at he
  simp only at he
  split at he
  · cases he
  obtain ⟨s, h1, W, X, Y, hcc, xs, H⟩ := meLoop_spec (n / 16) 0 _ _ _ _ _ _ (EInv.init junk m0 inp n) (by omega)
  have hdue := meLoop_due (n / 16) 0 _ _ _ _ _ _ (EInv.init junk m0 inp n) (by omega) (fun h => absurd h (Nat.lt_irrefl 0)) s h1
  rw [h1] at he
  simp only at he
  split at he
  · simp only [CRes.ok.injEq] at he
    obtain ⟨_, rfl⟩ := he
    rw [rd_length]
    have hfin : (meFinish s (rd inp (16 * (n / 16)) (n % 16))).2 ≤ mmDue s + 17 := by
      have htl : (mtfTailEnc s.hist 0 (rd inp (16 * (n / 16)) (n % 16))).length = n % 16 := by
        rw [(tail_rt H.good (HSame.refl _) (rd inp (16 * (n / 16)) (n % 16)) 0 [] (by rw [rd_length]; omega)).1, rd_length]
      obtain ⟨d1, d2⟩ := mmDue_ge s
      have hlen := H.len
      unfold meFinish
      simp only
      rw [htl]
      by_cases hcp : s.copying = true
      · rw [if_pos hcp]
        obtain ⟨hp, hrd, hmask, hW⟩ := H.copy hcp
        obtain ⟨V, hV⟩ := closeCopy_spec (b := s.b) H.blocks H.count hrd hmask (by omega)
        rw [← hp] at hV
        have h1 := hV.pOut_eq
        have h2 := hV.len
        have := d1 hcp
        simp only
        omega
      · rw [if_neg hcp]
        have := d2 (by simpa using hcp)
        have hr := closeRle_end s.b s.last s.count s.symbol
        simp only
        omega
    have h0 : mmDue (meInit junk m0 n) = 17 := rfl
    have hle : cn (fun j => inp j != inp (j + 16)) (16 * (0 + n / 16 - 1)) ≤ changes 16 inp n :=
      cn_mono _ (by omega)
    rw [h0] at hdue
    simp only [Nat.zero_sub, Nat.mul_zero, cn_zero] at hdue
    split at hdue <;> omega
  · cases he

/-- A constant input of any length, compressed with as much room as it asks for, takes at most 59 bytes. -/
example (junk : Vec) (m0 : Mem) (n : Nat) (h0 : 0 < n) (hn : n ≤ maxInput) :
    ∃ out, mmCompress junk m0 (some fun _ => 7) n true (n + 16) = .ok out.length out ∧ out.length ≤ 59 := by
  obtain ⟨out, h, _⟩ := C20_mmtf128_partial junk m0 (fun _ => 7) n (n + 16) h0 hn (by omega) 
  refine ⟨out, h, ?_⟩
  have h1 := C48_mmtf128_changes junk m0 _ n _ _ out (by unfold maxInput at hn; omega) h
  have h2 : changes 16 (fun _ => 7) n = 0 := by simp [changes]
  omega

end Hrk
