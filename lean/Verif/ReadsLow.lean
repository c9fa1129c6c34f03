import Verif.Reads
import Verif.RleShApi
import Verif.LowEntropyApi

/-
What the low entropy compressors, `rle8_sh_compress` and `rle8_mmtf128_compress` read of their input, access by access. Used by C63.
-/

namespace Hrk

/-! ### The model -/

/-- The end of what a round of `leLoopStep` reads: `pIn[i]` and, for a symbol with runs, `pIn[i + 1]` up to the first other byte, in the
worst case `pIn[i + range - 1]` (src/rle8_low_entropy_cpu.c:488-539, src/rle8_low_entropy_short_cpu.c:142-193). -/
def reachLe (blk : Nat) (x : LeInfo) (inp : Mem) (n : Nat) (s : Nat × List Byte) : Nat :=
  let upto (range : Nat) : Nat :=
    if x.rle (inp s.1) then s.1 + 1 + min (leMatch inp (inp s.1) (s.1 + 1) (range - 1) + 1) (range - 1) else s.1 + 1
  if s.1 < n - 256 then upto blk else if s.1 < n then upto (min (n - s.1 - 1) blk) else 0

/-- `LeCfg.compress` where only `lim` bytes may be read at `pIn`; the counts of the symbols read every byte once
(src/rle8_low_entropy_cpu.c:277-297). -/
def LeCfg.compressIn (c : LeCfg) (lim : Nat) : Compress :=
  fun pIn inSize pOut outSize =>
    match pIn with
    | none => .fail
    | some inp =>
      if inSize = 0 ∨ pOut = false ∨ outSize < leBounds inSize then .fail
      else if lim < inSize then .ub
      else
        let x := c.info inp inSize
        let w := writeInfo x
        if outSize < 8 then .ub
        else if outSize < 256 / 8 + 256 + 1 then .giveUp
        else if outSize < 8 + w.length then .ub
        else if (outSize - (8 + w.length)) % 4294967296 < inSize then .giveUp
        else
          match (loop (guardR (reachLe c.blk x inp inSize) lim fun s => (leLoopStep c.blk x inp inSize s).map id some) (inSize + 1) (0, [])).join with
          | none => .ub
          | some d =>
            if 8 + w.length + d.length ≤ outSize then
              .ok ((8 + w.length + d.length) % 4294967296)
                (le32 (8 + w.length + d.length) ++ le32 inSize ++ w ++ d)
            else .ub

/-- The end of what `rle8_sh_copy` and `rle8_sh_encoded_copy` read: nothing at all of an empty block (src/rle_sh.c:98-267). -/
def reachCopy (start cnt : Nat) : Nat := if cnt = 0 then 0 else start + cnt

/-- The end of what the round for `pIn[i]` of `rle8_sh_compress` reads: that byte, and what is copied from `pBlockStart`
(src/rle_sh.c:302-411). -/
def reachSh (inp : Mem) (i : Nat) (s : ShEnc) : Nat :=
  max (i + 1)
    (if inp i = s.lastRle then
      if s.same = false then (if 10 ≤ s.change then reachCopy s.start (subU s.copy s.change) else 0)
      else (if 14 < s.rle + 1 then reachCopy s.start s.copy else 0)
    else if inp i ≠ (shMerge s).lastSym ∧ 10 ≤ (shMerge s).change then
      reachCopy (shMerge s).start (subU (shMerge s).copy (shMerge s).change)
    else 0)

/-- `shLoopE` where only `lim` bytes may be read (src/rle_sh.c:300-449). -/
def shLoopIn (inp : Mem) (lim : Nat) : Nat → Option ShEnc
  | 0 => some shInit
  | n + 1 => (shLoopIn inp lim n).bind fun s => if reachSh inp n s ≤ lim then some (shStepE inp n s) else none

/-- `shOps` where only `lim` bytes may be read (src/rle_sh.c:300-490). -/
def shOpsIn (inp : Mem) (n lim : Nat) : Option (List ShOp) :=
  (shLoopIn inp lim n).bind fun s =>
    if s.wasCopy = true then
      if reachCopy (shMerge s).start (shMerge s).copy ≤ lim then
        some (s.ops ++ (shCopy (shMerge s).lastRle (rd inp (shMerge s).start (shMerge s).copy) (shMerge s).st).1 ++ [.bits 0b0111111 7, .bytes (le32 0)])
      else none
    else some (s.ops ++ shRun s.lastRle s.rle ++ [.bits 0b0111111 7, .bytes (le32 0)])

/-- `shCompress` where only `lim` bytes may be read at `pIn` (src/rle_sh.c:269-505). -/
def shCompressIn (m : Mem) (lim : Nat) : Compress :=
  fun pIn inSize pOut outSize =>
    match pIn with
    | none => .fail
    | some inp =>
      if inSize = 0 ∨ pOut = false ∨ outSize < mmBounds inSize then .fail
      else
        match shOpsIn inp inSize lim with
        | none => .ub
        | some ops =>
          let s := ops.foldl (ShSink.op outSize) (shSink0 m inSize outSize)
          let hs := if s.nb = 0 then s.hs - 1 else s.hs
          let ph := if s.nb = 0 then s.ph + 1 else s.ph
          let m1 := wrL s.m s.p (rd s.m ph hs)
          let total := (s.p + hs) % 4294967296
          if s.bad = true ∨ outSize < s.p + hs then .ub else .ok total (rd (wrL m1 4 (le32 total)) 0 (s.p + hs))

/-- `meLoop` where only `lim` bytes may be read: each round loads 16 bytes (src/rle8_mmtf.c:190-446). -/
def meLoopIn (inp : Mem) (lim : Nat) : Nat → Nat → MEnc → Option MEnc
  | _, 0, s => some s
  | i, k + 1, s =>
    if 16 * i + 16 ≤ lim then
      match mtfBlock false 1 16 s.hist (rd inp (16 * i) 16) with
      | none => none
      | some (h, o) => meLoopIn inp lim (i + 1) k (meOut s h o)
    else none

/-- `mmCompress` where only `lim` bytes may be read at `pIn`; the bytes behind the last block are read one by one
(src/rle8_mmtf.c:153-647). -/
def mmCompressIn (junk : Vec) (m : Mem) (lim : Nat) : Compress :=
  fun pIn inSize pOut outSize =>
    match pIn with
    | none => .fail
    | some inp =>
      if inSize = 0 ∨ pOut = false ∨ outSize < mmBounds inSize then .fail
      else
        match meLoopIn inp lim 0 (inSize / 16) (meInit junk m inSize) with
        | none => .ub
        | some s =>
          if 16 * (inSize / 16) + inSize % 16 ≤ lim then
            let r := meFinish s (rd inp (16 * (inSize / 16)) (inSize % 16))
            if r.1.hi ≤ outSize then .ok (r.2 % 4294967296) (rd r.1.m 0 r.2) else .ub
          else .ub

/-! ### They stay inside -/

theorem reachLe_le {blk : Nat} (hb : blk ≤ 255) (x : LeInfo) (inp : Mem) (n : Nat) (s : Nat × List Byte) : reachLe blk x inp n s ≤ n := by
  unfold reachLe
  dsimp only
  split
  · split <;> omega
  · split
    · split <;> omega
    · omega

theorem LeCfg.compressIn_eq (c : LeCfg) (pIn : Option Mem) {n lim : Nat} (h : n ≤ lim) (pOut : Bool) (outSize : Nat) :
    c.compressIn lim pIn n pOut outSize = c.compress pIn n pOut outSize := by
  unfold LeCfg.compressIn LeCfg.compress
  cases pIn with
  | none => rfl
  | some inp =>
    dsimp only
    by_cases hg : n = 0 ∨ pOut = false ∨ outSize < leBounds n
    · rw [if_pos hg, if_pos hg]
    · rw [if_neg hg, if_neg hg, if_neg (by omega)]
      have hb : c.blk ≤ 255 := by unfold LeCfg.blk; split <;> omega
      have e : ∀ s, guardR (reachLe c.blk (c.info inp n) inp n) lim (fun s => (leLoopStep c.blk (c.info inp n) inp n s).map id some) s =
          (leLoopStep c.blk (c.info inp n) inp n s).map id some := by
        intro s
        unfold guardR
        rw [if_pos (Nat.le_trans (reachLe_le hb _ _ _ _) h)]
      have : (loop (guardR (reachLe c.blk (c.info inp n) inp n) lim fun s => (leLoopStep c.blk (c.info inp n) inp n s).map id some) (n + 1) (0, [])).join
          = leEncode c.blk (c.info inp n) inp n := by
        unfold leEncode
        exact loop_map (fun _ => True) (fun s _ => ⟨e s, fun _ _ => trivial⟩) _ _ trivial
      rw [this]
      cases hl : leEncode c.blk (c.info inp n) inp n with
      | none =>
        exfalso
        have hbc := c.blk_cases
        obtain ⟨y, _, _, hy3⟩ := C34_info_roundtrip c inp n []
        obtain ⟨d, hd, _⟩ := leEncode_spec (cnt := y.toCount) (mx := c.blk - 1) (x := c.info inp n) (inp := inp) (n := n) (blk := c.blk)
          (by omega) (by omega) (by omega) hy3
        rw [hl] at hd
        cases hd
      | some d => rfl

theorem reachCopy_le {a b e : Nat} (h : b = 0 ∨ a + b ≤ e) : reachCopy a b ≤ e := by
  unfold reachCopy
  split <;> omega

theorem reachSh_le {inp : Mem} {i : Nat} {s : ShEnc} (W : ShWithin i s) : reachSh inp i s ≤ i + 1 := by
  have hc : s.copy = 0 ∨ s.start + s.copy + s.rle ≤ i := by
    cases hw : s.wasCopy with
    | false => exact Or.inl (W.run hw).1
    | true => exact Or.inr (W.copy hw).1
  have hch : s.change ≤ s.copy := by
    cases hw : s.wasCopy with
    | false => have := W.run hw; omega
    | true => exact (W.copy hw).2
  have hsub := subU_le hch
  have hm : (shMerge s).change ≤ (shMerge s).copy ∧ ((shMerge s).copy = 0 ∨ (shMerge s).start + (shMerge s).copy ≤ i) := by
    unfold shMerge
    split
    · rename_i hw
      have := W.copy hw.2
      dsimp only
      omega
    · omega
  have hsub2 := subU_le hm.1
  unfold reachSh
  refine Nat.max_le.2 ⟨Nat.le_refl _, ?_⟩
  have z := Nat.zero_le (i + 1)
  have k1 : reachCopy s.start (subU s.copy s.change) ≤ i + 1 := reachCopy_le (by omega)
  have k2 : reachCopy s.start s.copy ≤ i + 1 := reachCopy_le (by omega)
  have k3 : reachCopy (shMerge s).start (subU (shMerge s).copy (shMerge s).change) ≤ i + 1 := reachCopy_le (by omega)
  repeat' split
  all_goals assumption

theorem shLoopIn_eq {inp : Mem} {lim : Nat} : ∀ n, n ≤ lim → shLoopIn inp lim n = some (shLoopE inp n) := by
  intro n
  induction n with
  | zero => intro _; rfl
  | succ n ih =>
    intro h
    have W := (shLoopE_within (inp := inp) (inp' := inp) n (fun _ _ => rfl)).2
    unfold shLoopIn
    rw [ih (by omega)]
    show (if reachSh inp n (shLoopE inp n) ≤ lim then some (shStepE inp n (shLoopE inp n)) else none) = _
    rw [if_pos]
    · rfl
    · exact Nat.le_trans (reachSh_le W) h

theorem shCompressIn_eq (m : Mem) (pIn : Option Mem) {n lim : Nat} (h : n ≤ lim) (pOut : Bool) (outSize : Nat) :
    shCompressIn m lim pIn n pOut outSize = shCompress m pIn n pOut outSize := by
  have key : ∀ inp, shOpsIn inp n lim = some (shOps inp n) := by
    intro inp
    have W := (shLoopE_within (inp := inp) (inp' := inp) n (fun _ _ => rfl)).2
    unfold shOpsIn shOps
    rw [shLoopIn_eq n h]
    simp only [Option.bind_some]
    by_cases hw : (shLoopE inp n).wasCopy = true
    · rw [if_pos hw, if_pos hw, if_pos]
      have := W.copy hw
      refine reachCopy_le (Or.inr ?_)
      unfold shMerge
      by_cases hs : (shLoopE inp n).same = true
      · rw [if_pos ⟨hs, hw⟩]
        show (shLoopE inp n).start + ((shLoopE inp n).copy + (shLoopE inp n).rle) ≤ lim
        omega
      · rw [if_neg (by rintro ⟨h, _⟩; exact hs h)]
        omega
    · rw [if_neg hw, if_neg hw]
  unfold shCompressIn shCompress
  cases pIn with
  | none => rfl
  | some inp =>
    dsimp only
    rw [key]

theorem meLoopIn_eq {inp : Mem} {lim : Nat} : ∀ k i s, 16 * (i + k) ≤ lim → meLoopIn inp lim i k s = meLoop inp i k s := by
  intro k
  induction k with
  | zero => intro i s _; rfl
  | succ k ih =>
    intro i s h
    unfold meLoopIn meLoop
    rw [if_pos (by omega)]
    cases mtfBlock false 1 16 s.hist (rd inp (16 * i) 16) with
    | none => rfl
    | some r => exact ih _ _ (by omega)

theorem mmCompressIn_eq (junk : Vec) (m : Mem) (pIn : Option Mem) {n lim : Nat} (h : n ≤ lim) (pOut : Bool) (outSize : Nat) :
    mmCompressIn junk m lim pIn n pOut outSize = mmCompress junk m pIn n pOut outSize := by
  unfold mmCompressIn mmCompress
  cases pIn with
  | none => rfl
  | some inp =>
    dsimp only
    rw [meLoopIn_eq _ _ _ (by omega)]
    cases meLoop inp 0 (n / 16) (meInit junk m n) with
    | none => rfl
    | some s =>
      dsimp only
      rw [if_pos (by omega : 16 * (n / 16) + n % 16 ≤ lim)]

end Hrk
