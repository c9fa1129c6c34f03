import Verif.Work
import Verif.Table
import Verif.PropsSize
import Verif.RleShTight
import Verif.Rle8Mmtf

/-
How much the compressors do before they return: rounds of their scanning loops and bytes they write. Used by C62.
-/

namespace Hrk

/-! ### The model -/

/-- A round of a scanner: itself (it looks at no more than two vectors, and at a run of less than 11 bytes when
`replay` counts it again) and the bytes it appends to the output (e.g. src/rleX_extreme_cpu_encode.h:46-382). -/
def roundWork {α ρ : Type} (len : α → Nat) (step : α → α ⊕ ρ) (s : α) : Nat :=
  1 + match step s with
  | .inl s' => len s' - len s
  | .inr _ => 0

/-- What a scanner does in its first `t` rounds (all of them if there are fewer). -/
def scanWork {σ : Type} (step : ES σ → ES σ ⊕ Option (ES σ)) (t : Nat) (s : ES σ) : Nat :=
  work (roundWork (fun s => s.out.length) step) step t s

/-- The same for the scanner that goes back (src/rle8_extreme_cpu.h:383-510, 1103-1321). -/
def scanWorkW {σ : Type} (step : WS σ → WS σ ⊕ Option (WS σ)) (t : Nat) (s : WS σ) : Nat :=
  work (roundWork (fun s => s.es.out.length) step) step t s

/-- `runXI` (src/rleX_extreme_cpu_encode.h:26-382). -/
def workXI {σ : Type} (F : Fmt σ) (S : Nat) (k : Simd) (unb : Bool) (inp : Mem) (n t : Nat) : Nat :=
  scanWork (stepXI F.emit S k unb inp n) t ⟨.top, 0, 0, 0, (rd inp 0 S).map (fun b => ~~~ b), F.init, []⟩

/-- `run128I` (src/rle128_extreme_cpu.h:43-281). -/
def work128I {σ : Type} (F : Fmt σ) (unb : Bool) (inp : Mem) (n t : Nat) : Nat :=
  scanWork (step128I F.emit unb inp n) t ⟨.top, 0, 0, 0, rd inp 0 16, F.init, []⟩

/-- `run8TI` (src/rleX_Xsl.h:289, src/rleX_Xsl_short.h:411, src/rle8_extreme_cpu.h:102). -/
def work8TI {σ : Type} (F : Fmt σ) (emitT : Emit σ) (k : Simd) (inp : Mem) (n t : Nat) : Nat :=
  scanWork (step8I F.emit emitT k inp n) t ⟨.top, 0, 0, 0, [~~~ inp 0], F.init, []⟩

/-- `runS8I` (src/rleX_Xsl_short.h:418-455). -/
def workS8I {σ : Type} (F : Fmt σ) (fs0 : Mem → Nat → σ) (minR : Nat) (sym : Mem → Nat → Byte) (inp : Mem) (n t : Nat) : Nat :=
  scanWork (stepS8I F.emit minR inp n) t ⟨.top, 0, 0, 0, [sym inp n], fs0 inp n, []⟩

/-- `runGI` (src/rleX_Xsl_short.h:775-989). -/
def workGI (F : Fmt Lut) (S : Nat) (inp : Mem) (n t : Nat) : Nat :=
  scanWork (stepGI F.emit S inp n) t ⟨.top, 0, 0, 0, (rd inp 0 S).map (fun b => ~~~ b), F.init, []⟩

/-- `runWI` (src/rle8_extreme_cpu.h:383-510, 1103-1321). -/
def workWI {σ : Type} (emit emitT : Emit σ) (force : Nat → Nat → List Byte) (short : Nat) (fs0 : Mem → Nat → σ)
    (sym : Mem → Nat → Byte) (inp : Mem) (n t : Nat) : Nat :=
  scanWorkW (stepWI emit emitT force short inp n) t ⟨⟨.top, 0, 0, 0, [sym inp n], fs0 inp n, []⟩, 0, 0⟩

/-- A round of the low entropy encoders: the bytes compared and the bytes written (src/rle8_low_entropy_cpu.c:490-539). -/
def leRoundWork (blk : Nat) (x : LeInfo) (inp : Mem) (n : Nat) (s : Nat × List Byte) : Nat :=
  1 + match leLoopStep blk x inp n s with
  | .inl s' => (s'.1 - s.1) + (s'.2.length - s.2.length)
  | .inr _ => 0

/-- Both loops of `rle8_low_entropy[_short]_compress_with_info` (src/rle8_low_entropy_cpu.c:474-543). -/
def leEncWork (blk : Nat) (x : LeInfo) (inp : Mem) (n t : Nat) : Nat :=
  work (leRoundWork blk x inp n) (leLoopStep blk x inp n) t (0, [])

/-- Bits or bytes of a write; bits are written one by one (src/rle_sh.c:20-38). -/
def ShOp.work : ShOp → Nat
  | .bits _ c => c
  | .bytes l => l.length

/-- `rle8_sh_compress` (src/rle_sh.c:269-505): one round for every byte, and what is written. -/
def shEncWork (inp : Mem) (n : Nat) : Nat := n + ((shOps inp n).map ShOp.work).sum

/-- What happens to the transformed block `o` (src/rle8_mmtf.c:226-445): it is stored or compared, and when it ends a copy section, that
section is read again and packed. -/
def meOutWork (s : MEnc) (o : List Byte) : Nat := 16 + if s.copying = true ∧ allEq (o.getD 0 0) (vload o) = true then 16 * s.count else 0

/-- The block loop and the last section (src/rle8_mmtf.c:190-582), with the first `t` rounds of each search in `history`. -/
def meWork (inp : Mem) (t : Nat) : Nat → Nat → MEnc → Nat
  | _, 0, s => 16 * s.count
  | i, k + 1, s =>
    work (fun _ => 1) (mtfStep false 1 16 (vload (rd inp (16 * i) 16))) t (mtfInit false (vload (rd inp (16 * i) 16)) s.hist) +
    match mtfBlock false 1 16 s.hist (rd inp (16 * i) 16) with
    | none => 0
    | some (h, o) => meOutWork s o + meWork inp t (i + 1) k (meOut s h o)

/-- The bytes behind the last block are looked up one by one (src/rle8_mmtf.c:619-646). -/
def mmEncWork (junk : Vec) (m inp : Mem) (n t : Nat) : Nat := meWork inp t 0 (n / 16) (meInit junk m n) + 256 * (n % 16)

/-! ### Loops that end -/

theorem work_of_loop {α β : Type} {step : α → α ⊕ Option β} {len : α → Nat} {lenR : β → Nat}
    (h1 : ∀ s s', step s = .inl s' → len s ≤ len s') (h2 : ∀ s r, step s = .inr (some r) → len s ≤ lenR r) :
    ∀ F s r, loop step F s = some (some r) → ∀ t, work (roundWork len step) step t s + len s ≤ F + lenR r := by
  intro F
  induction F with
  | zero => intro s r h; simp [loop] at h
  | succ F ih =>
    intro s r h t
    cases hs : step s with
    | inl s' =>
      simp only [loop, hs] at h
      have h3 := h1 s s' hs
      cases t with
      | zero =>
        have := ih s' r h 0
        simp only [work] at this ⊢
        omega
      | succ t =>
        have h4 := ih s' r h t
        have h5 : work (roundWork len step) step (t + 1) s =
            1 + (len s' - len s) + work (roundWork len step) step t s' := by
          rw [work, hs, roundWork, hs]
        omega
    | inr r' =>
      simp only [loop, hs] at h
      cases h
      have h3 := h2 s r hs
      cases t with
      | zero => simp only [work]; omega
      | succ t =>
        simp only [work, roundWork, hs]
        omega

theorem doEmit_out {σ : Type} (emit : Emit σ) (inp : Mem) (s : ES σ) : s.out.length ≤ (doEmit emit inp s).out.length := by
  unfold doEmit
  split
  · simp only [List.length_append]; omega
  · exact Nat.le_refl _

/-- A step only appends to the output. -/
def Appends {σ : Type} (step : ES σ → ES σ ⊕ Option (ES σ)) : Prop :=
  (∀ s s', step s = .inl s' → s.out.length ≤ s'.out.length) ∧ (∀ s r, step s = .inr (some r) → s.out.length ≤ r.out.length)

theorem Appends.of {σ : Type} {step : ES σ → ES σ ⊕ Option (ES σ)}
    (h : ∀ s, Post (step s) (fun s' => s.out.length ≤ s'.out.length) (fun r => ∀ r', r = some r' → s.out.length ≤ r'.out.length)) :
    Appends step := by
  refine ⟨fun s s' e => ?_, fun s r e => ?_⟩
  · have := h s; rw [e] at this; exact this
  · have := h s; rw [e] at this; exact this _ rfl

theorem stepXI_appends {σ : Type} (emit : Emit σ) (S : Nat) (k : Simd) (unb : Bool) (inp : Mem) (n : Nat) :
    Appends (stepXI emit S k unb inp n) := by
  refine Appends.of fun s => ?_
  have := doEmit_out emit inp s
  simp only [stepXI]
  repeat' split
  all_goals first
    | exact Nat.le_refl _
    | exact this
    | (intro r' h; cases h; done)
    | (intro r' h; cases h; exact Nat.le_refl _)

theorem step128I_appends {σ : Type} (emit : Emit σ) (unb : Bool) (inp : Mem) (n : Nat) :
    Appends (step128I emit unb inp n) := by
  refine Appends.of fun s => ?_
  have := doEmit_out emit inp s
  simp only [step128I]
  repeat' split
  all_goals first
    | exact Nat.le_refl _
    | exact this
    | (intro r' h; cases h; done)
    | (intro r' h; cases h; exact Nat.le_refl _)

theorem step8I_appends {σ : Type} (emit emitT : Emit σ) (k : Simd) (inp : Mem) (n : Nat) :
    Appends (step8I emit emitT k inp n) := by
  refine Appends.of fun s => ?_
  have := doEmit_out emit inp s
  have := doEmit_out emitT inp s
  simp only [step8I]
  repeat' split
  all_goals first
    | exact Nat.le_refl _
    | assumption
    | (intro r' h; cases h; done)
    | (intro r' h; cases h; exact Nat.le_refl _)

theorem stepS8I_appends {σ : Type} (emit : Emit σ) (minR : Nat) (inp : Mem) (n : Nat) :
    Appends (stepS8I emit minR inp n) := by
  refine Appends.of fun s => ?_
  have := doEmit_out emit inp s
  simp only [stepS8I]
  repeat' split
  all_goals first
    | exact Nat.le_refl _
    | exact this
    | (intro r' h; cases h; done)
    | (intro r' h; cases h; exact Nat.le_refl _)

theorem stepGI_appends (emit : Emit Lut) (S : Nat) (inp : Mem) (n : Nat) : Appends (stepGI emit S inp n) := by
  refine Appends.of fun s => ?_
  have := doEmit_out emit inp s
  simp only [stepGI]
  repeat' split
  all_goals first
    | exact Nat.le_refl _
    | exact this
    | (intro r' h; cases h; done)
    | (intro r' h; cases h; exact Nat.le_refl _)

theorem second_appends {σ : Type} (emit : Emit σ) (force : Nat → Nat → List Byte) (short : Nat) (inp : Mem) (n : Nat) (w : WS σ) :
    w.es.out.length ≤ (second emit force short inp n w).es.out.length := by
  have := doEmit_out emit inp w.es
  unfold second wasted replay
  repeat' split
  all_goals first
    | exact Nat.le_refl _
    | exact this
    | (simp only [List.length_append]; omega)

/-- What is left to show for a codec: its scanner ends, and the stream is not much longer than the input. -/
theorem scanWork_le {σ : Type} {step : ES σ → ES σ ⊕ Option (ES σ)} (h : Appends step) {F t : Nat} {s r : ES σ}
    (hl : (loop step F s).join = some r) : scanWork step t s ≤ F + r.out.length := by
  have := work_of_loop h.1 h.2 F s r (join_eq_some hl) t
  unfold scanWork
  omega

theorem scanWorkW_le {σ : Type} {emit emitT : Emit σ} {force : Nat → Nat → List Byte} {short : Nat} {inp : Mem} {n F t : Nat}
    {s r : WS σ} (hl : (loop (stepWI emit emitT force short inp n) F s).join = some r) :
    scanWorkW (stepWI emit emitT force short inp n) t s ≤ F + r.es.out.length := by
  have hS := stepS8I_appends emitT short inp n
  have := work_of_loop (step := stepWI emit emitT force short inp n) (len := fun s => s.es.out.length)
    (lenR := fun s => s.es.out.length) ?_ ?_ F s r (join_eq_some hl) t
  · unfold scanWorkW
    omega
  · intro w w' e
    unfold stepWI at e
    split at e
    · cases e; exact second_appends ..
    · split at e
      · next hs => cases e; exact hS.1 _ _ hs
      · cases e
  · intro w w' e
    unfold stepWI at e
    split at e
    · cases e
    · split at e
      · cases e
      · next r hs =>
        cases r with
        | none => cases e
        | some r => cases e; exact hS.2 _ _ hs

namespace Cdc

variable {σ : Type} {c : Cdc σ} {P D : σ → Prop}

/-- The scanner returns, and what it has written is part of the stream. -/
theorem OK.scanned (h : c.OK P D) (cpu : Cpu) (inp : Mem) (n : Nat) :
    ∃ s b, c.run cpu inp n = some s ∧ c.body cpu inp n = some b ∧ s.out.length ≤ b.length := by
  obtain ⟨b, hb⟩ := h.total cpu inp n
  have hb' := hb
  unfold body at hb'
  cases hr : c.run cpu inp n with
  | none => rw [hr] at hb'; cases hb'
  | some s =>
    rw [hr] at hb'
    cases hb'
    refine ⟨s, _, rfl, hb, ?_⟩
    dsimp only
    unfold finish
    split <;> simp only [List.length_append] <;> omega

theorem body_grow {A e L : Nat} {cpu : Cpu} (h : GrowsAtMost A e L (c.compress cpu)) {inp : Mem} {n : Nat} (hn : 0 < n)
    {b : List Byte} (hb : c.body cpu inp n = some b) : 8 + b.length ≤ n + A + e * (n / L) := by
  have := h inp n (bounds n + (8 + b.length)) _ (le32 n ++ le32 (8 + b.length) ++ b) (by
    simp only [compress, apiCompress, hb]
    rw [if_neg (by simp; omega), if_pos (by simp only [List.length_append, le32_length]; omega)])
  simp only [List.length_append, le32_length] at this
  omega

end Cdc

/-! ### rle8_sh and rle8_mmtf128 -/

theorem opWork_sum (ops : List ShOp) : (ops.map ShOp.work).sum ≤ cost ops := by
  induction ops with
  | nil => simp
  | cons x xs ih =>
    have h : cost (x :: xs) = cost [x] + cost xs := cost_append [x] xs
    rw [List.map_cons, List.sum_cons, h]
    have : x.work ≤ cost [x] := by
      cases x with
      | bits v c => simp [ShOp.work, cost, bitsOf, dataOf, ShOp.bitsOf, ShOp.dataOf, patBits]
      | bytes l => simp [ShOp.work, cost, bitsOf, dataOf, ShOp.bitsOf, ShOp.dataOf]; omega
    omega

theorem shEncWork_le (inp : Mem) {n : Nat} (hn : n < 4294967296) : shEncWork inp n ≤ 10 * n + 100 := by
  have hb := shBody_tight inp hn
  have h := opWork_sum (shOps inp n)
  have h2 : cost (shOps inp n) = cost (shBody inp n) + 39 := by
    rw [shOps_eq, cost_append, cost_append]
    rfl
  unfold shEncWork
  omega

theorem mtfStep_work (dec : Bool) (parts w : Nat) (a : Vec) :
    ∀ t s, work (fun _ => 1) (mtfStep dec parts w a) t s ≤ (256 - s.k) + 1 := by
  intro t
  induction t with
  | zero => intro s; simp only [work]; omega
  | succ t ih =>
    intro s
    by_cases h1 : allMatched parts w s.prev = true
    · have e : mtfStep dec parts w a s = .inr (some s) := by unfold mtfStep; rw [if_pos h1]
      simp only [work, e]; omega
    · by_cases h2 : s.k < 256
      · cases e : mtfStep dec parts w a s with
        | inl s' =>
          have hk : s'.k = s.k + 1 := by
            unfold mtfStep at e
            rw [if_neg h1, if_pos h2] at e
            cases e; rfl
          have := ih s'
          have h5 : work (fun _ => 1) (mtfStep dec parts w a) (t + 1) s = 1 + work (fun _ => 1) (mtfStep dec parts w a) t s' := by
            rw [work, e]
          omega
        | inr r => simp only [work, e]; omega
      · have e : mtfStep dec parts w a s = .inr none := by unfold mtfStep; rw [if_neg h1, if_neg h2]
        simp only [work, e]; omega

theorem meOut_count (s : MEnc) (h : Nat → Vec) (o : List Byte) : 16 * (meOut s h o).count + meOutWork s o ≤ 16 * s.count + 32 := by
  unfold meOut meOutWork
  generalize o.getD 0 0 = x
  cases hc : s.copying with
  | true =>
    by_cases h1 : allEq x (vload o) = true
    · simp [h1]; omega
    · simp [h1]; omega
  | false =>
    by_cases h2 : allEq s.symbol (vload o) = true
    · simp [h2]; omega
    · by_cases h1 : allEq x (vload o) = true
      · simp [h1, h2]
      · simp [h1, h2]

theorem meWork_le (inp : Mem) (t : Nat) : ∀ k i s, meWork inp t i k s ≤ 288 * k + 16 * s.count := by
  intro k
  induction k with
  | zero => intro i s; simp only [meWork]; omega
  | succ k ih =>
    intro i s
    have h1 := mtfStep_work false 1 16 (vload (rd inp (16 * i) 16)) t (mtfInit false (vload (rd inp (16 * i) 16)) s.hist)
    have hk : (mtfInit false (vload (rd inp (16 * i) 16)) s.hist).k = 1 := rfl
    rw [hk] at h1
    rw [meWork]
    split
    · omega
    · next h o _ =>
      have h2 := ih (i + 1) (meOut s h o)
      have h3 := meOut_count s h o
      have h4 : meOutWork s o + meWork inp t (i + 1) k (meOut s h o) ≤ 288 * k + 16 * s.count + 32 := by omega
      exact Nat.le_trans (Nat.add_le_add h1 h4) (by omega)

theorem mmEncWork_le (junk : Vec) (m inp : Mem) (n t : Nat) : mmEncWork junk m inp n t ≤ 18 * n + 3840 := by
  have h := meWork_le inp t (n / 16) 0 (meInit junk m n)
  have hc : (meInit junk m n).count = 0 := rfl
  rw [hc] at h
  unfold mmEncWork
  omega

end Hrk
