import Verif.Table

/-
What the compressors read of their input, access by access. Used by C63.
-/

namespace Hrk

/-! ### The model -/

/-- A loop over an input of which only the first `lim` bytes may be read: a round that reads further is undefined behaviour
(`none`). `reach s` is the end of what the round from `s` reads (src/rleX_extreme_cpu_encode.h and the other scanners). -/
def guardR {α ρ : Type} (reach : α → Nat) (lim : Nat) (step : α → α ⊕ Option ρ) (s : α) : α ⊕ Option ρ :=
  if reach s ≤ lim then step s else .inr none

/-- The end of the literals an emission copies (`memcpy(pOut + index, pIn + lastRLE, copySize)`, src/rleX_extreme_cpu_encode.h:237-240,
305-308). -/
def emitReach {σ : Type} (emit : Emit σ) (s : ES σ) : Nat :=
  match emit s.fs s.sym s.count (s.i - s.count - s.lastRLE) with
  | some _ => s.lastRLE + (s.i - s.count - s.lastRLE)
  | none => 0

/-- The end of the literals copied behind the loop (src/rleX_extreme_cpu_encode.h:384-600). -/
def endReach {σ : Type} (emit : Emit σ) (s : ES σ) : Nat :=
  match emit s.fs s.sym s.count (s.i - s.count - s.lastRLE) with
  | some _ => s.lastRLE + (s.i - s.count - s.lastRLE)
  | none => s.lastRLE + (s.i - s.lastRLE)

/-- `stepXI` (src/rleX_extreme_cpu_encode.h:46-382, src/rle24_extreme_cpu_encode.h, src/rle48_extreme_cpu_encode.h,
src/rleX_Xsl_multibyte_encoder.h, src/rleX_Xsl_short_multibyte_encoder.h): vectors at `i` and `i + S`, `symbol_t` values at `i`,
`i + bit` and `i + S`. -/
def reachX {σ : Type} (emit : Emit σ) (S : Nat) (k : Simd) (inp : Mem) (n : Nat) (s : ES σ) : Nat :=
  let W := k.width
  match s.pc with
  | .top => 0
  | .ext => if W ≠ 0 ∧ s.i + W + S < n then s.i + W else 0
  | .scal => if s.count ≠ 0 ∧ s.i + S ≤ n then s.i + symT S else 0
  | .second => emitReach emit s
  | .search =>
    if W ≠ 0 ∧ s.i + W + S < n then
      max (s.i + S + W) (match ctz (foldMask S (movemask W (veq (vmem inp s.i) (vmem inp (s.i + S))))) with
        | none => 0
        | some bit => s.i + bit + symT S)
    else 0
  | .sscan => max (s.i + symT S) (if s.i + S ≤ n then s.i + S + symT S else 0)

/-- `step128I` (src/rle128_extreme_cpu.h:59-281). -/
def reach128 {σ : Type} (emit : Emit σ) (n : Nat) (s : ES σ) : Nat :=
  match s.pc with
  | .top => 0
  | .ext => if s.i + 16 < n then s.i + 16 else 0
  | .scal => 0
  | .second => emitReach emit s
  | .search => if s.i + 32 < n then s.i + 16 + 16 else 0
  | .sscan => max (s.i + 16) (if s.i + 16 ≤ n then s.i + 16 + 16 else 0)

/-- `step8I` (src/rleX_Xsl.h:352-485, src/rleX_Xsl_short.h:529-662, src/rle8_extreme_cpu.h:768-1099, then the scalar loop). AVX2
loads a second vector at `i + 1` when it searches. -/
def reach8 {σ : Type} (emit emitT : Emit σ) (k : Simd) (n : Nat) (s : ES σ) : Nat :=
  let W := k.width
  match s.pc with
  | .top => 0
  | .ext => s.i + W
  | .second => emitReach emit s
  | .search => if s.i + W < n then (match k with | .avx2 => s.i + 1 + W | _ => s.i + W) else 0
  | .sscan => s.i + 1
  | .scal => if s.i < n then max (s.i + 1) (emitReach emitT s) else 0

/-- `stepS8I` (src/rleX_Xsl_short.h:1061-1122, 439-456). -/
def reachS8 {σ : Type} (emit : Emit σ) (n : Nat) (s : ES σ) : Nat :=
  match s.pc with
  | .top => 0
  | .ext => s.i + 16
  | .second => emitReach emit s
  | .search => if s.i + 16 < n then s.i + 16 else 0
  | .sscan => 0
  | .scal => if s.i < n then max (s.i + 1) (emitReach emit s) else 0

/-- `stepWI` (src/rle8_extreme_cpu.h:1103-1321, 383-510); when it goes back it copies the literals up to `firstWastedChanceIndex`
and counts the run there again, byte by byte and not beyond `n - 16` (1256-1279). This is an upper bound: it may stop earlier. -/
def reachW {σ : Type} (emit emitT : Emit σ) (short n : Nat) (w : WS σ) : Nat :=
  if w.es.pc = .second then
    max (if short ≤ w.es.count then emitReach emit w.es else 0) (if w.wc = 0 then 0 else max w.fw (n - 16))
  else reachS8 emitT n w.es

/-- `stepGI` (src/rleX_Xsl_short.h:783-989). -/
def reachG (emit : Emit Lut) (S n : Nat) (s : ES Lut) : Nat :=
  match s.pc with
  | .top => if s.i < n ∧ s.count ≠ 0 ∧ s.i + S ≤ n then s.i + symT S else 0
  | .second => emitReach emit s
  | .sscan => max (s.i + symT S) (if s.i + S ≤ n then s.i + S + symT S else 0)
  | _ => 0

/-- `pickStepI` (src/rle8_extreme_cpu.c:75-130). -/
def reachPick (n : Nat) (s : PickS) : Nat :=
  if s.search then (if s.i + 16 < n then s.i + 16 else s.i + 1) else (if s.i + 16 < n then s.i + 16 else 0)

/-! ### Loops that stay inside -/

theorem emitReach_le {σ : Type} (emit : Emit σ) {s : ES σ} {m : Nat} (h1 : s.lastRLE ≤ s.i) (h2 : s.i ≤ m) : emitReach emit s ≤ m := by
  unfold emitReach
  split <;> omega

theorem endReach_le {σ : Type} (emit : Emit σ) {s : ES σ} {m : Nat} (h1 : s.lastRLE ≤ s.i) (h2 : s.i ≤ m) : endReach emit s ≤ m := by
  unfold endReach
  split <;> omega

theorem symT_ge (S : Nat) : S ≤ symT S := by unfold symT; repeat' split
                                             all_goals omega

theorem symT_le {S : Nat} (hS : symSize S) : symT S ≤ 2 * S := by
  rcases hS with rfl | rfl | rfl | rfl | rfl <;> decide

theorem map_inl {α ρ : Type} {x : α ⊕ ρ} {s' : α} (h : x.map id some = (.inl s' : α ⊕ Option ρ)) : x = .inl s' := by
  cases x with
  | inl a => cases h; rfl
  | inr r => cases h

/-- The rounds of `stepXI` keep the invariant of `stepX`. -/
theorem stepXI_keeps {σ : Type} {emit : Emit σ} {S : Nat} (hS : symSize S) {k : Simd} {unb : Bool} {inp : Mem} {n : Nat} {s s' : ES σ}
    (h : XInv S unb inp n (fun _ _ _ => True) s) (e : stepXI emit S k unb inp n s = .inl s') :
    XInv S unb inp n (fun _ _ _ => True) s' := by
  rw [stepXI_eq emit hS k unb inp n s h.len] at e
  have e := map_inl e
  have hW : k.width = 0 ∨ S < k.width := by
    rcases hS with rfl | rfl | rfl | rfl | rfl <;> cases k <;> decide
  have := stepX_inv (by rcases hS with rfl | rfl | rfl | rfl | rfl <;> decide) hW (Nat.le_refl _) closed_true s h (emit := emit)
  rw [e] at this
  exact this.1

theorem reachX_le {σ : Type} {emit : Emit σ} {S : Nat} (hS : symSize S) {k : Simd} {unb : Bool} {inp : Mem} {n : Nat} {s : ES σ}
    (h : XInv S unb inp n (fun _ _ _ => True) s) : reachX emit S k inp n s ≤ n + symT S := by
  have hT := symT_ge S
  have hT2 := symT_le hS
  unfold reachX
  cases hpc : s.pc with
  | top => exact Nat.zero_le _
  | ext => dsimp only; split <;> omega
  | scal => dsimp only; split <;> omega
  | second => exact Nat.le_trans (emitReach_le emit h.last (Nat.le_of_lt (h.ntop (by rw [hpc]; simp)))) (by omega)
  | search =>
    dsimp only
    split
    · next hc =>
      refine Nat.max_le.mpr ⟨by omega, ?_⟩
      split
      · exact Nat.zero_le _
      · next bit hb =>
        by_cases h0 : foldMask S (movemask k.width (veq (vmem inp s.i) (vmem inp (s.i + S)))) = 0
        · rw [h0] at hb
          have : ctz 0 = none := by decide
          rw [this] at hb
          cases hb
        · have e : stepXI emit S k unb inp n s =
              .inl { s with sym := rd inp (s.i + bit) S, i := s.i + (bit + 2 * S), count := 2 * S, pc := .ext } := by
            unfold stepXI
            rw [hpc]
            dsimp only
            rw [if_pos hc, if_neg h0, hb]
          have := (stepXI_keeps hS h e).ntop (by simp)
          dsimp only at this
          omega
    · exact Nat.zero_le _
  | sscan =>
    have := h.ntop (by rw [hpc]; simp)
    dsimp only
    split <;> omega

theorem reach128_le {σ : Type} {emit : Emit σ} {unb : Bool} {inp : Mem} {n : Nat} {s : ES σ}
    (h : XInv 16 unb inp n (fun _ _ _ => True) s) : reach128 emit n s ≤ n + 16 := by
  unfold reach128
  cases hpc : s.pc with
  | top => exact Nat.zero_le _
  | ext => dsimp only; split <;> omega
  | scal => exact Nat.zero_le _
  | second => exact Nat.le_trans (emitReach_le emit h.last (Nat.le_of_lt (h.ntop (by rw [hpc]; simp)))) (by omega)
  | search => dsimp only; split <;> omega
  | sscan =>
    have := h.ntop (by rw [hpc]; simp)
    dsimp only
    split <;> omega

theorem reach8_le {σ : Type} {emit emitT : Emit σ} {k : Simd} {inp : Mem} {n : Nat} {s : ES σ}
    (h : Inv8 k.width inp n (fun _ _ _ => True) s) : reach8 emit emitT k n s ≤ n := by
  unfold reach8
  cases hpc : s.pc with
  | top => exact Nat.zero_le _
  | ext => have := h.ext hpc; dsimp only; omega
  | second => exact emitReach_le emit h.last h.hi
  | search =>
    dsimp only
    split
    · split <;> omega
    · exact Nat.zero_le _
  | sscan => have := h.lt (by rw [hpc]; simp) (by rw [hpc]; simp); dsimp only; omega
  | scal =>
    have := emitReach_le emitT h.last h.hi
    dsimp only
    split <;> omega

theorem reachS8_le {σ : Type} {emit : Emit σ} {inp : Mem} {n : Nat} {s : ES σ}
    (h : Inv8 16 inp n (fun _ _ _ => True) s) : reachS8 emit n s ≤ n := by
  unfold reachS8
  cases hpc : s.pc with
  | top => exact Nat.zero_le _
  | ext => have := h.ext hpc; dsimp only; omega
  | second => exact emitReach_le emit h.last h.hi
  | search => dsimp only; split <;> omega
  | sscan => exact Nat.zero_le _
  | scal =>
    have := emitReach_le emit h.last h.hi
    dsimp only
    split <;> omega

theorem reachW_le {σ : Type} {emit emitT : Emit σ} {short long far : Nat} {fs0 : σ} {b : Byte} {inp : Mem} {n : Nat} {w : WS σ}
    (h : WInv short long far fs0 b inp n (fun _ _ _ => True) w) : reachW emit emitT short n w ≤ n := by
  unfold reachW
  split
  · next hpc =>
    refine Nat.max_le.mpr ⟨?_, ?_⟩
    · split
      · exact emitReach_le emit h.inv.1.last h.inv.1.hi
      · exact Nat.zero_le _
    · split
      · exact Nat.zero_le _
      · next hw =>
        obtain ⟨c, _, _, _, h4, _⟩ := h.chance (by rw [hpc]; simp) hw
        have := h.inv.1.hi
        omega
  · exact reachS8_le h.inv.1

theorem reachG_le {emit : Emit Lut} {N S : Nat} {inp : Mem} {n : Nat} {s : ES Lut}
    (h : GInv N S inp n (fun _ _ _ => True) s) : reachG emit S n s ≤ n + symT S := by
  have hT := symT_ge S
  unfold reachG
  cases hpc : s.pc with
  | top => dsimp only; split <;> omega
  | second => exact Nat.le_trans (emitReach_le emit h.last (h.ntop (by rw [hpc]; simp))) (by omega)
  | sscan =>
    have := h.ntop (by rw [hpc]; simp)
    dsimp only
    split <;> omega
  | _ => exact Nat.zero_le _

theorem reachPick_le {n : Nat} {s : PickS} (h : s.search = true → s.i < n) : reachPick n s ≤ n := by
  unfold reachPick
  split
  · next hs => have := h hs; split <;> omega
  · split <;> omega

/-- A loop whose rounds stay inside ends, in the state in which it ends without the guard. -/
theorem guardR_total {α : Type} {reach : α → Nat} {lim : Nat} {stepI : α → α ⊕ Option α} {step : α → α ⊕ α} (I Q : α → Prop) (μ : α → Nat)
    (h : ∀ s, I s → reach s ≤ lim ∧ stepI s = (step s).map id some ∧ Post (step s) (fun s' => I s' ∧ μ s' < μ s) Q) (f : Nat) (s : α)
    (hs : I s) (hf : μ s < f) : ∃ r, (loop stepI f s).join = some r ∧ (loop (guardR reach lim stepI) f s).join = some r ∧ Q r := by
  have hp : ∀ s, I s → Post (stepI s) (fun s' => I s' ∧ μ s' < μ s) (fun o => ∃ r, o = some r ∧ Q r) := by
    intro s hs
    obtain ⟨_, h2, h3⟩ := h s hs
    rw [h2]
    cases hx : step s with
    | inl a => rw [hx] at h3; exact h3
    | inr a => rw [hx] at h3; exact ⟨a, rfl, h3⟩
  obtain ⟨r, h1, h2⟩ := loop_rule (body := stepI) I (fun o => ∃ r, o = some r ∧ Q r) μ hp f s hs hf
  obtain ⟨q, rfl, h3⟩ := h2
  have h4 : loop stepI f s = loop (guardR reach lim stepI) f s := by
    refine loop_congr I (fun s hs => ⟨?_, fun s' e => ?_⟩) f s hs
    · unfold guardR
      rw [if_pos (h s hs).1]
    · have := hp s hs
      rw [e] at this
      exact this.1
  exact ⟨q, by rw [h1]; rfl, by rw [← h4, h1]; rfl, h3⟩

end Hrk
