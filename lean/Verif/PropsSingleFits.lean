import Verif.PropsSingleSize

/-
C17 for rle8_single: going back to an earlier run costs two bytes, but the next run is then near
enough to be written, which saves them again.
-/

namespace Hrk

/-- Four symbols at `p`. -/
def Four (inp : Mem) (b : Byte) (p : Nat) : Prop := ∀ j, j < 4 → inp (p + j) = b

/-- Fewer than four symbols in a window that does not end with one: no run of four starts there. -/
theorem cntEq_four {inp : Mem} {b : Byte} {i p : Nat} (h : Four inp b p) (h1 : i ≤ p) (h2 : p + 4 ≤ i + 16) :
    4 ≤ cntEq inp [b] i 16 := by
  obtain ⟨z, rfl⟩ := Nat.exists_eq_add_of_le h1
  have key : ∀ k, 4 ≤ cntEq inp [b] i (z + 4 + k) := by
    intro k
    induction k with
    | zero =>
      have e0 := h 0 (by omega)
      have e1 := h 1 (by omega)
      have e2 := h 2 (by omega)
      have e3 := h 3 (by omega)
      unfold cntEq
      simp only [Nat.add_assoc] at e0 e1 e2 e3
      simp only [Nat.add_zero, List.range_succ, List.countP_append, List.countP_singleton, List.getD_cons_zero] at e0 ⊢
      rw [e0, e1, e2, e3]
      simp only [beq_self_eq_true, if_true]
      omega
    | succ k ih =>
      unfold cntEq at ih ⊢
      rw [← Nat.add_assoc, List.range_succ, List.countP_append]
      omega
  have := key (16 - (z + 4))
  rwa [show z + 4 + (16 - (z + 4)) = 16 by omega] at this

theorem findByte_le {inp : Mem} {sym : List Byte} {i : Nat} : ∀ k off z m, findByte inp sym i k off = some z → off ≤ m →
    inp (i + m) = sym.getD 0 0 → z ≤ m := by
  intro k
  induction k with
  | zero => intro off z m h; simp [findByte] at h
  | succ k ih =>
    intro off z m h hm ht
    unfold findByte at h
    by_cases he : inp (i + off) = sym.getD 0 0
    · rw [if_pos he] at h; cases h; exact hm
    · rw [if_neg he] at h
      refine ih (off + 1) z m h ?_ ht
      rcases Nat.lt_or_ge off m with h1 | h1
      · exact h1
      · exact absurd (by rwa [show m = off by omega] at ht) he

theorem findByte_all {inp : Mem} {sym : List Byte} {i : Nat} : ∀ k off, findByte inp sym i k off = none → ∀ m, off ≤ m → m < off + k →
    inp (i + m) ≠ sym.getD 0 0 := by
  intro k
  induction k with
  | zero => intro off _ m h1 h2; omega
  | succ k ih =>
    intro off h m h1 h2
    unfold findByte at h
    by_cases he : inp (i + off) = sym.getD 0 0
    · rw [if_pos he] at h; cases h
    · rw [if_neg he] at h
      rcases Nat.lt_or_ge off m with h3 | h3
      · exact ih (off + 1) h m h3 (by omega)
      · rwa [show m = off by omega]

/-- A run of four that has not been reached yet. -/
def Ahead (inp : Mem) (b : Byte) (n : Nat) (s : ES R8St) : Prop :=
  (s.pc = .top → s.i + 16 < n) → ∃ p, Four inp b p ∧ s.i - s.count ≤ p ∧ p ≤ s.lastRLE + 254

/-- Size invariant of `rle8_single_compress`. -/
structure DebtInv (inp : Mem) (b : Byte) (n : Nat) (w : WS R8St) : Prop where
  size : w.es.out.length ≤ w.es.lastRLE + 2
  debt : w.es.out.length ≤ w.es.lastRLE ∨ w.es.pc = .scal ∨ (w.wc = 0 ∧ Ahead inp b n w.es)
  chance : w.es.pc ≠ .scal → 2 ≤ w.wc → ∃ p c, Four inp b p ∧ w.fw + c ≤ p ∧ p + 4 ≤ w.es.i ∧
    RunAt inp [b] (w.fw + c) c ∧ inp (w.fw + c) ≠ b
  first : w.es.pc ≠ .scal → w.wc ≠ 0 → ∃ c, w.fw + c + w.es.count ≤ w.es.i ∧ RunAt inp [b] (w.fw + c) c ∧ inp (w.fw + c) ≠ b

theorem runAt_unique {inp : Mem} {b : Byte} {fw c c' : Nat} (h1 : RunAt inp [b] (fw + c) c) (h2 : inp (fw + c) ≠ b)
    (h3 : RunAt inp [b] (fw + c') c') (h4 : inp (fw + c') ≠ b) : c = c' := by
  have e1 := matchLen_exact (W := c + c') (Nat.le_add_right _ _) h1 h2
  have e2 := matchLen_exact (W := c + c') (Nat.le_add_left _ _) h3 h4
  exact e1.symm.trans e2

/-- The scan does not jump over a run of four. -/
theorem stepS8_ahead {emitT : Emit R8St} {inp : Mem} {b : Byte} {n : Nat} (s : ES R8St) (hs : s.sym = [b])
    (hi : Inv8 16 inp n (fun _ _ _ => True) s) (hz : s.pc = .search → s.count = 0)
    (h1 : s.pc ≠ .second) (h2 : s.pc ≠ .scal) (ha : Ahead inp b n s) :
    Post (stepS8 emitT 4 inp n s) (fun s' => s'.pc = .scal ∨ Ahead inp b n s') (fun _ => True) := by
  simp only [stepS8]
  cases hpc : s.pc with
  | top =>
    simp only
    split
    · next hw =>
      right
      intro _
      obtain ⟨p, g1, g2, g3⟩ := ha fun _ => hw
      exact ⟨p, g1, g2, g3⟩
    · exact Or.inl rfl
  | ext =>
    obtain ⟨p, g1, g2, g3⟩ := ha (by simp [hpc])
    obtain ⟨k1, k2⟩ := hi.cnt (by simp [hpc]) (by simp [hpc])
    simp only
    split
    · exact Or.inr fun _ => ⟨p, g1, by simp only; omega, g3⟩
    · split
      · exact Or.inr fun _ => ⟨p, g1, by simp only; omega, g3⟩
      · next hc =>
        refine Or.inr fun _ => ⟨p, g1, ?_, g3⟩
        simp only
        have hc0 : s.count ≤ 1 := by
          rcases Nat.lt_or_ge 1 s.count with h | h
          · exact absurd (Or.inr h) hc
          · exact h
        rcases Nat.lt_or_ge p s.i with h | h
        · exfalso
          apply hc
          left
          have := g1 1 (by omega)
          rw [show p + 1 = s.i by omega] at this
          unfold anyEq
          rw [List.any_eq_true]
          exact ⟨0, by simp, by simp [this, hs]⟩
        · omega
  | second => exact absurd hpc h1
  | search =>
    obtain ⟨p, g1, g2, g3⟩ := ha (by simp [hpc])
    have hz := hz hpc
    rw [hz, Nat.sub_zero] at g2
    have skip : ∀ (h : inp (s.i + 15) ≠ b ∧ cntEq inp [b] s.i 16 < 4), s.i + 16 ≤ p := by
      intro h
      apply Nat.le_of_not_lt
      intro hlt
      rcases Nat.lt_or_ge (s.i + 16) (p + 4) with h3 | h3
      · have := g1 (s.i + 15 - p) (by omega)
        rw [show p + (s.i + 15 - p) = s.i + 15 by omega] at this
        exact h.1 this
      · have := cntEq_four g1 g2 h3
        omega
    simp only
    split
    · split
      · next hf =>
        refine Or.inr fun _ => ⟨p, g1, ?_, g3⟩
        simp only
        rw [hz, Nat.sub_zero]
        apply Nat.le_of_not_lt
        intro hlt
        refine findByte_all _ _ hf (p - s.i) (Nat.zero_le _) (by omega) ?_
        have := g1 0 (by omega)
        rw [show s.i + (p - s.i) = p + 0 by omega, this, hs]; rfl
      · next z hf =>
        split
        · next hk =>
          refine Or.inr fun _ => ⟨p, g1, ?_, g3⟩
          simp only
          rw [hz, Nat.sub_zero]
          rw [hs] at hk
          exact skip hk
        · refine Or.inr fun _ => ⟨p, g1, ?_, g3⟩
          simp only
          have : z ≤ p - s.i := by
            rcases Nat.lt_or_ge (p - s.i) 16 with h | h
            · refine findByte_le _ _ _ _ hf (Nat.zero_le _) ?_
              have := g1 0 (by omega)
              rw [show s.i + (p - s.i) = p + 0 by omega, this, hs]; rfl
            · have := (findByte_spec _ _ _ _ _ _ hf).2.1
              omega
          omega
    · right
      intro h
      have := h rfl
      simp only at this
      omega
  | sscan => trivial
  | scal => exact absurd hpc h2

namespace R8Cfg

/-- Every record of `rle8_single_compress` that is not the result of going back is two bytes
shorter than its run. -/
theorem single_save {cnt lits : Nat} {fs fs' : R8St} {sym bytes : List Byte}
    (h : emit ⟨true, false⟩ fs sym cnt lits = some (bytes, fs')) : bytes.length + 2 ≤ cnt ∧ fs' = fs := by
  unfold emit at h
  have hsh : short ⟨true, false⟩ = 4 := rfl
  have hlo : long ⟨true, false⟩ = 8 := rfl
  simp only [if_true, Bool.false_eq_true, false_and, or_false, hsh, hlo] at h
  split at h
  · cases h
  · split at h
    · cases h
    · split at h
      · simp only [Option.some.injEq, Prod.mk.injEq] at h
        obtain ⟨rfl, rfl⟩ := h
        simp only [sRec, List.length_append, List.length_singleton, cnt8_length, stored, hsh, and_true]
        split <;> omega
      · split at h
        · simp only [Option.some.injEq, Prod.mk.injEq] at h
          obtain ⟨rfl, rfl⟩ := h
          simp only [lRec, offL8, List.length_append, List.length_cons, le32_length, cnt8_length, stored, hsh, and_true]
          split <;> omega
        · cases h

theorem single_saveT {cnt lits : Nat} {fs fs' : R8St} {sym bytes : List Byte}
    (h : emitT ⟨true, false⟩ fs sym cnt lits = some (bytes, fs')) : bytes.length + 2 ≤ cnt := by
  unfold emitT at h
  have hsh : short ⟨true, false⟩ = 4 := rfl
  have hlo : long ⟨true, false⟩ = 8 := rfl
  simp only [if_true, Bool.false_eq_true, hsh, hlo] at h
  split at h
  · cases h
  · split at h
    · cases h
    · split at h
      · simp only [Option.some.injEq, Prod.mk.injEq] at h
        obtain ⟨rfl, rfl⟩ := h
        simp only [sRec, List.length_append, List.length_singleton, cnt8_length, stored, hsh]
        split <;> omega
      · split at h
        · simp only [Option.some.injEq, Prod.mk.injEq] at h
          obtain ⟨rfl, rfl⟩ := h
          simp only [lRec, offL8, List.length_append, List.length_cons, le32_length, cnt8_length, stored, hsh]
          split <;> omega
        · cases h

theorem single_near {b : Byte} {cnt lits : Nat} (h1 : 4 ≤ cnt) (h2 : lits ≤ 254) :
    emit ⟨true, false⟩ ⟨true, [b]⟩ [b] cnt lits ≠ none := by
  unfold emit
  have hsh : short ⟨true, false⟩ = 4 := rfl
  simp only [if_true, hsh]
  rw [if_neg (by simp), if_neg (by simp; omega), if_pos (by omega)]
  simp

theorem second_debt {inp : Mem} {b : Byte} {n : Nat} (w : WS R8St)
    (hw : WInv 4 8 255 ⟨true, [b]⟩ b inp n (fun _ _ _ => True) w) (hd : DebtInv inp b n w) (hpc : w.es.pc = .second) :
    DebtInv inp b n (second (emit ⟨true, false⟩) (force ⟨true, false⟩) 4 inp n w) := by
  obtain ⟨⟨hinv, _, _⟩, hfs, hsym, hstop, hch⟩ := hw
  obtain ⟨k1, k2⟩ := hinv.cnt (by simp [hpc]) (by simp [hpc])
  have hstop := hstop hpc
  obtain ⟨h1, h2, h3, h4⟩ := hd
  rw [hsym] at k2
  have k2' : ∀ j, j < w.es.count → inp (w.es.i - w.es.count + j) = b := by
    intro j hj
    have := k2 j hj
    simpa [Nat.mod_one] using this
  unfold second
  by_cases hs : w.es.count ≥ 4
  · rw [if_pos hs]
    cases he : emit ⟨true, false⟩ w.es.fs w.es.sym w.es.count (w.es.i - w.es.count - w.es.lastRLE) with
    | some x =>
      obtain ⟨bytes, fs'⟩ := x
      simp only
      have hsave := (single_save he).1
      have hout : (doEmit (emit ⟨true, false⟩) inp w.es).out.length ≤ (doEmit (emit ⟨true, false⟩) inp w.es).lastRLE := by
        unfold doEmit
        rw [he]
        simp only [List.length_append, rd_length]
        omega
      exact ⟨by simp only; omega, Or.inl hout, fun _ h => absurd h (by simp), fun _ h => absurd rfl h⟩
    | none =>
      simp only
      have hfar : 254 < w.es.i - w.es.count - w.es.lastRLE := by
        apply Nat.lt_of_not_le
        intro hle
        rw [hfs, hsym] at he
        exact single_near hs hle he
      have hno : w.es.out.length ≤ w.es.lastRLE := by
        rcases h2 with h2 | h2 | ⟨_, h2⟩
        · exact h2
        · rw [hpc] at h2; cases h2
        · obtain ⟨p, g1, g2, g3⟩ := h2 (by simp [hpc])
          omega
      unfold wasted
      by_cases hw1 : w.wc = 0 ∨ w.es.i - w.fw > 255
      · rw [if_pos hw1]
        refine ⟨by simp only; omega, Or.inl hno, fun _ h => absurd h (by simp), fun _ _ => ⟨w.es.count, by simp only; omega, ?_, ?_⟩⟩
        · rw [show w.es.i - w.es.count + w.es.count = w.es.i by omega]; exact k2
        · rw [show w.es.i - w.es.count + w.es.count = w.es.i by omega]; exact hstop
      · rw [if_neg hw1]
        by_cases hw2 : w.wc + 1 > 2
        · rw [if_pos hw2]
          obtain ⟨p, c, g1, g2, g3, g4, g5⟩ := h3 (by simp [hpc]) (by omega)
          obtain ⟨c', m1, m2, m3, m4, m5, m6, m7⟩ := hch (by simp [hpc]) (by omega)
          have m5 := m5 hpc
          obtain rfl := runAt_unique g4 g5 m6 m7
          have hm : matchLen inp w.es.sym w.fw (n - 16 - w.fw) 0 = c := by
            rw [hsym]; exact matchLen_exact (by omega) g4 g5
          unfold replay
          rw [hm]
          refine ⟨?_, Or.inr (Or.inr ⟨rfl, fun _ => ⟨p, g1, by simp only; omega, by simp only; omega⟩⟩), fun _ h => absurd h (by simp), fun _ h => absurd rfl h⟩
          simp only [force, offL8, List.length_append, List.length_cons, List.length_nil, le32_length, rd_length]
          omega
        · rw [if_neg hw2]
          obtain ⟨c, m4, m6, m7⟩ := h4 (by simp [hpc]) (by omega)
          exact ⟨by simp only; omega, Or.inl hno, fun _ _ => ⟨w.es.i - w.es.count, c, fun j hj => k2' j (by omega), by simp only; omega,
            by simp only; omega, m6, m7⟩, fun _ _ => ⟨c, by simp only; omega, m6, m7⟩⟩
  · rw [if_neg hs]
    refine ⟨h1, ?_, fun _ h => by simpa using h3 (by simp [hpc]) h, fun _ h => ?_⟩
    rotate_left
    · obtain ⟨c, m4, m6, m7⟩ := h4 (by simp [hpc]) h
      exact ⟨c, by simp only; omega, m6, m7⟩
    rcases h2 with h2 | h2 | ⟨h2, h5⟩
    · exact Or.inl h2
    · rw [hpc] at h2; cases h2
    · refine Or.inr (Or.inr ⟨h2, fun _ => ?_⟩)
      obtain ⟨p, g1, g2, g3⟩ := h5 (by simp [hpc])
      refine ⟨p, g1, ?_, g3⟩
      simp only
      apply Nat.le_of_not_lt
      intro hlt
      have := g1 (w.es.i - p) (by omega)
      rw [show p + (w.es.i - p) = w.es.i by omega] at this
      exact hstop this

theorem stepS8_move {σ : Type} {emitT : Emit σ} {short : Nat} {inp : Mem} {n : Nat} (s : ES σ) (h1 : s.pc ≠ .second) (h2 : s.pc ≠ .scal)
    (hz : s.pc = .search → s.count = 0) :
    Post (stepS8 emitT short inp n s) (fun s' => s'.out = s.out ∧ s'.lastRLE = s.lastRLE ∧ s.i ≤ s'.i ∧
      ∀ x, x + s.count ≤ s.i → x + s'.count ≤ s'.i) (fun s' => s' = s) := by
  simp only [stepS8]
  cases hpc : s.pc with
  | top => simp only; split <;> exact ⟨rfl, rfl, Nat.le_refl _, fun _ h => h⟩
  | ext =>
    simp only
    repeat' split
    all_goals exact ⟨rfl, rfl, by simp only; omega, fun _ h => by simp only; omega⟩
  | second => exact absurd hpc h1
  | search =>
    have := hz hpc
    simp only
    repeat' split
    all_goals exact ⟨rfl, rfl, by simp only; omega, fun _ h => by simp only; omega⟩
  | sscan => rfl
  | scal => exact absurd hpc h2

theorem stepW_debt {inp : Mem} {b : Byte} {n : Nat} (w : WS R8St)
    (hw : WInv 4 8 255 ⟨true, [b]⟩ b inp n (fun _ _ _ => True) w) (hd : DebtInv inp b n w) :
    Post (stepW (emit ⟨true, false⟩) (emitT ⟨true, false⟩) (force ⟨true, false⟩) 4 inp n w) (DebtInv inp b n)
      (fun w' => w'.es.out.length ≤ w'.es.lastRLE + 2) := by
  unfold stepW
  by_cases hpc : w.es.pc = .second
  · rw [if_pos hpc]
    exact second_debt w hw hd hpc
  · rw [if_neg hpc]
    by_cases hsc : w.es.pc = .scal
    · have key : Post (stepS8 (emitT ⟨true, false⟩) 4 inp n w.es)
          (fun s' => s'.out.length ≤ s'.lastRLE + 2 ∧ s'.pc = .scal) (fun s' => s'.out.length ≤ s'.lastRLE + 2) := by
        have h1 := hd.size
        obtain ⟨k1, _⟩ := hw.inv.1.cnt (by simp [hsc]) (by simp [hsc])
        simp only [stepS8, hsc]
        split
        · split
          · exact ⟨h1, rfl⟩
          · simp only [Post]
            unfold doEmit
            split
            · next bytes fs' he =>
              have := single_saveT he
              refine ⟨?_, hsc⟩
              simp only [List.length_append, rd_length]
              omega
            · exact ⟨h1, hsc⟩
        · exact h1
      cases he : stepS8 (emitT ⟨true, false⟩) 4 inp n w.es with
      | inl e =>
        rw [he] at key
        exact ⟨key.1, Or.inr (Or.inl key.2), fun h => absurd key.2 h, fun h => absurd key.2 h⟩
      | inr e => rw [he] at key; exact key
    · have hmv := stepS8_move (emitT := emitT ⟨true, false⟩) (short := 4) (inp := inp) (n := n) w.es hpc hsc hw.inv.2.2
      have hah := stepS8_ahead (emitT := emitT ⟨true, false⟩) (inp := inp) (b := b) (n := n) w.es hw.sym hw.inv.1 hw.inv.2.2 hpc hsc
      obtain ⟨h1, h2, h3, h4⟩ := hd
      cases he : stepS8 (emitT ⟨true, false⟩) 4 inp n w.es with
      | inl e =>
        rw [he] at hmv hah
        obtain ⟨m1, m2, m3, m4⟩ := hmv
        refine ⟨by simp only [m1, m2]; exact h1, ?_, fun _ h => ?_, fun _ h => ?_⟩
        · rcases h2 with h2 | h2 | ⟨h2, h5⟩
          · left; simp only [m1, m2]; exact h2
          · exact absurd h2 hsc
          · rcases hah h5 with h6 | h6
            · exact Or.inr (Or.inl h6)
            · exact Or.inr (Or.inr ⟨h2, h6⟩)
        · obtain ⟨p, c, g1, g2, g3, g4⟩ := h3 hsc h
          exact ⟨p, c, g1, g2, by simp only; omega, g4⟩
        · obtain ⟨c, g1, g2⟩ := h4 hsc h
          exact ⟨c, m4 _ g1, g2⟩
      | inr e =>
        rw [he] at hmv
        cases hmv
        exact h1

theorem single_size (cpu : Cpu) (inp : Mem) (n : Nat) :
    ∃ b, (cdc ⟨true, false⟩).body cpu inp n = some b ∧ b.length ≤ n + 15 := by
  obtain ⟨b, hb⟩ := (cdc_ok ⟨true, false⟩).total cpu inp n
  refine ⟨b, hb, ?_⟩
  unfold Cdc.body at hb
  cases hr : (cdc ⟨true, false⟩).run cpu inp n with
  | none => rw [hr] at hb; cases hb
  | some s =>
    rw [hr] at hb
    simp only [Option.map_some, Option.some.injEq] at hb
    have hr : runW (emit ⟨true, false⟩) (emitT ⟨true, false⟩) (force ⟨true, false⟩) 4 (first ⟨true, false⟩) pick inp n = some s := by
      have e : (cdc ⟨true, false⟩).run cpu = _ := run_eq ⟨true, false⟩ cpu
      rw [e] at hr
      exact hr
    have hrules := wrules ⟨true, false⟩ rfl inp n
    have key : s.out.length ≤ s.lastRLE + 2 ∧ Inv8 16 inp n (fun _ _ _ => True) s ∧ s.pc = .scal := by
      unfold runW at hr
      cases hl : loop (stepW (emit ⟨true, false⟩) (emitT ⟨true, false⟩) (force ⟨true, false⟩) 4 inp n) (12 * n + 12)
          ⟨⟨.top, 0, 0, 0, [pick inp n], first ⟨true, false⟩ inp n, []⟩, 0, 0⟩ with
      | none => rw [hl] at hr; cases hr
      | some w =>
        rw [hl] at hr
        cases hr
        refine loop_rule_partial (body := stepW (emit ⟨true, false⟩) (emitT ⟨true, false⟩) (force ⟨true, false⟩) 4 inp n)
          (fun w => WInv 4 8 255 ⟨true, [pick inp n]⟩ (pick inp n) inp n (fun _ _ _ => True) w ∧ DebtInv inp (pick inp n) n w)
          (fun w => w.es.out.length ≤ w.es.lastRLE + 2 ∧ Inv8 16 inp n (fun _ _ _ => True) w.es ∧ w.es.pc = .scal) ?_ _ _ _ ⟨wInv_start trivial, ?_⟩ hl
        · rintro v ⟨hv1, hv2⟩
          have g1 := stepW_inv (unb := true) (Nat.le_refl _) hrules closed_true closed_true closed_true v hv1
          have g2 := stepW_debt v hv1 hv2
          revert g1 g2
          show Post (stepW (emit ⟨true, false⟩) (emitT ⟨true, false⟩) (force ⟨true, false⟩) 4 inp n v) _ _ →
            Post (stepW (emit ⟨true, false⟩) (emitT ⟨true, false⟩) (force ⟨true, false⟩) 4 inp n v) _ _ → _
          cases stepW (emit ⟨true, false⟩) (emitT ⟨true, false⟩) (force ⟨true, false⟩) 4 inp n v with
          | inl s' => exact fun g1 g2 => ⟨g1.1, g2⟩
          | inr s' => exact fun g1 g2 => ⟨g2, g1.1, g1.2.2⟩
        · exact ⟨by simp, Or.inl (by simp), fun _ h => absurd h (by simp), fun _ h => absurd rfl h⟩
    obtain ⟨h1, h2, h5⟩ := key
    have h3 := h2.last
    have h4 := h2.hi
    obtain ⟨h6, _⟩ := h2.cnt (by simp [h5]) (by simp [h5])
    subst hb
    have hpre : ((cdc ⟨true, false⟩).pre ((cdc ⟨true, false⟩).first inp n)).length = 2 := rfl
    have hfin : (finish (emitT ⟨true, false⟩) (endRun ⟨true, false⟩) (endLit ⟨true, false⟩) inp s).length ≤ n + 13 := by
      unfold finish
      split
      · next bytes fs' he =>
        have := single_saveT he
        simp only [List.length_append, rd_length, endRun, if_true, List.length_cons, le32_length]
        omega
      · simp only [List.length_append, rd_length, endLit, if_true, List.length_cons, le32_length]
        omega
    rw [List.length_append, hpre]
    change 2 + (finish (emitT ⟨true, false⟩) (endRun ⟨true, false⟩) (endLit ⟨true, false⟩) inp s).length ≤ _
    omega

end R8Cfg

/-- C17 for rle8_single: the returned size is at most `rle_compress_bounds`. -/
theorem C17_single_bounds (cpu : Cpu) : FitsBounds bounds (R8Cfg.compress ⟨true, false⟩ cpu) := by
  refine fitsBounds_of_size _ fun inp n _ _ => ?_
  obtain ⟨b, h1, h2⟩ := R8Cfg.single_size cpu inp n
  exact ⟨b, h1, by omega⟩

end Hrk
