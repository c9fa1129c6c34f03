import Verif.ScanX

/-
What the scanner reads: nothing beyond `n + S`.
-/

namespace Hrk

theorem matchLen_congr {inp inp' : Mem} {sym : List Byte} {i : Nat} :
    ∀ k off, (∀ j, i + off ≤ j → j < i + off + k → inp j = inp' j) →
      matchLen inp sym i k off = matchLen inp' sym i k off := by
  intro k
  induction k with
  | zero => intro off _; rfl
  | succ k ih =>
    intro off h
    unfold matchLen
    rw [h (i + off) (by omega) (by omega), ih (off + 1) (fun j h1 h2 => h j (by omega) (by omega))]

theorem findPair_congr {inp inp' : Mem} {S i : Nat} :
    ∀ k off, (∀ j, i + off ≤ j → j < i + off + k + 2 * S → inp j = inp' j) →
      findPair inp S i k off = findPair inp' S i k off := by
  intro k
  induction k with
  | zero => intro off _; rfl
  | succ k ih =>
    intro off h
    unfold findPair pairAt
    rw [rd_congr (m₁ := inp) (m₂ := inp') (fun j h1 h2 => h j (by omega) (by omega)),
      rd_congr (m₁ := inp) (m₂ := inp') (a := i + off + S) (fun j h1 h2 => h j (by omega) (by omega)),
      ih (off + 1) (fun j h1 h2 => h j (by omega) (by omega))]

/-- Two memories that agree on `n + S` bytes drive the scanner identically. -/
theorem stepX_congr {σ : Type} {emit : Emit σ} {S W : Nat} {unb : Bool} {inp inp' : Mem} {n : Nat}
    {CP : σ → List Byte → Nat → Prop} (hW : W = 0 ∨ S < W)
    (hm : ∀ k, k < n + S → inp k = inp' k) (s : ES σ) (h : XInv S unb inp n CP s) :
    stepX emit S W unb inp n s = stepX emit S W unb inp' n s := by
  obtain ⟨pc, i, count, lastRLE, sym, fs, out⟩ := s
  obtain ⟨hcp, hlen, hlast, htop, hntop, hcnt, hdvd, hdvd2⟩ := h
  simp only at *
  cases pc with
  | top => rfl
  | ext =>
    simp only [stepX]
    by_cases hc : W ≠ 0 ∧ i + W + S < n
    · rw [if_pos hc, if_pos hc]
      rw [matchLen_congr W 0 (fun j h1 h2 => hm j (by omega))]
    · rw [if_neg hc, if_neg hc]
  | scal =>
    simp only [stepX]
    by_cases hc : count ≠ 0 ∧ i + S ≤ n
    · rw [if_pos hc, if_pos hc]
      rw [matchLen_congr S 0 (fun j h1 h2 => hm j (by omega))]
    · rw [if_neg hc, if_neg hc]
  | second =>
    have := hntop (by simp)
    simp only [stepX, doEmit]
    split
    · rw [rd_congr (m₁ := inp) (m₂ := inp') (fun j h1 h2 => hm j (by omega))]
    · rfl
  | search =>
    simp only [stepX]
    by_cases hc : W ≠ 0 ∧ i + W + S < n
    · rw [if_pos hc, if_pos hc]
      rw [← findPair_congr (inp := inp) (inp' := inp') (W - S + 1) 0 (fun j h1 h2 => hm j (by omega))]
      split
      · rfl
      · next bit hb =>
        have := findPair_spec inp S i _ _ _ hb
        rw [rd_congr (m₁ := inp) (m₂ := inp') (fun j h1 h2 => hm j (by omega))]
    · rw [if_neg hc, if_neg hc]
  | sscan =>
    have := hntop (by simp)
    simp only [stepX]
    rw [rd_congr (m₁ := inp) (m₂ := inp') (a := i) (fun j h1 h2 => hm j (by omega))]
    by_cases hc : i + S ≤ n
    · rw [rd_congr (m₁ := inp) (m₂ := inp') (a := i + S) (fun j h1 h2 => hm j (by omega))]
    · simp [hc]

theorem closed_true {σ : Type} {emit : Emit σ} {inp : Mem} {S : Nat} {unb : Bool} {B : Nat} :
    Closed emit inp S unb B (fun _ _ _ => True) := by
  intro _ _ _ _ _ _ _ _ _ _ _ _ _ _; trivial

theorem encX_congr {σ : Type} (F : Fmt σ) {S W : Nat} {unb : Bool} {inp inp' : Mem} {n : Nat}
    (hS : 0 < S) (hW : W = 0 ∨ S < W) (hm : ∀ k, k < n + S → inp k = inp' k) :
    encX F S W unb inp n = encX F S W unb inp' n := by
  have hc : Closed F.emit inp S unb (n + S) (fun _ _ _ => True) := closed_true
  have h0 : XInv S unb inp n (fun _ _ _ => True)
    (⟨.top, 0, 0, 0, (rd inp 0 S).map (fun b => ~~~ b), F.init, []⟩ : ES σ) :=
    ⟨trivial, by simp, by simp, by simp, by simp, fun _ => ⟨by simp, by intro k hk; simp at hk⟩, by simp, by simp⟩
  unfold encX
  rw [rd_congr (m₁ := inp') (m₂ := inp) (fun j h1 h2 => (hm j (by omega)).symm)]
  rw [← loop_congr (XInv S unb inp n (fun _ _ _ => True)) (b₁ := stepX F.emit S W unb inp n)
    (b₂ := stepX F.emit S W unb inp' n) ?_ _ _ h0]
  · cases hl : loop (stepX F.emit S W unb inp n) (6 * n + 6)
      (⟨.top, 0, 0, 0, (rd inp 0 S).map (fun b => ~~~ b), F.init, []⟩ : ES σ) with
    | none => rfl
    | some s =>
      obtain ⟨s', h1, h2, h3, h4⟩ := loop_rule (body := stepX F.emit S W unb inp n)
        (XInv S unb inp n (fun _ _ _ => True))
        (fun s' => XInv S unb inp n (fun _ _ _ => True) s' ∧ n ≤ s'.i ∧ s'.pc = .top) (muX n)
        (fun s hs => stepX_inv hS hW (Nat.le_refl _) hc s hs) (6 * n + 6) _ h0
        (by simp [muX, PC.rank])
      rw [hl] at h1
      cases h1
      have := h2.top h4
      have := h2.last
      simp only [Option.map_some, finish]
      rw [rd_congr (m₁ := inp) (m₂ := inp') (a := s.lastRLE) (fun j h1 h2 => hm j (by omega)),
        rd_congr (m₁ := inp) (m₂ := inp') (a := s.lastRLE) (k := s.i - s.lastRLE) (fun j h1 h2 => hm j (by omega))]
  · intro s hs
    refine ⟨stepX_congr hW hm s hs, ?_⟩
    intro s' hs'
    have := stepX_inv hS hW (Nat.le_refl _) hc s hs
    rw [hs'] at this
    exact this.1

/-- The scanner terminates, for every input length. -/
theorem encX_terminates {σ : Type} (F : Fmt σ) {S W : Nat} {unb : Bool} (inp : Mem) (n : Nat)
    (hS : 0 < S) (hW : W = 0 ∨ S < W) : ∃ res, encX F S W unb inp n = some res := by
  obtain ⟨res, h, _⟩ := encX_scan F (unb := unb) (inp := inp) (n := n) (CP := fun _ _ _ => True) hS hW
    (Nat.le_refl (n + S)) closed_true trivial
  exact ⟨res, h⟩

end Hrk
