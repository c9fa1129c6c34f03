import Verif.Stream
import Verif.Depend

/-
What the scanner does with an input that is one repeated symbol.
-/

namespace Hrk

/-- `sym` repeated from the start covers the first `n` bytes. -/
def IsRepeat (inp : Mem) (sym : List Byte) (n : Nat) : Prop :=
  ∀ k, k < n → inp k = sym.getD (k % sym.length) 0

theorem matchLen_full {inp : Mem} {sym : List Byte} {n i : Nat} (h : IsRepeat inp sym n)
    (hd : sym.length ∣ i) : ∀ k off, i + off + k ≤ n → matchLen inp sym i k off = k := by
  intro k
  induction k with
  | zero => intro off _; rfl
  | succ k ih =>
    intro off hk
    unfold matchLen
    rw [h (i + off) (by omega), ih (off + 1) (by omega)]
    obtain ⟨c, rfl⟩ := hd
    rw [Nat.add_comm (sym.length * c) off, Nat.add_mul_mod_self_left, if_pos rfl]
    omega

theorem IsRepeat.rd_eq {inp : Mem} {sym : List Byte} {n p : Nat} (h : IsRepeat inp sym n)
    (hd : sym.length ∣ p) (hp : p + sym.length ≤ n) : rd inp p sym.length = sym := by
  apply List.ext_getElem?
  intro k
  rw [rd_getElem?]
  split
  · next hk =>
    rw [h (p + k) (by omega)]
    obtain ⟨c, rfl⟩ := hd
    rw [Nat.add_comm (sym.length * c) k, Nat.add_mul_mod_self_left, Nat.mod_eq_of_lt hk]
    simp [List.getD, hk]
  · next hk => simp [Nat.le_of_not_lt hk]

/-- Phases of the scanner on a constant input. -/
inductive CPhase {σ : Type} (fs0 : σ) (S n L R : Nat) (inp : Mem) (sym : List Byte) (s : ES σ) : Prop where
  | start (h1 : s.i = 0) (h2 : s.count = 0) (h3 : s.lastRLE = 0) (h4 : s.out = [])
      (h5 : s.sym = (rd inp 0 S).map (fun b => ~~~ b))
  | run (h0 : s.pc = .top ∨ s.pc = .ext ∨ s.pc = .scal ∨ (s.pc = .second ∧ n < s.i + S))
      (h1 : s.count = s.i) (h2 : S ∣ s.i) (h3 : 2 * S ≤ s.i) (h4 : s.i ≤ n ∧ (s.pc ≠ .top → s.i < n)) (h5 : s.sym = sym)
      (h6 : s.lastRLE = 0) (h7 : s.out = [])
  | tail (h1 : n < s.i + S) (h2 : s.i ≤ n ∧ (s.pc ≠ .top → s.i < n)) (h3 : s.count = 0 ∨ s.pc = .search ∨ s.pc = .sscan)
      (h4 : (s.out = [] ∧ s.lastRLE = 0 ∧ n < L + S) ∨ (s.out.length ≤ R ∧ n < s.lastRLE + S))

theorem encX_const {σ : Type} (F : Fmt σ) {S W : Nat} {unb : Bool} {inp : Mem} {n L R E : Nat}
    {sym : List Byte} (hS : 0 < S) (hW : W = 0 ∨ S < W) (hsym : sym.length = S) (hn : 2 * S ≤ n)
    (hrep : IsRepeat inp sym n)
    (he0 : ∀ fs sym lits, F.emit fs sym 0 lits = none)
    (heL : ∀ fs sym cnt lits, F.emit fs sym cnt lits = none → cnt < L)
    (heR : ∀ fs s cnt lits bytes fs', s.length = S → F.emit fs s cnt lits = some (bytes, fs') → bytes.length ≤ R)
    (h1 : F.endRun.length ≤ E) (h2 : ∀ k, (F.endLit k).length ≤ E) :
    ∃ res, encX F S W unb inp n = some res ∧ res.length ≤ R + E + L + S := by
  obtain ⟨res, hres, hs⟩ := encX_scan F (unb := unb) (inp := inp) (n := n) (CP := fun _ _ _ => True) hS hW
    (Nat.le_refl (n + S)) closed_true trivial
  refine ⟨res, hres, ?_⟩
  unfold encX at hres
  cases hl : loop (stepX F.emit S W unb inp n) (6 * n + 6)
      (⟨.top, 0, 0, 0, (rd inp 0 S).map (fun b => ~~~ b), F.init, []⟩ : ES σ) with
  | none => simp [hl] at hres
  | some s =>
    rw [hl] at hres
    simp only [Option.map_some, Option.some.injEq] at hres
    subst hres
    have hrd0 : rd inp 0 S = sym := by
      rw [← hsym]; exact hrep.rd_eq (Nat.dvd_zero _) (by omega)
    have hrdS : rd inp S S = sym := by
      conv => lhs; rw [← hsym]
      exact hrep.rd_eq (Nat.dvd_refl _) (by omega)
    have key : CPhase F.init S n L R inp sym s ∧ n ≤ s.i ∧ s.pc = .top := by
      refine loop_rule_partial (body := stepX F.emit S W unb inp n) (CPhase F.init S n L R inp sym)
        (fun s => CPhase F.init S n L R inp sym s ∧ n ≤ s.i ∧ s.pc = .top) ?_ _ _ _
        (.start rfl rfl rfl rfl rfl) hl
      rintro ⟨pc, i, count, lastRLE, sy, fs, out⟩ h
      cases h with
      | start g1 g2 g3 g4 g5 =>
        simp only at g1 g2 g3 g4 g5
        subst g1 g2 g3 g4
        cases pc with
        | top =>
          simp only [stepX]
          rw [if_pos (by omega)]
          exact .start rfl rfl rfl rfl g5
        | ext =>
          simp only [stepX]
          split
          · rw [if_pos]
            · exact .start rfl rfl rfl rfl g5
            · rw [show W = (W - 1) + 1 by omega]
              unfold matchLen
              rw [if_neg]
              rw [g5, hrd0]
              rw [hrep 0 (by omega)]
              simp only [Nat.zero_mod]
              cases sym with
              | nil => simp at hsym; omega
              | cons a t =>
                simp only [List.map_cons, List.getD_cons_zero]
                intro hh
                have := congrArg UInt8.toNat hh
                have ha := a.toNat_lt
                rw [UInt8.toNat_not] at this
                simp only [UInt8.size] at this
                omega
          · exact .start rfl rfl rfl rfl g5
        | scal =>
          simp only [stepX]
          rw [if_neg (by simp)]
          exact .start rfl rfl rfl rfl g5
        | second =>
          simp only [stepX, doEmit, he0]
          exact .start rfl rfl rfl rfl g5
        | search =>
          simp only [stepX]
          split
          · have : findPair inp S 0 (W - S + 1) 0 = some 0 := by
              unfold findPair pairAt
              rw [if_pos]
              simp only [Nat.add_zero, Nat.zero_add, hrd0, hrdS, beq_self_eq_true]
            rw [this]
            simp only [Nat.add_zero, Nat.zero_add, hrd0]
            exact .run (by simp) rfl (Nat.dvd_mul_left _ _) (Nat.le_refl _) ⟨hn, by simp <;> omega⟩ rfl rfl rfl
          · exact .start rfl rfl rfl rfl g5
        | sscan =>
          simp only [stepX]
          rw [if_pos ⟨by omega, by rw [Nat.zero_add, hrd0, hrdS]⟩]
          simp only [Nat.zero_add, hrd0]
          exact .run (by simp) rfl (Nat.dvd_mul_left _ _) (Nat.le_refl _) ⟨hn, by simp <;> omega⟩ rfl rfl rfl
      | run g0 g1 g2 g3 g4 g5 g6 g7 =>
        simp only at g0 g1 g2 g3 g4 g5 g6 g7
        subst g5 g6 g7
        rw [g1]
        cases pc with
        | top =>
          simp only [stepX]
          split
          · next hlt => exact .run (by simp) rfl g2 g3 ⟨g4.1, fun _ => hlt⟩ rfl rfl rfl
          · exact ⟨.run (by simp) rfl g2 g3 g4 rfl rfl rfl, by simp only; omega, rfl⟩
        | ext =>
          simp only [stepX]
          split
          · have hf : matchLen inp sy i W 0 = W :=
              matchLen_full hrep (by rw [hsym]; exact g2) W 0 (by omega)
            rw [hf, if_neg (by omega), if_pos rfl]
            have : W - W % S ≤ W := Nat.sub_le _ _
            exact .run (by simp) rfl (dvd_add_sub_mod g2) (by simp only; omega) ⟨by simp only; omega, by simp only; omega⟩ rfl rfl rfl
          · exact .run (by simp) rfl g2 g3 ⟨g4.1, fun _ => g4.2 (by simp)⟩ rfl rfl rfl
        | scal =>
          simp only [stepX]
          split
          · have hf : matchLen inp sy i S 0 = S :=
              matchLen_full hrep (by rw [hsym]; exact g2) S 0 (by omega)
            rw [if_pos hf]
            exact .run (by simp) rfl ((Nat.dvd_add_right g2).mpr (Nat.dvd_refl _)) (by simp only; omega)
              ⟨by simp only; omega, by simp⟩ rfl rfl rfl
          · exact .run (by simp; omega) rfl g2 g3 ⟨g4.1, fun _ => g4.2 (by simp)⟩ rfl rfl rfl
        | second =>
          simp at g0
          simp only [stepX, doEmit]
          split
          · next bytes fs' he =>
            refine .tail (by simp only; omega) ⟨g4.1, fun _ => g4.2 (by simp)⟩ (by simp) (Or.inr ⟨?_, by simp only; omega⟩)
            have := heR _ _ _ _ _ _ hsym he
            simp
            omega
          · next he =>
            have := heL _ _ _ _ he
            exact .tail (by simp only; omega) ⟨g4.1, fun _ => g4.2 (by simp)⟩ (by simp) (Or.inl ⟨rfl, rfl, by omega⟩)
        | search => simp at g0
        | sscan => simp at g0
      | tail g1 g2 g3 g4 =>
        simp only at g1 g2 g3 g4
        cases pc with
        | top =>
          simp only [stepX]
          split
          · next hlt => exact .tail g1 ⟨g2.1, fun _ => hlt⟩ (by simpa using g3) g4
          · exact ⟨.tail g1 g2 (by simpa using g3) g4, by simp only; omega, rfl⟩
        | ext =>
          simp only [stepX]
          rw [if_neg (by omega)]
          exact .tail g1 ⟨g2.1, fun _ => g2.2 (by simp)⟩ (by simpa using g3) g4
        | scal =>
          simp only [stepX]
          rw [if_neg (by omega)]
          exact .tail g1 ⟨g2.1, fun _ => g2.2 (by simp)⟩ (by simpa using g3) g4
        | second =>
          have : count = 0 := by simpa using g3
          subst this
          simp only [stepX, doEmit, he0]
          exact .tail g1 ⟨g2.1, fun _ => g2.2 (by simp)⟩ (by simp) g4
        | search =>
          simp only [stepX]
          rw [if_neg (by omega)]
          exact .tail g1 ⟨g2.1, fun _ => g2.2 (by simp)⟩ (by simp) g4
        | sscan =>
          simp only [stepX]
          rw [if_neg (by omega)]
          have := g2.2 (by simp)
          exact .tail (by simp only; omega) ⟨by simp only; omega, by simp⟩ (by simp) g4
    obtain ⟨hph, hni, hpc⟩ := key
    unfold finish
    cases hph with
    | start g1 g2 g3 g4 g5 => omega
    | run g0 g1 g2 g3 g4 g5 g6 g7 =>
      split
      · next bytes fs' he =>
        have := heR _ _ _ _ _ _ (by rw [g5]; exact hsym) he
        simp [g7]
        omega
      · next he =>
        have := heL _ _ _ _ he
        have := h2 (s.i - s.lastRLE)
        simp [g7]
        omega
    | tail g1 g2 g3 g4 =>
      have : s.count = 0 := by simpa [hpc] using g3
      rw [this, he0]
      have := h2 (s.i - s.lastRLE)
      simp
      rcases g4 with ⟨g4, g5, g6⟩ | ⟨g4, g5⟩
      · simp [g4]; omega
      · omega

end Hrk
