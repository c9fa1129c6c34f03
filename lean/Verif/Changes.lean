import Verif.Same

/-
How much a scanner writes, in terms of how often the input changes: every literal and every end of a run is charged to
a position where the input differs from what comes one symbol behind it.
-/

namespace Hrk

/-! ### Counting -/

/-- How many of the numbers below `x` satisfy `p`. -/
def cn (p : Nat → Bool) (x : Nat) : Nat := (List.range x).countP p

theorem cn_zero (p : Nat → Bool) : cn p 0 = 0 := rfl

theorem cn_succ (p : Nat → Bool) (x : Nat) : cn p (x + 1) = cn p x + if p x = true then 1 else 0 := by
  simp [cn, List.range_succ, List.countP_append, List.countP_singleton]

theorem cn_mono (p : Nat → Bool) {x y : Nat} (h : x ≤ y) : cn p x ≤ cn p y := by
  induction y with
  | zero => rw [Nat.le_zero.mp h]
  | succ y ih =>
    by_cases hx : x = y + 1
    · rw [hx]
    · rw [cn_succ]; have := ih (by omega); omega

theorem cn_lt (p : Nat → Bool) {x y j : Nat} (h1 : x ≤ j) (h2 : j < y) (h : p j = true) : cn p x + 1 ≤ cn p y := by
  have := cn_mono p h1
  have := cn_mono p (show j + 1 ≤ y by omega)
  rw [cn_succ, if_pos h] at this
  omega

theorem cn_le (p q r : Nat → Bool) (h : ∀ k, p k = true → q k = true ∨ r k = true) (x : Nat) : cn p x ≤ cn q x + cn r x := by
  induction x with
  | zero => simp [cn_zero]
  | succ x ih =>
    rw [cn_succ, cn_succ, cn_succ]
    have := h x
    by_cases hp : p x = true
    · rw [if_pos hp]
      rcases this hp with hq | hr
      · rw [if_pos hq]; omega
      · rw [if_pos hr]; omega
    · rw [if_neg hp]; omega

theorem cn_shift (p : Nat → Bool) (d x : Nat) : cn (fun k => p (k + d)) x ≤ cn p (x + d) := by
  induction x with
  | zero => simp [cn_zero]
  | succ x ih =>
    rw [cn_succ, show x + 1 + d = x + d + 1 by omega, cn_succ]
    omega

theorem cn_none (p : Nat → Bool) {n : Nat} (h : ∀ k, n ≤ k → p k = false) (x : Nat) : cn p x ≤ cn p n := by
  induction x with
  | zero => simp [cn_zero]
  | succ x ih =>
    by_cases hx : x < n
    · exact cn_mono p hx
    · rw [cn_succ, h x (by omega)]
      simpa using ih

/-- A position counts at most `S` times if every window of `S` positions that counts contains it. -/
theorem cn_window (p : Nat → Bool) {n : Nat} (h : ∀ k, n ≤ k → p k = false) (x : Nat) : ∀ S (q : Nat → Bool),
    (∀ k, q k = true → ∃ d, d < S ∧ p (k + d) = true) → cn q x ≤ S * cn p n := by
  intro S
  induction S with
  | zero =>
    intro q hq
    have := cn_le q (fun _ => false) (fun _ => false) (fun k hk => by obtain ⟨d, hd, _⟩ := hq k hk; omega) x
    simpa [cn] using this
  | succ S ih =>
    intro q hq
    have h1 := cn_le q (fun k => (List.range S).any fun d => p (k + d)) (fun k => p (k + S)) (fun k hk => by
      obtain ⟨d, hd, hp⟩ := hq k hk
      by_cases hs : d = S
      · exact .inr (hs ▸ hp)
      · exact .inl (List.any_eq_true.mpr ⟨d, List.mem_range.mpr (by omega), hp⟩)) x
    have h2 := ih (fun k => (List.range S).any fun d => p (k + d)) (fun k hk => by
      obtain ⟨d, hd, hp⟩ := List.any_eq_true.mp hk
      exact ⟨d, List.mem_range.mp hd, hp⟩)
    have h3 := cn_shift p S x
    have h4 := cn_none p h (x + S)
    rw [Nat.succ_mul]
    omega

/-! ### The multi byte scanner -/

section
variable (S : Nat) (inp : Mem) (n D : Nat)

/-- Is the byte at `j` different from the one `S` bytes behind it? -/
def chg (j : Nat) : Bool := decide (j + S < n ∧ inp j ≠ inp (j + S))

/-- Is `p` the position of a symbol that is not repeated? -/
def lone (p : Nat) : Bool := decide (p + 2 * S ≤ n) && !pairAt inp S p

/-- What may have been spent up to `a`. -/
def pot (a : Nat) : Nat := D * cn (chg S inp n) a + cn (lone S inp n) a + (a - (n - 2 * S)) + if n < a + S then D else 0

/-- The number of positions where the byte differs from the one `S` bytes behind it. -/
def changes : Nat := (List.range (n - S)).countP fun j => inp j != inp (j + S)

end

section
variable {S : Nat} {inp : Mem} {n D : Nat}

theorem chg_iff {j : Nat} : chg S inp n j = true ↔ j + S < n ∧ inp j ≠ inp (j + S) := by simp [chg]

theorem chg_total : cn (chg S inp n) n = changes S inp n := by
  have : ∀ x, n - S ≤ x → cn (chg S inp n) x = cn (chg S inp n) (n - S) := by
    intro x hx
    have := cn_mono (chg S inp n) hx
    have := cn_none (chg S inp n) (n := n - S) (fun k hk => by
      cases h : chg S inp n k with
      | false => rfl
      | true => have := (chg_iff.mp h).1; omega) x
    omega
  rw [this n (by omega)]
  unfold changes cn
  apply List.countP_congr
  intro j hj
  have := List.mem_range.mp hj
  simp only [chg, decide_eq_true_eq, bne_iff_ne]
  constructor
  · exact fun h => h.2
  · exact fun h => ⟨by omega, h⟩

theorem lone_chg {p : Nat} (h : lone S inp n p = true) : ∃ d, d < S ∧ chg S inp n (p + d) = true := by
  simp only [lone, Bool.and_eq_true, decide_eq_true_eq, Bool.not_eq_true'] at h
  obtain ⟨h1, h2⟩ := h
  refine Classical.byContradiction fun hn => ?_
  have : pairAt inp S p = true := by
    simp only [pairAt, beq_iff_eq]
    refine List.ext_getElem (by simp) fun k hk hk' => ?_
    have hk'' : k < S := by simpa using hk
    have : inp (p + k) = inp (p + k + S) := by
      refine Classical.byContradiction fun hne => hn ⟨k, hk'', chg_iff.mpr ⟨by omega, hne⟩⟩
    have e : inp (p + S + k) = inp (p + k + S) := by rw [show p + S + k = p + k + S by omega]
    simp only [rd, List.getElem_map, List.getElem_range]
    rw [e, this]
  rw [this] at h2
  cases h2

theorem lone_total (x : Nat) : cn (lone S inp n) x ≤ S * changes S inp n := by
  rw [← chg_total]
  refine cn_window _ (fun k hk => ?_) x S _ fun k hk => lone_chg hk
  cases h : chg S inp n k with
  | false => rfl
  | true => have := (chg_iff.mp h).1; omega

theorem pot_mono {a b : Nat} (h : a ≤ b) : pot S inp n D a ≤ pot S inp n D b := by
  unfold pot
  have h1 := Nat.mul_le_mul_left D (cn_mono (chg S inp n) h)
  have h2 := cn_mono (lone S inp n) h
  have h3 : (if n < a + S then D else 0) ≤ if n < b + S then D else 0 := by
    split
    · rw [if_pos (by omega)]
    · omega
  omega

theorem pot_lit {i : Nat} (h : ¬ (i + S ≤ n ∧ rd inp (i + S) S = rd inp i S)) : pot S inp n D i + 1 ≤ pot S inp n D (i + 1) := by
  unfold pot
  have h1 := Nat.mul_le_mul_left D (cn_mono (chg S inp n) (Nat.le_succ i))
  have h3 : (if n < i + S then D else 0) ≤ if n < i + 1 + S then D else 0 := by
    split
    · rw [if_pos (by omega)]
    · omega
  by_cases hi : i + 2 * S ≤ n
  · have : lone S inp n i = true := by
      simp only [lone, Bool.and_eq_true, decide_eq_true_eq, Bool.not_eq_true']
      refine ⟨hi, ?_⟩
      cases hp : pairAt inp S i with
      | false => rfl
      | true =>
        simp only [pairAt, beq_iff_eq] at hp
        exact absurd ⟨by omega, hp.symm⟩ h
    have h2 := cn_lt (lone S inp n) (Nat.le_refl i) (Nat.lt_succ_self i) this
    simp only [Nat.succ_eq_add_one] at h1 h2
    omega
  · have h2 := cn_mono (lone S inp n) (Nat.le_succ i)
    simp only [Nat.succ_eq_add_one] at h1 h2
    omega

theorem pot_chg {a b j : Nat} (h1 : a ≤ j) (h2 : j < b) (h : chg S inp n j = true) : pot S inp n D a + D ≤ pot S inp n D b := by
  unfold pot
  have h3 := Nat.mul_le_mul_left D (cn_lt (chg S inp n) h1 h2 h)
  have h4 := cn_mono (lone S inp n) (show a ≤ b by omega)
  have h5 : (if n < a + S then D else 0) ≤ if n < b + S then D else 0 := by
    split
    · rw [if_pos (by omega)]
    · omega
  rw [Nat.mul_succ] at h3
  omega

theorem pot_end {a b : Nat} (hab : a ≤ b) (h1 : a + S ≤ n) (h2 : n < b + S) : pot S inp n D a + D ≤ pot S inp n D b := by
  unfold pot
  have h3 := Nat.mul_le_mul_left D (cn_mono (chg S inp n) hab)
  have h4 := cn_mono (lone S inp n) hab
  rw [if_neg (show ¬ n < a + S by omega), if_pos h2]
  omega

/-- What an emission rule may cost: a run it leaves out has at most `D` bytes, a record at most `D`. -/
structure EmitCost {σ : Type} (emit : Emit σ) (P : σ → Prop) (S D : Nat) : Prop where
  zero : ∀ fs sym lits, emit fs sym 0 lits = none
  none : ∀ fs sym cnt lits, P fs → emit fs sym cnt lits = none → cnt ≤ D
  some : ∀ fs s cnt lits bytes fs', P fs → s.length = S → emit fs s cnt lits = some (bytes, fs') → bytes.length ≤ D ∧ P fs'

theorem EmitCost.closed {σ : Type} {emit : Emit σ} {P : σ → Prop} {S D : Nat} (h : EmitCost emit P S D) {inp : Mem} {unb : Bool} {B : Nat} :
    Closed emit inp S unb B (fun fs _ _ => P fs) := by
  intro fs out last sym cnt lits bytes fs' hP hl _ _ _ he
  exact (h.some _ _ _ _ _ _ hP hl he).2

/-- What the scanner has spent. -/
structure CInv {σ : Type} (S : Nat) (inp : Mem) (n D : Nat) (s : ES σ) : Prop where
  run : s.pc = .top ∨ s.pc = .ext ∨ s.pc = .scal →
    s.out.length + (s.i - s.count - s.lastRLE) ≤ pot S inp n D (s.i - s.count) ∧
      (s.count ≠ 0 → 2 * S ≤ s.count ∧ s.i - s.count + S ≤ n)
  second : s.pc = .second →
    s.out.length + (s.i - s.count - s.lastRLE) + (if s.count = 0 then 0 else D) ≤ pot S inp n D s.i
  free : s.pc = .search ∨ s.pc = .sscan → s.out.length + (s.i - s.lastRLE) ≤ pot S inp n D s.i

theorem stepX_changes {σ : Type} {emit : Emit σ} {unb : Bool} (hS : 0 < S)
    {P : σ → Prop} (he : EmitCost emit P S D)
    (s : ES σ) (hx : XInv S unb inp n (fun fs _ _ => P fs) s) (h : CInv S inp n D s) :
    Post (stepX emit S 0 unb inp n s) (fun s' => CInv S inp n D s') (fun s' => CInv S inp n D s') := by
  obtain ⟨pc, i, count, lastRLE, sym, fs, out⟩ := s
  obtain ⟨hP, hlen, hlast, htop, hntop, hcnt, hdvd, hdvd2⟩ := hx
  obtain ⟨hrun, hsec, hfree⟩ := h
  simp only at *
  cases pc with
  | top =>
    simp only [stepX]
    split
    · exact ⟨fun _ => hrun (.inl rfl), by simp, by simp⟩
    · exact ⟨fun _ => hrun (.inl rfl), by simp, by simp⟩
  | ext =>
    simp only [stepX]
    rw [if_neg (by simp)]
    exact ⟨fun _ => hrun (.inr (.inl rfl)), by simp, by simp⟩
  | scal =>
    obtain ⟨h1, h2⟩ := hcnt (by simp)
    have h3 := hdvd (by simp)
    obtain ⟨g1, g2⟩ := hrun (by simp)
    simp only [stepX]
    by_cases hc : count = 0
    · subst hc
      rw [if_neg (by simp)]
      exact ⟨by simp, fun _ => by simpa using g1, by simp⟩
    · obtain ⟨g3, g4⟩ := g2 hc
      by_cases hi : i + S ≤ n
      · rw [if_pos ⟨hc, hi⟩]
        have hm := matchLen_le inp sym i S 0
        split
        · next hf =>
          refine ⟨fun _ => ?_, by simp, by simp⟩
          simp only
          rw [show i + S - (count + S) = i - count by omega]
          exact ⟨g1, fun _ => ⟨by omega, g4⟩⟩
        · next hf =>
          have hst := matchLen_stop inp sym i S 0 (by omega)
          generalize matchLen inp sym i S 0 = off at *
          have hch : chg S inp n (i + off - S) = true := by
            refine chg_iff.mpr ⟨by omega, ?_⟩
            rw [Nat.zero_add, hlen, Nat.mod_eq_of_lt (by omega)] at hst
            have := h2 (count - S + off) (by omega)
            rw [hlen] at this
            have hmod : (count - S + off) % S = off := by
              obtain ⟨c, rfl⟩ := h3
              obtain ⟨c', rfl⟩ : ∃ c', c = c' + 1 := ⟨c - 1, by cases c <;> simp at hc ⊢⟩
              rw [show S * (c' + 1) - S + off = off + S * c' by rw [Nat.mul_succ]; omega, Nat.add_mul_mod_self_left,
                Nat.mod_eq_of_lt (by omega)]
            rw [hmod] at this
            rw [show i + off - S = i - count + (count - S + off) by omega, this,
              show i - count + (count - S + off) + S = i + off by omega]
            exact fun he => hst he.symm
          split
          · refine ⟨by simp, fun _ => ?_, by simp⟩
            simp only
            rw [show i + off - (count + off) = i - count by omega, if_neg (by omega)]
            have := pot_chg (D := D) (a := i - count) (b := i + off) (by omega) (by omega) hch
            omega
          · refine ⟨by simp, fun _ => ?_, by simp⟩
            simp only
            rw [if_neg hc]
            have := pot_chg (D := D) (a := i - count) (b := i) (by omega) (by omega) hch
            omega
      · rw [if_neg (by simp [hi])]
        refine ⟨by simp, fun _ => ?_, by simp⟩
        simp only
        rw [if_neg hc]
        have := pot_end (inp := inp) (D := D) (a := i - count) (b := i) (by omega) g4 (by omega)
        omega
  | second =>
    obtain ⟨h1, h2⟩ := hcnt (by simp)
    have g := hsec rfl
    simp only [stepX, doEmit]
    split
    · next bytes fs' hs =>
      refine ⟨by simp, by simp, fun _ => ?_⟩
      have hc : count ≠ 0 := by
        rintro rfl
        rw [he.zero] at hs
        cases hs
      rw [if_neg hc] at g
      have := (he.some _ _ _ _ _ _ hP hlen hs).1
      simp only [List.length_append, rd_length, Nat.sub_self]
      omega
    · next hs =>
      refine ⟨by simp, by simp, fun _ => ?_⟩
      have := he.none _ _ _ _ hP hs
      simp only
      split at g <;> omega
  | search =>
    simp only [stepX]
    rw [if_neg (by simp)]
    exact ⟨by simp, by simp, fun _ => hfree (.inl rfl)⟩
  | sscan =>
    have h4 := hntop (by simp)
    have g := hfree (.inr rfl)
    simp only [stepX]
    split
    · next hi =>
      refine ⟨fun _ => ?_, by simp, by simp⟩
      simp only
      rw [show i + 2 * S - 2 * S = i by omega]
      exact ⟨g, fun _ => ⟨Nat.le_refl _, hi.1⟩⟩
    · next hi =>
      refine ⟨fun _ => ?_, by simp, by simp⟩
      have := pot_lit (D := D) hi
      simp only [Nat.sub_zero]
      exact ⟨by omega, fun h => absurd rfl h⟩

/-- The multi byte encoders write at most `D + S` bytes for every change and a constant. -/
theorem finishX_changes {σ : Type} (F : Fmt σ) (emitEnd : Emit σ) {W E : Nat} {unb : Bool} (hS : 0 < S) (hW : W = 0 ∨ S < W)
    {P : σ → Prop} (hI : P F.init) (he : EmitCost F.emit P S D) (he' : EmitCost emitEnd P S D)
    (h1 : F.endRun.length ≤ E) (h2 : ∀ k, (F.endLit k).length ≤ E) (s : ES σ) (hs : runX F S W unb inp n = some s) :
    (finish emitEnd F.endRun F.endLit inp s).length ≤ (D + S) * changes S inp n + D + 3 * S + E := by
  rw [runX_same F he.zero hS hW] at hs
  unfold runX at hs
  have key : (XInv S unb inp n (fun fs _ _ => P fs) s ∧ CInv S inp n D s) ∧ s.pc = .top := by
    refine loop_rule_partial (body := stepX F.emit S 0 unb inp n)
      (fun s => XInv S unb inp n (fun fs _ _ => P fs) s ∧ CInv S inp n D s)
      (fun s => (XInv S unb inp n (fun fs _ _ => P fs) s ∧ CInv S inp n D s) ∧ s.pc = .top) ?_ _ _ _ ?_ hs
    · rintro s ⟨hx, hc⟩
      have g1 := stepX_inv (emit := F.emit) hS (.inl rfl) (Nat.le_refl (n + S)) he.closed s hx
      have g2 := stepX_changes hS he s hx hc
      cases hb : stepX F.emit S 0 unb inp n s with
      | inl s' => rw [hb] at g1 g2; exact ⟨g1.1, g2⟩
      | inr s' => rw [hb] at g1 g2; exact ⟨⟨g1.1, g2⟩, g1.2.2⟩
    · refine ⟨⟨hI, by simp, by simp, by simp, by simp, fun _ => ⟨by simp, by intro k hk; simp at hk⟩, by simp, by simp⟩,
        fun _ => by simp, by simp, by simp⟩
  obtain ⟨⟨hx, hc⟩, hp⟩ := key
  obtain ⟨g1, g2⟩ := hc.run (.inl hp)
  obtain ⟨g3, g4⟩ := hx.cnt (.inl hp)
  have g5 := hx.top hp
  have hlen := hx.len
  have hN := Nat.mul_le_mul_left D (cn_none (chg S inp n) (n := n) (fun k hk => by
      cases h : chg S inp n k with
      | false => rfl
      | true => have := (chg_iff.mp h).1; omega) (s.i - s.count))
  rw [chg_total] at hN
  have hM := lone_total (S := S) (inp := inp) (n := n) (s.i - s.count)
  have hpot : pot S inp n D (s.i - s.count) + (if s.count = 0 then 0 else D) ≤ (D + S) * changes S inp n + D + 3 * S := by
    unfold pot
    rw [Nat.add_mul]
    by_cases hz : s.count = 0
    · rw [if_pos hz]
      have : (if n < s.i - s.count + S then D else 0) ≤ D := by split <;> omega
      omega
    · rw [if_neg hz]
      obtain ⟨g6, g7⟩ := g2 hz
      rw [if_neg (show ¬ n < s.i - s.count + S by omega)]
      omega
  unfold finish
  split
  · next bytes fs' hs =>
    have hz : s.count ≠ 0 := by
      intro hz
      rw [hz, he'.zero] at hs
      cases hs
    rw [if_neg hz] at hpot
    have := (he'.some _ _ _ _ _ _ hx.cp hlen hs).1
    simp only [List.length_append, rd_length]
    omega
  · next hs =>
    have := he'.none _ _ _ _ hx.cp hs
    have := h2 (s.i - s.lastRLE)
    simp only [List.length_append, rd_length]
    split at hpot <;> omega

/-! ### The byte scanner -/

/-- What the byte scanner has spent. -/
structure CInv8 {σ : Type} (inp : Mem) (n D : Nat) (s : ES σ) : Prop where
  run : s.pc = .top ∨ s.pc = .ext ∨ s.pc = .scal →
    s.out.length + (s.i - s.count - s.lastRLE) ≤ D * cn (chg 1 inp n) (s.i - s.count)
  second : s.pc = .second →
    s.out.length + (s.i - s.count - s.lastRLE) + (if s.count = 0 then 0 else D) ≤ D * cn (chg 1 inp n) s.i
  free : s.pc = .search ∨ s.pc = .sscan → s.out.length + (s.i - s.lastRLE) ≤ D * cn (chg 1 inp n) s.i

theorem mul_cn_chg {a b j : Nat} (h1 : a ≤ j) (h2 : j < b) (h : chg 1 inp n j = true) :
    D * cn (chg 1 inp n) a + D ≤ D * cn (chg 1 inp n) b := by
  have h3 := Nat.mul_le_mul_left D (cn_lt (chg 1 inp n) h1 h2 h)
  rw [Nat.mul_succ] at h3
  exact h3

/-- Positions that do not begin a pair are changes. -/
theorem mul_cn_skip (hD : 1 ≤ D) {i : Nat} : ∀ k, i + k < n → (∀ j, j < k → pairAt inp 1 (i + j) = false) →
    D * cn (chg 1 inp n) i + k ≤ D * cn (chg 1 inp n) (i + k) := by
  intro k
  induction k with
  | zero => intro _ _; exact Nat.le_refl _
  | succ k ih =>
    intro hn hj
    have h1 := ih (by omega) fun j hj' => hj j (by omega)
    have h2 : chg 1 inp n (i + k) = true := by
      refine chg_iff.mpr ⟨by omega, fun he => ?_⟩
      have := hj k (by omega)
      simp [pairAt, rd, he] at this
    have h3 := mul_cn_chg (D := D) (Nat.le_refl (i + k)) (Nat.lt_succ_self (i + k)) h2
    simp only [Nat.succ_eq_add_one, Nat.add_assoc] at h3
    omega

theorem findPair_none' {S i : Nat} : ∀ k off, findPair inp S i k off = none → ∀ j, j < k → pairAt inp S (i + (off + j)) = false := by
  intro k
  induction k with
  | zero => intro off _ j hj; omega
  | succ k ih =>
    intro off h j hj
    unfold findPair at h
    split at h
    · cases h
    · next hp =>
      cases j with
      | zero => simpa using hp
      | succ j =>
        have := ih (off + 1) h j (by omega)
        rwa [show off + (j + 1) = off + 1 + j by omega]

theorem findPair_some' {S i : Nat} : ∀ k off z, findPair inp S i k off = some z →
    ∀ j, off + j < z → pairAt inp S (i + (off + j)) = false := by
  intro k
  induction k with
  | zero => intro off z h; simp [findPair] at h
  | succ k ih =>
    intro off z h j hj
    unfold findPair at h
    split at h
    · cases h; omega
    · next hp =>
      cases j with
      | zero => simpa using hp
      | succ j =>
        have := ih (off + 1) z h j (by omega)
        rwa [show off + (j + 1) = off + 1 + j by omega]

/-- A byte that does not continue the run in front of it is a change. -/
theorem chg_runEnd {sym : List Byte} {i count : Nat} (hl : sym.length = 1) (hr : RunAt inp sym i count) (hc : count ≠ 0) (hi : count ≤ i)
    (hn : i < n) (hne : inp i ≠ sym.getD 0 0) : chg 1 inp n (i - 1) = true := by
  refine chg_iff.mpr ⟨by omega, ?_⟩
  have := hr (count - 1) (by omega)
  rw [hl, Nat.mod_one, show i - count + (count - 1) = i - 1 by omega] at this
  rw [this, show i - 1 + 1 = i by omega]
  exact fun h => hne h.symm

theorem doEmit_changes {σ : Type} {emit : Emit σ} {P : σ → Prop} (he : EmitCost emit P 1 D) (s : ES σ) (hP : P s.fs)
    (hlen : s.sym.length = 1) (hlast : s.lastRLE + s.count ≤ s.i) {M : Nat}
    (h : s.out.length + (s.i - s.count - s.lastRLE) + (if s.count = 0 then 0 else D) ≤ M) :
    (doEmit emit inp s).out.length + (s.i - (doEmit emit inp s).lastRLE) ≤ M := by
  unfold doEmit
  split
  · next bytes fs' hs =>
    have hc : s.count ≠ 0 := by
      intro hc
      rw [hc, he.zero] at hs
      cases hs
    rw [if_neg hc] at h
    have := (he.some _ _ _ _ _ _ hP hlen hs).1
    simp only [List.length_append, rd_length, Nat.sub_self]
    omega
  · next hs =>
    have := he.none _ _ _ _ hP hs
    split at h <;> omega

theorem step8_changes {σ : Type} {emit emitT : Emit σ} {W : Nat} (hW : 2 ≤ W) (hD : 1 ≤ D)
    {P : σ → Prop} (he : EmitCost emit P 1 D) (heT : EmitCost emitT P 1 D)
    (s : ES σ) (hx : Inv8 W inp n (fun fs _ _ => P fs) s) (h : CInv8 inp n D s) :
    Post (step8 emit emitT W inp n s) (fun s' => CInv8 inp n D s') (fun s' => CInv8 inp n D s') := by
  obtain ⟨pc, i, count, lastRLE, sym, fs, out⟩ := s
  obtain ⟨hP, hlen, hlast, hhi, hext, hlt, hcnt⟩ := hx
  obtain ⟨hrun, hsec, hfree⟩ := h
  simp only at *
  cases pc with
  | top =>
    simp only [step8]
    split
    · exact ⟨fun _ => hrun (.inl rfl), by simp, by simp⟩
    · exact ⟨fun _ => hrun (.inl rfl), by simp, by simp⟩
  | ext =>
    obtain ⟨h1, h2⟩ := hcnt (by simp) (by simp)
    have g := hrun (by simp)
    have hi := hext rfl
    have hm := matchLen_le inp sym i W 0
    simp only [step8]
    split
    · next hf =>
      refine ⟨fun _ => ?_, by simp, by simp⟩
      simp only
      rw [show i + W - (count + W) = i - count by omega]
      exact g
    · next hf =>
      have hst := matchLen_stop inp sym i W 0 (by omega)
      have hr := h2.extend1 (W := W) hlen (by omega) (Nat.le_refl (matchLen inp sym i W 0))
      rw [hlen, Nat.mod_one, Nat.zero_add] at hst
      split
      · refine ⟨by simp, fun _ => ?_, by simp⟩
        generalize matchLen inp sym i W 0 = m at *
        simp only
        rw [show i + m - (count + m) = i - count by omega]
        split
        · next hz =>
          have := Nat.mul_le_mul_left D (cn_mono (chg 1 inp n) (show i - count ≤ i + m by omega))
          omega
        · next hz =>
          have hc := chg_runEnd (n := n) hlen hr hz (by omega) (by omega) hst
          have := mul_cn_chg (D := D) (a := i - count) (b := i + m) (by omega) (by omega) hc
          omega
      · next ha =>
        have hz : matchLen inp sym i W 0 = 0 := by
          refine Classical.byContradiction fun hz => ha (.inl ?_)
          have := matchLen_spec inp sym i W 0 0 (by omega)
          rw [hlen, Nat.mod_one] at this
          exact List.any_eq_true.mpr ⟨0, List.mem_range.mpr (by omega), by simpa using this⟩
        refine ⟨by simp, by simp, fun _ => ?_⟩
        simp only
        rw [hz] at hst
        by_cases hc : count = 0
        · subst hc; simpa using g
        · have hc' := chg_runEnd (n := n) hlen h2 hc (by omega) (by omega) hst
          have := mul_cn_chg (D := D) (a := i - count) (b := i) (by omega) (by omega) hc'
          omega
  | second =>
    obtain ⟨h1, h2⟩ := hcnt (by simp) (by simp)
    have := doEmit_changes (inp := inp) he ⟨.second, i, count, lastRLE, sym, fs, out⟩ hP hlen h1 (hsec rfl)
    simp only [step8]
    refine ⟨by simp, by simp, fun _ => ?_⟩
    have hi := doEmit_i (emit := emit) (inp := inp) (⟨.second, i, count, lastRLE, sym, fs, out⟩ : ES σ)
    simp only at hi this ⊢
    rw [hi]
    exact this
  | search =>
    have g := hfree (by simp)
    simp only [step8]
    split
    · next hi =>
      split
      · next hf =>
        refine ⟨by simp, by simp, fun _ => ?_⟩
        have := mul_cn_skip (inp := inp) (n := n) (D := D) hD (i := i) (W - 1) (by omega) fun j hj => by
          simpa using findPair_none' _ _ hf j hj
        simp only
        omega
      · next z hf =>
        refine ⟨by simp, by simp, fun _ => ?_⟩
        have hz := (findPair_spec _ _ _ _ _ _ hf).2.1
        have := mul_cn_skip (inp := inp) (n := n) (D := D) hD (i := i) z (by omega) fun j hj => by
          simpa using findPair_some' _ _ _ hf j (by omega)
        simp only
        omega
    · exact ⟨by simp, by simp, fun _ => g⟩
  | sscan =>
    have g := hfree (by simp)
    simp only [step8]
    refine ⟨fun _ => ?_, by simp, by simp⟩
    simpa using g
  | scal =>
    obtain ⟨h1, h2⟩ := hcnt (by simp) (by simp)
    have g := hrun (by simp)
    simp only [step8]
    split
    · next hi =>
      split
      · refine ⟨fun _ => ?_, by simp, by simp⟩
        simp only
        rw [show i + 1 - (count + 1) = i - count by omega]
        exact g
      · next hne =>
        have hne' : inp i ≠ sym.getD 0 0 := by
          intro he
          apply hne
          match sym, hlen with
          | [b], _ => simpa [rd] using he
        have key : out.length + (i - count - lastRLE) + (if count = 0 then 0 else D) ≤ D * cn (chg 1 inp n) i := by
          split
          · next hc => subst hc; simpa using g
          · next hc =>
            have hc' := chg_runEnd (n := n) hlen h2 hc (by omega) hi hne'
            have := mul_cn_chg (D := D) (a := i - count) (b := i) (by omega) (by omega) hc'
            omega
        have := doEmit_changes (inp := inp) heT ⟨.scal, i, count, lastRLE, sym, fs, out⟩ hP hlen h1 key
        refine ⟨fun _ => ?_, ?_, ?_⟩
        · simpa using this
        · simp [doEmit_pc]
        · simp [doEmit_pc]
    · exact ⟨fun _ => g, by simp, by simp⟩

/-- The byte encoders write at most `D` bytes for every change and a constant. -/
theorem finish8_changes {σ : Type} (F : Fmt σ) (emitT emitEnd : Emit σ) {W E : Nat} (hW : 2 ≤ W) (hD : 1 ≤ D)
    {P : σ → Prop} (hI : P F.init) (he : EmitCost F.emit P 1 D) (heT : EmitCost emitT P 1 D) (he' : EmitCost emitEnd P 1 D)
    (h1 : F.endRun.length ≤ E) (h2 : ∀ k, (F.endLit k).length ≤ E) (s : ES σ) (hs : run8T F emitT W inp n = some s) :
    (finish emitEnd F.endRun F.endLit inp s).length ≤ D * changes 1 inp n + D + E := by
  unfold run8T at hs
  have key : (Inv8 W inp n (fun fs _ _ => P fs) s ∧ CInv8 inp n D s) ∧ s.pc = .scal := by
    refine loop_rule_partial (body := step8 F.emit emitT W inp n)
      (fun s => Inv8 W inp n (fun fs _ _ => P fs) s ∧ CInv8 inp n D s)
      (fun s => (Inv8 W inp n (fun fs _ _ => P fs) s ∧ CInv8 inp n D s) ∧ s.pc = .scal) ?_ _ _ _ ?_ hs
    · rintro s ⟨hx, hc⟩
      have g1 := step8_inv (unb := true) hW (Nat.le_refl n) he.closed heT.closed s hx
      have g2 := step8_changes hW hD he heT s hx hc
      cases hb : step8 F.emit emitT W inp n s with
      | inl s' => rw [hb] at g1 g2; exact ⟨g1.1, g2⟩
      | inr s' => rw [hb] at g1 g2; exact ⟨⟨g1.1, g2⟩, g1.2.2⟩
    · exact ⟨inv8_start hI, fun _ => by simp, by simp, by simp⟩
  obtain ⟨⟨hx, hc⟩, hp⟩ := key
  have g1 := hc.run (.inr (.inr hp))
  obtain ⟨g3, g4⟩ := hx.cnt (by simp [hp]) (by simp [hp])
  have hN := Nat.mul_le_mul_left D (cn_none (chg 1 inp n) (n := n) (fun k hk => by
      cases h : chg 1 inp n k with
      | false => rfl
      | true => have := (chg_iff.mp h).1; omega) (s.i - s.count))
  rw [chg_total] at hN
  have := doEmit_changes (inp := inp) he' s hx.cp hx.len g3 (M := D * changes 1 inp n + D) (by split <;> omega)
  unfold doEmit at this
  unfold finish
  split
  · next bytes fs' hs =>
    rw [hs] at this
    simp only [List.length_append, rd_length, Nat.sub_self] at this ⊢
    omega
  · next hs =>
    rw [hs] at this
    have := h2 (s.i - s.lastRLE)
    simp only [List.length_append, rd_length] at *
    omega

end

end Hrk
