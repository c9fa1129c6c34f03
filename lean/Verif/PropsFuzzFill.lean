import Verif.PropsFuzz

/-
C41: the generator of the fuzzer stays inside its buffer, in both modes.
-/

namespace Hrk.Fuzz

/-! ### Specification -/

/-- The states the fuzzer can be in with `n` sections: made by `fuzz_create`, or by a successful
`fuzz_state_advance` from such a state, whatever was drawn. -/
inductive Reach (n : Nat) (iterative : Bool) : State → Prop
  | create (q : Draws) : Reach n iterative (create q n iterative)
  | advance (q : Draws) {s s' : State} : Reach n iterative s → s.advance q = some (true, s') → Reach n iterative s'

/-- Total length of the sections. -/
def State.total (s : State) : List Sub → Nat
  | [] => 0
  | u :: us => s.secLen u + s.total us

/-- Every run section holds its symbol over and over. -/
def State.Holds (s : State) (m : Mem) : List Sub → Nat → Prop
  | [], _ => True
  | u :: us, p =>
    (u.ty = 1 → ∀ k, k < s.secLen u → m (p + k) = s.symbol u.sym (k % s.symbolLength)) ∧
      s.Holds m us (p + s.secLen u)

/-! ### Filling -/

/-- `m'` differs from `m` only in `[l, r)`. -/
def Only (m m' : Mem) (l r : Nat) : Prop := ∀ k, k < l ∨ r ≤ k → m' k = m k

theorem put_ok {cap : Nat} {o : Out} {a k : Nat} {f : Nat → Byte} (h : a + k ≤ cap) :
    put cap o a k f = some { o with mem := wr o.mem a k f } := by
  unfold put; rw [if_pos h]

theorem wr_only {m : Mem} {a k l r : Nat} {f : Nat → Byte} (h1 : l ≤ a) (h2 : a + k ≤ r) : Only m (wr m a k f) l r := by
  intro i hi
  unfold wr
  rw [if_neg (by omega)]

theorem Only.trans {m m' m'' : Mem} {l r : Nat} (h : Only m m' l r) (h' : Only m' m'' l r) : Only m m'' l r :=
  fun k hk => (h' k hk).trans (h k hk)

theorem fillRepeat_spec {sym : Nat → Byte} {cap sl p len : Nat} (o : Out) (h1 : 1 ≤ sl) (h2 : sl ≤ 16) (h3 : p + len ≤ cap) :
    ∃ o', fillRepeat sym cap sl p len o = some o' ∧ Only o.mem o'.mem p (p + len) ∧ ∀ k, k < len → o'.mem (p + k) = sym (k % sl) := by
  obtain ⟨r, hr, s, hs, hq⟩ := loop_rule (body := stepSymbols sym cap sl p len)
    (fun s => s.1 % sl = 0 ∧ s.1 ≤ len ∧ Only o.mem s.2.mem p (p + len) ∧ ∀ k, k < s.1 → s.2.mem (p + k) = sym (k % sl))
    (fun r => ∃ s, r = some s ∧ len < s.1 + sl ∧ s.1 % sl = 0 ∧ s.1 ≤ len ∧ Only o.mem s.2.mem p (p + len) ∧
      ∀ k, k < s.1 → s.2.mem (p + k) = sym (k % sl))
    (fun s => len - s.1) (by
      intro s ⟨i1, i2, i3, i4⟩
      unfold stepSymbols
      by_cases hc : s.1 + sl ≤ len
      · rw [if_pos hc, if_pos h2, put_ok (by omega)]
        simp only [Post_inl]
        refine ⟨⟨?_, hc, i3.trans (wr_only (by omega) (by omega)), ?_⟩, by omega⟩
        · rw [Nat.add_mod_right]; exact i1
        · intro k hk
          unfold wr
          by_cases h : k < s.1
          · rw [if_neg (by omega)]; exact i4 k h
          · rw [if_pos (by omega)]
            obtain ⟨z, hz⟩ := Nat.exists_eq_add_of_le (Nat.not_lt.mp h)
            rw [hz, show p + (s.1 + z) - (p + s.1) = z by omega, Nat.add_mod, i1, Nat.zero_add, Nat.mod_mod,
              Nat.mod_eq_of_lt (by omega)]
      · rw [if_neg hc]
        exact ⟨s, rfl, by omega, i1, i2, i3, i4⟩)
    (len + 1) (0, o) ⟨Nat.zero_mod _, Nat.zero_le _, fun _ _ => rfl, fun k hk => absurd hk (Nat.not_lt_zero k)⟩
    (by show len - 0 < len + 1; omega)
  subst hs
  obtain ⟨i0, i1, i2, i3, i4⟩ := hq
  unfold fillRepeat
  rw [hr]
  simp only [Option.bind_some, id]
  by_cases hc : s.1 < len
  · rw [if_pos hc, if_pos (by omega), put_ok (by omega)]
    refine ⟨_, rfl, i3.trans (wr_only (by omega) (by omega)), ?_⟩
    intro k hk
    unfold wr
    by_cases h : k < s.1
    · simp only [if_neg (show ¬ (p + s.1 ≤ p + k ∧ p + k < p + s.1 + (len - s.1)) by omega)]; exact i4 k h
    · simp only [if_pos (show (p + s.1 ≤ p + k ∧ p + k < p + s.1 + (len - s.1)) by omega)]
      obtain ⟨z, hz⟩ := Nat.exists_eq_add_of_le (Nat.not_lt.mp h)
      rw [hz, show p + (s.1 + z) - (p + s.1) = z by omega, Nat.add_mod, i1, Nat.zero_add, Nat.mod_mod,
        Nat.mod_eq_of_lt (by omega)]
  · rw [if_neg hc]
    exact ⟨_, rfl, i3, fun k hk => i4 k (by omega)⟩

theorem words_spec {q : Draws} {cap w p len : Nat} (o : Out) (hw : 4 ≤ w) (h3 : p + len ≤ cap) :
    ∃ s, (loop (stepWords q cap w p len) (len + 1) (0, o)).bind id = some s ∧ Only o.mem s.2.mem p (p + len) ∧ s.1 ≤ len ∧ len < s.1 + w := by
  obtain ⟨r, hr, s, hs, hq⟩ := loop_rule (body := stepWords q cap w p len)
    (fun s => s.1 ≤ len ∧ Only o.mem s.2.mem p (p + len))
    (fun r => ∃ s, r = some s ∧ s.1 ≤ len ∧ len < s.1 + w ∧ Only o.mem s.2.mem p (p + len))
    (fun s => len - s.1) (by
      intro s ⟨i1, i2⟩
      unfold stepWords
      by_cases hc : s.1 + w ≤ len
      · rw [if_pos hc, put_ok (by omega)]
        simp only [Post_inl]
        exact ⟨⟨by omega, i2.trans (wr_only (by omega) (by omega))⟩, by omega⟩
      · rw [if_neg hc]
        exact ⟨s, rfl, i1, by omega, i2⟩)
    (len + 1) (0, o) ⟨Nat.zero_le _, fun _ _ => rfl⟩ (by show len - 0 < len + 1; omega)
  subst hs
  rw [hr]
  exact ⟨s, rfl, hq.2.2, hq.1, hq.2.1⟩

theorem fillRandom_spec {q : Draws} {it : Bool} {cap p len : Nat} (o : Out) (h3 : p + len ≤ cap) :
    ∃ o', fillRandom q it cap p len o = some o' ∧ Only o.mem o'.mem p (p + len) := by
  unfold fillRandom
  cases it with
  | true =>
    rw [if_pos rfl]
    obtain ⟨s, g1, g2, g3, g4⟩ := words_spec (q := q) (w := 4) o (Nat.le_refl _) h3
    rw [g1]
    simp only [Option.bind_some]
    obtain ⟨r, hr, t, ht, hq⟩ := loop_rule (body := stepBytes q cap p len)
      (fun s => s.1 ≤ len ∧ Only o.mem s.2.mem p (p + len))
      (fun r => ∃ s, r = some s ∧ Only o.mem s.2.mem p (p + len))
      (fun s => len - s.1) (by
        intro s ⟨i1, i2⟩
        unfold stepBytes
        by_cases hc : s.1 < len
        · rw [if_pos hc, put_ok (by omega)]
          simp only [Post_inl]
          exact ⟨⟨by omega, i2.trans (wr_only (by omega) (by omega))⟩, by omega⟩
        · rw [if_neg hc]
          exact ⟨s, rfl, i2⟩)
      (len + 1) s ⟨g3, g2⟩ (by omega)
    subst ht
    rw [hr]
    exact ⟨_, rfl, hq⟩
  | false =>
    rw [if_neg (by decide)]
    obtain ⟨s, g1, g2, g3, g4⟩ := words_spec (q := q) (w := 16) o (by decide) h3
    rw [g1]
    simp only [Option.bind_some]
    obtain ⟨r, hr, t, ht, hq⟩ := loop_rule (body := stepBytesR (q s.2.draws) cap p len)
      (fun t => t.1 ≤ len ∧ t.1 = s.1 + t.2.1 ∧ Only o.mem t.2.2.mem p (p + len))
      (fun r => ∃ s, r = some s ∧ Only o.mem s.mem p (p + len))
      (fun s => len - s.1) (by
        intro t ⟨i1, i3, i2⟩
        unfold stepBytesR
        by_cases hc : t.1 < len
        · rw [if_pos hc, if_pos (by omega), put_ok (by omega)]
          simp only [Post_inl]
          exact ⟨⟨by omega, by omega, i2.trans (wr_only (by omega) (by omega))⟩, by omega⟩
        · rw [if_neg hc]
          exact ⟨t.2.2, rfl, i2⟩)
      (len + 1) (s.1, 0, { s.2 with draws := s.2.draws + 1 }) ⟨g3, rfl, g2⟩ (by show len - s.1 < _; omega)
    subst ht
    rw [hr]
    exact ⟨t, rfl, hq⟩

theorem Holds_congr {s : State} {m m' : Mem} : ∀ (us : List Sub) (p : Nat), (∀ k, p ≤ k → k < p + s.total us → m' k = m k) →
    s.Holds m us p → s.Holds m' us p := by
  intro us
  induction us with
  | nil => intro p _ _; trivial
  | cons u us ih =>
    intro p h ⟨h1, h2⟩
    have e : s.total (u :: us) = s.secLen u + s.total us := rfl
    rw [e] at h
    refine ⟨fun hu k hk => ?_, ih _ (fun k k1 k2 => h k (by omega) (by omega)) h2⟩
    rw [h (p + k) (by omega) (by omega)]
    exact h1 hu k hk

theorem fillFrom_spec {q : Draws} {cap : Nat} {s : State} (h1 : 1 ≤ s.symbolLength) (h2 : s.symbolLength ≤ 16) :
    ∀ (us : List Sub) (p : Nat) (o : Out), (∀ u ∈ us, u.sym < 16) → p + s.total us ≤ cap →
    ∃ o', s.fillFrom q cap us p o = some (p + s.total us, o') ∧ Only o.mem o'.mem p (p + s.total us) ∧ s.Holds o'.mem us p := by
  intro us
  induction us with
  | nil => intro p o _ _; exact ⟨o, rfl, fun _ _ => rfl, trivial⟩
  | cons u us ih =>
    intro p o hs hc
    have e : s.total (u :: us) = s.secLen u + s.total us := rfl
    rw [e] at hc ⊢
    have first : ∃ o1, (if u.ty = 1 then
        (if u.sym < 16 then fillRepeat (s.symbol u.sym) cap s.symbolLength p (s.secLen u) o else none)
        else fillRandom q s.iterative cap p (s.secLen u) o) = some o1 ∧ Only o.mem o1.mem p (p + s.secLen u) ∧
        (u.ty = 1 → ∀ k, k < s.secLen u → o1.mem (p + k) = s.symbol u.sym (k % s.symbolLength)) := by
      by_cases ht : u.ty = 1
      · rw [if_pos ht, if_pos (hs u (List.mem_cons_self ..))]
        obtain ⟨o1, g1, g2, g3⟩ := fillRepeat_spec (sym := s.symbol u.sym) (cap := cap) (p := p) (len := s.secLen u) o h1 h2 (by omega)
        exact ⟨o1, g1, g2, fun _ => g3⟩
      · rw [if_neg ht]
        obtain ⟨o1, g1, g2⟩ := fillRandom_spec (q := q) (it := s.iterative) (cap := cap) (p := p) (len := s.secLen u) o (by omega)
        exact ⟨o1, g1, g2, fun h => absurd h ht⟩
    obtain ⟨o1, g1, g2, g3⟩ := first
    obtain ⟨o2, f1, f2, f3⟩ := ih (p + s.secLen u) o1 (fun v hv => hs v (List.mem_cons_of_mem _ hv)) (by omega)
    refine ⟨o2, ?_, ?_, ?_, f3⟩
    · unfold State.fillFrom
      rw [g1]
      show s.fillFrom q cap us (p + s.secLen u) o1 = _
      rw [f1, Nat.add_assoc]
    · intro k hk
      rw [f2 k (by omega), g2 k (by omega)]
    · intro ht k hk
      rw [f2 (p + k) (by omega)]
      exact g3 ht k hk

/-! ### The states -/

/-- What every state satisfies. -/
structure Sane (n : Nat) (s : State) : Prop where
  len : s.states.length = n
  rel : s.relevant ≤ n
  sl1 : 1 ≤ s.symbolLength
  sl2 : s.symbolLength ≤ 16
  sub : ∀ u ∈ s.states, u.cur ≤ 65560 ∧ u.sym < 16

theorem total_le {s : State} (h2 : s.symbolLength ≤ 16) (us : List Sub) (h : ∀ u ∈ us, u.cur ≤ 65560) :
    s.total us ≤ us.length * 65560 * 16 := by
  induction us with
  | nil => exact Nat.zero_le _
  | cons u us ih =>
    have h3 := ih fun v hv => h v (List.mem_cons_of_mem _ hv)
    have h4 := h u (List.mem_cons_self ..)
    have h5 : s.secLen u ≤ 65560 * 16 := by
      have e := Nat.mul_le_mul h4 h2
      unfold State.secLen
      split
      · split
        · exact e
        · omega
      · omega
    show s.secLen u + s.total us ≤ (us.length + 1) * 65560 * 16
    omega

theorem sane_fill {n : Nat} {s : State} (h : Sane n s) (q : Draws) (mem : Mem) :
    ∃ mem', s.fill q s.capacity mem = some (s.total (s.states.take s.relevant), mem') ∧
      s.total (s.states.take s.relevant) ≤ s.capacity ∧ (∀ k, s.total (s.states.take s.relevant) ≤ k → mem' k = mem k) ∧
      s.Holds mem' (s.states.take s.relevant) 0 := by
  have hm : ∀ u ∈ s.states.take s.relevant, u ∈ s.states := fun u hu => List.mem_of_mem_take hu
  have h1 := total_le h.sl2 _ fun u hu => (h.sub u (hm u hu)).1
  have h2 : (s.states.take s.relevant).length ≤ s.states.length := by rw [List.length_take]; omega
  have h3 : s.total (s.states.take s.relevant) ≤ s.capacity := by
    unfold State.capacity
    exact Nat.le_trans h1 (Nat.mul_le_mul_right 16 (Nat.mul_le_mul_right 65560 h2))
  obtain ⟨o', g1, g2, g3⟩ := fillFrom_spec (q := q) (cap := s.capacity) h.sl1 h.sl2 (s.states.take s.relevant) 0 ⟨mem, 0⟩
    (fun u hu => (h.sub u (hm u hu)).2) (by omega)
  rw [Nat.zero_add] at g1 g2
  refine ⟨o'.mem, ?_, h3, fun k hk => g2 k (Or.inr hk), g3⟩
  unfold State.fill
  rw [if_pos (by rw [h.len]; exact h.rel), g1]
  rfl

theorem tryIncrement_sane {u : Sub} (h : u.cur ≤ 65560 ∧ u.sym < 16) :
    (u.tryIncrement.2.cur ≤ 65560 ∧ u.tryIncrement.2.sym < 16) ∧ u.tryIncrement.2.reset.cur ≤ 65560 ∧ u.tryIncrement.2.reset.sym < 16 := by
  obtain ⟨h1, h2⟩ := h
  refine ⟨?_, by show 1 ≤ 65560; omega, by show 0 < 16; omega⟩
  unfold Sub.tryIncrement
  simp only
  split
  · split
    · exact ⟨by show 65528 ≤ 65560; omega, h2⟩
    · exact ⟨by show u.cur * 17 / 16 ≤ 65560; omega, h2⟩
  · split
    · exact ⟨Nat.zero_le _, h2⟩
    · exact ⟨by show u.cur + 1 ≤ 65560; omega, h2⟩
  · split
    · exact ⟨by show 768 ≤ 65560; omega, h2⟩
    · exact ⟨by show u.cur + 1 ≤ 65560; omega, h2⟩

theorem incFrom_sane : ∀ (k : Nat) (l : List Sub), (∀ u ∈ l, u.cur ≤ 65560 ∧ u.sym < 16) →
    (incFrom k l).2.length = l.length ∧ ∀ u ∈ (incFrom k l).2, u.cur ≤ 65560 ∧ u.sym < 16 := by
  intro k
  induction k with
  | zero => intro l h; exact ⟨rfl, h⟩
  | succ k ih =>
    intro l h
    unfold incFrom
    split
    · exact ⟨rfl, h⟩
    · rename_i s hs
      have hm : s ∈ l := List.mem_of_getElem? hs
      obtain ⟨h1, h2⟩ := tryIncrement_sane (h s hm)
      simp only
      split
      · refine ⟨List.length_set .., ?_⟩
        intro u hu
        rcases List.mem_or_eq_of_mem_set hu with hu | hu
        · exact h u hu
        · rw [hu]; exact h1
      · obtain ⟨g1, g2⟩ := ih (l.set k s.tryIncrement.2.reset) (by
          intro u hu
          rcases List.mem_or_eq_of_mem_set hu with hu | hu
          · exact h u hu
          · rw [hu]; exact h2)
        rw [List.length_set] at g1
        exact ⟨g1, g2⟩

theorem initAll_sane {n : Nat} {s : State} (h1 : s.states.length = n) (h2 : s.relevant ≤ n) (h3 : 1 ≤ s.symbolLength)
    (h4 : s.symbolLength ≤ 16) : Sane n s.initAll := by
  refine ⟨?_, h2, h3, h4, ?_⟩
  · show ((List.range s.states.length).map _).length = n
    rw [List.length_map, List.length_range, h1]
  · intro u hu
    obtain ⟨i, _, rfl⟩ := List.mem_map.mp hu
    exact ⟨by show 1 ≤ 65560; omega, by show 0 < 16; omega⟩

theorem increment_sane {n : Nat} {s s' : State} (h : Sane n s) (he : s.increment = (true, s')) : Sane n s' := by
  obtain ⟨g1, g2⟩ := incFrom_sane (min s.states.length s.last1) s.states h.sub
  have h1 : Sane n s.incSubs.2 := ⟨by show (incFrom _ _).2.length = n; rw [g1, h.len], h.rel, h.sl1, h.sl2, g2⟩
  unfold State.increment at he
  simp only at he
  split at he
  · cases he; exact h1
  · generalize s.incSubs.2 = a at *
    have ho : a.incOrder.2.states.length = n ∧ a.incOrder.2.relevant ≤ n ∧ a.incOrder.2.symbolLength = a.symbolLength ∧
        (a.incOrder.1 = true → Sane n a.incOrder.2) := by
      unfold State.incOrder
      simp only
      split
      · exact ⟨h1.len, h1.rel, rfl, fun h => absurd h Bool.false_ne_true⟩
      · have := initAll_sane (n := n) (s := { a with start := a.start + 1 }) h1.len h1.rel h1.sl1 h1.sl2
        exact ⟨this.len, h1.rel, rfl, fun _ => this⟩
    split at he
    · rename_i hb; cases he; exact ho.2.2.2 hb
    · have b1 : 1 ≤ a.incOrder.2.symbolLength := by rw [ho.2.2.1]; exact h1.sl1
      have b2 : a.incOrder.2.symbolLength ≤ 16 := by rw [ho.2.2.1]; exact h1.sl2
      have b3 := ho.1
      have b4 := ho.2.1
      generalize a.incOrder.2 = b at *
      have hal : (b.incAlignment.1 = true → Sane n b.incAlignment.2) ∧ (b.incAlignment.1 = false → b.incAlignment.2 = b) := by
        unfold State.incAlignment
        split
        · exact ⟨fun h => absurd h Bool.false_ne_true, fun _ => rfl⟩
        · exact ⟨fun _ => initAll_sane b3 b4 b1 b2, fun h => absurd h.symm Bool.false_ne_true⟩
      split at he
      · rename_i hb; cases he; exact hal.1 hb
      · rename_i hb
        rw [hal.2 (by simpa using hb)] at he
        split at he
        · rename_i hc
          cases he
          revert hc
          unfold State.incLength
          simp only
          split
          · intro hc; exact absurd hc Bool.false_ne_true
          · rename_i h5
            intro _
            exact initAll_sane b3 b4 (by show 1 ≤ b.symbolLength + 1; omega) (by show b.symbolLength + 1 ≤ 16; omega)
        · cases he

theorem randBetween_ok {q : Draws} {k lo hi : Nat} (h : lo < hi) (h2 : hi < 2 ^ 64) :
    ∃ v, randBetween q k lo hi = some v ∧ lo ≤ v ∧ v < hi := by
  unfold randBetween
  have e : (hi + 2 ^ 64 - lo) % 2 ^ 64 = hi - lo := by omega
  simp only [e]
  rw [if_neg (by omega)]
  have h3 := Nat.mod_lt (le64 (q k)) (show 0 < hi - lo by omega)
  refine ⟨_, rfl, ?_⟩
  rw [Nat.mod_eq_of_lt (by omega)]
  omega

theorem setRandom_ok (q : Draws) (k : Nat) (s : Sub) : ∃ u, s.setRandom q k = some u ∧ u.cur ≤ 65560 ∧ u.sym < 16 := by
  obtain ⟨a, a1, _, a2⟩ := randBetween_ok (q := q) (k := k) (lo := 0) (hi := 16) (by decide) (by decide)
  obtain ⟨b, b1, _, b2⟩ := randBetween_ok (q := q) (k := k + 1) (lo := 0) (hi := 0x100) (by decide) (by decide)
  obtain ⟨c, c1, _, c2⟩ := randBetween_ok (q := q) (k := k + 2) (lo := 1) (hi := 280) (by decide) (by decide)
  obtain ⟨d, d1, _, d2⟩ := randBetween_ok (q := q) (k := k + 2) (lo := 768) (hi := 8192) (by decide) (by decide)
  obtain ⟨e, e1, _, e2⟩ := randBetween_ok (q := q) (k := k + 2) (lo := 65528) (hi := 65560) (by decide) (by decide)
  unfold Sub.setRandom
  rw [a1, b1, c1, d1, e1]
  simp only [Option.bind_eq_bind, Option.bind_some]
  by_cases h1 : b < 0xD0
  · rw [if_pos h1]; exact ⟨_, rfl, by show c ≤ 65560; omega, a2⟩
  · rw [if_neg h1]
    by_cases h2 : b < 0xF8
    · rw [if_pos h2]; exact ⟨_, rfl, by show d ≤ 65560; omega, a2⟩
    · rw [if_neg h2]; exact ⟨_, rfl, by show e ≤ 65560; omega, a2⟩

theorem randomSubs_ok (q : Draws) (st : Nat) : ∀ (r : Nat) (l : List Sub), r ≤ l.length → (∀ u ∈ l, u.cur ≤ 65560 ∧ u.sym < 16) →
    ∃ l', randomSubs q st r l = some l' ∧ l'.length = l.length ∧ ∀ u ∈ l', u.cur ≤ 65560 ∧ u.sym < 16 := by
  intro r
  induction r with
  | zero => intro l _ h; exact ⟨l, rfl, rfl, h⟩
  | succ r ih =>
    intro l hr h
    obtain ⟨l', g1, g2, g3⟩ := ih l (by omega) h
    obtain ⟨u, u1, u2⟩ := setRandom_ok q (5 + 3 * r) (Sub.init ((r + st) % 2))
    unfold randomSubs
    rw [g1]
    simp only [Option.bind_eq_bind, Option.bind_some]
    rw [if_pos (by omega), u1]
    refine ⟨_, rfl, by rw [List.length_set, g2], ?_⟩
    intro v hv
    rcases List.mem_or_eq_of_mem_set hv with hv | hv
    · exact g3 v hv
    · rw [hv]; exact u2

theorem bind_of {α β : Type} {o : Option α} {v : α} {f : α → Option β} {r : Option β} (h : o = some v) (h' : f v = r) : (o >>= f) = r := by
  rw [h]; exact h'

theorem advance_random {n : Nat} {s : State} (h : Sane n s) (hi : s.iterative = false) (hn : 2 ≤ n) (hn2 : n < 2 ^ 64) (q : Draws) :
    ∃ s', s.advance q = some (true, s') ∧ Sane n s' ∧ s'.iterative = false ∧ s'.relevant < n := by
  obtain ⟨a, a1, _, a2⟩ := randBetween_ok (q := q) (k := 0) (lo := 0) (hi := 0x10) (by decide) (by decide)
  obtain ⟨b, b1, b3, b2⟩ := randBetween_ok (q := q) (k := 1) (lo := 1) (hi := reasonableSymbolLengths.length) (by decide) (by decide)
  obtain ⟨c, c1, c3, c2⟩ := randBetween_ok (q := q) (k := 1) (lo := 1) (hi := 17) (by decide) (by decide)
  obtain ⟨d, d1, _, d2⟩ := randBetween_ok (q := q) (k := 2) (lo := 0) (hi := 2) (by decide) (by decide)
  obtain ⟨e, e1, _, e2⟩ := randBetween_ok (q := q) (k := 3) (lo := 0) (hi := 2) (by decide) (by decide)
  obtain ⟨f, f1, f3, f2⟩ := randBetween_ok (q := q) (k := 4) (lo := 1) (hi := s.states.length) (by rw [h.len]; omega) (by rw [h.len]; omega)
  obtain ⟨l', g1, g2, g3⟩ := randomSubs_ok q e f s.states (by omega) h.sub
  have hsl : ∃ x, randomLength q a = some x ∧ 1 ≤ x ∧ x ≤ 16 := by
    unfold randomLength
    by_cases ha : a < 0xD
    · rw [if_pos ha, b1]
      have : ∀ b, b < 7 → ∃ x, reasonableSymbolLengths[b]? = some x ∧ 1 ≤ x ∧ x ≤ 16 := by
        intro b hb
        have : b = 0 ∨ b = 1 ∨ b = 2 ∨ b = 3 ∨ b = 4 ∨ b = 5 ∨ b = 6 := by omega
        rcases this with rfl | rfl | rfl | rfl | rfl | rfl | rfl <;> exact ⟨_, rfl, by decide, by decide⟩
      exact this b b2
    · rw [if_neg ha, c1]
      exact ⟨c, rfl, c3, by omega⟩
  obtain ⟨x, x1, x2, x3⟩ := hsl
  refine ⟨{ s with symbolLength := x, symbolBound := decide (d ≠ 0), start := e, relevant := f, states := l' }, ?_, ⟨by show l'.length = n; rw [g2, h.len], ?_, x2, x3, g3⟩, hi, ?_⟩
  · unfold State.advance
    rw [if_neg (by rw [hi]; decide)]
    exact bind_of a1 (bind_of x1 (bind_of d1 (bind_of e1 (bind_of f1 (bind_of g1 rfl)))))
  · show f ≤ n
    rw [h.len] at f2; omega
  · show f < n
    rw [h.len] at f2; exact f2

theorem create_sane (q : Draws) (n : Nat) (it : Bool) : Sane n (create q n it) :=
  initAll_sane (by simp) (Nat.le_refl _) (Nat.le_refl _) (by show 1 ≤ 16; decide)

theorem increment_iterative (s : State) : s.increment.2.iterative = s.iterative := by
  unfold State.increment State.incSubs State.incOrder State.incAlignment State.incLength State.initAll
  simp only
  repeat' split
  all_goals first | rfl | skip
  all_goals simp_all

theorem reach_sane {n : Nat} {it : Bool} (hn : it = true ∨ (2 ≤ n ∧ n < 2 ^ 64)) {s : State} (h : Reach n it s) :
    Sane n s ∧ s.iterative = it := by
  induction h with
  | create q => exact ⟨create_sane q n it, rfl⟩
  | advance q h he ih =>
    obtain ⟨h1, h2⟩ := ih
    cases it with
    | true =>
      unfold State.advance at he
      rw [if_pos h2, Option.some_inj] at he
      refine ⟨increment_sane h1 he, ?_⟩
      have e := congrArg (fun x : Bool × State => x.2.iterative) he
      rw [increment_iterative, h2] at e
      exact e.symm
    | false =>
      rcases hn with hn | hn
      · cases hn
      · obtain ⟨s2, g1, g2, g3, _⟩ := advance_random h1 h2 hn.1 hn.2 q
        rw [g1] at he
        cases he
        exact ⟨g2, g3⟩

/-! ### Theorems -/

/-- C41: in every state the fuzzer can be in, in either mode and whatever was drawn, filling the buffer
stays inside the capacity that was asked for, touches nothing behind the bytes it reports, and makes every
run section the repetition of its symbol. -/
theorem C41_fill_inside {n : Nat} {iterative : Bool} (hn : iterative = true ∨ (2 ≤ n ∧ n < 2 ^ 64)) {s : State}
    (h : Reach n iterative s) (q : Draws) (mem : Mem) :
    ∃ size mem', s.fill q s.capacity mem = some (size, mem') ∧ size ≤ s.capacity ∧
      size = s.total (s.states.take s.relevant) ∧ (∀ k, size ≤ k → mem' k = mem k) ∧
      s.Holds mem' (s.states.take s.relevant) 0 := by
  obtain ⟨mem', h1, h2, h3, h4⟩ := sane_fill (reach_sane hn h).1 q mem
  exact ⟨_, mem', h1, h2, rfl, h3, h4⟩

/-- The capacity is the one the buffer was allocated with: it never changes. -/
theorem C41_capacity_constant {n : Nat} {iterative : Bool} (hn : iterative = true ∨ (2 ≤ n ∧ n < 2 ^ 64)) {s : State}
    (h : Reach n iterative s) (q : Draws) : s.capacity = (create q n iterative).capacity := by
  unfold State.capacity
  rw [(reach_sane hn h).1.len, (create_sane q n iterative).len]

/-- C41: with two or more sections the random mode never stops and never does anything undefined. -/
theorem C41_random_safe {n : Nat} (hn : 2 ≤ n) (hn2 : n < 2 ^ 64) {s : State} (h : Reach n false s) (q : Draws) :
    ∃ s', s.advance q = some (true, s') := by
  obtain ⟨h1, h2⟩ := reach_sane (Or.inr ⟨hn, hn2⟩) h
  obtain ⟨s', g, _⟩ := advance_random h1 h2 hn hn2 q
  exact ⟨s', g⟩

/-- C41: after its first input the random mode leaves the last section out of every input. -/
theorem C41_random_last_section_unused {n : Nat} (hn : 2 ≤ n) (hn2 : n < 2 ^ 64) {s s' : State} (h : Reach n false s)
    (q : Draws) (he : s.advance q = some (true, s')) : s'.relevant < n := by
  obtain ⟨h1, h2⟩ := reach_sane (Or.inr ⟨hn, hn2⟩) h
  obtain ⟨s'', g, _, _, g2⟩ := advance_random h1 h2 hn hn2 q
  rw [g] at he
  cases he
  exact g2

/-- The hypotheses are met by the call in src/main.c: eight sections in random mode. -/
example (q : Draws) : Reach 8 false (create q 8 false) ∧ 2 ≤ 8 ∧ 8 < 2 ^ 64 := ⟨Reach.create q, by decide, by decide⟩

/-- C41: with one section the random mode divides by zero after its first input. -/
theorem C41_random_one_section_violated {s : State} (h : Reach 1 false s) (q : Draws) : s.advance q = none := by
  have key : ∀ s : State, s.states.length = 1 → s.iterative = false → s.advance q = none := by
    intro s h1 h2
    have e : randBetween q 4 1 1 = none := by unfold randBetween; simp
    unfold State.advance
    rw [if_neg (by rw [h2]; decide), h1, e]
    simp only [Option.bind_eq_bind, Option.bind_none, Option.bind_fun_none]
  have hr : ∀ {t : State}, Reach 1 false t → t.states.length = 1 ∧ t.iterative = false := by
    intro t ht
    induction ht with
    | create q => exact ⟨(create_sane q 1 false).len, rfl⟩
    | advance q' h he ih =>
      exfalso
      have e : randBetween q' 4 1 1 = none := by unfold randBetween; simp
      unfold State.advance at he
      rw [if_neg (by rw [ih.2]; decide), ih.1, e] at he
      simp only [Option.bind_eq_bind, Option.bind_none, Option.bind_fun_none] at he
      cases he
  exact key s (hr h).1 (hr h).2

/-- The hypothesis is met. -/
example (q : Draws) : Reach 1 false (create q 1 false) := Reach.create q

end Hrk.Fuzz
