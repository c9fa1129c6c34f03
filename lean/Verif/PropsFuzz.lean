import Verif.FuzzLemmas

/-
C40: the inputs the fuzzer generates.
-/

namespace Hrk.Fuzz

/-! ### Specification -/

/-- A section length of the iterative mode: 1 to 280, then 768 and further in steps of a sixteenth up to
8192, then 65528 to 65560. -/
def IsLen (x : Nat) : Prop :=
  (1 ≤ x ∧ x ≤ 280) ∨ (∃ k, x = medLen k ∧ x ≤ 8192) ∨ (65528 ≤ x ∧ x ≤ 65560)

/-- A test input configuration: symbol length, whether runs are whole symbols, whether the first section is
random (0) or a run (1), and the length of every section. -/
structure Combo where
  symbolLength : Nat
  bound : Bool
  first : Nat
  lens : List Nat

/-- The configurations with `n` sections. One byte symbols are always whole. -/
def Combo.Ok (n : Nat) (c : Combo) : Prop :=
  1 ≤ c.symbolLength ∧ c.symbolLength ≤ 16 ∧ (c.symbolLength = 1 → c.bound = false) ∧ c.first < 2 ∧
    c.lens.length = n ∧ ∀ x ∈ c.lens, IsLen x

/-- The configuration of a state. -/
def State.combo (s : State) : Combo := ⟨s.symbolLength, s.symbolBound, s.start, s.states.map Sub.cur⟩

/-- `do { … } while (fuzz_state_advance(pState))` (src/rle_fuzz.c:585, 746): the states it goes through. -/
inductive Visits (q : Draws) : State → List State → Prop
  | last {s s' : State} : s.advance q = some (false, s') → Visits q s [s]
  | next {s s' : State} {l : List State} : s.advance q = some (true, s') → Visits q s' l → Visits q s (s :: l)

/-! ### Iterative mode -/

theorem lenAt_isLen {i : Nat} (h : i < lenCount) : IsLen (lenAt i) := by
  unfold lenCount at h
  unfold lenAt IsLen
  by_cases h1 : i < 280
  · rw [if_pos h1]; left; omega
  · rw [if_neg h1]
    by_cases h2 : i < 280 + 40
    · rw [if_pos h2]
      right; left
      exact ⟨_, rfl, Nat.le_trans (medLen_mono (by omega)) medLen_last.1⟩
    · rw [if_neg h2]; right; right; omega

theorem isLen_lenAt {x : Nat} (h : IsLen x) : ∃ i, i < lenCount ∧ lenAt i = x := by
  rcases h with h | ⟨k, h1, h2⟩ | h
  · refine ⟨x - 1, by unfold lenCount; omega, ?_⟩
    unfold lenAt
    rw [if_pos (by omega)]
    omega
  · have hk : k ≤ 39 := by
      rcases Nat.lt_or_ge 39 k with h3 | h3
      · have := medLen_mono (show 40 ≤ k from h3)
        have := medLen_last.2
        omega
      · exact h3
    refine ⟨280 + k, by unfold lenCount; omega, ?_⟩
    unfold lenAt
    rw [if_neg (by omega), if_pos (by omega), h1, Nat.add_sub_cancel_left]
  · refine ⟨280 + 40 + (x - 65528), by unfold lenCount; omega, ?_⟩
    unfold lenAt
    rw [if_neg (by omega), if_neg (by omega)]
    omega

theorem lenAt_inj {i j : Nat} (hi : i < lenCount) (hj : j < lenCount) (h : lenAt i = lenAt j) : i = j := by
  rcases Nat.lt_trichotomy i j with h1 | h1 | h1
  · have := lenAt_mono h1 hj; omega
  · exact h1
  · have := lenAt_mono h1 hi; omega

theorem row_inj {n : Nat} {k k' : Key} (h : k.Ok n) (h' : k'.Ok n) (e : k.row = k'.row) : k.sl = k'.sl ∧ k.b = k'.b := by
  obtain ⟨h1, h2, h3, _⟩ := h
  obtain ⟨h1', h2', h3', _⟩ := h'
  unfold Key.row at e
  by_cases a : k.sl = 1
  · by_cases a' : k'.sl = 1
    · exact ⟨by omega, by rw [h3 a, h3' a']⟩
    · rw [if_pos a, if_neg a'] at e
      omega
  · by_cases a' : k'.sl = 1
    · rw [if_neg a, if_pos a'] at e
      omega
    · rw [if_neg a, if_neg a'] at e
      cases hb : k.b <;> cases hb' : k'.b <;> rw [hb, hb'] at e <;>
        simp only [Bool.false_eq_true, if_false, if_true] at e <;> first | exact ⟨by omega, rfl⟩ | omega

theorem rank_inj {n : Nat} {k k' : Key} (h : k.Ok n) (h' : k'.Ok n) (e : k.rank n = k'.rank n) (s0 : State) :
    k.state s0 n = k'.state s0 n := by
  have v := val_lt h.2.2.2.2
  have v' := val_lt h'.2.2.2.2
  unfold Key.rank at e
  have hp : 0 < lenCount ^ n := Nat.pow_pos (by decide)
  have e1 : k.row * 2 + k.st = k'.row * 2 + k'.st := by
    have key : ∀ a v, v < lenCount ^ n → (a * lenCount ^ n + v) / lenCount ^ n = a := by
      intro a v hv
      rw [Nat.add_comm, Nat.add_mul_div_right _ _ hp, Nat.div_eq_of_lt hv, Nat.zero_add]
    have := congrArg (· / lenCount ^ n) e
    rwa [key _ _ v, key _ _ v'] at this
  rw [e1] at e
  have e2 := val_inj h.2.2.2.2 h'.2.2.2.2 (Nat.add_left_cancel e)
  have hs := h.2.2.2.1
  have hs' := h'.2.2.2.1
  obtain ⟨e3, e4⟩ := row_inj h h' (by omega)
  have e5 : k.st = k'.st := by omega
  unfold Key.state
  rw [e3, e4, e5]
  congr 1
  unfold subsOf
  apply List.map_congr_left
  intro i hi
  rw [List.mem_range] at hi
  rw [e2 i hi]

theorem combo_lens (s0 : State) (n : Nat) (k : Key) : (k.state s0 n).combo = ⟨k.sl, k.b, k.st, (List.range n).map fun i => lenAt (k.d i)⟩ := by
  unfold State.combo Key.state subsOf
  simp [mkSub, Function.comp_def]

theorem combo_rank {n : Nat} {k k' : Key} (h : k.Ok n) (h' : k'.Ok n) (s0 : State)
    (e : (k.state s0 n).combo = (k'.state s0 n).combo) : k.rank n = k'.rank n := by
  rw [combo_lens, combo_lens, Combo.mk.injEq] at e
  obtain ⟨e1, e2, e3, e4⟩ := e
  have e5 : ∀ i, i < n → k.d i = k'.d i := by
    intro i hi
    have := congrArg (fun l => l[i]?) e4
    simp only [List.getElem?_map, List.getElem?_range hi, Option.map_some, Option.some_inj] at this
    exact lenAt_inj (h.2.2.2.2 i hi) (h'.2.2.2.2 i hi) this
  unfold Key.rank Key.row
  rw [e1, e2, e3, val_congr e5]

/-- From the state with number `r` on, all states with higher numbers are visited, in this order. -/
theorem visits_from {s0 : State} {n : Nat} (h0 : s0.last1 = n) (hi : s0.iterative = true) (q : Draws) :
    ∀ m (k : Key), k.Ok n → k.rank n + m + 1 = 62 * lenCount ^ n →
    ∃ ks : List Key, Visits q (k.state s0 n) (ks.map (Key.state s0 n)) ∧ (∀ k' ∈ ks, k'.Ok n) ∧
      ks.map (Key.rank n) = List.range' (k.rank n) (m + 1) := by
  intro m
  induction m with
  | zero =>
    intro k hk hm
    refine ⟨[k], ?_, by simpa using hk, rfl⟩
    rcases increment_spec h0 hk with ⟨h1, _⟩ | ⟨_, h2⟩
    · omega
    · refine Visits.last (s' := ((k.state s0 n).increment).2) ?_
      unfold State.advance
      rw [if_pos (show (k.state s0 n).iterative = true from hi), ← h2]
  | succ m ih =>
    intro k hk hm
    rcases increment_spec h0 hk with ⟨h1, k', h2, h3, h4⟩ | ⟨h1, _⟩
    · obtain ⟨ks, g1, g2, g3⟩ := ih k' h3 (by omega)
      refine ⟨k :: ks, ?_, ?_, ?_⟩
      · refine Visits.next (s' := k'.state s0 n) ?_ g1
        unfold State.advance
        rw [if_pos (show (k.state s0 n).iterative = true from hi), h2]
      · intro x hx
        rcases List.mem_cons.mp hx with rfl | hx
        · exact hk
        · exact g2 x hx
      · rw [List.map_cons, g3, h4]; rfl
    · omega

/-- The state `fuzz_create` makes. -/
theorem create_state (q : Draws) (n : Nat) (it : Bool) :
    create q n it = (Key.mk 1 false 0 (fun _ => 0)).state (create q n it) n ∧ (create q n it).last1 = n ∧
      (create q n it).iterative = it ∧ (create q n it).relevant = n := by
  refine ⟨?_, rfl, rfl, rfl⟩
  unfold create
  rw [initAll_state _ n (by simp)]
  rfl

/-- C40: in iterative mode the fuzzer ends, and it goes through every configuration exactly once. -/
theorem C40_iterative_complete (q : Draws) (n : Nat) :
    ∃ l, Visits q (create q n true) l ∧ (l.map State.combo).Nodup ∧ (∀ c, c ∈ l.map State.combo ↔ c.Ok n) ∧
      l.length = 62 * 353 ^ n := by
  obtain ⟨c1, c2, c3, c4⟩ := create_state q n true
  have hok : (Key.mk 1 false 0 (fun _ => 0)).Ok n :=
    ⟨Nat.le_refl _, by show 1 ≤ 16; decide, fun _ => rfl, by show 0 < 2; decide, fun _ _ => by show 0 < lenCount; decide⟩
  have hrk : (Key.mk 1 false 0 (fun _ => 0)).rank n = 0 := by
    unfold Key.rank Key.row
    simp only [if_true]
    rw [val_zero fun _ _ => rfl]
    simp
  have hp : 0 < lenCount ^ n := Nat.pow_pos (by decide)
  obtain ⟨ks, g1, g2, g3⟩ := visits_from c2 c3 q (62 * lenCount ^ n - 1) _ hok (by rw [hrk]; omega)
  rw [hrk, show 62 * lenCount ^ n - 1 + 1 = 62 * lenCount ^ n by omega] at g3
  have hlen : ks.length = 62 * 353 ^ n := by
    have := congrArg List.length g3
    rw [List.length_map, List.length_range'] at this
    exact this
  refine ⟨ks.map (Key.state (create q n true) n), by rw [← c1] at g1; exact g1, ?_, ?_, by rw [List.length_map, hlen]⟩
  · rw [List.map_map]
    have hnd : (ks.map (Key.rank n)).Nodup := by rw [g3]; exact List.nodup_range'
    unfold List.Nodup at hnd ⊢
    rw [List.pairwise_map] at hnd ⊢
    refine List.Pairwise.imp_of_mem ?_ hnd
    intro a b ha hb hab he
    exact hab (combo_rank (g2 a ha) (g2 b hb) _ he)
  · intro c
    constructor
    · intro hc
      rw [List.map_map, List.mem_map] at hc
      obtain ⟨k, hk, rfl⟩ := hc
      have ok := g2 k hk
      show ((k.state _ n).combo).Ok n
      rw [combo_lens]
      refine ⟨ok.1, ok.2.1, ok.2.2.1, ok.2.2.2.1, by simp, ?_⟩
      intro x hx
      simp only [List.mem_map, List.mem_range] at hx
      obtain ⟨i, hi, rfl⟩ := hx
      exact lenAt_isLen (ok.2.2.2.2 i hi)
    · intro hc
      obtain ⟨a1, a2, a3, a4, a5, a6⟩ := hc
      have ex : ∀ i, ∃ j, i < n → j < lenCount ∧ lenAt j = c.lens.getD i 0 := by
        intro i
        by_cases hi : i < n
        · have hm : c.lens.getD i 0 ∈ c.lens := by
            rw [List.getD_eq_getElem?_getD, List.getElem?_eq_getElem (by omega), Option.getD_some]
            exact List.getElem_mem _
          obtain ⟨j, j1, j2⟩ := isLen_lenAt (a6 _ hm)
          exact ⟨j, fun _ => ⟨j1, j2⟩⟩
        · exact ⟨0, fun h => absurd h hi⟩
      let d : Nat → Nat := fun i => Classical.choose (ex i)
      have hd : ∀ i, i < n → d i < lenCount ∧ lenAt (d i) = c.lens.getD i 0 := fun i hi => Classical.choose_spec (ex i) hi
      have ok : (Key.mk c.symbolLength c.bound c.first d).Ok n := ⟨a1, a2, a3, a4, fun i hi => (hd i hi).1⟩
      have hmem : (Key.mk c.symbolLength c.bound c.first d).rank n ∈ ks.map (Key.rank n) := by
        rw [g3, List.mem_range'_1]
        have := rank_lt ok
        omega
      obtain ⟨k, hk, hke⟩ := List.mem_map.mp hmem
      have hst := rank_inj (g2 k hk) ok hke (create q n true)
      refine List.mem_map.mpr ⟨_, List.mem_map.mpr ⟨k, hk, rfl⟩, ?_⟩
      rw [hst, combo_lens]
      have : (List.range n).map (fun i => lenAt (d i)) = c.lens := by
        apply List.ext_getElem?
        intro i
        rcases Nat.lt_or_ge i n with h1 | h1
        · rw [List.getElem?_map, List.getElem?_range h1, Option.map_some, (hd i h1).2, List.getD_eq_getElem?_getD,
            List.getElem?_eq_getElem (by omega), Option.getD_some]
        · rw [List.getElem?_eq_none (by simpa using h1), List.getElem?_eq_none (by omega)]
      show Combo.mk c.symbolLength c.bound c.first ((List.range n).map fun i => lenAt (d i)) = c
      rw [this]

/-- There are configurations: two sections of symbols of three bytes, the second 816 bytes long. -/
example : Combo.Ok 2 ⟨3, true, 1, [7, 816]⟩ := by
  refine ⟨by decide, by decide, by intro h; exact absurd h (by decide), by decide, rfl, ?_⟩
  intro x hx
  simp only [List.mem_cons, List.not_mem_nil, or_false] at hx
  rcases hx with rfl | rfl
  · left; decide
  · right; left; exact ⟨1, rfl, by decide⟩

end Hrk.Fuzz
