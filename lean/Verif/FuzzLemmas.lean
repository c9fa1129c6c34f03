import Verif.Fuzz

/-
The generator of the fuzzer counts: a state stands for a number, and an increment adds one to it.
-/

namespace Hrk.Fuzz

/-- The lengths of the middle group: 768, then 17/16 of the one before. -/
def medLen : Nat → Nat
  | 0 => 768
  | k + 1 => medLen k * 17 / 16

theorem medLen_lt (k : Nat) : 768 ≤ medLen k ∧ medLen k < medLen (k + 1) := by
  have h : 768 ≤ medLen k := by
    induction k with
    | zero => exact Nat.le_refl _
    | succ k ih => show 768 ≤ medLen k * 17 / 16; omega
  exact ⟨h, by show medLen k < medLen k * 17 / 16; omega⟩

theorem medLen_mono {i j : Nat} (h : i ≤ j) : medLen i ≤ medLen j := by
  obtain ⟨k, rfl⟩ := Nat.exists_eq_add_of_le h
  induction k with
  | zero => exact Nat.le_refl _
  | succ k ih =>
    have h1 := ih (by omega)
    have h2 := (medLen_lt (i + k)).2
    rw [← Nat.add_assoc]
    omega

theorem medLen_last : medLen 39 ≤ 8192 ∧ 8192 < medLen 40 := by
  constructor <;> decide +kernel

/-- Length type of the `i`-th length. -/
def lenTy (i : Nat) : Nat := if i < 280 then 0 else if i < 280 + 40 then 1 else 2

/-- The `i`-th length. -/
def lenAt (i : Nat) : Nat :=
  if i < 280 then i + 1 else if i < 280 + 40 then medLen (i - 280) else 65528 + (i - (280 + 40))

/-- Number of lengths. -/
def lenCount : Nat := 280 + 40 + 33

theorem lenAt_mono {i j : Nat} (h : i < j) (hj : j < lenCount) : lenAt i < lenAt j := by
  unfold lenCount at hj
  unfold lenAt
  have hm := medLen_last
  have h0 := (medLen_lt (i - 280)).1
  have h0' := (medLen_lt (j - 280)).1
  by_cases h1 : i < 280
  · rw [if_pos h1]
    by_cases h2 : j < 280
    · rw [if_pos h2]; omega
    · rw [if_neg h2]
      by_cases h3 : j < 280 + 40
      · rw [if_pos h3]; omega
      · rw [if_neg h3]; omega
  · rw [if_neg h1, if_neg (show ¬ j < 280 by omega)]
    by_cases h3 : i < 280 + 40
    · rw [if_pos h3]
      by_cases h4 : j < 280 + 40
      · rw [if_pos h4]
        have e1 := (medLen_lt (i - 280)).2
        have e2 := medLen_mono (show i - 280 + 1 ≤ j - 280 by omega)
        omega
      · rw [if_neg h4]
        have e2 := medLen_mono (show i - 280 ≤ 39 by omega)
        omega
    · rw [if_neg h3, if_neg (show ¬ j < 280 + 40 by omega)]
      omega

/-- The section in its `i`-th length. -/
def mkSub (ty i : Nat) : Sub := ⟨ty, lenTy i, lenAt i, 0⟩

theorem mkSub_zero (s : Sub) : s.reset = mkSub s.ty 0 := rfl
theorem init_mkSub (ty : Nat) : Sub.init ty = mkSub ty 0 := rfl

theorem mkSub_inc (ty i : Nat) (h : i + 1 < lenCount) : (mkSub ty i).tryIncrement = (true, mkSub ty (i + 1)) := by
  unfold lenCount at h
  have hm := medLen_last
  by_cases h1 : i < 280
  · have e1 : lenTy i = 0 := by unfold lenTy; rw [if_pos h1]
    have e2 : lenAt i = i + 1 := by unfold lenAt; rw [if_pos h1]
    unfold Sub.tryIncrement mkSub
    rw [e1, e2]
    by_cases h2 : i + 1 < 280
    · have e3 : lenTy (i + 1) = 0 := by unfold lenTy; rw [if_pos h2]
      have e4 : lenAt (i + 1) = i + 1 + 1 := by unfold lenAt; rw [if_pos h2]
      rw [e3, e4]
      simp only [if_neg (show ¬ i + 1 + 1 > 280 by omega)]
      rfl
    · have e3 : lenTy (i + 1) = 1 := by unfold lenTy; rw [if_neg h2, if_pos (by omega)]
      have e4 : lenAt (i + 1) = 768 := by
        unfold lenAt; rw [if_neg h2, if_pos (by omega), show i + 1 - 280 = 0 by omega]; rfl
      rw [e3, e4]
      simp only [if_pos (show i + 1 + 1 > 280 by omega)]
      rfl
  · by_cases h3 : i < 280 + 40
    · have e1 : lenTy i = 1 := by unfold lenTy; rw [if_neg h1, if_pos h3]
      have e2 : lenAt i = medLen (i - 280) := by unfold lenAt; rw [if_neg h1, if_pos h3]
      have e5 : medLen (i - 280) * 17 / 16 = medLen (i - 280 + 1) := rfl
      unfold Sub.tryIncrement mkSub
      rw [e1, e2]
      simp only [e5]
      by_cases h2 : i + 1 < 280 + 40
      · have e3 : lenTy (i + 1) = 1 := by unfold lenTy; rw [if_neg (by omega), if_pos h2]
        have e4 : lenAt (i + 1) = medLen (i - 280 + 1) := by
          unfold lenAt; rw [if_neg (by omega), if_pos h2, show i + 1 - 280 = i - 280 + 1 by omega]
        have e6 := medLen_mono (show i - 280 + 1 ≤ 39 by omega)
        rw [e3, e4]
        rw [if_neg (show ¬ medLen (i - 280 + 1) > 8192 by omega)]
        rfl
      · have e3 : lenTy (i + 1) = 2 := by unfold lenTy; rw [if_neg (by omega), if_neg h2]
        have e4 : lenAt (i + 1) = 65528 := by
          unfold lenAt; rw [if_neg (by omega), if_neg h2]; omega
        rw [e3, e4, show i - 280 + 1 = 40 by omega]
        rw [if_pos hm.2]
        rfl
    · have e1 : lenTy i = 2 := by unfold lenTy; rw [if_neg h1, if_neg h3]
      have e2 : lenAt i = 65528 + (i - (280 + 40)) := by unfold lenAt; rw [if_neg h1, if_neg h3]
      have e3 : lenTy (i + 1) = 2 := by unfold lenTy; rw [if_neg (by omega), if_neg (by omega)]
      have e4 : lenAt (i + 1) = 65528 + (i - (280 + 40)) + 1 := by
        unfold lenAt; rw [if_neg (by omega), if_neg (by omega)]; omega
      unfold Sub.tryIncrement mkSub
      rw [e1, e2, e3, e4]
      obtain ⟨z, hz⟩ : ∃ z, z = 65528 + (i - (280 + 40)) := ⟨_, rfl⟩
      rw [← hz]
      simp only [if_neg (show ¬ z + 1 > 65560 by omega)]
      rfl

theorem mkSub_last (ty i : Nat) (h : i + 1 = lenCount) : (mkSub ty i).tryIncrement.1 = false ∧ (mkSub ty i).tryIncrement.2.reset = mkSub ty 0 := by
  unfold lenCount at h
  have e1 : lenTy i = 2 := by unfold lenTy; rw [if_neg (by omega), if_neg (by omega)]
  have e2 : lenAt i = 65560 := by unfold lenAt; rw [if_neg (by omega), if_neg (by omega)]; omega
  unfold Sub.tryIncrement mkSub
  rw [e1, e2]
  exact ⟨rfl, rfl⟩

/-- `n` sections, the first of type `start`, section `i` in its `d i`-th length. -/
def subsOf (n start : Nat) (d : Nat → Nat) : List Sub := (List.range n).map fun i => mkSub ((i + start) % 2) (d i)

/-- `d` with digit `k` changed. -/
def upd (d : Nat → Nat) (k v : Nat) : Nat → Nat := fun i => if i = k then v else d i

theorem subsOf_get {n start : Nat} {d : Nat → Nat} {k : Nat} (h : k < n) :
    (subsOf n start d)[k]? = some (mkSub ((k + start) % 2) (d k)) := by
  unfold subsOf
  rw [List.getElem?_map, List.getElem?_range h]
  rfl

theorem subsOf_set {n start : Nat} {d : Nat → Nat} {k v : Nat} :
    (subsOf n start d).set k (mkSub ((k + start) % 2) v) = subsOf n start (upd d k v) := by
  apply List.ext_getElem?
  intro i
  rw [List.getElem?_set]
  have hl : (subsOf n start d).length = n := by simp [subsOf]
  rcases Nat.lt_or_ge i n with h | h
  · rw [subsOf_get h]
    by_cases e : k = i
    · subst e
      rw [if_pos rfl, hl, if_pos h, subsOf_get h]
      simp [upd]
    · rw [if_neg e, subsOf_get h]
      simp [upd, Ne.symm e]
  · have e1 : (subsOf n start d)[i]? = none := List.getElem?_eq_none (by rw [hl]; exact h)
    have e2 : (subsOf n start (upd d k v))[i]? = none := List.getElem?_eq_none (by simp [subsOf]; exact h)
    rw [e1, e2]
    by_cases e : k = i
    · subst e; rw [if_pos rfl, hl, if_neg (by omega)]
    · rw [if_neg e]

/-- The number the first `k` digits stand for. -/
def val : Nat → (Nat → Nat) → Nat
  | 0, _ => 0
  | k + 1, d => val k d * lenCount + d k

theorem val_congr {k : Nat} {d e : Nat → Nat} (h : ∀ i, i < k → d i = e i) : val k d = val k e := by
  induction k with
  | zero => rfl
  | succ k ih => unfold val; rw [ih fun i hi => h i (by omega), h k (by omega)]

theorem val_lt {k : Nat} {d : Nat → Nat} (h : ∀ i, i < k → d i < lenCount) : val k d < lenCount ^ k := by
  induction k with
  | zero => show 0 < 1; decide
  | succ k ih =>
    have h1 := ih fun i hi => h i (by omega)
    have h2 := h k (by omega)
    unfold val
    rw [Nat.pow_succ]
    have h3 := Nat.mul_le_mul_right lenCount (show val k d + 1 ≤ lenCount ^ k from h1)
    rw [Nat.add_mul] at h3
    omega

theorem val_inj {k : Nat} {d e : Nat → Nat} (hd : ∀ i, i < k → d i < lenCount) (he : ∀ i, i < k → e i < lenCount)
    (h : val k d = val k e) : ∀ i, i < k → d i = e i := by
  induction k with
  | zero => intro i hi; omega
  | succ k ih =>
    unfold val at h
    have h1 := hd k (by omega)
    have h2 := he k (by omega)
    have h3 : d k = e k := by
      have := congrArg (· % lenCount) h
      simp only [Nat.mul_add_mod_self_right, Nat.mod_eq_of_lt h1, Nat.mod_eq_of_lt h2] at this
      exact this
    rw [h3] at h
    have h4 : val k d = val k e := Nat.eq_of_mul_eq_mul_right (show 0 < lenCount by decide) (Nat.add_right_cancel h)
    intro i hi
    rcases Nat.lt_or_ge i k with h5 | h5
    · exact ih (fun i hi => hd i (by omega)) (fun i hi => he i (by omega)) h4 i h5
    · rw [show i = k by omega]; exact h3

theorem val_zero {k : Nat} {d : Nat → Nat} (h : ∀ i, i < k → d i = 0) : val k d = 0 := by
  induction k with
  | zero => rfl
  | succ k ih => unfold val; rw [ih fun i hi => h i (by omega), h k (by omega), Nat.zero_mul]

theorem incFrom_spec (n start : Nat) : ∀ k (d : Nat → Nat), k ≤ n → (∀ i, i < k → d i < lenCount) →
    (val k d + 1 < lenCount ^ k ∧ ∃ d', incFrom k (subsOf n start d) = (true, subsOf n start d') ∧ val k d' = val k d + 1 ∧
      (∀ i, i < k → d' i < lenCount) ∧ (∀ i, k ≤ i → d' i = d i)) ∨
    (val k d + 1 = lenCount ^ k ∧ ∃ d', incFrom k (subsOf n start d) = (false, subsOf n start d') ∧
      (∀ i, i < k → d' i = 0) ∧ (∀ i, k ≤ i → d' i = d i)) := by
  intro k
  induction k with
  | zero =>
    intro d _ _
    right
    exact ⟨rfl, d, rfl, fun i hi => by omega, fun _ _ => rfl⟩
  | succ k ih =>
    intro d hk hd
    unfold incFrom
    rw [subsOf_get (show k < n by omega)]
    simp only
    have hdk := hd k (by omega)
    rcases Nat.lt_or_ge (d k + 1) lenCount with h1 | h1
    · left
      rw [mkSub_inc _ _ h1]
      simp only [if_true]
      refine ⟨?_, _, by rw [subsOf_set], ?_, ?_, ?_⟩
      · have h2 := val_lt (k := k) fun i hi => hd i (by omega)
        unfold val
        rw [Nat.pow_succ]
        have h3 := Nat.mul_le_mul_right lenCount (show val k d + 1 ≤ lenCount ^ k from h2)
        rw [Nat.add_mul] at h3
        omega
      · unfold val
        rw [val_congr (d := upd d k (d k + 1)) (e := d) fun i hi => by unfold upd; rw [if_neg (by omega)]]
        unfold upd
        rw [if_pos rfl]
        omega
      · intro i hi
        unfold upd
        split
        · exact h1
        · exact hd i (by omega)
      · intro i hi
        unfold upd
        rw [if_neg (by omega)]
    · have h2 : d k + 1 = lenCount := by omega
      obtain ⟨e1, e2⟩ := mkSub_last ((k + start) % 2) _ h2
      rw [e1, e2, subsOf_set]
      simp only [Bool.false_eq_true, if_false]
      have hu : val k (upd d k 0) = val k d := val_congr fun i hi => by unfold upd; rw [if_neg (by omega)]
      rcases ih (upd d k 0) (by omega) (fun i hi => by unfold upd; rw [if_neg (by omega)]; exact hd i (by omega)) with
        ⟨g1, d', g2, g3, g4, g5⟩ | ⟨g1, d', g2, g3, g5⟩
      · left
        rw [hu] at g1 g3
        have hz : d' k = 0 := by rw [g5 k (Nat.le_refl _)]; unfold upd; rw [if_pos rfl]
        refine ⟨?_, d', g2, ?_, ?_, ?_⟩
        · unfold val
          rw [Nat.pow_succ]
          have h3 := Nat.mul_le_mul_right lenCount (show val k d + 1 + 1 ≤ lenCount ^ k from g1)
          rw [Nat.add_mul, Nat.add_mul] at h3
          omega
        · unfold val
          rw [g3, hz, Nat.add_mul]
          omega
        · intro i hi
          rcases Nat.lt_or_ge i k with h5 | h5
          · exact g4 i h5
          · rw [show i = k by omega, hz]; decide
        · intro i hi
          rw [g5 i (by omega)]
          unfold upd
          rw [if_neg (by omega)]
      · right
        rw [hu] at g1
        refine ⟨?_, d', g2, ?_, ?_⟩
        · unfold val
          rw [Nat.pow_succ, ← g1, Nat.add_mul]
          omega
        · intro i hi
          rcases Nat.lt_or_ge i k with h5 | h5
          · exact g3 i h5
          · rw [show i = k by omega, g5 k (Nat.le_refl _)]; unfold upd; rw [if_pos rfl]
        · intro i hi
          rw [g5 i (by omega)]
          unfold upd
          rw [if_neg (by omega)]

/-- What the iteration changes. -/
structure Key where
  sl : Nat
  b : Bool
  st : Nat
  d : Nat → Nat

/-- The values the iteration uses. -/
def Key.Ok (n : Nat) (k : Key) : Prop :=
  1 ≤ k.sl ∧ k.sl ≤ 16 ∧ (k.sl = 1 → k.b = false) ∧ k.st < 2 ∧ ∀ i, i < n → k.d i < lenCount

/-- The state with the given values. -/
def Key.state (s0 : State) (n : Nat) (k : Key) : State :=
  { s0 with symbolLength := k.sl, symbolBound := k.b, start := k.st, states := subsOf n k.st k.d }

/-- Number of the symbol length and alignment. -/
def Key.row (k : Key) : Nat := if k.sl = 1 then 0 else 2 * k.sl - 3 + (if k.b then 1 else 0)

/-- Number of the values. -/
def Key.rank (n : Nat) (k : Key) : Nat := (k.row * 2 + k.st) * lenCount ^ n + val n k.d

theorem subsOf_length (n start : Nat) (d : Nat → Nat) : (subsOf n start d).length = n := by simp [subsOf]

theorem initAll_state (s : State) (n : Nat) (hn : s.states.length = n) :
    s.initAll = { s with states := subsOf n s.start fun _ => 0 } := by
  unfold State.initAll
  rw [hn]
  rfl

theorem row_lt {n : Nat} {k : Key} (h : k.Ok n) : k.row < 31 := by
  obtain ⟨h1, h2, _⟩ := h
  unfold Key.row
  split
  · omega
  · split <;> omega

theorem rank_lt {n : Nat} {k : Key} (h : k.Ok n) : k.rank n < 62 * lenCount ^ n := by
  have h1 := row_lt h
  have h2 := val_lt h.2.2.2.2
  have h3 := h.2.2.2.1
  unfold Key.rank
  have h4 := Nat.mul_le_mul_right (lenCount ^ n) (show k.row * 2 + k.st + 1 ≤ 62 by omega)
  rw [Nat.add_mul] at h4
  omega

theorem increment_spec {s0 : State} {n : Nat} (h0 : s0.last1 = n) {k : Key} (h : k.Ok n) :
    (k.rank n + 1 < 62 * lenCount ^ n ∧ ∃ k' : Key, (k.state s0 n).increment = (true, k'.state s0 n) ∧ k'.Ok n ∧
      k'.rank n = k.rank n + 1) ∨
    (k.rank n + 1 = 62 * lenCount ^ n ∧ (k.state s0 n).increment.1 = false) := by
  have hr := rank_lt h
  obtain ⟨h1, h2, h3, h4, h5⟩ := h
  have hsub : (k.state s0 n).incSubs = ((incFrom n (subsOf n k.st k.d)).1, { k.state s0 n with states := (incFrom n (subsOf n k.st k.d)).2 }) := by
    unfold State.incSubs
    show ((incFrom (min (subsOf n k.st k.d).length s0.last1) (subsOf n k.st k.d)).1, _) = _
    rw [subsOf_length, h0, Nat.min_self]
    show (_, { k.state s0 n with states := (incFrom (min (subsOf n k.st k.d).length s0.last1) (subsOf n k.st k.d)).2 }) = _
    rw [subsOf_length, h0, Nat.min_self]
  unfold State.increment
  rw [hsub]
  have hrow : ∀ (r st : Nat) (d : Nat → Nat), (∀ i, i < n → d i < lenCount) → r * 2 + st + 1 ≤ 62 → (r * 2 + st) * lenCount ^ n + val n d < 62 * lenCount ^ n := by
    intro r st d hd hh
    have h2 := val_lt hd
    have h4 := Nat.mul_le_mul_right (lenCount ^ n) hh
    rw [Nat.add_mul] at h4
    omega
  rcases incFrom_spec n k.st n k.d (Nat.le_refl _) h5 with ⟨g1, d', g2, g3, g4, g5⟩ | ⟨g1, d', g2, g3, g5⟩
  · left
    rw [g2]
    simp only [if_true]
    have hok : (Key.mk k.sl k.b k.st d').Ok n := ⟨h1, h2, h3, h4, g4⟩
    have hrk : (Key.mk k.sl k.b k.st d').rank n = k.rank n + 1 := by
      unfold Key.rank
      show (k.row * 2 + k.st) * _ + val n d' = _
      rw [g3]; omega
    refine ⟨?_, ⟨k.sl, k.b, k.st, d'⟩, rfl, hok, hrk⟩
    rw [← hrk]
    exact rank_lt hok
  · rw [g2]
    simp only [Bool.false_eq_true, if_false]
    have hz : val n (fun _ => 0) = 0 := val_zero fun _ _ => rfl
    have hlast : k.rank n + 1 = (k.row * 2 + k.st + 1) * lenCount ^ n := by
      unfold Key.rank
      rw [Nat.add_mul _ 1, Nat.one_mul]
      omega
    have hzero : ∀ i, i < n → (fun _ : Nat => 0) i < lenCount := fun _ _ => (by decide : 0 < lenCount)
    -- the section order
    rcases (show k.st = 0 ∨ k.st = 1 by omega) with hs | hs
    · left
      have e : ({ k.state s0 n with states := subsOf n k.st d' } : State).incOrder =
          (true, (Key.mk k.sl k.b 1 (fun _ => 0)).state s0 n) := by
        unfold State.incOrder
        simp only [Key.state, hs]
        rw [if_neg (by decide), initAll_state _ n (by simp [subsOf])]
      rw [e]
      simp only [if_true]
      have hok : (Key.mk k.sl k.b 1 (fun _ => 0)).Ok n := ⟨h1, h2, h3, (by decide : 1 < 2), hzero⟩
      have hrk : (Key.mk k.sl k.b 1 (fun _ => 0)).rank n = k.rank n + 1 := by
        rw [hlast]
        unfold Key.rank
        show (k.row * 2 + 1) * _ + val n (fun _ => 0) = _
        rw [hz, hs]
        rfl
      refine ⟨?_, _, rfl, hok, hrk⟩
      rw [← hrk]
      exact rank_lt hok
    · have e : ({ k.state s0 n with states := subsOf n k.st d' } : State).incOrder =
          (false, { k.state s0 n with states := subsOf n k.st d', start := 2 }) := by
        unfold State.incOrder
        simp only [Key.state, hs]
        rw [if_pos (by decide)]
      rw [e]
      simp only [Bool.false_eq_true, if_false]
      -- the alignment
      by_cases ha : k.b = false ∧ k.sl ≠ 1
      · left
        have e : ({ k.state s0 n with states := subsOf n k.st d', start := 2 } : State).incAlignment =
            (true, (Key.mk k.sl true 0 (fun _ => 0)).state s0 n) := by
          unfold State.incAlignment
          simp only [Key.state, ha.1, Bool.false_or]
          rw [if_neg (by simp [ha.2]), initAll_state _ n (by simp [subsOf])]
        rw [e]
        simp only [if_true]
        have hok : (Key.mk k.sl true 0 (fun _ => 0)).Ok n := ⟨h1, h2, fun hh => absurd hh ha.2, (by decide : 0 < 2), hzero⟩
        have hrk : (Key.mk k.sl true 0 (fun _ => 0)).rank n = k.rank n + 1 := by
          rw [hlast]
          unfold Key.rank Key.row
          simp only [ha.1, if_neg ha.2, if_true, Bool.false_eq_true, if_false, hz, hs]
          rw [Nat.add_zero]
          congr 1
          omega
        refine ⟨?_, _, rfl, hok, hrk⟩
        rw [← hrk]
        exact rank_lt hok
      · have hb : (k.b || k.sl == 1) = true := by
          rcases Bool.eq_false_or_eq_true k.b with hb | hb
          · rw [hb]; rfl
          · have : k.sl = 1 := Decidable.byContradiction fun hh => ha ⟨hb, hh⟩
            rw [this]; simp
        have e : ({ k.state s0 n with states := subsOf n k.st d', start := 2 } : State).incAlignment =
            (false, { k.state s0 n with states := subsOf n k.st d', start := 2 }) := by
          unfold State.incAlignment
          simp only [Key.state, hb, if_true]
        rw [e]
        simp only [Bool.false_eq_true, if_false]
        -- the symbol length
        have hrow2 : (Key.mk (k.sl + 1) false 0 (fun _ => 0)).row = k.row + 1 := by
          unfold Key.row
          simp only [Bool.false_eq_true, if_false]
          rw [if_neg (by omega)]
          by_cases h6 : k.sl = 1
          · rw [if_pos h6]; omega
          · rw [if_neg h6]
            have : k.b = true := by
              rcases Bool.eq_false_or_eq_true k.b with hb | hb
              · exact hb
              · exact absurd ⟨hb, h6⟩ ha
            rw [this, if_pos rfl]; omega
        by_cases h6 : k.sl = 16
        · right
          have e : ({ k.state s0 n with states := subsOf n k.st d', start := 2 } : State).incLength.1 = false := by
            unfold State.incLength
            simp only [Key.state, h6]
            rw [if_pos (by decide)]
          rw [e]
          simp only [Bool.false_eq_true, if_false]
          refine ⟨?_, trivial⟩
          rw [hlast, hs]
          congr 1
          have : k.b = true := by
            rcases Bool.eq_false_or_eq_true k.b with hb | hb
            · exact hb
            · exact absurd ⟨hb, by omega⟩ ha
          unfold Key.row
          rw [if_neg (by omega), this, if_pos rfl, h6]
        · left
          have e : ({ k.state s0 n with states := subsOf n k.st d', start := 2 } : State).incLength =
              (true, (Key.mk (k.sl + 1) false 0 (fun _ => 0)).state s0 n) := by
            unfold State.incLength
            dsimp only
            rw [if_neg (show ¬ (k.state s0 n).symbolLength + 1 > 16 by show ¬ k.sl + 1 > 16; omega), initAll_state _ n (by simp [subsOf, Key.state])]
            rfl
          rw [e]
          simp only [if_true]
          have hok : (Key.mk (k.sl + 1) false 0 (fun _ => 0)).Ok n := by
            refine ⟨?_, ?_, ?_, ?_, hzero⟩
            · show 1 ≤ k.sl + 1; omega
            · show k.sl + 1 ≤ 16; omega
            · intro _; rfl
            · show 0 < 2; decide
          have hrk : (Key.mk (k.sl + 1) false 0 (fun _ => 0)).rank n = k.rank n + 1 := by
            rw [hlast]
            unfold Key.rank
            rw [hrow2]
            show ((k.row + 1) * 2 + 0) * _ + val n (fun _ => 0) = _
            rw [hz, hs]
            rw [Nat.add_zero]
            congr 1
            omega
          refine ⟨?_, _, rfl, hok, hrk⟩
          rw [← hrk]
          exact rank_lt hok

end Hrk.Fuzz
