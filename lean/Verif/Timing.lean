import Mathlib.Analysis.Real.Sqrt
import Mathlib.Tactic.FieldSimp
import Mathlib.Tactic.Ring
import Mathlib.Tactic.Positivity
import Mathlib.Algebra.BigOperators.Group.List.Basic

/-
The measuring loops of the benchmark (src/main.c:803-1075): how often a codec is called, which of the run times enter
which column, and the array that holds the run times for the standard deviation. The encoder's loop (814-887) and the
decoder's (937-1034) are the same code with other variables; both are `measure`. `double` is modelled by exact real
numbers, and a division by 0 (an infinity or a `NaN` in the code) by `none`. The counter `compressionRuns` is an
integer without bound: 2^63 rounds are not made.
-/

namespace Hrk.Timing

/-- What the loop reads from outside: the time the `i`-th call takes (main.c:830, 845), the size it returns (832-843), the time since the start at the `i`-th test of the loop condition (828), and whether `realloc` finds that many bytes (860). -/
structure Clock where
  time : Nat → Nat
  size : Nat → Nat
  elapsed : Nat → Nat
  alloc : Nat → Bool

/-- The variables of the loop: `compressionTime`, `fastestCompresionTime`, `compressionRuns`, `compressedSize` (main.c:814-817), the run times in `pIndividualRuns` below `individualRunsCount`, and the array's `individualRunsCapacity`. `room` is the number of `size_t` the array really has. -/
structure Vars where
  total : Nat
  fastest : Nat
  runs : Int
  size : Nat
  kept : List Nat
  cap : Nat
  room : Nat

/-- The array (main.c:778-779, 793-794): 1024 entries, or none without `--std-dev`. -/
def firstCap (sd : Bool) : Nat := if sd then 1024 else 0

/-- Before the loop (main.c:814-823, 937-941, 957). `cap` and `room` are what the loop before it left. -/
def start (noDelays : Bool) (cap room : Nat) : Vars :=
  { total := 0, fastest := 2 ^ 64 - 1, runs := if noDelays then 0 else -1, size := 0, kept := [], cap := cap, room := room }

/-- How the loop ends (main.c:824-886). -/
inductive End where
  | done (v : Vars)
  /-- `Memory Allocation Failure`, exit code 1 -/
  | noMemory
  /-- a write behind the array -/
  | ub
  /-- still running -/
  | running

/-- Keeping a run time (main.c:855-871): the array grows when it is full. -/
def keep (e : Clock) (t : Nat) (v : Vars) : Except End Vars :=
  if v.cap ≤ v.kept.length then
    let cap := v.cap * 2 % 2 ^ 64
    let bytes := 8 * cap % 2 ^ 64
    if e.alloc bytes then
      if v.kept.length < bytes / 8 then .ok { v with kept := v.kept ++ [t], cap := cap, room := bytes / 8 }
      else .error .ub
    else .error .noMemory
  else if v.kept.length < v.room then .ok { v with kept := v.kept ++ [t] }
  else .error .ub

/-- One round in which the codec did not fail (main.c:850-873): the first call, with `compressionRuns` = -1, is the dry run. -/
def account (e : Clock) (sd : Bool) (t c : Nat) (v : Vars) : Except End Vars := do
  let v1 : Vars :=
    { v with
      size := c
      total := if 0 ≤ v.runs then (v.total + t) % 2 ^ 64 else v.total
      fastest := if t < v.fastest then t else v.fastest }
  let v2 ← if sd = true ∧ 0 < v.runs then keep e t v1 else .ok v1
  return { v2 with runs := v2.runs + 1 }

/-- The loop (main.c:828-887, 963-1034). `i` calls have been made. Printing and pauses are left out. -/
def loop (e : Clock) (sd : Bool) (runs minSeconds : Nat) : (fuel i : Nat) → Vars → End
  | 0, _, _ => .running
  | fuel + 1, i, v =>
    if v.runs < runs ∨ e.elapsed i < 1000000000 * minSeconds then
      if e.size i = 0 then .done { v with size := 0 }
      else
        match account e sd (e.time i) (e.size i) v with
        | .error x => x
        | .ok v => loop e sd runs minSeconds fuel (i + 1) v
    else .done v

/-- One column group of the benchmark (main.c:814-887, 937-1034). -/
def measure (e : Clock) (sd noDelays : Bool) (runs minSeconds fuel cap room : Nat) : End :=
  loop e sd runs minSeconds fuel 0 (start noDelays cap room)

/-- The loops of all codecs, one after the other (main.c:803-1075): the array stays, with its capacity. `.done` carries the array. -/
def measureAll (sd noDelays : Bool) (runs minSeconds fuel : Nat) : List Clock → Nat → Nat → End
  | [], cap, room => .done (start noDelays cap room)
  | e :: es, cap, room =>
    match measure e sd noDelays runs minSeconds fuel cap room with
    | .done v => measureAll sd noDelays runs minSeconds fuel es v.cap v.room
    | x => x

/-- A division of the code: no number when the divisor is 0. -/
noncomputable def div (a b : ℝ) : Option ℝ := if b = 0 then none else some (a / b)

/-- `(fileSize * (double)compressionRuns / (double)(1024 * 1024)) / (compressionTime / 1e9)` (main.c:876 and the other prints). -/
noncomputable def average (fileSize : Nat) (v : Vars) : Option ℝ :=
  div ((fileSize : ℝ) * (v.runs : ℝ) / (1024 * 1024)) ((v.total : ℝ) / 1000000000)

/-- `(fileSize / (double)(1024 * 1024)) / (fastestCompresionTime / 1e9)` (main.c:876). -/
noncomputable def maximum (fileSize : Nat) (v : Vars) : Option ℝ :=
  div ((fileSize : ℝ) / (1024 * 1024)) ((v.fastest : ℝ) / 1000000000)

/-- The sum of the squares (main.c:894-898, 1052-1056). -/
noncomputable def squares (mean : ℝ) : List Nat → ℝ → ℝ
  | [], s => s
  | t :: ts, s => squares mean ts (s + ((t : ℝ) - mean) * ((t : ℝ) - mean))

/-- `stdDevNs` (main.c:891-900, 1049-1058), with `individualRunsCount - 1` in `size_t`. -/
noncomputable def stdDev (v : Vars) : Option (ℝ × ℝ) := do
  let mean ← div (v.total : ℝ) (v.runs : ℝ)
  let q ← div (squares mean v.kept 0) (((v.kept.length + (2 ^ 64 - 1)) % 2 ^ 64 : Nat) : ℝ)
  return (mean, Real.sqrt q)

/-- `encodePlusStdDevMiBs` (main.c:902, 1060): the slower end, printed first. -/
noncomputable def slower (fileSize : Nat) (v : Vars) : Option ℝ := do
  let (mean, s) ← stdDev v
  div ((fileSize : ℝ) / (1024 * 1024)) ((mean + s) / 1000000000)

/-- `encodeMinusStdDevMiBs` (main.c:903, 1061): the faster end. -/
noncomputable def faster (fileSize : Nat) (v : Vars) : Option ℝ := do
  let (mean, s) ← stdDev v
  div ((fileSize : ℝ) / (1024 * 1024)) ((mean - s) / 1000000000)

/-! ### Lemmas -/

theorem squares_eq (mean : ℝ) : ∀ (l : List Nat) (s : ℝ),
    squares mean l s = s + (l.map fun t : ℕ => ((t : ℝ) - mean) ^ 2).sum
  | [], s => by simp [squares]
  | t :: ts, s => by
    rw [squares, squares_eq mean ts, List.map_cons, List.sum_cons]
    ring

/-- The array holds what it has to. -/
def Fits (v : Vars) : Prop := v.room = v.cap ∧ v.kept.length ≤ v.cap ∧ 0 < v.cap ∧ v.cap ≤ 2 ^ 60

theorem keep_ok {e : Clock} {t : Nat} {v : Vars} (h : Fits v) (hn : v.kept.length < 2 ^ 59) :
    keep e t v = .error .noMemory ∨
      ∃ cap, keep e t v = .ok { v with kept := v.kept ++ [t], cap := cap, room := cap } ∧
        v.kept.length + 1 ≤ cap ∧ cap ≤ 2 ^ 60 := by
  obtain ⟨h1, h2, h3, h4⟩ := h
  unfold keep
  by_cases hc : v.cap ≤ v.kept.length
  · have e1 : v.cap * 2 % 2 ^ 64 = v.cap * 2 := Nat.mod_eq_of_lt (by omega)
    have e2 : 8 * (v.cap * 2) % 2 ^ 64 = 8 * (v.cap * 2) := Nat.mod_eq_of_lt (by omega)
    have e3 : 8 * (v.cap * 2) / 8 = v.cap * 2 := by omega
    rw [if_pos hc]
    dsimp only
    rw [e1, e2, e3]
    by_cases ha : e.alloc (8 * (v.cap * 2)) = true
    · rw [if_pos ha, if_pos (by omega)]
      exact Or.inr ⟨v.cap * 2, rfl, by omega, by omega⟩
    · rw [if_neg ha]
      exact Or.inl rfl
  · rw [if_neg hc, if_pos (by omega)]
    refine Or.inr ⟨v.cap, ?_, by omega, h4⟩
    cases v
    dsimp only at h1 ⊢
    rw [h1]

/-- What the variables hold after the calls `0`, …, `i - 1`, of which the first `d` are dry runs. -/
structure After (e : Clock) (sd : Bool) (d i : Nat) (v : Vars) : Prop where
  runs : v.runs = (i : Int) - d
  total : v.total = (((List.range i).drop d).map e.time).sum % 2 ^ 64
  fastest : v.fastest = ((List.range i).map e.time).foldl min (2 ^ 64 - 1)
  kept : v.kept = if sd then ((List.range i).drop (d + 1)).map e.time else []

theorem range_drop_succ {d i : Nat} (h : d ≤ i) : (List.range (i + 1)).drop d = (List.range i).drop d ++ [i] := by
  rw [List.range_succ, List.drop_append_of_le_length (by simpa using h)]

theorem account_ok {e : Clock} {sd : Bool} {d i : Nat} {v : Vars} (hd : d ≤ 1) (h : After e sd d i v)
    (hf : sd = true → Fits v) (hn : i < 2 ^ 59) (c : Nat) :
    account e sd (e.time i) c v = .error .noMemory ∨
      ∃ v', account e sd (e.time i) c v = .ok v' ∧ After e sd d (i + 1) v' ∧ (sd = true → Fits v') := by
  have ht : (if 0 ≤ v.runs then (v.total + e.time i) % 2 ^ 64 else v.total)
      = (((List.range (i + 1)).drop d).map e.time).sum % 2 ^ 64 := by
    by_cases hr : 0 ≤ v.runs
    · rw [if_pos hr, h.total, range_drop_succ (by have := h.runs; omega)]
      simp
    · rw [if_neg hr, h.total]
      have : i + 1 ≤ d := by have := h.runs; omega
      rw [List.drop_eq_nil_of_le (by simp; omega), List.drop_eq_nil_of_le (by simp; omega)]
  have hm : (if e.time i < v.fastest then e.time i else v.fastest)
      = ((List.range (i + 1)).map e.time).foldl min (2 ^ 64 - 1) := by
    rw [List.range_succ, List.map_append, List.foldl_append, ← h.fastest]
    show _ = min v.fastest (e.time i)
    split <;> omega
  have hr : v.runs + 1 = ((i + 1 : Nat) : Int) - d := by have := h.runs; omega
  unfold account
  by_cases hs : sd = true ∧ 0 < v.runs
  · have hl : v.kept.length < 2 ^ 59 := by
      rw [h.kept, if_pos hs.1]
      simp only [List.length_map, List.length_drop, List.length_range]
      omega
    have hlr : d + 1 ≤ i := by have := h.runs; have := hs.2; omega
    simp only [hs.1, hs.2, and_self, if_true]
    rcases keep_ok (e := e) (t := e.time i)
      (v := { v with
        size := c
        total := if 0 ≤ v.runs then (v.total + e.time i) % 2 ^ 64 else v.total
        fastest := if e.time i < v.fastest then e.time i else v.fastest }) (hf hs.1) hl with hk | ⟨cap, hk, h1, h2⟩
    · rw [hk]
      exact Or.inl rfl
    · rw [hk]
      refine Or.inr ⟨_, rfl, ⟨hr, ht, hm, ?_⟩, fun _ => ⟨rfl, ?_, ?_, h2⟩⟩
      · show v.kept ++ [e.time i] = _
        rw [h.kept, if_pos hs.1, range_drop_succ hlr]
        simp
      · show (v.kept ++ [e.time i]).length ≤ cap
        simpa using h1
      · show 0 < cap
        omega
  · rw [if_neg hs]
    refine Or.inr ⟨_, rfl, ⟨hr, ht, hm, ?_⟩, hf⟩
    show v.kept = _
    rw [h.kept]
    by_cases hsd : sd = true
    · have : i ≤ d := by
        have := h.runs
        have h3 : ¬ 0 < v.runs := fun h => hs ⟨hsd, h⟩
        omega
      rw [if_pos hsd, if_pos hsd, List.drop_eq_nil_of_le (by simp; omega), List.drop_eq_nil_of_le (by simp; omega)]
    · rw [if_neg hsd, if_neg hsd]

theorem loop_ok {e : Clock} {sd : Bool} {runs minSeconds d : Nat} (hd : d ≤ 1) : ∀ (fuel i : Nat) (v : Vars),
    After e sd d i v → (sd = true → Fits v) → i + fuel ≤ 2 ^ 59 →
    loop e sd runs minSeconds fuel i v = .running ∨ loop e sd runs minSeconds fuel i v = .noMemory ∨
      ∃ v' k, loop e sd runs minSeconds fuel i v = .done v' ∧ i ≤ k ∧ k < i + fuel ∧ After e sd d k v' ∧
        (sd = true → Fits v') ∧
        (∀ m, i ≤ m → m < k → e.size m ≠ 0 ∧ (m < runs + d ∨ e.elapsed m < 1000000000 * minSeconds)) ∧
        ((runs + d ≤ k ∧ 1000000000 * minSeconds ≤ e.elapsed k) ∨ (e.size k = 0 ∧ v'.size = 0))
  | 0, i, v, _, _, _ => Or.inl rfl
  | fuel + 1, i, v, h, hf, hn => by
    rw [loop]
    have hcond : (v.runs < (runs : Int) ∨ e.elapsed i < 1000000000 * minSeconds) ↔
        (i < runs + d ∨ e.elapsed i < 1000000000 * minSeconds) := by
      have := h.runs
      constructor <;> (intro hh; rcases hh with hh | hh) <;> first | (left; omega) | exact Or.inr hh
    by_cases hc : v.runs < (runs : Int) ∨ e.elapsed i < 1000000000 * minSeconds
    · rw [if_pos hc]
      by_cases h0 : e.size i = 0
      · rw [if_pos h0]
        exact Or.inr (Or.inr ⟨_, i, rfl, Nat.le_refl _, by omega, ⟨h.runs, h.total, h.fastest, h.kept⟩, hf,
          fun m h1 h2 => by omega, Or.inr ⟨h0, rfl⟩⟩)
      · rw [if_neg h0]
        rcases account_ok hd h hf (by omega) (e.size i) with ha | ⟨v', ha, h1, h2⟩
        · rw [ha]
          exact Or.inr (Or.inl rfl)
        · rw [ha]
          rcases loop_ok hd fuel (i + 1) v' h1 h2 (by omega) with g | g | ⟨v'', k, g, g1, g2, g3, g4, g5, g6⟩
          · exact Or.inl g
          · exact Or.inr (Or.inl g)
          · refine Or.inr (Or.inr ⟨v'', k, g, by omega, by omega, g3, g4, fun m m1 m2 => ?_, g6⟩)
            by_cases hm : m = i
            · subst hm
              exact ⟨h0, hcond.mp hc⟩
            · exact g5 m (by omega) m2
    · rw [if_neg hc]
      refine Or.inr (Or.inr ⟨v, i, rfl, Nat.le_refl _, by omega, h, hf, fun m h1 h2 => by omega, Or.inl ?_⟩)
      have := mt hcond.mpr hc
      omega

theorem start_after (e : Clock) (sd noDelays : Bool) (cap room : Nat) :
    After e sd (if noDelays then 0 else 1) 0 (start noDelays cap room) := by
  refine ⟨?_, ?_, rfl, ?_⟩
  · cases noDelays <;> rfl
  · simp [start]
  · simp [start]

end Hrk.Timing
