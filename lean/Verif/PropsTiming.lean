import Verif.Timing

/-
C57: the throughput columns of the benchmark. Specification: `Calls` says how many calls the benchmark makes, `allTimes`
and `times` are the times of all calls and of those after the dry run, `mean` and `sampleVar` are the textbook mean and
sample variance, `throughput` is the file size in MiB per second when a call takes `ns` nanoseconds.
-/

namespace Hrk.Timing

/-- The number of dry runs. -/
def dry (noDelays : Bool) : Nat := if noDelays then 0 else 1

/-- No call fails, and `k` is the first number of calls for which there were enough runs after the dry run and enough time has passed. -/
def Calls (e : Clock) (noDelays : Bool) (runs minSeconds k : Nat) : Prop :=
  (∀ i < k, e.size i ≠ 0) ∧ runs + dry noDelays ≤ k ∧ minSeconds * 10 ^ 9 ≤ e.elapsed k ∧
    ∀ i < k, i < runs + dry noDelays ∨ e.elapsed i < minSeconds * 10 ^ 9

def allTimes (e : Clock) (k : Nat) : List Nat := (List.range k).map e.time

def times (e : Clock) (noDelays : Bool) (k : Nat) : List Nat := (allTimes e k).drop (dry noDelays)

noncomputable def mean (l : List Nat) : ℝ := (l.sum : ℝ) / l.length

noncomputable def sampleVar (l : List Nat) : ℝ := (l.map fun t : ℕ => ((t : ℝ) - mean l) ^ 2).sum / ((l.length : ℝ) - 1)

noncomputable def throughput (fileSize : Nat) (ns : ℝ) : ℝ := ((fileSize : ℝ) / 2 ^ 20) / (ns / 10 ^ 9)

/-! ### Lemmas -/

theorem times_eq (e : Clock) (nd : Bool) (k : Nat) : times e nd k = ((List.range k).drop (dry nd)).map e.time := by
  unfold times allTimes
  rw [List.map_drop]

theorem times_length (e : Clock) (nd : Bool) (k : Nat) : (times e nd k).length = k - dry nd := by
  simp [times, allTimes]

theorem measure_ok {e : Clock} {sd nd : Bool} {runs minSeconds fuel cap room k : Nat}
    (hk : Calls e nd runs minSeconds k) (hf : fuel ≤ 2 ^ 59)
    (hc : sd = true → room = cap ∧ 0 < cap ∧ cap ≤ 2 ^ 60) (v : Vars)
    (h : measure e sd nd runs minSeconds fuel cap room = .done v) : After e sd (dry nd) k v := by
  unfold measure at h
  have hd : dry nd ≤ 1 := by unfold dry; split <;> omega
  rcases loop_ok (runs := runs) (minSeconds := minSeconds) hd fuel 0 _ (start_after e sd nd cap room)
    (fun hs => ⟨(hc hs).1, Nat.zero_le _, (hc hs).2.1, (hc hs).2.2⟩) (by omega) with g | g | ⟨v', k', g, g1, g2, g3, g4, g5, g6⟩
  · rw [g] at h; cases h
  · rw [g] at h; cases h
  · rw [g] at h
    cases h
    obtain ⟨a1, a2, a3, a4⟩ := hk
    have : k' = k := by
      rcases Nat.lt_trichotomy k' k with hlt | heq | hgt
      · rcases g6 with ⟨b1, b2⟩ | ⟨b1, _⟩
        · rcases a4 k' hlt with c | c <;> omega
        · exact absurd b1 (a1 k' hlt)
      · exact heq
      · rcases (g5 k (Nat.zero_le _) hgt).2 with c | c <;> omega
    rw [← this]
    exact g3

theorem keep_noMemory {e : Clock} {t : Nat} {v : Vars} (h : keep e t v = .error .noMemory) : ∃ n, e.alloc n = false := by
  unfold keep at h
  split at h
  · dsimp only at h
    split at h
    · split at h <;> cases h
    · rename_i hn
      exact ⟨_, by simpa using hn⟩
  · split at h <;> cases h

theorem account_noMemory {e : Clock} {sd : Bool} {t c : Nat} {v : Vars} (h : account e sd t c v = .error .noMemory) :
    ∃ n, e.alloc n = false := by
  unfold account at h
  by_cases hs : sd = true ∧ 0 < v.runs
  · simp only [hs.1, hs.2, and_self, if_true] at h
    generalize hk : keep e t _ = r at h
    cases r with
    | error x => cases h; exact keep_noMemory hk
    | ok w => cases h
  · rw [if_neg hs] at h
    cases h

/-- A loop that has not ended goes on, and a loop stops for memory only when there is none. -/
theorem loop_goes {e : Clock} {sd : Bool} {runs minSeconds d : Nat} (hd : d ≤ 1) : ∀ (fuel i : Nat) (v : Vars),
    After e sd d i v → (sd = true → Fits v) → i + fuel ≤ 2 ^ 59 →
    (loop e sd runs minSeconds fuel i v = .noMemory → ∃ n, e.alloc n = false) ∧
    (loop e sd runs minSeconds fuel i v = .running → ∀ m, i ≤ m → m < i + fuel → m < runs + d ∨ e.elapsed m < 1000000000 * minSeconds)
  | 0, i, v, _, _, _ => ⟨(fun h => by cases h), fun _ m h1 h2 => by omega⟩
  | fuel + 1, i, v, h, hf, hn => by
    rw [loop]
    by_cases hc : v.runs < (runs : Int) ∨ e.elapsed i < 1000000000 * minSeconds
    · rw [if_pos hc]
      by_cases h0 : e.size i = 0
      · rw [if_pos h0]
        exact ⟨(fun h => by cases h), fun h => by cases h⟩
      · rw [if_neg h0]
        rcases account_ok hd h hf (by omega) (e.size i) with ha | ⟨v', ha, h1, h2⟩
        · rw [ha]
          exact ⟨fun _ => account_noMemory ha, fun h => by cases h⟩
        · rw [ha]
          obtain ⟨g1, g2⟩ := loop_goes hd fuel (i + 1) v' h1 h2 (by omega)
          refine ⟨g1, fun hh m m1 m2 => ?_⟩
          by_cases hm : m = i
          · subst hm
            have := h.runs
            rcases hc with hc | hc
            · left; omega
            · exact Or.inr hc
          · exact g2 hh m (by omega) (by omega)
    · rw [if_neg hc]
      exact ⟨(fun h => by cases h), fun h => by cases h⟩

theorem mean_div {l : List Nat} (h : 0 < l.length) {v : Vars} (hs : v.total = l.sum) (hr : v.runs = (l.length : Int)) :
    div (v.total : ℝ) (v.runs : ℝ) = some (mean l) := by
  unfold div mean
  rw [hs, hr]
  have : (l.length : ℝ) ≠ 0 := by exact_mod_cast h.ne'
  rw [Int.cast_natCast, if_neg this]

theorem after_sum {e : Clock} {sd nd : Bool} {k : Nat} {v : Vars} (h : After e sd (dry nd) k v)
    (hs : (times e nd k).sum < 2 ^ 64) : v.total = (times e nd k).sum := by
  rw [h.total, ← times_eq, Nat.mod_eq_of_lt hs]

theorem after_runs {e : Clock} {sd nd : Bool} {k : Nat} {v : Vars} (h : After e sd (dry nd) k v)
    (hk : dry nd ≤ k) : v.runs = ((times e nd k).length : Int) := by
  rw [h.runs, times_length]
  omega

theorem after_kept {e : Clock} {nd : Bool} {k : Nat} {v : Vars} (h : After e true (dry nd) k v) :
    v.kept = (times e nd k).tail := by
  rw [h.kept, times_eq, if_pos rfl, ← List.drop_one, ← List.map_drop, List.drop_drop, Nat.add_comm]

theorem foldl_min_spec : ∀ (l : List Nat) (a : Nat), l.foldl min a ≤ a ∧ (∀ t ∈ l, l.foldl min a ≤ t) ∧ (l.foldl min a = a ∨ l.foldl min a ∈ l)
  | [], a => ⟨Nat.le_refl _, by simp, Or.inl rfl⟩
  | t :: ts, a => by
    obtain ⟨h1, h2, h3⟩ := foldl_min_spec ts (min a t)
    rw [List.foldl_cons]
    refine ⟨by omega, fun x hx => ?_, ?_⟩
    · rcases List.mem_cons.mp hx with rfl | hx
      · omega
      · exact h2 x hx
    · rcases h3 with h3 | h3
      · rw [h3]
        rcases Nat.le_total a t with h | h
        · left; omega
        · right
          rw [Nat.min_eq_right h]
          exact List.mem_cons_self ..
      · exact Or.inr (List.mem_cons_of_mem _ h3)

/-! ### The property -/

/-- The benchmark makes one dry run, at least the requested runs, and goes on until the requested time has passed. -/
theorem C57_calls {e : Clock} {sd nd : Bool} {runs minSeconds fuel cap k : Nat}
    (hk : Calls e nd runs minSeconds k) (hf : k < fuel) (hf2 : fuel ≤ 2 ^ 59) (ha : ∀ n, e.alloc n = true)
    (hc : sd = true → 0 < cap ∧ cap ≤ 2 ^ 60) :
    ∃ v, measure e sd nd runs minSeconds fuel cap cap = .done v ∧ v.runs = ((k - dry nd : Nat) : Int) ∧ (runs : Int) ≤ v.runs := by
  have hd : dry nd ≤ 1 := by unfold dry; split <;> omega
  have hfit : sd = true → Fits (start nd cap cap) := fun hs => ⟨rfl, Nat.zero_le _, (hc hs).1, (hc hs).2⟩
  obtain ⟨g1, g2⟩ := loop_goes (runs := runs) (minSeconds := minSeconds) hd fuel 0 _ (start_after e sd nd cap cap) hfit (by omega)
  have hdk : runs + dry nd ≤ k := hk.2.1
  have ht : minSeconds * 10 ^ 9 ≤ e.elapsed k := hk.2.2.1
  rcases loop_ok (runs := runs) (minSeconds := minSeconds) hd fuel 0 _ (start_after e sd nd cap cap) hfit (by omega) with g | g | ⟨v, k', g, _⟩
  · rcases g2 g k (Nat.zero_le _) (by omega) with c | c <;> omega
  · obtain ⟨n, hn⟩ := g1 g
    rw [ha n] at hn
    cases hn
  · have hv := (measure_ok hk hf2 (fun hs => ⟨rfl, hc hs⟩) v g).runs
    exact ⟨v, g, by omega, by omega⟩

/-- The average column: the throughput at the mean time of the calls after the dry run. -/
theorem C57_average {e : Clock} {sd nd : Bool} {runs minSeconds fuel cap k : Nat} {v : Vars}
    (hk : Calls e nd runs minSeconds k) (hf : fuel ≤ 2 ^ 59) (hc : sd = true → 0 < cap ∧ cap ≤ 2 ^ 60)
    (h : measure e sd nd runs minSeconds fuel cap cap = .done v) (hr : 0 < runs)
    (h1 : 0 < (times e nd k).sum) (h2 : (times e nd k).sum < 2 ^ 64) (fileSize : Nat) :
    average fileSize v = some (throughput fileSize (mean (times e nd k))) := by
  have ha := measure_ok hk hf (fun hs => ⟨rfl, hc hs⟩) v h
  have hdk : runs + dry nd ≤ k := hk.2.1
  have hl : 0 < (times e nd k).length := by rw [times_length]; omega
  unfold average div throughput mean
  rw [after_sum ha h2, after_runs ha (by omega), Int.cast_natCast]
  have l0 : ((times e nd k).length : ℝ) ≠ 0 := by exact_mod_cast hl.ne'
  have s0 : ((times e nd k).sum : ℝ) ≠ 0 := by exact_mod_cast h1.ne'
  rw [if_neg (div_ne_zero s0 (by norm_num))]
  congr 1
  field_simp
  norm_num
  ring

/-- The maximum column: the throughput of the fastest of all calls. The dry run is one of them. -/
theorem C57_maximum {e : Clock} {sd nd : Bool} {runs minSeconds fuel cap k : Nat} {v : Vars}
    (hk : Calls e nd runs minSeconds k) (hf : fuel ≤ 2 ^ 59) (hc : sd = true → 0 < cap ∧ cap ≤ 2 ^ 60)
    (h : measure e sd nd runs minSeconds fuel cap cap = .done v) (hr : 0 < runs)
    (ht : ∀ t ∈ allTimes e k, 0 < t ∧ t < 2 ^ 64) (fileSize : Nat) :
    ∃ t ∈ allTimes e k, (∀ u ∈ allTimes e k, t ≤ u) ∧ maximum fileSize v = some (throughput fileSize t) := by
  have ha := measure_ok hk hf (fun hs => ⟨rfl, hc hs⟩) v h
  have hdk : runs + dry nd ≤ k := hk.2.1
  obtain ⟨f1, f2, f3⟩ := foldl_min_spec (allTimes e k) (2 ^ 64 - 1)
  have hmem : (allTimes e k).foldl min (2 ^ 64 - 1) ∈ allTimes e k := by
    rcases f3 with f3 | f3
    · have h0 : e.time 0 ∈ allTimes e k := List.mem_map.mpr ⟨0, List.mem_range.mpr (by omega), rfl⟩
      have := f2 _ h0
      have h3 := (ht _ h0).2
      have : e.time 0 = 2 ^ 64 - 1 := by omega
      rw [f3, ← this]
      exact h0
    · exact f3
  refine ⟨_, hmem, f2, ?_⟩
  unfold maximum div throughput
  have hv : v.fastest = (allTimes e k).foldl min (2 ^ 64 - 1) := ha.fastest
  rw [hv]
  have h0 : (((allTimes e k).foldl min (2 ^ 64 - 1) : ℕ) : ℝ) ≠ 0 := by exact_mod_cast (ht _ hmem).1.ne'
  rw [if_neg (div_ne_zero h0 (by norm_num))]
  congr 1
  norm_num

theorem squares_pos_div {l : List Nat} (hl : 3 ≤ l.length) (h64 : l.length ≤ 2 ^ 64) {v : Vars} (hs : v.total = l.sum)
    (hr : v.runs = (l.length : Int)) (hk : v.kept = l.tail) :
    stdDev v = some (mean l, Real.sqrt ((l.tail.map fun t : ℕ => ((t : ℝ) - mean l) ^ 2).sum / ((l.length : ℝ) - 2))) := by
  unfold stdDev
  rw [mean_div (by omega) hs hr, hk]
  have hc : ((l.tail.length + (2 ^ 64 - 1)) % 2 ^ 64 : ℕ) = l.length - 2 := by
    rw [List.length_tail]
    generalize l.length = n at *
    omega
  rw [hc]
  have hr2 : ((l.length - 2 : ℕ) : ℝ) = (l.length : ℝ) - 2 := by rw [Nat.cast_sub (by omega)]; norm_num
  have h0 : ((l.length : ℝ) - 2) ≠ 0 := by rw [← hr2]; exact_mod_cast (by omega : l.length - 2 ≠ 0)
  rw [hr2]
  show (div (squares (mean l) l.tail 0) _).bind _ = _
  rw [squares_eq, zero_add, show ∀ a : ℝ, div a ((l.length : ℝ) - 2) = some (a / ((l.length : ℝ) - 2)) from fun a => if_neg h0]
  rfl

/-- Missing: the deviation (`C57_deviation_violated`). What the two deviation columns show with at least three runs: the throughput at the mean plus and minus `s`, where `s` leaves out the first run and divides by two less than the number of runs. -/
theorem C57_deviation_partial {e : Clock} {nd : Bool} {runs minSeconds fuel cap k : Nat} {v : Vars}
    (hk : Calls e nd runs minSeconds k) (hf : fuel ≤ 2 ^ 59) (hc : 0 < cap ∧ cap ≤ 2 ^ 60)
    (h : measure e true nd runs minSeconds fuel cap cap = .done v) (hr : 3 ≤ runs) (hk64 : k < 2 ^ 59)
    (h1 : 0 < (times e nd k).sum) (h2 : (times e nd k).sum < 2 ^ 64) (fileSize : Nat) (s : ℝ)
    (hs : s = Real.sqrt (((times e nd k).tail.map fun t : ℕ => ((t : ℝ) - mean (times e nd k)) ^ 2).sum / (((times e nd k).length : ℝ) - 2))) :
    slower fileSize v = some (throughput fileSize (mean (times e nd k) + s)) ∧
      (s ≠ mean (times e nd k) → faster fileSize v = some (throughput fileSize (mean (times e nd k) - s))) := by
  have ha := measure_ok hk hf (fun _ => ⟨rfl, hc⟩) v h
  have hdk : runs + dry nd ≤ k := hk.2.1
  have hl : 3 ≤ (times e nd k).length := by rw [times_length]; omega
  have hl2 : (times e nd k).length ≤ 2 ^ 64 := by rw [times_length]; omega
  have hsd := squares_pos_div hl hl2 (after_sum ha h2) (after_runs ha (by omega)) (after_kept ha)
  rw [← hs] at hsd
  have hm : 0 < mean (times e nd k) := by
    unfold mean
    apply div_pos
    · exact_mod_cast h1
    · exact_mod_cast (by omega : 0 < (times e nd k).length)
  have hs0 : 0 ≤ s := by rw [hs]; exact Real.sqrt_nonneg _
  unfold slower faster
  rw [hsd]
  constructor
  · show div _ _ = _
    unfold div throughput
    rw [if_neg (div_ne_zero (by linarith) (by norm_num))]
    norm_num
  · intro hne
    show div _ _ = _
    unfold div throughput
    rw [if_neg (div_ne_zero (sub_ne_zero.mpr hne.symm) (by norm_num))]
    norm_num

/-- The `s` of the columns is the sample standard deviation exactly when the first run happens to lie one standard deviation from the mean. -/
theorem C57_deviation_exact (t : Nat) (ts : List Nat) (hl : 2 ≤ ts.length) :
    Real.sqrt ((ts.map fun u : ℕ => ((u : ℝ) - mean (t :: ts)) ^ 2).sum / (((t :: ts).length : ℝ) - 2)) = Real.sqrt (sampleVar (t :: ts)) ↔
      ((t : ℝ) - mean (t :: ts)) ^ 2 = sampleVar (t :: ts) := by
  have hn : (2 : ℝ) ≤ ts.length := by exact_mod_cast hl
  have hsq : 0 ≤ (ts.map fun u : ℕ => ((u : ℝ) - mean (t :: ts)) ^ 2).sum := by
    apply List.sum_nonneg
    intro x hx
    obtain ⟨u, _, rfl⟩ := List.mem_map.mp hx
    positivity
  have hlen : ((t :: ts).length : ℝ) = ts.length + 1 := by simp
  unfold sampleVar
  rw [hlen, List.map_cons, List.sum_cons]
  have hD : 0 ≤ ((t : ℝ) - mean (t :: ts)) ^ 2 := sq_nonneg _
  generalize (ts.map fun u : ℕ => ((u : ℝ) - mean (t :: ts)) ^ 2).sum = S at *
  generalize ((t : ℝ) - mean (t :: ts)) ^ 2 = D at *
  generalize (ts.length : ℝ) = n at *
  have e1 : n + 1 - 2 = n - 1 := by ring
  have e2 : n + 1 - 1 = n := by ring
  rw [e1, e2, Real.sqrt_inj (div_nonneg hsq (by linarith)) (div_nonneg (by linarith) (by linarith)),
    div_eq_div_iff (by linarith) (by linarith), eq_div_iff (by linarith)]
  constructor <;> intro h <;> nlinarith

/-- With two runs both deviation columns divide by 0. -/
theorem C57_two_violated {e : Clock} {nd : Bool} {minSeconds fuel cap k : Nat} {v : Vars}
    (hk : Calls e nd 2 minSeconds k) (hk2 : k = 2 + dry nd) (hf : fuel ≤ 2 ^ 59) (hc : 0 < cap ∧ cap ≤ 2 ^ 60)
    (h : measure e true nd 2 minSeconds fuel cap cap = .done v) (fileSize : Nat) :
    slower fileSize v = none ∧ faster fileSize v = none := by
  have ha := measure_ok hk hf (fun _ => ⟨rfl, hc⟩) v h
  have hl : v.kept.length = 1 := by rw [after_kept ha, List.length_tail, times_length]; omega
  have hz : ∀ m : ℝ, div (squares m v.kept 0) (((v.kept.length + (2 ^ 64 - 1)) % 2 ^ 64 : ℕ) : ℝ) = none := fun m => by
    rw [hl]
    exact if_pos (by norm_num)
  have hn : stdDev v = none := by
    unfold stdDev
    cases hm : div (v.total : ℝ) (v.runs : ℝ) with
    | none => rfl
    | some m =>
      show (div (squares m v.kept 0) _).bind _ = none
      rw [hz m]
      rfl
  unfold slower faster
  rw [hn]
  exact ⟨rfl, rfl⟩

/-- With one run there is no deviation, and both columns show the throughput of that run. -/
theorem C57_one {e : Clock} {nd : Bool} {minSeconds fuel cap k : Nat} {v : Vars}
    (hk : Calls e nd 1 minSeconds k) (hk1 : k = 1 + dry nd) (hf : fuel ≤ 2 ^ 59) (hc : 0 < cap ∧ cap ≤ 2 ^ 60)
    (h : measure e true nd 1 minSeconds fuel cap cap = .done v) (h1 : 0 < e.time (dry nd)) (h2 : e.time (dry nd) < 2 ^ 64) (fileSize : Nat) :
    slower fileSize v = some (throughput fileSize (e.time (dry nd))) ∧ faster fileSize v = some (throughput fileSize (e.time (dry nd))) := by
  have ha := measure_ok hk hf (fun _ => ⟨rfl, hc⟩) v h
  have ht : times e nd k = [e.time (dry nd)] := by
    rw [hk1]
    cases nd <;> rfl
  have hkept : v.kept = [] := by rw [after_kept ha, ht]; rfl
  have htot : v.total = e.time (dry nd) := by rw [after_sum ha (by rw [ht]; simpa using h2), ht]; simp
  have hruns : v.runs = 1 := by rw [after_runs ha (by omega), ht]; rfl
  have h0 : ((e.time (dry nd) : ℕ) : ℝ) ≠ 0 := by exact_mod_cast h1.ne'
  have hsd : stdDev v = some ((e.time (dry nd) : ℝ), 0) := by
    unfold stdDev
    rw [htot, hruns, hkept]
    simp [div, squares]
  unfold slower faster
  rw [hsd]
  constructor
  · show div _ _ = _
    unfold div throughput
    rw [add_zero, if_neg (div_ne_zero h0 (by norm_num))]
    norm_num
  · show div _ _ = _
    unfold div throughput
    rw [sub_zero, if_neg (div_ne_zero h0 (by norm_num))]
    norm_num

/-- The array of the run times is never left, whatever the clock shows, for any number of codecs. -/
theorem C57_inside (sd nd : Bool) (runs minSeconds fuel : Nat) (hf : fuel ≤ 2 ^ 59) (es : List Clock) :
    measureAll sd nd runs minSeconds fuel es (firstCap sd) (firstCap sd) ≠ .ub := by
  have main : ∀ (es : List Clock) (cap room : Nat), (sd = true → room = cap ∧ 0 < cap ∧ cap ≤ 2 ^ 60) →
      measureAll sd nd runs minSeconds fuel es cap room ≠ .ub := by
    intro es
    induction es with
    | nil => intro cap room _ h; cases h
    | cons e es ih =>
      intro cap room hc
      rw [measureAll]
      have hd : (if nd then 0 else 1) ≤ 1 := by split <;> omega
      rcases loop_ok (runs := runs) (minSeconds := minSeconds) hd fuel 0 _ (start_after e sd nd cap room)
        (fun hs => ⟨(hc hs).1, Nat.zero_le _, (hc hs).2.1, (hc hs).2.2⟩) (by omega) with g | g | ⟨v', k', g, _, _, _, g4, _⟩
      · unfold measure; rw [g]; intro h; cases h
      · unfold measure; rw [g]; intro h; cases h
      · unfold measure; rw [g]
        exact ih _ _ fun hs => ⟨(g4 hs).1, (g4 hs).2.2.1, (g4 hs).2.2.2⟩
  apply main
  intro hs
  rw [hs]
  exact ⟨rfl, by decide, by decide⟩

/-! ### A clock -/

/-- Calls that take 9 (the dry run), 10, 20 and 60 nanoseconds. -/
def exampleClock : Clock :=
  { time := fun i => [9, 10, 20, 60].getD i 1, size := fun _ => 7, elapsed := fun i => 100 * i, alloc := fun _ => true }

theorem example_calls : Calls exampleClock false 3 0 4 :=
  ⟨fun _ _ => show 7 ≠ 0 by decide, by decide, by decide, fun i hi => Or.inl hi⟩

theorem example_ends : ∃ v, measure exampleClock true false 3 0 100 1024 1024 = .done v :=
  (C57_calls example_calls (by decide) (by decide) (fun _ => rfl) (fun _ => ⟨by decide, by decide⟩)).imp fun _ h => h.1

theorem example_mean : mean (times exampleClock false 4) = 30 := by
  show (((([10, 20, 60] : List Nat).sum : ℕ)) : ℝ) / (([10, 20, 60] : List Nat).length : ℝ) = 30
  norm_num

theorem example_var : sampleVar (times exampleClock false 4) = 700 := by
  unfold sampleVar
  rw [example_mean]
  show (([10, 20, 60] : List Nat).map fun t : ℕ => ((t : ℝ) - 30) ^ 2).sum / (([10, 20, 60] : List Nat).length - 1 : ℝ) = 700
  norm_num

/-- The deviation columns are not the throughput at the mean plus or minus the sample standard deviation. -/
theorem C57_deviation_violated : ∃ (e : Clock) (v : Vars), Calls e false 3 0 4 ∧
    measure e true false 3 0 100 1024 1024 = .done v ∧
    slower 1000 v ≠ some (throughput 1000 (mean (times e false 4) + Real.sqrt (sampleVar (times e false 4)))) := by
  obtain ⟨v, hv⟩ := example_ends
  refine ⟨exampleClock, v, example_calls, hv, ?_⟩
  have h := (C57_deviation_partial example_calls (by decide) ⟨by decide, by decide⟩ hv (Nat.le_refl _) (by decide)
    (show 0 < ([10, 20, 60] : List Nat).sum by decide) (show ([10, 20, 60] : List Nat).sum < 2 ^ 64 by decide) 1000 _ rfl).1
  rw [h, example_mean, example_var]
  have h1000 : (([20, 60] : List Nat).map fun t : ℕ => ((t : ℝ) - 30) ^ 2).sum / (([10, 20, 60] : List Nat).length - 2 : ℝ) = 1000 := by norm_num
  rw [show (((times exampleClock false 4).tail.map fun t : ℕ => ((t : ℝ) - 30) ^ 2).sum / (((times exampleClock false 4).length : ℝ) - 2)) = 1000 from h1000]
  intro hh
  rw [Option.some_inj] at hh
  unfold throughput at hh
  rw [div_eq_div_iff (by positivity) (by positivity)] at hh
  norm_num at hh

example : ∃ v, measure exampleClock true false 3 0 100 1024 1024 = .done v ∧
    average 1000 v = some (throughput 1000 30) := by
  obtain ⟨v, hv⟩ := example_ends
  refine ⟨v, hv, ?_⟩
  rw [C57_average example_calls (by decide) (fun _ => ⟨by decide, by decide⟩) hv (by decide)
    (show 0 < ([10, 20, 60] : List Nat).sum by decide) (show ([10, 20, 60] : List Nat).sum < 2 ^ 64 by decide), example_mean]

example : ∃ v t, measure exampleClock true false 3 0 100 1024 1024 = .done v ∧ t ∈ allTimes exampleClock 4 ∧
    maximum 1000 v = some (throughput 1000 (t : ℕ)) := by
  obtain ⟨v, hv⟩ := example_ends
  obtain ⟨t, h1, _, h2⟩ := C57_maximum example_calls (by decide) (fun _ => ⟨by decide, by decide⟩) hv (by decide)
    (show ∀ t ∈ ([9, 10, 20, 60] : List Nat), 0 < t ∧ t < 2 ^ 64 by decide) 1000
  exact ⟨v, t, hv, h1, h2⟩

example : Calls exampleClock false 2 0 3 ∧ Calls exampleClock true 1 0 1 ∧ 2 ≤ ([20, 60] : List Nat).length :=
  ⟨⟨fun _ _ => show 7 ≠ 0 by decide, by decide, by decide, fun _ h => Or.inl h⟩,
    ⟨fun _ _ => show 7 ≠ 0 by decide, by decide, by decide, fun _ h => Or.inl h⟩, by decide⟩

end Hrk.Timing
