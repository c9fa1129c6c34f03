import Verif.RunsSpec
import Verif.PropsWithInfo
import Verif.ChangesLow

/-
The statistics of the low entropy encoders in terms of the runs of the input.
-/

namespace Hrk

/-! ### Runs, one byte more at the end -/

/-- Runs after one more byte. -/
def snocRun : List (Byte × Nat) → Byte → List (Byte × Nat)
  | [], b => [(b, 1)]
  | [(c, k)], b => if b = c then [(c, k + 1)] else [(c, k), (b, 1)]
  | x :: y :: t, b => x :: snocRun (y :: t) b

/-- Runs after one more byte in front. -/
def consRun (b : Byte) : List (Byte × Nat) → List (Byte × Nat)
  | [] => [(b, 1)]
  | (c, k) :: t => if b = c then (c, k + 1) :: t else (b, 1) :: (c, k) :: t

theorem runsOf_cons (b : Byte) (r : List Byte) : runsOf (b :: r) = consRun b (runsOf r) := by
  conv => lhs; unfold runsOf
  cases runsOf r <;> rfl

theorem cons_snocRun (a b : Byte) (rs : List (Byte × Nat)) : consRun a (snocRun rs b) = snocRun (consRun a rs) b := by
  match rs with
  | [] =>
    by_cases h : a = b
    · subst h; simp [snocRun, consRun]
    · simp [snocRun, consRun, h, Ne.symm h]
  | [(c, k)] =>
    by_cases h : b = c
    · by_cases h2 : a = c
      · simp [snocRun, consRun, h, h2]
      · simp [snocRun, consRun, h, h2]
    · by_cases h2 : a = c
      · simp [snocRun, consRun, h, h2]
      · simp [snocRun, consRun, h, h2]
  | (c, k) :: y :: t =>
    by_cases h2 : a = c
    · simp [snocRun, consRun, h2]
    · simp [snocRun, consRun, h2]

theorem runsOf_snoc (l : List Byte) (b : Byte) : runsOf (l ++ [b]) = snocRun (runsOf l) b := by
  induction l with
  | nil => rfl
  | cons a l ih => rw [List.cons_append, runsOf_cons, ih, runsOf_cons, cons_snocRun]

/-- Pieces of all runs but the last. -/
def closed (blk : Nat) (v : Byte) : List (Byte × Nat) → Nat
  | [] => 0
  | [_] => 0
  | (c, k) :: y :: t => (if c = v then k / blk + 1 else 0) + closed blk v (y :: t)

theorem snocRun_last {rs : List (Byte × Nat)} {c : Byte} {k : Nat} (b : Byte) (h : rs.getLast? = some (c, k)) :
    (snocRun rs b).getLast? = some (if b = c then (c, k + 1) else (b, 1)) := by
  match rs with
  | [] => simp at h
  | [(c', k')] =>
    simp only [List.getLast?_singleton, Option.some.injEq, Prod.mk.injEq] at h
    obtain ⟨rfl, rfl⟩ := h
    by_cases hb : b = c' <;> simp [snocRun, hb]
  | x :: y :: t =>
    have ih := snocRun_last (rs := y :: t) b (by simpa [List.getLast?_cons_cons] using h)
    unfold snocRun
    have hne : snocRun (y :: t) b ≠ [] := by intro e; rw [e] at ih; simp at ih
    obtain ⟨z, w, e⟩ := List.exists_cons_of_ne_nil hne
    rw [e] at ih ⊢
    rw [List.getLast?_cons_cons, ih]

theorem closed_snoc (blk : Nat) (v b : Byte) : ∀ {rs : List (Byte × Nat)} {c : Byte} {k : Nat}, rs.getLast? = some (c, k) →
    closed blk v (snocRun rs b) = closed blk v rs + if b ≠ c ∧ c = v then k / blk + 1 else 0
  | [], c, k, h => by simp at h
  | [(c', k')], c, k, h => by
    simp only [List.getLast?_singleton, Option.some.injEq, Prod.mk.injEq] at h
    obtain ⟨rfl, rfl⟩ := h
    by_cases hb : b = c'
    · simp [snocRun, closed, hb]
    · rw [snocRun, if_neg hb]
      by_cases hv : c' = v
      · rw [if_pos ⟨hb, hv⟩]; simp [closed, hv]
      · rw [if_neg (fun h => hv h.2)]; simp [closed, hv]
  | (c', k') :: y :: t, c, k, h => by
    have h' : (y :: t).getLast? = some (c, k) := by simpa [List.getLast?_cons_cons] using h
    have ih := closed_snoc blk v b h'
    have hl := snocRun_last b h'
    unfold snocRun
    have hne : snocRun (y :: t) b ≠ [] := by intro e; rw [e] at hl; simp at hl
    obtain ⟨z, w, e⟩ := List.exists_cons_of_ne_nil hne
    rw [e] at ih ⊢
    rw [closed, ih, closed, Nat.add_assoc]

theorem pieces_closed (blk : Nat) (v : Byte) : ∀ {rs : List (Byte × Nat)} {c : Byte} {k : Nat}, rs.getLast? = some (c, k) →
    pieces blk v rs = closed blk v rs + if c = v then 1 else 0
  | [], c, k, h => by simp at h
  | [(c', k')], c, k, h => by
    simp only [List.getLast?_singleton, Option.some.injEq, Prod.mk.injEq] at h
    obtain ⟨rfl, rfl⟩ := h
    simp [pieces, closed]
  | (c', k') :: y :: t, c, k, h => by
    have h' : (y :: t).getLast? = some (c, k) := by simpa [List.getLast?_cons_cons] using h
    rw [pieces, closed, pieces_closed blk v h', Nat.add_assoc]

theorem rd_snoc (inp : Mem) (i : Nat) : rd inp 0 (i + 1) = rd inp 0 i ++ [inp i] := by
  rw [rd_cat]; simp [rd]

/-- After `i + 1` bytes. -/
theorem runs_spec (blk : Nat) (inp : Mem) : ∀ i,
    (runsOf (rd inp 0 (i + 1))).getLast? = some (inp i, curRun inp (inp i).toNat (i + 1)) ∧
      ∀ v : Byte, closed blk v (runsOf (rd inp 0 (i + 1))) = runCost blk inp v.toNat (i + 1) := by
  intro i
  induction i with
  | zero =>
    have e : rd inp 0 1 = [inp 0] := by simp [rd]
    rw [Nat.zero_add, e]
    refine ⟨by simp [runsOf, curRun], ?_⟩
    intro v
    simp [runsOf, closed, runCost, curRun]
  | succ i ih =>
    obtain ⟨h1, h2⟩ := ih
    rw [rd_snoc, runsOf_snoc]
    refine ⟨?_, ?_⟩
    · rw [snocRun_last _ h1, curRun_succ _ _ (i + 1), if_pos rfl]
      by_cases h : inp (i + 1) = inp i
      · rw [if_pos h, h]
      · rw [if_neg h]
        have : curRun inp (inp (i + 1)).toNat (i + 1) = 0 := by
          rw [curRun_succ, if_neg]
          intro e; exact h (UInt8.toNat_inj.mp e).symm
        rw [this]
    · intro v
      rw [closed_snoc _ _ _ h1, h2 v, runCost_succ _ _ _ (i + 1)]
      by_cases hv : inp i = v
      · subst hv
        have hpos : 0 < curRun inp (inp i).toNat (i + 1) := by rw [curRun_succ, if_pos rfl]; omega
        by_cases h : inp (i + 1) = inp i
        · rw [if_neg (by simp [h]), if_neg (by simp [h])]; rfl
        · rw [if_pos ⟨h, rfl⟩, if_pos ⟨fun e => h (UInt8.toNat_inj.mp e), hpos⟩]
      · have h0 : curRun inp v.toNat (i + 1) = 0 := by
          rw [curRun_succ, if_neg]
          intro e; exact hv (UInt8.toNat_inj.mp e)
        rw [if_neg (fun h => hv h.2), if_neg (by omega)]; rfl

theorem occs_count (inp : Mem) (v : Byte) : ∀ i, occs inp v.toNat i = (rd inp 0 i).count v := by
  intro i
  induction i with
  | zero => simp [occs, rd]
  | succ i ih =>
    rw [occs_succ, rd_snoc, List.count_append, ih]
    by_cases h : inp i = v
    · simp [h]
    · rw [if_neg (fun e => h (UInt8.toNat_inj.mp e))]
      simp [h]

/-- The two numbers the encoders keep for each byte value. -/
theorem tally_runs {blk : Nat} (hb : 2 ≤ blk) (inp : Mem) {n : Nat} (hn : 0 < n) (hn2 : n < 4294967295) (v : Byte) :
    (tally blk inp n).prob v.toNat = (rd inp 0 n).count v ∧
      (tally blk inp n).pcount v.toNat = pieces blk v (runsOf (rd inp 0 n)) := by
  obtain ⟨h1, h2⟩ := tally_spec hb inp hn hn2 v.toNat
  obtain ⟨i, rfl⟩ : ∃ i, n = i + 1 := ⟨n - 1, by omega⟩
  obtain ⟨r1, r2⟩ := runs_spec blk inp i
  rw [h1, h2, occs_count, pieces_closed blk v r1, r2 v]
  refine ⟨rfl, ?_⟩
  congr 1
  by_cases h : inp i = v
  · subst h
    rw [if_pos rfl, if_pos]
    rw [curRun_succ, if_pos rfl]; omega
  · rw [if_neg h, if_neg]
    rw [curRun_succ, if_neg (fun e => h (UInt8.toNat_inj.mp e))]; omega

/-- A byte value is counted exactly if it occurs. -/
theorem pieces_pos_iff {blk : Nat} (hb : 2 ≤ blk) (inp : Mem) {n : Nat} (hn : 0 < n) (v : Byte) :
    0 < pieces blk v (runsOf (rd inp 0 n)) ↔ v ∈ rd inp 0 n := by
  obtain ⟨i, rfl⟩ : ∃ i, n = i + 1 := ⟨n - 1, by omega⟩
  obtain ⟨r1, r2⟩ := runs_spec blk inp i
  rw [pieces_closed blk v r1, r2 v, ← List.count_pos_iff, ← occs_count]
  have hle := runCost_le hb inp v.toNat (i + 1)
  have h0 := no_runs (blk := blk) (inp := inp) (s := v.toNat) (i + 1)
  by_cases h : inp i = v
  · subst h
    rw [if_pos rfl]
    have : 0 < occs inp (inp i).toNat (i + 1) := by rw [occs_succ, if_pos rfl]; omega
    omega
  · have hc : curRun inp v.toNat (i + 1) = 0 := by
      rw [curRun_succ, if_neg (fun e => h (UInt8.toNat_inj.mp e))]
    rw [if_neg h]
    constructor
    · omega
    · intro hp
      rcases Nat.eq_zero_or_pos (runCost blk inp v.toNat (i + 1)) with e | e
      · have := h0 e hc; omega
      · omega

/-! ### The largest, and the first of the largest -/

theorem maxFold (f : Nat → Nat) : ∀ (l : List Nat) (b : Nat × Nat), l.Pairwise (· < ·) →
    let r := l.foldl (fun (b : Nat × Nat) i => if f i > b.1 then (f i, i) else b) b
    b.1 ≤ r.1 ∧ (∀ i ∈ l, f i ≤ r.1) ∧ (r = b ∨ r.2 ∈ l ∧ r.1 = f r.2 ∧ b.1 < r.1 ∧ ∀ j ∈ l, j < r.2 → f j < r.1) := by
  intro l
  induction l with
  | nil => intro b _; exact ⟨Nat.le_refl _, by simp, .inl rfl⟩
  | cons i l ih =>
    intro b hp
    rw [List.pairwise_cons] at hp
    obtain ⟨hp1, hp2⟩ := hp
    simp only [List.foldl_cons]
    by_cases h : f i > b.1
    · rw [if_pos h]
      have H := ih (f i, i) hp2
      dsimp only at H
      generalize l.foldl (fun (b : Nat × Nat) i => if f i > b.1 then (f i, i) else b) (f i, i) = r at H ⊢
      obtain ⟨g1, g2, g3⟩ := H
      refine ⟨by omega, ?_, .inr ?_⟩
      · intro j hj
        rcases List.mem_cons.mp hj with rfl | hj
        · exact g1
        · exact g2 j hj
      · rcases g3 with rfl | ⟨a1, a2, a3, a4⟩
        · refine ⟨List.mem_cons_self .., rfl, h, ?_⟩
          intro j hj hlt
          rcases List.mem_cons.mp hj with rfl | hj
          · exact absurd hlt (Nat.lt_irrefl _)
          · have := hp1 j hj; dsimp only at hlt; omega
        · refine ⟨List.mem_cons_of_mem _ a1, a2, by omega, ?_⟩
          intro j hj hlt
          rcases List.mem_cons.mp hj with rfl | hj
          · exact a3
          · exact a4 j hj hlt
    · rw [if_neg h]
      have H := ih b hp2
      dsimp only at H
      generalize l.foldl (fun (b : Nat × Nat) i => if f i > b.1 then (f i, i) else b) b = r at H ⊢
      obtain ⟨g1, g2, g3⟩ := H
      refine ⟨g1, ?_, ?_⟩
      · intro j hj
        rcases List.mem_cons.mp hj with rfl | hj
        · omega
        · exact g2 j hj
      · rcases g3 with rfl | ⟨a1, a2, a3, a4⟩
        · exact .inl rfl
        · refine .inr ⟨List.mem_cons_of_mem _ a1, a2, a3, ?_⟩
          intro j hj hlt
          rcases List.mem_cons.mp hj with rfl | hj
          · omega
          · exact a4 j hj hlt

theorem pickBest_first {pc : Nat → Nat} {used : Nat → Bool} {i : Nat} (hi : i < 256) (hu : used i = false) (hp : pc i > 0)
    (hne : i ≠ pickBest pc used) :
    pc i < pc (pickBest pc used) ∨ pc i = pc (pickBest pc used) ∧ pickBest pc used < i := by
  have e : pickBest pc used = ((List.range 256).foldl (fun (b : Nat × Nat) i =>
      if (if used i then 0 else pc i) > b.1 then ((if used i then 0 else pc i), i) else b) (0, 0)).2 := by
    unfold pickBest
    congr 2
    funext b j
    cases h : used j <;> simp
  have H := maxFold (fun i => if used i then 0 else pc i) (List.range 256) (0, 0) List.pairwise_lt_range
  dsimp only at H
  rw [← e] at H
  generalize ((List.range 256).foldl (fun (b : Nat × Nat) i =>
      if (if used i then 0 else pc i) > b.1 then ((if used i then 0 else pc i), i) else b) (0, 0)) = r at e H
  obtain ⟨_, g2, g3⟩ := H
  have gi := g2 i (List.mem_range.mpr hi)
  simp only [hu, Bool.false_eq_true, if_false] at gi
  rcases g3 with rfl | ⟨a1, a2, a3, a4⟩
  · simp only at gi; omega
  · obtain ⟨q1, q2⟩ := pickBest_spec ⟨i, hi, hu, hp⟩
    rw [q2] at a2
    simp only [Bool.false_eq_true, if_false] at a2
    by_cases hlt : i < pickBest pc used
    · have := a4 i (List.mem_range.mpr hi) hlt
      simp only [hu, Bool.false_eq_true, if_false] at this
      omega
    · omega

theorem chosen_sorted {pc : Nat → Nat} : ∀ (k : Nat) (used : Nat → Bool), (∀ i, i < 256 → used i = false → pc i > 0) →
    ((List.range 256).filter fun i => !used i).length = k →
    (chosen pc k used).Pairwise fun i j => pc j < pc i ∨ pc j = pc i ∧ i < j := by
  intro k
  induction k with
  | zero => intro used _ _; simp [chosen]
  | succ k ih =>
    intro used hpos hk
    obtain ⟨c1, c2, c3⟩ := chosen_spec (pc := pc) (k + 1) used hpos hk
    unfold chosen at c1 c2 ⊢
    rw [List.pairwise_cons]
    rw [List.nodup_cons] at c1
    refine ⟨?_, ?_⟩
    · intro j hj
      obtain ⟨d1, d2⟩ := (c2 j).mp (List.mem_cons_of_mem _ hj)
      refine pickBest_first d1 d2 (hpos j d1 d2) ?_
      intro e; rw [e] at hj; exact c1.1 hj
    · obtain ⟨d1, d2⟩ := (c2 (pickBest pc used)).mp (List.mem_cons_self ..)
      generalize pickBest pc used = r at d1 d2 ⊢
      have hnd : ((List.range 256).filter fun i => !used i).Nodup := List.nodup_range.filter _
      have hmem : r ∈ (List.range 256).filter fun i => !used i := by
        rw [List.mem_filter, List.mem_range]; exact ⟨d1, by simp [d2]⟩
      apply ih (fun i => used i || i == r)
      · intro i hi hu
        simp only [Bool.or_eq_false_iff] at hu
        exact hpos i hi hu.1
      · have : (List.range 256).filter (fun i => !(used i || i == r)) = ((List.range 256).filter fun i => !used i).erase r := by
          rw [hnd.erase_eq_filter, List.filter_filter]
          apply List.filter_congr
          intro i _
          cases used i <;> simp [bne]
        rw [this, List.length_erase_of_mem hmem, hk]
        rfl

theorem chosen_all_sorted (pc : Nat → Nat) :
    (chosen pc (256 - (absent pc 256 []).length) (fun i => pc i == 0)).Pairwise fun i j => pc j < pc i ∨ pc j = pc i ∧ i < j := by
  refine chosen_sorted (pc := pc) (256 - (absent pc 256 []).length) (fun i => pc i == 0) (by
    intro i _ h
    simp at h
    omega) (by
    rw [filter_compl_length, absent_eq, List.append_nil]
    simp)

end Hrk
