import Verif.Analyze

/-
C44: what the statistics of `--analyze` say.
-/

namespace Hrk.Analyze

/-! ### Specification -/

/-- The maximal stretches of equal values of a sequence, with their lengths. -/
def groups : List Bool → List (Bool × Nat)
  | [] => []
  | b :: bs =>
    match groups bs with
    | [] => [(b, 1)]
    | (c, n) :: r => if b = c then (c, n + 1) :: r else (b, 1) :: (c, n) :: r

/-- Whether the bytes at the positions the part looks at repeat the symbol before. -/
def matchesAt (aligned : Bool) (j : Nat) (inp : Mem) (n : Nat) : List Bool :=
  (positions aligned j n).map (isMatch inp j)

/-- The lengths of the runs: for runs anywhere the number of bytes that repeat the byte `j` before them,
for aligned runs the number of repeated symbols. -/
def runs (aligned : Bool) (j : Nat) (inp : Mem) (n : Nat) : List Nat :=
  (groups (matchesAt aligned j inp n)).filterMap fun g => if g.1 then some (g.2 + (if aligned then 1 else j) - 1) else none

/-- The lengths of the stretches between them. -/
def gaps (aligned : Bool) (j : Nat) (inp : Mem) (n : Nat) : List Nat :=
  (groups (matchesAt aligned j inp n)).filterMap fun g => if g.1 then none else some g.2

/-- The positions where runs start; `before`: the position before is in a run. -/
def starts (hit : Nat → Bool) (before : Bool) : List Nat → List Nat
  | [] => []
  | i :: is => if hit i && !before then i :: starts hit true is else starts hit (hit i) is

/-- The symbols of a history, each once, in the order of the history. -/
def distinct : List (List Byte) → List (List Byte)
  | [] => []
  | s :: h => s :: (distinct h).filter (fun t => decide (t ≠ s))

/-- For every symbol the number of different symbols since its last use (if it was used); the history
has the last symbol first. -/
def ages (history : List (List Byte)) : List (List Byte) → List (Option Nat)
  | [] => []
  | s :: l => (if s ∈ history then some ((distinct history).idxOf s) else none) :: ages (s :: history) l

/-- The ages of the symbols of the runs. The zero symbol counts as used before the start. -/
def runAges (aligned : Bool) (j : Nat) (inp : Mem) (n : Nat) : List (Option Nat) :=
  ages [List.replicate j 0] ((starts (isMatch inp j) false (positions aligned j n)).map (symAt inp j))

/-- The row of the tables by bits a length is entered in. -/
def row (x : Nat) : Nat := 32 + Nat.log2 (x % 4294967296)

/-! ### Proofs -/

theorem bump_some {t t' : List Nat} {i : Nat} (h : bump t i = some t') :
    i < t.length ∧ t'.length = t.length ∧ ∀ k, t'.getD k 0 = t.getD k 0 + if k = i then 1 else 0 := by
  unfold bump at h
  split at h
  · next hi =>
    cases h
    refine ⟨hi, by simp, fun k => ?_⟩
    simp only [List.getD_eq_getElem?_getD, List.getElem?_modify]
    by_cases hk : k = i
    · subst hk; simp [List.getElem?_eq_getElem hi]
    · simp [Ne.symm hk, hk]
  · cases h

theorem bump_ok {t : List Nat} {i : Nat} (h : i < t.length) : ∃ t', bump t i = some t' := by
  unfold bump; rw [if_pos h]; exact ⟨_, rfl⟩

theorem groups_rep {b : Bool} {l : List Bool} (hl : l.head? ≠ some b) : ∀ {n : Nat}, 0 < n →
    groups (List.replicate n b ++ l) = (b, n) :: groups l
  | 0, h => absurd h (by omega)
  | 1, _ => by
    show groups (b :: l) = _
    rw [groups]
    cases l with
    | nil => rfl
    | cons c l =>
      have hc : b ≠ c := by intro h; subst h; simp at hl
      have : ∃ k r, groups (c :: l) = (c, k) :: r := by
        rw [groups]
        split
        · exact ⟨_, _, rfl⟩
        · split
          · next h => exact ⟨_, _, by rw [h]⟩
          · exact ⟨_, _, rfl⟩
      obtain ⟨k, r, h⟩ := this
      rw [h]
      simp [hc]
  | n + 2, _ => by
    have ih := groups_rep (b := b) (l := l) hl (n := n + 1) (by omega)
    rw [List.replicate_succ, List.cons_append, groups, ih]
    simp

/-- What a list of groups adds to the numbers of a record. -/
structure Adds (first : Nat) (r r' : Rec) (gs : List (Bool × Nat)) : Prop where
  count : r'.rleCount = r.rleCount + (gs.filterMap fun g => if g.1 then some (g.2 + first - 1) else none).length
  rle : r'.rleLength = r.rleLength + (gs.filterMap fun g => if g.1 then some (g.2 + first - 1) else none).sum
  empty : r'.emptyLength = r.emptyLength + (gs.filterMap fun g => if g.1 then none else some g.2).sum
  rleExact : ∀ k, k < 64 → r'.rleExact.getD k 0 = r.rleExact.getD k 0 +
    (gs.filterMap fun g => if g.1 then some (g.2 + first - 1) else none).count (k + 1)
  emptyExact : ∀ k, k < 64 → r'.emptyExact.getD k 0 = r.emptyExact.getD k 0 +
    (gs.filterMap fun g => if g.1 then none else some g.2).count (k + 1)
  rleBits : ∀ k, r'.rleBits.getD k 0 = r.rleBits.getD k 0 +
    (gs.filterMap fun g => if g.1 then some (g.2 + first - 1) else none).countP (fun x => row x == k)
  emptyBits : ∀ k, r'.emptyBits.getD k 0 = r.emptyBits.getD k 0 +
    (gs.filterMap fun g => if g.1 then none else some g.2).countP (fun x => row x == k)

/-- The part of a record `Adds` speaks about. -/
structure Same (r r' : Rec) : Prop where
  count : r'.rleCount = r.rleCount
  rle : r'.rleLength = r.rleLength
  empty : r'.emptyLength = r.emptyLength
  rleExact : r'.rleExact = r.rleExact
  emptyExact : r'.emptyExact = r.emptyExact
  rleBits : r'.rleBits = r.rleBits
  emptyBits : r'.emptyBits = r.emptyBits

theorem Adds.nil {first : Nat} {r r' : Rec} (h : Same r r') : Adds first r r' [] := by
  obtain ⟨h1, h2, h3, h4, h5, h6, h7⟩ := h
  constructor <;> simp [h1, h2, h3, h4, h5, h6, h7]

theorem Adds.of_same {first : Nat} {r r' r'' : Rec} {gs : List (Bool × Nat)} (h : Same r r') (a : Adds first r' r'' gs) :
    Adds first r r'' gs := by
  obtain ⟨h1, h2, h3, h4, h5, h6, h7⟩ := h
  obtain ⟨a1, a2, a3, a4, a5, a6, a7⟩ := a
  constructor
  · rw [a1, h1]
  · rw [a2, h2]
  · rw [a3, h3]
  · intro k hk; rw [a4 k hk, h4]
  · intro k hk; rw [a5 k hk, h5]
  · intro k; rw [a6 k, h6]
  · intro k; rw [a7 k, h7]

theorem Adds.append {first : Nat} {r r' r'' : Rec} {gs gs' : List (Bool × Nat)} (a : Adds first r r' gs)
    (b : Adds first r' r'' gs') : Adds first r r'' (gs ++ gs') := by
  obtain ⟨a1, a2, a3, a4, a5, a6, a7⟩ := a
  obtain ⟨b1, b2, b3, b4, b5, b6, b7⟩ := b
  constructor
  · rw [b1, a1, List.filterMap_append, List.length_append]; omega
  · rw [b2, a2, List.filterMap_append, List.sum_append]; omega
  · rw [b3, a3, List.filterMap_append, List.sum_append]; omega
  · intro k hk; rw [b4 k hk, a4 k hk, List.filterMap_append, List.count_append]; omega
  · intro k hk; rw [b5 k hk, a5 k hk, List.filterMap_append, List.count_append]; omega
  · intro k; rw [b6 k, a6 k, List.filterMap_append, List.countP_append]; omega
  · intro k; rw [b7 k, a7 k, List.filterMap_append, List.countP_append]; omega

/-- The exact table after a length was entered. -/
theorem exact_add {t t' : List Nat} {x : Nat} (hx : 0 < x) (h : (if x ≤ 64 then bump t (x - 1) else some t) = some t') (k : Nat)
    (hk : k < 64) : t'.getD k 0 = t.getD k 0 + [x].count (k + 1) := by
  rw [List.count_singleton]
  split at h
  · rw [(bump_some h).2.2 k]
    congr 1
    by_cases e : k = x - 1
    · rw [if_pos e, if_pos (by simp; omega)]
    · rw [if_neg e, if_neg (by simp; omega)]
  · cases h
    rw [if_neg (by simp; omega)]
    omega

theorem topBit_row {x i : Nat} (h : topBit x = some i) : i = row x := by
  unfold topBit at h
  dsimp only at h
  split at h
  · cases h
  · next h0 =>
    cases h
    have : Nat.log2 (x % 4294967296) < 32 := (Nat.log2_lt h0).mpr (Nat.mod_lt _ (by decide))
    unfold row
    omega

/-- The table by bits after a length was entered. -/
theorem bits_add {t t' : List Nat} {x i : Nat} (hi : topBit x = some i) (h : bump t i = some t') (k : Nat) :
    t'.getD k 0 = t.getD k 0 + [x].countP (fun x => row x == k) := by
  rw [(bump_some h).2.2 k, topBit_row hi]
  congr 1
  by_cases e : k = row x
  · simp [e]
  · simp [e, Ne.symm e]

theorem endNon_adds {first : Nat} {r r' : Rec} (h : endNon r = some r') :
    r'.current = r.current ∧ r'.currentNon = 0 ∧ Adds first r r' (if r.currentNon = 0 then [] else [(false, r.currentNon)]) := by
  unfold endNon at h
  split at h
  · next h0 => cases h; exact ⟨rfl, h0, by rw [if_pos h0]; exact Adds.nil ⟨rfl, rfl, rfl, rfl, rfl, rfl, rfl⟩⟩
  · next h0 =>
    obtain ⟨ix, hix, h⟩ := Option.bind_eq_some_iff.mp h
    obtain ⟨eb, hb, h⟩ := Option.bind_eq_some_iff.mp h
    obtain ⟨ee, he, h⟩ := Option.bind_eq_some_iff.mp h
    cases h
    refine ⟨rfl, rfl, ?_⟩
    rw [if_neg h0]
    constructor <;> try simp
    · exact fun k hk => by simpa using exact_add (by omega) he k hk
    · exact fun k => by simpa using bits_add hix hb k

theorem endRun_adds {first n : Nat} {r r' : Rec} (hn : r.current = 0 ∧ n = 0 ∨ 0 < n ∧ r.current = n + first - 1 ∧ 0 < first)
    (h : endRun r = some r') :
    r'.current = 0 ∧ r'.currentNon = r.currentNon ∧ Adds first r r' (if n = 0 then [] else [(true, n)]) := by
  unfold endRun at h
  split at h
  · next h0 =>
    cases h
    have : n = 0 := by omega
    exact ⟨h0, rfl, by rw [if_pos this]; exact Adds.nil ⟨rfl, rfl, rfl, rfl, rfl, rfl, rfl⟩⟩
  · next h0 =>
    obtain ⟨ix, hix, h⟩ := Option.bind_eq_some_iff.mp h
    obtain ⟨rb, hb, h⟩ := Option.bind_eq_some_iff.mp h
    obtain ⟨re, he, h⟩ := Option.bind_eq_some_iff.mp h
    obtain ⟨nb, _, h⟩ := Option.bind_eq_some_iff.mp h
    obtain ⟨cb, _, h⟩ := Option.bind_eq_some_iff.mp h
    obtain ⟨cd, _, h⟩ := Option.bind_eq_some_iff.mp h
    cases h
    refine ⟨rfl, rfl, ?_⟩
    have hc : r.current = n + first - 1 := by omega
    rw [if_neg (by omega)]
    constructor <;> try simp [hc]
    · exact fun k hk => by simpa [hc] using exact_add (by omega) he k hk
    · exact fun k => by simpa [hc] using bits_add hix hb k

/-- What the record knows about the group that is not finished: `n` values `b`. -/
def Pending (first : Nat) (r : Rec) (b : Bool) (n : Nat) : Prop :=
  n = 0 ∧ r.current = 0 ∧ r.currentNon = 0 ∨
  0 < n ∧ b = true ∧ r.current = n + first - 1 ∧ r.currentNon = 0 ∨
  0 < n ∧ b = false ∧ r.current = 0 ∧ r.currentNon = n

theorem step_adds {first : Nat} (hf : 0 < first) {r r' : Rec} {b c : Bool} {n : Nat} {sym : List Byte} (hp : Pending first r b n)
    (h : step first r c sym = some r') :
    (c = b ∧ Pending first r' b (n + 1) ∧ Same r r') ∨
    ((c ≠ b ∨ n = 0) ∧ Pending first r' c 1 ∧ Adds first r r' (if n = 0 then [] else [(b, n)])) := by
  unfold step at h
  cases c with
  | true =>
    simp only [if_true] at h
    split at h
    · next h0 =>
      right
      obtain ⟨⟨t, l⟩, _, h⟩ := Option.bind_eq_some_iff.mp h
      obtain ⟨r1, h1, rfl⟩ := Option.map_eq_some_iff.mp h
      obtain ⟨e1, e2, e3⟩ := endNon_adds (first := first) h1
      have e3 := Adds.of_same (r := r) (by constructor <;> rfl) e3
      have e3 := e3.append (Adds.nil (r' := { r1 with current := first }) ⟨rfl, rfl, rfl, rfl, rfl, rfl, rfl⟩)
      rw [List.append_nil] at e3
      have hb : ∀ hn : n ≠ 0, b = false := by
        intro hn
        rcases hp with ⟨h, _⟩ | ⟨_, _, h, _⟩ | ⟨_, h, _⟩
        · exact absurd h hn
        · omega
        · exact h
      have hcn : r.currentNon = n := by
        rcases hp with ⟨h, _, h2⟩ | ⟨_, _, h, _⟩ | ⟨_, _, _, h⟩ <;> omega
      refine ⟨?_, Or.inr (Or.inl ⟨by omega, rfl, by show first = 1 + first - 1; omega, e2⟩), ?_⟩
      · by_cases hn : n = 0
        · exact Or.inr hn
        · left; rw [hb hn]; decide
      · rw [show ({ r with recurring := t, lastSymbol := l } : Rec).currentNon = n from hcn] at e3
        by_cases hn : n = 0
        · rw [if_pos hn] at e3 ⊢; exact e3
        · rw [if_neg hn] at e3 ⊢; rw [hb hn]; exact e3
    · next h0 =>
      left
      cases h
      rcases hp with ⟨_, h, _⟩ | ⟨h1, h2, h3, h4⟩ | ⟨_, _, h, _⟩
      · omega
      · exact ⟨h2.symm, Or.inr (Or.inl ⟨by omega, h2, by show r.current + 1 = _; omega, h4⟩), ⟨rfl, rfl, rfl, rfl, rfl, rfl, rfl⟩⟩
      · omega
  | false =>
    simp only [Bool.false_eq_true, if_false] at h
    obtain ⟨r1, h1, rfl⟩ := Option.map_eq_some_iff.mp h
    rcases hp with ⟨hn, hc, hcn⟩ | ⟨hn, rfl, hc, hcn⟩ | ⟨hn, rfl, hc, hcn⟩
    · right
      obtain ⟨e1, e2, e3⟩ := endRun_adds (first := first) (n := 0) (Or.inl ⟨hc, rfl⟩) h1
      have e3 := e3.append (Adds.nil (r' := { r1 with currentNon := r1.currentNon + 1 }) ⟨rfl, rfl, rfl, rfl, rfl, rfl, rfl⟩)
      rw [List.append_nil] at e3
      refine ⟨Or.inr hn, Or.inr (Or.inr ⟨by omega, rfl, e1, by show r1.currentNon + 1 = 1; omega⟩), ?_⟩
      rw [if_pos hn]; exact e3
    · right
      obtain ⟨e1, e2, e3⟩ := endRun_adds (first := first) (n := n) (Or.inr ⟨hn, hc, hf⟩) h1
      have e3 := e3.append (Adds.nil (r' := { r1 with currentNon := r1.currentNon + 1 }) ⟨rfl, rfl, rfl, rfl, rfl, rfl, rfl⟩)
      rw [List.append_nil] at e3
      exact ⟨Or.inl (by decide), Or.inr (Or.inr ⟨by omega, rfl, e1, by show r1.currentNon + 1 = 1; omega⟩), e3⟩
    · left
      have : endRun r = some r := by unfold endRun; rw [if_pos hc]
      rw [this] at h1
      cases h1
      exact ⟨rfl, Or.inr (Or.inr ⟨by omega, rfl, hc, by show r.currentNon + 1 = n + 1; omega⟩), ⟨rfl, rfl, rfl, rfl, rfl, rfl, rfl⟩⟩

theorem finish_adds {first : Nat} (hf : 0 < first) {r r' : Rec} {b : Bool} {n : Nat} (hp : Pending first r b n)
    (h : finish r = some r') : Adds first r r' (if n = 0 then [] else [(b, n)]) := by
  unfold finish at h
  split at h
  · next h0 =>
    obtain ⟨ix, hix, h⟩ := Option.bind_eq_some_iff.mp h
    obtain ⟨eb, hb, h⟩ := Option.bind_eq_some_iff.mp h
    obtain ⟨ee, he, h⟩ := Option.bind_eq_some_iff.mp h
    cases h
    rcases hp with ⟨hn, hc, hcn⟩ | ⟨hn, rfl, hc, hcn⟩ | ⟨hn, rfl, hc, hcn⟩
    · omega
    · omega
    · rw [if_neg (by omega)]
      constructor <;> try simp [hcn]
      · exact fun k hk => by simpa [hcn] using exact_add (by omega) he k hk
      · exact fun k => by simpa [hcn] using bits_add hix hb k
  · next h0 =>
    split at h
    · next h1 =>
      obtain ⟨ix, hix, h⟩ := Option.bind_eq_some_iff.mp h
      obtain ⟨rb, hb, h⟩ := Option.bind_eq_some_iff.mp h
      obtain ⟨re, he, h⟩ := Option.bind_eq_some_iff.mp h
      cases h
      rcases hp with ⟨hn, hc, hcn⟩ | ⟨hn, rfl, hc, hcn⟩ | ⟨hn, rfl, hc, hcn⟩
      · omega
      · rw [if_neg (by omega)]
        constructor <;> try simp [hc]
        · exact fun k hk => by simpa [hc] using exact_add (by omega) he k hk
        · exact fun k => by simpa [hc] using bits_add hix hb k
      · omega
    · next h1 =>
      cases h
      have : n = 0 := by
        rcases hp with ⟨hn, hc, hcn⟩ | ⟨hn, rfl, hc, hcn⟩ | ⟨hn, rfl, hc, hcn⟩ <;> omega
      rw [if_pos this]
      exact Adds.nil ⟨rfl, rfl, rfl, rfl, rfl, rfl, rfl⟩

theorem pass_adds {first j : Nat} (hf : 0 < first) {inp : Mem} : ∀ {is : List Nat} {r r' : Rec} {b : Bool} {n : Nat},
    Pending first r b n → (pass first j inp is r).bind finish = some r' →
    Adds first r r' (groups (List.replicate n b ++ is.map (isMatch inp j)))
  | [], r, r', b, n, hp, h => by
    have := finish_adds hf hp (by simpa [pass] using h)
    by_cases hn : n = 0
    · subst hn; simpa [groups] using this
    · rw [if_neg hn] at this
      rw [List.map_nil, groups_rep (by simp) (by omega)]
      exact this
  | i :: is, r, r', b, n, hp, h => by
    rw [pass, Option.bind_assoc] at h
    obtain ⟨r1, h1, h2⟩ := Option.bind_eq_some_iff.mp h
    rcases step_adds hf hp h1 with ⟨e1, e2, e3⟩ | ⟨e1, e2, e3⟩
    · have := (pass_adds hf e2 h2).of_same e3
      rw [List.replicate_succ', List.append_assoc] at this
      rw [List.map_cons, e1]
      exact this
    · have ih := pass_adds hf e2 h2
      have := e3.append ih
      by_cases hn : n = 0
      · subst hn
        simpa using this
      · rw [if_neg hn] at this
        rw [groups_rep (by rw [List.map_cons]; rcases e1 with e1 | e1; · simpa using e1
                           · exact absurd e1 hn) (by omega)]
        exact this

/-- C44: if nothing undefined happens, the numbers of a record are those of the maximal runs: how many
there are, how long they are together, how many of each length up to 64, and the same for the stretches
between them. Missing: the rows of the tables by number of bits (`C44_bits_violated`), runs at the start
of the file (`C44_first_run_violated`) and the last symbols of the file (`C44_overread_violated`). -/
theorem C44_runs_partial (aligned : Bool) (j : Nat) (hj : 0 < j) (inp : Mem) (n : Nat) (r : Rec)
    (h : analyze aligned j inp n = some r) :
    r.rleCount = (runs aligned j inp n).length ∧ r.rleLength = (runs aligned j inp n).sum ∧
    r.emptyLength = (gaps aligned j inp n).sum ∧
    (∀ k, k < 64 → r.rleExact.getD k 0 = (runs aligned j inp n).count (k + 1)) ∧
    (∀ k, k < 64 → r.emptyExact.getD k 0 = (gaps aligned j inp n).count (k + 1)) ∧
    (∀ k, r.rleBits.getD k 0 = (runs aligned j inp n).countP (fun x => row x == k)) ∧
    (∀ k, r.emptyBits.getD k 0 = (gaps aligned j inp n).countP (fun x => row x == k)) := by
  unfold analyze at h
  have hz : ∀ k, (List.replicate 64 0).getD k 0 = 0 := by
    intro k
    rw [List.getD_eq_getElem?_getD, List.getElem?_replicate]
    split <;> rfl
  obtain ⟨a1, a2, a3, a4, a5, a6, a7⟩ := pass_adds (first := if aligned then 1 else j) (b := false) (n := 0)
    (by split <;> omega) (Or.inl ⟨rfl, rfl, rfl⟩) h
  refine ⟨a1.trans (Nat.zero_add _), a2.trans (Nat.zero_add _), a3.trans (Nat.zero_add _), fun k hk => ?_, fun k hk => ?_,
    fun k => ?_, fun k => ?_⟩
  · rw [a4 k hk, hz]; exact Nat.zero_add _
  · rw [a5 k hk, hz]; exact Nat.zero_add _
  · rw [a6 k, hz]; exact Nat.zero_add _
  · rw [a7 k, hz]; exact Nat.zero_add _

/-! ### When the analysis is defined -/

/-- The arrays have their sizes. -/
structure Sizes (r : Rec) : Prop where
  rleBits : r.rleBits.length = 64
  rleExact : r.rleExact.length = 64
  emptyBits : r.emptyBits.length = 64
  emptyExact : r.emptyExact.length = 64
  recurring : r.recurring.length = 16
  copyBits : r.copyBits.length = 256
  copyDiff : r.copyDiff.length = 1024

theorem topBit_ok {x : Nat} (h0 : 0 < x) (h : x < 4294967296) : ∃ i, topBit x = some i ∧ i < 64 := by
  unfold topBit
  rw [Nat.mod_eq_of_lt h, if_neg (by omega)]
  exact ⟨_, rfl, by omega⟩

theorem exact_ok {t : List Nat} {x : Nat} (ht : t.length = 64) (h0 : 0 < x) :
    ∃ t', (if x ≤ 64 then bump t (x - 1) else some t) = some t' ∧ t'.length = 64 := by
  split
  · next h =>
    obtain ⟨t', e⟩ := bump_ok (t := t) (i := x - 1) (by omega)
    exact ⟨t', e, (bump_some e).2.1.trans ht⟩
  · exact ⟨t, rfl, ht⟩

theorem bump_len {t : List Nat} {i m : Nat} (ht : t.length = m) (h : i < m) : ∃ t', bump t i = some t' ∧ t'.length = m := by
  obtain ⟨t', e⟩ := bump_ok (t := t) (i := i) (by omega)
  exact ⟨t', e, (bump_some e).2.1.trans ht⟩

theorem recall_ok {r : Rec} (hs : Sizes r) (sym : List Byte) : ∃ t l, recall r sym = some (t, l) ∧ t.length = 16 := by
  unfold recall
  dsimp only
  split
  · next h =>
    obtain ⟨t, e, hl⟩ := bump_len hs.recurring h
    rw [e]
    exact ⟨t, _, rfl, hl⟩
  · exact ⟨_, _, rfl, hs.recurring⟩

theorem endNon_ok {r : Rec} (hs : Sizes r) (h : r.currentNon < 4294967296) :
    ∃ r', endNon r = some r' ∧ Sizes r' ∧ r'.current = r.current ∧ r'.currentNon = 0 ∧
      r'.lastNon = if r.currentNon = 0 then r.lastNon else r.currentNon := by
  unfold endNon
  by_cases h0 : r.currentNon = 0
  · rw [if_pos h0, if_pos h0]; exact ⟨r, rfl, hs, rfl, h0, rfl⟩
  · rw [if_neg h0, if_neg h0]
    obtain ⟨i, e1, hi⟩ := topBit_ok (x := r.currentNon) (by omega) h
    obtain ⟨eb, e2, hl2⟩ := bump_len hs.emptyBits hi
    obtain ⟨ee, e3, hl3⟩ := exact_ok (x := r.currentNon) hs.emptyExact (by omega)
    rw [e1, Option.bind_some, e2, Option.bind_some, e3, Option.bind_some]
    exact ⟨_, rfl, ⟨hs.rleBits, hs.rleExact, hl2, hl3, hs.recurring, hs.copyBits, hs.copyDiff⟩, rfl, rfl, rfl⟩

theorem clamp_lt (x : Int) (hi : Nat) : clamp x hi ≤ hi := by unfold clamp; omega

theorem endRun_ok {r : Rec} (hs : Sizes r) (h : r.current < 4294967296) (hn : r.current = 0 ∨ 0 < r.lastNon)
    (hn' : r.lastNon < 4294967296) :
    ∃ r', endRun r = some r' ∧ Sizes r' ∧ r'.current = 0 ∧ r'.currentNon = r.currentNon ∧ r'.lastNon = r.lastNon := by
  unfold endRun
  by_cases h0 : r.current = 0
  · rw [if_pos h0]; exact ⟨r, rfl, hs, h0, rfl, rfl⟩
  · rw [if_neg h0]
    obtain ⟨i, e1, hi⟩ := topBit_ok (x := r.current) (by omega) h
    obtain ⟨rb, e2, hl2⟩ := bump_len hs.rleBits hi
    obtain ⟨re, e3, hl3⟩ := exact_ok (x := r.current) hs.rleExact (by omega)
    obtain ⟨nb, e4, _⟩ := topBit_ok (x := r.lastNon) (by omega) hn'
    have c1 : clamp ((nb : Int) - 1) 15 ≤ 15 := clamp_lt ((nb : Int) - 1) 15
    have c2 : clamp ((i : Int) - 1) 15 ≤ 15 := clamp_lt ((i : Int) - 1) 15
    obtain ⟨cb, e5, hl5⟩ := bump_len (i := clamp ((nb : Int) - 1) 15 * 16 + clamp ((i : Int) - 1) 15) hs.copyBits
      (by omega)
    have c3 : clamp (r.lastNonDiff + 15) 31 ≤ 31 := clamp_lt (r.lastNonDiff + 15) 31
    have c4 : clamp ((r.current : Int) - r.lastLength + 15) 31 ≤ 31 := clamp_lt ((r.current : Int) - r.lastLength + 15) 31
    obtain ⟨cd, e6, hl6⟩ := bump_len (i := clamp (r.lastNonDiff + 15) 31 * 32 +
      clamp ((r.current : Int) - r.lastLength + 15) 31) hs.copyDiff (by omega)
    rw [e1, Option.bind_some, e2, Option.bind_some, e3, Option.bind_some, e4, Option.bind_some, e5, Option.bind_some, e6,
      Option.bind_some]
    exact ⟨_, rfl, ⟨hl2, hl3, hs.emptyBits, hs.emptyExact, hs.recurring, hl5, hl6⟩, rfl, rfl, rfl⟩

/-- A run ends at a known stretch: there was one, or one is being counted. -/
def Known (r : Rec) : Prop := 0 < r.lastNon ∨ 0 < r.currentNon ∧ r.current = 0

/-- The counts after `k` positions. -/
structure Below (first k : Nat) (r : Rec) : Prop where
  cur : r.current ≤ k + first - 1
  non : r.currentNon ≤ k
  last : r.lastNon ≤ k

theorem step_ok {first k : Nat} (hf : 0 < first) {r : Rec} (hs : Sizes r) (hb : Below first k r) (hk : k + first < 4294967296) (c : Bool)
    (sym : List Byte) (hg : Known r ∨ c = true ∨ r.current = 0) :
    ∃ r', step first r c sym = some r' ∧ Sizes r' ∧ Below first (k + 1) r' ∧ (Known r ∨ c = false → Known r') := by
  obtain ⟨b1, b2, b3⟩ := hb
  unfold step
  cases c with
  | true =>
    simp only [if_true]
    by_cases h0 : r.current = 0
    · rw [if_pos h0]
      obtain ⟨t, l, e, ht⟩ := recall_ok hs sym
      rw [e, Option.bind_some]
      obtain ⟨r1, e1, e2, e3, e4, e5⟩ := endNon_ok (r := { r with recurring := t, lastSymbol := l })
        ⟨hs.rleBits, hs.rleExact, hs.emptyBits, hs.emptyExact, ht, hs.copyBits, hs.copyDiff⟩ (by show r.currentNon < _; omega)
      have e5 : r1.lastNon = if r.currentNon = 0 then r.lastNon else r.currentNon := e5
      dsimp only
      rw [e1, Option.map_some]
      refine ⟨_, rfl, ⟨e2.1, e2.2, e2.3, e2.4, e2.5, e2.6, e2.7⟩, ⟨?_, ?_, ?_⟩, ?_⟩
      · show first ≤ _; omega
      · show r1.currentNon ≤ _; omega
      · show r1.lastNon ≤ _; rw [e5]; split <;> omega
      · intro h
        refine Or.inl ?_
        show 0 < r1.lastNon
        rw [e5]
        rcases h with (h | h) | h
        · split <;> omega
        · rw [if_neg (by omega)]; exact h.1
        · cases h
    · rw [if_neg h0]
      refine ⟨_, rfl, ⟨hs.1, hs.2, hs.3, hs.4, hs.5, hs.6, hs.7⟩, ⟨?_, ?_, ?_⟩, ?_⟩
      · show r.current + 1 ≤ _; omega
      · show r.currentNon ≤ _; omega
      · show r.lastNon ≤ _; omega
      · intro h
        rcases h with (h | h) | h
        · exact Or.inl h
        · exact absurd h.2 h0
        · cases h
  | false =>
    simp only [Bool.false_eq_true, if_false]
    obtain ⟨r1, e1, e2, e3, e4, e5⟩ := endRun_ok hs (by omega) (by
      rcases hg with (h | h) | h | h
      · exact Or.inr h
      · exact Or.inl h.2
      · cases h
      · exact Or.inl h) (by omega)
    rw [e1, Option.map_some]
    refine ⟨_, rfl, ⟨e2.1, e2.2, e2.3, e2.4, e2.5, e2.6, e2.7⟩, ⟨?_, ?_, ?_⟩, ?_⟩
    · show r1.current ≤ _; omega
    · show r1.currentNon + 1 ≤ _; omega
    · show r1.lastNon ≤ _; omega
    · intro _
      exact Or.inr ⟨by show 0 < r1.currentNon + 1; omega, e3⟩

theorem finish_ok {first k : Nat} {r : Rec} (hs : Sizes r) (hb : Below first k r) (hk : k + first < 4294967296) :
    ∃ r', finish r = some r' := by
  obtain ⟨b1, b2, b3⟩ := hb
  unfold finish
  by_cases h0 : r.currentNon ≠ 0
  · rw [if_pos h0]
    obtain ⟨i, e1, hi⟩ := topBit_ok (x := r.currentNon) (by omega) (by omega)
    obtain ⟨eb, e2, hl2⟩ := bump_len hs.emptyBits hi
    obtain ⟨ee, e3, hl3⟩ := exact_ok (x := r.currentNon) hs.emptyExact (by omega)
    rw [e1, Option.bind_some, e2, Option.bind_some, e3, Option.bind_some]
    exact ⟨_, rfl⟩
  · rw [if_neg h0]
    by_cases h1 : r.current ≠ 0
    · rw [if_pos h1]
      obtain ⟨i, e1, hi⟩ := topBit_ok (x := r.current) (by omega) (by omega)
      obtain ⟨rb, e2, hl2⟩ := bump_len hs.rleBits hi
      obtain ⟨re, e3, hl3⟩ := exact_ok (x := r.current) hs.rleExact (by omega)
      rw [e1, Option.bind_some, e2, Option.bind_some, e3, Option.bind_some]
      exact ⟨_, rfl⟩
    · rw [if_neg h1]; exact ⟨_, rfl⟩

theorem pass_ok {first j : Nat} (hf : 0 < first) {inp : Mem} : ∀ {is : List Nat} {r : Rec} {k : Nat}, Sizes r → Below first k r →
    k + is.length + first < 4294967296 → Known r ∨ (∀ i ∈ is, isMatch inp j i = true) →
    ∃ r', (pass first j inp is r).bind finish = some r'
  | [], r, k, hs, hb, hk, _ => finish_ok hs hb (by simpa using hk)
  | i :: is, r, k, hs, hb, hk, hg => by
    rw [List.length_cons] at hk
    obtain ⟨r1, e1, e2, e3, e4⟩ := step_ok hf hs hb (by omega) (isMatch inp j i) (symAt inp j i)
      (by rcases hg with h | h
          · exact Or.inl h
          · exact Or.inr (Or.inl (h i List.mem_cons_self)))
    rw [pass, e1, Option.bind_some]
    refine pass_ok hf e2 e3 (by omega) ?_
    rcases hg with h | h
    · exact Or.inl (e4 (Or.inl h))
    · exact Or.inr fun i' hi' => h i' (List.mem_cons_of_mem _ hi')

/-- A first run that ends is undefined. -/
theorem pass_undefined {first j : Nat} {inp : Mem} : ∀ {is : List Nat} {r : Rec}, 0 < r.current → r.lastNon = 0 →
    (∃ i ∈ is, isMatch inp j i = false) → pass first j inp is r = none
  | [], _, _, _, h => by simp at h
  | i :: is, r, hc, hl, h => by
    rw [pass, step]
    cases hm : isMatch inp j i with
    | true =>
      simp only [if_true]
      rw [if_neg (by omega), Option.bind_some]
      refine pass_undefined (by show 0 < r.current + 1; omega) hl ?_
      obtain ⟨i', h1, h2⟩ := h
      rcases List.mem_cons.mp h1 with rfl | h1
      · rw [hm] at h2; cases h2
      · exact ⟨i', h1, h2⟩
    | false =>
      simp only [Bool.false_eq_true, if_false]
      have : endRun r = none := by
        unfold endRun
        rw [if_neg (by omega)]
        have h4 : topBit r.lastNon = none := by rw [hl]; rfl
        rw [h4]
        cases topBit r.current with
        | none => rfl
        | some i =>
          rw [Option.bind_some]
          cases bump r.rleBits i with
          | none => rfl
          | some t =>
            rw [Option.bind_some]
            cases (if r.current ≤ 64 then bump r.rleExact (r.current - 1) else some r.rleExact) <;> rfl
      rw [this]
      rfl

theorem positions_length (aligned : Bool) (j : Nat) : ∀ n, (positions aligned j n).length ≤ n - j
  | 0 => by simp [positions]
  | n + 1 => by
    have ih := positions_length aligned j n
    unfold positions at ih ⊢
    rw [List.range_succ, List.filter_append, List.length_append]
    by_cases h : n < j
    · have : List.filter (fun i => !decide (i < j) && (!aligned || i % j == 0)) [n] = [] := by simp [h]
      rw [this, List.length_nil]
      omega
    · have := List.length_filter_le (fun i => !decide (i < j) && (!aligned || i % j == 0)) [n]
      rw [List.length_singleton] at this
      omega

/-- C44: the analysis of a file below 4 GB does something undefined exactly if the file begins with a run
that ends before the file does. -/
theorem C44_defined (aligned : Bool) (j : Nat) (hj : 0 < j) (inp : Mem) (n : Nat) (hn : n < 4294967296) (hjn : j < 4294967296) :
    analyze aligned j inp n = none ↔
      (matchesAt aligned j inp n).head? = some true ∧ false ∈ matchesAt aligned j inp n := by
  have hf : 0 < (if aligned then 1 else j) := by split <;> omega
  have hfj : (if aligned then 1 else j) ≤ j := by split <;> omega
  have hlen := positions_length aligned j n
  have hs0 : Sizes { lastSymbol := List.replicate 16 (List.replicate j 0) } := by
    constructor <;> exact List.length_replicate
  have hb0 : Below (if aligned then 1 else j) 0 { lastSymbol := List.replicate 16 (List.replicate j 0) } :=
    ⟨Nat.zero_le _, Nat.zero_le _, Nat.zero_le _⟩
  unfold analyze matchesAt
  generalize positions aligned j n = is at hlen ⊢
  cases is with
  | nil =>
    obtain ⟨r', e⟩ := pass_ok hf (j := j) (inp := inp) hs0 hb0 (is := []) (by simp; omega) (Or.inr (by simp))
    rw [e]
    simp
  | cons i is =>
    rw [List.length_cons] at hlen
    simp only [List.map_cons, List.head?_cons, Option.some.injEq]
    cases hm : isMatch inp j i with
    | false =>
      simp only [Bool.false_eq_true, false_and, iff_false]
      obtain ⟨r1, e1, e2, e3, e4⟩ := step_ok hf hs0 hb0 (by omega) (isMatch inp j i) (symAt inp j i) (Or.inr (Or.inr rfl))
      rw [pass, e1, Option.bind_some]
      obtain ⟨r', e⟩ := pass_ok hf (j := j) (inp := inp) (is := is) e2 e3 (by omega) (Or.inl (e4 (Or.inr hm)))
      rw [e]
      simp
    | true =>
      simp only [true_and, List.mem_cons, Bool.false_eq_true, List.mem_map, false_or]
      constructor
      · intro h
        rcases Classical.em (∃ i' ∈ is, isMatch inp j i' = false) with h1 | h1
        · exact h1
        · exfalso
          obtain ⟨r', e⟩ := pass_ok hf (j := j) (inp := inp) (is := i :: is) hs0 hb0 (by rw [List.length_cons]; omega)
            (Or.inr (by
              intro i' hi'
              rcases List.mem_cons.mp hi' with rfl | hi'
              · exact hm
              · cases hc : isMatch inp j i' with
                | true => rfl
                | false => exact absurd ⟨i', hi', hc⟩ h1))
          rw [e] at h
          cases h
      · intro h
        rw [pass]
        obtain ⟨t, l, e, ht⟩ := recall_ok hs0 (symAt inp j i)
        have : step (if aligned then 1 else j) { lastSymbol := List.replicate 16 (List.replicate j 0) } (isMatch inp j i) (symAt inp j i) =
            some { lastSymbol := l, recurring := t, current := if aligned then 1 else j } := by
          rw [step, hm, if_pos rfl, if_pos rfl, e]
          rfl
        rw [this, Option.bind_some, pass_undefined hf rfl h]
        rfl

/-! ### The ages of symbols -/

theorem distinct_nodup : ∀ h : List (List Byte), (distinct h).Nodup
  | [] => List.nodup_nil
  | s :: h => by
    rw [distinct, List.nodup_cons]
    exact ⟨by simp, (distinct_nodup h).filter _⟩

theorem mem_distinct {t : List Byte} : ∀ {h : List (List Byte)}, t ∈ distinct h ↔ t ∈ h
  | [] => by simp [distinct]
  | s :: h => by
    rw [distinct, List.mem_cons, List.mem_cons, List.mem_filter, mem_distinct]
    by_cases e : t = s <;> simp [e]

/-- The list of last symbols is the history without repetitions, as far as it has room. -/
def Lru (z : List Byte) (h : List (List Byte)) (l : List (List Byte)) : Prop :=
  l = (distinct h ++ List.replicate 16 z).take 16

theorem idxOf_append_left {s : List Byte} {A B : List (List Byte)} (h : s ∉ A) :
    (A ++ s :: B).idxOf s = A.length := by
  rw [List.idxOf_append, if_neg h, List.idxOf_cons_self, Nat.zero_add]

theorem lru_step {z : List Byte} {h : List (List Byte)} {r : Rec} {t : List Nat} {l : List (List Byte)} {sym : List Byte}
    (hz : z ∈ h) (hl : Lru z h r.lastSymbol) (e : recall r sym = some (t, l)) :
    Lru z (sym :: h) l ∧ ∀ k, k < 16 → t.getD k 0 = r.recurring.getD k 0 +
      [if sym ∈ h then some ((distinct h).idxOf sym) else none].count (some k) := by
  unfold Lru at hl ⊢
  unfold recall at e
  dsimp only at e
  rw [distinct]
  by_cases hm : sym ∈ h
  · obtain ⟨A, B, hAB⟩ := List.append_of_mem (mem_distinct.mpr hm)
    have hnd := distinct_nodup h
    rw [hAB] at hnd
    have hA : sym ∉ A := by
      intro h
      have := (List.nodup_append.mp hnd).2.2 sym h sym List.mem_cons_self
      exact this rfl
    have hB : sym ∉ B := (List.nodup_cons.mp (List.nodup_append.mp hnd).2.1).1
    have hf : (A ++ sym :: B).filter (fun t => decide (t ≠ sym)) = A ++ B := by
      rw [List.filter_append, List.filter_cons_of_neg (by simp)]
      rw [List.filter_eq_self.mpr, List.filter_eq_self.mpr]
      · intro a ha; simp; rintro rfl; exact hB ha
      · intro a ha; simp; rintro rfl; exact hA ha
    rw [hAB] at hl
    rw [if_pos hm, hAB, idxOf_append_left hA, hf]
    by_cases hp : A.length < 16
    · have hl2 : r.lastSymbol = A ++ sym :: (B ++ List.replicate 16 z).take (15 - A.length) := by
        rw [hl, List.append_assoc, List.take_append, List.take_of_length_le (by omega), List.cons_append,
          show 16 - A.length = (15 - A.length) + 1 by omega, List.take_succ_cons]
      have hi : r.lastSymbol.idxOf sym = A.length := by rw [hl2, idxOf_append_left hA]
      rw [hi, if_pos hp] at e
      obtain ⟨t', e1, e2⟩ := Option.map_eq_some_iff.mp e
      cases e2
      refine ⟨?_, fun k hk => ?_⟩
      · rw [hl2, List.take_left' rfl, show A.length + 1 = A.length + 1 from rfl, List.drop_append,
          List.drop_of_length_le (by omega), List.nil_append, show A.length + 1 - A.length = 1 by omega, List.drop_succ_cons,
          List.drop_zero, List.cons_append, List.take_succ_cons, List.append_assoc,
          List.take_append (l₁ := A), List.take_of_length_le (l := A) (by omega)]
      · rw [(bump_some e1).2.2 k, List.count_singleton]
        congr 1
        by_cases hk : k = A.length
        · simp [hk]
        · rw [if_neg hk, if_neg (by simp; exact fun h => hk h.symm)]
    · have hl2 : r.lastSymbol = A.take 16 := by
        rw [hl, List.append_assoc, List.take_append_of_le_length (by omega)]
      have hni : sym ∉ r.lastSymbol := by rw [hl2]; exact fun h => hA (List.mem_of_mem_take h)
      have hlen : r.lastSymbol.length = 16 := by rw [hl2, List.length_take]; omega
      rw [List.idxOf_eq_length hni, hlen, if_neg (by omega)] at e
      cases e
      refine ⟨?_, fun k hk => ?_⟩
      · rw [hl2, List.take_take, List.cons_append, List.take_succ_cons, List.append_assoc,
          List.take_append_of_le_length (by omega)]
        rfl
      · rw [List.count_singleton, if_neg (by simp; omega)]
        rfl
  · have hnz : sym ≠ z := by rintro rfl; exact hm hz
    have hnd : sym ∉ distinct h := fun h' => hm (mem_distinct.mp h')
    have hni : sym ∉ r.lastSymbol := by
      rw [hl]
      intro h'
      rcases List.mem_append.mp (List.mem_of_mem_take h') with h' | h'
      · exact hnd h'
      · exact hnz (List.eq_of_mem_replicate h')
    have hlen : r.lastSymbol.length = 16 := by
      rw [hl, List.length_take, List.length_append, List.length_replicate]; omega
    rw [List.idxOf_eq_length hni, hlen, if_neg (by omega)] at e
    cases e
    have hf : (distinct h).filter (fun t => decide (t ≠ sym)) = distinct h := by
      rw [List.filter_eq_self]
      intro a ha; simp; rintro rfl; exact hnd ha
    refine ⟨?_, fun k hk => ?_⟩
    · rw [hl, hf, List.take_take, List.cons_append, List.take_succ_cons]
      rfl
    · rw [if_neg hm]; simp

theorem endRun_recall {r r' : Rec} (h : endRun r = some r') :
    r'.lastSymbol = r.lastSymbol ∧ r'.recurring = r.recurring ∧ r'.current = 0 := by
  unfold endRun at h
  split at h
  · next h0 => cases h; exact ⟨rfl, rfl, h0⟩
  · obtain ⟨ix, _, h⟩ := Option.bind_eq_some_iff.mp h
    obtain ⟨rb, _, h⟩ := Option.bind_eq_some_iff.mp h
    obtain ⟨re, _, h⟩ := Option.bind_eq_some_iff.mp h
    obtain ⟨nb, _, h⟩ := Option.bind_eq_some_iff.mp h
    obtain ⟨cb, _, h⟩ := Option.bind_eq_some_iff.mp h
    obtain ⟨cd, _, h⟩ := Option.bind_eq_some_iff.mp h
    cases h
    exact ⟨rfl, rfl, rfl⟩

theorem endNon_recall {r r' : Rec} (h : endNon r = some r') : r'.lastSymbol = r.lastSymbol ∧ r'.recurring = r.recurring := by
  unfold endNon at h
  split at h
  · cases h; exact ⟨rfl, rfl⟩
  · obtain ⟨ix, _, h⟩ := Option.bind_eq_some_iff.mp h
    obtain ⟨rb, _, h⟩ := Option.bind_eq_some_iff.mp h
    obtain ⟨re, _, h⟩ := Option.bind_eq_some_iff.mp h
    cases h
    exact ⟨rfl, rfl⟩

theorem finish_recall {r r' : Rec} (h : finish r = some r') : r'.recurring = r.recurring := by
  unfold finish at h
  split at h
  · obtain ⟨ix, _, h⟩ := Option.bind_eq_some_iff.mp h
    obtain ⟨rb, _, h⟩ := Option.bind_eq_some_iff.mp h
    obtain ⟨re, _, h⟩ := Option.bind_eq_some_iff.mp h
    cases h
    rfl
  · split at h
    · obtain ⟨ix, _, h⟩ := Option.bind_eq_some_iff.mp h
      obtain ⟨rb, _, h⟩ := Option.bind_eq_some_iff.mp h
      obtain ⟨re, _, h⟩ := Option.bind_eq_some_iff.mp h
      cases h
      rfl
    · cases h; rfl

theorem pass_ages {first j : Nat} (hf : 0 < first) {inp : Mem} {z : List Byte} : ∀ {is : List Nat} {r r' : Rec} {h : List (List Byte)},
    z ∈ h → Lru z h r.lastSymbol → (pass first j inp is r).bind finish = some r' → ∀ k, k < 16 →
    r'.recurring.getD k 0 = r.recurring.getD k 0 +
      (ages h ((starts (isMatch inp j) (decide (0 < r.current)) is).map (symAt inp j))).count (some k)
  | [], r, r', h, _, _, e, k, _ => by
    rw [finish_recall (r := r) (by simpa [pass] using e)]
    rfl
  | i :: is, r, r', h, hz, hl, e, k, hk => by
    rw [pass, Option.bind_assoc] at e
    obtain ⟨r1, e1, e2⟩ := Option.bind_eq_some_iff.mp e
    unfold step at e1
    rw [starts]
    cases hm : isMatch inp j i with
    | true =>
      rw [hm] at e1
      simp only [if_true] at e1
      by_cases h0 : r.current = 0
      · rw [if_pos h0] at e1
        obtain ⟨⟨t, l⟩, e3, e4⟩ := Option.bind_eq_some_iff.mp e1
        obtain ⟨r2, e5, rfl⟩ := Option.map_eq_some_iff.mp e4
        obtain ⟨e6, e7⟩ := endNon_recall e5
        obtain ⟨l1, l2⟩ := lru_step hz hl e3
        have ih := pass_ages hf (h := symAt inp j i :: h) (List.mem_cons_of_mem _ hz) (r := { r2 with current := first })
          (by show Lru z _ r2.lastSymbol; rw [e6]; exact l1) e2 k hk
        rw [ih, show ({ r2 with current := first } : Rec).recurring = t from e7, l2 k hk,
          if_pos (show (true && !decide (0 < r.current)) = true by simp [h0]), List.map_cons, ages, List.count_cons, List.count_cons, List.count_nil]
        rw [show decide (0 < ({ r2 with current := first } : Rec).current) = true from decide_eq_true hf]
        omega
      · rw [if_neg h0] at e1
        cases e1
        have ih := pass_ages hf (h := h) hz (r := { r with current := r.current + 1 }) hl e2 k hk
        rw [ih, if_neg (show ¬ (true && !decide (0 < r.current)) = true by simp; omega)]
        rw [show decide (0 < ({ r with current := r.current + 1 } : Rec).current) = true from decide_eq_true (Nat.succ_pos _)]
    | false =>
      rw [hm] at e1
      simp only [Bool.false_eq_true, if_false] at e1
      obtain ⟨r2, e5, rfl⟩ := Option.map_eq_some_iff.mp e1
      obtain ⟨e6, e7, e8⟩ := endRun_recall e5
      have ih := pass_ages hf (h := h) hz (r := { r2 with currentNon := r2.currentNon + 1 })
        (by show Lru z h r2.lastSymbol; rw [e6]; exact hl) e2 k hk
      rw [ih, show ({ r2 with currentNon := r2.currentNon + 1 } : Rec).recurring = r.recurring from e7, if_neg (by simp)]
      rw [show decide (0 < ({ r2 with currentNon := r2.currentNon + 1 } : Rec).current) = false from
        decide_eq_false (by show ¬ 0 < r2.current; omega)]

/-- C44: entry `k` of the table of recurring symbols counts the runs whose symbol was last used with
exactly `k` different symbols in between. The zero symbol counts as used at the start. -/
theorem C44_recurring (aligned : Bool) (j : Nat) (hj : 0 < j) (inp : Mem) (n : Nat) (r : Rec)
    (h : analyze aligned j inp n = some r) (k : Nat) (hk : k < 16) :
    r.recurring.getD k 0 = (runAges aligned j inp n).count (some k) := by
  unfold analyze at h
  have := pass_ages (first := if aligned then 1 else j) (by split <;> omega) (z := List.replicate j 0) (h := [List.replicate j 0])
    List.mem_cons_self (by rfl) h k hk
  rw [this]
  show (List.replicate 16 0).getD k 0 + _ = _
  rw [List.getD_eq_getElem?_getD, List.getElem?_replicate, if_pos hk]
  exact Nat.zero_add _

/-! ### The histogram -/

theorem hist_foldl (inp : Mem) (v : Byte) : ∀ (l : List Nat) (h : Byte → Nat),
    (l.foldl (fun h i => fun v => if v = inp i then h v + 1 else h v) h) v = h v + (l.map inp).count v
  | [], _ => rfl
  | i :: l, h => by
    rw [List.foldl_cons, hist_foldl inp v l, List.map_cons, List.count_cons]
    by_cases e : v = inp i
    · rw [if_pos e, if_pos (by simp [e])]; omega
    · rw [if_neg e, if_neg (by simp; exact fun h => e h.symm)]; omega

/-- C44: the histogram counts how often each byte value occurs in the file. -/
theorem C44_histogram (inp : Mem) (n : Nat) (v : Byte) : hist inp n v = ((List.range n).map inp).count v := by
  unfold hist
  rw [hist_foldl, Nat.zero_add]

/-! ### Conservation -/

theorem groups_sum : ∀ l : List Bool, ((groups l).map (·.2)).sum = l.length
  | [] => rfl
  | b :: l => by
    have ih := groups_sum l
    rw [groups]
    split
    · next h =>
      rw [h] at ih
      have : l.length = 0 := ih.symm
      simp [this]
    · next c m g h =>
      rw [h] at ih
      split <;> simp_all <;> omega

theorem groups_pos : ∀ l : List Bool, ∀ g ∈ groups l, 0 < g.2
  | [], g, h => by simp [groups] at h
  | b :: l, g, h => by
    have ih := groups_pos l
    rw [groups] at h
    split at h
    · rw [List.mem_singleton.mp h]; exact Nat.one_pos
    · next c m r e =>
      rw [e] at ih
      split at h
      · rcases List.mem_cons.mp h with rfl | h
        · exact Nat.succ_pos _
        · exact ih g (List.mem_cons_of_mem _ h)
      · rcases List.mem_cons.mp h with rfl | h
        · exact Nat.one_pos
        · exact ih g h

theorem split_sum {first : Nat} (hf : 0 < first) : ∀ gs : List (Bool × Nat), (∀ g ∈ gs, 0 < g.2) →
    (gs.filterMap fun g => if g.1 then some (g.2 + first - 1) else none).sum +
      (gs.filterMap fun g => if g.1 then none else some g.2).sum =
    (gs.map (·.2)).sum + (first - 1) * (gs.filterMap fun g => if g.1 then some (g.2 + first - 1) else none).length
  | [], _ => rfl
  | g :: gs, h => by
    have ih := split_sum hf gs fun g hg => h g (List.mem_cons_of_mem _ hg)
    have h0 := h g List.mem_cons_self
    rw [List.map_cons, List.sum_cons]
    cases hb : g.1 with
    | true =>
      rw [List.filterMap_cons_some (by rw [if_pos hb]), List.filterMap_cons_none (by rw [if_pos hb]), List.sum_cons,
        List.length_cons, Nat.mul_add]
      omega
    | false =>
      rw [List.filterMap_cons_none (by rw [hb]; rfl), List.filterMap_cons_some (by rw [hb]; rfl), List.sum_cons]
      omega

/-- C44: runs and the stretches between them make up the file: every position that is looked at is in
exactly one of them. -/
theorem C44_conserved (aligned : Bool) (j : Nat) (hj : 0 < j) (inp : Mem) (n : Nat) (r : Rec)
    (h : analyze aligned j inp n = some r) :
    r.rleLength + r.emptyLength = (positions aligned j n).length + ((if aligned then 1 else j) - 1) * r.rleCount := by
  obtain ⟨h1, h2, h3, _⟩ := C44_runs_partial aligned j hj inp n r h
  rw [h1, h2, h3, runs, gaps, split_sum (by split <;> omega) _ (groups_pos _), groups_sum, matchesAt, List.length_map]

theorem groups_le {g : Bool × Nat} : ∀ {gs : List (Bool × Nat)}, g ∈ gs → g.2 ≤ (gs.map (·.2)).sum
  | g' :: gs, h => by
    rw [List.map_cons, List.sum_cons]
    rcases List.mem_cons.mp h with rfl | h
    · omega
    · have := groups_le h; omega

/-- Lengths are positive and below the size of the file. -/
theorem lengths_range {aligned : Bool} {j n : Nat} (hj : 0 < j) {inp : Mem} :
    (∀ x ∈ runs aligned j inp n, 0 < x ∧ x < n) ∧ (∀ x ∈ gaps aligned j inp n, 0 < x ∧ x < n) := by
  have key : ∀ g ∈ groups (matchesAt aligned j inp n), 0 < g.2 ∧ g.2 ≤ n - j := by
    intro g hg
    refine ⟨groups_pos _ g hg, Nat.le_trans (groups_le hg) ?_⟩
    rw [groups_sum, matchesAt, List.length_map]
    exact positions_length aligned j n
  have hf : 0 < (if aligned then 1 else j) ∧ (if aligned then 1 else j) ≤ j := by split <;> omega
  constructor
  · intro x hx
    obtain ⟨g, hg, e⟩ := List.mem_filterMap.mp hx
    have := key g hg
    split at e
    · have e := Option.some.inj e
      omega
    · cases e
  · intro x hx
    obtain ⟨g, hg, e⟩ := List.mem_filterMap.mp hx
    have := key g hg
    split at e
    · cases e
    · have e := Option.some.inj e
      omega

/-! ### Where the code does not do what the tables say -/

/-- C44: the tables by number of bits are meant to count in row `b` the lengths from `2^b` to `2^(b+1) - 1`;
rows 0 to 31 are always empty, whatever the file. -/
theorem C44_bits_violated (aligned : Bool) (j : Nat) (hj : 0 < j) (inp : Mem) (n : Nat) (r : Rec)
    (h : analyze aligned j inp n = some r) (b : Nat) (hb : b < 32) :
    r.rleBits.getD b 0 = 0 ∧ r.emptyBits.getD b 0 = 0 := by
  obtain ⟨_, _, _, _, _, h6, h7⟩ := C44_runs_partial aligned j hj inp n r h
  have : ∀ l : List Nat, l.countP (fun x => row x == b) = 0 := by
    intro l
    rw [List.countP_eq_zero]
    intro x _
    unfold row
    simp
    omega
  rw [h6, h7]
  exact ⟨this _, this _⟩

/-- C44: what the tables by number of bits hold: the count for row `b` is in row `32 + b`. -/
theorem C44_bits_partial (aligned : Bool) (j : Nat) (hj : 0 < j) (inp : Mem) (n : Nat) (r : Rec)
    (hn : n < 4294967296) (h : analyze aligned j inp n = some r) (b : Nat) :
    r.rleBits.getD (32 + b) 0 = (runs aligned j inp n).countP (fun x => 2 ^ b ≤ x ∧ x < 2 ^ (b + 1)) ∧
    r.emptyBits.getD (32 + b) 0 = (gaps aligned j inp n).countP (fun x => 2 ^ b ≤ x ∧ x < 2 ^ (b + 1)) := by
  obtain ⟨_, _, _, _, _, h6, h7⟩ := C44_runs_partial aligned j hj inp n r h
  obtain ⟨hl, hl'⟩ := lengths_range (aligned := aligned) (n := n) hj (inp := inp)
  have : ∀ l : List Nat, (∀ x ∈ l, 0 < x ∧ x < n) →
      l.countP (fun x => row x == 32 + b) = l.countP (fun x => 2 ^ b ≤ x ∧ x < 2 ^ (b + 1)) := by
    intro l hl
    refine List.countP_congr fun x hx => ?_
    unfold row
    have hx := hl x hx
    rw [Nat.mod_eq_of_lt (by omega)]
    simp only [beq_iff_eq, decide_eq_true_eq]
    rw [← Nat.log2_eq_iff (by omega)]
    omega
  rw [h6, h7]
  exact ⟨this _ hl, this _ hl'⟩

/-- The memory with these bytes, and zeros behind them. -/
def memOf (l : List Byte) : Mem := fun i => l.getD i 0

/-- C44: a file that begins with a run is not analysed: with the file `aaab` the analysis takes the number of
bits of a length that is 0, which is undefined. -/
theorem C44_first_run_violated : analyze false 1 (memOf [97, 97, 97, 98]) 4 = none := by decide

/-- C44: the analysis of a file depends on bytes that are not in it: the file `aba` has a run for
two byte symbols if a `b` is behind it, and none otherwise. -/
theorem C44_overread_violated :
    (analyze false 2 (memOf [97, 98, 97, 98]) 3).map (·.rleCount) = some 1 ∧
    (analyze false 2 (memOf [97, 98, 97, 99]) 3).map (·.rleCount) = some 0 := by decide

/-- `xaaabbb`: a stretch of one byte, a run, a stretch of one byte and a run. -/
example : (analyze false 1 (memOf [120, 97, 97, 97, 98, 98, 98]) 7).map (fun r => (r.rleCount, r.rleLength, r.emptyLength,
    r.rleExact.getD 1 0, r.emptyExact.getD 0 0)) = some (2, 4, 2, 2, 2) := by decide +kernel

example : runs false 1 (memOf [120, 97, 97, 97, 98, 98, 98]) 7 = [2, 2] ∧ gaps false 1 (memOf [120, 97, 97, 97, 98, 98, 98]) 7 = [1, 1] := by
  decide +kernel

/-- Aligned two byte symbols in `xyababab..`. -/
example : (analyze true 2 (memOf [120, 121, 97, 98, 97, 98, 97, 98]) 8).map (fun r => (r.rleCount, r.rleLength, r.emptyLength)) =
    some (1, 2, 1) := by decide +kernel

example : runAges false 1 (memOf [120, 97, 97, 98, 98, 97, 97, 0, 0]) 9 = [none, none, some 1, some 2] := by decide +kernel

end Hrk.Analyze
