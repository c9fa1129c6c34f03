import Verif.Reads
import Verif.Blocks
import Verif.Grow

/-
Inputs for which the compressors read behind the end of their input. Used by C63.
-/

namespace Hrk

theorem pairAt_ne {inp : Mem} {S p : Nat} (hS : 0 < S) (h : inp p ≠ inp (p + S)) : pairAt inp S p = false := by
  unfold pairAt
  rw [beq_eq_false_iff_ne]
  intro e
  apply h
  have := congrArg (fun l => l.getD 0 0) e
  obtain ⟨S, rfl⟩ : ∃ k, S = k + 1 := ⟨S - 1, by omega⟩
  simpa [rd] using this

theorem rd_ne {inp : Mem} {S p q : Nat} (hS : 0 < S) (h : inp p ≠ inp q) : rd inp p S ≠ rd inp q S := by
  intro e
  apply h
  have := congrArg (fun l => l.getD 0 0) e
  obtain ⟨S, rfl⟩ : ∃ k, S = k + 1 := ⟨S - 1, by omega⟩
  simpa [rd] using this

theorem rd_head (inp : Mem) {S : Nat} (hS : 0 < S) (p : Nat) : (rd inp p S).getD 0 0 = inp p := by
  obtain ⟨S, rfl⟩ : ∃ k, S = k + 1 := ⟨S - 1, by omega⟩
  simp [rd]

theorem loop_none {α : Type} {body : α → α ⊕ Option α} (I : α → Prop)
    (h : ∀ s, I s → Post (body s) I (fun o => o = none)) (f : Nat) (s : α) (hs : I s) : (loop body f s).join = none := by
  cases e : loop body f s with
  | none => rfl
  | some o =>
    have := loop_rule_partial I (fun o => o = none) h f s o hs e
    rw [this]
    rfl

/-- Nothing repeats: the scanner looks at every symbol by itself, and its last look goes behind the end. -/
def Lone {σ : Type} (S : Nat) (inp : Mem) (n : Nat) (s : ES σ) : Prop :=
  s.sym.length = S ∧ s.i + S ≤ n ∧ (s.pc = .top ∨ s.pc = .ext ∨ s.pc = .scal → s.count = 0 ∧ inp s.i ≠ s.sym.getD 0 0)

theorem doEmit_keeps {σ : Type} (emit : Emit σ) (inp : Mem) (s : ES σ) :
    (doEmit emit inp s).sym = s.sym ∧ (doEmit emit inp s).i = s.i ∧ (doEmit emit inp s).count = s.count := by
  unfold doEmit
  split <;> exact ⟨rfl, rfl, rfl⟩

theorem lone_step {σ : Type} (emit : Emit σ) {S : Nat} (hS : symSize S) (k : Simd) (unb : Bool) {inp : Mem} {n lim : Nat}
    (h1 : ∀ j, inp j ≠ inp (j + 1)) (h2 : ∀ j, inp j ≠ inp (j + S)) (hl : lim < n + symT S) (s : ES σ) (hs : Lone S inp n s) :
    Post (guardR (reachX emit S k inp n) lim (stepXI emit S k unb inp n) s) (Lone S inp n) (fun o => o = none) := by
  have h0 : 0 < S := by rcases hS with rfl | rfl | rfl | rfl | rfl <;> decide
  have hW : k.width = 0 ∨ S < k.width := by
    rcases hS with rfl | rfl | rfl | rfl | rfl <;> cases k <;> decide
  unfold guardR
  split
  case isFalse => exact rfl
  case isTrue hr =>
    rw [stepXI_eq emit hS k unb inp n s hs.1]
    obtain ⟨pc, i, count, lastRLE, sym, fs, out⟩ := s
    obtain ⟨hlen, hi, hc⟩ := hs
    dsimp only at hlen hi hc
    unfold stepX
    cases pc with
    | top =>
      dsimp only
      rw [if_pos (by omega)]
      exact ⟨hlen, hi, fun _ => hc (Or.inl rfl)⟩
    | ext =>
      obtain ⟨c0, c1⟩ := hc (Or.inr (Or.inl rfl))
      dsimp only
      rw [matchLen_zero _ c1, if_pos rfl]
      split
      · exact ⟨hlen, hi, by simp⟩
      · exact ⟨hlen, hi, fun _ => ⟨c0, c1⟩⟩
    | scal =>
      obtain ⟨c0, c1⟩ := hc (Or.inr (Or.inr rfl))
      subst c0
      dsimp only
      rw [if_neg (by simp)]
      exact ⟨hlen, hi, by simp⟩
    | second =>
      have := doEmit_keeps emit inp ⟨.second, i, count, lastRLE, sym, fs, out⟩
      exact ⟨by show (doEmit _ _ _).sym.length = S; rw [this.1]; exact hlen,
        by show (doEmit _ _ _).i + S ≤ n; rw [this.2.1]; exact hi, by simp⟩
    | search =>
      dsimp only
      split
      · next hc =>
        rw [findPair_none _ _ fun j _ => pairAt_ne h0 (h2 _)]
        exact ⟨hlen, by show i + (k.width - S) + S ≤ n; omega, by simp⟩
      · exact ⟨hlen, hi, by simp⟩
    | sscan =>
      have hr' : max (i + symT S) (if i + S ≤ n then i + S + symT S else 0) ≤ lim := hr
      rw [if_pos hi] at hr'
      dsimp only
      rw [if_neg (fun e => rd_ne h0 (h2 i) e.2.symm)]
      refine ⟨by simp, by show i + 1 + S ≤ n; omega, fun _ => ⟨rfl, ?_⟩⟩
      show inp (i + 1) ≠ (rd inp i S).getD 0 0
      rw [rd_head inp h0]
      exact fun e => h1 i e.symm

/-- The same for 128 bit symbols: the initial symbol is what is there, so the scanner may begin with a run. -/
def Lone128 {σ : Type} (d : Nat) (inp : Mem) (n : Nat) (s : ES σ) : Prop :=
  s.sym.length = 16 ∧ s.i + d ≤ n ∧ (s.pc = .top ∨ s.pc = .ext → s.i = 0 ∧ s.sym = rd inp 0 16 ∨ inp s.i ≠ s.sym.getD 0 0) ∧ s.pc ≠ .scal

theorem highDiff_le16 (inp : Mem) (i : Nat) : highDiff inp i 16 ≤ 16 := highDiff_le inp i 16

theorem lone128_step {σ : Type} (emit : Emit σ) (unb : Bool) {inp : Mem} {n lim : Nat}
    (h1 : ∀ j, inp j ≠ inp (j + 1)) (h2 : ∀ j, inp j ≠ inp (j + 16)) {d : Nat} (hd : d = 1 ∧ lim ≤ n ∨ d = 16 ∧ 32 ≤ n ∧ lim < n + 16)
    (s : ES σ) (hs : Lone128 d inp n s) :
    Post (guardR (reach128 emit n) lim (step128I emit unb inp n) s) (Lone128 d inp n) (fun o => o = none) := by
  unfold guardR
  split
  case isFalse => exact rfl
  case isTrue hr =>
    rw [step128I_eq emit unb inp n s hs.1]
    obtain ⟨pc, i, count, lastRLE, sym, fs, out⟩ := s
    obtain ⟨hlen, hi, hc, hp⟩ := hs
    dsimp only at hlen hi hc hp
    unfold step128
    cases pc with
    | top =>
      dsimp only
      rw [if_pos (by omega)]
      exact ⟨hlen, hi, fun _ => hc (Or.inl rfl), by simp⟩
    | ext =>
      dsimp only
      by_cases hn : i + 16 < n
      · rw [if_pos hn]
        rcases hc (Or.inr rfl) with ⟨rfl, rfl⟩ | c1
        · have hm : matchLen inp (rd inp 0 16) 0 16 0 = 16 := by simp [matchLen, rd]
          rw [hm, if_pos rfl]
          refine ⟨hlen, by show 0 + 16 + d ≤ n; omega, fun _ => Or.inr ?_, by simp⟩
          show inp (0 + 16) ≠ (rd inp 0 16).getD 0 0
          rw [rd_head inp (by decide)]
          exact fun e => h2 0 e.symm
        · rw [matchLen_zero _ c1, if_neg (by decide)]
          split
          · exact ⟨hlen, hi, by simp, by simp⟩
          · exact ⟨hlen, hi, by simp, by simp⟩
      · rw [if_neg hn]
        exact ⟨hlen, hi, by simp, by simp⟩
    | scal => exact absurd rfl hp
    | second =>
      have := doEmit_keeps emit inp ⟨.second, i, count, lastRLE, sym, fs, out⟩
      exact ⟨by show (doEmit _ _ _).sym.length = 16; rw [this.1]; exact hlen,
        by show (doEmit _ _ _).i + d ≤ n; rw [this.2.1]; exact hi, by simp, by simp⟩
    | search =>
      dsimp only
      have := highDiff_le16 inp i
      split
      · rw [pairAt_ne (by decide) (h2 i), if_neg (by decide)]
        split
        · exact ⟨hlen, by show i + 16 + d ≤ n; omega, by simp, by simp⟩
        · exact ⟨hlen, by show i + highDiff inp i 16 + d ≤ n; omega, by simp, by simp⟩
      · exact ⟨hlen, hi, by simp, by simp⟩
    | sscan =>
      have hr' : max (i + 16) (if i + 16 ≤ n then i + 16 + 16 else 0) ≤ lim := hr
      dsimp only
      rw [if_neg (fun e => rd_ne (by decide) (h2 i) e.2.symm)]
      refine ⟨by simp, by show i + 1 + d ≤ n; split at hr' <;> omega, fun _ => Or.inr ?_, by simp⟩
      show inp (i + 1) ≠ (rd inp i 16).getD 0 0
      rw [rd_head inp (by decide)]
      exact fun e => h1 i e.symm

theorem prefixLen_one {l next : List Byte} (hl : l.getD 0 0 = l.getD 1 0) (hn : next.getD 0 0 ≠ next.getD 1 0) : prefixLen l next ≤ 1 := by
  apply Classical.byContradiction
  intro h
  have h0 := prefixLen_spec l next 0 (by omega)
  have h1 := prefixLen_spec l next 1 (by omega)
  exact hn (by rw [← h0, ← h1, hl])

/-- The table holds symbols of equal bytes; the input has none. -/
theorem bestMatch_one {S : Nat} {next : List Byte} (hn : next.getD 0 0 ≠ next.getD 1 0) : ∀ (lut : Lut) (j : Nat) (best : Nat × Nat),
    (∀ l ∈ lut, l.getD 0 0 = l.getD 1 0) → best.2 ≤ 1 → (bestMatch S next lut j best).2 ≤ 1 := by
  intro lut
  induction lut with
  | nil => intro j best _ hb; exact hb
  | cons l ls ih =>
    intro j best hl hb
    have hl0 := hl l (List.mem_cons_self ..)
    have hls : ∀ l ∈ ls, l.getD 0 0 = l.getD 1 0 := fun x hx => hl x (List.mem_cons_of_mem _ hx)
    unfold bestMatch
    rw [if_neg (fun e => hn (by rw [e]; exact hl0))]
    split
    · exact ih _ _ hls (prefixLen_one hl0 hn)
    · exact ih _ _ hls hb

/-- The same for the greedy compressors: the table stays as it was. -/
def LoneG (S n : Nat) (s : ES Lut) : Prop :=
  s.sym.length = S ∧ s.i + S ≤ n ∧ s.count = 0 ∧ (s.pc = .top ∨ s.pc = .second ∨ s.pc = .sscan) ∧
    ∀ l ∈ s.fs, l.length = S ∧ l.getD 0 0 = l.getD 1 0

theorem loneG_step {emit : Emit Lut} (he : ∀ lut sym lits, emit lut sym 0 lits = none) {S : Nat} (hS : symSize S) {inp : Mem} {n lim : Nat}
    (h1 : ∀ j, inp j ≠ inp (j + 1)) (h2 : ∀ j, inp j ≠ inp (j + S)) (hl : lim < n + symT S) (s : ES Lut) (hs : LoneG S n s) :
    Post (guardR (reachG emit S n) lim (stepGI emit S inp n) s) (LoneG S n) (fun o => o = none) := by
  have h0 : 2 ≤ S := by rcases hS with rfl | rfl | rfl | rfl | rfl <;> decide
  unfold guardR
  split
  case isFalse => exact rfl
  case isTrue hr =>
    rw [stepGI_eq emit hS inp n s hs.1 fun l hl => (hs.2.2.2.2 l hl).1]
    obtain ⟨pc, i, count, lastRLE, sym, fs, out⟩ := s
    obtain ⟨hlen, hi, hc, hp, hf⟩ := hs
    dsimp only at hlen hi hc hp hf
    subst hc
    unfold stepG
    rcases hp with rfl | rfl | rfl
    · dsimp only
      rw [if_pos (by omega), if_neg (by simp)]
      exact ⟨hlen, hi, rfl, by simp, hf⟩
    · have : doEmit emit inp ⟨.second, i, 0, lastRLE, sym, fs, out⟩ = ⟨.second, i, 0, lastRLE, sym, fs, out⟩ := by
        unfold doEmit
        dsimp only
        rw [he]
      dsimp only
      rw [this]
      exact ⟨hlen, hi, rfl, by simp, hf⟩
    · have hr' : max (i + symT S) (if i + S ≤ n then i + S + symT S else 0) ≤ lim := hr
      rw [if_pos hi] at hr'
      dsimp only
      have hb : (bestMatch S (rd inp i S) fs 0 (0, 0)).2 ≤ 1 := by
        refine bestMatch_one ?_ fs 0 (0, 0) (fun l hl => (hf l hl).2) (by decide)
        obtain ⟨S, rfl⟩ : ∃ k, S = k + 2 := ⟨S - 2, by omega⟩
        simpa [rd] using h1 i
      rw [if_neg (fun e => rd_ne (by omega) (h2 i) e.2.symm), if_neg (by omega)]
      exact ⟨by simp, by show i + 1 + S ≤ n; omega, rfl, by simp, hf⟩

end Hrk
