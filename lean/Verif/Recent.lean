import Verif.RecentSpec
import Verif.Short
import Verif.Rle128
import Verif.ApiProps

/-
Tables of recently used symbols.
-/

namespace Hrk

section
variable {α : Type} [DecidableEq α]

theorem firstDistinct_nil (N : Nat) : firstDistinct N ([] : List α) = [] := by cases N <;> rfl

theorem firstDistinct_sub : ∀ (N : Nat) (l : List α) (x : α), x ∈ firstDistinct N l → x ∈ l := by
  intro N
  induction N with
  | zero => intro l x h; simp [firstDistinct] at h
  | succ N ih =>
    intro l x h
    cases l with
    | nil => simp [firstDistinct] at h
    | cons y l =>
      simp only [firstDistinct, List.mem_cons] at h
      rcases h with rfl | h
      · exact List.mem_cons_self ..
      · exact List.mem_cons_of_mem _ (List.mem_filter.mp (ih _ _ h)).1

theorem filter_ne_self {l : List α} {x : α} (h : x ∉ l) : (l.filter fun y => y ≠ x) = l := by
  rw [List.filter_eq_self]
  intro y hy
  simp only [ne_eq, decide_eq_true_eq]
  rintro rfl
  exact h hy

theorem filter_swap (l : List α) (x y : α) :
    ((l.filter fun z => z ≠ x).filter fun z => z ≠ y) = (l.filter fun z => z ≠ y).filter fun z => z ≠ x := by
  rw [List.filter_filter, List.filter_filter]
  congr 1
  funext z
  exact Bool.and_comm _ _

theorem not_mem_filter (l : List α) (x : α) : x ∉ l.filter fun y => y ≠ x := by simp

/-- Of the first `M ≥ N` different entries the first `N` different ones are those of the list. -/
theorem firstDistinct_idem : ∀ (N M : Nat) (l : List α), N ≤ M → firstDistinct N (firstDistinct M l) = firstDistinct N l := by
  intro N
  induction N with
  | zero => intro M l _; rfl
  | succ N ih =>
    intro M l h
    cases M with
    | zero => omega
    | succ M =>
      cases l with
      | nil => rfl
      | cons y l =>
        simp only [firstDistinct]
        rw [filter_ne_self fun hm => not_mem_filter l y (firstDistinct_sub _ _ _ hm), ih M _ (by omega)]

theorem firstDistinct_filter : ∀ (N : Nat) (l : List α) (x : α),
    firstDistinct N ((firstDistinct (N + 1) l).filter fun y => y ≠ x) = firstDistinct N (l.filter fun y => y ≠ x) := by
  intro N
  induction N with
  | zero => intro l x; rfl
  | succ N ih =>
    intro l x
    cases l with
    | nil => rfl
    | cons y l =>
      rw [firstDistinct]
      by_cases hy : y = x
      · subst hy
        rw [List.filter_cons_of_neg (by simp), List.filter_cons_of_neg (by simp),
          filter_ne_self fun hm => not_mem_filter l y (firstDistinct_sub _ _ _ hm), firstDistinct_idem _ _ _ (Nat.le_refl _)]
      · rw [List.filter_cons_of_pos (by simpa using hy), List.filter_cons_of_pos (by simpa using hy), firstDistinct, firstDistinct,
          filter_swap, filter_ne_self (x := y) fun hm => not_mem_filter l y (firstDistinct_sub _ _ _ hm), ih, filter_swap]

/-- Using one more symbol, it is enough to know the table so far. -/
theorem firstDistinct_cons (N : Nat) (x : α) (l : List α) : firstDistinct N (x :: firstDistinct N l) = firstDistinct N (x :: l) := by
  cases N with
  | zero => rfl
  | succ N => simp only [firstDistinct]; rw [firstDistinct_filter]

theorem firstDistinct_nodup : ∀ (N : Nat) (l : List α), l.Nodup → firstDistinct N l = l.take N := by
  intro N
  induction N with
  | zero => intro l _; simp [firstDistinct]
  | succ N ih =>
    intro l h
    cases l with
    | nil => rfl
    | cons y l =>
      rw [List.nodup_cons] at h
      rw [firstDistinct, filter_ne_self h.1, ih l h.2, List.take_succ_cons]

theorem firstDistinct_isNodup : ∀ (N : Nat) (l : List α), (firstDistinct N l).Nodup := by
  intro N
  induction N with
  | zero => intro l; simp [firstDistinct]
  | succ N ih =>
    intro l
    cases l with
    | nil => simp [firstDistinct]
    | cons y l =>
      rw [firstDistinct, List.nodup_cons]
      exact ⟨fun hm => not_mem_filter l y (firstDistinct_sub _ _ _ hm), ih _⟩

end

/-- The table after a symbol was looked up and used: the last different symbols. -/
theorem Lut.use_recent {l : Lut} (h : l.Nodup) (h0 : 0 < l.length) (sym : List Byte) :
    l.use (l.find sym) sym = firstDistinct l.length (sym :: l) := by
  obtain ⟨N, hN⟩ : ∃ N, l.length = N + 1 := ⟨l.length - 1, by omega⟩
  rw [hN, firstDistinct]
  unfold Lut.use Lut.find
  by_cases hm : sym ∈ l
  · have hlt := List.idxOf_lt_length_of_mem hm
    have hf : (l.filter fun y => y ≠ sym) = l.erase sym := by
      rw [List.Nodup.erase_eq_filter h]
      congr 1
      funext y
      by_cases hy : y = sym <;> simp [hy]
    have hd : (l.erase sym).Nodup := h.erase _
    rw [hf, firstDistinct_nodup N _ hd, List.take_of_length_le (by rw [List.length_erase_of_mem hm]; omega)]
    split
    · next h1 =>
      cases l with
      | nil => simp at h0
      | cons y l =>
        have : y = sym := by
          by_cases hy : y = sym
          · exact hy
          · rw [List.idxOf_cons, beq_eq_false_iff_ne.mpr hy] at h1
            cases h1
        rw [this, List.erase_cons_head]
    · rw [Nat.min_eq_left (by omega), List.erase_eq_eraseIdx_of_idxOf rfl]
  · rw [filter_ne_self hm, firstDistinct_nodup N _ h, List.idxOf_eq_length hm, if_neg (by omega), hN, Nat.min_eq_right (by omega),
      List.eraseIdx_eq_take_drop_succ]
    rw [show N + 1 - 1 = N by omega, List.drop_eq_nil_of_le (by omega), List.append_nil]

/-! ### Streams -/

/-- Another record at the end. -/
theorem Stored.snoc {hd : Nat → Nat → Nat} {N : Nat} {r : Rec} {h₁ h₂ : List Byte} (hl : h₁.length + h₂.length = hd r.count r.lits.length) :
    ∀ {rs : List Rec} {seen : List (List Byte)} {b : List Byte}, Stored hd N seen rs b →
      Stored hd N seen (rs ++ [r])
        (b ++ (h₁ ++ (if r.sym ∈ firstDistinct N (rs.reverse.map Rec.sym ++ seen) then [] else r.sym) ++ h₂) ++ r.lits) := by
  intro rs
  induction rs with
  | nil =>
    intro seen b h
    rw [show b = [] from h]
    exact ⟨h₁, h₂, [], by simp, hl, rfl⟩
  | cons q rs ih =>
    rintro seen b ⟨g₁, g₂, b', rfl, e2, e3⟩
    refine ⟨g₁, g₂, _, ?_, e2, ih e3⟩
    simp only [List.reverse_cons, List.map_append, List.map_cons, List.map_nil, List.append_assoc, List.cons_append, List.nil_append]

/-- What an emission rule has to do: leave out the symbols of the table, and keep the table. -/
def EmitTab {σ : Type} (e : Emit σ) (Q : σ → Prop) (tab : σ → List (List Byte)) (N S : Nat) (hd : Nat → Nat → Nat) : Prop :=
  ∀ fs sym cnt lits bytes fs', Q fs → sym.length = S → e fs sym cnt lits = some (bytes, fs') →
    Q fs' ∧ tab fs' = firstDistinct N (sym :: tab fs) ∧
      ∃ h₁ h₂, bytes = h₁ ++ (if sym ∈ tab fs then [] else sym) ++ h₂ ∧ h₁.length + h₂.length = hd cnt lits

/-- The stream so far. -/
def RecentCP {σ : Type} (inp : Mem) (Q : σ → Prop) (tab : σ → List (List Byte)) (N : Nat) (hd : Nat → Nat → Nat) (seen : List (List Byte))
    (fs : σ) (out : List Byte) (last : Nat) : Prop :=
  Q fs ∧ ∃ rs : List Rec, rd inp 0 last = rs.flatMap Rec.plain ∧ Stored hd N seen rs out ∧
    tab fs = firstDistinct N (rs.reverse.map Rec.sym ++ seen)

theorem RecentCP.closed {σ : Type} {e : Emit σ} {inp : Mem} {Q : σ → Prop} {tab : σ → List (List Byte)} {N S B : Nat} {unb : Bool}
    {hd : Nat → Nat → Nat} {seen : List (List Byte)} (h : EmitTab e Q tab N S hd) :
    Closed e inp S unb B (RecentCP inp Q tab N hd seen) := by
  rintro fs out last sym cnt lits bytes fs' ⟨hQ, rs, h1, h2, h3⟩ hl _ _ hr he
  obtain ⟨g1, g2, h₁, h₂, g3, g4⟩ := h fs sym cnt lits bytes fs' hQ hl he
  refine ⟨g1, rs ++ [⟨rd inp last lits, sym, cnt⟩], ?_, ?_, ?_⟩
  · rw [← rd_append, ← rd_append, h1, Nat.zero_add, Nat.zero_add, hr]
    simp [Rec.plain]
  · rw [g3, h3]
    exact Stored.snoc (r := ⟨rd inp last lits, sym, cnt⟩) (by simpa using g4) h2
  · rw [g2, h3, firstDistinct_cons]
    simp

/-- A codec whose emission rules do that. -/
theorem Cdc.OK.recent {σ : Type} {c : Cdc σ} {P D : σ → Prop} (h : c.OK P D) {Q : σ → Prop} {tab : σ → List (List Byte)} {N : Nat}
    {hd : Nat → Nat → Nat} (he : ∀ e ∈ c.F.emit :: c.extra, EmitTab e Q tab N c.S hd) (he2 : EmitTab c.emitEnd Q tab N c.S hd)
    (cpu : Cpu) (inp : Mem) (n : Nat) (h0 : Q (c.first inp n)) (h1 : tab (c.first inp n) = firstDistinct N (tab (c.first inp n))) :
    ∃ b T rs rest bs, c.body cpu inp n = some (c.pre (c.first inp n) ++ b) ∧ n ≤ T ∧ T ≤ n + c.S ∧
      rd inp 0 T = rs.flatMap Rec.plain ++ rest ∧ Stored hd N (tab (c.first inp n)) rs bs ∧
        (rest = [] ∧ b = bs ++ c.F.endRun ∨ b = bs ++ c.F.endLit rest.length ++ rest) := by
  obtain ⟨b, g1, fs, out, last, T, ⟨_, rs, k1, k2, _⟩, t1, t2, t3, hb⟩ := h.body_scan cpu inp n (n + c.S)
    (RecentCP inp Q tab N hd (tab (c.first inp n))) (Nat.le_refl _) (fun e hm => RecentCP.closed (he e hm)) (RecentCP.closed he2)
    ⟨h0, [], rfl, rfl, h1⟩
  refine ⟨b, T, rs, rd inp last (T - last), out, g1, t1, t2, ?_, k2, ?_⟩
  · have := rd_append inp 0 last (T - last)
    rw [Nat.zero_add, k1, Nat.add_sub_cancel' t3] at this
    exact this.symm
  · rcases hb with ⟨rfl, hb⟩ | hb
    · exact .inl ⟨by simp [rd], hb⟩
    · exact .inr (by rw [hb, rd_length])

end Hrk
