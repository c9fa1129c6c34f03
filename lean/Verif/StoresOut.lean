import Verif.Stores

/-
What overlapping stores leave behind, and the record headers store by store. Used by C64.
-/

namespace Hrk

/-! ### Stores -/

/-- The surplus of the highest store behind `index`, after one more. -/
def padAfter (p : Nat) (s : St) : Nat := max (p - s.adv) (s.data.length - s.adv)

def padL (p : Nat) (l : List St) : Nat := l.foldl padAfter p

/-- Stores that are at least as wide as they move `index`. -/
def Wide (l : List St) : Prop := ∀ s ∈ l, s.adv ≤ s.data.length

/-- `l` is what has been written from `a` on, in memory that was `m0`; stores went at most `p` bytes further. -/
structure Ext (m0 : Mem) (a p : Nat) (l : List Byte) (w : Wr) : Prop where
  idx : w.idx = a + l.length
  mem : ∀ k, k < l.length → w.m (a + k) = l.getD k 0
  low : ∀ k, k < a → w.m k = m0 k
  high : ∀ k, w.hi ≤ k → w.m k = m0 k
  hi : w.hi ≤ w.idx + p

theorem Ext.mono {m0 : Mem} {a p q : Nat} {l : List Byte} {w : Wr} (h : Ext m0 a p l w) (hp : p ≤ q) : Ext m0 a q l w :=
  ⟨h.idx, h.mem, h.low, h.high, Nat.le_trans h.hi (Nat.add_le_add_left hp _)⟩

theorem Ext.st {m0 : Mem} {a p : Nat} {l : List Byte} {w : Wr} (h : Ext m0 a p l w) {s : St} (hs : s.adv ≤ s.data.length) :
    Ext m0 a (padAfter p s) (l ++ s.data.take s.adv) (w.st s) := by
  have hi := h.idx
  have hl : (s.data.take s.adv).length = s.adv := by simp; omega
  refine ⟨?_, fun k hk => ?_, fun k hk => ?_, fun k hk => ?_, ?_⟩
  · show w.idx + s.adv = _
    rw [List.length_append, hl]
    omega
  · rw [List.length_append, hl] at hk
    show wrL w.m w.idx s.data (a + k) = _
    by_cases hkl : k < l.length
    · rw [wrL_out (Or.inl (by omega)), h.mem k hkl]
      simp only [List.getD_eq_getElem?_getD]
      rw [List.getElem?_append_left hkl]
    · rw [show a + k = w.idx + (k - l.length) by omega, wrL_in (by omega)]
      simp only [List.getD_eq_getElem?_getD]
      rw [List.getElem?_append_right (by omega), List.getElem?_take, if_pos (by omega)]
  · show wrL w.m w.idx s.data k = _
    rw [wrL_out (Or.inl (by omega)), h.low k hk]
  · have hk : max w.hi (w.idx + s.data.length) ≤ k := hk
    show wrL w.m w.idx s.data k = _
    rw [wrL_out (Or.inr (by omega)), h.high k (by omega)]
  · have := h.hi
    show max w.hi (w.idx + s.data.length) ≤ w.idx + s.adv + padAfter p s
    unfold padAfter
    omega

theorem Ext.put {m0 : Mem} {a : Nat} : ∀ (x : List St) {p : Nat} {l : List Byte} {w : Wr}, Wide x → Ext m0 a p l w →
    Ext m0 a (padL p x) (l ++ flatSt x) (w.put x) := by
  intro x
  induction x with
  | nil => intro p l w _ h; simpa [flatSt, padL, Wr.put] using h
  | cons s x ih =>
    intro p l w hw h
    have := ih (fun t ht => hw t (List.mem_cons_of_mem _ ht)) (h.st (hw s (List.mem_cons_self ..)))
    simpa [flatSt, padL, Wr.put, List.append_assoc] using this

theorem flatSt_append (x y : List St) : flatSt (x ++ y) = flatSt x ++ flatSt y := by simp [flatSt]

theorem padL_append (p : Nat) (x y : List St) : padL p (x ++ y) = padL (padL p x) y := by simp [padL]

theorem Wide.append {x y : List St} (hx : Wide x) (hy : Wide y) : Wide (x ++ y) := by
  intro s hs
  rcases List.mem_append.mp hs with h | h
  · exact hx s h
  · exact hy s h

theorem wide_nil : Wide [] := by intro s hs; cases hs

theorem wide_all (l : List Byte) {x : List St} (h : Wide x) : Wide (.all l :: x) := by
  intro s hs
  rcases List.mem_cons.mp hs with rfl | hs
  · exact Nat.le_refl _
  · exact h s hs

theorem wide_sym {S : Nat} {l : List Byte} (hl : l.length = S) {x : List St} (h : Wide x) : Wide (.sym S l :: x) := by
  intro s hs
  rcases List.mem_cons.mp hs with rfl | hs
  · show S ≤ (symVar S l).length
    unfold symVar
    simp
    omega
  · exact h s hs

/-- Stores with at most `q` surplus bytes. -/
def Narrow (q : Nat) (l : List St) : Prop := ∀ s ∈ l, s.data.length - s.adv ≤ q

theorem Narrow.append {q : Nat} {x y : List St} (hx : Narrow q x) (hy : Narrow q y) : Narrow q (x ++ y) := by
  intro s hs
  rcases List.mem_append.mp hs with h | h
  · exact hx s h
  · exact hy s h

theorem narrow_nil {q : Nat} : Narrow q [] := by intro s hs; cases hs

theorem narrow_all {q : Nat} (l : List Byte) {x : List St} (h : Narrow q x) : Narrow q (.all l :: x) := by
  intro s hs
  rcases List.mem_cons.mp hs with rfl | hs
  · show l.length - l.length ≤ q
    omega
  · exact h s hs

theorem narrow_sym {S : Nat} {l : List Byte} (hl : l.length = S) {x : List St} (h : Narrow (symT S - S) x) :
    Narrow (symT S - S) (.sym S l :: x) := by
  intro s hs
  rcases List.mem_cons.mp hs with rfl | hs
  · show (symVar S l).length - S ≤ _
    unfold symVar
    simp
    omega
  · exact h s hs

theorem Narrow.padL {q : Nat} : ∀ {x : List St}, Narrow q x → ∀ {p : Nat}, p ≤ q → padL p x ≤ q := by
  intro x
  induction x with
  | nil => intro _ p hp; exact hp
  | cons s x ih =>
    intro h p hp
    refine ih (fun t ht => h t (List.mem_cons_of_mem _ ht)) ?_
    have := h s (List.mem_cons_self ..)
    unfold padAfter
    omega

theorem flatSt_all (l : List Byte) (x : List St) : flatSt (.all l :: x) = l ++ flatSt x := by simp [flatSt, St.all]

theorem flatSt_sym {S : Nat} {l : List Byte} (hl : l.length = S) (x : List St) : flatSt (.sym S l :: x) = l ++ flatSt x := by
  subst hl
  simp [flatSt, St.sym, symVar]

theorem flatSt_nil : flatSt [] = [] := rfl

theorem padL_all (p : Nat) (l : List Byte) (x : List St) : padL p (.all l :: x) = padL (p - l.length) x := by
  simp [padL, padAfter, St.all]

theorem padL_nil (p : Nat) : padL p [] = p := rfl

/-! ### Record headers -/

/-- The stores of an emission rule leave the bytes of the rule. -/
def EmitIs {σ : Type} (S : Nat) (emit : Emit σ) (e : EmitSt σ) : Prop :=
  ∀ fs sym count lits, sym.length = S → emit fs sym count lits = (e fs sym count lits).map (fun x => (flatSt x.1, x.2)) ∧
    ∀ x, e fs sym count lits = some x → Wide x.1 ∧ Narrow (symT S - S) x.1

theorem XCfg.cntSt_is (c : XCfg) {sym : List Byte} (last : List Byte) (count : Nat) (h : sym.length = c.S) :
    flatSt (c.cntSt last sym count) = c.cntBytes last sym count ∧ Wide (c.cntSt last sym count) ∧
      Narrow (symT c.S - c.S) (c.cntSt last sym count) := by
  unfold XCfg.cntSt XCfg.cntBytes
  refine ⟨?_, ?_, ?_⟩
  · split
    · rw [flatSt_append]
      congr 1
      · split <;> simp only [flatSt_all, flatSt_nil, List.append_nil, List.singleton_append]
      · split
        · rfl
        · rw [flatSt_sym h, flatSt_nil, List.append_nil]
    · rw [flatSt_sym h]
      split <;> simp only [flatSt_all, flatSt_nil, List.append_nil, List.singleton_append]
  · split
    · refine Wide.append ?_ ?_
      · split <;> simp only [wide_all, wide_nil]
      · split
        · exact wide_nil
        · exact wide_sym h wide_nil
    · refine wide_sym h ?_
      split <;> simp only [wide_all, wide_nil]
  · split
    · refine Narrow.append ?_ ?_
      · split <;> simp only [narrow_all, narrow_nil]
      · split
        · exact narrow_nil
        · exact narrow_sym h narrow_nil
    · refine narrow_sym h ?_
      split <;> simp only [narrow_all, narrow_nil]

theorem XCfg.emitSt_is (c : XCfg) : EmitIs c.S c.emit c.emitSt := by
  intro last sym count lits h
  obtain ⟨h1, h2, h3⟩ := c.cntSt_is last count h
  unfold XCfg.emit XCfg.emitSt
  by_cases hA : lits + 1 ≤ c.maxR ∧
      (if c.packed then (count ≥ c.short ∧ sym = last) ∨ count ≥ c.medium else count ≥ c.short)
  · rw [if_pos hA, if_pos hA]
    refine ⟨?_, fun x hx => ?_⟩
    · simp only [Option.map_some, flatSt_append, h1, flatSt_all, flatSt_nil, List.append_nil]
    · cases hx
      exact ⟨h2.append (wide_all _ wide_nil), h3.append (narrow_all _ narrow_nil)⟩
  · rw [if_neg hA, if_neg hA]
    by_cases hB : count ≥ c.long
    · rw [if_pos hB, if_pos hB]
      refine ⟨?_, fun x hx => ?_⟩
      · simp only [Option.map_some, flatSt_append, h1]
        split <;> simp only [flatSt_all, flatSt_nil, List.append_nil, List.singleton_append]
      · cases hx
        refine ⟨h2.append ?_, h3.append ?_⟩
        · split <;> simp only [wide_all, wide_nil]
        · split <;> simp only [narrow_all, narrow_nil]
    · rw [if_neg hB, if_neg hB]
      exact ⟨rfl, fun x hx => by cases hx⟩

theorem extSt_is (q t x : Nat) : flatSt (extSt t x) = extOf t x ∧ Wide (extSt t x) ∧ Narrow q (extSt t x) := by
  unfold extSt extOf
  split
  · exact ⟨rfl, wide_nil, narrow_nil⟩
  · split <;> exact ⟨by rw [flatSt_all, flatSt_nil, List.append_nil], wide_all _ wide_nil, narrow_all _ narrow_nil⟩

theorem SlCfg.emitSt_is (c : SlCfg) : EmitIs c.S c.emit c.emitSt := by
  intro lut sym count lits h
  obtain ⟨a1, a2, a3⟩ := extSt_is (symT c.S - c.S) 127 (c.stored count)
  obtain ⟨b1, b2, b3⟩ := extSt_is (symT c.S - c.S) c.tinyR (lits + 2)
  unfold SlCfg.emit SlCfg.emitSt
  dsimp only
  by_cases hc : count ≥ c.long ∨
      count ≥ 3 + (SlCfg.pen c.tinyR (lits + 2) + SlCfg.pen 127 (c.stored count) + (if lut.find sym = c.N then 1 else 0))
  · rw [if_pos hc, if_pos hc]
    refine ⟨?_, fun x hx => ?_⟩
    · simp only [Option.map_some, flatSt_all, flatSt_append, a1, b1, List.append_assoc]
      congr 3
      split
      · rw [flatSt_sym h, flatSt_nil, List.append_nil]
      · rfl
    · cases hx
      refine ⟨wide_all _ ((Wide.append ?_ a2).append b2), narrow_all _ ((Narrow.append ?_ a3).append b3)⟩
      · split
        · exact wide_sym h wide_nil
        · exact wide_nil
      · split
        · exact narrow_sym h narrow_nil
        · exact narrow_nil
  · rw [if_neg hc, if_neg hc]
    exact ⟨rfl, fun x hx => by cases hx⟩

theorem ShCfg.packSt_is (c : ShCfg) (q idx sc lits : Nat) :
    flatSt (c.packSt idx sc lits) = c.pack idx sc lits ∧ Wide (c.packSt idx sc lits) ∧ Narrow q (c.packSt idx sc lits) := by
  obtain ⟨a1, a2, a3⟩ := extSt_is q 511 sc
  obtain ⟨b1, b2, b3⟩ := extSt_is q c.tinyR (lits + 2)
  unfold ShCfg.packSt ShCfg.pack
  split
  · exact ⟨by rw [flatSt_all, flatSt_nil, List.append_nil], wide_all _ wide_nil, narrow_all _ narrow_nil⟩
  · refine ⟨?_, ?_, ?_⟩
    · simp only [flatSt_append, flatSt_all, a1, b1, List.cons_append, List.nil_append]
    · exact (Wide.append (wide_all _ (wide_all _ (wide_all _ wide_nil))) a2).append b2
    · exact (Narrow.append (narrow_all _ (narrow_all _ (narrow_all _ narrow_nil))) a3).append b3

theorem ShCfg.emitSt_is (c : ShCfg) : EmitIs c.S c.emit c.emitSt := by
  intro lut sym count lits h
  obtain ⟨a1, a2, a3⟩ := c.packSt_is (symT c.S - c.S) (lut.find sym) (c.stored count) lits
  unfold ShCfg.emit ShCfg.emitSt
  split
  · exact ⟨rfl, fun x hx => by cases hx⟩
  · split
    · refine ⟨?_, fun x hx => ?_⟩
      · simp only [Option.map_some, flatSt_append, a1]
        congr 3
        split
        · rw [flatSt_sym h, flatSt_nil, List.append_nil]
        · rfl
      · cases hx
        refine ⟨a2.append ?_, a3.append ?_⟩
        · split
          · exact wide_sym h wide_nil
          · exact wide_nil
        · split
          · exact narrow_sym h narrow_nil
          · exact narrow_nil
    · exact ⟨rfl, fun x hx => by cases hx⟩

/-- Stores that leave `b`, none wider than it should be. -/
def StIs (b : List Byte) (l : List St) : Prop := flatSt l = b ∧ Wide l ∧ Narrow 0 l

theorem StIs.nil : StIs [] [] := ⟨rfl, wide_nil, narrow_nil⟩

theorem StIs.all (b : List Byte) {b' : List Byte} {l : List St} (h : StIs b' l) : StIs (b ++ b') (.all b :: l) :=
  ⟨by rw [flatSt_all, h.1], wide_all _ h.2.1, narrow_all _ h.2.2⟩

theorem StIs.one (b : List Byte) : StIs b [.all b] := by
  have := StIs.nil.all b
  rwa [List.append_nil] at this

theorem StIs.append {b b' : List Byte} {l l' : List St} (h : StIs b l) (h' : StIs b' l') : StIs (b ++ b') (l ++ l') :=
  ⟨by rw [flatSt_append, h.1, h'.1], h.2.1.append h'.2.1, h.2.2.append h'.2.2⟩

theorem StIs.sym1 {b : List Byte} (h : b.length = 1) : StIs b [.sym 1 b] :=
  ⟨by rw [flatSt_sym h, flatSt_nil, List.append_nil], wide_sym h wide_nil, narrow_sym h narrow_nil⟩

theorem cnt8St_is (sc : Nat) : StIs (cnt8 sc) (cnt8St sc) := by
  unfold cnt8 cnt8St
  split
  · exact .one _
  · exact (StIs.one (le32 sc)).all [0]

theorem offL8St_is (lits : Nat) : StIs (offL8 lits) (offL8St lits) := (StIs.one (le32 (lits + 1))).all [0]

theorem off8St_is (lits : Nat) : StIs (off8 lits) (off8St lits) := by
  unfold off8 off8St
  split
  · exact .one _
  · exact offL8St_is lits

theorem off7St_is (lits : Nat) : StIs (off7 lits) (off7St lits) := by
  unfold off7 off7St
  split <;> exact .one _

theorem R8Cfg.forceSt_is (c : R8Cfg) (count lits : Nat) : StIs (c.force count lits) (c.forceSt count lits) :=
  (offL8St_is lits).all [b8 (c.stored count)]

theorem R8Cfg.pRecSt_is (c : R8Cfg) (last : List Byte) {sym : List Byte} (h : sym.length = 1) (count lits : Nat) :
    StIs (c.pRec last sym count lits) (c.pRecSt last sym count lits) := by
  unfold R8Cfg.pRec R8Cfg.pRecSt
  refine ((StIs.append ?_ ?_).append (off7St_is lits))
  · split
    · exact .one _
    · exact (StIs.one (le32 (c.stored count))).all [if sym = last then 128 else 0]
  · split
    · exact .nil
    · exact .sym1 h

theorem R8Cfg.pRecTSt_is (c : R8Cfg) {sym : List Byte} (h : sym.length = 1) (count lits : Nat) :
    StIs (c.pRecT sym count lits) (c.pRecTSt sym count lits) := by
  unfold R8Cfg.pRecT R8Cfg.pRecTSt
  refine ((StIs.append ?_ (.sym1 h)).append (off7St_is lits))
  split
  · exact .one _
  · exact (StIs.one (le32 (c.stored count))).all [0]

theorem R8Cfg.mRecSt_is (c : R8Cfg) {sym : List Byte} (h : sym.length = 1) (count lits : Nat) :
    StIs (c.mRec sym count lits) (c.mRecSt sym count lits) := by
  unfold R8Cfg.mRec R8Cfg.mRecSt
  have := ((StIs.sym1 h).append (cnt8St_is (c.stored count))).append (off8St_is lits)
  simpa using this

theorem some_is {σ : Type} {b : List Byte} {l : List St} (h : StIs b l) (fs : σ) :
    (some (b, fs) = (some (l, fs)).map fun x => (flatSt x.1, x.2)) ∧
      ∀ x : List St × σ, some (l, fs) = some x → Wide x.1 ∧ Narrow (symT 1 - 1) x.1 := by
  refine ⟨by rw [Option.map_some, h.1], fun x hx => ?_⟩
  cases hx
  exact h.2

theorem none_is {σ : Type} : ((none : Option (List Byte × σ)) = (none : Option (List St × σ)).map fun x => (flatSt x.1, x.2)) ∧
      ∀ x : List St × σ, none = some x → Wide x.1 ∧ Narrow (symT 1 - 1) x.1 :=
  ⟨rfl, fun x hx => by cases hx⟩

theorem R8Cfg.emitSt_is (c : R8Cfg) : EmitIs 1 c.emit c.emitSt := by
  intro fs sym count lits h
  unfold R8Cfg.emit R8Cfg.emitSt
  split
  · exact none_is
  · split
    · split
      · exact none_is
      · split
        · exact some_is ((cnt8St_is _).append (.one _)) fs
        · split
          · exact some_is ((cnt8St_is _).append (offL8St_is _)) fs
          · exact none_is
    · split
      · split
        · exact some_is (c.pRecSt_is fs.sym h count lits) _
        · exact none_is
      · split
        · exact some_is (c.mRecSt_is h count lits) _
        · exact none_is

theorem R8Cfg.emitTSt_is (c : R8Cfg) : EmitIs 1 c.emitT c.emitTSt := by
  intro fs sym count lits h
  unfold R8Cfg.emitT R8Cfg.emitTSt
  split
  · exact none_is
  · split
    · split
      · exact none_is
      · split
        · exact some_is ((cnt8St_is _).append (.one _)) fs
        · split
          · exact some_is ((cnt8St_is _).append (offL8St_is _)) fs
          · exact none_is
    · split
      · split
        · exact some_is (c.pRecTSt_is h count lits) _
        · exact none_is
      · split
        · exact some_is (c.mRecSt_is h count lits) _
        · exact none_is

/-! ### The loops -/

theorem stored_fst {α ρ : Type} (wr : α → List St) (step : α → α ⊕ Option ρ) : ∀ (f : Nat) (s : α) (w : Wr),
    (loop (stored wr step) f (s, w)).map (Option.map Prod.fst) = loop step f s := by
  intro f
  induction f with
  | zero => intro s w; rfl
  | succ f ih =>
    intro s w
    unfold loop stored
    dsimp only
    cases step s with
    | inl s' => exact ih s' _
    | inr r => cases r <;> rfl

theorem stored_total {α : Type} {wr : α → List St} {stepI : α → α ⊕ Option α} {step : α → α ⊕ α} (I Q : α → Prop) (μ : α → Nat)
    (out : α → List Byte) (m0 : Mem) (a p : Nat) (pre : List Byte)
    (h : ∀ s, I s → stepI s = (step s).map id some ∧ Post (step s) (fun s' => I s' ∧ μ s' < μ s) Q ∧ Wide (wr s) ∧ Narrow p (wr s) ∧
      Post (step s) (fun s' => out s' = out s ++ flatSt (wr s)) (fun s' => out s' = out s ++ flatSt (wr s))) (f : Nat) (s : α) (w : Wr)
    (hs : I s) (hf : μ s < f) (hw : Ext m0 a p (pre ++ out s) w) : ∃ r w', (loop stepI f s).join = some r ∧
      (loop (stored wr stepI) f (s, w)).join = some (r, w') ∧ Q r ∧ Ext m0 a p (pre ++ out r) w' := by
  have hstep : ∀ x : α × Wr, I x.1 ∧ Ext m0 a p (pre ++ out x.1) x.2 →
      Post (stored wr stepI x) (fun x' => (I x'.1 ∧ Ext m0 a p (pre ++ out x'.1) x'.2) ∧ μ x'.1 < μ x.1)
        (fun o => ∃ r w', o = some (r, w') ∧ Q r ∧ Ext m0 a p (pre ++ out r) w') := by
    rintro ⟨s, w⟩ ⟨hs, hw⟩
    obtain ⟨h1, h2, h3, h4, h5⟩ := h s hs
    have hE := (hw.put (wr s) h3).mono (h4.padL (Nat.le_refl p))
    unfold stored
    dsimp only
    rw [h1]
    cases hx : step s with
    | inl s' =>
      rw [hx] at h2 h5
      have h5 : out s' = out s ++ flatSt (wr s) := h5
      refine ⟨⟨h2.1, ?_⟩, h2.2⟩
      show Ext m0 a p (pre ++ out s') (w.put (wr s))
      rw [h5, ← List.append_assoc]
      exact hE
    | inr s' =>
      rw [hx] at h2 h5
      have h5 : out s' = out s ++ flatSt (wr s) := h5
      refine ⟨s', w.put (wr s), rfl, h2, ?_⟩
      rw [h5, ← List.append_assoc]
      exact hE
  obtain ⟨o, h1, r, w', rfl, h3, h4⟩ := loop_rule (body := stored wr stepI) (fun x => I x.1 ∧ Ext m0 a p (pre ++ out x.1) x.2)
    (fun o => ∃ r w', o = some (r, w') ∧ Q r ∧ Ext m0 a p (pre ++ out r) w') (fun x => μ x.1) hstep f (s, w) ⟨hs, hw⟩ hf
  refine ⟨r, w', ?_, by rw [h1]; rfl, h3, h4⟩
  rw [← stored_fst wr stepI f s w, h1]
  rfl

section
variable {σ : Type} {S : Nat} {emit emitT : Emit σ} {e eT : EmitSt σ}

theorem emitWr_is (he : EmitIs S emit e) (inp : Mem) (s : ES σ) (h : s.sym.length = S) :
    (doEmit emit inp s).out = s.out ++ flatSt (emitWr e inp s) ∧ Wide (emitWr e inp s) ∧ Narrow (symT S - S) (emitWr e inp s) := by
  obtain ⟨h1, h2⟩ := he s.fs s.sym s.count (s.i - s.count - s.lastRLE) h
  unfold doEmit emitWr
  cases hx : e s.fs s.sym s.count (s.i - s.count - s.lastRLE) with
  | none =>
    rw [h1, hx]
    exact ⟨by simp [flatSt_nil], wide_nil, narrow_nil⟩
  | some x =>
    obtain ⟨w2, n2⟩ := h2 x hx
    rw [h1, hx]
    refine ⟨?_, w2.append (wide_all _ wide_nil), n2.append (narrow_all _ narrow_nil)⟩
    simp [flatSt_append, flatSt_all, flatSt_nil]

theorem endWr_is (he : EmitIs S emit e) {endRun : List Byte} {endLit : Nat → List Byte} {eR : List St} {eL : Nat → List St}
    (hR : flatSt eR = endRun ∧ Wide eR) (hL : ∀ k, flatSt (eL k) = endLit k ∧ Wide (eL k)) (inp : Mem) (s : ES σ) (h : s.sym.length = S) :
    finish emit endRun endLit inp s = s.out ++ flatSt (endWr e eR eL inp s) ∧ Wide (endWr e eR eL inp s) := by
  obtain ⟨h1, h2⟩ := he s.fs s.sym s.count (s.i - s.count - s.lastRLE) h
  unfold finish endWr
  cases hx : e s.fs s.sym s.count (s.i - s.count - s.lastRLE) with
  | none =>
    rw [h1, hx]
    refine ⟨?_, (hL _).2.append (wide_all _ wide_nil)⟩
    simp [flatSt_append, flatSt_all, flatSt_nil, (hL _).1]
  | some x =>
    rw [h1, hx]
    refine ⟨?_, ((h2 x hx).1.append (wide_all _ wide_nil)).append hR.2⟩
    simp [flatSt_append, flatSt_all, hR.1]

/-- If nothing of the terminators is left behind `index`, nothing is left of the whole. -/
theorem endWr_pad (he : EmitIs S emit e) {eR : List St} {eL : Nat → List St} {q : Nat} (inp : Mem) (s : ES σ) (h : s.sym.length = S)
    (hR : ∀ p, p ≤ symT S - S → padL p eR ≤ q)
    (hL : ∀ p, p ≤ symT S - S → padL p (eL (s.i - s.lastRLE)) - (s.i - s.lastRLE) ≤ q) : padL (symT S - S) (endWr e eR eL inp s) ≤ q := by
  obtain ⟨_, h2⟩ := he s.fs s.sym s.count (s.i - s.count - s.lastRLE) h
  unfold endWr
  cases hx : e s.fs s.sym s.count (s.i - s.count - s.lastRLE) with
  | none =>
    dsimp only
    rw [padL_append, padL_all, padL_nil]
    simpa using hL _ (Nat.le_refl _)
  | some x =>
    dsimp only
    rw [padL_append]
    exact hR _ (((h2 x hx).2.append (narrow_all _ narrow_nil)).padL (Nat.le_refl _))

theorem wrX_is (he : EmitIs S emit e) (inp : Mem) (s : ES σ) (h : s.sym.length = S) :
    Wide (wrX e inp s) ∧ Narrow (symT S - S) (wrX e inp s) := by
  unfold wrX
  split
  · exact (emitWr_is he inp s h).2
  · exact ⟨wide_nil, narrow_nil⟩

theorem stepX_out (he : EmitIs S emit e) (W : Nat) (unb : Bool) (inp : Mem) (n : Nat) (s : ES σ) (h : s.sym.length = S) :
    Post (stepX emit S W unb inp n s) (fun s' => s'.out = s.out ++ flatSt (wrX e inp s)) (fun s' => s'.out = s.out ++ flatSt (wrX e inp s)) := by
  have h0 := (emitWr_is he inp s h).1
  unfold wrX stepX
  cases hpc : s.pc with
  | second => exact h0
  | top => rw [if_neg (show ¬ PC.top = PC.second by simp)]; dsimp only; split <;> simp [flatSt_nil]
  | ext => rw [if_neg (show ¬ PC.ext = PC.second by simp)]; dsimp only; (repeat' split) <;> simp [flatSt_nil]
  | scal => rw [if_neg (show ¬ PC.scal = PC.second by simp)]; dsimp only; (repeat' split) <;> simp [flatSt_nil]
  | search => rw [if_neg (show ¬ PC.search = PC.second by simp)]; dsimp only; (repeat' split) <;> simp [flatSt_nil]
  | sscan => rw [if_neg (show ¬ PC.sscan = PC.second by simp)]; dsimp only; split <;> simp [flatSt_nil]

theorem step128_out (he : EmitIs 16 emit e) (unb : Bool) (inp : Mem) (n : Nat) (s : ES σ) (h : s.sym.length = 16) :
    Post (step128 emit unb inp n s) (fun s' => s'.out = s.out ++ flatSt (wrX e inp s)) (fun s' => s'.out = s.out ++ flatSt (wrX e inp s)) := by
  have h0 := (emitWr_is he inp s h).1
  unfold wrX step128
  cases hpc : s.pc with
  | second => exact h0
  | top => rw [if_neg (show ¬ PC.top = PC.second by simp)]; dsimp only; split <;> simp [flatSt_nil]
  | ext => rw [if_neg (show ¬ PC.ext = PC.second by simp)]; dsimp only; (repeat' split) <;> simp [flatSt_nil]
  | scal => rw [if_neg (show ¬ PC.scal = PC.second by simp)]; simp [flatSt_nil]
  | search => rw [if_neg (show ¬ PC.search = PC.second by simp)]; dsimp only; (repeat' split) <;> simp [flatSt_nil]
  | sscan => rw [if_neg (show ¬ PC.sscan = PC.second by simp)]; dsimp only; split <;> simp [flatSt_nil]

theorem wr8_is (he : EmitIs 1 emit e) (heT : EmitIs 1 emitT eT) (inp : Mem) (n : Nat) (s : ES σ) (h : s.sym.length = 1) :
    Wide (wr8 e eT inp n s) ∧ Narrow 0 (wr8 e eT inp n s) := by
  unfold wr8
  split
  · exact (emitWr_is he inp s h).2
  · split
    · exact (emitWr_is heT inp s h).2
    · exact ⟨wide_nil, narrow_nil⟩
  · exact ⟨wide_nil, narrow_nil⟩

theorem step8_out (he : EmitIs 1 emit e) (heT : EmitIs 1 emitT eT) (W : Nat) (inp : Mem) (n : Nat) (s : ES σ) (h : s.sym.length = 1) :
    Post (step8 emit emitT W inp n s) (fun s' => s'.out = s.out ++ flatSt (wr8 e eT inp n s))
      (fun s' => s'.out = s.out ++ flatSt (wr8 e eT inp n s)) := by
  have h0 := (emitWr_is he inp s h).1
  have h1 := (emitWr_is heT inp s h).1
  unfold wr8 step8
  cases hpc : s.pc with
  | second => exact h0
  | top => dsimp only; split <;> simp [flatSt_nil]
  | ext => dsimp only; repeat' split
           all_goals simp [flatSt_nil]
  | scal =>
    dsimp only
    by_cases hi : s.i < n
    · rw [if_pos hi]
      by_cases hb : rd inp s.i 1 = s.sym
      · rw [if_pos hb, if_neg (fun x => x.2 hb)]
        simp [flatSt_nil]
      · rw [if_neg hb, if_pos ⟨hi, hb⟩]
        exact h1
    · rw [if_neg hi, if_neg (fun x => hi x.1)]
      simp [flatSt_nil]
  | search => dsimp only; repeat' split
              all_goals simp [flatSt_nil]
  | sscan => simp [flatSt_nil]

theorem stepS8_out (he : EmitIs 1 emit e) (minR : Nat) (inp : Mem) (n : Nat) (s : ES σ) (h : s.sym.length = 1) :
    Post (stepS8 emit minR inp n s) (fun s' => s'.out = s.out ++ flatSt (wr8 e e inp n s))
      (fun s' => s'.out = s.out ++ flatSt (wr8 e e inp n s)) := by
  have h0 := (emitWr_is he inp s h).1
  unfold wr8 stepS8
  cases hpc : s.pc with
  | second => exact h0
  | top => dsimp only; split <;> simp [flatSt_nil]
  | ext => dsimp only; repeat' split
           all_goals simp [flatSt_nil]
  | scal =>
    dsimp only
    by_cases hi : s.i < n
    · rw [if_pos hi]
      by_cases hb : rd inp s.i 1 = s.sym
      · rw [if_pos hb, if_neg (fun x => x.2 hb)]
        simp [flatSt_nil]
      · rw [if_neg hb, if_pos ⟨hi, hb⟩]
        exact h0
    · rw [if_neg hi, if_neg (fun x => hi x.1)]
      simp [flatSt_nil]
  | search => dsimp only; repeat' split
              all_goals simp [flatSt_nil]
  | sscan => simp [flatSt_nil]

theorem wrW_is (he : EmitIs 1 emit e) (heT : EmitIs 1 emitT eT) {force : Nat → Nat → List Byte} {forceSt : Nat → Nat → List St}
    (hF : ∀ c l, StIs (force c l) (forceSt c l)) (short : Nat) (inp : Mem) (n : Nat) (w : WS σ) (h : w.es.sym.length = 1) :
    Wide (wrW e eT forceSt short inp n w) ∧ Narrow 0 (wrW e eT forceSt short inp n w) := by
  unfold wrW
  split
  · split
    · split
      · exact (emitWr_is he inp w.es h).2
      · split
        · exact ⟨wide_nil, narrow_nil⟩
        · split
          · exact ⟨(hF _ _).2.1.append (wide_all _ wide_nil), (hF _ _).2.2.append (narrow_all _ narrow_nil)⟩
          · exact ⟨wide_nil, narrow_nil⟩
    · exact ⟨wide_nil, narrow_nil⟩
  · exact wr8_is heT heT inp n w.es h

theorem stepW_out (he : EmitIs 1 emit e) (heT : EmitIs 1 emitT eT) {force : Nat → Nat → List Byte} {forceSt : Nat → Nat → List St}
    (hF : ∀ c l, StIs (force c l) (forceSt c l)) (short : Nat) (inp : Mem) (n : Nat) (w : WS σ) (h : w.es.sym.length = 1) :
    Post (stepW emit emitT force short inp n w) (fun w' => w'.es.out = w.es.out ++ flatSt (wrW e eT forceSt short inp n w))
      (fun w' => w'.es.out = w.es.out ++ flatSt (wrW e eT forceSt short inp n w)) := by
  have h0 := (emitWr_is he inp w.es h).1
  have h1 := (he w.es.fs w.es.sym w.es.count (w.es.i - w.es.count - w.es.lastRLE) h).1
  unfold wrW stepW
  by_cases hp : w.es.pc = .second
  · rw [if_pos hp, if_pos hp]
    show (second emit force short inp n w).es.out = _
    unfold second
    by_cases hc : w.es.count ≥ short
    · rw [if_pos hc, if_pos hc, h1]
      cases hx : e w.es.fs w.es.sym w.es.count (w.es.i - w.es.count - w.es.lastRLE) with
      | some x => exact h0
      | none =>
        dsimp only [Option.map_none]
        unfold wasted
        split
        · simp [flatSt_nil]
        · split
          · simp [replay, flatSt_append, (hF _ _).1, flatSt_all, flatSt_nil]
          · simp [flatSt_nil]
    · rw [if_neg hc, if_neg hc]
      simp [flatSt_nil]
  · rw [if_neg hp, if_neg hp]
    have := stepS8_out heT short inp n w.es h
    cases hx : stepS8 emitT short inp n w.es with
    | inl s => rw [hx] at this; exact this
    | inr s => rw [hx] at this; exact this

theorem stepG_out {emit : Emit Lut} {e : EmitSt Lut} (he : EmitIs S emit e) (inp : Mem) (n : Nat) (s : ES Lut) (h : s.sym.length = S) :
    Post (stepG emit S inp n s) (fun s' => s'.out = s.out ++ flatSt (wrX e inp s)) (fun s' => s'.out = s.out ++ flatSt (wrX e inp s)) := by
  have h0 := (emitWr_is he inp s h).1
  unfold wrX stepG
  cases hpc : s.pc with
  | second => exact h0
  | top => rw [if_neg (show ¬ PC.top = PC.second by simp)]; dsimp only; (repeat' split) <;> simp [flatSt_nil]
  | ext => rw [if_neg (show ¬ PC.ext = PC.second by simp)]; simp [flatSt_nil]
  | scal => rw [if_neg (show ¬ PC.scal = PC.second by simp)]; simp [flatSt_nil]
  | search => rw [if_neg (show ¬ PC.search = PC.second by simp)]; simp [flatSt_nil]
  | sscan => rw [if_neg (show ¬ PC.sscan = PC.second by simp)]; dsimp only; (repeat' split) <;> simp [flatSt_nil]

/-- Behind the start of the loop there are literals left. -/
def Far (s : ES σ) : Prop := s.pc ≠ .search → s.pc ≠ .sscan → s.lastRLE < s.i ∨ s.i = 0

theorem stepX_far {W : Nat} {unb : Bool} {inp : Mem} {n : Nat} (hS : 0 < S) (s : ES σ) (hl : s.lastRLE ≤ s.i) (h : Far s) :
    Post (stepX emit S W unb inp n s) Far Far := by
  unfold stepX
  cases hpc : s.pc with
  | second => intro hc; exact absurd rfl hc
  | top =>
    have := h (by rw [hpc]; simp) (by rw [hpc]; simp)
    dsimp only
    split <;> exact fun _ _ => this
  | ext =>
    have := h (by rw [hpc]; simp) (by rw [hpc]; simp)
    dsimp only
    repeat' split
    all_goals (intro _ _; dsimp only; omega)
  | scal =>
    have := h (by rw [hpc]; simp) (by rw [hpc]; simp)
    dsimp only
    repeat' split
    all_goals (intro _ _; dsimp only; omega)
  | search =>
    dsimp only
    repeat' split
    · intro hc; exact absurd rfl hc
    · intro _ _; dsimp only; omega
    · intro _ hc; exact absurd rfl hc
  | sscan =>
    dsimp only
    split
    all_goals (intro _ _; dsimp only; omega)

end

end Hrk
