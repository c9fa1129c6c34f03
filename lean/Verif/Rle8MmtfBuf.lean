import Verif.Rle8MmtfApi

/-
What `rle8_mmtf128_compress` writes does not depend on what the output buffer held before.
-/

namespace Hrk

/-- Two buffers agree on the addresses in `S`, and the same part of both has been written. -/
def Agree (b b' : Buf) (S : Nat → Prop) : Prop := b.hi = b'.hi ∧ ∀ k, S k → b.m k = b'.m k

theorem Agree.put {b b' : Buf} {S T : Nat → Prop} (h : Agree b b' S) (a : Nat) (l : List Byte)
    (hT : ∀ k, T k → S k ∨ (a ≤ k ∧ k < a + l.length)) : Agree (b.put a l) (b'.put a l) T := by
  refine ⟨?_, ?_⟩
  · simp only [Buf.put, h.1]
  · intro k hk
    simp only [Buf.put, wrL]
    by_cases hw : a ≤ k ∧ k < a + l.length
    · rw [if_pos hw, if_pos hw]
    · rw [if_neg hw, if_neg hw]
      rcases hT k hk with h1 | h1
      · exact h.2 k h1
      · exact absurd h1 hw

theorem Agree.mono {b b' : Buf} {S T : Nat → Prop} (h : Agree b b' S) (hT : ∀ k, T k → S k) : Agree b b' T :=
  ⟨h.1, fun k hk => h.2 k (hT k hk)⟩

theorem Agree.rd {b b' : Buf} {S : Nat → Prop} (h : Agree b b' S) {a n : Nat} (hS : ∀ k, a ≤ k → k < a + n → S k) :
    rd b.m a n = rd b'.m a n := rd_congr fun j h1 h2 => h.2 j (hS j h1 h2)

/-- Everything below `wp` but the place of the compressed size, and everything from `rp` to `E`. -/
def Part (wp rp E : Nat) (k : Nat) : Prop := (k < wp ∧ (k < 4 ∨ 8 ≤ k)) ∨ (rp ≤ k ∧ k < E)

theorem ipWhile_agree {lim k d : Nat} {f : List Byte → List Byte} (hk : (lim = k ∨ (lim = 1 ∧ k = 16)) ∧ k % 16 = 0)
    (hf : ∀ l : List Byte, l.length = k → (f l).length = d) {E : Nat} : ∀ (fuel : Nat) (b b' : Buf) (rp wp left : Nat),
    rp + left = E → left % 16 = 0 → Agree b b' (Part wp rp E) →
    ∃ c c' rp' wp' left', ipWhile lim k d f fuel (b, rp, wp, left) = (c, rp', wp', left') ∧
      ipWhile lim k d f fuel (b', rp, wp, left) = (c', rp', wp', left') ∧ rp' + left' = E ∧ left' % 16 = 0 ∧
      wp ≤ wp' ∧ Agree c c' (Part wp' rp' E) := by
  intro fuel
  induction fuel with
  | zero => intro b b' rp wp left h1 h2 h3; exact ⟨b, b', rp, wp, left, rfl, rfl, h1, h2, Nat.le_refl _, h3⟩
  | succ fuel ih =>
    intro b b' rp wp left h1 h2 h3
    unfold ipWhile
    by_cases hl : lim ≤ left
    · rw [if_pos hl, if_pos hl]
      have hkl : k ≤ left := by omega
      have hr : rd b.m rp k = rd b'.m rp k := h3.rd fun j g1 g2 => Or.inr ⟨g1, by omega⟩
      rw [hr]
      have hp : Agree (b.put wp (f (rd b'.m rp k))) (b'.put wp (f (rd b'.m rp k))) (Part (wp + d) (rp + k) E) := by
        refine h3.put _ _ ?_
        rw [hf _ (rd_length _ _ _)]
        unfold Part
        intro j hj
        omega
      obtain ⟨c, c', r1, w1, l1, e1, e2, g1, g2, g3, g4⟩ := ih _ _ (rp + k) (wp + d) (left - k) (by omega) (by omega) hp
      exact ⟨c, c', r1, w1, l1, e1, e2, g1, g2, by omega, g4⟩
    · rw [if_neg hl, if_neg hl]
      exact ⟨b, b', rp, wp, left, rfl, rfl, h1, h2, Nat.le_refl _, h3⟩

/-- The agreement after a section has been packed up to `c.2`. -/
def BufClosed (c c' : Buf × Nat) : Prop := c.2 = c'.2 ∧ 8 ≤ c.2 ∧ Agree c.1 c'.1 (Part c.2 0 0)

theorem Part.closed {wp rp E k : Nat} (h : Part wp 0 0 k) : Part wp rp E k := by
  unfold Part at *; omega

theorem ipEnc2_agree {b b' : Buf} {rp wp size : Nat} (h8 : 8 ≤ wp) (hs : size % 16 = 0) (h : Agree b b' (Part wp rp (rp + size))) :
    BufClosed (ipEnc2 b rp wp size) (ipEnc2 b' rp wp size) := by
  unfold ipEnc2 ipFor
  obtain ⟨c, c', r1, w1, l1, e1, e2, g1, g2, g0, g3⟩ := ipWhile_agree (lim := 64) (k := 64) (d := 16) (f := pack2x4) (by omega)
    (fun l _ => pack2x4_length l) size b b' rp wp size rfl hs h
  simp only
  rw [e1, e2]
  obtain ⟨d, d', r2, w2, l2, e3, e4, g4, g5, g7, g6⟩ := ipWhile_agree (lim := 1) (k := 16) (d := 4) (f := pack2Le 4) (by omega)
    (fun l _ => pack2Le_length 4 l) l1 c c' r1 w1 l1 g1 g2 g3
  simp only
  rw [e3, e4]
  exact ⟨rfl, Nat.le_trans h8 (Nat.le_trans g0 g7), g6.mono fun k hk => hk.closed⟩

theorem ipEnc3_agree {b b' : Buf} {rp wp size : Nat} (h8 : 8 ≤ wp) (hs : size % 16 = 0) (h : Agree b b' (Part wp rp (rp + size))) :
    BufClosed (ipEnc3 b rp wp size) (ipEnc3 b' rp wp size) := by
  unfold ipEnc3 ipFor
  obtain ⟨c, c', r1, w1, l1, e1, e2, g1, g2, g0, g3⟩ := ipWhile_agree (lim := 96) (k := 96) (d := 36) (f := pack3x6) (by omega)
    (fun l _ => pack3x6_length l) size b b' rp wp size rfl hs h
  simp only
  rw [e1, e2]
  obtain ⟨d, d', r2, w2, l2, e3, e4, g4, g5, g7, g6⟩ := ipWhile_agree (lim := 1) (k := 16) (d := 6) (f := pack3x1) (by omega)
    (fun l _ => pack3x1_length l) l1 c c' r1 w1 l1 g1 g2 g3
  simp only
  rw [e3, e4]
  exact ⟨rfl, Nat.le_trans h8 (Nat.le_trans g0 g7), g6.mono fun k hk => hk.closed⟩

theorem ipEnc4_agree {b b' : Buf} {rp wp size : Nat} (h8 : 8 ≤ wp) (hs : size % 16 = 0) (h : Agree b b' (Part wp rp (rp + size))) :
    BufClosed (ipEnc4 b rp wp size) (ipEnc4 b' rp wp size) := by
  unfold ipEnc4 ipFor
  obtain ⟨c, c', r1, w1, l1, e1, e2, g1, g2, g0, g3⟩ := ipWhile_agree (lim := 32) (k := 32) (d := 16) (f := pack4x2) (by omega)
    (fun l _ => pack4x2_length l) size b b' rp wp size rfl hs h
  simp only
  rw [e1, e2]
  simp only
  by_cases hl : 1 ≤ l1
  · rw [if_pos hl, if_pos hl]
    have hr : rd c.m r1 16 = rd c'.m r1 16 := g3.rd fun j k1 k2 => Or.inr ⟨k1, by omega⟩
    rw [hr]
    refine ⟨rfl, Nat.le_trans (Nat.le_trans h8 g0) (Nat.le_add_right _ _), g3.put _ _ ?_⟩
    rw [pack4x1_length]
    unfold Part
    intro j hj
    omega
  · rw [if_neg hl, if_neg hl]
    exact ⟨rfl, Nat.le_trans h8 g0, g3.mono fun k hk => hk.closed⟩

theorem ipMove_agree {b b' : Buf} {rp wp size : Nat} (h8 : 8 ≤ wp) (hs : size % 16 = 0) (h : Agree b b' (Part wp rp (rp + size))) :
    BufClosed (ipMove b rp wp size) (ipMove b' rp wp size) := by
  unfold ipMove ipFor
  obtain ⟨c, c', r1, w1, l1, e1, e2, g1, g2, g0, g3⟩ := ipWhile_agree (lim := 1) (k := 16) (d := 16) (f := id) (by omega)
    (fun l h => h) size b b' rp wp size rfl hs h
  simp only
  rw [e1, e2]
  exact ⟨rfl, Nat.le_trans h8 g0, g3.mono fun k hk => hk.closed⟩

/-- Where `ipMove` ends. -/
theorem ipMove_end (b : Buf) (rp wp : Nat) : ∀ k, (ipMove b rp wp (k * 16)).2 = wp + 16 * k := by
  have key : ∀ (k fuel : Nat) (b : Buf) (rp wp : Nat), k * 16 ≤ fuel →
      (ipWhile 1 16 16 id fuel (b, rp, wp, k * 16)).2.2.1 = wp + 16 * k := by
    intro k
    induction k with
    | zero =>
      intro fuel b rp wp _
      cases fuel with
      | zero => rfl
      | succ f => unfold ipWhile; rw [if_neg (by omega)]; rfl
    | succ k ih =>
      intro fuel b rp wp hf
      obtain ⟨f, rfl⟩ : ∃ f, fuel = f + 1 := ⟨fuel - 1, by omega⟩
      unfold ipWhile
      rw [if_pos (by omega), show (k + 1) * 16 - 16 = k * 16 by omega, ih f _ _ _ (by omega)]
      omega
  intro k
  exact key k (k * 16) b rp wp (Nat.le_refl _)

theorem closeCopy_agree {b b' : Buf} {last count : Nat} {mask : Vec} (h8 : 8 ≤ last)
    (h : Agree b b' (Part last (last + 4) (last + 4 + count * 16))) :
    BufClosed (closeCopy b last (last + 4 + 16 * count) count mask) (closeCopy b' last (last + 4 + 16 * count) count mask) := by
  have hs : count * 16 % 16 = 0 := Nat.mul_mod_left _ _
  have two : ∀ (x y : List Byte) (wp : Nat), (last + 1 ≤ wp ∧ wp ≤ last + x.length) → (wp ≤ last + 4) →
      Agree ((b.put last x).put last y) ((b'.put last x).put last y) (Part wp (last + 4) (last + 4 + count * 16)) := by
    intro x y wp h1 h2
    refine (h.put (T := Part wp (last + 4) (last + 4 + count * 16)) last x ?_).put last y (fun k hk => Or.inl hk)
    unfold Part
    intro j hj
    omega
  have one : ∀ (x : List Byte) (wp : Nat), (last + 1 ≤ wp ∧ wp ≤ last + x.length) → (wp ≤ last + 4) →
      Agree (b.put last x) (b'.put last x) (Part wp (last + 4) (last + 4 + count * 16)) := by
    intro x wp h1 h2
    refine h.put last x ?_
    unfold Part
    intro j hj
    omega
  unfold closeCopy
  by_cases hc : count < 32
  · rw [if_pos hc, if_pos hc]
    by_cases h1 : noneAbove 0xF0 mask = true
    · rw [if_pos h1, if_pos h1]
      by_cases h2 : noneAbove 0xFC mask = true
      · rw [if_pos h2, if_pos h2]
        exact ipEnc2_agree (by omega) hs (two _ _ _ (by simp) (by omega))
      · rw [if_neg h2, if_neg h2]
        by_cases h3 : noneAbove 0xF8 mask = true
        · rw [if_pos h3, if_pos h3]
          exact ipEnc3_agree (by omega) hs (two _ _ _ (by simp) (by omega))
        · rw [if_neg h3, if_neg h3]
          exact ipEnc4_agree (by omega) hs (two _ _ _ (by simp) (by omega))
    · rw [if_neg h1, if_neg h1]
      have hm := ipMove_agree (wp := last + 1) (by omega) hs (one [b8 (count <<< 3)] _ (by simp) (by omega))
      have he := ipMove_end (b.put last [b8 (count <<< 3)]) (last + 4) (last + 1) count
      refine ⟨rfl, by show 8 ≤ last + 4 + 16 * count - 3; omega, ?_⟩
      have h2 := hm.2.2
      rw [he] at h2
      rw [show last + 4 + 16 * count - 3 = last + 1 + 16 * count by omega]
      exact h2
  · rw [if_neg hc, if_neg hc]
    by_cases h1 : noneAbove 0xF0 mask = true
    · rw [if_pos h1, if_pos h1]
      by_cases h2 : noneAbove 0xFC mask = true
      · rw [if_pos h2, if_pos h2]
        exact ipEnc2_agree (by omega) hs (two _ _ _ (by simp) (by omega))
      · rw [if_neg h2, if_neg h2]
        by_cases h3 : noneAbove 0xF8 mask = true
        · rw [if_pos h3, if_pos h3]
          exact ipEnc3_agree (by omega) hs (two _ _ _ (by simp) (by omega))
        · rw [if_neg h3, if_neg h3]
          exact ipEnc4_agree (by omega) hs (two _ _ _ (by simp) (by omega))
    · rw [if_neg h1, if_neg h1]
      refine ⟨rfl, by show 8 ≤ last + 4 + 16 * count; omega, (one (le32 ((count <<< 3) ||| 1)) (last + 4) (by simp) (by omega)).mono ?_⟩
      unfold Part
      intro j hj
      omega

theorem closeRle_agree {b b' : Buf} {last count : Nat} {x : Byte} (h8 : 8 ≤ last) (h : Agree b b' (Part last 0 0)) :
    BufClosed (closeRle b last count x) (closeRle b' last count x) := by
  unfold closeRle
  split
  · refine ⟨rfl, by show 8 ≤ last + 2; omega, (h.put (T := Part (last + 1) 0 0) _ _ ?_).put _ _ ?_⟩
    · unfold Part; intro j hj; simp; omega
    · unfold Part; intro j hj; simp; omega
  · refine ⟨rfl, by show 8 ≤ last + 5; omega, (h.put (T := Part (last + 4) 0 0) _ _ ?_).put _ _ ?_⟩
    · unfold Part; intro j hj; simp; omega
    · unfold Part; intro j hj; simp; omega

/-- Two states of the compression loop that differ only in what has not been written. -/
structure EAgree (s s' : MEnc) : Prop where
  hist : s.hist = s'.hist
  pOut : s.pOut = s'.pOut
  last : s.last = s'.last
  count : s.count = s'.count
  copying : s.copying = s'.copying
  symbol : s.symbol = s'.symbol
  mask : s.mask = s'.mask
  eight : 8 ≤ s.last
  copy : s.copying = true → s.pOut = s.last + 4 + 16 * s.count ∧ Agree s.b s'.b (Part s.last (s.last + 4) (s.last + 4 + s.count * 16))
  rle : s.copying = false → Agree s.b s'.b (Part s.last 0 0)

theorem EAgree.close {s s' : MEnc} (h : EAgree s s') (hc : s.copying = true) :
    BufClosed (closeCopy s.b s.last s.pOut s.count s.mask) (closeCopy s'.b s'.last s'.pOut s'.count s'.mask) := by
  obtain ⟨h1, h2⟩ := h.copy hc
  rw [← h.last, ← h.pOut, ← h.count, ← h.mask, h1]
  exact closeCopy_agree h.eight h2

theorem EAgree.closeR {s s' : MEnc} (h : EAgree s s') (hc : s.copying = false) :
    BufClosed (closeRle s.b s.last s.count s.symbol) (closeRle s'.b s'.last s'.count s'.symbol) := by
  rw [← h.last, ← h.count, ← h.symbol]
  exact closeRle_agree h.eight (h.rle hc)

theorem meOut_agree {s s' : MEnc} (h : EAgree s s') (hh : Nat → Vec) {o : List Byte} (ho : o.length = 16) :
    EAgree (meOut s hh o) (meOut s' hh o) := by
  unfold meOut
  rw [← h.copying, ← h.symbol]
  by_cases hc : s.copying = true
  · rw [if_pos hc, if_pos hc]
    by_cases he : allEq (o.getD 0 0) (vload o) = true
    · rw [if_pos he, if_pos he]
      obtain ⟨c1, c2, c3⟩ := h.close hc
      exact ⟨rfl, c1, c1, rfl, rfl, rfl, h.mask, c2, (fun e => by cases e), fun _ => c3⟩
    · rw [if_neg he, if_neg he]
      obtain ⟨g1, g2⟩ := h.copy hc
      refine ⟨rfl, by simp only [h.pOut], h.last, by simp only [h.count], rfl, rfl, by simp only [h.mask], h.eight, ?_, ?_⟩
      · intro _
        refine ⟨by simp only; omega, ?_⟩
        simp only
        rw [← h.pOut]
        refine g2.put _ _ ?_
        unfold Part
        intro j hj
        omega
      · intro e
        rw [show ({ s with hist := hh, mask := vor s.mask (vload o), count := s.count + 1, b := s.b.put s.pOut o, pOut := s.pOut + 16 } : MEnc).copying = s.copying from rfl, hc] at e
        cases e
  · have hc' : s.copying = false := by simpa using hc
    rw [if_neg hc, if_neg hc]
    by_cases he : allEq s.symbol (vload o) = true
    · rw [if_pos he, if_pos he]
      refine ⟨rfl, h.pOut, h.last, by simp only [h.count], rfl, rfl, h.mask, h.eight, fun e => absurd e hc, fun _ => h.rle hc'⟩
    · rw [if_neg he, if_neg he]
      obtain ⟨c1, c2, c3⟩ := h.closeR hc'
      rw [h.symbol] at c1 c2 c3 ⊢
      simp only
      by_cases he2 : allEq (o.getD 0 0) (vload o) = true
      · rw [if_pos he2, if_pos he2]
        refine ⟨rfl, by simp only [c1], by simp only [c1], rfl, rfl, rfl, h.mask, by simp only; omega, fun e => absurd e hc, ?_⟩
        intro _
        simp only
        rw [← c1]
        refine c3.put _ _ ?_
        unfold Part
        intro j hj
        simp
        omega
      · rw [if_neg he2, if_neg he2]
        refine ⟨rfl, by simp only [c1], c1, rfl, rfl, rfl, rfl, c2, ?_, fun e => by cases e⟩
        intro _
        refine ⟨rfl, ?_⟩
        simp only
        rw [← c1]
        refine c3.put _ _ ?_
        unfold Part
        intro j hj
        omega

theorem meLoop_agree {inp : Mem} : ∀ (k i : Nat) (s s' : MEnc), HGood s.hist → EAgree s s' →
    match meLoop inp i k s, meLoop inp i k s' with
    | none, none => True
    | some t, some t' => EAgree t t'
    | _, _ => False := by
  intro k
  induction k with
  | zero => intro i s s' _ h; exact h
  | succ k ih =>
    intro i s s' hg h
    unfold meLoop
    rw [← h.hist]
    obtain ⟨hh, o, hb, ho, hg', _⟩ := block_rt hg (rd_length inp (16 * i) 16)
    rw [hb]
    refine ih (i + 1) _ _ ?_ (meOut_agree h hh ho)
    have e : ∀ s : MEnc, (meOut s hh o).hist = hh := by
      intro s
      unfold meOut
      split <;> split <;> simp only
      split <;> rfl
    rw [e]
    exact hg'

theorem meFinish_agree {s s' : MEnc} (h : EAgree s s') (tail : List Byte) :
    (meFinish s tail).2 = (meFinish s' tail).2 ∧ (meFinish s tail).1.hi = (meFinish s' tail).1.hi ∧
      rd (meFinish s tail).1.m 0 (meFinish s tail).2 = rd (meFinish s' tail).1.m 0 (meFinish s' tail).2 := by
  have fin : ∀ (c c' : Buf × Nat), BufClosed c c' → ∀ t : List Byte,
      let x := (c.1.put c.2 t).put 4 (le32 (c.2 + t.length))
      let y := (c'.1.put c'.2 t).put 4 (le32 (c'.2 + t.length))
      c.2 + t.length = c'.2 + t.length ∧ x.hi = y.hi ∧ rd x.m 0 (c.2 + t.length) = rd y.m 0 (c'.2 + t.length) := by
    intro c c' hcl t
    obtain ⟨c1, c2, c3⟩ := hcl
    simp only
    rw [← c1]
    have h1 : Agree (c.1.put c.2 t) (c'.1.put c.2 t) (Part (c.2 + t.length) 0 0) := by
      refine c3.put _ _ ?_
      unfold Part
      intro j hj
      omega
    have h2 : Agree ((c.1.put c.2 t).put 4 (le32 (c.2 + t.length))) ((c'.1.put c.2 t).put 4 (le32 (c.2 + t.length)))
        (fun k => k < c.2 + t.length) := by
      refine h1.put _ _ ?_
      unfold Part
      intro j hj
      rw [le32_length]
      omega
    exact ⟨rfl, h2.1, h2.rd fun k _ hk => by omega⟩
  unfold meFinish
  rw [← h.copying, ← h.hist]
  by_cases hc : s.copying = true
  · simp only [hc, if_true]
    obtain ⟨c1, c2, c3⟩ := h.close hc
    apply fin ((closeCopy s.b s.last s.pOut s.count s.mask).1.put _ [0], (closeCopy s.b s.last s.pOut s.count s.mask).2 + 1)
      ((closeCopy s'.b s'.last s'.pOut s'.count s'.mask).1.put _ [0], (closeCopy s'.b s'.last s'.pOut s'.count s'.mask).2 + 1)
    refine ⟨by simp only [c1], by simp only; omega, ?_⟩
    simp only
    rw [← c1]
    refine c3.put _ _ ?_
    unfold Part
    intro j hj
    simp
    omega
  · have hc' : s.copying = false := by simpa using hc
    simp only [hc', if_false, Bool.false_eq_true]
    obtain ⟨c1, c2, c3⟩ := h.closeR hc'
    apply fin (((closeRle s.b s.last s.count s.symbol).1.put _ [0]).put _ [0], (closeRle s.b s.last s.count s.symbol).2 + 2)
      (((closeRle s'.b s'.last s'.count s'.symbol).1.put _ [0]).put _ [0], (closeRle s'.b s'.last s'.count s'.symbol).2 + 2)
    refine ⟨by simp only [c1], by simp only; omega, ?_⟩
    simp only
    rw [← c1]
    refine (c3.put (T := Part ((closeRle s.b s.last s.count s.symbol).2 + 1) 0 0) _ _ ?_).put _ _ ?_
    · unfold Part
      intro j hj
      simp
      omega
    · unfold Part
      intro j hj
      simp
      omega

/-- C29 for `rle8_mmtf128_compress`: neither the result nor the bytes written depend on what the output buffer held before. -/
theorem C29_mmtf128_buffer (junk : Vec) (m m' : Mem) : mmCompress junk m = mmCompress junk m' := by
  funext pIn n pOut outSize
  cases pIn with
  | none => rfl
  | some inp =>
    simp only [mmCompress]
    by_cases hg : n = 0 ∨ pOut = false ∨ outSize < mmBounds n
    · rw [if_pos hg, if_pos hg]
    · rw [if_neg hg, if_neg hg]
      have h0 : EAgree (meInit junk m n) (meInit junk m' n) := by
        refine ⟨rfl, rfl, rfl, rfl, rfl, rfl, rfl, Nat.le_refl 8, ?_, fun e => by cases e⟩
        intro _
        have hp : Agree (Buf.mk m 0) (Buf.mk m' 0) (fun _ => False) := ⟨rfl, fun _ e => e.elim⟩
        refine ⟨rfl, hp.put 0 (le32 n) ?_⟩
        unfold Part meInit
        intro j hj
        simp at *
        omega
      have h1 := meLoop_agree (inp := inp) (n / 16) 0 _ _ hinit_good h0
      cases e1 : meLoop inp 0 (n / 16) (meInit junk m n) with
      | none =>
        cases e2 : meLoop inp 0 (n / 16) (meInit junk m' n) with
        | none => rfl
        | some t => rw [e1, e2] at h1; exact h1.elim
      | some t =>
        cases e2 : meLoop inp 0 (n / 16) (meInit junk m' n) with
        | none => rw [e1, e2] at h1; exact h1.elim
        | some t' =>
          rw [e1, e2] at h1
          obtain ⟨f1, f2, f3⟩ := meFinish_agree h1 (rd inp (16 * (n / 16)) (n % 16))
          simp only
          rw [f2, f3, f1]

end Hrk
