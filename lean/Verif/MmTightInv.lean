import Verif.MmTight

/-
How rle8_mmtf128 chooses its sections: the invariant of the compression loop.
-/

namespace Hrk

/-! ### The or of the blocks -/

theorem kindOf_tight {mask : Vec} {idx : List Byte} (hm : ∀ hi : Byte, noneAbove hi mask = true ↔ ∀ x ∈ idx, hi &&& x = 0) (k : MmKind)
    (h : ∀ x ∈ idx, x.toNat < 2 ^ k.bits) : (kindOf mask).bits ≤ k.bits := by
  have key : ∀ x : Byte, (x.toNat < 16 → (0xF0 : Byte) &&& x = 0) ∧ (x.toNat < 8 → (0xF8 : Byte) &&& x = 0) ∧
      (x.toNat < 4 → (0xFC : Byte) &&& x = 0) := by
    apply byte_forall
    decide +kernel
  unfold kindOf
  cases k with
  | plain => split <;> [split <;> [skip; split]; skip] <;> decide
  | four =>
    rw [if_pos ((hm _).mpr fun x hx => (key x).1 (h x hx))]
    split <;> [skip; split] <;> decide
  | three =>
    have h8 : ∀ x ∈ idx, x.toNat < 8 := h
    rw [if_pos ((hm _).mpr fun x hx => (key x).1 (by have := h8 x hx; omega)), if_pos ((hm 0xF8).mpr fun x hx => (key x).2.1 (h8 x hx))]
    split <;> decide
  | two =>
    have h4 : ∀ x ∈ idx, x.toNat < 4 := h
    rw [if_pos ((hm _).mpr fun x hx => (key x).1 (by have := h4 x hx; omega)), if_pos ((hm 0xFC).mpr fun x hx => (key x).2.2 (h4 x hx))]

theorem noneAbove_vload {hi : Byte} {o : List Byte} (hl : o.length = 16) : noneAbove hi (vload o) = true ↔ ∀ x ∈ o, hi &&& x = 0 := by
  constructor
  · exact fun h => OrOk.vload hl hi h
  · intro h
    rw [noneAbove_iff]
    intro j hj
    exact h _ (by unfold vload; rw [getD_of_lt _ _ (by omega)]; exact List.getElem_mem _)

theorem noneAbove_vor {hi : Byte} {a b : Vec} : noneAbove hi (vor a b) = true ↔ noneAbove hi a = true ∧ noneAbove hi b = true := by
  rw [noneAbove_iff, noneAbove_iff, noneAbove_iff]
  constructor
  · intro h
    exact ⟨fun j hj => (byte_and_or_zero _ _ _ (h j hj)).1, fun j hj => (byte_and_or_zero _ _ _ (h j hj)).2⟩
  · rintro ⟨h1, h2⟩ j hj
    show hi &&& (a j ||| b j) = 0
    rw [byte_and_or, h1 j hj, h2 j hj]
    rfl

/-! ### Lists of sections -/

theorem secsBytes_snoc (l : List MmSec) (x : MmSec) : secsBytes (l ++ [x]) = secsBytes l ++ x.bytes := by
  unfold secsBytes
  simp

theorem alt_rep_copy {w : Bool} {c : Nat} {i : Byte} {w' : Bool} {k : MmKind} {c' : Nat} {b : List Byte} : ∀ (r : Bool) (l : List MmSec), MmAlt r l →
    MmAlt r (l ++ [.rep w c i] ++ [.copy w' k c' b])
  | true, [], _ => trivial
  | false, .copy _ _ _ _ :: l, h => by
    show MmAlt true (l ++ [.rep w c i] ++ [.copy w' k c' b])
    exact alt_rep_copy true l h
  | true, .rep _ _ _ :: l, h => by
    show MmAlt false (l ++ [.rep w c i] ++ [.copy w' k c' b])
    exact alt_rep_copy false l h
  | false, [], h => absurd h (by simp [MmAlt])
  | false, .rep _ _ _ :: l, h => absurd h (by simp [MmAlt])
  | true, .copy _ _ _ _ :: l, h => absurd h (by simp [MmAlt])

theorem apart_copy {l : List MmSec} (h : MmApart l) (w : Bool) (k : MmKind) (c : Nat) (b : List Byte) : MmApart (l ++ [.copy w k c b]) := by
  intro A B w1 c1 i1 w2 k2 b2 w3 c3 i3 he
  rcases List.eq_nil_or_concat B with rfl | ⟨B', x, rfl⟩
  · rw [List.append_nil, show A ++ [MmSec.rep w1 c1 i1, .copy w2 k2 0 b2, .rep w3 c3 i3] =
      A ++ [MmSec.rep w1 c1 i1, .copy w2 k2 0 b2] ++ [.rep w3 c3 i3] by simp] at he
    have := (List.append_inj' he rfl).2
    cases this
  · rw [List.concat_eq_append, ← List.append_assoc] at he
    exact h A B' w1 c1 i1 w2 k2 b2 w3 c3 i3 (List.append_inj' he rfl).1

theorem apart_rep {l : List MmSec} (h : MmApart l) (w : Bool) (c : Nat) (i : Byte)
    (hi : ∀ (A : List MmSec) (w1 : Bool) (c1 : Nat) (i1 : Byte) (w2 : Bool) (k : MmKind) (b : List Byte),
      l = A ++ [.rep w1 c1 i1, .copy w2 k 0 b] → i1 ≠ i) : MmApart (l ++ [.rep w c i]) := by
  intro A B w1 c1 i1 w2 k2 b2 w3 c3 i3 he
  rcases List.eq_nil_or_concat B with rfl | ⟨B', x, rfl⟩
  · rw [List.append_nil, show A ++ [MmSec.rep w1 c1 i1, .copy w2 k2 0 b2, .rep w3 c3 i3] =
      A ++ [MmSec.rep w1 c1 i1, .copy w2 k2 0 b2] ++ [.rep w3 c3 i3] by simp] at he
    obtain ⟨e1, e2⟩ := List.append_inj' he rfl
    cases e2
    exact hi A w1 c1 i1 w2 k2 b2 e1
  · rw [List.concat_eq_append, ← List.append_assoc] at he
    exact h A B' w1 c1 i1 w2 k2 b2 w3 c3 i3 (List.append_inj' he rfl).1

/-- The sections closed so far. -/
structure Secs (junk : Vec) (secs : List MmSec) : Prop where
  ok : ∀ x ∈ secs, x.ok ∧ x.Proper
  tight : ∀ x ∈ secs.tail, x.Tight
  tight0 : (∀ hi : Byte, noneAbove hi junk = true) → ∀ x ∈ secs, x.Tight
  apart : MmApart secs

theorem Secs.nil (junk : Vec) : Secs junk [] :=
  ⟨(fun _ h => by cases h), (fun _ h => by cases h), (fun _ _ h => by cases h), (fun A B _ _ _ _ _ _ _ _ _ h => by simp at h)⟩

theorem Secs.snoc {junk : Vec} {secs : List MmSec} (H : Secs junk secs) {x : MmSec} (h1 : x.ok ∧ x.Proper)
    (h2 : (secs ≠ [] ∨ ∀ hi : Byte, noneAbove hi junk = true) → x.Tight) (h3 : MmApart (secs ++ [x])) : Secs junk (secs ++ [x]) := by
  refine ⟨?_, ?_, ?_, h3⟩
  · intro y hy
    rcases List.mem_append.mp hy with hy | hy
    · exact H.ok y hy
    · rw [List.mem_singleton.mp hy]; exact h1
  · intro y hy
    by_cases he : secs = []
    · subst he; simp at hy
    · rw [List.tail_append_of_ne_nil he] at hy
      rcases List.mem_append.mp hy with hy | hy
      · exact H.tight y hy
      · rw [List.mem_singleton.mp hy]; exact h2 (.inl he)
  · intro hj y hy
    rcases List.mem_append.mp hy with hy | hy
    · exact H.tight0 hj y hy
    · rw [List.mem_singleton.mp hy]; exact h2 (.inr hj)

/-- The invariant: `W` are the closed sections, `xs` the blocks of the open one. -/
structure SecInv (junk : Vec) (s : MEnc) (W : List Byte) (xs : List (List Byte)) (secs : List MmSec) : Prop where
  bytes : secsBytes secs = W
  closed : Secs junk secs
  altr : s.copying = false → MmAlt false secs
  altc : s.copying = true → ∀ w k c b, MmAlt false (secs ++ [.copy w k c b])
  mask : s.copying = true → ∀ hi : Byte, noneAbove hi s.mask = true ↔
    (secs = [] → noneAbove hi junk = true) ∧ ∀ x ∈ xs.flatten, hi &&& x = 0
  norep : s.copying = true → ∀ b ∈ xs, ∀ x, b ≠ List.replicate 16 x
  sym : s.copying = false → ∀ (A : List MmSec) (w1 : Bool) (c1 : Nat) (i1 : Byte) (w2 : Bool) (k : MmKind) (b : List Byte),
    secs = A ++ [.rep w1 c1 i1, .copy w2 k 0 b] → i1 ≠ s.symbol
  full : s.copying = true → secs ≠ [] → 0 < s.count

/-- The open copy section is closed. -/
theorem SecInv.close_copy {junk : Vec} {s : MEnc} {W : List Byte} {xs : List (List Byte)} {secs : List MmSec} (T : SecInv junk s W xs secs)
    {inp : Mem} {n i : Nat} {X Y : List Byte} {hc : Nat → Vec} (H : EInv inp n s i W X Y hc xs) (hcp : s.copying = true)
    {V : List Byte} {lim : Nat} (hV : SecClosed s.b (closeCopy s.b s.last s.pOut s.count s.mask).1 s.last
      (closeCopy s.b s.last s.pOut s.count s.mask).2 false V xs lim) :
    ∃ secs', secsBytes secs' = W ++ V ∧ Secs junk secs' ∧ MmAlt false secs' ∧
      ∀ (A : List MmSec) (w1 : Bool) (c1 : Nat) (i1 : Byte) (w2 : Bool) (k : MmKind) (b : List Byte),
        secs' ≠ A ++ [.rep w1 c1 i1, .copy w2 k 0 b] := by
  obtain ⟨hp, hrd, hmask, hW⟩ := H.copy hcp
  obtain ⟨wide, body, h1, h2, h3, h4⟩ := copy_closed hV H.blocks H.count hrd hmask
  have hpr : (MmSec.copy wide (kindOf s.mask) s.count body).Proper := by
    refine ⟨h4.mp, ?_⟩
    rw [h3]
    exact T.norep hcp
  refine ⟨secs ++ [.copy wide (kindOf s.mask) s.count body], by rw [secsBytes_snoc, T.bytes, h2], T.closed.snoc ⟨h1, hpr⟩ ?_
    (apart_copy T.closed.apart _ _ _ _), T.altc hcp _ _ _ _, ?_⟩
  · intro hj _ k hk
    refine kindOf_tight (idx := xs.flatten) (fun hi => ?_) k fun x hx => ?_
    · rw [T.mask hcp hi]
      constructor
      · exact fun h => h.2
      · intro h
        refine ⟨fun he => ?_, h⟩
        rcases hj with hj | hj
        · exact absurd he hj
        · exact hj hi
    · obtain ⟨b, hb, hxb⟩ := List.mem_flatten.mp hx
      exact hk b (by rw [h3]; exact hb) x hxb
  · intro A w1 c1 i1 w2 k b he
    rw [show A ++ [MmSec.rep w1 c1 i1, .copy w2 k 0 b] = A ++ [MmSec.rep w1 c1 i1] ++ [.copy w2 k 0 b] by simp] at he
    obtain ⟨e1, e2⟩ := List.append_inj' he rfl
    have := T.full hcp (by rw [e1]; simp)
    simp only [List.cons.injEq, MmSec.copy.injEq, and_true] at e2
    omega

/-- The open repeat section is closed. -/
theorem SecInv.close_rep {junk : Vec} {s : MEnc} {W : List Byte} {xs : List (List Byte)} {secs : List MmSec} (T : SecInv junk s W xs secs)
    (hcf : s.copying = false) (h0 : 0 < s.count) {V : List Byte} {lim : Nat}
    (hV : SecClosed s.b (closeRle s.b s.last s.count s.symbol).1 s.last (closeRle s.b s.last s.count s.symbol).2 true V
      (List.replicate s.count (List.replicate 16 s.symbol)) lim) :
    ∃ wide, secsBytes (secs ++ [.rep wide s.count s.symbol]) = W ++ V ∧ Secs junk (secs ++ [.rep wide s.count s.symbol]) ∧
      ∀ w k c b, MmAlt false (secs ++ [.rep wide s.count s.symbol] ++ [.copy w k c b]) := by
  obtain ⟨wide, h1, h2, h3⟩ := rep_closed hV h0
  exact ⟨wide, by rw [secsBytes_snoc, T.bytes, h2], T.closed.snoc ⟨h1, h3.mp⟩ (fun _ => trivial)
    (apart_rep T.closed.apart _ _ _ (T.sym hcf)), fun w k c b => alt_rep_copy false secs (T.altr hcf)⟩

/-- A copy section of no blocks. -/
theorem Secs.empty {junk : Vec} {secs : List MmSec} (H : Secs junk secs) :
    secsBytes (secs ++ [.copy false .plain 0 []]) = secsBytes secs ++ [0] ∧ Secs junk (secs ++ [.copy false .plain 0 []]) := by
  refine ⟨by rw [secsBytes_snoc]; rfl, H.snoc ⟨⟨by decide, rfl⟩, (fun h => by cases h), ?_⟩ (fun _ h => by cases h)
    (apart_copy H.apart _ _ _ _)⟩
  intro b hb
  cases hb

theorem SecInv.init (junk : Vec) (m : Mem) (n : Nat) : SecInv junk (meInit junk m n) [] [] [] where
  bytes := rfl
  closed := Secs.nil junk
  altr := by intro h; cases h
  altc := fun _ _ _ _ _ => trivial
  mask := by
    intro _ hi
    show noneAbove hi junk = true ↔ _
    simp
  norep := by intro _ b hb; cases hb
  sym := by intro h; cases h
  full := fun _ h => absurd rfl h

theorem SecInv.step {inp : Mem} {n : Nat} {junk : Vec} {s : MEnc} {i : Nat} {W X Y : List Byte} {hc : Nat → Vec} {xs : List (List Byte)}
    {secs : List MmSec} (H : EInv inp n s i W X Y hc xs) (T : SecInv junk s W xs secs) {h : Nat → Vec} {o : List Byte} (hol : o.length = 16)
    {W' : List Byte} {xs' : List (List Byte)} (hh : How s o W xs W' xs') : ∃ secs', SecInv junk (meOut s h o) W' xs' secs' := by
  unfold How at hh
  unfold meOut
  have uni : ∀ x, o = List.replicate 16 x → allEq (o.getD 0 0) (vload o) = true := by
    intro x hx
    apply (allEq_iff hol).mpr
    rw [hx]; rfl
  by_cases hcp : s.copying = true
  · rw [if_pos hcp] at hh ⊢
    by_cases hu : allEq (o.getD 0 0) (vload o) = true
    · rw [if_pos hu] at hh ⊢
      obtain ⟨V, lim, hV, rfl, rfl⟩ := hh
      obtain ⟨secs', a1, a2, a3, a4⟩ := T.close_copy H hcp hV
      exact ⟨secs', a1, a2, fun _ => a3, (fun h => by cases h), (fun h => by cases h), (fun h => by cases h),
        fun _ A w1 c1 i1 w2 k b he => absurd he (a4 A w1 c1 i1 w2 k b), (fun h => by cases h)⟩
    · rw [if_neg hu] at hh ⊢
      obtain ⟨rfl, rfl⟩ := hh
      refine ⟨secs, T.bytes, T.closed, fun h' => absurd hcp (by simp only at h'; rw [h']; simp), fun _ => T.altc hcp, fun _ hi => ?_, fun _ => ?_,
        fun h' => absurd hcp (by simp only at h'; rw [h']; simp), fun _ _ => Nat.succ_pos _⟩
      · simp only
        rw [noneAbove_vor, T.mask hcp hi, noneAbove_vload hol, List.flatten_append]
        simp only [List.flatten_cons, List.flatten_nil, List.append_nil, List.mem_append]
        constructor
        · rintro ⟨⟨b1, b2⟩, b3⟩
          exact ⟨b1, fun x hx => hx.elim (b2 x) (b3 x)⟩
        · rintro ⟨b1, b2⟩
          exact ⟨⟨b1, fun x hx => b2 x (.inl hx)⟩, fun x hx => b2 x (.inr hx)⟩
      · intro b hb x hx
        rcases List.mem_append.mp hb with hb | hb
        · exact T.norep hcp b hb x hx
        · rw [List.mem_singleton.mp hb] at hx
          exact hu (uni x hx)
  · rw [if_neg hcp] at hh ⊢
    have hcf : s.copying = false := by simpa using hcp
    obtain ⟨hc1, hxs, hW⟩ := H.rle hcf
    by_cases he : allEq s.symbol (vload o) = true
    · rw [if_pos he] at hh ⊢
      obtain ⟨rfl, rfl⟩ := hh
      exact ⟨secs, T.bytes, T.closed, fun _ => T.altr hcf, fun h' => absurd h' hcp, fun h' => absurd h' hcp, fun h' => absurd h' hcp,
        fun _ => T.sym hcf, fun h' => absurd h' hcp⟩
    · rw [if_neg he] at hh ⊢
      obtain ⟨V, lim, hV, rfl, rfl⟩ := hh
      obtain ⟨wide, a1, a2, a3⟩ := T.close_rep hcf hc1 hV
      simp only
      by_cases hu : allEq (o.getD 0 0) (vload o) = true
      · rw [if_pos hu, if_pos hu]
        obtain ⟨b1, b2⟩ := a2.empty
        refine ⟨_, by rw [b1, a1], b2, fun _ => a3 _ _ _ _, fun h' => absurd h' hcp, fun h' => absurd h' hcp, fun h' => absurd h' hcp, ?_,
          fun h' => absurd h' hcp⟩
        intro _ A w1 c1 i1 w2 k b heq hne
        rw [show A ++ [MmSec.rep w1 c1 i1, .copy w2 k 0 b] = A ++ [MmSec.rep w1 c1 i1] ++ [.copy w2 k 0 b] by simp] at heq
        have e1 := (List.append_inj' (List.append_inj' heq rfl).1 rfl).2
        simp only [List.cons.injEq, MmSec.rep.injEq, and_true] at e1
        simp only at hne
        apply he
        rw [e1.2.2, hne]
        exact hu
      · rw [if_neg hu, if_neg hu]
        refine ⟨_, a1, a2, (fun h => by cases h), fun _ => a3, ?_, ?_, (fun h => by cases h), fun _ _ => Nat.one_pos⟩
        · intro _ hi
          simp only
          rw [noneAbove_vload hol]
          simp
        · intro _ b hb x hx
          rw [List.mem_singleton.mp hb] at hx
          exact hu (uni x hx)

theorem meLoop_tight {inp : Mem} {n : Nat} {junk : Vec} : ∀ (k i : Nat) (s : MEnc) (W X Y : List Byte) (hc : Nat → Vec) (xs : List (List Byte))
    (secs : List MmSec), EInv inp n s i W X Y hc xs → SecInv junk s W xs secs → i + k ≤ 268435456 →
    ∃ s', meLoop inp i k s = some s' ∧ ∃ W' X' Y' hc' xs' secs', EInv inp n s' (i + k) W' X' Y' hc' xs' ∧ SecInv junk s' W' xs' secs'
  | 0, i, s, W, X, Y, hc, xs, secs, H, T, _ => ⟨s, rfl, W, X, Y, hc, xs, secs, H, T⟩
  | k + 1, i, s, W, X, Y, hc, xs, secs, H, T, hk => by
    obtain ⟨h, o, h1, W', X', Y', hc', xs', H'⟩ := H.step (by omega)
    obtain ⟨h'', o'', e1, hol, _, _⟩ := block_rt H.good (blk := rd inp (16 * i) 16) (by simp)
    rw [h1] at e1
    simp only [Option.some.injEq, Prod.mk.injEq] at e1
    obtain ⟨rfl, rfl⟩ := e1
    obtain ⟨secs', T'⟩ := T.step (h := h) H hol (H.how (by omega) hol H')
    obtain ⟨s', h2, W'', X'', Y'', hc'', xs'', secs'', H'', T''⟩ := meLoop_tight k (i + 1) _ W' X' Y' hc' xs' secs' H' T' (by omega)
    refine ⟨s', ?_, W'', X'', Y'', hc'', xs'', secs'', by rw [Nat.add_right_comm, Nat.add_assoc] at H''; exact H'', T''⟩
    rw [meLoop, h1]
    exact h2

end Hrk
