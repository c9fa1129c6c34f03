import Verif.FuzzRun
import Verif.PropsFuzz
import Verif.PropsFuzzFill
import Verif.PropsCompare

/-
C56: what a run of the fuzzer establishes.
-/

namespace Hrk.Fuzz

open Hrk.Cli (CodecT)

/-! ### Specification -/

/-- The run that is in state `s` in round `i` is in state `s'` in round `j`. -/
inductive Turn (e : RunEnv) : Nat → State → Nat → State → Prop
  | here (i : Nat) (s : State) : Turn e i s i s
  | next {i j : Nat} {s s1 s' : State} : s.advance (e.advQ i) = some (true, s1) → Turn e (i + 1) s1 j s' → Turn e i s j s'

/-- What the comparison of the fuzzer sees of two buffers of `n` bytes: the top bits, and the last bytes (see C39). -/
def Seen (a b : Mem) (n : Nat) : Prop :=
  (∀ i, i < (n - 1) / 32 * 32 → (128 ≤ a i ↔ 128 ≤ b i)) ∧ ∀ i, (n - 1) / 32 * 32 ≤ i → i < n → a i = b i

/-- One try of a codec with the `n` bytes of `inp`: the output buffers before it, and the stream buffer after the bytes behind the
stream were scrambled. -/
structure Try (e : RunEnv) (room : Nat) (c : CodecT) (inp : Mem) (n : Nat) where
  before : Mem
  stream : Mem
  out : Mem
  agree : ∀ i, i < (e.comp c inp n before room).1 → stream i = (e.comp c inp n before room).2 i

namespace Try
variable {e : RunEnv} {room : Nat} {c : CodecT} {inp : Mem} {n : Nat}

/-- The size of the stream. -/
def size (t : Try e room c inp n) : Nat := (e.comp c inp n t.before room).1

/-- What the decompressor returns and leaves in its buffer. -/
def result (t : Try e room c inp n) : Nat × Mem := e.dec c t.stream t.size t.out n

/-- The input is compressed, decompressed to its size and its bytes. -/
def Restores (t : Try e room c inp n) : Prop := t.size ≠ 0 ∧ t.result.1 = n ∧ ∀ i, i < n → t.result.2 i = inp i

/-- The same as far as the fuzzer sees. -/
def Passes (t : Try e room c inp n) : Prop := t.size ≠ 0 ∧ t.result.1 = n ∧ Seen inp t.result.2 n

/-- The decompressor finds its output buffer cleared, and behind the stream no byte the compressor left there. -/
def Fresh (t : Try e room c inp n) : Prop :=
  (∀ i, i < n → t.out i = 0) ∧
    ∀ i, t.size ≤ i → i < room → i < n + 64 → t.stream i ≠ (e.comp c inp n t.before room).2 i

theorem Restores.passes {t : Try e room c inp n} (h : t.Restores) : t.Passes := by
  refine ⟨h.1, h.2.1, fun i hi => ?_, fun i _ hi => (h.2.2 i hi).symm⟩
  rw [h.2.2 i (by omega)]

end Try

/-! ### One round -/

theorem mem_fuzzCodecs (c : CodecT) : c ∈ fuzzCodecs ↔ c ≠ .MemCopy := by
  constructor
  · intro h e
    subst e
    revert h
    decide
  · intro h
    refine List.mem_map.mpr ⟨c.ctorIdx, List.mem_range.mpr ?_, CodecT.ofNat_ctorIdx c⟩
    cases c <;> first | (exact absurd rfl h) | decide

/-- A codec is tried: it passes, or the process stops. -/
theorem testOne_spec {e : RunEnv} {room outRoom : Nat} {inp : Mem} {n : Nat} (hr : room < 4294967296) (hn : n < 4294967296) (ho : n ≤ outRoom) (c : CodecT)
    (b : Mem × Mem) :
    ∃ t : Try e room c inp n, t.Fresh ∧ ((t.Passes ∧ ∃ b', testOne e room outRoom inp n c b = .ok b') ∨
      (¬t.Passes ∧ testOne e room outRoom inp n c b = .error .trap)) := by
  let r := e.comp c inp n b.1 room
  let buf : Mem := fun i => if r.1 ≤ i ∧ i < min room (n + 64) then ~~~(r.2 i) else r.2 i
  let out : Mem := fun i => if i < n then 0 else b.2 i
  refine ⟨⟨b.1, buf, out, fun i hi => if_neg (by show ¬(r.1 ≤ i ∧ _); have : i < r.1 := hi; omega)⟩,
    ⟨fun i hi => if_pos hi, fun i h1 h2 h3 => ?_⟩, ?_⟩
  · show buf i ≠ r.2 i
    have hb : buf i = ~~~(r.2 i) := if_pos ⟨h1, by omega⟩
    rw [hb]
    exact byte_forall (P := fun w => ~~~w ≠ w) (by decide +kernel) (r.2 i)
  unfold Try.Passes Try.result Try.size
  dsimp only
  unfold testOne
  rw [Nat.mod_eq_of_lt hr, Nat.mod_eq_of_lt hn]
  dsimp only
  show (_ ∧ _ ∧ Seen inp (e.dec c buf r.1 out n).2 n) ∧ _ ∨ ¬(r.1 ≠ 0 ∧ (e.dec c buf r.1 out n).1 = n ∧ Seen inp (e.dec c buf r.1 out n).2 n) ∧ _
  by_cases h0 : r.1 = 0
  · right
    exact ⟨fun h => h.1 h0, if_pos h0⟩
  · have hu : ¬((r.1 < min room (n + 64) ∧ room < min room (n + 64)) ∨ outRoom < n) := by omega
    by_cases h1 : (e.dec c buf r.1 out n).1 = n
    · obtain ⟨x, hx⟩ := C39_compare_safe e.aIn e.aOut inp (e.dec c buf r.1 out n).2 n
      have hs := C39_compare_exact e.aIn e.aOut inp (e.dec c buf r.1 out n).2 n
      cases x with
      | true =>
        left
        refine ⟨⟨h0, h1, hs.mp hx⟩, (buf, (e.dec c buf r.1 out n).2), ?_⟩
        rw [if_neg h0, if_neg hu]
        show (if (e.dec c buf r.1 out n).1 ≠ n then _ else _) = _
        rw [if_neg (not_not_intro h1)]
        show (match CmpArgs.memoryEquals ⟨e.aIn, e.aOut, inp, (e.dec c buf r.1 out n).2, n⟩ with
          | none => Except.error FuzzEnd.ub | some false => .error .trap | some true => .ok _) = _
        rw [hx]
      | false =>
        right
        refine ⟨fun h => ?_, ?_⟩
        · rw [hs.mpr h.2.2] at hx
          cases hx
        · rw [if_neg h0, if_neg hu]
          show (if (e.dec c buf r.1 out n).1 ≠ n then _ else _) = _
          rw [if_neg (not_not_intro h1)]
          show (match CmpArgs.memoryEquals ⟨e.aIn, e.aOut, inp, (e.dec c buf r.1 out n).2, n⟩ with
            | none => Except.error FuzzEnd.ub | some false => .error .trap | some true => .ok _) = _
          rw [hx]
    · right
      refine ⟨fun h => h1 h.2.1, ?_⟩
      rw [if_neg h0, if_neg hu]
      exact if_pos h1

theorem testAll_spec {e : RunEnv} {room outRoom : Nat} {inp : Mem} {n : Nat} (hr : room < 4294967296) (hn : n < 4294967296) (ho : n ≤ outRoom) :
    ∀ (cs : List CodecT) (b : Mem × Mem),
      ((∀ c ∈ cs, ∃ t : Try e room c inp n, t.Fresh ∧ t.Passes) ∧ ∃ b', testAll e room outRoom inp n cs b = .ok b') ∨
      ((∃ c ∈ cs, ∃ t : Try e room c inp n, ¬t.Passes) ∧ testAll e room outRoom inp n cs b = .error .trap)
  | [], b => Or.inl ⟨fun _ h => absurd h List.not_mem_nil, b, rfl⟩
  | c :: cs, b => by
    unfold testAll
    obtain ⟨t, hf, ⟨h1, b1, h2⟩ | ⟨h1, h2⟩⟩ := testOne_spec (e := e) (inp := inp) hr hn ho c b
    · rw [h2]
      dsimp only
      rcases testAll_spec hr hn ho cs b1 with ⟨g1, g2⟩ | ⟨⟨c', g0, g1⟩, g2⟩
      · left
        refine ⟨fun x hx => ?_, g2⟩
        rcases List.mem_cons.mp hx with rfl | hx
        · exact ⟨t, hf, h1⟩
        · exact g1 x hx
      · exact Or.inr ⟨⟨c', List.mem_cons_of_mem _ g0, g1⟩, g2⟩
    · rw [h2]
      exact Or.inr ⟨⟨c, List.mem_cons_self .., t, h1⟩, rfl⟩

/-! ### The states have something in every section -/

theorem reach_key {n : Nat} {s : State} (h : Reach n true s) :
    ∃ (q : Draws) (k : Key), k.Ok n ∧ s = k.state (create q n true) n := by
  induction h with
  | create q =>
    refine ⟨q, _, ?_, (create_state q n true).1⟩
    exact ⟨Nat.le_refl _, by show 1 ≤ 16; decide, fun _ => rfl, by show 0 < 2; decide, fun _ _ => by show 0 < lenCount; decide⟩
  | advance q' h he ih =>
    obtain ⟨q, k, hk, rfl⟩ := ih
    unfold State.advance at he
    rw [if_pos (show (k.state (create q n true) n).iterative = true from rfl), Option.some_inj] at he
    rcases increment_spec (s0 := create q n true) (create_state q n true).2.1 hk with ⟨_, k', h2, h3, _⟩ | ⟨_, h2⟩
    · rw [h2] at he
      cases he
      exact ⟨q, k', h3, rfl⟩
    · rw [he] at h2
      cases h2

theorem setRandom_pos {q : Draws} {k : Nat} {s u : Sub} (h : s.setRandom q k = some u) : 1 ≤ u.cur := by
  obtain ⟨a, a1, _, a2⟩ := randBetween_ok (q := q) (k := k) (lo := 0) (hi := 16) (by decide) (by decide)
  obtain ⟨b, b1, _, b2⟩ := randBetween_ok (q := q) (k := k + 1) (lo := 0) (hi := 0x100) (by decide) (by decide)
  obtain ⟨c, c1, c3, c2⟩ := randBetween_ok (q := q) (k := k + 2) (lo := 1) (hi := 280) (by decide) (by decide)
  obtain ⟨d, d1, d3, d2⟩ := randBetween_ok (q := q) (k := k + 2) (lo := 768) (hi := 8192) (by decide) (by decide)
  obtain ⟨e, e1, e3, e2⟩ := randBetween_ok (q := q) (k := k + 2) (lo := 65528) (hi := 65560) (by decide) (by decide)
  unfold Sub.setRandom at h
  rw [a1, b1, c1, d1, e1] at h
  simp only [Option.bind_eq_bind, Option.bind_some] at h
  split at h
  · cases h; exact c3
  · split at h
    · cases h; show 1 ≤ d; omega
    · cases h; show 1 ≤ e; omega

theorem randomSubs_pos {q : Draws} {st : Nat} : ∀ (r : Nat) (l l' : List Sub), (∀ u ∈ l, 1 ≤ u.cur) → randomSubs q st r l = some l' →
    ∀ u ∈ l', 1 ≤ u.cur := by
  intro r
  induction r with
  | zero => intro l l' h he; cases he; exact h
  | succ r ih =>
    intro l l' h he
    unfold randomSubs at he
    cases h1 : randomSubs q st r l with
    | none => rw [h1] at he; cases he
    | some l1 =>
      rw [h1] at he
      simp only [Option.bind_eq_bind, Option.bind_some] at he
      split at he
      · cases h2 : (Sub.init ((r + st) % 2)).setRandom q (5 + 3 * r) with
        | none => rw [h2] at he; cases he
        | some v =>
          rw [h2] at he
          cases he
          intro u hu
          rcases List.mem_or_eq_of_mem_set hu with hu | hu
          · exact ih l l1 h h1 u hu
          · rw [hu]; exact setRandom_pos h2
      · cases he

theorem bind_inv {α β : Type} {o : Option α} {f : α → Option β} {r : β} (h : (o >>= f) = some r) : ∃ v, o = some v ∧ f v = some r := by
  cases o with
  | none => cases h
  | some v => exact ⟨v, rfl, h⟩

theorem create_cur {q : Draws} {n : Nat} {it : Bool} : ∀ u ∈ (create q n it).states, u.cur = 1 := by
  intro u hu
  obtain ⟨i, _, rfl⟩ := List.mem_map.mp hu
  rfl

theorem reach_pos {n : Nat} {it : Bool} (hn : (it = true ∧ 1 ≤ n) ∨ (2 ≤ n ∧ n < 2 ^ 64)) {s : State} (h : Reach n it s) :
    1 ≤ s.relevant ∧ ∀ u ∈ s.states, 1 ≤ u.cur := by
  cases it with
  | true =>
    obtain ⟨q, k, hk, rfl⟩ := reach_key h
    refine ⟨by show 1 ≤ n; omega, ?_⟩
    intro u hu
    obtain ⟨i, hi, rfl⟩ := List.mem_map.mp (show u ∈ subsOf n k.st k.d from hu)
    rcases lenAt_isLen (hk.2.2.2.2 i (List.mem_range.mp hi)) with h | ⟨j, h, _⟩ | h
    · exact h.1
    · show 1 ≤ lenAt (k.d i)
      rw [h]
      exact Nat.le_trans (by decide) (medLen_lt j).1
    · show 1 ≤ lenAt (k.d i)
      omega
  | false =>
    have hn : 2 ≤ n ∧ n < 2 ^ 64 := by
      rcases hn with ⟨h, _⟩ | h
      · cases h
      · exact h
    induction h with
    | create q => exact ⟨by show 1 ≤ n; omega, fun u hu => by rw [create_cur u hu]⟩
    | @advance q s s' h he ih =>
      obtain ⟨h1, h2⟩ := reach_sane (Or.inr hn) h
      unfold State.advance at he
      rw [if_neg (by rw [h2]; decide)] at he
      obtain ⟨_, _, he⟩ := bind_inv he
      obtain ⟨_, _, he⟩ := bind_inv he
      obtain ⟨_, _, he⟩ := bind_inv he
      obtain ⟨_, _, he⟩ := bind_inv he
      obtain ⟨f, f1, he⟩ := bind_inv he
      obtain ⟨l', g1, he⟩ := bind_inv he
      obtain ⟨f', f1', f2, _⟩ := randBetween_ok (q := q) (k := 4) (lo := 1) (hi := s.states.length) (by rw [h1.len]; omega) (by rw [h1.len]; omega)
      rw [f1'] at f1
      cases f1
      cases he
      exact ⟨f2, randomSubs_pos _ _ _ ih.2 g1⟩

/-! ### The loop -/

/-- Which numbers of sections are meant: at most 4000 (the sizes fit 32 bits), and at least one, or two in random mode. -/
def SectionsOk (n : Nat) (iterative : Bool) : Prop := n ≤ 4000 ∧ ((iterative = true ∧ 1 ≤ n) ∨ 2 ≤ n)

theorem SectionsOk.a {n : Nat} {it : Bool} (h : SectionsOk n it) : it = true ∨ (2 ≤ n ∧ n < 2 ^ 64) := by
  obtain ⟨h1, h2 | h2⟩ := h
  · exact Or.inl h2.1
  · exact Or.inr ⟨h2, by omega⟩

theorem SectionsOk.b {n : Nat} {it : Bool} (h : SectionsOk n it) : (it = true ∧ 1 ≤ n) ∨ (2 ≤ n ∧ n < 2 ^ 64) := by
  obtain ⟨h1, h2 | h2⟩ := h
  · exact Or.inl h2
  · exact Or.inr ⟨h2, by omega⟩

theorem fuzzBuffer_eq {n : Nat} (h : n ≤ 4194304000 + 1536000) : n ≤ fuzzBuffer n ∧ fuzzBuffer n = n + 297 := by
  unfold fuzzBuffer bounds mmtfBounds shBounds mmBounds leBounds
  simp only
  rw [Nat.mod_eq_of_lt (show n < 4294967296 by omega)]
  split <;> omega

/-- The input of a round: what the generator makes of what is in the buffer. -/
structure Round (e : RunEnv) (cap : Nat) (j : Nat) (s : State) where
  mem : Mem
  size : Nat
  inp : Mem
  fill : s.fill (e.fillQ j) cap mem = some (size, inp)

theorem round_ok {n : Nat} {it : Bool} (hn : SectionsOk n it) {s : State} (h : Reach n it s) (q : Draws) (mem : Mem) :
    ∃ m inp, s.fill q (n * 65560 * 16) mem = some (m, inp) ∧ 0 < m ∧ m ≤ n * 65560 * 16 := by
  obtain ⟨h1, _⟩ := reach_sane hn.a h
  obtain ⟨h2, h3⟩ := reach_pos hn.b h
  obtain ⟨inp, g1, g2, _⟩ := sane_fill h1 q mem
  have hc : s.capacity = n * 65560 * 16 := by unfold State.capacity; rw [h1.len]
  rw [hc] at g1 g2
  refine ⟨_, inp, g1, ?_, g2⟩
  have hl := h1.len
  have hrel := h1.rel
  cases hs : s.states with
  | nil => rw [hs] at hl; rw [← hl] at hrel; simp only [List.length_nil] at hrel; omega
  | cons u us =>
    have hu := h3 u (by rw [hs]; exact List.mem_cons_self ..)
    obtain ⟨r, hr⟩ : ∃ r, s.relevant = r + 1 := ⟨s.relevant - 1, by omega⟩
    rw [hr, List.take_succ_cons]
    show 0 < s.secLen u + _
    have : 0 < s.secLen u := by
      unfold State.secLen
      split
      · split
        · exact Nat.mul_pos hu h1.sl1
        · exact hu
      · exact hu
    omega

theorem advance_ok {n : Nat} {it : Bool} (hn : SectionsOk n it) {s : State} (h : Reach n it s) (q : Draws) :
    ∃ x s', s.advance q = some (x, s') := by
  obtain ⟨h1, h2⟩ := reach_sane hn.a h
  cases it with
  | true => exact ⟨_, _, by unfold State.advance; rw [if_pos h2]⟩
  | false =>
    obtain ⟨s', g, _⟩ := advance_random h1 h2 (by rcases hn.2 with ⟨h, _⟩ | h; · cases h
                                                  · exact h) (by have := hn.1; omega) q
    exact ⟨_, _, g⟩

/-- What `k` rounds from round `i` on come to. -/
theorem loop_spec {n : Nat} {it : Bool} (hn : SectionsOk n it) (e : RunEnv) :
    ∀ (k i : Nat) (s : State) (inp : Mem) (b : Mem × Mem), Reach n it s →
      (fuzzLoop e (n * 65560 * 16) k i s inp b = .trap ∧
        ∃ j s', Turn e i s j s' ∧ j < i + k ∧ ∃ r : Round e (n * 65560 * 16) j s', 0 < r.size ∧ r.size ≤ n * 65560 * 16 ∧
          ∃ c, c ≠ .MemCopy ∧ ∃ t : Try e (fuzzBuffer (n * 65560 * 16)) c r.inp r.size, ¬t.Passes) ∨
      ((∀ j s', Turn e i s j s' → j < i + k → ∃ r : Round e (n * 65560 * 16) j s', 0 < r.size ∧ r.size ≤ n * 65560 * 16 ∧
          ∀ c, c ≠ .MemCopy → ∃ t : Try e (fuzzBuffer (n * 65560 * 16)) c r.inp r.size, t.Fresh ∧ t.Passes) ∧
        ((fuzzLoop e (n * 65560 * 16) k i s inp b = .running ∧ ∃ s', Turn e i s (i + k) s') ∨
         (fuzzLoop e (n * 65560 * 16) k i s inp b = .returns true ∧
          ∃ j s' s2, Turn e i s j s' ∧ j < i + k ∧ s'.advance (e.advQ j) = some (false, s2)))) := by
  intro k
  induction k with
  | zero =>
    intro i s inp b _
    refine Or.inr ⟨fun j s' ht hj => ?_, Or.inl ⟨rfl, s, Turn.here i s⟩⟩
    exfalso
    have : ∀ {i j s s'}, Turn e i s j s' → i ≤ j := by
      intro i j s s' h
      induction h with
      | here => exact Nat.le_refl _
      | next _ _ ih => omega
    have := this ht
    omega
  | succ k ih =>
    intro i s inp b hs
    obtain ⟨m, inp', f1, f2, f3⟩ := round_ok hn hs (e.fillQ i) inp
    have hcap : n * 65560 * 16 ≤ 4194304000 + 1536000 := by have := hn.1; omega
    have hroom := (fuzzBuffer_eq hcap).2
    unfold fuzzLoop
    rw [f1]
    dsimp only
    rcases testAll_spec (e := e) (room := fuzzBuffer (n * 65560 * 16)) (outRoom := n * 65560 * 16 + addSize) (inp := inp') (n := m) (by omega) (by omega) (by omega)
      fuzzCodecs b with
      ⟨g1, b', g2⟩ | ⟨⟨c, g0, g1⟩, g2⟩
    · rw [g2]
      dsimp only
      have hpass : ∃ r : Round e (n * 65560 * 16) i s, 0 < r.size ∧ r.size ≤ n * 65560 * 16 ∧
          ∀ c, c ≠ .MemCopy → ∃ t : Try e (fuzzBuffer (n * 65560 * 16)) c r.inp r.size, t.Fresh ∧ t.Passes :=
        ⟨⟨inp, m, inp', f1⟩, f2, f3, fun c hc => g1 c ((mem_fuzzCodecs c).mpr hc)⟩
      obtain ⟨x, s1, hx⟩ := advance_ok hn hs (e.advQ i)
      rw [hx]
      cases x with
      | false =>
        dsimp only
        refine Or.inr ⟨fun j s' ht _ => ?_, Or.inr ⟨rfl, i, s, s1, Turn.here i s, by omega, hx⟩⟩
        cases ht with
        | here => exact hpass
        | next ha _ => rw [hx] at ha; cases ha
      | true =>
        dsimp only
        rcases ih (i + 1) s1 inp' b' (Reach.advance _ hs hx) with ⟨p1, j, s', p2, p3, p4⟩ | ⟨p1, p2⟩
        · exact Or.inl ⟨p1, j, s', Turn.next hx p2, by omega, p4⟩
        · refine Or.inr ⟨fun j s' ht hj => ?_, ?_⟩
          · cases ht with
            | here => exact hpass
            | next ha hb =>
              rw [hx] at ha
              cases ha
              exact p1 j s' hb (by omega)
          · rcases p2 with ⟨p2, s', p3⟩ | ⟨p2, j, s', s2, p3, p4, p5⟩
            · exact Or.inl ⟨p2, s', Turn.next hx (by rw [show i + (k + 1) = i + 1 + k by omega]; exact p3)⟩
            · exact Or.inr ⟨p2, j, s', s2, Turn.next hx p3, by omega, p5⟩
    · rw [g2]
      exact Or.inl ⟨rfl, i, s, Turn.here i s, by omega, ⟨inp, m, inp', f1⟩, f2, f3, c, (mem_fuzzCodecs c).mp g0, g1⟩

/-! ### The rounds of the iterative mode -/

theorem advance_any {s : State} (h : s.iterative = true) (q q' : Draws) : s.advance q = s.advance q' := by
  unfold State.advance
  rw [if_pos h, if_pos h]

theorem advance_iterative {s s' : State} {x : Bool} {q : Draws} (h : s.iterative = true) (ha : s.advance q = some (x, s')) :
    s'.iterative = true := by
  unfold State.advance at ha
  rw [if_pos h, Option.some_inj] at ha
  rw [← h, ← increment_iterative s, ha]

theorem visits_turn (e : RunEnv) {q : Draws} {s : State} {l : List State} (h : Visits q s l) (hi : s.iterative = true) : ∀ i,
    (∀ j (hj : j < l.length), Turn e i s (i + j) l[j]) ∧
    (∀ j s', Turn e i s j s' → ∃ m, ∃ hm : m < l.length, j = i + m ∧ s' = l[m] ∧
      ∀ q', (∃ s2, s'.advance q' = some (false, s2)) ↔ m + 1 = l.length) := by
  induction h with
  | @last s s1 ha =>
    intro i
    refine ⟨fun j hj => ?_, fun j s' ht => ?_⟩
    · have : j = 0 := by simp only [List.length_singleton] at hj; omega
      subst this
      exact Turn.here i s
    · cases ht with
      | here =>
        refine ⟨0, by simp, by omega, rfl, fun q' => ⟨fun _ => rfl, fun _ => ⟨s1, ?_⟩⟩⟩
        rw [advance_any hi q' q, ha]
      | next hb _ => rw [advance_any hi _ q, ha] at hb; cases hb
  | @next s s1 l ha hv ih =>
    intro i
    obtain ⟨ih1, ih2⟩ := ih (advance_iterative hi ha) (i + 1)
    have hl : 0 < l.length := by cases hv <;> simp
    refine ⟨fun j hj => ?_, fun j s' ht => ?_⟩
    · cases j with
      | zero => exact Turn.here i s
      | succ j =>
        have := ih1 j (by simp only [List.length_cons] at hj; omega)
        rw [show i + 1 + j = i + (j + 1) by omega] at this
        exact Turn.next (by rw [advance_any hi _ q, ha]) this
    · cases ht with
      | here =>
        refine ⟨0, by simp, by omega, rfl, fun q' => ⟨?_, ?_⟩⟩
        · rintro ⟨s2, h2⟩
          rw [advance_any hi q' q, ha] at h2
          cases h2
        · intro h2
          simp only [List.length_cons] at h2
          omega
      | next hb hc =>
        rw [advance_any hi _ q, ha] at hb
        cases hb
        obtain ⟨m, hm, e1, e2, e3⟩ := ih2 j s' hc
        refine ⟨m + 1, by simp only [List.length_cons]; omega, by omega, e2, fun q' => ?_⟩
        rw [e3 q', List.length_cons]
        omega

theorem visits_reach {n : Nat} {it : Bool} {q : Draws} {s : State} {l : List State} (h : Visits q s l) (hr : Reach n it s) : ∀ s' ∈ l, Reach n it s' := by
  induction h with
  | last _ => intro s' hs; rw [List.mem_singleton.mp hs]; exact hr
  | next ha _ ih =>
    intro s' hs
    rcases List.mem_cons.mp hs with rfl | hs
    · exact hr
    · exact ih (Reach.advance _ hr ha) s' hs

theorem turn_reach {e : RunEnv} {n : Nat} {it : Bool} {i j : Nat} {s s' : State} (h : Turn e i s j s') (hr : Reach n it s) : Reach n it s' := by
  induction h with
  | here => exact hr
  | next ha _ ih => exact ih (Reach.advance _ hr ha)

theorem fuzz_eq (e : RunEnv) (q : Draws) (n : Nat) (it : Bool) (inp : Mem) (b : Mem × Mem) (k : Nat) :
    fuzz e true q n it inp b k = fuzzLoop e (n * 65560 * 16) k 0 (create q n it) inp b := by
  unfold fuzz State.capacity
  rw [(create_sane q n it).len]
  rfl

/-- As long as every try passes, the run goes on to its end. -/
theorem passes_goes_on {n : Nat} {it : Bool} (hn : SectionsOk n it) (e : RunEnv)
    (h : ∀ c, c ≠ .MemCopy → ∀ inp m, 0 < m → m ≤ n * 65560 * 16 → ∀ t : Try e (fuzzBuffer (n * 65560 * 16)) c inp m, t.Passes)
    (q : Draws) (inp : Mem) (b : Mem × Mem) (k : Nat) :
    fuzz e true q n it inp b k = if it = true ∧ 62 * 353 ^ n ≤ k then .returns true else .running := by
  rw [fuzz_eq]
  have hre : Reach n it (create q n it) := Reach.create q
  rcases loop_spec hn e k 0 (create q n it) inp b hre with ⟨_, _, _, _, _, r, h1, h2, c, h3, t, h4⟩ | ⟨_, h2⟩
  · exact absurd (h c h3 r.inp r.size h1 h2 t) h4
  · cases it with
    | false =>
      rw [if_neg (fun h => absurd h.1 (by decide))]
      rcases h2 with ⟨h2, _⟩ | ⟨_, j, s', s2, h3, _, h5⟩
      · exact h2
      · exfalso
        have hr2 := turn_reach h3 hre
        obtain ⟨g1, g2⟩ := reach_sane hn.a hr2
        obtain ⟨s3, g3, _⟩ := advance_random g1 g2 (by rcases hn.2 with ⟨h, _⟩ | h; · cases h
                                                       · exact h) (by have := hn.1; omega) (e.advQ j)
        rw [g3] at h5
        cases h5
    | true =>
      obtain ⟨l, v1, _, _, v2⟩ := C40_iterative_complete q n
      obtain ⟨w1, w2⟩ := visits_turn e v1 rfl 0
      rcases h2 with ⟨h2, s', h3⟩ | ⟨h2, j, s', s2, h3, h4, h5⟩
      · obtain ⟨m, hm, e1, _⟩ := w2 _ _ h3
        rw [h2, if_neg (by omega)]
      · obtain ⟨m, hm, e1, _, e3⟩ := w2 _ _ h3
        have := (e3 _).mp ⟨s2, h5⟩
        rw [h2, if_pos ⟨rfl, by omega⟩]

/-! ### Theorems -/

/-- C56: while every codec restores every input it is given, the fuzzer is not stopped: in iterative mode it returns `true` after
62 · 353ⁿ rounds, whatever is drawn and wherever the buffers are; in random mode it goes on for ever. -/
theorem C56_goes_on {n : Nat} {iterative : Bool} (hn : SectionsOk n iterative) (e : RunEnv)
    (h : ∀ c, c ≠ .MemCopy → ∀ inp m, 0 < m → m ≤ n * 65560 * 16 → ∀ t : Try e (fuzzBuffer (n * 65560 * 16)) c inp m, t.Restores)
    (q : Draws) (inp : Mem) (b : Mem × Mem) (k : Nat) :
    fuzz e true q n iterative inp b k = if iterative = true ∧ 62 * 353 ^ n ≤ k then .returns true else .running :=
  passes_goes_on hn e (fun c hc inp m h1 h2 t => (h c hc inp m h1 h2 t).passes) q inp b k

/-- C56: whatever the codecs do, the fuzzer itself does nothing undefined, and it returns `false` only when an allocation fails. -/
theorem C56_defined {n : Nat} {iterative : Bool} (hn : SectionsOk n iterative) (e : RunEnv) (q : Draws) (inp : Mem) (b : Mem × Mem) (k : Nat) :
    fuzz e true q n iterative inp b k ≠ .ub ∧ fuzz e true q n iterative inp b k ≠ .returns false ∧
      fuzz e false q n iterative inp b k = .returns false := by
  rw [fuzz_eq]
  refine ⟨?_, ?_, rfl⟩ <;>
  · rcases loop_spec hn e k 0 (create q n iterative) inp b (Reach.create q) with ⟨h, _⟩ | ⟨_, ⟨h, _⟩ | ⟨h, _⟩⟩ <;> rw [h] <;> decide

/-- C56: when the fuzzer has made `k` rounds (or has returned) without being stopped, every codec has compressed the input of every one of
these rounds and has given it back, as far as the comparison sees, into a cleared buffer and from a stream behind which every byte up to
64 behind the length of the input was changed. -/
theorem C56_passed {n : Nat} {iterative : Bool} (hn : SectionsOk n iterative) (e : RunEnv) (q : Draws) (inp : Mem) (b : Mem × Mem) (k : Nat)
    (h : fuzz e true q n iterative inp b k ≠ .trap) {j : Nat} {s : State} (hj : j < k) (ht : Turn e 0 (create q n iterative) j s)
    {c : CodecT} (hc : c ≠ .MemCopy) :
    ∃ r : Round e (n * 65560 * 16) j s, 0 < r.size ∧ ∃ t : Try e (fuzzBuffer (n * 65560 * 16)) c r.inp r.size, t.Fresh ∧ t.Passes := by
  rw [fuzz_eq] at h
  rcases loop_spec hn e k 0 (create q n iterative) inp b (Reach.create q) with ⟨h1, _⟩ | ⟨h1, _⟩
  · exact absurd h1 h
  · obtain ⟨r, r1, _, r2⟩ := h1 j s ht (by omega)
    exact ⟨r, r1, r2 c hc⟩

/-- C56: the fuzzer is stopped only by a codec that failed with the input of one of the rounds. -/
theorem C56_reason {n : Nat} {iterative : Bool} (hn : SectionsOk n iterative) (e : RunEnv) (q : Draws) (inp : Mem) (b : Mem × Mem) (k : Nat)
    (h : fuzz e true q n iterative inp b k = .trap) :
    ∃ j s, j < k ∧ Turn e 0 (create q n iterative) j s ∧ ∃ r : Round e (n * 65560 * 16) j s, ∃ c, c ≠ .MemCopy ∧
      ∃ t : Try e (fuzzBuffer (n * 65560 * 16)) c r.inp r.size, ¬t.Restores := by
  rw [fuzz_eq] at h
  rcases loop_spec hn e k 0 (create q n iterative) inp b (Reach.create q) with ⟨_, j, s, h1, h2, r, _, _, c, h3, t, h4⟩ | ⟨_, ⟨h1, _⟩ | ⟨h1, _⟩⟩
  · exact ⟨j, s, by omega, h1, r, c, h3, t, fun hr => h4 hr.passes⟩
  · rw [h1] at h; cases h
  · rw [h1] at h; cases h

/-- C56, full statement: a codec that fails with the inputs of one configuration (symbol length, alignment, order, section lengths) stops
the fuzzer in iterative mode. Proved for failures the comparison sees. -/
theorem C56_caught_partial {n : Nat} (h1 : 1 ≤ n) (hn : n ≤ 4000) (e : RunEnv) (cfg : Combo) (hcfg : cfg.Ok n) (c : CodecT)
    (hc : c ≠ .MemCopy)
    (h : ∀ j s, s.combo = cfg → ∀ r : Round e (n * 65560 * 16) j s, 0 < r.size → ∀ t : Try e (fuzzBuffer (n * 65560 * 16)) c r.inp r.size,
      t.Fresh → ¬t.Passes)
    (q : Draws) (inp : Mem) (b : Mem × Mem) (k : Nat) (hk : 62 * 353 ^ n ≤ k) : fuzz e true q n true inp b k = .trap := by
  have ho : SectionsOk n true := ⟨hn, Or.inl ⟨rfl, h1⟩⟩
  obtain ⟨l, v1, _, v3, v2⟩ := C40_iterative_complete q n
  obtain ⟨s, hs, he⟩ := List.mem_map.mp ((v3 cfg).mpr hcfg)
  obtain ⟨j, hj, hjs⟩ := List.getElem_of_mem hs
  have ht := (visits_turn e v1 rfl 0).1 j hj
  rw [Nat.zero_add, hjs] at ht
  refine Decidable.byContradiction fun hne => ?_
  obtain ⟨r, h0, t, h2, h3⟩ := C56_passed ho e q inp b k hne (by omega) ht hc
  exact h j s he r h0 t h2 h3

/-- C56: the stream buffer has room for what any of the codecs may ask for, for every input of the generator, and its size is passed on
unchanged. -/
theorem C56_room {n m : Nat} (hn : n ≤ 1000) (h : m ≤ n * 65560 * 16) :
    m ≤ 1073741824 ∧ bounds m ≤ fuzzBuffer (n * 65560 * 16) ∧ mmtfBounds m ≤ fuzzBuffer (n * 65560 * 16) ∧
      shBounds m ≤ fuzzBuffer (n * 65560 * 16) ∧ mmBounds m ≤ fuzzBuffer (n * 65560 * 16) ∧
      leBounds m ≤ fuzzBuffer (n * 65560 * 16) ∧ fuzzBuffer (n * 65560 * 16) % 4294967296 = fuzzBuffer (n * 65560 * 16) := by
  rw [(fuzzBuffer_eq (by omega)).2]
  unfold bounds mmtfBounds shBounds mmBounds leBounds
  refine ⟨by omega, ?_, by omega, by omega, ?_, by omega, by omega⟩ <;> split <;> omega

/-- The hypotheses are met. -/
example : 6 ≤ 1000 ∧ 400 ≤ 6 * 65560 * 16 := by decide

/-! ### Codecs for the examples -/

/-- Codecs that store their input; what the decompressor gives is changed by `f`. -/
def storing (f : Nat → Mem → Nat × Mem) : RunEnv where
  comp := fun _ inp n buf _ => (n, fun i => if i < n then inp i else buf i)
  dec := fun _ buf size out n => f n fun i => if i < size then buf i else out i
  aIn := 0
  aOut := 0
  fillQ := fun _ _ _ => 0
  advQ := fun _ _ _ => 0

theorem storing_stream {f : Nat → Mem → Nat × Mem} {room : Nat} {c : CodecT} {inp : Mem} {n : Nat} (t : Try (storing f) room c inp n) :
    t.size = n ∧ ∃ m : Mem, t.result = f n m ∧ ∀ i, i < n → m i = inp i := by
  refine ⟨rfl, _, rfl, fun i hi => ?_⟩
  have h := t.agree i hi
  show (if i < n then t.stream i else t.out i) = inp i
  rw [if_pos hi, h]
  exact if_pos hi

/-- The hypotheses of `C56_goes_on` are met: six sections in iterative mode and eight in random mode are what src/main.c asks for, and
there are codecs that restore everything. -/
example : SectionsOk 6 true ∧ SectionsOk 8 false ∧
    ∀ c, c ≠ .MemCopy → ∀ inp m, 0 < m → m ≤ 6 * 65560 * 16 →
      ∀ t : Try (storing fun n m => (n, m)) (fuzzBuffer (6 * 65560 * 16)) c inp m, t.Restores := by
  refine ⟨⟨by decide, by decide⟩, ⟨by decide, by decide⟩, fun c _ inp m h _ t => ?_⟩
  obtain ⟨h1, x, h2, h3⟩ := storing_stream t
  exact ⟨by omega, by rw [h2], fun i hi => by rw [h2]; exact h3 i hi⟩

/-- The hypothesis of `C56_caught_partial` is met: these decompressors return a size that is too small. -/
example : Combo.Ok 1 ⟨1, false, 0, [7]⟩ ∧
    ∀ j s, s.combo = ⟨1, false, 0, [7]⟩ → ∀ r : Round (storing fun n m => (n - 1, m)) (1 * 65560 * 16) j s, 0 < r.size →
      ∀ t : Try (storing fun n m => (n - 1, m)) (fuzzBuffer (1 * 65560 * 16)) .Extreme8 r.inp r.size, t.Fresh → ¬t.Passes := by
  refine ⟨⟨by decide, by decide, fun _ => rfl, by decide, rfl, fun x hx => ?_⟩, fun j s _ r h0 t _ h => ?_⟩
  · rw [List.mem_singleton.mp hx]; left; decide
  · obtain ⟨_, x, h2, _⟩ := storing_stream t
    have := h.2.1
    rw [h2] at this
    dsimp only at this
    omega

/-- C56 is violated: there are codecs that give back every input of more than 32 bytes with its first byte changed, and the fuzzer runs to
its end as if nothing were wrong. -/
theorem C56_missed_violated :
    ∃ e : RunEnv,
      (∀ c inp m room, 32 < m → ∀ t : Try e room c inp m, t.size ≠ 0 ∧ t.result.1 = m ∧ t.result.2 0 ≠ inp 0) ∧
      ∀ n iterative, SectionsOk n iterative → ∀ q inp b k,
        fuzz e true q n iterative inp b k = if iterative = true ∧ 62 * 353 ^ n ≤ k then .returns true else .running := by
  refine ⟨storing fun n m => (n, fun i => if i = 0 ∧ 32 < n then m 0 ^^^ 1 else m i), fun c inp m room hm t => ?_, fun n it hn q inp b k => ?_⟩
  · obtain ⟨h1, x, h2, h3⟩ := storing_stream t
    refine ⟨by omega, by rw [h2], ?_⟩
    rw [h2, ← h3 0 (by omega)]
    show (if 0 = 0 ∧ 32 < m then x 0 ^^^ 1 else x 0) ≠ x 0
    rw [if_pos ⟨rfl, hm⟩]
    intro h
    have : ∀ w : Byte, w ^^^ 1 ≠ w := by
      intro w
      have := byte_forall (P := fun w => w ^^^ 1 ≠ w) (by decide +kernel) w
      exact this
    exact this _ h
  · refine passes_goes_on hn _ (fun c _ inp m h1 _ t => ?_) q inp b k
    obtain ⟨g1, x, g2, g3⟩ := storing_stream t
    refine ⟨by omega, by rw [g2], fun i hi => ?_, fun i hi hm => ?_⟩
    · rw [g2]
      show 128 ≤ inp i ↔ 128 ≤ (if i = 0 ∧ 32 < m then x 0 ^^^ 1 else x i)
      rw [← g3 i (by omega)]
      split
      · rename_i h
        rw [h.1]
        exact byte_forall (P := fun w => 128 ≤ w ↔ 128 ≤ w ^^^ 1) (by decide +kernel) (x 0)
      · exact Iff.rfl
    · rw [g2]
      show inp i = (if i = 0 ∧ 32 < m then x 0 ^^^ 1 else x i)
      rw [if_neg (by omega), g3 i hm]

end Hrk.Fuzz
