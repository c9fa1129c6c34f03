import Verif.FuzzFile
import Verif.PropsFuzzRun
import Verif.PropsReport

/-
C69, in the fuzzer: the file and the report belong to the input that failed.
-/

namespace Hrk.Fuzz

open Hrk.Cli (CodecT)
open Hrk.Report

/-- A codec gave back as many bytes as it got, and some of them are wrong: the file holds the input, if it could be opened, and the report
is about the first wrong byte. Any other failure leaves neither. -/
def Explains (opened : Bool) {e : RunEnv} {room : Nat} {c : CodecT} {inp : Mem} {n : Nat} (t : Try e room c inp n) (file : List Byte)
    (text : List Char) : Prop :=
  (t.size ≠ 0 ∧ t.result.1 = n → file = (if opened then rd inp 0 n else []) ∧
    ∃ i, FirstDiff (rd inp 0 n) (rd t.result.2 0 n) n i ∧
      text = heading i (inp i) (t.result.2 i) (i - 64) (min n (i + 64)) ++ (List.range (rowCount (i - 64) (min n (i + 64)))).flatMap fun r =>
        rowText (rd inp 0 n) (rd t.result.2 0 n) (min n (i + 64)) (i - 64 + 16 * r)) ∧
  (¬(t.size ≠ 0 ∧ t.result.1 = n) → file = [] ∧ text = [])

theorem rd_at (m : Mem) {n i : Nat} (h : i < n) : (rd m 0 n).getD i 0 = m i := by
  rw [rd_getD _ _ _ _ _ h, Nat.zero_add]

theorem testOneL_spec (opened : Bool) {e : RunEnv} {room outRoom : Nat} {inp : Mem} {n : Nat} (hr : room < 4294967296) (hn : n < 4294967296)
    (ho : n ≤ outRoom) (c : CodecT) (b : Mem × Mem) :
    ∃ t : Try e room c inp n, t.Fresh ∧ ((t.Passes ∧ ∃ b', testOneL opened e room outRoom inp n c b = .ok b') ∨
      (¬t.Passes ∧ ∃ file text, testOneL opened e room outRoom inp n c b = .error ⟨.trap, file, text⟩ ∧ Explains opened t file text)) := by
  let r := e.comp c inp n b.1 room
  let buf : Mem := fun i => if r.1 ≤ i ∧ i < min room (n + 64) then ~~~(r.2 i) else r.2 i
  let out : Mem := fun i => if i < n then 0 else b.2 i
  refine ⟨⟨b.1, buf, out, fun i hi => if_neg (by show ¬(r.1 ≤ i ∧ _); have : i < r.1 := hi; omega)⟩,
    ⟨fun i hi => if_pos hi, fun i h1 h2 h3 => ?_⟩, ?_⟩
  · show buf i ≠ r.2 i
    have hb : buf i = ~~~(r.2 i) := if_pos ⟨h1, by omega⟩
    rw [hb]
    exact byte_forall (P := fun w => ~~~w ≠ w) (by decide +kernel) (r.2 i)
  unfold Explains Try.Passes Try.result Try.size
  dsimp only
  unfold testOneL
  rw [Nat.mod_eq_of_lt hr, Nat.mod_eq_of_lt hn]
  dsimp only
  show (_ ∧ _ ∧ Seen inp (e.dec c buf r.1 out n).2 n) ∧ _ ∨ ¬(r.1 ≠ 0 ∧ (e.dec c buf r.1 out n).1 = n ∧ Seen inp (e.dec c buf r.1 out n).2 n) ∧ _
  by_cases h0 : r.1 = 0
  · right
    exact ⟨fun h => h.1 h0, [], [], if_pos h0, fun h => absurd h0 h.1, fun _ => ⟨rfl, rfl⟩⟩
  · have hu : ¬((r.1 < min room (n + 64) ∧ room < min room (n + 64)) ∨ outRoom < n) := by omega
    by_cases h1 : (e.dec c buf r.1 out n).1 = n
    · obtain ⟨x, hx⟩ := C39_compare_safe e.aIn e.aOut inp (e.dec c buf r.1 out n).2 n
      have hs := C39_compare_exact e.aIn e.aOut inp (e.dec c buf r.1 out n).2 n
      cases x with
      | true =>
        left
        refine ⟨⟨h0, h1, hs.mp hx⟩, (buf, (e.dec c buf r.1 out n).2), ?_⟩
        rw [if_neg h0, if_neg hu]
        show (if (e.dec c buf r.1 out n).1 ≠ n then _ else _) = _
        rw [if_neg (not_not_intro h1)]
        show (match CmpArgs.memoryEquals ⟨e.aIn, e.aOut, inp, (e.dec c buf r.1 out n).2, n⟩ with
          | none => _ | some false => _ | some true => Except.ok _) = _
        rw [hx]
      | false =>
        right
        have hne : ¬Seen inp (e.dec c buf r.1 out n).2 n := fun h => by rw [hs.mpr h] at hx; cases hx
        generalize (e.dec c buf r.1 out n).2 = o at hx hne ⊢
        have hdiff : ∃ i, FirstDiff (rd inp 0 n) (rd o 0 n) n i := by
          rcases C69_cases (rd inp 0 n) (rd o 0 n) n with h | h
          · exfalso
            refine hne ⟨fun i hi => ?_, fun i _ hi => ?_⟩
            · have := h i (by omega)
              rw [rd_at _ (by omega), rd_at _ (by omega)] at this
              rw [this]
            · have := h i hi
              rwa [rd_at _ hi, rd_at _ hi] at this
          · exact h
        obtain ⟨i, hi⟩ := hdiff
        have hf := findFirst_eq (by rw [rd_length]) (by rw [rd_length]) hi n 0 (by omega) (by omega)
        rw [rd_at _ hi.1, rd_at _ hi.1] at hf
        refine ⟨fun h => hne h.2.2, _, _, ?_, fun _ => ⟨rfl, i, hi, rfl⟩, fun h => absurd ⟨h0, h1⟩ h⟩
        rw [if_neg h0, if_neg hu, if_neg (not_not_intro h1), hx, hf]
    · right
      refine ⟨fun h => h1 h.2.1, [], [], ?_, fun h => absurd h.2 h1, fun _ => ⟨rfl, rfl⟩⟩
      rw [if_neg h0, if_neg hu]
      exact if_pos h1

theorem testAllL_spec (opened : Bool) {e : RunEnv} {room outRoom : Nat} {inp : Mem} {n : Nat} (hr : room < 4294967296) (hn : n < 4294967296)
    (ho : n ≤ outRoom) : ∀ (cs : List CodecT) (b : Mem × Mem),
      (∃ b', testAllL opened e room outRoom inp n cs b = .ok b') ∨
      (∃ c ∈ cs, ∃ t : Try e room c inp n, t.Fresh ∧ ¬t.Passes ∧ ∃ file text, testAllL opened e room outRoom inp n cs b = .error ⟨.trap, file, text⟩ ∧
        Explains opened t file text)
  | [], b => Or.inl ⟨b, rfl⟩
  | c :: cs, b => by
    unfold testAllL
    obtain ⟨t, hf, ⟨h1, b1, h2⟩ | ⟨h1, f, x, h2, h3⟩⟩ := testOneL_spec opened (e := e) (inp := inp) hr hn ho c b
    · rw [h2]
      dsimp only
      rcases testAllL_spec opened hr hn ho cs b1 with g | ⟨c', g0, g⟩
      · exact Or.inl g
      · exact Or.inr ⟨c', List.mem_cons_of_mem _ g0, g⟩
    · rw [h2]
      exact Or.inr ⟨c, List.mem_cons_self .., t, hf, h1, f, x, rfl, h3⟩

/-! ### Nothing else changes -/

theorem testOneL_how (opened : Bool) {e : RunEnv} {room outRoom : Nat} {inp : Mem} {n : Nat} (hr : room < 4294967296) (hn : n < 4294967296)
    (ho : n ≤ outRoom) (c : CodecT) (b : Mem × Mem) :
    (match testOneL opened e room outRoom inp n c b with | .ok b => Except.ok b | .error x => .error x.how) = testOne e room outRoom inp n c b := by
  have hspec := testOneL_spec opened (e := e) (inp := inp) hr hn ho c b
  unfold testOneL testOne at *
  dsimp only at *
  split
  · next b' h' =>
    split at h'
    · cases h'
    · next h0 =>
      rw [if_neg h0] at *
      split at h'
      · cases h'
      · next hu =>
        rw [if_neg hu] at *
        split at h'
        · cases h'
        · next h1 =>
          rw [if_neg h1]
          split at h'
          · cases h'
          · split at h' <;> cases h'
          · next hx =>
            rw [hx]
            injection h' with h'
            rw [← h']
  · next x h' =>
    rw [h'] at hspec
    obtain ⟨_, _, ⟨_, _, hc⟩ | ⟨_, f, tx, hc, _⟩⟩ := hspec
    · cases hc
    · cases hc
      split at h'
      · next h0 => rw [if_pos h0]
      · next h0 =>
        rw [if_neg h0] at *
        split at h'
        · cases h'
        · next hu =>
          rw [if_neg hu] at *
          split at h'
          · next h1 => rw [if_pos h1]
          · next h1 =>
            rw [if_neg h1]
            split at h'
            · cases h'
            · next hx => rw [hx]
            · cases h'

theorem testAllL_how (opened : Bool) {e : RunEnv} {room outRoom : Nat} {inp : Mem} {n : Nat} (hr : room < 4294967296) (hn : n < 4294967296)
    (ho : n ≤ outRoom) : ∀ (cs : List CodecT) (b : Mem × Mem),
    (match testAllL opened e room outRoom inp n cs b with | .ok b => Except.ok b | .error x => .error x.how) = testAll e room outRoom inp n cs b
  | [], _ => rfl
  | c :: cs, b => by
    have h1 := testOneL_how opened (e := e) (inp := inp) hr hn ho c b
    unfold testAllL testAll
    cases ho : testOneL opened e room outRoom inp n c b with
    | error x =>
      rw [ho] at h1
      dsimp only at h1 ⊢
      rw [← h1]
    | ok b' =>
      rw [ho] at h1
      dsimp only at h1 ⊢
      rw [← h1]
      exact testAllL_how opened hr hn (by assumption) cs b'

theorem fuzzLoopL_how (opened : Bool) {n : Nat} {it : Bool} (hn : SectionsOk n it) (e : RunEnv) :
    ∀ (k i : Nat) (s : State) (inp : Mem) (b : Mem × Mem), Reach n it s →
      (fuzzLoopL opened e (n * 65560 * 16) k i s inp b).how = fuzzLoop e (n * 65560 * 16) k i s inp b := by
  intro k
  induction k with
  | zero => intros; rfl
  | succ k ih =>
    intro i s inp b hs
    obtain ⟨m, inp', f1, f2, f3⟩ := round_ok hn hs (e.fillQ i) inp
    have hcap : n * 65560 * 16 ≤ 4194304000 + 1536000 := by have := hn.1; omega
    have hroom := (fuzzBuffer_eq hcap).2
    unfold fuzzLoopL fuzzLoop
    rw [f1]
    dsimp only
    have h1 := testAllL_how opened (e := e) (room := fuzzBuffer (n * 65560 * 16)) (outRoom := n * 65560 * 16 + addSize) (inp := inp') (n := m)
      (by omega) (by omega) (by omega) fuzzCodecs b
    rw [← h1]
    cases ht : testAllL opened e (fuzzBuffer (n * 65560 * 16)) (n * 65560 * 16 + addSize) inp' m fuzzCodecs b with
    | error x => rfl
    | ok b' =>
      dsimp only
      obtain ⟨x, s1, hx⟩ := advance_ok hn hs (e.advQ i)
      rw [hx]
      cases x with
      | false => rfl
      | true => exact ih (i + 1) s1 inp' b' (Reach.advance _ hs hx)

theorem fuzzLoopL_spec (opened : Bool) {n : Nat} {it : Bool} (hn : SectionsOk n it) (e : RunEnv) :
    ∀ (k i : Nat) (s : State) (inp : Mem) (b : Mem × Mem), Reach n it s →
      ((fuzzLoopL opened e (n * 65560 * 16) k i s inp b).how ≠ .trap ∧ (fuzzLoopL opened e (n * 65560 * 16) k i s inp b).file = [] ∧
        (fuzzLoopL opened e (n * 65560 * 16) k i s inp b).text = []) ∨
      ((fuzzLoopL opened e (n * 65560 * 16) k i s inp b).how = .trap ∧
        ∃ j s', Turn e i s j s' ∧ j < i + k ∧ ∃ r : Round e (n * 65560 * 16) j s', 0 < r.size ∧
          ∃ c, c ≠ .MemCopy ∧ ∃ t : Try e (fuzzBuffer (n * 65560 * 16)) c r.inp r.size, t.Fresh ∧ ¬t.Passes ∧
            Explains opened t (fuzzLoopL opened e (n * 65560 * 16) k i s inp b).file (fuzzLoopL opened e (n * 65560 * 16) k i s inp b).text) := by
  intro k
  induction k with
  | zero => intro i s inp b _; exact Or.inl ⟨(fun h => by cases h), rfl, rfl⟩
  | succ k ih =>
    intro i s inp b hs
    obtain ⟨m, inp', f1, f2, f3⟩ := round_ok hn hs (e.fillQ i) inp
    have hcap : n * 65560 * 16 ≤ 4194304000 + 1536000 := by have := hn.1; omega
    have hroom := (fuzzBuffer_eq hcap).2
    rcases testAllL_spec opened (e := e) (room := fuzzBuffer (n * 65560 * 16)) (outRoom := n * 65560 * 16 + addSize) (inp := inp') (n := m)
      (by omega) (by omega) (by omega) fuzzCodecs b with ⟨b', g⟩ | ⟨c, g0, t, g1, g2, f, x, g3, g4⟩
    · obtain ⟨y, s1, hx⟩ := advance_ok hn hs (e.advQ i)
      cases y with
      | false =>
        have he : fuzzLoopL opened e (n * 65560 * 16) (k + 1) i s inp b = ⟨.returns true, [], []⟩ := by
          rw [fuzzLoopL, f1]
          dsimp only
          rw [g]
          dsimp only
          rw [hx]
        rw [he]
        exact Or.inl ⟨(fun h => by cases h), rfl, rfl⟩
      | true =>
        have he : fuzzLoopL opened e (n * 65560 * 16) (k + 1) i s inp b = fuzzLoopL opened e (n * 65560 * 16) k (i + 1) s1 inp' b' := by
          rw [fuzzLoopL, f1]
          dsimp only
          rw [g]
          dsimp only
          rw [hx]
        rw [he]
        rcases ih (i + 1) s1 inp' b' (Reach.advance _ hs hx) with h | ⟨h1, j, s', h2, h3, h4⟩
        · exact Or.inl h
        · exact Or.inr ⟨h1, j, s', Turn.next hx h2, by omega, h4⟩
    · have he : fuzzLoopL opened e (n * 65560 * 16) (k + 1) i s inp b = ⟨.trap, f, x⟩ := by
        rw [fuzzLoopL, f1]
        dsimp only
        rw [g3]
      rw [he]
      exact Or.inr ⟨rfl, i, s, Turn.here i s, by omega, ⟨inp, m, inp', f1⟩, f2, c, (mem_fuzzCodecs c).mp g0, t, g1, g2, g4⟩

theorem fuzzL_eq (opened : Bool) (e : RunEnv) (q : Draws) (n : Nat) (it : Bool) (inp : Mem) (b : Mem × Mem) (k : Nat) :
    fuzzL opened e true q n it inp b k = fuzzLoopL opened e (n * 65560 * 16) k 0 (create q n it) inp b := by
  unfold fuzzL State.capacity
  rw [(create_sane q n it).len]
  rfl

/-! ### The property -/

/-- C69: following what is written does not change what the fuzzer does (`fuzz` is the run C56 is about). -/
theorem C69_same_run (opened : Bool) {n : Nat} {it : Bool} (hn : SectionsOk n it) (e : RunEnv) (q : Draws) (inp : Mem) (b : Mem × Mem) (k : Nat) :
    (fuzzL opened e true q n it inp b k).how = fuzz e true q n it inp b k := by
  rw [fuzzL_eq, fuzz_eq]
  exact fuzzLoopL_how opened hn e k 0 _ inp b (Reach.create q)

/-- C69, full statement: when the fuzzer stops, `fuzz-failure.bin` holds the input that made a codec fail. Proved: a run that is not stopped
leaves the file empty. A run that is stopped was stopped by a codec that failed with the input of one of its rounds, and if that codec
returned the right size, the file (if it could be opened) holds exactly that input, and the report names the first wrong byte of what the
codec gave back. Missing: the failures in which the codec returns another size, which leave the file empty (`C69_file_violated`). -/
theorem C69_file_partial (opened : Bool) {n : Nat} {it : Bool} (hn : SectionsOk n it) (e : RunEnv) (q : Draws) (inp : Mem) (b : Mem × Mem) (k : Nat) :
    let l := fuzzL opened e true q n it inp b k
    (l.how ≠ .trap ∧ l.file = [] ∧ l.text = []) ∨
    (l.how = .trap ∧ ∃ j s, Turn e 0 (create q n it) j s ∧ j < k ∧ ∃ r : Round e (n * 65560 * 16) j s, 0 < r.size ∧
      ∃ c, c ≠ .MemCopy ∧ ∃ t : Try e (fuzzBuffer (n * 65560 * 16)) c r.inp r.size, t.Fresh ∧ ¬t.Passes ∧ Explains opened t l.file l.text) := by
  intro l
  have hl : l = fuzzLoopL opened e (n * 65560 * 16) k 0 (create q n it) inp b := fuzzL_eq opened e q n it inp b k
  rw [hl]
  have h := fuzzLoopL_spec opened hn e k 0 (create q n it) inp b (Reach.create q)
  rwa [Nat.zero_add] at h

/-- C69: the file is empty although the fuzzer was stopped, whenever the codecs fail by returning a size that is too small. -/
theorem C69_file_violated {n : Nat} {it : Bool} (hn : SectionsOk n it) (q : Draws) (inp : Mem) (b : Mem × Mem) (k : Nat) :
    let l := fuzzL true (storing fun n m => (n - 1, m)) true q n it inp b (k + 1)
    l.how = .trap ∧ l.file = [] ∧ l.text = [] := by
  intro l
  have hl : l = fuzzLoopL true (storing fun n m => (n - 1, m)) (n * 65560 * 16) (k + 1) 0 (create q n it) inp b := fuzzL_eq _ _ q n it inp b (k + 1)
  rcases C69_file_partial true hn (storing fun n m => (n - 1, m)) q inp b (k + 1) with ⟨h1, _⟩ | ⟨h1, j, s, _, _, r, r0, c, _, t, _, _, h2⟩
  · exfalso
    obtain ⟨m, inp', f1, f2, f3⟩ := round_ok hn (Reach.create q) ((storing fun n m => (n - 1, m)).fillQ 0) inp
    have hcap : n * 65560 * 16 ≤ 4194304000 + 1536000 := by have := hn.1; omega
    have hroom := (fuzzBuffer_eq hcap).2
    apply h1
    show l.how = _
    rw [hl, fuzzLoopL, f1]
    dsimp only
    rcases testAllL_spec true (e := storing fun n m => (n - 1, m)) (room := fuzzBuffer (n * 65560 * 16)) (outRoom := n * 65560 * 16 + addSize)
      (inp := inp') (n := m) (by omega) (by omega) (by omega) fuzzCodecs b with ⟨b', g⟩ | ⟨c, g0, t, g1, g2, f, x, g3, g4⟩
    · exfalso
      have hc : fuzzCodecs = CodecT.ofNat 0 :: ((List.range 120).map CodecT.ofNat).tail := rfl
      rw [hc, testAllL] at g
      obtain ⟨t, _, ⟨hp, _⟩ | ⟨_, f, x, hq, _⟩⟩ := testOneL_spec true (e := storing fun n m => (n - 1, m)) (room := fuzzBuffer (n * 65560 * 16))
        (outRoom := n * 65560 * 16 + addSize) (inp := inp') (n := m) (by omega) (by omega) (by omega) (CodecT.ofNat 0) b
      · obtain ⟨_, x, h2, _⟩ := storing_stream t
        have := hp.2.1
        rw [h2] at this
        dsimp only at this
        omega
      · rw [hq] at g
        cases g
    · rw [g3]
  · refine ⟨h1, ?_⟩
    refine h2.2 fun h => ?_
    obtain ⟨_, x, h3, _⟩ := storing_stream t
    have := h.2
    rw [h3] at this
    dsimp only at this
    omega

/-- C69: the check of the benchmark with its report accepts exactly what the check of C45 accepts. -/
theorem C69_same_check (data : List Byte) (out : Mem) :
    ∃ text, validate data (rd out 0 data.length) data.length = some (Hrk.Cli.validateData data out, text) := by
  have hl : data.length ≤ (rd out 0 data.length).length := by rw [rd_length]
  rcases C69_cases data (rd out 0 data.length) data.length with h | ⟨i, h⟩
  · refine ⟨[], ?_⟩
    rw [C69_equal _ _ _ (Nat.le_refl _) hl h]
    have : Hrk.Cli.validateData data out = true := by
      unfold Hrk.Cli.validateData
      rw [List.all_eq_true]
      intro k hk
      rw [List.mem_range] at hk
      have := h k hk
      rw [rd_at _ hk] at this
      rw [this, beq_self_eq_true]
    rw [this]
  · have hv := C69_report _ _ _ i (Nat.le_refl _) hl h
    have : Hrk.Cli.validateData data out = false := by
      cases hv : Hrk.Cli.validateData data out with
      | false => rfl
      | true =>
        unfold Hrk.Cli.validateData at hv
        rw [List.all_eq_true] at hv
        have h1 := hv i (List.mem_range.mpr h.1)
        have h2 := h.2.1
        rw [rd_at _ h.1] at h2
        exact absurd (beq_iff_eq.mp h1).symm h2
    rw [this]
    exact ⟨_, hv⟩

/-! ### Examples -/

/-- The hypothesis is met by what src/main.c asks for. -/
example : SectionsOk 6 true ∧ SectionsOk 8 false := ⟨⟨by decide, by decide⟩, ⟨by decide, by decide⟩⟩

/-- There are codecs whose failure is explained: here the first byte of every output is changed in its top bit. -/
example (room : Nat) (c : CodecT) (inp : Mem) (t : Try (storing fun n m => (n, fun i => if i = 0 then m 0 ^^^ 128 else m i)) room c inp 3) :
    t.size ≠ 0 ∧ t.result.1 = 3 ∧ ¬t.Passes := by
  obtain ⟨h1, x, h2, h3⟩ := storing_stream t
  refine ⟨by omega, by rw [h2], fun h => ?_⟩
  have h4 := h.2.2.2 0 (by decide) (by decide)
  rw [h2] at h4
  dsimp only at h4
  rw [if_pos rfl, h3 0 (by decide)] at h4
  exact byte_forall (P := fun w => w ≠ w ^^^ 128) (by decide +kernel) (inp 0) h4

end Hrk.Fuzz
