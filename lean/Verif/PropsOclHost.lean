import Verif.OclHold

/-
C55: the OpenCL functions give back what they take, once, in every history of calls and whatever calls of the driver fail.
The specification (`Sound`, `AllGiven`, `leavesPending`) is at the top of `OclHost`.
-/

namespace Hrk

/-- A driver that reports a device only if there is one. -/
def Truthful (e : InitEnv) : Prop := e.ids = true → e.ret .device = true → e.got .device = true

/-- The driver behaves like that in a call. -/
def OclOp.truthful : OclOp → Prop
  | .init e _ _ _ => Truthful e
  | .destroy => True
  | .decompress e _ _ _ _ _ => Truthful e

/-- `rle8m_opencl_init` starts over although there was a list of platforms before, and gives up before it has a new one. -/
def FreesTwice (h : Host) (e : InitEnv) (i o s : Nat) : Prop := h.enough i o s = false ∧ Early e ∧ h.v .platforms ≠ none

/-- The calls that go wrong. -/
def OclOp.wrong (h : Host) : OclOp → Prop
  | .init e i o s => FreesTwice h e i o s
  | .destroy => False
  | .decompress e _ _ i o k => h.ready = false ∨ h.sizes.2.2 < k ∨ FreesTwice h e i o k

theorem use_enough (h : Host) (s : Slot) (i o k : Nat) : (h.use s).enough i o k = h.enough i o k := by
  unfold Host.enough
  rw [(use_ready h s).1, (use_ready h s).2.1]

theorem run_right {h : Host} {op : OclOp} (ht : op.truthful) (H : Rest h) (hw : ¬ op.wrong h) : Rest (op.run h) := by
  have hl : ∀ L, heldFrom L [OclEv.leave] = some L := fun _ => rfl
  cases op with
  | init e i o s =>
    rcases init_spec ht H i o s with ⟨h1, h2, h3, _⟩ | ⟨_, hr, _⟩
    · exact absurd ⟨h1, h2, h3⟩ hw
    · exact hr.emit hl
  | destroy => exact H.destroy.emit hl
  | decompress e ok one i o k =>
    simp only [OclOp.wrong, not_or, Bool.not_eq_false, Nat.not_lt] at hw
    obtain ⟨hr, hk, hf⟩ := hw
    have hu := Rest.uses [.offsets] H hr (by decide)
    have hfill : h.fillOffsets k = h.use .offsets := by
      unfold Host.fillOffsets
      rw [if_neg (fun hh => absurd hh.2 (by omega))]
    have hI := init_spec (e := e) ht (h := h.use .offsets) hu.1 i o k
    show Rest (Host.emit (h.decompress e ok one i o k).1 _)
    refine Rest.emit ?_ hl
    unfold Host.decompress
    rw [hfill]
    dsimp only
    rcases hI with ⟨h1, h2, h3, _⟩ | ⟨_, hR, hon, _⟩
    · rw [use_enough] at h1
      rw [(use_ready h .offsets).2.2] at h3
      exact absurd ⟨h1, h2, h3⟩ hf
    · split
      · next hc => exact (untilFalse_keeps _ (runCalls_keeps ok one) _ hR (hon hc).1).1
      · exact hR

theorem run_wrong {h : Host} {op : OclOp} (ht : op.truthful) (H : Rest h) (hw : op.wrong h) : Unsound (op.run h) := by
  cases op with
  | init e i o s =>
    rcases init_spec ht H i o s with ⟨_, _, _, h4⟩ | ⟨h5, _⟩
    · exact Unsound.emit h4 _
    · obtain ⟨h1, h2, h3⟩ := hw
      rcases h5 with h5 | h5 | h5
      · rw [h1] at h5; cases h5
      · exact absurd h2 h5
      · exact absurd h5 h3
  | destroy => exact absurd hw id
  | decompress e ok one i o k =>
    show Unsound (Host.emit (h.decompress e ok one i o k).1 _)
    refine Unsound.emit ?_ _
    unfold Host.decompress
    dsimp only
    have key : Unsound ((h.fillOffsets k).init e i o k).1 := by
      have stray : ∀ g : Host, Rest g → Unsound (g.emit .stray) := by
        intro g hg
        obtain ⟨L, hL, _⟩ := hg.own
        unfold Unsound
        rw [held_emit, hL]; rfl
      by_cases hr : h.ready = false
      · refine Unsound.init ?_ e i o k
        have hn := H.off hr .offsets (by decide)
        have : h.fillOffsets k = h.emit .stray := by
          unfold Host.fillOffsets
          rw [if_neg (fun hh => hh.1 hn)]
          unfold Host.use
          rw [hn]
        rw [this]; exact stray h H
      · have hr : h.ready = true := by simpa using hr
        by_cases hk : h.sizes.2.2 < k
        · refine Unsound.init ?_ e i o k
          have : h.fillOffsets k = h.emit .stray := by
            unfold Host.fillOffsets
            rw [if_pos ⟨H.on hr .offsets (by decide), hk⟩]
          rw [this]; exact stray h H
        · have hf : FreesTwice h e i o k := by
            rcases hw with hw | hw | hw
            · rw [hr] at hw; cases hw
            · exact absurd hw hk
            · exact hw
          have hfill : h.fillOffsets k = h.use .offsets := by
            unfold Host.fillOffsets
            rw [if_neg (fun hh => hk hh.2)]
          rw [hfill]
          have hu := Rest.uses [.offsets] H hr (by decide)
          rcases init_spec (e := e) ht (h := h.use .offsets) hu.1 i o k with ⟨_, _, _, h4⟩ | ⟨h5, _⟩
          · exact h4
          · obtain ⟨h1, h2, h3⟩ := hf
            rw [use_enough, (use_ready h .offsets).2.2] at h5
            rcases h5 with h5 | h5 | h5
            · rw [h1] at h5; cases h5
            · exact absurd h2 h5
            · exact absurd h5 h3
    split
    · exact key.calls ok one
    · exact key

theorem hostRun_spec (ops : List OclOp) (ht : ∀ op ∈ ops, op.truthful) :
    (Unsound (hostRun ops) ↔ ∃ pre op post, ops = pre ++ op :: post ∧ op.wrong (hostRun pre)) ∧
      (¬ Unsound (hostRun ops) → Rest (hostRun ops)) :=
  fold_bad (f := OclOp.run) (good := OclOp.truthful) (inv := Rest) (bad := Unsound) (T := fun h op => op.wrong h)
    (fun _ _ => run_wrong) (fun _ _ => run_right) (fun _ H => H.sound) (fun _ op H => H.run op) ops host0 ht rest_host0

/-- C55, the calls that go wrong, exactly: in a history of calls something is given back twice, or used without being there, if and only if at some
point `rle8m_opencl_decompress` is called while the library is not initialised, or with more sections than it was initialised for, or
initialisation starts over after an earlier one had a list of platforms, and gives up before it has a new list. All else (any call
of the driver failing, anywhere, in any order) is dealt with correctly. -/
theorem C55_exact (ops : List OclOp) (ht : ∀ op ∈ ops, op.truthful) :
    Sound (hostRun ops).log ↔ ∀ pre op post, ops = pre ++ op :: post → ¬ op.wrong (hostRun pre) := by
  have := (hostRun_spec ops ht).1
  unfold Sound
  unfold Unsound at this
  rw [Ne, this]
  exact ⟨fun h pre op post he hw => h ⟨pre, op, post, he, hw⟩, fun h ⟨pre, op, post, he, hw⟩ => h pre op post he hw⟩

/-- C55, partial: missing is that this holds without the last two hypotheses (see `C55_double_free_violated`, `C10_uninitialised_violated` and
`C10_reinit_violated`). If no initialisation fails at its first two calls, and decompression is only asked for after an initialisation for at least as many
sections, then whatever else fails nothing is given back twice or used without being there. -/
theorem C55_sound_partial (ops : List OclOp) (ht : ∀ op ∈ ops, op.truthful)
    (hearly : ∀ op ∈ ops, match op with
      | .init e _ _ _ => e.got .offsets = true ∧ e.count = true
      | .destroy => True
      | .decompress e _ _ _ _ _ => e.got .offsets = true ∧ e.count = true)
    (hready : ∀ pre post e ok one i o k, ops = pre ++ .decompress e ok one i o k :: post →
      (hostRun pre).ready = true ∧ k ≤ (hostRun pre).sizes.2.2) :
    Sound (hostRun ops).log := by
  rw [C55_exact ops ht]
  intro pre op post he hw
  have hmem : op ∈ ops := by rw [he]; simp
  have hE := hearly op hmem
  cases op with
  | init e i o s =>
    obtain ⟨_, h2, _⟩ := hw
    rcases h2 with h2 | h2
    · rw [hE.1] at h2; cases h2
    · rw [hE.2] at h2; cases h2
  | destroy => exact hw
  | decompress e ok one i o k =>
    have hr := hready pre post e ok one i o k he
    rcases hw with hw | hw | hw
    · rw [hr.1] at hw; cases hw
    · omega
    · rcases hw.2.1 with h2 | h2
      · rw [hE.1] at h2; cases h2
      · rw [hE.2] at h2; cases h2

/-- C55: in a history without such a mistake, everything has been given back whenever the library is not initialised: after
`rle8m_opencl_destroy`, and after an initialisation that failed, wherever it failed. -/
theorem C55_nothing_left (ops : List OclOp) (ht : ∀ op ∈ ops, op.truthful) (hs : Sound (hostRun ops).log)
    (hr : (hostRun ops).ready = false) : AllGiven (hostRun ops).log :=
  ((hostRun_spec ops ht).2 hs).off_held hr

/-- C55: the last of these calls is `rle8m_opencl_destroy`. -/
theorem C55_destroyed (ops : List OclOp) (ht : ∀ op ∈ ops, op.truthful) (hs : Sound (hostRun ops).log) :
    AllGiven (hostRun (ops ++ [.destroy])).log := by
  have hR := (hostRun_spec ops ht).2 hs
  have : hostRun (ops ++ [.destroy]) = (hostRun ops).destroy.emit .leave := by
    simp [hostRun, OclOp.run]
  rw [this]
  exact (hR.destroy.emit (e := .leave) fun _ => rfl).off_held (destroy_ready _)

/-- C55: an initialisation that returns `false` has given back everything; one that returns `true` leaves no variable `NULL` that
decompression uses. -/
theorem C55_all_or_nothing (ops : List OclOp) (ht : ∀ op ∈ ops, op.truthful) (e : InitEnv) (i o s : Nat) (he : Truthful e)
    (hs : Sound ((hostRun ops).init e i o s).1.log) :
    (((hostRun ops).init e i o s).2 = false → AllGiven ((hostRun ops).init e i o s).1.log) ∧
    (((hostRun ops).init e i o s).2 = true → ∀ t, t ≠ .platforms → ((hostRun ops).init e i o s).1.v t ≠ none) := by
  have hR : Rest (hostRun ops) := (hostRun_spec ops ht).2 fun hu => hs (Unsound.init hu e i o s)
  rcases init_spec he hR i o s with ⟨_, _, _, h4⟩ | ⟨_, hr, h1, h2⟩
  · exact absurd h4 hs
  · exact ⟨fun h => hr.off_held (h2 h), fun h => hr.on (h1 h).1⟩

/-- A driver whose calls all succeed. -/
def fineEnv : InitEnv := ⟨fun _ => true, fun _ => true, true, true, true, fun log => log.length⟩

/-- No memory for the offsets. -/
def noMemEnv : InitEnv := { fineEnv with got := fun s => decide (s ≠ .offsets) }

theorem init_fresh {e : InitEnv} (he : Truthful e) {h : Host} (H : Rest h) {i o s : Nat} (hr : (h.init e i o s).2 = true)
    (hen : h.enough i o s = false) :
    (h.init e i o s).1.v .platforms ≠ none ∧ (h.init e i o s).1.ready = true ∧ (h.init e i o s).1.sizes = (i, o, s) := by
  revert hr
  unfold Host.init
  rw [hen]
  simp only [Bool.false_eq_true, if_false]
  have hg : Rest (if h.ready then h.destroy else h) ∧ (if h.ready then h.destroy else h).ready = false := by
    split
    · exact ⟨H.destroy, destroy_ready h⟩
    · next hr => exact ⟨H, by simpa using hr⟩
  revert hg
  generalize (if h.ready then h.destroy else h) = g
  rintro ⟨Hg, hgr⟩ hr
  rcases steps_spec he Hg hgr with ⟨_, _, hf, _⟩ | ⟨_, _, hT⟩
  · rw [hf] at hr; cases hr
  · rw [hr]
    simp only [if_true]
    rw [(freePlatforms_v _).1, (freePlatforms_v _).2.1, (freePlatforms_v _).2.2]
    exact ⟨hT hr _, rfl, rfl⟩

/-- C55, violated: after an initialisation that succeeded, one with larger sizes that fails at its first allocation, or finds no platform any more,
gives back the list of platforms of the first one for a second time (`pPlatforms` is freed at the end of every initialisation and keeps its value). -/
theorem C55_double_free_violated (e₁ e₂ : InitEnv) (h₁ : Truthful e₁) (h₂ : Truthful e₂) (i o s i' o' s' : Nat)
    (hok : (host0.init e₁ i o s).2 = true) (hearly : e₂.got .offsets = false ∨ e₂.count = false)
    (hlarger : i < i' ∨ o < o' ∨ s < s') : ¬ Sound (hostRun [.init e₁ i o s, .init e₂ i' o' s']).log := by
  rw [C55_exact _ (by
    intro op hop
    simp only [List.mem_cons, List.not_mem_nil, or_false] at hop
    rcases hop with rfl | rfl
    · exact h₁
    · exact h₂)]
  intro hc
  refine hc [.init e₁ i o s] (.init e₂ i' o' s') [] rfl ?_
  obtain ⟨hp, _, hz⟩ := init_fresh h₁ rest_host0 hok rfl
  refine ⟨?_, hearly, hp⟩
  show Host.enough (Host.emit (host0.init e₁ i o s).1 _) i' o' s' = false
  have : ∀ g : Host, g.sizes = (i, o, s) → Host.enough (g.emit .leave) i' o' s' = false := by
    intro g hg
    show (g.ready && (decide (i' ≤ g.sizes.1) && decide (o' ≤ g.sizes.2.1) && decide (s' ≤ g.sizes.2.2))) = false
    rw [hg]
    rcases hlarger with h | h | h
    · rw [decide_eq_false (by show ¬ i' ≤ i; omega)]; simp
    · rw [decide_eq_false (p := o' ≤ (i, o, s).2.1) (by show ¬ o' ≤ o; omega)]; simp
    · rw [decide_eq_false (p := s' ≤ (i, o, s).2.2) (by show ¬ s' ≤ s; omega)]; simp
  exact this _ hz

/-! ### The hypotheses can be met -/

example : Truthful fineEnv ∧ Truthful noMemEnv := ⟨fun _ _ => rfl, fun _ _ => rfl⟩

example : (host0.init fineEnv 100 200 4).2 = true := by decide

/-- Initialise, decompress (the driver fails at the seventh call), start over with larger buffers of which the third cannot be had: all is given back. -/
example : AllGiven (hostRun [.init fineEnv 100 200 4, .decompress fineEnv (fun i => i != 6) false 90 200 4,
    .init { fineEnv with got := fun s => decide (s ≠ .rle) } 1000 200 4]).log := by unfold AllGiven; decide

/-- And the second time without memory for the offsets. -/
example : ¬ Sound (hostRun [.init fineEnv 100 200 4, .init noMemEnv 1000 200 4]).log :=
  C55_double_free_violated fineEnv noMemEnv (fun _ _ => rfl) (fun _ _ => rfl) 100 200 4 1000 200 4 (by decide) (Or.inl (by decide))
    (Or.inl (by decide))

/-! ### Transfers -/

/-- Is a transfer going on? -/
def pendAfter : Bool → List OclEv → Bool
  | p, [] => p
  | _, .send :: es => pendAfter true es
  | _, .finish :: es => pendAfter false es
  | p, .leave :: es => pendAfter p es
  | p, .acquire _ _ :: es => pendAfter p es
  | p, .release _ _ :: es => pendAfter p es
  | p, .use _ _ :: es => pendAfter p es
  | p, .stray :: es => pendAfter p es

theorem pendAfter_append (a b : List OclEv) : ∀ p, pendAfter p (a ++ b) = pendAfter (pendAfter p a) b := by
  induction a with
  | nil => intro p; rfl
  | cons e es ih => intro p; cases e <;> exact ih _

theorem leavesPending_append (a b : List OclEv) :
    ∀ p, leavesPending p (a ++ b) = (leavesPending p a || leavesPending (pendAfter p a) b) := by
  induction a with
  | nil => intro p; simp [leavesPending, pendAfter]
  | cons e es ih =>
    intro p
    cases e <;> simp only [List.cons_append, leavesPending, pendAfter, ih, Bool.or_assoc]

/-- No return with a transfer going on so far; and whether one is going on. -/
def Flow (l p : Bool) (h : Host) : Prop := leavesPending false h.log = l ∧ pendAfter false h.log = p

theorem Flow.emit {l p : Bool} {h : Host} (H : Flow l p h) (e : OclEv) :
    Flow (l || leavesPending p [e]) (pendAfter p [e]) (h.emit e) := by
  refine ⟨?_, ?_⟩
  · show leavesPending false (h.log ++ [e]) = _
    rw [leavesPending_append, H.1, H.2]
  · show pendAfter false (h.log ++ [e]) = _
    rw [pendAfter_append, H.2]

theorem Flow.use {l p : Bool} {h : Host} (H : Flow l p h) (s : Slot) : Flow l p (h.use s) := by
  unfold Host.use
  split
  · have := H.emit (.use s.kind (by assumption))
    simpa [leavesPending, pendAfter] using this
  · simpa [leavesPending, pendAfter] using H.emit .stray

theorem Flow.uses {l p : Bool} : ∀ (args : List Slot) {h : Host}, Flow l p h → Flow l p (args.foldl Host.use h) := by
  intro args
  induction args with
  | nil => intro h H; exact H
  | cons s args ih => intro h H; exact ih (H.use s)

theorem Flow.create {l p : Bool} {h : Host} (H : Flow l p h) (e : InitEnv) (s : Slot) : Flow l p (h.create e s) := by
  unfold Host.create
  split
  · have := H.emit (.acquire s.kind (e.addr h.log))
    simp only [leavesPending, pendAfter, Bool.or_false] at this
    exact this
  · exact H

theorem Flow.drop {l p : Bool} {h : Host} (H : Flow l p h) (s : Slot) : Flow l p (h.drop s) := by
  unfold Host.drop
  cases h.v s with
  | none => exact H
  | some x =>
    have := H.emit (.release s.kind x)
    simp only [leavesPending, pendAfter, Bool.or_false] at this
    exact this

theorem Flow.destroy {l p : Bool} {h : Host} (H : Flow l p h) : Flow l p h.destroy := by
  have : ∀ (os : List Slot) (h : Host), Flow l p h → Flow l p (os.foldl Host.drop h) := by
    intro os
    induction os with
    | nil => intro h H; exact H
    | cons s os ih => intro h H; exact ih _ (H.drop s)
  exact this _ _ (show Flow l p { h with ready := false, sizes := (0, 0, 0) } from H)

theorem Flow.freePlatforms {l p : Bool} {h : Host} (H : Flow l p h) : Flow l p h.freePlatforms := by
  unfold Host.freePlatforms
  cases h.v .platforms with
  | none => exact H
  | some x =>
    have := H.emit (.release .heap x)
    simp only [leavesPending, pendAfter, Bool.or_false] at this
    exact this

theorem Flow.init {l p : Bool} {h : Host} (H : Flow l p h) (e : InitEnv) (i o s : Nat) : Flow l p (h.init e i o s).1 :=
  init_preserves (P := Flow l p) (fun _ s H => H.use s) (fun _ e s H => H.create e s) (fun _ H => H.destroy) (fun _ H => H.freePlatforms)
    (fun _ H _ _ => H) e i o s h H

theorem Flow.fill {l p : Bool} {h : Host} (H : Flow l p h) (k : Nat) : Flow l p (h.fillOffsets k) := by
  unfold Host.fillOffsets
  split
  · simpa [leavesPending, pendAfter] using H.emit .stray
  · exact H.use _

theorem Flow.call {l p : Bool} {h : Host} (H : Flow l p h) (args : List Slot) (snd ok : Bool) :
    Flow l (p || (snd && ok)) (Host.call args snd ok h).1 := by
  unfold Host.call
  dsimp only
  split
  · next hc => simpa [leavesPending, pendAfter, hc] using (H.uses args).emit .send
  · next hc =>
    have : (snd && ok) = false := by simpa using hc
    rw [this, Bool.or_false]
    exact H.uses args

theorem Flow.await {l p : Bool} {h : Host} (H : Flow l p h) (args : List Slot) (ok : Bool) : Flow l false (Host.await args ok h).1 := by
  have := (H.uses args).emit .finish
  simp only [leavesPending, pendAfter, Bool.or_false] at this
  exact this

/-- A call of the driver that does not wait, as data. -/
def callStep (c : List Slot × Bool × Bool) : Host → Host × Bool := Host.call c.1 c.2.1 c.2.2

/-- While a transfer is going on, calls that do not wait, one of which fails, do not end it. -/
theorem calls_fail {l : Bool} {gs : List (Host → Host × Bool)} : ∀ (cs : List (List Slot × Bool × Bool)) {h : Host}, Flow l true h →
    (∃ c ∈ cs, c.2.2 = false) → Flow l true (untilFalse (cs.map callStep ++ gs) h).1 := by
  intro cs
  induction cs with
  | nil => rintro h _ ⟨c, hc, _⟩; cases hc
  | cons c cs ih =>
    rintro h H ⟨d, hd, hf⟩
    have h1 := H.call c.1 c.2.1 c.2.2
    rw [Bool.true_or] at h1
    rw [List.map_cons, List.cons_append, untilFalse]
    split
    · next hc =>
      have hc : c.2.2 = true := hc
      refine ih h1 ⟨d, ?_, hf⟩
      rcases List.mem_cons.mp hd with rfl | hd
      · rw [hc] at hf; cases hf
      · exact hd
    · exact h1

theorem calls_pass {gs : List (Host → Host × Bool)} {Q : Host → Prop} {P : Host → Prop} (hcall : ∀ c h, P h → P (callStep c h).1)
    (hg : ∀ h, P h → Q (untilFalse gs h).1) : ∀ (cs : List (List Slot × Bool × Bool)) {h : Host}, P h → (∀ c ∈ cs, c.2.2 = true) →
    Q (untilFalse (cs.map callStep ++ gs) h).1 := by
  intro cs
  induction cs with
  | nil => intro h H _; exact hg h H
  | cons c cs ih =>
    intro h H hc
    rw [List.map_cons, List.cons_append, untilFalse]
    rw [if_pos (show (callStep c h).2 = true from hc c (List.mem_cons_self ..))]
    exact ih (hcall c h H) fun d hd => hc d (List.mem_cons_of_mem _ hd)

/-- The calls after the first one, up to where the code waits. -/
def midCalls (ok : Nat → Bool) (one : Bool) : List (List Slot × Bool × Bool) :=
  let kern : Slot := if one then .single else .multi
  (if one then [] else [([.queue, .rle], true, ok 1)]) ++
  [([.queue, .counts], true, ok 2), ([.queue, .starts, .offsets], true, ok 3), ([kern, .outBuf], false, ok 4), ([kern, .inBuf], false, ok 5),
   ((if one then [kern] else [kern, .rle]), false, ok 6), ([kern, .counts], false, ok 7), ([kern, .starts], false, ok 8), ([kern], false, ok 9),
   ([.queue, kern], false, ok 10)]

theorem runCalls_eq (ok : Nat → Bool) (one : Bool) :
    runCalls ok one = Host.call [.queue, .inBuf] true (ok 0) ::
      ((midCalls ok one).map callStep ++ [Host.await [.queue] true, Host.await [.queue, .outBuf] (ok 11)]) := by
  cases one <;> rfl

/-- One of the driver calls between the first transfer and the wait fails. With one run symbol there is no call number 1. -/
def FailsBetween (ok : Nat → Bool) (one : Bool) : Prop := ok 0 = true ∧ ∃ j, 1 ≤ j ∧ j ≤ 10 ∧ ¬ (one = true ∧ j = 1) ∧ ok j = false

theorem mid_fails (ok : Nat → Bool) (one : Bool) :
    (∃ c ∈ midCalls ok one, c.2.2 = false) ↔ ∃ j, 1 ≤ j ∧ j ≤ 10 ∧ ¬ (one = true ∧ j = 1) ∧ ok j = false := by
  constructor
  · rintro ⟨c, hc, hf⟩
    cases one
    · simp only [midCalls, Bool.false_eq_true, if_false, List.cons_append, List.nil_append, List.mem_cons, List.not_mem_nil, or_false] at hc
      rcases hc with h | h | h | h | h | h | h | h | h | h <;> subst h
      · exact ⟨1, by simp, by simp, by simp, hf⟩
      · exact ⟨2, by simp, by simp, by simp, hf⟩
      · exact ⟨3, by simp, by simp, by simp, hf⟩
      · exact ⟨4, by simp, by simp, by simp, hf⟩
      · exact ⟨5, by simp, by simp, by simp, hf⟩
      · exact ⟨6, by simp, by simp, by simp, hf⟩
      · exact ⟨7, by simp, by simp, by simp, hf⟩
      · exact ⟨8, by simp, by simp, by simp, hf⟩
      · exact ⟨9, by simp, by simp, by simp, hf⟩
      · exact ⟨10, by simp, by simp, by simp, hf⟩
    · simp only [midCalls, if_true, List.nil_append, List.mem_cons, List.not_mem_nil, or_false] at hc
      rcases hc with h | h | h | h | h | h | h | h | h <;> subst h
      · exact ⟨2, by simp, by simp, by simp, hf⟩
      · exact ⟨3, by simp, by simp, by simp, hf⟩
      · exact ⟨4, by simp, by simp, by simp, hf⟩
      · exact ⟨5, by simp, by simp, by simp, hf⟩
      · exact ⟨6, by simp, by simp, by simp, hf⟩
      · exact ⟨7, by simp, by simp, by simp, hf⟩
      · exact ⟨8, by simp, by simp, by simp, hf⟩
      · exact ⟨9, by simp, by simp, by simp, hf⟩
      · exact ⟨10, by simp, by simp, by simp, hf⟩
  · rintro ⟨j, h1, h2, h3, hf⟩
    have : j = 1 ∨ j = 2 ∨ j = 3 ∨ j = 4 ∨ j = 5 ∨ j = 6 ∨ j = 7 ∨ j = 8 ∨ j = 9 ∨ j = 10 := by omega
    rcases this with h | h | h | h | h | h | h | h | h | h <;> subst h <;> cases one <;> simp [midCalls, hf] at h3 ⊢

theorem runCalls_flow {l : Bool} {h : Host} (H : Flow l false h) (ok : Nat → Bool) (one : Bool) :
    (FailsBetween ok one → Flow l true (untilFalse (runCalls ok one) h).1) ∧
    (¬ FailsBetween ok one → Flow l false (untilFalse (runCalls ok one) h).1) := by
  have h0 := H.call [.queue, .inBuf] true (ok 0)
  rw [runCalls_eq, untilFalse]
  rw [Bool.false_or, Bool.true_and] at h0
  have hsnd : (Host.call [.queue, .inBuf] true (ok 0) h).2 = ok 0 := rfl
  rw [hsnd]
  refine ⟨fun hf => ?_, fun hf => ?_⟩
  · rw [if_pos hf.1]
    rw [hf.1] at h0
    rw [hf.1]
    exact calls_fail _ h0 ((mid_fails ok one).mpr hf.2)
  · split
    · next hok =>
      have hn : ∀ c ∈ midCalls ok one, c.2.2 = true := by
        intro c hc
        cases hcv : c.2.2 with
        | true => rfl
        | false => exact absurd ⟨hok, (mid_fails ok one).mp ⟨c, hc, hcv⟩⟩ hf
      refine calls_pass (P := fun h => ∃ p, Flow l p h) (Q := Flow l false) ?_ ?_ _ ⟨_, h0⟩ hn
      · rintro c h ⟨p, hp⟩
        exact ⟨_, hp.call c.1 c.2.1 c.2.2⟩
      · rintro h ⟨p, hp⟩
        have h1 := hp.await [.queue] true
        rw [untilFalse, if_pos (show (Host.await [.queue] true h).2 = true from rfl), untilFalse]
        split
        · exact h1.await _ _
        · exact h1.await _ _
    · next hok =>
      have : ok 0 = false := by simpa using hok
      rw [this] at h0 ⊢
      exact h0

/-- The calls that return while a transfer is going on. -/
def OclOp.pends (h : Host) : OclOp → Prop
  | .init _ _ _ _ => False
  | .destroy => False
  | .decompress e ok one i o k => ((h.fillOffsets k).init e i o k).2 = true ∧ FailsBetween ok one

/-- C55, the transfers, exactly: the library returns while a transfer out of the memory of its caller (or of its own stack) is going on if and only if
in some `rle8m_opencl_decompress` that could initialise, the first transfer was started and a call after it, before the one that waits,
fails. -/
theorem C55_transfers_exact (ops : List OclOp) :
    leavesPending false (hostRun ops).log = true ↔ ∃ pre op post, ops = pre ++ op :: post ∧ op.pends (hostRun pre) := by
  have hl : ∀ {l : Bool} {h : Host}, Flow l false h → Flow l false (h.emit .leave) := by
    intro l h H
    simpa [leavesPending, pendAfter] using H.emit .leave
  have hmono : ∀ h op, leavesPending false h.log = true → leavesPending false (OclOp.run h op).log = true := by
    intro h op hh
    have H : Flow true (pendAfter false h.log) h := ⟨hh, rfl⟩
    have hle : ∀ {p : Bool} {h : Host}, Flow true p h → leavesPending false (h.emit .leave).log = true := by
      intro p h H
      have := (H.emit .leave).1
      rw [Bool.true_or] at this
      exact this
    cases op with
    | init e i o s => exact hle (H.init e i o s)
    | destroy => exact hle H.destroy
    | decompress e ok one i o k =>
      have H1 := (H.fill k).init e i o k
      show leavesPending false (Host.emit (h.decompress e ok one i o k).1 _).log = true
      unfold Host.decompress
      dsimp only
      split
      · have : ∃ p, Flow true p (untilFalse (runCalls ok one) ((h.fillOffsets k).init e i o k).1).1 := by
          refine untilFalse_preserves (P := fun h => ∃ p, Flow true p h) _ ?_ _ ⟨_, H1⟩
          rintro f hf h ⟨p, hp⟩
          rw [runCalls_eq, List.mem_cons, List.mem_append, List.mem_map] at hf
          rcases hf with rfl | ⟨c, _, rfl⟩ | hf
          · exact ⟨_, hp.call _ _ _⟩
          · exact ⟨_, hp.call _ _ _⟩
          · simp only [List.mem_cons, List.not_mem_nil, or_false] at hf
            rcases hf with rfl | rfl
            · exact ⟨_, hp.await _ _⟩
            · exact ⟨_, hp.await _ _⟩
        obtain ⟨p, hp⟩ := this
        exact hle hp
      · exact hle H1
  refine (fold_bad (f := OclOp.run) (good := fun _ => True) (inv := Flow false false)
    (bad := fun h => leavesPending false h.log = true) (T := fun h op => op.pends h) ?_ ?_ ?_ hmono ops host0 (fun _ _ => trivial) ⟨rfl, rfl⟩).1
  · rintro h op - H ht
    cases op with
    | init e i o s => exact absurd ht id
    | destroy => exact absurd ht id
    | decompress e ok one i o k =>
      obtain ⟨h1, h2⟩ := ht
      have := (runCalls_flow ((H.fill k).init e i o k) ok one).1 h2
      show leavesPending false (Host.emit (h.decompress e ok one i o k).1 _).log = true
      unfold Host.decompress
      dsimp only
      rw [if_pos h1]
      simpa [leavesPending, pendAfter] using (this.emit .leave).1
  · rintro h op - H ht
    cases op with
    | init e i o s => exact hl (H.init e i o s)
    | destroy => exact hl H.destroy
    | decompress e ok one i o k =>
      show Flow false false (Host.emit (h.decompress e ok one i o k).1 _)
      refine hl ?_
      unfold Host.decompress
      dsimp only
      split
      · next hc => exact (runCalls_flow ((H.fill k).init e i o k) ok one).2 fun hf => ht ⟨hc, hf⟩
      · exact (H.fill k).init e i o k
  · intro h H hb
    rw [H.1] at hb
    cases hb

/-- C55, violated: the program initialises the library, all is well, and decompresses; when the driver cannot start the second transfer, the call returns 0
while the first one still reads from the caller's buffer. -/
theorem C55_transfers_violated (i o k : Nat) : leavesPending false
    (hostRun [.init fineEnv i o k, .decompress fineEnv (fun j => j == 0) false i o k]).log = true := by
  rw [C55_transfers_exact]
  refine ⟨[.init fineEnv i o k], _, [], rfl, ?_, rfl, 1, by decide, by decide, by decide, rfl⟩
  have hin : ∀ h : Host, h.enough i o k = true → (h.init fineEnv i o k).2 = true := by
    intro h hh
    unfold Host.init
    rw [if_pos hh]
  refine hin _ ?_
  have hf := init_fresh (e := fineEnv) (fun _ _ => rfl) rest_host0 (i := i) (o := o) (s := k) rfl rfl
  have : ∀ g : Host, g.ready = true → g.sizes = (i, o, k) → (g.fillOffsets k).enough i o k = true := by
    intro g hr hz
    have : (g.fillOffsets k).ready = g.ready ∧ (g.fillOffsets k).sizes = g.sizes := by
      unfold Host.fillOffsets
      split
      · exact ⟨rfl, rfl⟩
      · exact ⟨(use_ready _ _).1, (use_ready _ _).2.1⟩
    unfold Host.enough
    rw [this.1, this.2, hr, hz]
    simp
  exact this _ hf.2.1 hf.2.2

end Hrk
