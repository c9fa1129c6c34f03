import Verif.Publish

/-
C66: output handed to another thread is complete.
-/

namespace Hrk.Publish

/-- Whatever the memory held (the variable not being set), and whenever another thread finds the variable set: then, and from then on, it reads the
bytes `out` in the output buffer. -/
def SeesAll (prog : List Op) (out : List Byte) : Prop :=
  ∀ (m : PLoc → Byte) (s₁ s₂ : PSt), m none ≠ 1 → PSteps ⟨prog, [], m⟩ s₁ → s₁.mem none = 1 → PSteps s₁ s₂ →
    ∀ k (hk : k < out.length), s₂.mem (some k) = out[k]

/-- The stores of a successful call are the bytes it says it wrote, in order, and what is streamed are the whole blocks on the aligned path. -/
theorem mmtfT_spec {L : Nat} (hL : L = 16 ∨ L = 32) (dec : Bool) (cpu : Cpu) (hc : cpu.sse2 = true) (aIn aOut : Nat)
    (src : List Byte) {outSize : Nat} (ho : src.length ≤ outSize) :
    ∃ out, mmtf L dec cpu aIn aOut src outSize = .ok src.length out ∧ out.length = src.length ∧
      (mmtfT L dec cpu aIn aOut src).map Prod.snd = out ∧
      ∃ b, (mmtfT L dec cpu aIn aOut src).map Prod.fst =
        List.replicate (src.length / L * L) (streams L cpu aIn aOut) ++ List.replicate b false := by
  obtain ⟨out, h1, h2, _⟩ := mmtf_spec hL dec cpu hc aIn aOut src ho
  refine ⟨out, h1, h2, ?_⟩
  unfold mmtf at h1
  unfold mmtfT streams
  rcases hL with rfl | rfl
  · rw [if_pos rfl] at h1 ⊢
    rw [if_pos rfl]
    unfold mmtf128 at h1
    rw [if_neg (by omega), if_neg (by simp [hc])] at h1
    by_cases h : aIn % 16 = 0 ∧ aOut % 32 = 0 ∧ cpu.sse41 = true
    · rw [if_pos h] at h1 ⊢
      have := runT_spec (by omega) h1
      rw [show (decide (aIn % 16 = 0) && decide (aOut % 32 = 0) && cpu.sse41) = true by simp [h]]
      exact this
    · rw [if_neg h] at h1 ⊢
      have := runT_spec (by omega) h1
      rw [show (decide (aIn % 16 = 0) && decide (aOut % 32 = 0) && cpu.sse41) = false by
        simp only [Bool.and_eq_false_iff, decide_eq_false_iff_not]
        by_cases a : aIn % 16 = 0
        · by_cases b : aOut % 32 = 0
          · right
            cases hs : cpu.sse41 with
            | false => rfl
            | true => exact absurd ⟨a, b, hs⟩ h
          · exact .inl (.inr b)
        · exact .inl (.inl a)]
      exact this
  · have n32 : ¬(32 : Nat) = 16 := by decide
    rw [if_neg n32] at h1 ⊢
    unfold mmtf256 at h1
    rw [if_neg (by omega), if_neg (by simp [hc])] at h1
    have hk : (if (32 : Nat) = 16 then decide (aIn % 16 = 0) && decide (aOut % 32 = 0) && cpu.sse41
        else cpu.avx2 && decide (aIn % 32 = 0) && decide (aOut % 32 = 0)) = (cpu.avx2 && decide (aIn % 32 = 0) && decide (aOut % 32 = 0)) := if_neg n32
    rw [hk]
    by_cases hv : cpu.avx2 = false
    · rw [if_pos hv] at h1 ⊢
      rw [hv]
      exact runT_spec (by omega) h1
    · rw [if_neg hv] at h1 ⊢
      have hv' : cpu.avx2 = true := by simpa using hv
      rw [hv']
      by_cases h : aIn % 32 = 0 ∧ aOut % 32 = 0
      · rw [if_pos h] at h1 ⊢
        have := runT_spec (by omega) h1
        rw [show (true && decide (aIn % 32 = 0) && decide (aOut % 32 = 0)) = true by simp [h]]
        exact this
      · rw [if_neg h] at h1 ⊢
        have := runT_spec (by omega) h1
        rw [show (true && decide (aIn % 32 = 0) && decide (aOut % 32 = 0)) = false by
          simp only [Bool.true_and, Bool.and_eq_false_iff, decide_eq_false_iff_not]
          by_cases a : aIn % 32 = 0
          · exact .inr (fun b => h ⟨a, b⟩)
          · exact .inl a]
        exact this

/-- C66, where nothing is streamed: a buffer that is not aligned, a processor without the instructions, or less than a block. A release store, or
any other ordinary store, is enough to hand the output over. -/
theorem C66_mmtf_partial {L : Nat} (hL : L = 16 ∨ L = 32) (dec : Bool) (cpu : Cpu) (hc : cpu.sse2 = true) (aIn aOut : Nat)
    (src : List Byte) {outSize : Nat} (ho : src.length ≤ outSize) (hs : streams L cpu aIn aOut = false ∨ src.length < L) :
    ∃ out, mmtf L dec cpu aIn aOut src outSize = .ok src.length out ∧ SeesAll (handOver false (mmtfT L dec cpu aIn aOut src)) out := by
  obtain ⟨out, h1, h2, h3, b, h4⟩ := mmtfT_spec hL dec cpu hc aIn aOut src ho
  refine ⟨out, h1, fun m s₁ s₂ hm e1 hf e2 k hk => ?_⟩
  have hall : ∀ e ∈ mmtfT L dec cpu aIn aOut src, e.1 = false := by
    intro e he
    have : e.1 ∈ (mmtfT L dec cpu aIn aOut src).map Prod.fst := List.mem_map_of_mem he
    rw [h4, List.mem_append, List.mem_replicate, List.mem_replicate] at this
    rcases this with ⟨a, c⟩ | ⟨_, c⟩
    · rcases hs with hs | hs
      · rw [c, hs]
      · rw [Nat.div_eq_of_lt hs, Nat.zero_mul] at a
        exact absurd rfl a
    · exact c
  have e1 : PSteps ⟨storesFrom 0 (mmtfT L dec cpu aIn aOut src) ++ [.st false none 1], [], m⟩ s₁ := by
    have : handOver false (mmtfT L dec cpu aIn aOut src) = storesFrom 0 (mmtfT L dec cpu aIn aOut src) ++ [.st false none 1] := by
      simp [handOver]
    rwa [this] at e1
  have hv := plain_visible (storesFrom_isPlain _ 0 hall) hm e1 hf e2
  have hlen : (mmtfT L dec cpu aIn aOut src).length = out.length := by rw [← h3, List.length_map]
  rw [hv, effect_append]
  have := effect_stores (mmtfT L dec cpu aIn aOut src) 0 k m (by omega)
  rw [Nat.zero_add] at this
  refine (if_neg (by simp) : upd (effect (storesFrom 0 (mmtfT L dec cpu aIn aOut src)) m) none 1 (some k) = _).trans (this.trans ?_)
  subst h3
  rfl

/-- C66 for a caller who waits for the stores (`_mm_sfence`, or an instruction with a `lock` prefix such as the exchange of a mutex): on every path
the other thread finds the whole output. -/
theorem C66_mmtf_waits {L : Nat} (hL : L = 16 ∨ L = 32) (dec : Bool) (cpu : Cpu) (hc : cpu.sse2 = true) (aIn aOut : Nat)
    (src : List Byte) {outSize : Nat} (ho : src.length ≤ outSize) :
    ∃ out, mmtf L dec cpu aIn aOut src outSize = .ok src.length out ∧ SeesAll (handOver true (mmtfT L dec cpu aIn aOut src)) out := by
  obtain ⟨out, h1, h2, h3, b, h4⟩ := mmtfT_spec hL dec cpu hc aIn aOut src ho
  refine ⟨out, h1, fun m s₁ s₂ hm e1 hf e2 k hk => ?_⟩
  have e1 : PSteps ⟨storesFrom 0 (mmtfT L dec cpu aIn aOut src) ++ [.fence, .st false none 1], [], m⟩ s₁ := by
    have : handOver true (mmtfT L dec cpu aIn aOut src) = storesFrom 0 (mmtfT L dec cpu aIn aOut src) ++ [.fence, .st false none 1] := by
      simp [handOver]
    rwa [this] at e1
  have hv := waits_visible (storesFrom_isData _ 0) hm e1 hf e2
  have hlen : (mmtfT L dec cpu aIn aOut src).length = out.length := by rw [← h3, List.length_map]
  rw [hv, effect_append]
  have := effect_stores (mmtfT L dec cpu aIn aOut src) 0 k m (by omega)
  rw [Nat.zero_add] at this
  refine (if_neg (by simp) : upd (effect (storesFrom 0 (mmtfT L dec cpu aIn aOut src)) m) none 1 (some k) = _).trans (this.trans ?_)
  subst h3
  rfl

/-- C66 for anything that makes ordinary stores only, as all compressors and decompressors and the bit wise transforms do: whatever is stored where
in the output buffer, over or under or behind what was stored before, if the stores done one after the other leave `out` there, handing it over with
an ordinary store is enough. -/
theorem C66_ordinary (stores : List (Nat × Byte)) (out : List Byte)
    (h : ∀ (m : PLoc → Byte) k (hk : k < out.length), stores.foldl (fun m e => upd m (some e.1) e.2) m (some k) = out[k]) :
    SeesAll (stores.map (fun e => .st false (some e.1) e.2) ++ [.st false none 1]) out := by
  intro m s₁ s₂ hm e1 hf e2 k hk
  have hp : ∀ o ∈ stores.map (fun e : Nat × Byte => Op.st false (some e.1) e.2), isPlain o := by
    intro o ho
    obtain ⟨e, _, rfl⟩ := List.mem_map.mp ho
    trivial
  have hv := plain_visible hp hm e1 hf e2
  have he : ∀ (l : List (Nat × Byte)) (m : PLoc → Byte),
      effect (l.map (fun e => .st false (some e.1) e.2)) m = l.foldl (fun m e => upd m (some e.1) e.2) m := by
    intro l
    induction l with
    | nil => exact fun _ => rfl
    | cons e l ih => exact fun m => ih _
  rw [hv, effect_append, he]
  exact (if_neg (by simp) : upd _ none 1 (some k) = _).trans (h m k hk)

/-- C66 is violated. Where the transform streams, every call with at least a block to do has an execution in which the other thread finds the
variable set and still reads, in all the whole blocks of the output, what was there before the call. -/
theorem C66_violated {L : Nat} (hL : L = 16 ∨ L = 32) (dec : Bool) (cpu : Cpu) (hc : cpu.sse2 = true) (aIn aOut : Nat)
    (src : List Byte) {outSize : Nat} (ho : src.length ≤ outSize) (hs : streams L cpu aIn aOut = true) (m : PLoc → Byte) :
    ∃ s, PSteps ⟨handOver false (mmtfT L dec cpu aIn aOut src), [], m⟩ s ∧ s.mem none = 1 ∧ s.prog = [] ∧
      ∀ k, k < src.length / L * L → s.mem (some k) = m (some k) := by
  obtain ⟨out, h1, h2, h3, b, h4⟩ := mmtfT_spec hL dec cpu hc aIn aOut src ho
  rw [hs] at h4
  generalize hN : src.length / L * L = N at *
  obtain ⟨b', e1, e2, e3⟩ := exec_stores (mmtfT L dec cpu aIn aOut src) 0 [.st false none 1] [] m
  rw [List.nil_append] at e1
  have hq : handOver false (mmtfT L dec cpu aIn aOut src) = storesFrom 0 (mmtfT L dec cpu aIn aOut src) ++ [.st false none 1] := by simp [handOver]
  rw [hq]
  have f1 := e1.step .exec
  have hlen : N ≤ b'.length := by
    have := congrArg List.length (e2.trans h4)
    simp at this
    omega
  -- the streamed blocks, and what follows them
  have hsplit : b' ++ [(false, none, (1 : Byte))] = b'.take N ++ (b'.drop N ++ [(false, none, 1)]) := by
    rw [← List.append_assoc, List.take_append_drop]
  rw [hsplit] at f1
  have hnt : ∀ e ∈ b'.take N, e.1 = true := by
    intro e he
    have : e.1 ∈ (b'.take N).map Prod.fst := List.mem_map_of_mem he
    rw [List.map_take, e2, h4, List.take_left' (by simp), List.mem_replicate] at this
    exact this.2
  have hloc1 : ∀ e ∈ b'.take N, ∃ i, i < N ∧ e.2.1 = some i := by
    intro e he
    obtain ⟨i, hi, rfl⟩ := List.getElem_of_mem he
    rw [List.length_take] at hi
    refine ⟨i, by omega, ?_⟩
    rw [List.getElem_take, e3 i (by omega), Nat.zero_add]
  have hloc2 : ∀ e ∈ b'.drop N ++ [(false, none, (1 : Byte))], e.2.1 = none ∨ ∃ i, N ≤ i ∧ e.2.1 = some i := by
    intro e he
    rw [List.mem_append, List.mem_singleton] at he
    rcases he with he | rfl
    · obtain ⟨i, hi, rfl⟩ := List.getElem_of_mem he
      rw [List.length_drop] at hi
      refine .inr ⟨N + i, by omega, ?_⟩
      rw [List.getElem_drop, e3 (N + i) (by omega), Nat.zero_add]
    · exact .inl rfl
  have hdiff : ∀ e ∈ b'.drop N ++ [(false, none, (1 : Byte))], ∀ e' ∈ b'.take N, e'.2.1 ≠ e.2.1 := by
    intro e he e' he' heq
    obtain ⟨i, hi, hh⟩ := hloc1 e' he'
    rcases hloc2 e he with h | ⟨j, hj, h⟩
    · rw [hh, h] at heq
      cases heq
    · rw [hh, h] at heq
      cases heq
      omega
  refine ⟨_, f1.trans (drain_plain _ _ _ _ hnt hdiff), ?_, rfl, ?_⟩
  · rw [flush_append]
    simp [flush, upd]
  · intro k hk
    refine flush_other _ _ _ (fun e he => ?_)
    rcases hloc2 e he with h | ⟨j, hj, h⟩
    · rw [h]
      simp
    · rw [h]
      intro hh
      cases hh
      omega

/-! ### The hypotheses can be met -/

/-- Three blocks and four bytes. -/
def pubSample : List Byte := (mtfSample ++ mtfSample) ++ (mtfSample.take 12)

/-- What the second call of the library wrote is complete for whoever sees the variable. -/
example : ∃ out, mmtf 32 false cpuSse41 64 64 pubSample 60 = .ok 52 out ∧ SeesAll (handOver false (mmtfT 32 false cpuSse41 64 64 pubSample)) out :=
  C66_mmtf_partial (.inr rfl) false cpuSse41 rfl 64 64 pubSample (by decide) (.inl (by decide))
example : ∃ out, mmtf 16 true cpuAvx2 64 7 pubSample 60 = .ok 52 out ∧ SeesAll (handOver false (mmtfT 16 true cpuAvx2 64 7 pubSample)) out :=
  C66_mmtf_partial (.inl rfl) true cpuAvx2 rfl 64 7 pubSample (by decide) (.inl (by decide))
example : ∃ out, mmtf 32 false cpuAvx2 0 32 pubSample 52 = .ok 52 out ∧ SeesAll (handOver true (mmtfT 32 false cpuAvx2 0 32 pubSample)) out :=
  C66_mmtf_waits (.inr rfl) false cpuAvx2 rfl 0 32 pubSample (by decide)

/-- An aligned buffer of zeros: the code of the sample starts with a 1, and the other thread reads a 0. -/
example : ∃ out s, mmtf 32 false cpuAvx2 0 32 (List.replicate 33 1) 52 = .ok 33 out ∧ out[0]? = some 1 ∧
    PSteps ⟨handOver false (mmtfT 32 false cpuAvx2 0 32 (List.replicate 33 1)), [], fun _ => 0⟩ s ∧ s.mem none = 1 ∧ s.mem (some 0) = 0 := by
  obtain ⟨s, h1, h2, _, h3⟩ := C66_violated (.inr rfl) false cpuAvx2 rfl 0 32 (List.replicate 33 1) (outSize := 52) (by decide) (by decide) (fun _ => 0)
  refine ⟨(List.replicate 32 1 ++ [0]), s, by decide +kernel, by decide, h1, h2, h3 0 (by decide)⟩

/-- So handing over with an ordinary store is not enough. -/
example : ¬ ∃ out, mmtf 32 false cpuAvx2 0 32 (List.replicate 33 1) 52 = .ok 33 out ∧
    SeesAll (handOver false (mmtfT 32 false cpuAvx2 0 32 (List.replicate 33 1))) out := by
  rintro ⟨out, h, hs⟩
  have ho : out = List.replicate 32 1 ++ [0] := by
    have : mmtf 32 false cpuAvx2 0 32 (List.replicate 33 1) 52 = .ok 33 (List.replicate 32 1 ++ [0]) := by decide +kernel
    rw [this] at h
    cases h
    rfl
  subst ho
  obtain ⟨s, h1, h2, _, h3⟩ := C66_violated (.inr rfl) false cpuAvx2 rfl 0 32 (List.replicate 33 1) (outSize := 52) (by decide) (by decide) (fun _ => 0)
  have a := hs (fun _ => 0) s s (by decide) h1 h2 .refl 0 (by decide)
  rw [h3 0 (by decide)] at a
  exact absurd a (by decide)

/-- A decompressor that fills a run with a vector and then writes over what is too much. -/
example : SeesAll ([(0, (7 : Byte)), (1, 7), (2, 7), (3, 7), (2, 5), (3, 5)].map (fun e => Op.st false (some e.1) e.2) ++ [.st false none 1]) [7, 7, 5, 5] :=
  C66_ordinary _ _ (fun m k hk => by
    have : k = 0 ∨ k = 1 ∨ k = 2 ∨ k = 3 := by simp at hk; omega
    rcases this with rfl | rfl | rfl | rfl <;> simp [upd])

/-- The flag alone can be seen at once if there is nothing to store. -/
example : PSteps ⟨handOver false [], [], fun _ => 0⟩ ⟨[], [], upd (fun _ => 0) none 1⟩ :=
  (PSteps.refl.step .exec).step (.drain (b₁ := []) (by simp) (by simp))

end Hrk.Publish
