import Verif.PropsMtf

/-
Handing the output of a transform to another thread. The aligned functions of src/mmtf.c write with `_mm_stream_si128` and
`_mm256_stream_si256`, stores the processor does not keep in order with others, and there is no `_mm_sfence` in the library.
-/

namespace Hrk.Publish

/-! ### The processor -/

/-- What the two threads share: the byte `k` of the output buffer, or the variable that says that the output is there (`none`). -/
abbrev PLoc := Option Nat

/-- What the writing thread does: a store, non-temporal (src/mmtf.c:156, 298, 426, 658) or ordinary (src/mmtf.c:169, 224), or something that
waits until all stores are visible (`sfence`, or an instruction with a `lock` prefix; not in the library). -/
inductive Op where
  | st (nt : Bool) (l : PLoc) (v : Byte)
  | fence

/-- A store that was executed and is not visible yet: kind, place, value (hardware, for src/mmtf.c:156, 224). -/
abbrev Ent := Bool × PLoc × Byte

/-- What the thread still has to do, what it has stored and others do not see yet (oldest first), and the memory others see. -/
structure PSt where
  prog : List Op
  buf : List Ent
  mem : PLoc → Byte

/-- One byte of the memory (hardware, for src/mmtf.c:156, 224). -/
def upd (m : PLoc → Byte) (l : PLoc) (v : Byte) : PLoc → Byte := fun l' => if l' = l then v else m l'

/-- What can happen. Ordinary stores become visible in program order; non-temporal ones before or after any other store, except that stores to one
place keep their order (Intel SDM volume 3, 9.2.2 and 12.3.1; the stores are those of src/mmtf.c). Simplification: a vector becomes visible byte
by byte, which only adds behaviour. -/
inductive PStep : PSt → PSt → Prop where
  | exec {nt l v p b m} : PStep ⟨.st nt l v :: p, b, m⟩ ⟨p, b ++ [(nt, l, v)], m⟩
  | fence {p m} : PStep ⟨.fence :: p, [], m⟩ ⟨p, [], m⟩
  | drain {p b₁ nt l v b₂ m} : (∀ e ∈ b₁, e.2.1 ≠ l) → (nt = false → ∀ e ∈ b₁, e.1 = true) →
      PStep ⟨p, b₁ ++ (nt, l, v) :: b₂, m⟩ ⟨p, b₁ ++ b₂, upd m l v⟩

/-- Any number of them. -/
inductive PSteps : PSt → PSt → Prop where
  | refl {s} : PSteps s s
  | step {s t u} : PSteps s t → PStep t u → PSteps s u

/-! ### What the transforms store -/

/-- `mtfOuter` (src/mmtf.c:119-175, 260-310 and copies) with the stores it makes: byte `k` of the list is stored to `pOut + k`, with a non-temporal
store if the flag is set. Whole blocks are streamed in the aligned functions (src/mmtf.c:156, 298, 426, 658), what is left is stored byte by byte
(src/mmtf.c:169, 307). -/
def mtfOuterT (dec : Bool) (parts w : Nat) (al : Bool) (aIn aOut : Nat)
    (s : (Nat → Vec) × List Byte × List (Bool × Byte)) : ((Nat → Vec) × List Byte × List (Bool × Byte)) ⊕ Option (List (Bool × Byte)) :=
  if parts * w ≤ s.2.1.length then
    if al ∧ ((aIn + s.2.2.length) % (parts * w) ≠ 0 ∨ (aOut + s.2.2.length) % (parts * w) ≠ 0) then .inr none
    else
      match mtfBlock dec parts w s.1 (s.2.1.take (parts * w)) with
      | none => .inr none
      | some (h, o) => .inl (h, s.2.1.drop (parts * w), s.2.2 ++ o.map fun b => (al, b))
  else .inr (some (s.2.2 ++ (if dec then mtfTailDec s.1 0 s.2.1 else mtfTailEnc s.1 0 s.2.1).map fun b => (false, b)))

/-- The stores of one of `mmtf{128,256}_{encode,decode}_{aligned,unaligned}[_sse41,_sse2]` (src/mmtf.c:109-819). -/
def mtfRunT (dec : Bool) (parts w : Nat) (al : Bool) (aIn aOut : Nat) (src : List Byte) : List (Bool × Byte) :=
  ((loop (mtfOuterT dec parts w al aIn aOut) (src.length + 1) (fun r => vset1 (b8 r), src, [])).join).getD []

/-- Does the dispatcher pick a function that streams (src/mmtf.c:45, 62, 83, 100)? -/
def streams (L : Nat) (cpu : Cpu) (aIn aOut : Nat) : Bool :=
  if L = 16 then decide (aIn % 16 = 0) && decide (aOut % 32 = 0) && cpu.sse41
  else cpu.avx2 && decide (aIn % 32 = 0) && decide (aOut % 32 = 0)

/-- The stores of `mmtf128_encode`/`mmtf128_decode` (`L = 16`, src/mmtf.c:35-65) and `mmtf256_encode`/`mmtf256_decode` (`L = 32`,
src/mmtf.c:69-105) behind the checks at their beginning. -/
def mmtfT (L : Nat) (dec : Bool) (cpu : Cpu) (aIn aOut : Nat) (src : List Byte) : List (Bool × Byte) :=
  if L = 16 then
    if aIn % 16 = 0 ∧ aOut % 32 = 0 ∧ cpu.sse41 then mtfRunT dec 1 16 true aIn aOut src else mtfRunT dec 1 16 false aIn aOut src
  else if cpu.avx2 = false then mtfRunT dec 2 16 false aIn aOut src
  else if aIn % 32 = 0 ∧ aOut % 32 = 0 then mtfRunT dec 1 32 true aIn aOut src
  else mtfRunT dec 1 32 false aIn aOut src

/-- Those stores as instructions, from byte `k` of the output on (src/mmtf.c:156-158, 169-170). -/
def storesFrom : Nat → List (Bool × Byte) → List Op
  | _, [] => []
  | k, (nt, b) :: r => .st nt (some k) b :: storesFrom (k + 1) r

/-- A call, and then the caller tells the other thread: with an ordinary store, as a release store is on x86, or waiting for all stores first. -/
def handOver (wait : Bool) (tr : List (Bool × Byte)) : List Op :=
  storesFrom 0 tr ++ (if wait then [.fence] else []) ++ [.st false none 1]

/-! ### What the stores amount to -/

theorem outerT_map {dec : Bool} {parts w : Nat} {al : Bool} {aIn aOut : Nat} : ∀ (fuel : Nat) (h : Nat → Vec) (src : List Byte) (tr : List (Bool × Byte)),
    (loop (mtfOuterT dec parts w al aIn aOut) fuel (h, src, tr)).join.map (List.map Prod.snd) =
      (loop (mtfOuter dec parts w al aIn aOut) fuel (h, src, tr.map Prod.snd)).join
  | 0, _, _, _ => rfl
  | fuel + 1, h, src, tr => by
    unfold loop
    unfold mtfOuterT mtfOuter
    dsimp only
    rw [List.length_map]
    by_cases h1 : parts * w ≤ src.length
    · rw [if_pos h1, if_pos h1]
      by_cases h2 : al = true ∧ ((aIn + tr.length) % (parts * w) ≠ 0 ∨ (aOut + tr.length) % (parts * w) ≠ 0)
      · rw [if_pos h2, if_pos h2]
        rfl
      · rw [if_neg h2, if_neg h2]
        cases mtfBlock dec parts w h (src.take (parts * w)) with
        | none => rfl
        | some x =>
          obtain ⟨h', o⟩ := x
          dsimp only
          refine (outerT_map fuel h' (src.drop (parts * w)) (tr ++ o.map fun b => (al, b))).trans ?_
          rw [List.map_append, List.map_map]
          have : o.map (Prod.snd ∘ fun b => (al, b)) = o := by simp [Function.comp_def]
          rw [this]
          rfl
    · rw [if_neg h1, if_neg h1]
      simp [Function.comp_def]

theorem mtfBlock_length {dec : Bool} {parts w : Nat} {h h' : Nat → Vec} {blk o : List Byte} (hb : mtfBlock dec parts w h blk = some (h', o)) :
    o.length = parts * w := by
  unfold mtfBlock at hb
  rw [Option.map_eq_some_iff] at hb
  obtain ⟨s, _, hs⟩ := hb
  cases hs
  simp [vstore]

theorem outerT_kinds {dec : Bool} {parts w : Nat} {al : Bool} {aIn aOut : Nat} (hL : 0 < parts * w) :
    ∀ (fuel : Nat) (h : Nat → Vec) (src : List Byte) (tr tr' : List (Bool × Byte)),
      (loop (mtfOuterT dec parts w al aIn aOut) fuel (h, src, tr)).join = some tr' →
      ∃ b, tr'.map Prod.fst = tr.map Prod.fst ++ (List.replicate (src.length / (parts * w) * (parts * w)) al ++ List.replicate b false)
  | 0, _, _, _, _, he => by cases he
  | fuel + 1, h, src, tr, tr', he => by
    unfold loop at he
    unfold mtfOuterT at he
    dsimp only at he
    by_cases h1 : parts * w ≤ src.length
    · rw [if_pos h1] at he
      by_cases h2 : al = true ∧ ((aIn + tr.length) % (parts * w) ≠ 0 ∨ (aOut + tr.length) % (parts * w) ≠ 0)
      · rw [if_pos h2] at he
        cases he
      · rw [if_neg h2] at he
        cases hb : mtfBlock dec parts w h (src.take (parts * w)) with
        | none => rw [hb] at he; cases he
        | some x =>
          obtain ⟨h', o⟩ := x
          rw [hb] at he
          dsimp only at he
          obtain ⟨b, hk⟩ := outerT_kinds hL fuel h' _ _ tr' he
          refine ⟨b, ?_⟩
          rw [hk]
          have ho := mtfBlock_length hb
          have hd : src.length / (parts * w) * (parts * w) = parts * w + (src.drop (parts * w)).length / (parts * w) * (parts * w) := by
            rw [List.length_drop]
            have : src.length = src.length - parts * w + parts * w := by omega
            conv => lhs; rw [this, Nat.add_div_right _ hL, Nat.succ_mul]
            omega
          have hr : (o.map (fun b => (al, b))).map Prod.fst = List.replicate (parts * w) al := by
            rw [List.map_map, ← ho]
            exact List.map_const' ..
          rw [List.map_append, hr, hd, List.append_assoc, ← List.replicate_append_replicate, List.append_assoc]
    · rw [if_neg h1] at he
      cases he
      refine ⟨(if dec then mtfTailDec h 0 src else mtfTailEnc h 0 src).length, ?_⟩
      rw [Nat.div_eq_of_lt (by omega), Nat.zero_mul, List.map_append, List.map_map]
      congr 1
      exact List.map_const' ..

/-- The stores of a function are the bytes of its output; the whole blocks of an aligned function are streamed, all others not. -/
theorem runT_spec {dec : Bool} {parts w : Nat} {al : Bool} {aIn aOut : Nat} {src out : List Byte} {n : Nat} (hL : 0 < parts * w)
    (h : mtfRun dec parts w al aIn aOut src = .ok n out) :
    (mtfRunT dec parts w al aIn aOut src).map Prod.snd = out ∧
      ∃ b, (mtfRunT dec parts w al aIn aOut src).map Prod.fst =
        List.replicate (src.length / (parts * w) * (parts * w)) al ++ List.replicate b false := by
  unfold mtfRun at h
  have hm := outerT_map (dec := dec) (parts := parts) (w := w) (al := al) (aIn := aIn) (aOut := aOut) (src.length + 1) (fun r => vset1 (b8 r)) src []
  have hm : _ = (loop (mtfOuter dec parts w al aIn aOut) (src.length + 1) (fun r => vset1 (b8 r), src, [])).join := hm
  cases hj : (loop (mtfOuter dec parts w al aIn aOut) (src.length + 1) (fun r => vset1 (b8 r), src, [])).join with
  | none => rw [hj] at h; cases h
  | some o =>
    rw [hj] at h hm
    cases h
    rw [Option.map_eq_some_iff] at hm
    obtain ⟨tr, ht, hs⟩ := hm
    unfold mtfRunT
    rw [ht]
    obtain ⟨b, hk⟩ := outerT_kinds hL _ _ _ _ _ ht
    exact ⟨hs, b, hk⟩

/-! ### The machine -/

/-- The effect of instructions when nothing is reordered. -/
def effect : List Op → (PLoc → Byte) → (PLoc → Byte)
  | [], m => m
  | .st _ l v :: p, m => effect p (upd m l v)
  | .fence :: p, m => effect p m

/-- The memory once everything is visible. -/
def flush : List Ent → (PLoc → Byte) → (PLoc → Byte)
  | [], m => m
  | e :: b, m => flush b (upd m e.2.1 e.2.2)

theorem flush_append : ∀ (a b : List Ent) (m : PLoc → Byte), flush (a ++ b) m = flush b (flush a m)
  | [], _, _ => rfl
  | e :: a, b, m => by
    rw [List.cons_append]
    exact flush_append a b _

theorem upd_comm {m : PLoc → Byte} {l l' : PLoc} {v v' : Byte} (h : l ≠ l') : upd (upd m l v) l' v' = upd (upd m l' v') l v := by
  funext x
  unfold upd
  by_cases h1 : x = l'
  · rw [if_pos h1]
    by_cases h2 : x = l
    · exact absurd (h2.symm.trans h1) h
    · rw [if_neg h2, if_pos h1]
  · rw [if_neg h1]
    by_cases h2 : x = l
    · rw [if_pos h2, if_pos h2]
    · rw [if_neg h2, if_neg h2, if_neg h1]

theorem flush_upd : ∀ (b : List Ent) (m : PLoc → Byte) (l : PLoc) (v : Byte), (∀ e ∈ b, e.2.1 ≠ l) →
    flush b (upd m l v) = upd (flush b m) l v
  | [], _, _, _, _ => rfl
  | e :: b, m, l, v, h => by
    show flush b (upd (upd m l v) e.2.1 e.2.2) = upd (flush b (upd m e.2.1 e.2.2)) l v
    rw [upd_comm (h e (by simp)).symm]
    exact flush_upd b _ l v (fun e' he => h e' (by simp [he]))

theorem effect_append : ∀ (p q : List Op) (m : PLoc → Byte), effect (p ++ q) m = effect q (effect p m)
  | [], _, _ => rfl
  | .st _ l v :: p, q, m => by
    rw [List.cons_append]
    exact effect_append p q _
  | .fence :: p, q, m => by
    rw [List.cons_append]
    exact effect_append p q _

/-- Nothing gets lost: once all is visible the memory is what the program says. -/
theorem step_total {s t : PSt} (h : PStep s t) : effect t.prog (flush t.buf t.mem) = effect s.prog (flush s.buf s.mem) := by
  cases h with
  | exec => rw [flush_append]; rfl
  | fence => rfl
  | drain h1 _ =>
    dsimp only
    rw [flush_append, flush_append, flush_upd _ _ _ _ h1]
    rfl

/-- A store to the output buffer. -/
def isData : Op → Prop
  | .st _ (some _) _ => True
  | _ => False

/-- A store to the output buffer that is ordinary. -/
def isPlain : Op → Prop
  | .st false (some _) _ => True
  | _ => False

/-- Where a thread is that makes ordinary stores and then tells the other one. -/
inductive Plain : PSt → Prop where
  | body {p b m} : (∀ o ∈ p, isPlain o) → (∀ e ∈ b, e.1 = false ∧ e.2.1 ≠ none) → m none ≠ 1 → Plain ⟨p ++ [.st false none 1], b, m⟩
  | told {b m} : (∀ e ∈ b, e.1 = false ∧ e.2.1 ≠ none) → m none ≠ 1 → Plain ⟨[], b ++ [(false, none, 1)], m⟩
  | done {m} : Plain ⟨[], [], m⟩

theorem plain_step {s t : PSt} (h : Plain s) (hs : PStep s t) : Plain t := by
  cases h with
  | @body p b m hp hb hm =>
    generalize hq : p ++ [Op.st false none 1] = q at hs
    cases hs with
    | @exec nt l v p' _ _ =>
      cases p with
      | nil =>
        cases hq
        exact .told hb hm
      | cons o p =>
        cases hq
        refine .body (fun o' ho => hp o' (by simp [ho])) ?_ hm
        have := hp _ (List.mem_cons_self ..)
        intro e he
        rw [List.mem_append, List.mem_singleton] at he
        rcases he with he | rfl
        · exact hb e he
        · cases nt <;> cases l <;> simp_all [isPlain]
    | fence =>
      cases p with
      | nil => cases hq
      | cons o p =>
        cases hq
        exact absurd (hp _ (List.mem_cons_self ..)) (by simp [isPlain])
    | @drain _ b₁ nt l v b₂ _ h1 h2 =>
      subst hq
      refine .body hp (fun e he => hb e ?_) ?_
      · rw [List.mem_append] at he ⊢
        rcases he with he | he
        · exact .inl he
        · exact .inr (List.mem_cons_of_mem _ he)
      · unfold upd
        rw [if_neg]
        · exact hm
        · exact fun e => (hb (nt, l, v) (by simp)).2 e.symm
  | @told b m hb hm =>
    generalize hq : b ++ [(false, none, (1 : Byte))] = q at hs
    cases hs with
    | @drain _ b₁ nt l v b₂ _ h1 h2 =>
      cases b with
      | nil =>
        cases b₁ with
        | nil => cases hq; exact .done
        | cons e b₁ =>
          simp at hq
      | cons e b =>
        have h0 : b₁ = [] := by
          cases b₁ with
          | nil => rfl
          | cons e' b₁ =>
            exfalso
            rw [List.cons_append, List.cons_append] at hq
            injection hq with hq1 hq2
            subst hq1
            have hnt : nt = false := by
              have : (nt, l, v) ∈ b ++ [(false, none, (1 : Byte))] := by rw [hq2]; simp
              rw [List.mem_append, List.mem_singleton] at this
              rcases this with h | h
              · exact (hb _ (List.mem_cons_of_mem _ h)).1
              · exact congrArg Prod.fst h
            have a := h2 hnt e (List.mem_cons_self ..)
            have c := (hb e (List.mem_cons_self ..)).1
            rw [a] at c
            cases c
        subst h0
        rw [List.cons_append, List.nil_append] at hq
        injection hq with hq1 hq2
        subst hq1 hq2
        refine .told (fun e he => hb e (List.mem_cons_of_mem _ he)) ?_
        unfold upd
        rw [if_neg]
        · exact hm
        · exact fun e => (hb (nt, l, v) (List.mem_cons_self ..)).2 e.symm
  | done =>
    generalize hq : ([] : List Ent) = q at hs
    cases hs with
    | drain => simp at hq

/-- Where a thread is that makes any stores, waits, and then tells the other one. -/
inductive Waits : PSt → Prop where
  | body {p b m} : (∀ o ∈ p, isData o) → (∀ e ∈ b, e.2.1 ≠ none) → m none ≠ 1 → Waits ⟨p ++ [.fence, .st false none 1], b, m⟩
  | fenced {m} : m none ≠ 1 → Waits ⟨[.st false none 1], [], m⟩
  | told {m} : m none ≠ 1 → Waits ⟨[], [(false, none, 1)], m⟩
  | done {m} : Waits ⟨[], [], m⟩

theorem waits_step {s t : PSt} (h : Waits s) (hs : PStep s t) : Waits t := by
  cases h with
  | @body p b m hp hb hm =>
    generalize hq : p ++ [Op.fence, Op.st false none 1] = q at hs
    cases hs with
    | @exec nt l v p' _ _ =>
      cases p with
      | nil => cases hq
      | cons o p =>
        cases hq
        refine .body (fun o' ho => hp o' (by simp [ho])) ?_ hm
        have := hp _ (List.mem_cons_self ..)
        intro e he
        rw [List.mem_append, List.mem_singleton] at he
        rcases he with he | rfl
        · exact hb e he
        · cases l <;> simp_all [isData]
    | fence =>
      cases p with
      | nil => cases hq; exact .fenced hm
      | cons o p =>
        cases hq
        exact absurd (hp _ (List.mem_cons_self ..)) (by simp [isData])
    | @drain _ b₁ nt l v b₂ _ h1 h2 =>
      subst hq
      refine .body hp (fun e he => hb e ?_) ?_
      · rw [List.mem_append] at he ⊢
        rcases he with he | he
        · exact .inl he
        · exact .inr (List.mem_cons_of_mem _ he)
      · unfold upd
        rw [if_neg]
        · exact hm
        · exact fun e => (hb (nt, l, v) (by simp)) e.symm
  | fenced hm =>
    generalize hq : ([] : List Ent) = q at hs
    cases hs with
    | exec => subst hq; exact .told hm
    | drain => simp at hq
  | told hm =>
    generalize hq : [(false, none, (1 : Byte))] = q at hs
    cases hs with
    | @drain _ b₁ nt l v b₂ _ h1 h2 =>
      cases b₁ with
      | nil => cases hq; exact .done
      | cons e b₁ => simp at hq
  | done =>
    generalize hq : ([] : List Ent) = q at hs
    cases hs with
    | drain => simp at hq

theorem steps_inv {I : PSt → Prop} (hI : ∀ {s t}, I s → PStep s t → I t) {s t : PSt} (h : PSteps s t) (hs : I s) : I t := by
  induction h with
  | refl => exact hs
  | step _ h2 ih => exact hI ih h2

theorem PSteps.trans {s t u : PSt} (h : PSteps s t) (h' : PSteps t u) : PSteps s u := by
  induction h' with
  | refl => exact h
  | step _ h2 ih => exact ih.step h2

/-- With ordinary stores: whoever sees the variable set sees, then and later, the memory the program leads to. -/
theorem plain_visible {p : List Op} (hp : ∀ o ∈ p, isPlain o) {m : PLoc → Byte} (hm : m none ≠ 1) {s₁ s₂ : PSt}
    (h1 : PSteps ⟨p ++ [.st false none 1], [], m⟩ s₁) (hf : s₁.mem none = 1) (h2 : PSteps s₁ s₂) :
    s₂.mem = effect (p ++ [.st false none 1]) m := by
  have a1 : Plain s₁ := steps_inv plain_step h1 (.body hp (by simp) hm)
  have a2 : s₁.prog = [] ∧ s₁.buf = [] := by
    cases a1 with
    | body _ _ h => exact absurd hf h
    | told _ h => exact absurd hf h
    | done => exact ⟨rfl, rfl⟩
  have a3 : s₂.prog = [] ∧ s₂.buf = [] := steps_inv (I := fun s => s.prog = [] ∧ s.buf = []) (by
    intro s t ⟨i1, i2⟩ h
    cases h with
    | exec => cases i1
    | fence => cases i1
    | drain => simp at i2) h2 a2
  have a4 : effect s₂.prog (flush s₂.buf s₂.mem) = effect (p ++ [.st false none 1]) m :=
    steps_inv (I := fun s => effect s.prog (flush s.buf s.mem) = effect (p ++ [.st false none 1]) m)
      (fun i h => (step_total h).trans i) (h1.trans h2) rfl
  rw [a3.1, a3.2] at a4
  exact a4

/-- The same for any stores if the thread waits before it tells. -/
theorem waits_visible {p : List Op} (hp : ∀ o ∈ p, isData o) {m : PLoc → Byte} (hm : m none ≠ 1) {s₁ s₂ : PSt}
    (h1 : PSteps ⟨p ++ [.fence, .st false none 1], [], m⟩ s₁) (hf : s₁.mem none = 1) (h2 : PSteps s₁ s₂) :
    s₂.mem = effect (p ++ [.fence, .st false none 1]) m := by
  have a1 : Waits s₁ := steps_inv waits_step h1 (.body hp (by simp) hm)
  have a2 : s₁.prog = [] ∧ s₁.buf = [] := by
    cases a1 with
    | body _ _ h => exact absurd hf h
    | fenced h => exact absurd hf h
    | told h => exact absurd hf h
    | done => exact ⟨rfl, rfl⟩
  have a3 : s₂.prog = [] ∧ s₂.buf = [] := steps_inv (I := fun s => s.prog = [] ∧ s.buf = []) (by
    intro s t ⟨i1, i2⟩ h
    cases h with
    | exec => cases i1
    | fence => cases i1
    | drain => simp at i2) h2 a2
  have a4 : effect s₂.prog (flush s₂.buf s₂.mem) = effect (p ++ [.fence, .st false none 1]) m :=
    steps_inv (I := fun s => effect s.prog (flush s.buf s.mem) = effect (p ++ [.fence, .st false none 1]) m)
      (fun i h => (step_total h).trans i) (h1.trans h2) rfl
  rw [a3.1, a3.2] at a4
  exact a4

/-! ### Stores of an output -/

theorem storesFrom_isData : ∀ (tr : List (Bool × Byte)) (k : Nat), ∀ o ∈ storesFrom k tr, isData o
  | [], _, o, h => by cases h
  | (nt, b) :: r, k, o, h => by
    rcases List.mem_cons.mp h with rfl | h
    · trivial
    · exact storesFrom_isData r (k + 1) o h

theorem storesFrom_isPlain : ∀ (tr : List (Bool × Byte)) (k : Nat), (∀ e ∈ tr, e.1 = false) → ∀ o ∈ storesFrom k tr, isPlain o
  | [], _, _, o, h => by cases h
  | (nt, b) :: r, k, hk, o, h => by
    have : nt = false := hk (nt, b) (List.mem_cons_self ..)
    subst this
    rcases List.mem_cons.mp h with rfl | h
    · trivial
    · exact storesFrom_isPlain r (k + 1) (fun e he => hk e (List.mem_cons_of_mem _ he)) o h

theorem effect_stores_below : ∀ (tr : List (Bool × Byte)) (k j : Nat) (m : PLoc → Byte), j < k → effect (storesFrom k tr) m (some j) = m (some j)
  | [], _, _, _, _ => rfl
  | (nt, b) :: r, k, j, m, h => by
    show effect (storesFrom (k + 1) r) (upd m (some k) b) (some j) = _
    rw [effect_stores_below r (k + 1) j _ (by omega)]
    unfold upd
    rw [if_neg]
    intro e
    cases e
    omega

theorem effect_stores : ∀ (tr : List (Bool × Byte)) (k j : Nat) (m : PLoc → Byte) (hj : j < tr.length),
    effect (storesFrom k tr) m (some (k + j)) = (tr.map Prod.snd)[j]'(by simpa using hj)
  | (nt, b) :: r, k, 0, m, _ => by
    show effect (storesFrom (k + 1) r) (upd m (some k) b) (some (k + 0)) = b
    rw [effect_stores_below r (k + 1) (k + 0) _ (by omega)]
    simp [upd]
  | (nt, b) :: r, k, j + 1, m, hj => by
    show effect (storesFrom (k + 1) r) (upd m (some k) b) (some (k + (j + 1))) = _
    have := effect_stores r (k + 1) j (upd m (some k) b) (by simpa using hj)
    rw [show k + (j + 1) = k + 1 + j by omega, this]
    simp

/-- Executing stores without any of them becoming visible. -/
theorem exec_stores : ∀ (tr : List (Bool × Byte)) (k : Nat) (p : List Op) (b : List Ent) (m : PLoc → Byte),
    ∃ b', PSteps ⟨storesFrom k tr ++ p, b, m⟩ ⟨p, b ++ b', m⟩ ∧ b'.map Prod.fst = tr.map Prod.fst ∧
      (∀ i (hi : i < b'.length), (b'[i]).2.1 = some (k + i))
  | [], k, p, b, m => ⟨[], by simpa [storesFrom] using PSteps.refl, rfl, fun i hi => absurd hi (by simp)⟩
  | (nt, v) :: r, k, p, b, m => by
    obtain ⟨b', h1, h2, h3⟩ := exec_stores r (k + 1) p (b ++ [(nt, some k, v)]) m
    refine ⟨(nt, some k, v) :: b', ?_, by simp [h2], ?_⟩
    · have : PSteps ⟨storesFrom k ((nt, v) :: r) ++ p, b, m⟩ ⟨storesFrom (k + 1) r ++ p, b ++ [(nt, some k, v)], m⟩ :=
        PSteps.refl.step .exec
      have := this.trans h1
      rwa [List.append_assoc] at this
    · intro i hi
      cases i with
      | zero => rfl
      | succ i =>
        rw [List.getElem_cons_succ, h3 i (by simpa using hi)]
        congr 1
        omega

/-- Ordinary stores may overtake the non-temporal ones in front of them. -/
theorem drain_plain : ∀ (r b₁ : List Ent) (p : List Op) (m : PLoc → Byte), (∀ e ∈ b₁, e.1 = true) →
    (∀ e ∈ r, ∀ e' ∈ b₁, e'.2.1 ≠ e.2.1) → PSteps ⟨p, b₁ ++ r, m⟩ ⟨p, b₁, flush r m⟩
  | [], b₁, p, m, _, _ => by
    rw [List.append_nil]
    exact .refl
  | (nt, l, v) :: r, b₁, p, m, h1, h2 => by
    have a : PSteps ⟨p, b₁ ++ (nt, l, v) :: r, m⟩ ⟨p, b₁ ++ r, upd m l v⟩ :=
      PSteps.refl.step (.drain (h2 _ (List.mem_cons_self ..)) (fun _ => h1))
    exact a.trans (drain_plain r b₁ p (upd m l v) h1 (fun e he => h2 e (List.mem_cons_of_mem _ he)))

theorem flush_other : ∀ (r : List Ent) (m : PLoc → Byte) (l : PLoc), (∀ e ∈ r, e.2.1 ≠ l) → flush r m l = m l
  | [], _, _, _ => rfl
  | e :: r, m, l, h => by
    show flush r (upd m e.2.1 e.2.2) l = m l
    rw [flush_other r _ l (fun e' he => h e' (List.mem_cons_of_mem _ he))]
    unfold upd
    rw [if_neg]
    exact fun hh => h e (List.mem_cons_self ..) hh.symm

end Hrk.Publish
