import Verif.Grow
import Verif.Scan8
import Verif.Greedy

/-
Inputs made of blocks, on which every block costs the encoder more than it
saves. They show that the advertised output sizes are too small.
-/

namespace Hrk

/-! ### Following a loop -/

/-- The loop gets from `s` to `t`. -/
inductive Steps {σ ρ : Type} (body : σ → σ ⊕ ρ) : σ → σ → Prop where
  | refl (s : σ) : Steps body s s
  | head {s s' t : σ} (h : body s = .inl s') (r : Steps body s' t) : Steps body s t

namespace Steps

variable {σ ρ : Type} {body : σ → σ ⊕ ρ}

theorem trans {s t u : σ} (h : Steps body s t) (h' : Steps body t u) : Steps body s u := by
  induction h with
  | refl => exact h'
  | head h _ ih => exact .head h (ih h')

theorem one {s t : σ} (h : body s = .inl t) : Steps body s t := .head h (.refl t)

theorem loop {s t : σ} (h : Steps body s t) : ∀ f r, Hrk.loop body f s = some r → ∃ f', Hrk.loop body f' t = some r := by
  induction h with
  | refl => exact fun f r h => ⟨f, h⟩
  | head h _ ih =>
    intro f r he
    cases f with
    | zero => simp [Hrk.loop] at he
    | succ f =>
      unfold Hrk.loop at he
      rw [h] at he
      exact ih f r he

end Steps

/-! ### Blocks -/

/-- A scanner that finds the run of every block and pays `g` bytes too many for it. -/
structure BlockRun {σ : Type} (body : ES σ → ES σ ⊕ ES σ) (pc : PC) (emit : Emit σ) (inp : Mem) (L R g K : Nat)
    (sym : Nat → List Byte) (sy0 : List Byte) (I : Nat → σ → Prop) : Prop where
  find : ∀ k, k < K → ∀ cnt sy fs out, (sy = sy0 ∨ ∃ j, sy = sym j) → I k fs →
    Steps body ⟨pc, k * (L + R), cnt, k * (L + R), sy, fs, out⟩
      ⟨.second, k * (L + R) + L + R, R, k * (L + R), sym k, fs, out⟩
  cost : ∀ k, k < K → ∀ fs, I k fs → ∃ bytes fs', emit fs (sym k) R L = some (bytes, fs') ∧
    bytes.length = R + g ∧ I (k + 1) fs'
  second : ∀ s : ES σ, s.pc = .second → ∃ cnt, body s = .inl { doEmit emit inp s with count := cnt, pc := pc }

theorem BlockRun.reach {σ : Type} {body : ES σ → ES σ ⊕ ES σ} {pc : PC} {emit : Emit σ} {inp : Mem} {L R g K : Nat}
    {sym : Nat → List Byte} {I : Nat → σ → Prop} {sy0 : List Byte} (h : BlockRun body pc emit inp L R g K sym sy0 I)
    {fs0 : σ} (h0 : I 0 fs0) (cnt0 : Nat) :
    ∀ k, k ≤ K → ∃ cnt sy fs out, (sy = sy0 ∨ ∃ j, sy = sym j) ∧ I k fs ∧ out.length = k * (L + R + g) ∧
      Steps body ⟨pc, 0, cnt0, 0, sy0, fs0, []⟩ ⟨pc, k * (L + R), cnt, k * (L + R), sy, fs, out⟩ := by
  intro k
  induction k with
  | zero =>
    intro _
    refine ⟨cnt0, sy0, fs0, [], Or.inl rfl, h0, by simp, ?_⟩
    rw [Nat.zero_mul]
    exact .refl _
  | succ k ih =>
    intro hk
    obtain ⟨cnt, sy, fs, out, hsy, h1, h2, h3⟩ := ih (by omega)
    obtain ⟨bytes, fs', e1, e2, e3⟩ := h.cost k (by omega) fs h1
    obtain ⟨cnt', e4⟩ := h.second ⟨.second, k * (L + R) + L + R, R, k * (L + R), sym k, fs, out⟩ rfl
    have e5 : k * (L + R) + L + R - R - k * (L + R) = L := by omega
    have e6 : (k + 1) * (L + R) = k * (L + R) + L + R := by rw [Nat.add_mul]; omega
    simp only [doEmit, e5, e1] at e4
    refine ⟨cnt', sym k, fs', out ++ bytes ++ rd inp (k * (L + R)) L, Or.inr ⟨k, rfl⟩, e3, ?_, ?_⟩
    · simp only [List.length_append, rd_length, h2, e2, Nat.add_mul, Nat.mul_add]
      omega
    · rw [e6]
      exact h3.trans ((h.find k (by omega) cnt sy fs out hsy h1).trans (.one e4))

/-- What the encoder has written when it stops. -/
theorem BlockRun.out {σ : Type} {body : ES σ → ES σ ⊕ ES σ} {pc : PC} {emit : Emit σ} {inp : Mem} {L R g K : Nat}
    {sym : Nat → List Byte} {I : Nat → σ → Prop} {sy0 : List Byte} (h : BlockRun body pc emit inp L R g K sym sy0 I)
    {fs0 : σ} (h0 : I 0 fs0) {cnt0 : Nat} {s0 s : ES σ} (hs : Steps body s0 ⟨pc, 0, cnt0, 0, sy0, fs0, []⟩)
    (hmono : ∀ s, Post (body s) (fun s' => s.out.length ≤ s'.out.length) (fun s' => s.out.length ≤ s'.out.length))
    {f : Nat} (hr : loop body f s0 = some s) : K * (L + R + g) ≤ s.out.length := by
  obtain ⟨cnt, sy, fs, out, _, h1, h2, h3⟩ := h.reach h0 cnt0 K (Nat.le_refl _)
  obtain ⟨f', hf⟩ := (hs.trans h3).loop f s hr
  refine loop_rule_partial (body := body) (fun s => K * (L + R + g) ≤ s.out.length) (fun s => K * (L + R + g) ≤ s.out.length)
    ?_ f' _ s ?_ hf
  · intro s hs
    have := hmono s
    cases hb : body s with
    | inl s' => rw [hb] at this; exact Nat.le_trans hs this
    | inr s' => rw [hb] at this; exact Nat.le_trans hs this
  · show _ ≤ out.length
    omega

theorem doEmit_mono {σ : Type} (emit : Emit σ) (inp : Mem) (s : ES σ) : s.out.length ≤ (doEmit emit inp s).out.length := by
  unfold doEmit
  split
  · simp only [List.length_append]; omega
  · exact Nat.le_refl _

theorem finish_mono {σ : Type} (emit : Emit σ) (endRun : List Byte) (endLit : Nat → List Byte) (inp : Mem) (s : ES σ) :
    s.out.length ≤ (finish emit endRun endLit inp s).length := by
  unfold finish
  split <;> simp only [List.length_append] <;> omega

/-- A body that is larger than the bound for it does not fit. -/
theorem Cdc.ub_of_large {σ : Type} (c : Cdc σ) {cpu : Cpu} {inp : Mem} {n : Nat} {b : List Byte} (h0 : 0 < n) (hn : n ≤ maxInput)
    (hb : c.body cpu inp n = some b) (hl : n + 185 < b.length) :
    c.compress cpu (some inp) n true (bounds n) = .ub := by
  unfold maxInput at hn
  simp only [compress, apiCompress, hb]
  rw [if_neg (by simp; omega), if_neg]
  unfold bounds
  rw [if_neg (by omega)]
  simp only [List.length_append, le32_length]
  omega

theorem Cdc.ub_of_out {σ : Type} (c : Cdc σ) {cpu : Cpu} {inp : Mem} {n : Nat} (h0 : 0 < n) (hn : n ≤ maxInput)
    (ht : ∃ b, c.body cpu inp n = some b) (h : ∀ s, c.run cpu inp n = some s → n + 185 < s.out.length) :
    c.compress cpu (some inp) n true (bounds n) = .ub := by
  obtain ⟨b, hb⟩ := ht
  refine c.ub_of_large h0 hn hb ?_
  unfold Cdc.body at hb
  cases hr : c.run cpu inp n with
  | none => simp [hr] at hb
  | some s =>
    rw [hr] at hb
    simp only [Option.map_some, Option.some.injEq] at hb
    subst hb
    have h1 := h s hr
    have h2 := finish_mono c.emitEnd c.F.endRun c.F.endLit inp s
    rw [List.length_append]
    omega

theorem not_fits_of_ub {comp : Compress} {inp : Mem} {n : Nat} (h0 : 0 < n) (hn : n ≤ maxInput)
    (h : comp (some inp) n true (bounds n) = .ub) : ¬ FitsBounds bounds comp := by
  intro hf
  obtain ⟨out, h1, _⟩ := hf inp n (bounds n) h0 hn (Nat.le_refl _) (by
    unfold maxInput at hn; unfold bounds; rw [if_neg (by omega)]; omega)
  rw [h] at h1
  cases h1

/-! ### The multi-byte scanner -/

theorem matchLen_stopAt {inp : Mem} {sym : List Byte} {i : Nat} : ∀ k off m,
    (∀ j, j < m → inp (i + (off + j)) = sym.getD ((off + j) % sym.length) 0) →
    inp (i + (off + m)) ≠ sym.getD ((off + m) % sym.length) 0 → m < k → matchLen inp sym i k off = m := by
  intro k
  induction k with
  | zero => intro off m _ _ h; omega
  | succ k ih =>
    intro off m h1 h2 h3
    unfold matchLen
    cases m with
    | zero => rw [if_neg (by simpa using h2)]
    | succ m =>
      rw [if_pos (by simpa using h1 0 (by omega)), ih (off + 1) m ?_ ?_ (by omega), Nat.add_comm]
      · intro j hj
        have := h1 (j + 1) (by omega)
        rwa [show off + (j + 1) = off + 1 + j by omega] at this
      · rwa [show off + (m + 1) = off + 1 + m by omega] at h2

theorem matchLen_all {inp : Mem} {sym : List Byte} {i : Nat} : ∀ k off,
    (∀ j, j < k → inp (i + (off + j)) = sym.getD ((off + j) % sym.length) 0) → matchLen inp sym i k off = k := by
  intro k
  induction k with
  | zero => intro off _; rfl
  | succ k ih =>
    intro off h1
    unfold matchLen
    rw [if_pos (by simpa using h1 0 (by omega)), ih (off + 1) ?_, Nat.add_comm]
    intro j hj
    have := h1 (j + 1) (by omega)
    rwa [show off + (j + 1) = off + 1 + j by omega] at this

theorem findPair_none {inp : Mem} {S i : Nat} : ∀ k off, (∀ j, j < k → pairAt inp S (i + (off + j)) = false) →
    findPair inp S i k off = none := by
  intro k
  induction k with
  | zero => intro off _; rfl
  | succ k ih =>
    intro off h
    unfold findPair
    have h0 := h 0 (by omega)
    rw [Nat.add_zero] at h0
    rw [if_neg (by simp [h0])]
    refine ih (off + 1) fun j hj => ?_
    have := h (j + 1) (by omega)
    rwa [show off + (j + 1) = off + 1 + j by omega] at this

theorem findPair_at {inp : Mem} {S i : Nat} : ∀ k off m, m < k → (∀ j, j < m → pairAt inp S (i + (off + j)) = false) →
    pairAt inp S (i + (off + m)) = true → findPair inp S i k off = some (off + m) := by
  intro k
  induction k with
  | zero => intro off m h; omega
  | succ k ih =>
    intro off m hm h ht
    unfold findPair
    cases m with
    | zero => rw [if_pos (by simpa using ht)]; rfl
    | succ m =>
      have h0 := h 0 (by omega)
      rw [Nat.add_zero] at h0
      rw [if_neg (by simp [h0]), ih (off + 1) m (by omega)]
      · congr 1; omega
      · intro j hj
        have := h (j + 1) (by omega)
        rwa [show off + (j + 1) = off + 1 + j by omega] at this
      · rwa [show off + (m + 1) = off + 1 + m by omega] at ht

/-- The next `R` bytes at `p` are a run of `sym`, and not more. -/
structure ExactRun (inp : Mem) (sym : List Byte) (p R : Nat) : Prop where
  run : ∀ j, j < R → inp (p + j) = sym.getD (j % sym.length) 0
  stop : inp (p + R) ≠ sym.getD (R % sym.length) 0

theorem ExactRun.shift {inp : Mem} {sym : List Byte} {p R : Nat} (h : ExactRun inp sym p R) {d : Nat} (hd : sym.length ∣ d)
    (hR : d ≤ R) : ExactRun inp sym (p + d) (R - d) := by
  obtain ⟨q, rfl⟩ := hd
  refine ⟨fun j hj => ?_, ?_⟩
  · have := h.run (sym.length * q + j) (by omega)
    rw [Nat.add_assoc, this, Nat.mul_add_mod]
  · have := h.stop
    rw [show p + sym.length * q + (R - sym.length * q) = p + R by omega]
    have e : R % sym.length = (R - sym.length * q) % sym.length := by
      conv => lhs; rw [show R = sym.length * q + (R - sym.length * q) by omega, Nat.mul_add_mod]
    rwa [e] at this

theorem ExactRun.rd_eq {inp : Mem} {sym : List Byte} {p R : Nat} (h : ExactRun inp sym p R) (hR : sym.length ≤ R) :
    rd inp p sym.length = sym := by
  apply List.ext_getElem?
  intro k
  rw [rd_getElem?]
  split
  · next hk =>
    rw [h.run k (by omega), Nat.mod_eq_of_lt hk]
    simp [List.getD, hk]
  · next hk => simp [Nat.le_of_not_lt hk]

section scanX

variable {σ : Type} {emit : Emit σ} {S W : Nat} {unb : Bool} {inp : Mem} {n : Nat}

/-- Skipping literals. -/
theorem stepX_skip (h0 : ∀ fs sym lits, emit fs sym 0 lits = none) (hW : W = 0 ∨ S < W) {p : Nat} (hn : p + 2 * W + 2 * S < n)
    : ∀ d a, a + d = p → (∀ j, a ≤ j → j < p → pairAt inp S j = false) → ∀ cnt last sy fs out,
      (W = 0 → last ≤ a) → 
      ∃ b cnt' sy', a ≤ b ∧ b ≤ p ∧ (W = 0 → b = p) ∧ (W ≠ 0 → p ≤ b + (W - S)) ∧
      Steps (stepX emit S W unb inp n) ⟨.search, a, cnt, last, sy, fs, out⟩ ⟨.search, b, cnt', last, sy', fs, out⟩ := by
  intro d
  induction d using Nat.strongRecOn with
  | ind d ih =>
    intro a had hp cnt last sy fs out hl
    by_cases hW0 : W = 0
    · by_cases hd : d = 0
      · exact ⟨a, cnt, sy, Nat.le_refl _, by omega, by omega, by omega, .refl _⟩
      · have hpair : ¬ (a + S ≤ n ∧ rd inp (a + S) S = rd inp a S) := by
          have := hp a (Nat.le_refl _) (by omega)
          unfold pairAt at this
          intro h
          rw [h.2] at this
          simp at this
        obtain ⟨b, cnt', sy', h1, h2, h3, h4, h5⟩ := ih (d - 1) (by omega) (a + 1) (by omega)
          (fun j h1 h2 => hp j (by omega) h2) 0 last (rd inp a S) fs out (by omega)
        refine ⟨b, cnt', sy', by omega, h2, h3, h4, ?_⟩
        have hns : ¬ (W ≠ 0 ∧ a + W + S < n) := by omega
        have hns' : ¬ (W ≠ 0 ∧ a + 1 + W + S < n) := by omega
        refine .head (s' := ⟨.sscan, a, cnt, last, sy, fs, out⟩) (by simp only [stepX]; rw [if_neg hns]) ?_
        refine .head (s' := ⟨.top, a + 1, 0, last, rd inp a S, fs, out⟩) (by simp only [stepX]; rw [if_neg hpair]) ?_
        refine .head (s' := ⟨.ext, a + 1, 0, last, rd inp a S, fs, out⟩)
          (by simp only [stepX]; rw [if_pos (by omega)]) ?_
        refine .head (s' := ⟨.scal, a + 1, 0, last, rd inp a S, fs, out⟩)
          (by simp only [stepX]; rw [if_neg hns']) ?_
        refine .head (s' := ⟨.second, a + 1, 0, last, rd inp a S, fs, out⟩)
          (by simp only [stepX]; rw [if_neg (by simp)]) ?_
        refine .head (s' := ⟨.search, a + 1, 0, last, rd inp a S, fs, out⟩)
          (by simp only [stepX, doEmit, h0]) h5
    · by_cases hd : d ≤ W - S
      · exact ⟨a, cnt, sy, Nat.le_refl _, by omega, by omega, by omega, .refl _⟩
      · obtain ⟨b, cnt', sy', h1, h2, h3, h4, h5⟩ := ih (d - (W - S)) (by omega) (a + (W - S)) (by omega)
          (fun j h1 h2 => hp j (by omega) h2) cnt last sy fs out (by omega)
        refine ⟨b, cnt', sy', by omega, h2, h3, h4, ?_⟩
        refine .head (s' := ⟨.search, a + (W - S), cnt, last, sy, fs, out⟩) ?_ h5
        simp only [stepX]
        rw [if_pos (by omega), findPair_none _ _ fun j hj => hp _ (by omega) (by omega)]

/-- Extending a run with the scalar code. -/
theorem stepX_scal (hS : 0 < S) (hW : W = 0) {sym : List Byte} (hl : sym.length = S) :
    ∀ d i cnt last fs out, ExactRun inp sym i d → (unb = true ∨ S ∣ d) → i + d + S ≤ n → cnt ≠ 0 →
      Steps (stepX emit S W unb inp n) ⟨.top, i, cnt, last, sym, fs, out⟩ ⟨.second, i + d, cnt + d, last, sym, fs, out⟩ := by
  intro d
  induction d using Nat.strongRecOn with
  | ind d ih =>
    intro i cnt last fs out hr hu hn hc
    refine .head (s' := ⟨.ext, i, cnt, last, sym, fs, out⟩) (by simp only [stepX]; rw [if_pos (by omega)]) ?_
    refine .head (s' := ⟨.scal, i, cnt, last, sym, fs, out⟩) (by simp only [stepX]; rw [if_neg (by omega)]) ?_
    by_cases hd : S ≤ d
    · have hm : matchLen inp sym i S 0 = S := matchLen_all S 0 fun j hj => by
        rw [Nat.zero_add]; exact hr.run j (by omega)
      have hr' := hr.shift (d := S) (by rw [hl]) hd
      have := ih (d - S) (by omega) (i + S) (cnt + S) last fs out hr'
        (hu.imp_right fun h => Nat.dvd_sub h (Nat.dvd_refl _)) (by omega) (by omega)
      rw [show i + S + (d - S) = i + d by omega, show cnt + S + (d - S) = cnt + d by omega] at this
      refine .head (s' := ⟨.top, i + S, cnt + S, last, sym, fs, out⟩) ?_ this
      simp only [stepX]
      rw [if_pos ⟨hc, by omega⟩, if_pos hm]
    · have hm : matchLen inp sym i S 0 = d := matchLen_stopAt S 0 d
        (fun j hj => by rw [Nat.zero_add]; exact hr.run j hj) (by rw [Nat.zero_add]; exact hr.stop) (by omega)
      refine .one ?_
      simp only [stepX]
      rw [if_pos ⟨hc, by omega⟩, hm, if_neg (by omega)]
      by_cases hub : unb = true
      · rw [if_pos hub]
      · rw [if_neg hub]
        obtain h := hu.resolve_left hub
        have : d = 0 := Nat.eq_zero_of_dvd_of_lt h (by omega)
        subst this
        rfl

/-- Searching from `a`, the scanner finds the run at `p`. -/
theorem stepX_find (hS : 0 < S) (h0 : ∀ fs sym lits, emit fs sym 0 lits = none) (hW : W = 0 ∨ S < W)
    {sym : List Byte} (hl : sym.length = S)
    {a p R : Nat} (hap : a ≤ p) (hn : p + R + 2 * W + 2 * S < n) (hlit : ∀ j, a ≤ j → j < p → pairAt inp S j = false)
    (hr : ExactRun inp sym p R) (hu : unb = true ∨ S ∣ R) (hR : 2 * S ≤ R) (hRW : W = 0 ∨ R < 2 * S + W) (cnt last : Nat)
    (hla : last ≤ a) (sy : List Byte) (fs : σ) (out : List Byte) :
    Steps (stepX emit S W unb inp n) ⟨.search, a, cnt, last, sy, fs, out⟩ ⟨.second, p + R, R, last, sym, fs, out⟩ := by
  obtain ⟨b, cnt', sy', h1, h2, h3, h4, h5⟩ := stepX_skip (emit := emit) (S := S) (W := W) (unb := unb) (inp := inp) (n := n)
    h0 hW (p := p) (by omega) (p - a) a (by omega) hlit cnt last sy fs out (by omega)
  refine h5.trans ?_
  have e1 : rd inp p S = sym := by rw [← hl]; exact hr.rd_eq (by omega)
  have hr1 := hr.shift (d := S) (by rw [hl]) (by omega)
  have hr2 := hr.shift (d := 2 * S) (by rw [hl]; exact Nat.dvd_mul_left _ _) (by omega)
  have e2 : rd inp (p + S) S = sym := by conv => lhs; rw [← hl]
                                         rw [hl]
                                         conv => lhs; arg 3; rw [← hl]
                                         exact hr1.rd_eq (by omega)
  have hu2 : unb = true ∨ S ∣ R - 2 * S := hu.imp_right fun h => Nat.dvd_sub h (Nat.dvd_mul_left _ _)
  by_cases hW0 : W = 0
  · have := h3 hW0
    subst this
    refine .head (s' := ⟨.sscan, b, cnt', last, sy', fs, out⟩) (by simp only [stepX]; rw [if_neg (by omega)]) ?_
    refine .head (s' := ⟨.top, b + 2 * S, 2 * S, last, sym, fs, out⟩)
      (by simp only [stepX]; rw [if_pos ⟨by omega, by rw [e1, e2]⟩, e1]) ?_
    have := stepX_scal (emit := emit) (unb := unb) (n := n) hS hW0 hl (R - 2 * S) (b + 2 * S) (2 * S) last fs out hr2
      hu2 (by omega) (by omega)
    rwa [show b + 2 * S + (R - 2 * S) = b + R by omega, show 2 * S + (R - 2 * S) = R by omega] at this
  · have hpair : pairAt inp S p = true := by unfold pairAt; rw [e1, e2]; simp
    refine .head (s' := ⟨.ext, p + 2 * S, 2 * S, last, sym, fs, out⟩) ?_ ?_
    · simp only [stepX]
      rw [if_pos (by omega), findPair_at _ 0 (p - b) (by omega) (fun j hj => hlit _ (by omega) (by omega))
        (by rw [show b + (0 + (p - b)) = p by omega]; exact hpair)]
      simp only
      rw [show b + (0 + (p - b)) = p by omega, e1, show b + (0 + (p - b) + 2 * S) = p + 2 * S by omega]
    · have hm : matchLen inp sym (p + 2 * S) W 0 = R - 2 * S := matchLen_stopAt W 0 (R - 2 * S)
        (fun j hj => by rw [Nat.zero_add]; exact hr2.run j hj) (by rw [Nat.zero_add]; exact hr2.stop) (by omega)
      refine .one ?_
      simp only [stepX]
      rw [if_pos (by omega), hm]
      by_cases hz : R - 2 * S = 0
      · rw [if_pos hz]; congr 2 <;> omega
      · rw [if_neg hz, if_neg (by omega)]
        by_cases hub : unb = true
        · rw [if_pos hub]; congr 2 <;> omega
        · rw [if_neg hub, Nat.mod_eq_zero_of_dvd (hu2.resolve_left hub)]; congr 2 <;> omega

theorem stepX_mono (s : ES σ) : Post (stepX emit S W unb inp n s) (fun s' => s.out.length ≤ s'.out.length)
    (fun s' => s.out.length ≤ s'.out.length) := by
  obtain ⟨pc, i, count, last, sym, fs, out⟩ := s
  cases pc <;> simp only [stepX]
  · split <;> exact Nat.le_refl _
  · repeat' split
    all_goals exact Nat.le_refl _
  · repeat' split
    all_goals exact Nat.le_refl _
  · exact doEmit_mono emit inp ⟨.second, i, count, last, sym, fs, out⟩
  · repeat' split
    all_goals exact Nat.le_refl _
  · split <;> exact Nat.le_refl _

end scanX

/-! ### The input -/

/-- Blocks of `L` bytes that do not repeat, followed by `R` bytes of a run of `sym k` in the
`k`-th block. -/
def blk (L R : Nat) (sym : Nat → List Byte) : Mem := fun x =>
  if x % (L + R) < L then b8 (128 + x % (L + R) % 127)
  else (sym (x / (L + R))).getD ((x % (L + R) - L) % (sym (x / (L + R))).length) 0

/-- The symbols have the high bit clear. -/
def LowSym (S : Nat) (sym : Nat → List Byte) : Prop := ∀ k, (sym k).length = S ∧ ∀ b ∈ sym k, b.toNat < 128

section blk

variable {L R S : Nat} {sym : Nat → List Byte}

theorem blk_lit (k : Nat) {j : Nat} (hj : j < L) : blk L R sym (k * (L + R) + j) = b8 (128 + j % 127) := by
  have e : (k * (L + R) + j) % (L + R) = j := by
    rw [Nat.add_comm, Nat.add_mul_mod_self_right, Nat.mod_eq_of_lt (by omega)]
  unfold blk
  rw [e, if_pos hj]

theorem blk_run (k : Nat) {j : Nat} (hj : j < R) :
    blk L R sym (k * (L + R) + L + j) = (sym k).getD (j % (sym k).length) 0 := by
  have e : (k * (L + R) + L + j) % (L + R) = L + j := by
    rw [Nat.add_assoc, Nat.add_comm, Nat.add_mul_mod_self_right, Nat.mod_eq_of_lt (by omega)]
  have e2 : (k * (L + R) + L + j) / (L + R) = k := by
    rw [Nat.add_assoc, Nat.add_comm, Nat.add_mul_div_right _ _ (by omega), Nat.div_eq_of_lt (by omega), Nat.zero_add]
  unfold blk
  rw [e, e2, if_neg (by omega), Nat.add_sub_cancel_left]

theorem lit_toNat (j : Nat) : (b8 (128 + j % 127)).toNat = 128 + j % 127 := by
  rw [b8_toNat]; omega

theorem LowSym.getD (h : LowSym S sym) (k j : Nat) : ((sym k).getD j 0).toNat < 128 := by
  rw [List.getD]
  by_cases hj : j < (sym k).length
  · rw [List.getElem?_eq_getElem hj]
    exact (h k).2 _ (List.getElem_mem _)
  · rw [List.getElem?_eq_none (by omega)]
    decide

theorem blk_exact (h : LowSym S sym) (hL : 0 < L) (k : Nat) : ExactRun (blk L R sym) (sym k) (k * (L + R) + L) R := by
  refine ⟨fun j hj => blk_run k hj, ?_⟩
  have e := blk_lit (L := L) (R := R) (sym := sym) (k + 1) (j := 0) hL
  rw [show (k + 1) * (L + R) + 0 = k * (L + R) + L + R by rw [Nat.add_mul]; omega] at e
  rw [e]
  intro h2
  have h3 := lit_toNat 0
  rw [h2] at h3
  have := h.getD k (R % (sym k).length)
  omega

theorem pairAt_false {inp : Mem} {S p : Nat} (hS : 0 < S) (h : inp p ≠ inp (p + S)) : pairAt inp S p = false := by
  unfold pairAt
  rw [beq_eq_false_iff_ne]
  intro he
  apply h
  have e : (rd inp p S).getD 0 0 = (rd inp (p + S) S).getD 0 0 := by rw [he]
  rwa [rd_getD _ _ _ _ _ hS, rd_getD _ _ _ _ _ hS] at e

/-- Nothing repeats in the first `L` bytes of a block. -/
theorem blk_ne (h : LowSym S sym) (hS : 0 < S) (hS' : S < 127) (hR : S ≤ R) (k : Nat) {j : Nat} (hj : j < L) :
    blk L R sym (k * (L + R) + j) ≠ blk L R sym (k * (L + R) + j + S) := by
  rw [blk_lit k hj]
  by_cases hjs : j + S < L
  · rw [Nat.add_assoc, blk_lit k hjs]
    intro he
    have := congrArg UInt8.toNat he
    rw [lit_toNat, lit_toNat] at this
    omega
  · rw [show k * (L + R) + j + S = k * (L + R) + L + (j + S - L) by omega, blk_run k (by omega)]
    intro he
    have h1 := lit_toNat j
    rw [he] at h1
    have := h.getD k ((j + S - L) % (sym k).length)
    omega

theorem blk_pair (h : LowSym S sym) (hS : 0 < S) (hS' : S < 127) (hR : S ≤ R) (k : Nat) {x : Nat}
    (h1 : k * (L + R) ≤ x) (h2 : x < k * (L + R) + L) : pairAt (blk L R sym) S x = false := by
  obtain ⟨j, rfl⟩ : ∃ j, x = k * (L + R) + j := ⟨x - k * (L + R), by omega⟩
  exact pairAt_false hS (blk_ne h hS hS' hR k (by omega))

end blk

/-- The multi-byte scanner on such an input. -/
theorem runX_blocks {σ : Type} (F : Fmt σ) {S W : Nat} {unb : Bool} {n L R g K : Nat} {sym : Nat → List Byte} {I : Nat → σ → Prop}
    (hS : 0 < S) (hS' : S < 127) (hW : W = 0 ∨ S < W) (hlow : LowSym S sym) (hL : 0 < L) (hR : 2 * S ≤ R)
    (hRW : W = 0 ∨ R < 2 * S + W) (hu : unb = true ∨ S ∣ R)
    (hn : K * (L + R) + 2 * W + 2 * S < n) (h0 : ∀ fs sym lits, F.emit fs sym 0 lits = none)
    (hI : I 0 F.init)
    (hcost : ∀ k, k < K → ∀ fs, I k fs → ∃ bytes fs', F.emit fs (sym k) R L = some (bytes, fs') ∧
      bytes.length = R + g ∧ I (k + 1) fs') :
    ∃ s, runX F S W unb (blk L R sym) n = some s ∧ K * (L + R + g) ≤ s.out.length := by
  obtain ⟨s, h1, _⟩ := runX_scan F (unb := unb) hS hW (blk L R sym) n (n + S) (fun _ _ _ => True) (Nat.le_refl _)
    (fun _ _ => closed_true) trivial
  refine ⟨s, h1, ?_⟩
  have hb : BlockRun (stepX F.emit S W unb (blk L R sym) n) .search F.emit (blk L R sym) L R g K sym
      ((rd (blk L R sym) 0 S).map (fun b => ~~~ b)) I := by
    refine ⟨?_, hcost, ?_⟩
    · intro k hk cnt sy fs out _ _
      have : (k + 1) * (L + R) ≤ K * (L + R) := Nat.mul_le_mul_right _ (by omega)
      rw [Nat.add_mul] at this
      exact stepX_find hS h0 hW (hlow k).1 (Nat.le_add_right _ _) (by omega)
        (fun j h1 h2 => blk_pair hlow hS hS' (by omega) k h1 h2) (blk_exact hlow hL k) hu hR hRW cnt _ (Nat.le_refl _) sy fs out
    · intro s hs
      obtain ⟨pc, i, count, last, sym, fs, out⟩ := s
      cases hs
      exact ⟨_, rfl⟩
  refine hb.out hI (cnt0 := 0) ?_ stepX_mono h1
  refine .head (s' := ⟨.ext, 0, 0, 0, _, F.init, []⟩) (by simp only [stepX]; rw [if_pos (by omega)]) ?_
  have hsec : stepX F.emit S W unb (blk L R sym) n
      ⟨.second, 0, 0, 0, (rd (blk L R sym) 0 S).map (fun b => ~~~ b), F.init, []⟩ =
      .inl ⟨.search, 0, 0, 0, (rd (blk L R sym) 0 S).map (fun b => ~~~ b), F.init, []⟩ := by
    simp only [stepX, doEmit, h0]
  by_cases hW0 : W = 0
  · refine .head (s' := ⟨.scal, 0, 0, 0, (rd (blk L R sym) 0 S).map (fun b => ~~~ b), F.init, []⟩)
      (by simp only [stepX]; rw [if_neg (by omega)]) ?_
    refine .head (s' := ⟨.second, 0, 0, 0, (rd (blk L R sym) 0 S).map (fun b => ~~~ b), F.init, []⟩)
      (by simp only [stepX]; rw [if_neg (by simp)]) (.one hsec)
  · refine .head (s' := ⟨.second, 0, 0, 0, (rd (blk L R sym) 0 S).map (fun b => ~~~ b), F.init, []⟩) ?_ (.one hsec)
    simp only [stepX]
    rw [if_pos (by omega), if_pos (matchLen_zero W ?_)]
    have e : ((rd (blk L R sym) 0 S).map (fun b => ~~~ b)).getD 0 0 = ~~~ blk L R sym 0 := by
      obtain ⟨S, rfl⟩ : ∃ k, S = k + 1 := ⟨S - 1, by omega⟩
      simp [rd, List.range_succ_eq_map]
    rw [e]
    exact not_ne _

/-! ### The 8 bit scanner -/

section scan8

variable {σ : Type} {emit emitT : Emit σ} {W : Nat} {inp : Mem} {n : Nat}

theorem step8_skip (hW : 2 ≤ W) {p : Nat} (hn : p + W < n) : ∀ d a, a + d = p →
    (∀ j, a ≤ j → j < p → pairAt inp 1 j = false) → pairAt inp 1 p = true → ∀ cnt last sy fs out,
      Steps (step8 emit emitT W inp n) ⟨.search, a, cnt, last, sy, fs, out⟩ ⟨.sscan, p, cnt, last, sy, fs, out⟩ := by
  intro d
  induction d using Nat.strongRecOn with
  | ind d ih =>
    intro a had hp hpp cnt last sy fs out
    by_cases hd : d < W - 1
    · refine .one ?_
      simp only [step8]
      rw [if_pos (by omega), findPair_at _ 0 d hd (fun j hj => hp _ (by omega) (by omega))
        (by rw [show a + (0 + d) = p by omega]; exact hpp)]
      simp only
      rw [show a + (0 + d) = p by omega]
    · refine .head (s' := ⟨.search, a + (W - 1), cnt, last, sy, fs, out⟩) ?_ (ih (d - (W - 1)) (by omega) _ (by omega)
        (fun j h1 h2 => hp j (by omega) h2) hpp cnt last sy fs out)
      simp only [step8]
      rw [if_pos (by omega), findPair_none _ _ fun j hj => hp _ (by omega) (by omega)]

theorem step8_find (hW : 2 ≤ W) {b : Byte} {a p R : Nat} (hap : a ≤ p) (hn : p + R + W < n)
    (hlit : ∀ j, a ≤ j → j < p → pairAt inp 1 j = false)
    (hr : ExactRun inp [b] p R) (hR : 2 ≤ R) (hRW : R < 1 + W) (cnt last : Nat) (sy : List Byte) (fs : σ) (out : List Byte) :
    Steps (step8 emit emitT W inp n) ⟨.search, a, cnt, last, sy, fs, out⟩ ⟨.second, p + R, R, last, [b], fs, out⟩ := by
  have e0 : rd inp p 1 = [b] := hr.rd_eq (by show 1 ≤ R; omega)
  have hr1 := hr.shift (d := 1) (Nat.dvd_refl _) (by omega)
  have e1 : rd inp (p + 1) 1 = [b] := hr1.rd_eq (by show 1 ≤ R - 1; omega)
  refine (step8_skip hW (p := p) (by omega) (p - a) a (by omega) hlit (by unfold pairAt; rw [e0, e1]; simp) cnt last sy fs out).trans ?_
  refine .head (s' := ⟨.top, p + 1, 1, last, [b], fs, out⟩) (by simp only [step8, e0]) ?_
  refine .head (s' := ⟨.ext, p + 1, 1, last, [b], fs, out⟩) (by simp only [step8]; rw [if_pos (by omega)]) ?_
  have hm : matchLen inp [b] (p + 1) W 0 = R - 1 := matchLen_stopAt W 0 (R - 1)
    (fun j hj => by rw [Nat.zero_add]; exact hr1.run j hj) (by rw [Nat.zero_add]; exact hr1.stop) (by omega)
  have ha : anyEq inp [b] (p + 1) W = true := by
    unfold anyEq
    rw [List.any_eq_true]
    refine ⟨0, List.mem_range.mpr (by omega), ?_⟩
    have := hr1.run 0 (by omega)
    simpa using this
  refine .one ?_
  simp only [step8]
  rw [hm, if_neg (by omega), if_pos (Or.inl ha)]
  congr 2 <;> omega

theorem step8_mono (s : ES σ) : Post (step8 emit emitT W inp n s) (fun s' => s.out.length ≤ s'.out.length)
    (fun s' => s.out.length ≤ s'.out.length) := by
  obtain ⟨pc, i, count, last, sym, fs, out⟩ := s
  cases pc <;> simp only [step8]
  · split <;> exact Nat.le_refl _
  · repeat' split
    all_goals exact Nat.le_refl _
  · split
    · split
      · exact Nat.le_refl _
      · exact doEmit_mono emitT inp ⟨.scal, i, count, last, sym, fs, out⟩
    · exact Nat.le_refl _
  · exact doEmit_mono emit inp ⟨.second, i, count, last, sym, fs, out⟩
  · repeat' split
    all_goals exact Nat.le_refl _
  · exact Nat.le_refl _

end scan8

theorem run8_blocks {σ : Type} (F : Fmt σ) (emitT : Emit σ) {W : Nat} {n L R g K : Nat} {b : Byte} (hb : b.toNat < 128)
    {I : Nat → σ → Prop} (hW : 2 ≤ W) (hL : 0 < L) (hR : 2 ≤ R) (hRW : R < 1 + W)
    (hn : K * (L + R) + W < n) (h0 : ∀ fs sym lits, F.emit fs sym 0 lits = none)
    {s : ES σ} (hs : run8T F emitT W (blk L R fun _ => [b]) n = some s)
    (hI : I 0 F.init)
    (hcost : ∀ k, k < K → ∀ fs, I k fs → ∃ bytes fs', F.emit fs [b] R L = some (bytes, fs') ∧
      bytes.length = R + g ∧ I (k + 1) fs') : K * (L + R + g) ≤ s.out.length := by
  have hlow : LowSym 1 (fun _ => [b]) := fun _ => ⟨rfl, by simpa using hb⟩
  have hbr : BlockRun (step8 F.emit emitT W (blk L R fun _ => [b]) n) .search F.emit (blk L R fun _ => [b]) L R g K
      (fun _ => [b]) [~~~ blk L R (fun _ => [b]) 0] I := by
    refine ⟨?_, hcost, ?_⟩
    · intro k hk cnt sy fs out _ _
      have : (k + 1) * (L + R) ≤ K * (L + R) := Nat.mul_le_mul_right _ (by omega)
      rw [Nat.add_mul] at this
      exact step8_find hW (Nat.le_add_right _ _) (by omega)
        (fun j h1 h2 => blk_pair hlow (by omega) (by omega) (by omega) k h1 h2) (blk_exact hlow hL k) hR hRW cnt _ sy fs out
    · intro s hs
      obtain ⟨pc, i, count, last, sym, fs, out⟩ := s
      cases hs
      exact ⟨_, rfl⟩
  refine hbr.out hI (cnt0 := 0) ?_ step8_mono hs
  refine .head (s' := ⟨.ext, 0, 0, 0, _, F.init, []⟩) (by simp only [step8]; rw [if_pos (by omega)]) ?_
  have hm : matchLen (blk L R fun _ => [b]) [~~~ blk L R (fun _ => [b]) 0] 0 W 0 = 0 := matchLen_zero W (not_ne _)
  by_cases ha : anyEq (blk L R fun _ => [b]) [~~~ blk L R (fun _ => [b]) 0] 0 W = true
  · refine .head (s' := ⟨.second, 0, 0, 0, [~~~ blk L R (fun _ => [b]) 0], F.init, []⟩) ?_ (.one ?_)
    · simp only [step8]
      rw [hm, if_neg (by omega), if_pos (Or.inl ha)]
    · simp only [step8, doEmit, h0]
  · refine .one ?_
    simp only [step8]
    rw [hm, if_neg (by omega), if_neg (by simp [ha])]

end Hrk
