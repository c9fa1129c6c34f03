import Verif.Blocks
import Verif.Depend

/-
The vector scanners of every width do what the scanner without vectors does.
-/

namespace Hrk

/-! ### Where a loop ends -/

/-- The loop, started in `s`, ends with `r`. -/
def Ends {σ ρ : Type} (body : σ → σ ⊕ ρ) (s : σ) (r : ρ) : Prop := ∃ f, loop body f s = some r

theorem Ends.iff {σ ρ : Type} {body : σ → σ ⊕ ρ} {s s' : σ} {r : ρ} (h : body s = .inl s') : Ends body s r ↔ Ends body s' r := by
  constructor
  · rintro ⟨f, hf⟩
    cases f with
    | zero => simp [loop] at hf
    | succ f =>
      unfold loop at hf
      rw [h] at hf
      exact ⟨f, hf⟩
  · rintro ⟨f, hf⟩
    refine ⟨f + 1, ?_⟩
    unfold loop
    rw [h]
    exact hf

theorem Ends.steps {σ ρ : Type} {body : σ → σ ⊕ ρ} {s t : σ} {r : ρ} (h : Steps body s t) : Ends body s r ↔ Ends body t r := by
  induction h with
  | refl => exact Iff.rfl
  | head h _ ih => exact (Ends.iff h).trans ih

theorem Ends.unique {σ ρ : Type} {body : σ → σ ⊕ ρ} {s : σ} {r r' : ρ} (h : Ends body s r) (h' : Ends body s r') : r = r' := by
  obtain ⟨f, hf⟩ := h
  obtain ⟨g, hg⟩ := h'
  have h1 := loop_mono f (max f g) s r hf (Nat.le_max_left _ _)
  have h2 := loop_mono g (max f g) s r' hg (Nat.le_max_right _ _)
  rw [h1] at h2
  exact Option.some.inj h2

theorem Ends.of_steps {σ ρ : Type} {b₁ b₂ : σ → σ ⊕ ρ} (I : σ → Prop)
    (h : ∀ s r, I s → Post (b₁ s) (fun s' => I s' ∧ (Ends b₂ s' r → Ends b₂ s r)) (fun r' => b₂ s = .inr r')) :
    ∀ f s r, I s → loop b₁ f s = some r → Ends b₂ s r := by
  intro f
  induction f with
  | zero => intro s r _ h; simp [loop] at h
  | succ f ih =>
    intro s r hi hl
    have hp := h s r hi
    unfold loop at hl
    cases hb : b₁ s with
    | inl s' =>
      rw [hb] at hl hp
      exact hp.2 (ih s' r hp.1 hl)
    | inr r' =>
      rw [hb] at hl hp
      cases hl
      refine ⟨1, ?_⟩
      unfold loop
      rw [show b₂ s = .inr r from hp]

/-! ### The multi byte scanner -/

section X

variable {σ : Type} {emit : Emit σ} {S : Nat} {unb : Bool} {inp : Mem} {n : Nat}

/-- While it searches, the scanner does not look at the symbol of the previous run. -/
theorem ends_search (i c c' l : Nat) (sy sy' : List Byte) (fs : σ) (out : List Byte) (r : ES σ) :
    Ends (stepX emit S 0 unb inp n) ⟨.search, i, c, l, sy, fs, out⟩ r ↔ Ends (stepX emit S 0 unb inp n) ⟨.search, i, c', l, sy', fs, out⟩ r := by
  rw [Ends.iff (s' := ⟨.sscan, i, c, l, sy, fs, out⟩) (by simp [stepX]), Ends.iff (body := stepX emit S 0 unb inp n) (s := ⟨.search, i, c', l, sy', fs, out⟩) (s' := ⟨.sscan, i, c', l, sy', fs, out⟩) (by simp [stepX])]
  by_cases h : i + S ≤ n ∧ rd inp (i + S) S = rd inp i S
  · rw [Ends.iff (s' := ⟨.top, i + 2 * S, 2 * S, l, rd inp i S, fs, out⟩) (by simp only [stepX]; rw [if_pos h]),
      Ends.iff (body := stepX emit S 0 unb inp n) (s := ⟨.sscan, i, c', l, sy', fs, out⟩) (s' := ⟨.top, i + 2 * S, 2 * S, l, rd inp i S, fs, out⟩) (by simp only [stepX]; rw [if_pos h])]
  · rw [Ends.iff (s' := ⟨.top, i + 1, 0, l, rd inp i S, fs, out⟩) (by simp only [stepX]; rw [if_neg h]),
      Ends.iff (body := stepX emit S 0 unb inp n) (s := ⟨.sscan, i, c', l, sy', fs, out⟩) (s' := ⟨.top, i + 1, 0, l, rd inp i S, fs, out⟩) (by simp only [stepX]; rw [if_neg h])]

/-- The scanner without vectors passes over positions that are not the start of a run. -/
theorem ends_skip (h0 : ∀ fs sym lits, emit fs sym 0 lits = none) : ∀ (k i c c' l : Nat) (sy sy' : List Byte) (fs : σ) (out : List Byte) (r : ES σ),
    i + k < n → (∀ j, j < k → pairAt inp S (i + j) = false) →
    (Ends (stepX emit S 0 unb inp n) ⟨.search, i, c, l, sy, fs, out⟩ r ↔ Ends (stepX emit S 0 unb inp n) ⟨.search, i + k, c', l, sy', fs, out⟩ r) := by
  intro k
  induction k with
  | zero => intro i c c' l sy sy' fs out r _ _; exact ends_search ..
  | succ k ih =>
    intro i c c' l sy sy' fs out r hn hp
    have hp0 : ¬ (i + S ≤ n ∧ rd inp (i + S) S = rd inp i S) := by
      rintro ⟨_, e⟩
      have := hp 0 (by omega)
      simp [pairAt, e] at this
    rw [Ends.iff (s' := ⟨.sscan, i, c, l, sy, fs, out⟩) (by simp [stepX]),
      Ends.iff (s' := ⟨.top, i + 1, 0, l, rd inp i S, fs, out⟩) (by simp only [stepX]; rw [if_neg hp0]),
      Ends.iff (s' := ⟨.ext, i + 1, 0, l, rd inp i S, fs, out⟩) (by simp only [stepX]; rw [if_pos (by omega)]),
      Ends.iff (s' := ⟨.scal, i + 1, 0, l, rd inp i S, fs, out⟩) (by simp [stepX]),
      Ends.iff (s' := ⟨.second, i + 1, 0, l, rd inp i S, fs, out⟩) (by simp [stepX]),
      Ends.iff (s' := ⟨.search, i + 1, 0, l, rd inp i S, fs, out⟩) (by simp [stepX, doEmit, h0]),
      ih (i + 1) 0 c' l (rd inp i S) sy' fs out r (by omega) (fun j hj => by have := hp (j + 1) (by omega); rwa [show i + (j + 1) = i + 1 + j by omega] at this),
      show i + 1 + k = i + (k + 1) by omega]

theorem matchLen_from {sym : List Byte} (hl : sym.length = S) {i W q : Nat} (hS : 0 < S) (hq : q * S ≤ matchLen inp sym i W 0)
    (h : matchLen inp sym i W 0 = W ∨ matchLen inp sym i W 0 < q * S + S) (hW : matchLen inp sym i W 0 = W → q * S + S ≤ W) :
    matchLen inp sym (i + q * S) S 0 = min S (matchLen inp sym i W 0 - q * S) := by
  have key : ∀ j, (q * S + j) % S = j % S := fun j => by rw [Nat.add_comm, Nat.add_mul_mod_self_right]
  have hm := matchLen_le inp sym i W 0
  have hsp : ∀ j, q * S + j < matchLen inp sym i W 0 → inp (i + q * S + j) = sym.getD (j % sym.length) 0 := by
    intro j hj
    have := matchLen_spec inp sym i W 0 (q * S + j) hj
    rw [Nat.zero_add, ← Nat.add_assoc, hl, key] at this
    rw [hl, this]
  by_cases hs : q * S + S ≤ matchLen inp sym i W 0
  · rw [Nat.min_eq_left (by omega)]
    apply matchLen_all
    intro j hj
    rw [Nat.zero_add]
    exact hsp j (by omega)
  · have hlt : matchLen inp sym i W 0 < W := by
      rcases Nat.lt_or_ge (matchLen inp sym i W 0) W with h | h
      · exact h
      · have := hW (by omega); omega
    rw [Nat.min_eq_right (by omega)]
    apply matchLen_stopAt
    · intro j hj
      rw [Nat.zero_add]
      exact hsp j (by omega)
    · have := matchLen_stop inp sym i W 0 hlt
      rw [Nat.zero_add] at this ⊢
      intro e
      apply this
      rw [show i + matchLen inp sym i W 0 = i + q * S + (matchLen inp sym i W 0 - q * S) by omega, e]
      congr 1
      conv => rhs; rw [show matchLen inp sym i W 0 = q * S + (matchLen inp sym i W 0 - q * S) by omega]
      rw [hl, key]
    · omega

/-- The scanner without vectors extends a run by whole symbols. -/
theorem ends_extend (hS : 0 < S) {sym : List Byte} (hl : sym.length = S) {W i : Nat} : ∀ (q c l : Nat) (fs : σ) (out : List Byte) (r : ES σ),
    c ≠ 0 → i + q * S < n → q * S ≤ matchLen inp sym i W 0 →
    (Ends (stepX emit S 0 unb inp n) ⟨.ext, i, c, l, sym, fs, out⟩ r ↔
      Ends (stepX emit S 0 unb inp n) ⟨.ext, i + q * S, c + q * S, l, sym, fs, out⟩ r) := by
  intro q
  induction q with
  | zero => intro c l fs out r _ _ _; simp
  | succ q ih =>
    intro c l fs out r hc hn hm
    have e : (q + 1) * S = q * S + S := Nat.succ_mul q S
    rw [e] at hn hm ⊢
    have hfull : matchLen inp sym (i + q * S) S 0 = S := by
      apply matchLen_all
      intro j hj
      have := matchLen_spec inp sym i W 0 (q * S + j) (by omega)
      rw [Nat.zero_add, ← Nat.add_assoc, hl, Nat.add_comm (q * S), Nat.add_mul_mod_self_right] at this
      rw [Nat.zero_add, this, hl]
    rw [ih c l fs out r hc (by omega) (by omega),
      Ends.iff (s' := ⟨.scal, i + q * S, c + q * S, l, sym, fs, out⟩) (by simp [stepX]),
      Ends.iff (s' := ⟨.top, i + q * S + S, c + q * S + S, l, sym, fs, out⟩)
        (by simp only [stepX]; rw [if_pos ⟨by omega, by omega⟩, if_pos hfull]),
      Ends.iff (s' := ⟨.ext, i + q * S + S, c + q * S + S, l, sym, fs, out⟩)
        (by simp only [stepX]; rw [if_pos (by omega)]), Nat.add_assoc, Nat.add_assoc]

/-- What holds in addition to `XInv`: a comparison with vectors before the first run finds nothing, and the search without
vectors happens only at the end. -/
structure JInv (S W : Nat) (inp : Mem) (n : Nat) (s : ES σ) : Prop where
  cnt : s.pc = .top ∨ s.pc = .ext → s.count = 0 → W ≠ 0 → s.i + W + S < n → matchLen inp s.sym s.i W 0 = 0
  scan : s.pc = .sscan → ¬ (W ≠ 0 ∧ s.i + W + S < n)

theorem stepX_same (h0 : ∀ fs sym lits, emit fs sym 0 lits = none) {W : Nat} (hS : 0 < S) (hW : W = 0 ∨ S < W) (s : ES σ) (r : ES σ)
    (hx : XInv S unb inp n (fun _ _ _ => True) s) (hj : JInv S W inp n s) :
    Post (stepX emit S W unb inp n s) (fun s' => JInv S W inp n s' ∧ (Ends (stepX emit S 0 unb inp n) s' r → Ends (stepX emit S 0 unb inp n) s r))
      (fun r' => stepX emit S 0 unb inp n s = .inr r') := by
  obtain ⟨pc, i, count, lastRLE, sym, fs, out⟩ := s
  obtain ⟨-, hlen, hlast, htop, hntop, hcnt, hdvd, hdvd2⟩ := hx
  obtain ⟨hj1, hj2⟩ := hj
  simp only at *
  cases pc with
  | top =>
    simp only [stepX]
    split
    · next hi =>
      refine ⟨⟨fun _ => hj1 (Or.inl rfl), by simp⟩, fun h => ?_⟩
      rwa [Ends.iff (s' := ⟨.ext, i, count, lastRLE, sym, fs, out⟩) (by simp only [stepX]; rw [if_pos hi])]
    · rfl
  | ext =>
    have hn := hntop (by simp)
    simp only [stepX]
    split
    · next hv =>
      obtain ⟨hw0, hv⟩ := hv
      have hSW : S < W := by omega
      have hm := matchLen_le inp sym i W 0
      split
      · next hz =>
        refine ⟨⟨by simp, by simp⟩, fun h => ?_⟩
        rw [Ends.iff (s' := ⟨.scal, i, count, lastRLE, sym, fs, out⟩) (by simp [stepX])]
        by_cases hc : count = 0
        · rwa [Ends.iff (s' := ⟨.second, i, count, lastRLE, sym, fs, out⟩) (by simp [stepX, hc])]
        · have hz' := matchLen_from (inp := inp) hlen (i := i) (W := W) (q := 0) hS (by omega) (by omega) (by omega)
          rw [hz, Nat.zero_mul, Nat.add_zero, Nat.zero_sub, Nat.min_zero] at hz'
          rwa [Ends.iff (s' := ⟨.second, i, count, lastRLE, sym, fs, out⟩) (by
            simp only [stepX]
            rw [if_pos ⟨hc, by omega⟩, hz', if_neg (by omega)]
            cases unb <;> simp)]
      · next hz =>
        have hc : count ≠ 0 := fun hc => hz (hj1 (Or.inr rfl) hc hw0 hv)
        split
        · next hf =>
          have hW1 : W % S < S := Nat.mod_lt _ hS
          have hdiv : W - W % S = W / S * S := by
            have := Nat.div_add_mod W S
            rw [Nat.mul_comm] at this; omega
          refine ⟨⟨fun _ h => absurd h (by simp only; omega), by simp⟩, fun h => ?_⟩
          rw [hdiv] at h
          rwa [ends_extend hS hlen (W := W) (W / S) count lastRLE fs out r hc (by omega) (by omega)]
        · next hf =>
          have hmod : matchLen inp sym i W 0 % S < S := Nat.mod_lt _ hS
          have hdiv : matchLen inp sym i W 0 - matchLen inp sym i W 0 % S = matchLen inp sym i W 0 / S * S := by
            have := Nat.div_add_mod (matchLen inp sym i W 0) S
            rw [Nat.mul_comm] at this; omega
          have hr := matchLen_from (inp := inp) hlen (i := i) (W := W) (q := matchLen inp sym i W 0 / S) hS (by omega) (by omega) (by omega)
          rw [Nat.min_eq_right (by omega)] at hr
          have key : Ends (stepX emit S 0 unb inp n) ⟨.ext, i, count, lastRLE, sym, fs, out⟩ r ↔
              Ends (stepX emit S 0 unb inp n) ⟨.scal, i + matchLen inp sym i W 0 / S * S, count + matchLen inp sym i W 0 / S * S, lastRLE, sym, fs, out⟩ r := by
            rw [ends_extend hS hlen (W := W) (matchLen inp sym i W 0 / S) count lastRLE fs out r hc (by omega) (by omega),
              Ends.iff (s' := ⟨.scal, i + matchLen inp sym i W 0 / S * S, count + matchLen inp sym i W 0 / S * S, lastRLE, sym, fs, out⟩) (by simp [stepX])]
          split
          · next hu =>
            refine ⟨⟨by simp, by simp⟩, fun h => ?_⟩
            rw [key, Ends.iff (s' := ⟨.second, i + matchLen inp sym i W 0, count + matchLen inp sym i W 0, lastRLE, sym, fs, out⟩) ?_]
            · exact h
            · simp only [stepX]
              rw [if_pos ⟨by omega, by omega⟩, if_neg (by omega), if_pos hu, hr]
              congr 2 <;> omega
          · next hu =>
            refine ⟨⟨by simp, by simp⟩, fun h => ?_⟩
            rw [hdiv] at h
            rwa [key, Ends.iff (s' := ⟨.second, i + matchLen inp sym i W 0 / S * S, count + matchLen inp sym i W 0 / S * S, lastRLE, sym, fs, out⟩) (by
              simp only [stepX]
              rw [if_pos ⟨by omega, by omega⟩, if_neg (by omega), if_neg hu])]
    · next hv =>
      refine ⟨⟨by simp, by simp⟩, fun h => ?_⟩
      rwa [Ends.iff (s' := ⟨.scal, i, count, lastRLE, sym, fs, out⟩) (by simp [stepX])]
  | scal =>
    have e : stepX emit S W unb inp n ⟨.scal, i, count, lastRLE, sym, fs, out⟩ = stepX emit S 0 unb inp n ⟨.scal, i, count, lastRLE, sym, fs, out⟩ := rfl
    rw [e]
    cases hb : stepX emit S 0 unb inp n ⟨.scal, i, count, lastRLE, sym, fs, out⟩ with
    | inr r' => rfl
    | inl s' =>
      refine ⟨?_, fun h => (Ends.iff hb).mpr h⟩
      simp only [stepX] at hb
      split at hb
      · split at hb
        · cases hb
          exact ⟨fun _ h => absurd h (by simp only; omega), by simp⟩
        · split at hb <;> cases hb <;> exact ⟨by simp, by simp⟩
      · cases hb; exact ⟨by simp, by simp⟩
  | second =>
    refine ⟨⟨by simp, by simp⟩, fun h => ?_⟩
    exact (Ends.iff (by simp [stepX])).mpr h
  | search =>
    have hn := hntop (by simp)
    simp only [stepX]
    split
    · next hv =>
      obtain ⟨hw0, hv⟩ := hv
      have hSW : S < W := by omega
      have hfirst : ∀ m, m ≤ W - S + 1 → (∀ b, findPair inp S i (W - S + 1) 0 = some b → m ≤ b) → ∀ j, j < m → pairAt inp S (i + j) = false := by
        intro m hm hb
        induction m with
        | zero => intro j hj; omega
        | succ m ih =>
          have ih := ih (by omega) (fun b h => by have := hb b h; omega)
          intro j hj
          by_cases he : j = m
          · subst he
            by_contra ht
            have ht : pairAt inp S (i + j) = true := by simpa using ht
            have := findPair_at (inp := inp) (S := S) (i := i) (W - S + 1) 0 j (by omega) (fun x hx => by rw [Nat.zero_add]; exact ih x hx) (by rwa [Nat.zero_add])
            have := hb _ this
            omega
          · exact ih j (by omega)
      cases hf : findPair inp S i (W - S + 1) 0 with
      | none =>
        refine ⟨⟨by simp, by simp⟩, fun h => ?_⟩
        have hp := hfirst (W - S) (by omega) (by rw [hf]; simp)
        rwa [ends_skip h0 (W - S) i count count lastRLE sym sym fs out r (by omega) hp]
      | some b =>
        obtain ⟨-, hb1, hb2⟩ := findPair_spec inp S i _ _ _ hf
        refine ⟨⟨fun _ h => absurd h (by simp only; omega), by simp⟩, fun h => ?_⟩
        have hp := hfirst b (by omega) (by rw [hf]; intro x hx; cases hx; exact Nat.le_refl _)
        have hpair : i + b + S ≤ n ∧ rd inp (i + b + S) S = rd inp (i + b) S := by
          refine ⟨by omega, ?_⟩
          have := hb2
          unfold pairAt at this
          exact (by simpa using this : rd inp (i + b) S = rd inp (i + b + S) S).symm
        rw [ends_skip h0 b i count count lastRLE sym sym fs out r (by omega) hp,
          Ends.iff (s' := ⟨.sscan, i + b, count, lastRLE, sym, fs, out⟩) (by simp [stepX]),
          Ends.iff (s' := ⟨.top, i + b + 2 * S, 2 * S, lastRLE, rd inp (i + b) S, fs, out⟩) (by simp only [stepX]; rw [if_pos hpair]),
          Ends.iff (s' := ⟨.ext, i + b + 2 * S, 2 * S, lastRLE, rd inp (i + b) S, fs, out⟩) (by simp only [stepX]; rw [if_pos (by omega)])]
        rwa [← Nat.add_assoc] at h
    · next hv =>
      refine ⟨⟨by simp, fun _ => hv⟩, fun h => ?_⟩
      exact (Ends.iff (s' := ⟨.sscan, i, count, lastRLE, sym, fs, out⟩) (by simp [stepX])).mpr h
  | sscan =>
    have hv := hj2 rfl
    simp only [stepX]
    split
    · next h =>
      refine ⟨⟨fun _ h => absurd h (by simp only; omega), by simp⟩, fun h' => ?_⟩
      exact (Ends.iff (by simp only [stepX]; rw [if_pos h])).mpr h'
    · next h =>
      refine ⟨⟨fun _ _ h1 h2 => absurd ⟨h1, by simp only at h2; omega⟩ hv, by simp⟩, fun h' => ?_⟩
      exact (Ends.iff (by simp only [stepX]; rw [if_neg h])).mpr h'

/-- The scanner gives the same result with vectors of any width and without. -/
theorem runX_same (F : Fmt σ) (h0 : ∀ fs sym lits, F.emit fs sym 0 lits = none) {W : Nat} (hS : 0 < S) (hW : W = 0 ∨ S < W) (inp : Mem) (n : Nat) :
    runX F S W unb inp n = runX F S 0 unb inp n := by
  have hx : XInv S unb inp n (fun _ _ _ => True) (⟨.top, 0, 0, 0, (rd inp 0 S).map (fun b => ~~~ b), F.init, []⟩ : ES σ) :=
    ⟨trivial, by simp, by simp, by simp, by simp, fun _ => ⟨by simp, by intro k hk; simp at hk⟩, by simp, by simp⟩
  obtain ⟨s, h1, -⟩ := runX_scan F (unb := unb) hS hW inp n (n + S) (fun _ _ _ => True) (Nat.le_refl _) (fun _ _ => closed_true) trivial
  obtain ⟨s0, h2, -⟩ := runX_scan F (unb := unb) (W := 0) hS (Or.inl rfl) inp n (n + S) (fun _ _ _ => True) (Nat.le_refl _) (fun _ _ => closed_true) trivial
  rw [h1, h2]
  congr 1
  refine Ends.unique (body := stepX F.emit S 0 unb inp n) ?_ ⟨_, h2⟩
  refine Ends.of_steps (b₁ := stepX F.emit S W unb inp n)
    (fun s => XInv S unb inp n (fun _ _ _ => True) s ∧ JInv S W inp n s) ?_ _ _ _ ⟨hx, ?_, by simp⟩ h1
  · rintro s r ⟨hx, hj⟩
    have h3 := stepX_same (r := r) h0 hS hW s hx hj
    have h4 := stepX_inv (B := n + S) (CP := fun _ _ _ => True) hS hW (Nat.le_refl _) (closed_true (emit := F.emit)) s hx
    cases hb : stepX F.emit S W unb inp n s with
    | inl s' =>
      rw [hb] at h3 h4
      exact ⟨⟨h4.1, h3.1⟩, h3.2⟩
    | inr r' =>
      rw [hb] at h3
      exact h3
  · intro _ _ _ hv
    refine matchLen_zero W ?_
    simp [rd, hS]

end X

/-! ### The byte scanner -/

section B

variable {σ : Type} {emit : Emit σ} {inp : Mem} {n : Nat}

/-- Where the byte by byte loop is when the scanner with vectors is in `s`. -/
def flat (emit : Emit σ) (inp : Mem) (s : ES σ) : ES σ :=
  match s.pc with
  | .top => { s with pc := .scal }
  | .ext => { s with pc := .scal }
  | .scal => s
  | .second => { doEmit emit inp s with pc := .scal, sym := rd inp s.i 1, count := 1, i := s.i + 1 }
  | .search => { s with pc := .scal, sym := rd inp s.i 1, count := 1, i := s.i + 1 }
  | .sscan => { s with pc := .scal, sym := rd inp s.i 1, count := 1, i := s.i + 1 }

theorem doEmit_none {s : ES σ} (h : ∀ lits, emit s.fs s.sym s.count lits = none) : doEmit emit inp s = s := by
  unfold doEmit
  rw [h]

theorem doEmit_setPc (s : ES σ) (p : PC) : doEmit emit inp { s with pc := p } = { doEmit emit inp s with pc := p } := by
  unfold doEmit
  cases emit s.fs s.sym s.count (s.i - s.count - s.lastRLE) <;> rfl

theorem doEmit_pc (s : ES σ) : (doEmit emit inp s).pc = s.pc := by
  unfold doEmit
  cases emit s.fs s.sym s.count (s.i - s.count - s.lastRLE) <;> rfl

theorem doEmit_i (s : ES σ) : (doEmit emit inp s).i = s.i := by
  unfold doEmit
  cases emit s.fs s.sym s.count (s.i - s.count - s.lastRLE) <;> rfl

theorem flat_scal {s : ES σ} (h : s.pc = .scal) : flat emit inp s = s := by
  unfold flat
  rw [h]

theorem flat_search {s : ES σ} (h : s.pc = .search) :
    flat emit inp s = { s with pc := .scal, sym := rd inp s.i 1, count := 1, i := s.i + 1 } := by
  unfold flat
  rw [h]

/-- The byte by byte loop extends a run. -/
theorem ends8_extend {sym : List Byte} (hl : sym.length = 1) {W i : Nat} : ∀ (q c l : Nat) (fs : σ) (out : List Byte) (r : ES σ),
    i + q ≤ n → q ≤ matchLen inp sym i W 0 →
    (Ends (step8 emit emit n inp n) ⟨.scal, i, c, l, sym, fs, out⟩ r ↔ Ends (step8 emit emit n inp n) ⟨.scal, i + q, c + q, l, sym, fs, out⟩ r) := by
  intro q
  induction q with
  | zero => intro c l fs out r _ _; exact Iff.rfl
  | succ q ih =>
    intro c l fs out r hn hm
    have he : rd inp (i + q) 1 = sym := by
      have := matchLen_spec inp sym i W 0 q (by omega)
      rw [Nat.zero_add, hl, Nat.mod_one] at this
      obtain ⟨b, rfl⟩ : ∃ b, sym = [b] := by
        match sym, hl with
        | [b], _ => exact ⟨b, rfl⟩
      simp [rd, this]
    rw [ih c l fs out r (by omega) (by omega),
      Ends.iff (s' := ⟨.scal, i + q + 1, c + q + 1, l, sym, fs, out⟩) (by simp only [step8]; rw [if_pos (by omega), if_pos he])]
    rfl

theorem rd1_ne {sym : List Byte} (hl : sym.length = 1) {i : Nat} (h : inp i ≠ sym.getD 0 0) : rd inp i 1 ≠ sym := by
  obtain ⟨b, rfl⟩ : ∃ b, sym = [b] := by
    match sym, hl with
    | [b], _ => exact ⟨b, rfl⟩
  simpa [rd] using h

/-- The byte by byte loop passes over single bytes. -/
theorem ends8_skip (h1 : ∀ fs sym c lits, c ≤ 1 → emit fs sym c lits = none) : ∀ (k i l : Nat) (fs : σ) (out : List Byte) (r : ES σ),
    i + k < n → (∀ j, j < k → pairAt inp 1 (i + j) = false) →
    (Ends (step8 emit emit n inp n) ⟨.scal, i + 1, 1, l, rd inp i 1, fs, out⟩ r ↔
      Ends (step8 emit emit n inp n) ⟨.scal, i + k + 1, 1, l, rd inp (i + k) 1, fs, out⟩ r) := by
  intro k
  induction k with
  | zero => intro i l fs out r _ _; exact Iff.rfl
  | succ k ih =>
    intro i l fs out r hn hp
    have hne : rd inp (i + 1) 1 ≠ rd inp i 1 := by
      intro e
      have := hp 0 (by omega)
      simp [pairAt, e] at this
    rw [Ends.iff (s' := ⟨.scal, i + 1 + 1, 1, l, rd inp (i + 1) 1, fs, out⟩) (by
        simp only [step8]
        rw [if_pos (by omega), if_neg hne, doEmit_none (fun _ => h1 _ _ _ _ (Nat.le_refl 1))]),
      ih (i + 1) l fs out r (by omega) (fun j hj => by have := hp (j + 1) (by omega); rwa [show i + (j + 1) = i + 1 + j by omega] at this),
      show i + 1 + k = i + (k + 1) by omega]

theorem findPair_before {S i k m : Nat} (hm : m ≤ k) (hb : ∀ b, findPair inp S i k 0 = some b → m ≤ b) :
    ∀ j, j < m → pairAt inp S (i + j) = false := by
  induction m with
  | zero => intro j hj; omega
  | succ m ih =>
    have ih := ih (by omega) (fun b h => by have := hb b h; omega)
    intro j hj
    by_cases he : j = m
    · subst he
      by_contra ht
      have ht : pairAt inp S (i + j) = true := by simpa using ht
      have := findPair_at (inp := inp) (S := S) (i := i) k 0 j (by omega) (fun x hx => by rw [Nat.zero_add]; exact ih x hx) (by rwa [Nat.zero_add])
      have := hb _ this
      omega
    · exact ih j (by omega)

theorem step8_same (h1 : ∀ fs sym c lits, c ≤ 1 → emit fs sym c lits = none) {W : Nat} (hW : 2 ≤ W) (s : ES σ) (r : ES σ)
    (hx : Inv8 W inp n (fun _ _ _ => True) s) :
    Post (step8 emit emit W inp n s)
      (fun s' => Ends (step8 emit emit n inp n) (flat emit inp s') r → Ends (step8 emit emit n inp n) (flat emit inp s) r)
      (fun r' => step8 emit emit n inp n (flat emit inp s) = .inr r') := by
  obtain ⟨pc, i, count, lastRLE, sym, fs, out⟩ := s
  obtain ⟨-, hlen, hlast, hhi, hext, hlt, hcnt⟩ := hx
  simp only at *
  cases pc with
  | top => simp only [step8]; split <;> exact id
  | ext =>
    have hv := hext rfl
    have hm := matchLen_le inp sym i W 0
    simp only [step8]
    split
    · next hf =>
      intro h
      exact (ends8_extend hlen (W := W) (i := i) W count lastRLE fs out r (by omega) (by omega)).mpr h
    · next hf =>
      have hstop := matchLen_stop inp sym i W 0 (by omega)
      rw [Nat.zero_add, hlen, Nat.mod_one] at hstop
      have hne := rd1_ne hlen hstop
      split
      · intro h
        refine (ends8_extend hlen (W := W) (matchLen inp sym i W 0) count lastRLE fs out r (by omega) (Nat.le_refl _)).mpr ?_
        refine (Ends.iff ?_).mpr h
        simp only [step8]
        rw [if_pos (by omega), if_neg hne]
        simp only [flat]
        rw [doEmit_setPc ⟨.second, i + matchLen inp sym i W 0, count + matchLen inp sym i W 0, lastRLE, sym, fs, out⟩ .scal]
      · next hc =>
        intro h
        have hz : matchLen inp sym i W 0 = 0 := by
          rcases Nat.eq_zero_or_pos (matchLen inp sym i W 0) with h | h
          · exact h
          · exfalso
            apply hc
            left
            have := matchLen_spec inp sym i W 0 0 h
            simp only [Nat.add_zero, Nat.zero_mod] at this
            unfold anyEq
            rw [List.any_eq_true]
            exact ⟨0, by simp; omega, by simpa using this⟩
        rw [hz, Nat.add_zero] at hne
        refine (Ends.iff ?_).mpr h
        show step8 emit emit n inp n ⟨.scal, i, count, lastRLE, sym, fs, out⟩ = _
        simp only [step8]
        rw [if_pos (by omega), if_neg hne, doEmit_none (fun _ => h1 _ _ _ _ (by simp only; omega))]
        rfl
  | second =>
    simp only [step8]
    intro h
    have e : flat emit inp { doEmit emit inp ⟨.second, i, count, lastRLE, sym, fs, out⟩ with pc := .search } =
        flat emit inp ⟨.second, i, count, lastRLE, sym, fs, out⟩ := by
      rw [flat_search rfl]
      simp only [flat, doEmit_i]
    rwa [e] at h
  | search =>
    have hn := hlt (by simp) (by simp)
    simp only [step8]
    split
    · next hv =>
      cases hf : findPair inp 1 i (W - 1) 0 with
      | none =>
        intro h
        exact (ends8_skip h1 (W - 1) i lastRLE fs out r (by omega) (findPair_before (k := W - 1) (Nat.le_refl _) (by rw [hf]; simp))).mpr h
      | some z =>
        obtain ⟨-, hb1, hb2⟩ := findPair_spec inp 1 i _ _ _ hf
        intro h
        exact (ends8_skip h1 z i lastRLE fs out r (by omega)
          (findPair_before (k := W - 1) (by omega) (by rw [hf]; intro x hx; cases hx; exact Nat.le_refl _))).mpr h
    · exact id
  | sscan => exact id
  | scal =>
    simp only [step8]
    split
    · next hi =>
      split
      · next he =>
        intro h
        exact (Ends.iff (by show step8 emit emit n inp n ⟨.scal, i, count, lastRLE, sym, fs, out⟩ = _; simp only [step8]; rw [if_pos hi, if_pos he]; rfl)).mpr h
      · next he =>
        intro h
        refine (Ends.iff (s' := { doEmit emit inp ⟨.scal, i, count, lastRLE, sym, fs, out⟩ with sym := rd inp i 1, count := 1, i := i + 1 })
          (by show step8 emit emit n inp n ⟨.scal, i, count, lastRLE, sym, fs, out⟩ = _; simp only [step8]; rw [if_pos hi, if_neg he])).mpr ?_
        have e : flat emit inp { doEmit emit inp ⟨.scal, i, count, lastRLE, sym, fs, out⟩ with sym := rd inp i 1, count := 1, i := i + 1 } =
            { doEmit emit inp ⟨.scal, i, count, lastRLE, sym, fs, out⟩ with sym := rd inp i 1, count := 1, i := i + 1 } :=
          flat_scal (doEmit_pc _)
        rwa [e] at h
    · next hi =>
      show step8 emit emit n inp n ⟨.scal, i, count, lastRLE, sym, fs, out⟩ = _
      simp only [step8]
      rw [if_neg hi]

/-- The scanner gives the same result with vectors of any width. -/
theorem run8_same (F : Fmt σ) (h1 : ∀ fs sym c lits, c ≤ 1 → F.emit fs sym c lits = none) {W W' : Nat} (hW : 2 ≤ W) (hW' : 2 ≤ W') (inp : Mem) (n : Nat) :
    run8 F W inp n = run8 F W' inp n := by
  have key : ∀ W, 2 ≤ W → ∃ s, run8 F W inp n = some s ∧
      Ends (step8 F.emit F.emit n inp n) ⟨.scal, 0, 0, 0, [~~~ inp 0], F.init, []⟩ s := by
    intro W hW
    obtain ⟨s, h2, -⟩ := run8_scan F (unb := true) hW inp n (n + 1) (fun _ _ _ => True) (Nat.le_refl _) (fun _ _ => closed_true) trivial
    refine ⟨s, h2, ?_⟩
    have hgo : ∀ f (s : ES σ) r, Inv8 W inp n (fun _ _ _ => True) s → loop (step8 F.emit F.emit W inp n) f s = some r →
        Ends (step8 F.emit F.emit n inp n) (flat F.emit inp s) r := by
      intro f
      induction f with
      | zero => intro s r _ h; simp [loop] at h
      | succ f ih =>
        intro s r hi hl
        have hp := step8_same (r := r) h1 hW s hi
        have hq := step8_inv (unb := true) (emit := F.emit) (emitT := F.emit) (B := n) (CP := fun _ _ _ => True) hW (Nat.le_refl _) closed_true closed_true s hi
        unfold loop at hl
        cases hb : step8 F.emit F.emit W inp n s with
        | inl s' =>
          rw [hb] at hl hp hq
          exact hp (ih s' r hq.1 hl)
        | inr r' =>
          rw [hb] at hl hp
          cases hl
          refine ⟨1, ?_⟩
          unfold loop
          rw [show step8 F.emit F.emit n inp n (flat F.emit inp s) = .inr r from hp]
    exact hgo _ _ _ (inv8_start trivial) h2
  obtain ⟨s, h2, h3⟩ := key W hW
  obtain ⟨s', h4, h5⟩ := key W' hW'
  rw [h2, h4, Ends.unique h3 h5]

end B

end Hrk
