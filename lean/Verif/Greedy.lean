import Verif.Parser
import Verif.Pick
import Verif.ScanXI

/-
The greedy scanner of the short codecs: it also starts runs from a single
occurrence of a recently used symbol, even a partial one.
-/

namespace Hrk

/-- Length of the common prefix of two symbols: what `rleX_Xsl_short_get_match_length`
(src/rleX_Xsl_short.h:709-744) computes (`diff_ctz`). -/
def prefixLen : List Byte → List Byte → Nat
  | a :: as, b :: bs => if a = b then 1 + prefixLen as bs else 0
  | _, _ => 0

/-- The table search (src/rleX_Xsl_short.h:888-954) byte by byte: index and length of the best match so far
is `best`; a full match ends the search. For 16 bit symbols only full matches count. -/
def bestMatch (S : Nat) (next : List Byte) : Lut → Nat → Nat × Nat → Nat × Nat
  | [], _, best => best
  | l :: ls, j, best =>
    if next = l then (j, S)
    else if S ≠ 2 ∧ prefixLen l next > best.2 then bestMatch S next ls (j + 1) (j, prefixLen l next)
    else bestMatch S next ls (j + 1) best

/-- `..._short_compress_greedy`, main loop (src/rleX_Xsl_short.h:783-989), byte by byte (`stepGI_eq`).
* `top`: `while (i < inSize)` and the extension of the current run.
* `second`: `not_a_full_match_but_a_match:`, emission.
* `sscan`: the next run. -/
def stepG (emit : Emit Lut) (S : Nat) (inp : Mem) (n : Nat) (s : ES Lut) : ES Lut ⊕ ES Lut :=
  match s.pc with
  | .top =>
    if s.i < n then
      if s.count ≠ 0 ∧ s.i + S ≤ n then
        if rd inp s.i S = s.sym then .inl { s with count := s.count + S, i := s.i + S }
        else .inl { s with count := s.count + matchLen inp s.sym s.i S 0,
                           i := s.i + matchLen inp s.sym s.i S 0, pc := .second }
      else .inl { s with pc := .second }
    else .inr s
  | .second => .inl { doEmit emit inp s with pc := .sscan }
  | .sscan =>
    if s.i + S ≤ n ∧ rd inp (s.i + S) S = rd inp s.i S then
      .inl { s with sym := rd inp s.i S, count := 2 * S, i := s.i + 2 * S, pc := .top }
    else if s.i + S ≤ n ∧ 2 ≤ (bestMatch S (rd inp s.i S) s.fs 0 (0, 0)).2 then
      .inl { s with sym := s.fs.getD (bestMatch S (rd inp s.i S) s.fs 0 (0, 0)).1 [],
                    count := (bestMatch S (rd inp s.i S) s.fs 0 (0, 0)).2,
                    i := s.i + (bestMatch S (rd inp s.i S) s.fs 0 (0, 0)).2,
                    pc := if (bestMatch S (rd inp s.i S) s.fs 0 (0, 0)).2 < S then .second else .top }
    else .inl { s with sym := rd inp s.i S, count := 0, i := s.i + 1, pc := .top }
  | _ => .inr s

theorem prefixLen_le (a b : List Byte) : prefixLen a b ≤ a.length := by
  induction a generalizing b with
  | nil => simp [prefixLen]
  | cons x xs ih =>
    cases b with
    | nil => simp [prefixLen]
    | cons y ys =>
      unfold prefixLen
      split
      · have := ih ys; simp; omega
      · simp

theorem prefixLen_spec (a b : List Byte) : ∀ k, k < prefixLen a b → a.getD k 0 = b.getD k 0 := by
  induction a generalizing b with
  | nil => intro k h; simp [prefixLen] at h
  | cons x xs ih =>
    cases b with
    | nil => intro k h; simp [prefixLen] at h
    | cons y ys =>
      intro k h
      unfold prefixLen at h
      split at h
      · next he =>
        cases k with
        | zero => simpa using he
        | succ k => simpa using ih ys k (by omega)
      · omega

/-- What the search returns is a match. -/
theorem bestMatch_spec {S : Nat} {next : List Byte} (lut : Lut) (hn : next.length = S) (P : Nat × Nat → Prop) :
    ∀ (ls : Lut) (j : Nat) (best : Nat × Nat), P best → (∀ k, ls[k]? = lut[j + k]?) →
    (∀ k, next = lut.getD (j + k) [] → (j + k < lut.length) → P (j + k, S)) →
    (∀ k, (j + k < lut.length) → P (j + k, prefixLen (lut.getD (j + k) []) next)) →
    P (bestMatch S next ls j best) := by
  intro ls
  induction ls with
  | nil => intro j best h _ _ _; exact h
  | cons l ls ih =>
    intro j best h hk h1 h2
    have h0 := hk 0
    simp only [Nat.add_zero, List.getElem?_cons_zero] at h0
    have hlt : j < lut.length := by
      rcases Nat.lt_or_ge j lut.length with h | h
      · exact h
      · rw [List.getElem?_eq_none h] at h0; cases h0
    have hget : lut.getD j [] = l := by rw [List.getD, ← h0]; rfl
    have hk' : ∀ k, ls[k]? = lut[j + 1 + k]? := by
      intro k
      have := hk (k + 1)
      rw [List.getElem?_cons_succ] at this
      rw [this]; congr 1; omega
    have h1' : ∀ k, next = lut.getD (j + 1 + k) [] → (j + 1 + k < lut.length) → P (j + 1 + k, S) := by
      intro k ha hb
      have := h1 (k + 1)
      rw [show j + (k + 1) = j + 1 + k by omega] at this
      exact this ha hb
    have h2' : ∀ k, (j + 1 + k < lut.length) → P (j + 1 + k, prefixLen (lut.getD (j + 1 + k) []) next) := by
      intro k hb
      have := h2 (k + 1)
      rw [show j + (k + 1) = j + 1 + k by omega] at this
      exact this hb
    unfold bestMatch
    by_cases he : next = l
    · rw [if_pos he]
      have := h1 0
      simp only [Nat.add_zero] at this
      exact this (by rw [hget]; exact he) hlt
    · rw [if_neg he]
      by_cases hg : S ≠ 2 ∧ prefixLen l next > best.2
      · rw [if_pos hg]
        refine ih (j + 1) _ ?_ hk' h1' h2'
        have := h2 0
        simp only [Nat.add_zero] at this
        rw [hget] at this
        exact this hlt
      · rw [if_neg hg]
        exact ih (j + 1) _ h hk' h1' h2'

theorem bestMatch_run {N S : Nat} {inp : Mem} {i : Nat} {lut : Lut} (hl : Lut.ok N S lut) {j k : Nat}
    (h : bestMatch S (rd inp i S) lut 0 (0, 0) = (j, k)) (hk : 2 ≤ k) :
    (lut.getD j []).length = S ∧ k ≤ S ∧ RunAt inp (lut.getD j []) (i + k) k := by
  have hlen : ∀ j, j < lut.length → (lut.getD j []).length = S := by
    intro j hj
    rw [List.getD, List.getElem?_eq_getElem hj]
    exact hl.2 _ (List.getElem_mem hj)
  have := bestMatch_spec lut (S := S) (next := rd inp i S) (by simp)
    (fun b => b.2 < 2 ∨ ((lut.getD b.1 []).length = S ∧ b.2 ≤ S ∧
      ∀ q, q < b.2 → (lut.getD b.1 []).getD q 0 = (rd inp i S).getD q 0)) lut 0 (0, 0)
    (Or.inl (by simp)) (by simp)
    (by
      intro q ha hb
      simp only [Nat.zero_add] at ha hb ⊢
      exact Or.inr ⟨hlen _ hb, Nat.le_refl _, fun r _ => by rw [ha]⟩)
    (by
      intro q hb
      simp only [Nat.zero_add] at hb ⊢
      refine Or.inr ⟨hlen _ hb, ?_, fun r hr => prefixLen_spec _ _ r hr⟩
      have := prefixLen_le (lut.getD q []) (rd inp i S)
      rw [hlen _ hb] at this; exact this)
  rw [h] at this
  rcases this with h' | ⟨h1, h2, h3⟩
  · simp only at h'; omega
  · simp only at h1 h2 h3
    refine ⟨h1, h2, ?_⟩
    intro q hq
    rw [h1, Nat.mod_eq_of_lt (by omega), h3 q hq, rd_getD _ _ _ _ _ (by omega)]
    congr 1; omega

/-- Loop invariant of `stepG`. -/
structure GInv (N S : Nat) (inp : Mem) (n : Nat) (CP : Lut → List Byte → Nat → Prop) (s : ES Lut) : Prop where
  cp : CP s.fs s.out s.lastRLE
  lut : Lut.ok N S s.fs
  len : s.sym.length = S
  last : s.lastRLE ≤ s.i
  pcs : s.pc = .top ∨ s.pc = .second ∨ s.pc = .sscan
  top : s.i ≤ n + S
  ntop : s.pc ≠ .top → s.i ≤ n
  cnt : s.pc = .top ∨ s.pc = .second → s.lastRLE + s.count ≤ s.i ∧ RunAt inp s.sym s.i s.count
  dvd : s.pc = .top → S ∣ s.count

/-- Termination measure of `stepG`. -/
def muG (n : Nat) (s : ES Lut) : Nat :=
  3 * (n + 1 - s.i) + (match s.pc with | .top => 2 | .second => 1 | _ => 0)

theorem stepG_inv {emit : Emit Lut} {N S : Nat} {unb : Bool} {inp : Mem} {n B : Nat}
    {CP : Lut → List Byte → Nat → Prop} (hS : 2 ≤ S) (hu : unb = true) (hB : n + S ≤ B)
    (hc : Closed emit inp S unb B CP)
    (hE : ∀ lut sym cnt lits bytes lut', Lut.ok N S lut → sym.length = S →
      emit lut sym cnt lits = some (bytes, lut') → Lut.ok N S lut')
    (s : ES Lut) (h : GInv N S inp n CP s) :
    Post (stepG emit S inp n s) (fun s' => GInv N S inp n CP s' ∧ muG n s' < muG n s)
      (fun s' => GInv N S inp n CP s' ∧ n ≤ s'.i ∧ s'.pc = .top) := by
  obtain ⟨pc, i, count, lastRLE, sym, fs, out⟩ := s
  obtain ⟨hcp, hlut, hlen, hlast, hpcs, htop, hntop, hcnt, hdvd⟩ := h
  simp only at *
  rcases hpcs with rfl | rfl | rfl
  · obtain ⟨h1, h2⟩ := hcnt (by simp)
    have h3 := hdvd rfl
    simp only [stepG]
    by_cases hi : i < n
    · rw [if_pos hi]
      by_cases hc2 : count ≠ 0 ∧ i + S ≤ n
      · rw [if_pos hc2]
        have hm := matchLen_le inp sym i S 0
        by_cases he : rd inp i S = sym
        · rw [if_pos he]
          refine ⟨⟨hcp, hlut, hlen, by simp; omega, by simp, by simp; omega, by simp, fun _ => ⟨by simp; omega, ?_⟩,
            fun _ => Nat.dvd_add h3 (Nat.dvd_refl _)⟩, ?_⟩
          · intro k hk
            simp only at hk ⊢
            rw [show i + S - (count + S) = i - count by omega]
            by_cases hlt : k < count
            · exact h2 k hlt
            · rw [← he, rd_length]
              obtain ⟨d, rfl⟩ := h3
              have : k % S = k - S * d := by
                conv => lhs; rw [show k = (k - S * d) + S * d by omega]
                rw [Nat.add_mul_mod_self_left, Nat.mod_eq_of_lt (by omega)]
              rw [this, rd_getD _ _ _ _ _ (by omega)]
              congr 1; omega
          · simp [muG]; omega
        · rw [if_neg he]
          refine ⟨⟨hcp, hlut, hlen, by simp; omega, by simp, by simp; omega, fun _ => by simp; omega,
            fun _ => ⟨by simp; omega, ?_⟩, by simp⟩, ?_⟩
          · exact h2.extend (by omega) (by rw [hlen]; exact h3) (W := S) (by simp only; omega)
          · simp [muG]; omega
      · rw [if_neg hc2]
        refine ⟨⟨hcp, hlut, hlen, hlast, by simp, htop, fun _ => by simp; omega, fun _ => ⟨h1, h2⟩, by simp⟩, ?_⟩
        simp [muG]
    · rw [if_neg hi]
      exact ⟨⟨hcp, hlut, hlen, hlast, by simp, htop, hntop, hcnt, hdvd⟩, by simp; omega, rfl⟩
  · obtain ⟨h1, h2⟩ := hcnt (by simp)
    have h4 := hntop (by simp)
    simp only [stepG, doEmit]
    split
    · next bytes fs' he =>
      have := hc _ _ _ _ _ _ _ _ hcp hlen (Or.inl hu) (by omega) (h2.toRun (by omega)) he
      rw [show lastRLE + (i - count - lastRLE) + count = i by omega] at this
      refine ⟨⟨this, hE _ _ _ _ _ _ hlut hlen he, hlen, by simp, by simp, htop, fun _ => h4, by simp, by simp⟩, ?_⟩
      simp [muG]
    · refine ⟨⟨hcp, hlut, hlen, hlast, by simp, htop, fun _ => h4, by simp, by simp⟩, ?_⟩
      simp [muG]
  · have h4 := hntop (by simp)
    simp only [stepG]
    by_cases hp : i + S ≤ n ∧ rd inp (i + S) S = rd inp i S
    · rw [if_pos hp]
      refine ⟨⟨hcp, hlut, by simp, by simp; omega, by simp, by simp; omega, by simp,
        fun _ => ⟨by simp; omega, RunAt.pair (by omega) hp.2⟩, fun _ => ⟨2, by simp; omega⟩⟩, ?_⟩
      simp [muG]; omega
    · rw [if_neg hp]
      by_cases hb : i + S ≤ n ∧ 2 ≤ (bestMatch S (rd inp i S) fs 0 (0, 0)).2
      · rw [if_pos hb]
        obtain ⟨g1, g2, g3⟩ := bestMatch_run hlut (inp := inp) (i := i) rfl hb.2
        generalize bestMatch S (rd inp i S) fs 0 (0, 0) = jk at *
        obtain ⟨j, k⟩ := jk
        simp only at *
        by_cases hk : k < S
        · rw [if_pos hk]
          refine ⟨⟨hcp, hlut, g1, by simp; omega, by simp, by simp; omega, fun _ => by simp; omega,
            fun _ => ⟨by simp; omega, g3⟩, by simp⟩, ?_⟩
          simp [muG]; omega
        · rw [if_neg hk]
          refine ⟨⟨hcp, hlut, g1, by simp; omega, by simp, by simp; omega, by simp,
            fun _ => ⟨by simp; omega, g3⟩, fun _ => ⟨1, by simp; omega⟩⟩, ?_⟩
          simp [muG]; omega
      · rw [if_neg hb]
        refine ⟨⟨hcp, hlut, by simp, by simp; omega, by simp, by simp; omega, by simp,
          fun _ => ⟨by simp; omega, RunAt.nil _ _ _⟩, fun _ => by simp⟩, ?_⟩
        simp [muG]; omega

theorem stepG_congr {emit : Emit Lut} {N S : Nat} {inp inp' : Mem} {n : Nat} {CP : Lut → List Byte → Nat → Prop}
    (hm : ∀ k, k < n + S → inp k = inp' k) (s : ES Lut) (h : GInv N S inp n CP s) :
    stepG emit S inp n s = stepG emit S inp' n s := by
  obtain ⟨pc, i, count, lastRLE, sym, fs, out⟩ := s
  obtain ⟨hcp, hlut, hlen, hlast, hpcs, htop, hntop, hcnt, hdvd⟩ := h
  simp only at *
  rcases hpcs with rfl | rfl | rfl
  · simp only [stepG]
    by_cases hi : i < n
    · rw [if_pos hi, if_pos hi, rd_congr (m₁ := inp) (m₂ := inp') (a := i) (fun j h1 h2 => hm j (by omega)),
        matchLen_congr' (inp := inp) (inp' := inp') S 0 (fun j hj => hm _ (by omega))]
    · rw [if_neg hi, if_neg hi]
  · have h4 := hntop (by simp)
    simp only [stepG]
    rw [doEmit_congr (inp := inp) (inp' := inp') _ (fun j hj => hm j (by simp at hj; omega))]
  · have h4 := hntop (by simp)
    simp only [stepG]
    rw [rd_congr (m₁ := inp) (m₂ := inp') (a := i) (fun j h1 h2 => hm j (by omega))]
    by_cases hi : i + S ≤ n
    · rw [rd_congr (m₁ := inp) (m₂ := inp') (a := i + S) (fun j h1 h2 => hm j (by omega))]
    · simp only [hi, false_and, if_false]

/-- The greedy scanner, byte by byte; `state.symbol = ~*pIn` at the start (src/rleX_Xsl_short.h:775-781). -/
def runG (F : Fmt Lut) (S : Nat) (inp : Mem) (n : Nat) : Option (ES Lut) :=
  loop (stepG F.emit S inp n) (3 * n + 6) ⟨.top, 0, 0, 0, (rd inp 0 S).map (fun b => ~~~ b), F.init, []⟩

theorem gInv_start {N S : Nat} {inp : Mem} {n : Nat} {CP : Lut → List Byte → Nat → Prop} {fs : Lut}
    (h : CP fs [] 0) (hl : Lut.ok N S fs) :
    GInv N S inp n CP ⟨.top, 0, 0, 0, (rd inp 0 S).map (fun b => ~~~ b), fs, []⟩ :=
  ⟨h, hl, by simp, by simp, by simp, by simp, by simp, fun _ => ⟨by simp, RunAt.nil _ _ _⟩, by simp⟩

theorem runG_scan (F : Fmt Lut) {N S : Nat} {unb : Bool} (hS : 2 ≤ S) (hu : unb = true)
    (hE : ∀ lut sym cnt lits bytes lut', Lut.ok N S lut → sym.length = S →
      F.emit lut sym cnt lits = some (bytes, lut') → Lut.ok N S lut') (h0 : Lut.ok N S F.init) :
    ScanRun [F.emit] S unb (fun _ _ => F.init) (runG F S) := by
  intro inp n B CP hB hc hcp
  obtain ⟨s, h1, h2, h3, h4⟩ := loop_rule (body := stepG F.emit S inp n) (GInv N S inp n CP)
    (fun s' => GInv N S inp n CP s' ∧ n ≤ s'.i ∧ s'.pc = .top) (muG n)
    (fun s hs => stepG_inv hS hu hB (hc _ (List.mem_singleton.mpr rfl)) hE s hs) (3 * n + 6) _ (gInv_start hcp h0) (by simp [muG]; omega)
  obtain ⟨g1, g2⟩ := h2.cnt (Or.inl h4)
  exact ⟨s, h1, h2.cp, h2.len, g1, h3, h2.top, g2, Or.inl hu⟩

theorem runG_congr (F : Fmt Lut) {N S : Nat} (hS : 2 ≤ S)
    (hE : ∀ lut sym cnt lits bytes lut', Lut.ok N S lut → sym.length = S →
      F.emit lut sym cnt lits = some (bytes, lut') → Lut.ok N S lut') (h0 : Lut.ok N S F.init) :
    ScanCongr S (runG F S) := by
  intro inp inp' n hm
  have hc : Closed F.emit inp S true (n + S) (fun _ _ _ => True) := closed_true
  unfold runG
  rw [rd_congr (m₁ := inp') (m₂ := inp) (fun j h1 h2 => (hm j (by omega)).symm)]
  refine loop_congr (GInv N S inp n (fun _ _ _ => True)) (b₁ := stepG F.emit S inp n)
    (b₂ := stepG F.emit S inp' n) ?_ _ _ (gInv_start trivial h0)
  intro s hs
  refine ⟨stepG_congr hm s hs, ?_⟩
  intro s' hs'
  have := stepG_inv hS rfl (Nat.le_refl _) hc hE s hs
  rw [hs'] at this
  exact this.1

/-! ### The bit tricks -/

/-- `rleX_Xsl_short_get_match_length` (src/rleX_Xsl_short.h:709-744), and the same code in the table search
(src/rleX_Xsl_short.h:895-932), on the symbols as numbers; `none` if the count of zeros is undefined. -/
def matchLengthI (S a b : Nat) : Option Nat :=
  if a = b then some S
  else if S = 2 then some (if a &&& 0xFF = b &&& 0xFF then 1 else 0)
  else (ctz (a ^^^ b)).map (· / 8)

/-- The table search (src/rleX_Xsl_short.h:888-954) on the symbols as numbers: `best` is the index and
the length of the best match so far; a full match ends the search. For 16 bit symbols only full
matches count. -/
def bestMatchI (S next : Nat) : Lut → Nat → Nat × Nat → Option (Nat × Nat)
  | [], _, best => some best
  | l :: ls, j, best =>
    if next = leN l then some (j, S)
    else if S = 2 then bestMatchI S next ls (j + 1) best
    else match matchLengthI S next (leN l) with
      | none => none
      | some c => if c > best.2 then bestMatchI S next ls (j + 1) (j, c) else bestMatchI S next ls (j + 1) best

/-- `..._short_compress_greedy`, main loop (src/rleX_Xsl_short.h:783-989), on the symbols as numbers; `.inr none` is
undefined behaviour.
* `top`: `while (i < inSize)` and the extension of the current run.
* `second`: `not_a_full_match_but_a_match:`, emission.
* `sscan`: the next run. -/
def stepGI (emit : Emit Lut) (S : Nat) (inp : Mem) (n : Nat) (s : ES Lut) : ES Lut ⊕ Option (ES Lut) :=
  match s.pc with
  | .top =>
    if s.i < n then
      if s.count ≠ 0 ∧ s.i + S ≤ n then
        if nextSym S inp s.i = leN s.sym then .inl { s with count := s.count + S, i := s.i + S }
        else match scalarPart S inp s.sym s.i with
          | none => .inr none
          | some k => .inl { s with count := s.count + k, i := s.i + k, pc := .second }
      else .inl { s with pc := .second }
    else .inr (some s)
  | .second => .inl { doEmit emit inp s with pc := .sscan }
  | .sscan =>
    if s.i + S ≤ n ∧ nextSym S inp (s.i + S) = nextSym S inp s.i then
      .inl { s with sym := rd inp s.i S, count := S * 2, i := s.i + S * 2, pc := .top }
    else if s.i + S ≤ n then
      match bestMatchI S (nextSym S inp s.i) s.fs 0 (0, 0) with
      | none => .inr none
      | some (j, c) =>
        if (S = 2 ∧ c ≠ 0) ∨ (S ≠ 2 ∧ 2 ≤ c) then
          .inl { s with sym := s.fs.getD j [], count := c, i := s.i + c, pc := if S ≠ 2 ∧ c < S then .second else .top }
        else .inl { s with sym := rd inp s.i S, count := 0, i := s.i + 1, pc := .top }
    else .inl { s with sym := rd inp s.i S, count := 0, i := s.i + 1, pc := .top }
  | _ => .inr (some s)

/-- The greedy scanner; `state.symbol = ~*pIn` at the start (src/rleX_Xsl_short.h:775-781). -/
def runGI (F : Fmt Lut) (S : Nat) (inp : Mem) (n : Nat) : Option (ES Lut) :=
  (loop (stepGI F.emit S inp n) (3 * n + 6) ⟨.top, 0, 0, 0, (rd inp 0 S).map (fun b => ~~~ b), F.init, []⟩).join

theorem prefixLen_stop (a b : List Byte) (hl : a.length = b.length) (h : a ≠ b) :
    prefixLen a b < a.length ∧ a.getD (prefixLen a b) 0 ≠ b.getD (prefixLen a b) 0 := by
  induction a generalizing b with
  | nil =>
    cases b with
    | nil => exact absurd rfl h
    | cons y ys => simp at hl
  | cons x xs ih =>
    cases b with
    | nil => simp at hl
    | cons y ys =>
      unfold prefixLen
      by_cases he : x = y
      · subst he
        rw [if_pos rfl]
        obtain ⟨h1, h2⟩ := ih ys (by simpa using hl) (fun e => h (by rw [e]))
        exact ⟨by simp; omega, by rw [Nat.add_comm]; simpa using h2⟩
      · rw [if_neg he]
        exact ⟨by simp, by simpa using he⟩

theorem prefixLen_comm (a b : List Byte) : prefixLen a b = prefixLen b a := by
  induction a generalizing b with
  | nil => cases b <;> rfl
  | cons x xs ih =>
    cases b with
    | nil => rfl
    | cons y ys =>
      unfold prefixLen
      by_cases he : x = y
      · rw [if_pos he, if_pos he.symm, ih]
      · rw [if_neg he, if_neg (fun e => he e.symm)]

/-- The lowest bit in which two symbols differ is in the first byte in which they differ. -/
theorem diff_ctz {a b : List Byte} (hl : a.length = b.length) (h8 : a.length ≤ 8) (h : a ≠ b) :
    (ctz (leN a ^^^ leN b)).map (· / 8) = some (prefixLen a b) := by
  obtain ⟨h1, h2⟩ := prefixLen_stop a b hl h
  obtain ⟨k, hk, hb⟩ := byte_ne_bit h2
  have hbit : ∀ j c, c < 8 → (leN a ^^^ leN b).testBit (8 * j + c) = ((a.getD j 0).toNat ^^^ (b.getD j 0).toNat).testBit c := by
    intro j c hc
    rw [Nat.testBit_xor, Nat.testBit_xor, leN_testBit _ _ _ hc, leN_testBit _ _ _ hc]
  have hlow : ∀ j, j < 8 * prefixLen a b → (leN a ^^^ leN b).testBit j = false := by
    intro j hj
    have e := hbit (j / 8) (j % 8) (by omega)
    rw [show 8 * (j / 8) + j % 8 = j by omega, prefixLen_spec a b (j / 8) (by omega), Nat.xor_self, Nat.zero_testBit] at e
    exact e
  cases hz : ctz (leN a ^^^ leN b) with
  | none =>
    have := bitFrom_none hz (8 * prefixLen a b + k) (by omega) (by omega)
    rw [hbit _ _ hk, hb] at this
    cases this
  | some z =>
    obtain ⟨_, g2, g3, g4⟩ := bitFrom_some hz
    have hz1 : 8 * prefixLen a b ≤ z := by
      by_cases e : z < 8 * prefixLen a b
      · rw [hlow z e] at g3; cases g3
      · omega
    have hz2 : z ≤ 8 * prefixLen a b + k := by
      by_cases e : 8 * prefixLen a b + k < z
      · have := g4 _ (by omega) e
        rw [hbit _ _ hk, hb] at this
        cases this
      · omega
    simp only [Option.map_some, Option.some.injEq]
    omega

theorem bestMatchI_eq {S : Nat} (hS : symSize S) {next : List Byte} (hn : next.length = S) :
    ∀ (ls : Lut) (j : Nat) (best : Nat × Nat), (∀ l ∈ ls, l.length = S) →
      bestMatchI S (leN next) ls j best = some (bestMatch S next ls j best)
  | [], _, _, _ => rfl
  | l :: ls, j, best, h => by
    have hl := h l List.mem_cons_self
    have ih := fun j best => bestMatchI_eq hS hn ls j best fun x hx => h x (List.mem_cons_of_mem _ hx)
    have h8 : S ≤ 8 := by rcases hS with rfl | rfl | rfl | rfl | rfl <;> decide
    unfold bestMatchI bestMatch
    by_cases he : next = l
    · rw [if_pos he, if_pos (by rw [he])]
    · have he2 : leN next ≠ leN l := fun e => he (leN_inj _ _ (by omega) e)
      rw [if_neg he, if_neg he2]
      by_cases h2 : S = 2
      · rw [if_pos h2, if_neg (fun x => x.1 h2), ih]
      · rw [if_neg h2]
        unfold matchLengthI
        rw [if_neg he2, if_neg h2, diff_ctz (by omega) (by omega) he, prefixLen_comm]
        dsimp only
        by_cases h3 : prefixLen l next > best.2
        · rw [if_pos h3, if_pos ⟨h2, h3⟩, ih]
        · rw [if_neg h3, if_neg (fun x => h3 x.2), ih]

/-- For 16 bit symbols the search finds nothing or a whole symbol. -/
theorem bestMatch_two (next : List Byte) : ∀ (ls : Lut) (j : Nat) (best : Nat × Nat), best.2 = 0 ∨ best.2 = 2 →
    (bestMatch 2 next ls j best).2 = 0 ∨ (bestMatch 2 next ls j best).2 = 2
  | [], _, _, h => h
  | l :: ls, j, best, h => by
    unfold bestMatch
    split
    · exact Or.inr rfl
    · rw [if_neg (fun x => x.1 rfl)]
      exact bestMatch_two next ls _ _ h

theorem stepGI_eq (emit : Emit Lut) {S : Nat} (hS : symSize S) (inp : Mem) (n : Nat) (s : ES Lut)
    (hl : s.sym.length = S) (hf : ∀ l ∈ s.fs, l.length = S) :
    stepGI emit S inp n s = (stepG emit S inp n s).map id some := by
  have hrd : ∀ a b, nextSym S inp a = nextSym S inp b ↔ rd inp a S = rd inp b S := by
    intro a b
    rw [nextSym_eq hS, nextSym_eq hS]
    exact ⟨fun h => leN_inj _ _ (by simp) h, fun h => by rw [h]⟩
  unfold stepGI stepG
  cases hpc : s.pc
  all_goals dsimp only
  case top =>
    split
    · split
      · have h1 := nextSym_iff hS (inp := inp) (i := s.i) hl
        by_cases he : rd inp s.i S = s.sym
        · rw [if_pos he, if_pos (h1.mpr ((matchLen_eq_iff hl).mpr he))]
          rfl
        · have hm : matchLen inp s.sym s.i S 0 ≠ S := fun e => he ((matchLen_eq_iff hl).mp e)
          rw [if_neg he, if_neg (fun e => hm (h1.mp e)), scalarPart_eq hS hl hm]
          rfl
      · rfl
    · rfl
  case sscan =>
    rw [Nat.mul_comm S 2]
    by_cases h1 : s.i + S ≤ n ∧ rd inp (s.i + S) S = rd inp s.i S
    · rw [if_pos h1, if_pos ⟨h1.1, (hrd _ _).mpr h1.2⟩]
      rfl
    · rw [if_neg h1, if_neg (fun x => h1 ⟨x.1, (hrd _ _).mp x.2⟩)]
      by_cases h2 : s.i + S ≤ n
      · rw [if_pos h2, nextSym_eq hS, bestMatchI_eq hS (by simp) _ _ _ hf]
        dsimp only
        by_cases h3 : S = 2
        · subst h3
          have h4 := bestMatch_two (rd inp s.i 2) s.fs 0 (0, 0) (Or.inl rfl)
          by_cases h5 : 2 ≤ (bestMatch 2 (rd inp s.i 2) s.fs 0 (0, 0)).2
          · have hp := And.intro h2 h5
            rw [if_pos (Or.inl ⟨rfl, by omega⟩), if_pos hp, if_neg (show ¬ (2 ≠ 2 ∧ _) from fun x => x.1 rfl), if_neg (show ¬ _ < 2 by omega)]
            rfl
          · rw [if_neg (fun x => by omega), if_neg (fun x => h5 x.2)]
            rfl
        · by_cases h5 : 2 ≤ (bestMatch S (rd inp s.i S) s.fs 0 (0, 0)).2
          · have hp := And.intro h2 h5
            rw [if_pos (Or.inr ⟨h3, h5⟩), if_pos hp]
            by_cases h6 : (bestMatch S (rd inp s.i S) s.fs 0 (0, 0)).2 < S
            · have hq : S ≠ 2 ∧ _ := And.intro h3 h6
              rw [if_pos hq, if_pos h6]
              rfl
            · have hq : ¬ (S ≠ 2 ∧ (bestMatch S (rd inp s.i S) s.fs 0 (0, 0)).2 < S) := fun x => h6 x.2
              rw [if_neg hq, if_neg h6]
              rfl
          · rw [if_neg (fun x => by omega), if_neg (fun x => h5 x.2)]
            rfl
      · rw [if_neg h2, if_neg (fun x => h2 x.1)]
        rfl
  all_goals rfl

theorem runGI_eq (F : Fmt Lut) {N S : Nat} (hS : symSize S)
    (hE : ∀ lut sym cnt lits bytes lut', Lut.ok N S lut → sym.length = S →
      F.emit lut sym cnt lits = some (bytes, lut') → Lut.ok N S lut') (h0 : Lut.ok N S F.init) :
    runGI F S = runG F S := by
  have h2 : 2 ≤ S := by rcases hS with rfl | rfl | rfl | rfl | rfl <;> decide
  funext inp n
  have hc : Closed F.emit inp S true (n + S) (fun _ _ _ => True) := closed_true
  unfold runGI runG
  refine loop_map (GInv N S inp n (fun _ _ _ => True)) (fun s hs => ⟨stepGI_eq F.emit hS inp n s hs.len hs.lut.2, fun s' hs' => ?_⟩)
    _ _ (gInv_start trivial h0)
  have := stepG_inv h2 rfl (Nat.le_refl _) hc hE s hs
  rw [hs'] at this
  exact this.1

end Hrk
