import Verif.WholeSpec
import Verif.ChangesG
import Verif.PropsSame

/-
The scanners end a run where it ends.
-/

namespace Hrk

/-- As `Closed`, for runs that end where they have to. -/
def ClosedM {σ : Type} (emit : Emit σ) (inp : Mem) (S g : Nat) (unb : Bool) (n B : Nat) (CP : σ → List Byte → Nat → Prop) : Prop :=
  ∀ fs out last sym cnt lits bytes fs', CP fs out last → sym.length = S → (unb = true ∨ S ∣ cnt) → last + lits + cnt ≤ B →
    rd inp (last + lits) cnt = runBytes sym cnt → RunEnds S g unb inp n sym cnt (last + lits + cnt) →
    emit fs sym cnt lits = some (bytes, fs') → CP fs' (out ++ bytes ++ rd inp last lits) (last + lits + cnt)

theorem doEmitM {σ : Type} {emit : Emit σ} {S g : Nat} {unb : Bool} {inp : Mem} {n B : Nat}
    {CP : σ → List Byte → Nat → Prop} (hc : ClosedM emit inp S g unb n B CP) (h0 : ∀ fs sym lits, emit fs sym 0 lits = none) (s : ES σ)
    (hcp : CP s.fs s.out s.lastRLE) (hl : s.sym.length = S) (hd : unb = true ∨ S ∣ s.count)
    (hlast : s.lastRLE + s.count ≤ s.i) (hB : s.i ≤ B) (hr : RunAt inp s.sym s.i s.count)
    (he : s.count ≠ 0 → RunEnds S g unb inp n s.sym s.count s.i) :
    CP (doEmit emit inp s).fs (doEmit emit inp s).out (doEmit emit inp s).lastRLE := by
  unfold doEmit
  split
  · next bytes fs' hs =>
    have hz : s.count ≠ 0 := fun hz => by rw [hz, h0] at hs; cases hs
    have hp : s.lastRLE + (s.i - s.count - s.lastRLE) + s.count = s.i := by omega
    have := hc _ _ _ _ _ _ _ _ hcp hl hd (by omega) (hr.toRun (by omega)) (by rw [hp]; exact he hz) hs
    rw [hp] at this
    exact this
  · exact hcp

/-- The scanner ends runs where they end. -/
def ScanRunM {σ : Type} (E : List (Emit σ)) (S g : Nat) (unb : Bool) (fs0 : Mem → Nat → σ) (run : Mem → Nat → Option (ES σ)) : Prop :=
  ∀ (inp : Mem) (n B : Nat) (CP : σ → List Byte → Nat → Prop), n + S ≤ B → (∀ e ∈ E, ClosedM e inp S g unb n B CP) →
    CP (fs0 inp n) [] 0 → ∀ s, run inp n = some s → CP s.fs s.out s.lastRLE

/-- What the scanners keep. -/
structure WInvM {σ : Type} (S g : Nat) (unb : Bool) (inp : Mem) (n : Nat) (CP : σ → List Byte → Nat → Prop) (s : ES σ) : Prop where
  cp : CP s.fs s.out s.lastRLE
  second : s.pc = .second → s.count ≠ 0 → RunEnds S g unb inp n s.sym s.count s.i

section

variable {S n B : Nat} {inp : Mem}

theorem mod_of_dvd {S c off : Nat} (h : S ∣ c) (ho : off < S) : (c + off) % S = off := by
  obtain ⟨k, rfl⟩ := h
  rw [Nat.mul_add_mod, Nat.mod_eq_of_lt ho]

/-- Where a comparison of a whole symbol stops, a run of whole symbols ends. -/
theorem ends_match {g : Nat} {sym : List Byte} {i count : Nat} (hlen : sym.length = S) (hd : S ∣ count)
    (hf : matchLen inp sym i S 0 < S) :
    RunEnds S g true inp n sym (count + matchLen inp sym i S 0) (i + matchLen inp sym i S 0) ∧ RunEnds S g false inp n sym count i := by
  have hst := matchLen_stop inp sym i S 0 hf
  rw [Nat.zero_add, hlen, Nat.mod_eq_of_lt hf] at hst
  constructor
  · refine .inr fun h => hst ?_
    unfold GoesOn at h
    rw [if_pos rfl, mod_of_dvd hd hf] at h
    exact h
  · refine .inr fun h => hst ?_
    unfold GoesOn at h
    rw [if_neg (by simp)] at h
    have := rd_getD inp i S (matchLen inp sym i S 0) 0 hf
    rw [h] at this
    exact this.symm

/-! ### 16 to 64 bits -/

theorem stepX_whole {σ : Type} {emit : Emit σ} {unb : Bool} {CP : σ → List Byte → Nat → Prop}
    (hc : ClosedM emit inp S S unb n B CP) (hB : n + S ≤ B) (h0 : ∀ fs sym lits, emit fs sym 0 lits = none)
    (s : ES σ) (hx : XInv S unb inp n (fun _ _ _ => True) s) (h : WInvM S S unb inp n CP s) :
    Post (stepX emit S 0 unb inp n s) (fun s' => WInvM S S unb inp n CP s') (fun s' => WInvM S S unb inp n CP s') := by
  obtain ⟨pc, i, count, lastRLE, sym, fs, out⟩ := s
  obtain ⟨-, hlen, hlast, htop, hntop, hcnt, hdvd, hdvd2⟩ := hx
  obtain ⟨hcp, hsec⟩ := h
  simp only at *
  cases pc with
  | top =>
    simp only [stepX]
    split
    · exact ⟨hcp, by simp⟩
    · exact ⟨hcp, by simp⟩
  | ext =>
    simp only [stepX]
    rw [if_neg (by simp)]
    exact ⟨hcp, by simp⟩
  | scal =>
    have h3 := hdvd (by simp)
    simp only [stepX]
    by_cases hi : count ≠ 0 ∧ i + S ≤ n
    · rw [if_pos hi]
      have hm := matchLen_le inp sym i S 0
      split
      · exact ⟨hcp, by simp⟩
      · next hf =>
        have := ends_match (n := n) (inp := inp) (g := S) hlen h3 (show matchLen inp sym i S 0 < S by omega)
        cases unb with
        | true => exact ⟨hcp, fun _ _ => this.1⟩
        | false => exact ⟨hcp, fun _ _ => this.2⟩
    · rw [if_neg hi]
      exact ⟨hcp, fun _ hz => .inl (by simp only at hz ⊢; omega)⟩
  | second =>
    obtain ⟨h1, h2⟩ := hcnt (by simp)
    have := hntop (by simp)
    simp only [stepX]
    exact ⟨doEmitM hc h0 _ hcp hlen (hdvd2 rfl) h1 (by simp only; omega) h2 (hsec rfl), by simp⟩
  | search =>
    simp only [stepX]
    rw [if_neg (by simp)]
    exact ⟨hcp, by simp⟩
  | sscan =>
    simp only [stepX]
    split
    · exact ⟨hcp, by simp⟩
    · exact ⟨hcp, by simp⟩

theorem runX_whole {σ : Type} (F : Fmt σ) {W : Nat} {unb : Bool} (h0 : ∀ fs sym lits, F.emit fs sym 0 lits = none)
    (hS : 0 < S) (hW : W = 0 ∨ S < W) : ScanRunM [F.emit] S S unb (fun _ _ => F.init) (runX F S W unb) := by
  intro inp n B CP hB hE hI s hs
  have hc := hE _ List.mem_cons_self
  rw [runX_same F h0 hS hW] at hs
  unfold runX at hs
  refine loop_rule_partial (body := stepX F.emit S 0 unb inp n)
    (fun s => XInv S unb inp n (fun _ _ _ => True) s ∧ WInvM S S unb inp n CP s) (fun s => CP s.fs s.out s.lastRLE) ?_ _ _ _ ?_ hs
  · rintro s ⟨hx, hw⟩
    have g1 := stepX_inv (emit := F.emit) hS (.inl rfl) (Nat.le_refl (n + S)) closed_true s hx
    have g2 := stepX_whole hc hB h0 s hx hw
    cases hb : stepX F.emit S 0 unb inp n s with
    | inl s' => rw [hb] at g1 g2; exact ⟨g1.1, g2⟩
    | inr s' => rw [hb] at g2; exact g2.cp
  · exact ⟨⟨trivial, by simp, by simp, by simp, by simp, fun _ => ⟨by simp, by intro k hk; simp at hk⟩, by simp, by simp⟩,
      hI, by simp⟩

/-! ### 128 bits -/

theorem step128_whole {σ : Type} {emit : Emit σ} {unb : Bool} {CP : σ → List Byte → Nat → Prop}
    (hc : ClosedM emit inp 16 17 unb n B CP) (hB : n + 16 ≤ B) (h0 : ∀ fs sym lits, emit fs sym 0 lits = none)
    (s : ES σ) (hx : XInv 16 unb inp n (fun _ _ _ => True) s) (h : WInvM 16 17 unb inp n CP s ∧ s.pc ≠ .scal) :
    Post (step128 emit unb inp n s) (fun s' => WInvM 16 17 unb inp n CP s' ∧ s'.pc ≠ .scal)
      (fun s' => WInvM 16 17 unb inp n CP s' ∧ s'.pc ≠ .scal) := by
  obtain ⟨pc, i, count, lastRLE, sym, fs, out⟩ := s
  obtain ⟨-, hlen, hlast, htop, hntop, hcnt, hdvd, hdvd2⟩ := hx
  obtain ⟨⟨hcp, hsec⟩, hpc⟩ := h
  simp only at *
  cases pc with
  | scal => exact absurd rfl hpc
  | top =>
    simp only [step128]
    split
    · exact ⟨⟨hcp, by simp⟩, by simp⟩
    · exact ⟨⟨hcp, by simp⟩, by simp⟩
  | ext =>
    have h3 := hdvd (by simp)
    have hm := matchLen_le inp sym i 16 0
    simp only [step128]
    by_cases hi : i + 16 < n
    · rw [if_pos hi]
      split
      · exact ⟨⟨hcp, by simp⟩, by simp⟩
      · next hf =>
        have := ends_match (n := n) (inp := inp) (g := 17) hlen h3 (show matchLen inp sym i 16 0 < 16 by omega)
        cases unb with
        | true => exact ⟨⟨hcp, fun _ _ => this.1⟩, by simp⟩
        | false => exact ⟨⟨hcp, fun _ _ => this.2⟩, by simp⟩
    · rw [if_neg hi]
      exact ⟨⟨hcp, fun _ hz => .inl (by simp only; omega)⟩, by simp⟩
  | second =>
    obtain ⟨h1, h2⟩ := hcnt (by simp)
    have := hntop (by simp)
    simp only [step128]
    exact ⟨⟨doEmitM hc h0 _ hcp hlen (hdvd2 rfl) h1 (by simp only; omega) h2 (hsec rfl), by simp⟩, by simp⟩
  | search =>
    simp only [step128]
    repeat' split
    all_goals exact ⟨⟨hcp, by simp⟩, by simp⟩
  | sscan =>
    simp only [step128]
    split
    · exact ⟨⟨hcp, by simp⟩, by simp⟩
    · exact ⟨⟨hcp, by simp⟩, by simp⟩

theorem run128_whole {σ : Type} (F : Fmt σ) {unb : Bool} (h0 : ∀ fs sym lits, F.emit fs sym 0 lits = none) :
    ScanRunM [F.emit] 16 17 unb (fun _ _ => F.init) (run128 F unb) := by
  intro inp n B CP hB hE hI s hs
  have hc := hE _ List.mem_cons_self
  unfold run128 at hs
  refine loop_rule_partial (body := step128 F.emit unb inp n)
    (fun s => XInv 16 unb inp n (fun _ _ _ => True) s ∧ WInvM 16 17 unb inp n CP s ∧ s.pc ≠ .scal) (fun s => CP s.fs s.out s.lastRLE) ?_ _ _ _ ?_ hs
  · rintro s ⟨hx, hw⟩
    have g1 := step128_inv (emit := F.emit) (Nat.le_refl (n + 16)) closed_true s hx
    have g2 := step128_whole hc hB h0 s hx hw
    cases hb : step128 F.emit unb inp n s with
    | inl s' => rw [hb] at g1 g2; exact ⟨g1.1, g2⟩
    | inr s' => rw [hb] at g2; exact g2.1.cp
  · exact ⟨⟨trivial, by simp, by simp, by simp, by simp, fun _ => ⟨by simp, by intro k hk; simp at hk⟩, by simp, by simp⟩,
      ⟨hI, by simp⟩, by simp⟩

/-! ### 8 bits -/

theorem ends_byte {sym : List Byte} {count p : Nat} (h : inp p ≠ sym.getD 0 0) : RunEnds 1 1 true inp n sym count p := by
  refine .inr fun h' => h ?_
  unfold GoesOn at h'
  rw [if_pos rfl, Nat.mod_one] at h'
  exact h'

theorem step8_whole {σ : Type} {emit emitT : Emit σ} {W : Nat} {CP : σ → List Byte → Nat → Prop}
    (hc : ClosedM emit inp 1 1 true n B CP) (hcT : ClosedM emitT inp 1 1 true n B CP) (hB : n + 1 ≤ B)
    (h0 : ∀ fs sym lits, emit fs sym 0 lits = none) (h0T : ∀ fs sym lits, emitT fs sym 0 lits = none)
    (s : ES σ) (hx : Inv8 W inp n (fun _ _ _ => True) s) (h : WInvM 1 1 true inp n CP s) :
    Post (step8 emit emitT W inp n s) (fun s' => WInvM 1 1 true inp n CP s') (fun s' => WInvM 1 1 true inp n CP s') := by
  obtain ⟨pc, i, count, lastRLE, sym, fs, out⟩ := s
  obtain ⟨-, hlen, hlast, hhi, hext, hlt, hcnt⟩ := hx
  obtain ⟨hcp, hsec⟩ := h
  simp only at *
  cases pc with
  | top =>
    simp only [step8]
    split
    · exact ⟨hcp, by simp⟩
    · exact ⟨hcp, by simp⟩
  | ext =>
    have hm := matchLen_le inp sym i W 0
    simp only [step8]
    split
    · exact ⟨hcp, by simp⟩
    · next hf =>
      have hst := matchLen_stop inp sym i W 0 (by omega)
      rw [hlen, Nat.mod_one, Nat.zero_add] at hst
      split
      · exact ⟨hcp, fun _ _ => ends_byte hst⟩
      · exact ⟨hcp, by simp⟩
  | second =>
    obtain ⟨h1, h2⟩ := hcnt (by simp) (by simp)
    simp only [step8]
    exact ⟨doEmitM hc h0 _ hcp hlen (.inl rfl) h1 (by simp only; omega) h2 (hsec rfl), by simp⟩
  | search =>
    simp only [step8]
    repeat' split
    all_goals exact ⟨hcp, by simp⟩
  | sscan =>
    simp only [step8]
    exact ⟨hcp, by simp⟩
  | scal =>
    obtain ⟨h1, h2⟩ := hcnt (by simp) (by simp)
    simp only [step8]
    split
    · split
      · exact ⟨hcp, by simp⟩
      · next hne =>
        have hne' : inp i ≠ sym.getD 0 0 := by
          intro he
          apply hne
          match sym, hlen with
          | [b], _ => simpa [rd] using he
        exact ⟨doEmitM hcT h0T ⟨.scal, i, count, lastRLE, sym, fs, out⟩ hcp hlen (.inl rfl) h1 (by simp only; omega) h2
          (fun _ => ends_byte hne'), by simp [doEmit_pc]⟩
    · exact ⟨hcp, by simp⟩

theorem run8T_whole {σ : Type} (F : Fmt σ) (emitT : Emit σ) {E : List (Emit σ)} {W : Nat} (hW : 2 ≤ W)
    (h1 : F.emit ∈ E) (h2 : emitT ∈ E) (h0 : ∀ fs sym lits, F.emit fs sym 0 lits = none) (h0T : ∀ fs sym lits, emitT fs sym 0 lits = none) :
    ScanRunM E 1 1 true (fun _ _ => F.init) (run8T F emitT W) := by
  intro inp n B CP hB hE hI s hs
  unfold run8T at hs
  refine loop_rule_partial (body := step8 F.emit emitT W inp n)
    (fun s => Inv8 W inp n (fun _ _ _ => True) s ∧ WInvM 1 1 true inp n CP s) (fun s => CP s.fs s.out s.lastRLE) ?_ _ _ _ ?_ hs
  · rintro s ⟨hx, hw⟩
    have g1 := step8_inv (unb := true) (emit := F.emit) (emitT := emitT) hW (Nat.le_refl n) closed_true closed_true s hx
    have g2 := step8_whole (hE _ h1) (hE _ h2) hB h0 h0T s hx hw
    cases hb : step8 F.emit emitT W inp n s with
    | inl s' => rw [hb] at g1 g2; exact ⟨g1.1, g2⟩
    | inr s' => rw [hb] at g2; exact g2.cp
  · exact ⟨inv8_start trivial, hI, by simp⟩

/-! ### Greedy -/

theorem prefixLen_end (a b : List Byte) : prefixLen a b < a.length → prefixLen a b < b.length →
    a.getD (prefixLen a b) 0 ≠ b.getD (prefixLen a b) 0 := by
  induction a generalizing b with
  | nil => intro h; simp at h
  | cons x xs ih =>
    cases b with
    | nil => intro _ h; simp at h
    | cons y ys =>
      unfold prefixLen
      split
      · next he =>
        intro h1 h2
        simp only [List.length_cons] at h1 h2
        have := ih ys (by omega) (by omega)
        rw [Nat.add_comm 1]
        simpa using this
      · next he => intro _ _; simpa using he

/-- A match of a part of a symbol is as long as it can be. -/
theorem bestMatch_stop {N S : Nat} {inp : Mem} {i : Nat} {lut : Lut} (hl : Lut.ok N S lut) {j k : Nat}
    (h : bestMatch S (rd inp i S) lut 0 (0, 0) = (j, k)) (hk : 2 ≤ k) (hkS : k < S) : inp (i + k) ≠ (lut.getD j []).getD k 0 := by
  have hlen : ∀ j, j < lut.length → (lut.getD j []).length = S := by
    intro j hj
    rw [List.getD, List.getElem?_eq_getElem hj]
    exact hl.2 _ (List.getElem_mem hj)
  have := bestMatch_spec lut (S := S) (next := rd inp i S) (by simp)
    (fun b => b.2 < 2 ∨ b.2 = S ∨ (b.2 < S → inp (i + b.2) ≠ (lut.getD b.1 []).getD b.2 0)) lut 0 (0, 0)
    (Or.inl (by simp)) (by simp) (fun q _ _ => .inr (.inl rfl))
    (fun q hq => .inr (.inr fun hlt => by
      simp only [Nat.zero_add] at hq hlt ⊢
      have := prefixLen_end (lut.getD q []) (rd inp i S) (by rw [hlen q hq]; exact hlt) (by rw [rd_length]; exact hlt)
      rw [rd_getD _ _ _ _ _ hlt] at this
      exact fun he => this he.symm))
  rw [h] at this
  simp only at this
  rcases this with h1 | h1 | h1
  · omega
  · omega
  · exact h1 hkS

theorem stepG_whole {emit : Emit Lut} {N : Nat} {CP : Lut → List Byte → Nat → Prop}
    (hc : ClosedM emit inp S S true n B CP) (hB : n + S ≤ B) (h0 : ∀ fs sym lits, emit fs sym 0 lits = none)
    (s : ES Lut) (hx : GInv N S inp n (fun _ _ _ => True) s) (h : WInvM S S true inp n CP s) :
    Post (stepG emit S inp n s) (fun s' => WInvM S S true inp n CP s') (fun s' => WInvM S S true inp n CP s') := by
  obtain ⟨pc, i, count, lastRLE, sym, fs, out⟩ := s
  obtain ⟨-, hlut, hlen, hlast, hpcs, htop, hntop, hcnt, hdvd⟩ := hx
  obtain ⟨hcp, hsec⟩ := h
  simp only at *
  rcases hpcs with rfl | rfl | rfl
  · have h3 := hdvd rfl
    simp only [stepG]
    by_cases hi : i < n
    · rw [if_pos hi]
      by_cases hc2 : count ≠ 0 ∧ i + S ≤ n
      · rw [if_pos hc2]
        by_cases hq : rd inp i S = sym
        · rw [if_pos hq]
          exact ⟨hcp, by simp⟩
        · rw [if_neg hq]
          have hm := matchLen_le inp sym i S 0
          have hf : matchLen inp sym i S 0 < S := by
            refine Classical.byContradiction fun hf => hq ?_
            refine List.ext_getElem (by simp [hlen]) fun k hk hk' => ?_
            have hk'' : k < S := by simpa using hk
            have := matchLen_spec inp sym i S 0 k (by omega)
            rw [Nat.zero_add, hlen, Nat.mod_eq_of_lt hk''] at this
            simp only [rd, List.getElem_map, List.getElem_range]
            rw [this]
            simp [List.getD, hk']
          exact ⟨hcp, fun _ _ => (ends_match (n := n) (inp := inp) (g := S) hlen h3 hf).1⟩
      · rw [if_neg hc2]
        exact ⟨hcp, fun _ hz => .inl (by simp only at hz ⊢; omega)⟩
    · rw [if_neg hi]
      exact ⟨hcp, by simp⟩
  · obtain ⟨h1, h2⟩ := hcnt (by simp)
    have := hntop (by simp)
    simp only [stepG]
    exact ⟨doEmitM hc h0 _ hcp hlen (.inl rfl) h1 (by simp only; omega) h2 (hsec rfl), by simp⟩
  · simp only [stepG]
    by_cases hp : i + S ≤ n ∧ rd inp (i + S) S = rd inp i S
    · rw [if_pos hp]
      exact ⟨hcp, by simp⟩
    · rw [if_neg hp]
      by_cases hb : i + S ≤ n ∧ 2 ≤ (bestMatch S (rd inp i S) fs 0 (0, 0)).2
      · rw [if_pos hb]
        have hst := bestMatch_stop (inp := inp) (i := i) (j := (bestMatch S (rd inp i S) fs 0 (0, 0)).1)
          (k := (bestMatch S (rd inp i S) fs 0 (0, 0)).2) hlut rfl hb.2
        generalize bestMatch S (rd inp i S) fs 0 (0, 0) = jk at *
        obtain ⟨j, k⟩ := jk
        simp only at *
        by_cases hk : k < S
        · rw [if_pos hk]
          refine ⟨hcp, fun _ _ => .inr fun hg => hst hk ?_⟩
          unfold GoesOn at hg
          rw [if_pos rfl, Nat.mod_eq_of_lt hk] at hg
          exact hg
        · rw [if_neg hk]
          exact ⟨hcp, by simp⟩
      · rw [if_neg hb]
        exact ⟨hcp, by simp⟩

theorem runG_whole (F : Fmt Lut) {N : Nat} (hS : 2 ≤ S) (hI : Lut.ok N S F.init) (h0 : ∀ fs sym lits, F.emit fs sym 0 lits = none)
    (hE : ∀ lut sym cnt lits bytes lut', Lut.ok N S lut → sym.length = S → F.emit lut sym cnt lits = some (bytes, lut') → Lut.ok N S lut') :
    ScanRunM [F.emit] S S true (fun _ _ => F.init) (runG F S) := by
  intro inp n B CP hB hE' hI' s hs
  have hc := hE' _ List.mem_cons_self
  unfold runG at hs
  refine loop_rule_partial (body := stepG F.emit S inp n)
    (fun s => GInv N S inp n (fun _ _ _ => True) s ∧ WInvM S S true inp n CP s) (fun s => CP s.fs s.out s.lastRLE) ?_ _ _ _ ?_ hs
  · rintro s ⟨hx, hw⟩
    have g1 := stepG_inv hS rfl (Nat.le_refl (n + S)) (closed_true (unb := true)) hE s hx
    have g2 := stepG_whole hc hB h0 s hx hw
    cases hb : stepG F.emit S inp n s with
    | inl s' => rw [hb] at g1 g2; exact ⟨g1.1, g2⟩
    | inr s' => rw [hb] at g2; exact g2.cp
  · exact ⟨gInv_start trivial hI, hI', by simp⟩

/-! ### One symbol -/

/-- Only the scalar loop writes records, apart from the ends of runs. -/
theorem stepS8_keeps {σ : Type} {emit : Emit σ} {minR : Nat} {CP : σ → List Byte → Nat → Prop}
    (hc : ClosedM emit inp 1 1 true n B CP) (hB : n + 1 ≤ B) (h0 : ∀ fs sym lits, emit fs sym 0 lits = none)
    (s : ES σ) (hx : Inv8 16 inp n (fun _ _ _ => True) s) (hcp : CP s.fs s.out s.lastRLE) (hp : s.pc ≠ .second) :
    Post (stepS8 emit minR inp n s)
      (fun s' => CP s'.fs s'.out s'.lastRLE ∧ (s'.pc = .second → RunEnds 1 1 true inp n s'.sym s'.count s'.i))
      (fun s' => CP s'.fs s'.out s'.lastRLE) := by
  obtain ⟨pc, i, count, lastRLE, sym, fs, out⟩ := s
  obtain ⟨-, hlen, hlast, hhi, hext, hlt, hcnt⟩ := hx
  simp only at *
  cases pc with
  | second => exact absurd rfl hp
  | top =>
    simp only [stepS8]
    split
    · exact ⟨hcp, by simp⟩
    · exact ⟨hcp, by simp⟩
  | ext =>
    have hm := matchLen_le inp sym i 16 0
    simp only [stepS8]
    split
    · exact ⟨hcp, by simp⟩
    · next hf =>
      have hst := matchLen_stop inp sym i 16 0 (by omega)
      rw [hlen, Nat.mod_one, Nat.zero_add] at hst
      split
      · exact ⟨hcp, fun _ => ends_byte hst⟩
      · exact ⟨hcp, by simp⟩
  | search =>
    simp only [stepS8]
    repeat' split
    all_goals exact ⟨hcp, by simp⟩
  | sscan => exact hcp
  | scal =>
    obtain ⟨h1, h2⟩ := hcnt (by simp) (by simp)
    simp only [stepS8]
    split
    · split
      · exact ⟨hcp, by simp⟩
      · next hne =>
        have hne' : inp i ≠ sym.getD 0 0 := by
          intro he
          apply hne
          match sym, hlen with
          | [b], _ => simpa [rd] using he
        exact ⟨doEmitM hc h0 ⟨.scal, i, count, lastRLE, sym, fs, out⟩ hcp hlen (.inl rfl) h1 (by simp only; omega) h2
          (fun _ => ends_byte hne'), by simp [doEmit_pc]⟩
    · exact hcp

theorem runS8_whole {σ : Type} (F : Fmt σ) (fs0 : Mem → Nat → σ) {minR : Nat} {sym : Mem → Nat → Byte}
    (h0 : ∀ fs sym lits, F.emit fs sym 0 lits = none) : ScanRunM [F.emit] 1 1 true fs0 (runS8 F fs0 minR sym) := by
  intro inp n B CP hB hE hI s hs
  have hc := hE _ List.mem_cons_self
  unfold runS8 at hs
  refine loop_rule_partial (body := stepS8 F.emit minR inp n)
    (fun s => (Inv8 16 inp n (fun _ _ _ => True) s ∧ s.pc ≠ .sscan ∧ (s.pc = .search → s.count = 0)) ∧ CP s.fs s.out s.lastRLE ∧
      (s.pc = .second → RunEnds 1 1 true inp n s.sym s.count s.i)) (fun s => CP s.fs s.out s.lastRLE) ?_ _ _ _ ?_ hs
  · rintro s ⟨hx, hw, he⟩
    have g1 := stepS8_inv (unb := true) (emit := F.emit) (minR := minR) (Nat.le_refl n) closed_true s hx
    by_cases hp : s.pc = .second
    · have hcnt := hx.1.cnt (by simp [hp]) (by simp [hp])
      have hhi := hx.1.hi
      have key := doEmitM hc h0 s hw hx.1.len (.inl rfl) hcnt.1 (by omega) hcnt.2 (fun _ => he hp)
      have hb : stepS8 F.emit minR inp n s = .inl { doEmit F.emit inp s with count := 0, pc := .search } := by
        unfold stepS8
        rw [hp]
      rw [hb] at g1 ⊢
      exact ⟨g1.1, key, by simp⟩
    · have g2 := stepS8_keeps (minR := minR) hc hB h0 s hx.1 hw hp
      cases hb : stepS8 F.emit minR inp n s with
      | inl s' => rw [hb] at g1 g2; exact ⟨g1.1, g2⟩
      | inr s' => rw [hb] at g2; exact g2
  · exact ⟨⟨inv8_start trivial, by simp, by simp⟩, hI, by simp⟩

theorem second_whole {σ : Type} {emit emitT emitF : Emit σ} {force : Nat → Nat → List Byte} {short long far : Nat}
    {fs0 : σ} {b : Byte} {CP : σ → List Byte → Nat → Prop} (hB : n + 1 ≤ B) (hR : WRules emit emitT emitF force short long far fs0 b)
    (h0 : ∀ fs sym lits, emit fs sym 0 lits = none) (hc : ClosedM emit inp 1 1 true n B CP) (hcF : ClosedM emitF inp 1 1 true n B CP)
    (w : WS σ) (h : WInv short long far fs0 b inp n (fun _ _ _ => True) w) (hcp : CP w.es.fs w.es.out w.es.lastRLE) (hpc : w.es.pc = .second) :
    CP (second emit force short inp n w).es.fs (second emit force short inp n w).es.out (second emit force short inp n w).es.lastRLE := by
  obtain ⟨⟨hinv, hns, hz0⟩, hfs, hsym, hstop, hch⟩ := h
  obtain ⟨-, hlen, hlast, hhi, hext, hlt, hcnt⟩ := hinv
  obtain ⟨h1, h2⟩ := hcnt (by simp [hpc]) (by simp [hpc])
  have hstop := hstop hpc
  have hch := hch (by simp [hpc])
  unfold second
  split
  · split
    · exact doEmitM hc h0 w.es hcp hlen (.inl rfl) h1 (by omega) h2 (fun _ => ends_byte (by rw [hsym]; exact hstop))
    · unfold wasted
      split
      · exact hcp
      · split
        · next hw2 =>
          obtain ⟨c, g1, g2, g3, g4, g5, g6, g7⟩ := hch (by omega)
          have g5 := g5 hpc
          have hm : matchLen inp w.es.sym w.fw (n - 16 - w.fw) 0 = c := by
            rw [hsym]; exact matchLen_exact (by omega) g6 g7
          unfold replay
          rw [hm]
          have hF := hR.back c (w.fw - w.es.lastRLE) g1 g2 (by omega)
          have hp : w.es.lastRLE + (w.fw - w.es.lastRLE) + c = w.fw + c := by omega
          have hcl := hcF _ _ _ _ c (w.fw - w.es.lastRLE) _ _ hcp hlen (.inl rfl)
            (by omega) (by rw [hsym]; exact g6.toRun (by omega)) (ends_byte (by rw [hp, hsym]; exact g7)) (by rw [hfs, hsym]; exact hF)
          rw [hp] at hcl
          simp only [hfs]
          exact hcl
        · exact hcp
  · exact hcp

theorem runW_whole {σ : Type} {emit emitT emitF : Emit σ} {force : Nat → Nat → List Byte} {short long far : Nat}
    {fs0 : Mem → Nat → σ} {sym : Mem → Nat → Byte} {E : List (Emit σ)} (h1 : emit ∈ E) (h2 : emitT ∈ E)
    (h3 : emitF ∈ E) (h0 : ∀ fs sym lits, emit fs sym 0 lits = none) (h0T : ∀ fs sym lits, emitT fs sym 0 lits = none)
    (hR : ∀ inp n, WRules emit emitT emitF force short long far (fs0 inp n) (sym inp n)) :
    ScanRunM E 1 1 true fs0 (runW emit emitT force short fs0 sym) := by
  intro inp n B CP hB hE hI s hs
  unfold runW at hs
  cases hl : loop (stepW emit emitT force short inp n) (12 * n + 12) ⟨⟨.top, 0, 0, 0, [sym inp n], fs0 inp n, []⟩, 0, 0⟩ with
  | none => rw [hl] at hs; cases hs
  | some w =>
    rw [hl] at hs
    simp only [Option.map_some, Option.some.injEq] at hs
    subst hs
    refine loop_rule_partial (body := stepW emit emitT force short inp n)
      (fun w => WInv short long far (fs0 inp n) (sym inp n) inp n (fun _ _ _ => True) w ∧ CP w.es.fs w.es.out w.es.lastRLE)
      (fun w => CP w.es.fs w.es.out w.es.lastRLE) ?_ _ _ _ ⟨wInv_start trivial, hI⟩ hl
    rintro w ⟨hx, hw⟩
    have g1 := stepW_inv (unb := true) (Nat.le_refl n) (hR inp n) closed_true closed_true closed_true w hx
    by_cases hp : w.es.pc = .second
    · have g2 := second_whole hB (hR inp n) h0 (hE _ h1) (hE _ h3) w hx hw hp
      have hb : stepW emit emitT force short inp n w = .inl (second emit force short inp n w) := by
        unfold stepW
        rw [if_pos hp]
      rw [hb] at g1 ⊢
      exact ⟨g1.1, g2⟩
    · have g2 := stepS8_keeps (minR := short) (hE _ h2) hB h0T w.es hx.inv.1 hw hp
      unfold stepW at g1 ⊢
      rw [if_neg hp] at g1 ⊢
      cases hq : stepS8 emitT short inp n w.es with
      | inl e => rw [hq] at g1 g2; exact ⟨g1.1, g2.1⟩
      | inr e => rw [hq] at g2; exact g2

end

end Hrk
