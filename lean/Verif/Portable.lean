import Verif.Api

/-
The converse of `decM_refines`: whenever a vector decoder ends without leaving
its buffers, on any bytes whatsoever, it has produced exactly what the scalar
decoder produces.
-/

namespace Hrk

theorem copyLoop_sound {W cap : Nat} {src : List Byte} {o lit : Nat} {m m' : Mem} {r : Nat}
    (hr : r ≤ src.length) (hpre : ∀ k, k < r → m (o + k) = src.getD k 0)
    (h : copyLoop W cap src o lit m r = some m') :
    lit ≤ src.length ∧ (∀ k, k < lit → m' (o + k) = src.getD k 0) ∧ (∀ k, k < o → m' k = m k) := by
  unfold copyLoop at h
  cases hl : loop (copyBody W cap src o lit) (lit + 1) (m, r) with
  | none => simp [hl] at h
  | some x =>
    rw [hl, Option.join_some] at h
    subst h
    refine loop_rule_partial (body := copyBody W cap src o lit)
      (fun s : Mem × Nat => s.2 ≤ src.length ∧ (∀ k, k < s.2 → s.1 (o + k) = src.getD k 0) ∧
        (∀ k, k < o → s.1 k = m k))
      (fun r => ∀ m', r = some m' → lit ≤ src.length ∧ (∀ k, k < lit → m' (o + k) = src.getD k 0) ∧
        (∀ k, k < o → m' k = m k)) ?_ _ _ _ ⟨hr, hpre, fun _ _ => rfl⟩ hl m' rfl
    rintro ⟨m1, r1⟩ ⟨h0, h1, h2⟩
    simp only [copyBody]
    split
    · split
      · next hc =>
        refine ⟨by simp only; omega, ?_, ?_⟩
        · intro k hk
          by_cases hk2 : k < r1
          · simp only; rw [wr_out (by omega)]; exact h1 k hk2
          · simp only at hk ⊢; rw [wr_in (by omega) (by omega)]; congr 1; omega
        · intro k hk; simp only; rw [wr_out (by omega)]; exact h2 k hk
      · simp
    · intro m' hm'
      cases hm'
      simp only at *
      exact ⟨by omega, fun k hk => h1 k (by omega), h2⟩

theorem memcpyV_sound {W cap inAddr : Nat} {src : List Byte} {o lit : Nat} {m m' : Mem}
    (h : memcpyV W cap inAddr src o lit m = some m') :
    lit ≤ src.length ∧ (∀ k, k < lit → m' (o + k) = src.getD k 0) ∧ (∀ k, k < o → m' k = m k) := by
  unfold memcpyV at h
  have hw1 : ∀ k, k < W → wr m o W (fun j => src.getD j 0) (o + k) = src.getD k 0 := by
    intro k hk; rw [wr_in (by omega) (by omega)]; congr 1; omega
  split at h
  · split at h <;> cases h
    exact ⟨by omega, fun k hk => hw1 k (by omega), fun k hk => wr_out (by omega)⟩
  · split at h
    · split at h
      · obtain ⟨h1, h2, h3⟩ := copyLoop_sound (by omega) (fun k hk => hw1 k (by omega)) h
        exact ⟨h1, h2, fun k hk => by rw [h3 k hk, wr_out (by omega)]⟩
      · cases h
    · exact copyLoop_sound (by omega) (by intro k hk; omega) h

theorem setLoop_sound {G cap : Nat} {sym : List Byte} {o cnt : Nat} {m m' : Mem} {r : Nat}
    (hp : ∀ k j, k % G = r % G → sym.getD ((k + j) % sym.length) 0 = sym.getD (j % sym.length) 0)
    (hpre : ∀ k, k < r → m (o + k) = sym.getD (k % sym.length) 0)
    (h : setLoop G cap (vset1N sym) o cnt m r = some m') :
    (∀ k, k < cnt → m' (o + k) = sym.getD (k % sym.length) 0) ∧ (∀ k, k < o → m' k = m k) := by
  unfold setLoop at h
  cases hl : loop (setBody G cap (vset1N sym) o cnt) (cnt + 1) (m, r) with
  | none => simp [hl] at h
  | some x =>
    rw [hl, Option.join_some] at h
    subst h
    refine loop_rule_partial (body := setBody G cap (vset1N sym) o cnt)
      (fun s : Mem × Nat => s.2 % G = r % G ∧
        (∀ k, k < s.2 → s.1 (o + k) = sym.getD (k % sym.length) 0) ∧ (∀ k, k < o → s.1 k = m k))
      (fun r => ∀ m', r = some m' → (∀ k, k < cnt → m' (o + k) = sym.getD (k % sym.length) 0) ∧
        (∀ k, k < o → m' k = m k)) ?_ _ _ _ ⟨rfl, hpre, fun _ _ => rfl⟩ hl m' rfl
    rintro ⟨m1, r1⟩ ⟨h0, h1, h2⟩
    simp only [setBody]
    split
    · split
      · refine ⟨by simpa using h0, ?_, ?_⟩
        · intro k hk
          by_cases hk2 : k < r1
          · simp only; rw [wr_out (by omega)]; exact h1 k hk2
          · simp only at hk ⊢; rw [wr_in (by omega) (by omega)]
            have := hp r1 (k - r1) h0
            rw [show r1 + (k - r1) = k by omega] at this
            rw [this]; show sym.getD _ 0 = _; congr 2; omega
        · intro k hk; simp only; rw [wr_out (by omega)]; exact h2 k hk
      · simp
    · intro m' hm'
      cases hm'
      simp only at *
      exact ⟨fun k hk => h1 k (by omega), h2⟩

theorem memsetV_sound {k : SetK} {cap outAddr : Nat} {sym : List Byte} {o cnt : Nat} {m m' : Mem}
    (hk : k.ok sym.length) (h : memsetV k cap outAddr sym o cnt m = some m') :
    (∀ j, j < cnt → m' (o + j) = sym.getD (j % sym.length) 0) ∧ (∀ j, j < o → m' j = m j) := by
  cases k with
  | multi G reg =>
    obtain ⟨h1, h2, h3, h4⟩ := hk
    simp only [memsetV] at h
    rw [setLoop_congr (h4 sym · rfl)] at h
    refine setLoop_sound ?_ (by intro k hk; omega) h
    intro k j hkj
    congr 1
    have : k % sym.length = 0 := by
      have hd : sym.length ∣ G := Nat.dvd_of_mod_eq_zero h3
      have : G ∣ k := Nat.dvd_of_mod_eq_zero (by simpa using hkj)
      exact Nat.mod_eq_zero_of_dvd (Nat.dvd_trans hd this)
    rw [Nat.add_mod, this]; simp
  | aligned W =>
    obtain ⟨h1, h2⟩ := hk
    have hper : ∀ k j : Nat, sym.getD ((k + j) % sym.length) 0 = sym.getD (j % sym.length) 0 := by
      intro k j; rw [h2]; simp [Nat.mod_one]
    have hw1 : ∀ k, k < W → wr m o W (vset1N sym) (o + k)
        = sym.getD (k % sym.length) 0 := by
      intro k hk; rw [wr_in (by omega) (by omega)]; show sym.getD _ 0 = _; congr 2; omega
    simp only [memsetV] at h
    split at h
    · split at h <;> cases h
      exact ⟨fun k hk => hw1 k (by omega), fun k hk => wr_out (by omega)⟩
    · split at h
      · split at h
        · obtain ⟨g1, g2⟩ := setLoop_sound (fun k j _ => hper k j) (fun k hk => hw1 k (by omega)) h
          exact ⟨g1, fun k hk => by rw [g2 k hk, wr_out (by omega)]⟩
        · cases h
      · exact setLoop_sound (fun k j _ => hper k j) (by intro k hk; omega) h

/-- A vector decoder that ends without leaving its buffers has produced the
bytes the scalar decoder produces. -/
theorem decM_sound {σ : Type} {hdr : σ → List Byte → Option (Hdr σ)} {P : σ → Prop} {S : Nat}
    (hH : HdrOK hdr P S) (v : DecV) (hk : v.setK.ok S) (aIn aOut cap : Nat) :
    ∀ (f : Nat) (fs : σ) (src acc : List Byte) (pos : Nat) (m m' : Mem),
      P fs → Holds m acc → decM hdr v aIn aOut cap f ⟨fs, src, pos, acc.length, m⟩ = some m' →
      ∃ out, decS hdr 0 f ⟨fs, src, acc⟩ = some out ∧ Holds m' out := by
  intro f
  induction f with
  | zero => intro fs src acc pos m m' _ _ h; simp [decM, loop] at h
  | succ f ih =>
    intro fs src acc pos m m' hP hm h
    simp only [decM, loop, decMStep] at h
    simp only [decS, loop, decStep]
    cases hh : hdr fs src with
    | none => simp [hh] at h
    | some hd =>
      cases hd with
      | ret =>
        simp only [hh, Option.join_some, Option.some.injEq, exists_eq_left'] at h ⊢
        subst h
        exact hm
      | wrap cnt rest =>
        simp only [hh] at h ⊢
        cases hw : memcpyWrap v.copyW cap (aIn + (pos + (src.length - rest.length))) rest acc.length m with
        | none => simp [hw] at h
        | some m1 =>
          simp only [hw] at h
          by_cases hc : cnt = none
          · simp only [hc, if_true, Option.join_some, Option.some.injEq] at h
            subst h
            rw [if_pos ⟨hc, by omega⟩]
            simp only [Option.join_some, Option.some.injEq, exists_eq_left']
            unfold memcpyWrap at hw
            split at hw
            · split at hw <;> cases hw
              intro k hk
              rw [wr_out (by omega)]; exact hm k hk
            · cases hw; exact hm
          · simp [hc] at h
      | go lit sym cnt fs' rest =>
        have hH' := hH fs src lit sym cnt fs' rest hP hh
        simp only [hh] at h ⊢
        cases hw : memcpyV v.copyW cap (aIn + (pos + (src.length - rest.length))) rest acc.length lit m with
        | none => simp [hw] at h
        | some m1 =>
          simp only [hw] at h
          obtain ⟨h1, h2, h3⟩ := memcpyV_sound hw
          rw [if_pos (by omega)]
          have hm1 : Holds m1 (acc ++ List.take lit rest) := by
            refine Holds.append hm h3 ?_
            intro k hk
            simp at hk
            rw [h2 k (by omega), take_getD (by omega)]
          have hl3 : (acc ++ List.take lit rest).length = acc.length + lit := by
            simp; omega
          cases cnt with
          | none =>
            simp only [Option.join_some, Option.some.injEq] at h
            subst h
            simp only [Option.join_some, Option.some.injEq, exists_eq_left']
            exact hm1
          | some cnt =>
            simp only at h ⊢
            cases hs : memsetV v.setK cap (aOut + (acc.length + lit)) sym (acc.length + lit) cnt m1 with
            | none => simp [hs] at h
            | some m2 =>
              simp only [hs] at h
              obtain ⟨g1, g2⟩ := memsetV_sound (by rw [hH'.1]; exact hk) hs
              have hl4 : (acc ++ List.take lit rest ++ runBytes sym cnt).length
                = acc.length + lit + cnt := by rw [List.length_append, hl3]; simp
              rw [← hl4] at h
              refine ih fs' (rest.drop lit) _ (pos + (src.length - rest.length) + lit) m2 m' hH'.2 ?_ h
              refine Holds.append hm1 ?_ ?_
              · intro k hk; exact g2 k (by omega)
              · intro k hk
                simp at hk
                rw [hl3, g1 k hk, runBytes_getD hk]

/-- The header with `t` appended to the unread source. -/
def Hdr.app {σ : Type} (t : List Byte) : Hdr σ → Hdr σ
  | .ret => .ret
  | .wrap cnt rest => .wrap cnt (rest ++ t)
  | .go lit sym cnt fs rest => .go lit sym cnt fs (rest ++ t)

/-- The header parser does not look behind the bytes it consumes, and consumes
at least one. -/
structure HdrLocal {σ : Type} (hdr : σ → List Byte → Option (Hdr σ)) : Prop where
  app : ∀ fs src h t, hdr fs src = some h → hdr fs (src ++ t) = some (h.app t)
  go : ∀ fs src lit sym cnt fs' rest, hdr fs src = some (.go lit sym cnt fs' rest) →
    rest.length < src.length

theorem decS_app {σ : Type} {hdr : σ → List Byte → Option (Hdr σ)} (hL : HdrLocal hdr) {K : Nat}
    {t : List Byte} (hK : K ≤ t.length) :
    ∀ (f : Nat) (fs : σ) (src acc out : List Byte), decS hdr 0 f ⟨fs, src, acc⟩ = some out →
      decS hdr K f ⟨fs, src ++ t, acc⟩ = some out := by
  intro f
  induction f with
  | zero => intro fs src acc out h; simp [decS, loop] at h
  | succ f ih =>
    intro fs src acc out h
    simp only [decS, loop, decStep] at h ⊢
    cases hh : hdr fs src with
    | none => simp [hh] at h
    | some hd =>
      rw [hL.app fs src hd t hh]
      rw [hh] at h
      cases hd with
      | ret => simpa [Hdr.app] using h
      | wrap cnt rest =>
        simp only [Hdr.app] at h ⊢
        by_cases hc : cnt = none
        · rw [if_pos ⟨hc, by omega⟩] at h
          rw [if_pos ⟨hc, by simp; omega⟩]
          exact h
        · rw [if_neg (by simp [hc])] at h
          simp at h
      | go lit sym cnt fs' rest =>
        simp only [Hdr.app] at h ⊢
        by_cases hl : lit + 0 ≤ rest.length
        · rw [if_pos hl] at h
          rw [if_pos (by simp; omega), List.take_append_of_le_length (by omega),
            List.drop_append_of_le_length (by omega)]
          cases cnt with
          | none => exact h
          | some cnt => exact ih _ _ _ _ h
        · rw [if_neg hl] at h
          simp at h

/-- A decoder loop ends after at most one record per source byte: it either
returns or leaves the source. -/
theorem decM_terminates {σ : Type} {hdr : σ → List Byte → Option (Hdr σ)} (hL : HdrLocal hdr)
    (v : DecV) (aIn aOut cap : Nat) (s : MS σ) :
    ∃ r, loop (decMStep hdr v aIn aOut cap) (s.src.length + 1) s = some r := by
  have h0 : ∀ s, True → Post (decMStep hdr v aIn aOut cap s)
      (fun s' => True ∧ s'.src.length < s.src.length) (fun _ => True) := by
    intro s _
    simp only [decMStep]
    split
    · trivial
    · trivial
    · split
      · trivial
      · split <;> trivial
    · next hh =>
      split
      · trivial
      · split
        · trivial
        · split
          · trivial
          · simp only [Post_inl, true_and, List.length_drop]
            have := hL.go _ _ _ _ _ _ _ hh
            omega
  obtain ⟨r, h, _⟩ := loop_rule (fun _ => True) (fun _ => True) (fun s => s.src.length) h0
    (s.src.length + 1) s trivial (by omega)
  exact ⟨r, h⟩

end Hrk
