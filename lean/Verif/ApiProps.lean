import Verif.Portable
import Verif.Depend
import Verif.Const

/-
The properties of `Spec.lean` for any codec built from `apiCompress` and
`apiDecompress`.
-/

namespace Hrk

theorem compressGuards_api (body : Mem → Nat → Option (List Byte)) :
    CompressGuards bounds (apiCompress body) := by
  intro pIn n pOut outSize h
  unfold apiCompress
  cases pIn with
  | none => rfl
  | some inp =>
    simp only
    rw [if_pos (by simpa [or_left_comm] using h)]

theorem decompressGuards_api {σ : Type} (start : List Byte → Option (Option (σ × List Byte)))
    (hdr : σ → List Byte → Option (Hdr σ)) (v : DecV) : DecompressGuards (apiDecompress start hdr v) := by
  refine ⟨?_, ?_⟩
  · intro a h
    unfold apiDecompress
    split
    · rfl
    · rfl
    · next h1 h2 =>
      rw [h1, h2] at h
      rw [if_pos (by simpa using h)]
  · intro a x y rest hx hy hp h
    unfold apiDecompress
    rw [hp]
    split
    · rfl
    · rfl
    · next src m hs hm =>
      cases hs
      split
      · rfl
      · simp only [List.append_assoc, rdU32_le32]
        rw [if_pos (by omega)]

theorem headerTruthful_api {σ : Type} (body : Mem → Nat → Option (List Byte))
    (start : List Byte → Option (Option (σ × List Byte)))
    (hdr : σ → List Byte → Option (Hdr σ)) (v : DecV) :
    HeaderTruthful (apiCompress body) (apiDecompress start hdr v) := by
  refine ⟨?_, ?_⟩
  · intro inp n outSize ret out hn ho h
    simp only [apiCompress] at h
    split at h
    · cases h
    · split at h
      · cases h
      · next b hb =>
        split at h
        · next hl =>
          cases h
          simp only [List.length_append, le32_length] at hl
          rw [Nat.mod_eq_of_lt (by omega)]
          exact ⟨by simp; omega, b, rfl⟩
        · cases h
  · intro a r m' h
    unfold apiDecompress at h
    split at h
    · cases h
    · cases h
    · next src m hs hm =>
      split at h
      · cases h
      · split at h
        · cases h
        · next x rest hx =>
          split at h
          · cases h
          · split at h
            · cases h
            · split at h
              · cases h
              · cases h
              · split at h
                · cases h
                · cases h
                · cases h
                  exact ⟨src, rest, hs, hx⟩

theorem trailingIgnored_of_roundTrip {comp : Compress} {decomp : Decompress} (h : RoundTrip comp decomp) :
    TrailingIgnored comp decomp := by
  intro inp n outSize ret out hn hn2 hc t s1 s2 m a h1 h2 hm ho hcap
  obtain ⟨m1, g1, g2, _⟩ := h inp n outSize ret out hn hn2 hc s1 m
    { a with pIn := some (out ++ s1), inSize := out.length } h1 rfl (Nat.le_refl _) hm ho hcap
  obtain ⟨m2, k1, k2, _⟩ := h inp n outSize ret out hn hn2 hc (t ++ s2) m
    { a with pIn := some (out ++ t ++ s2), inSize := out.length + t.length } (by simp; omega)
    (by simp) (by simp) hm ho hcap
  exact ⟨m1, m2, g1, k1, fun k hk => by rw [g2 k hk, k2 k hk]⟩

theorem staysInside_of_roundTrip {comp : Compress} {decomp : Decompress} (h : RoundTrip comp decomp)
    (hg : DecompressGuards decomp) (hh : HeaderTruthful comp decomp)
    (hlen : ∀ inp n outSize ret out, comp (some inp) n true outSize = .ok ret out → out.length ≤ outSize) :
    StaysInside comp decomp := by
  intro inp n outSize ret out hn hn2 ho hc s m a hs hpi hpo hcap
  by_cases h1 : out.length ≤ a.inSize ∧ n ≤ a.outSize
  · obtain ⟨m', g, _⟩ := h inp n outSize ret out hn hn2 hc s m a (by omega) hpi h1.1 hpo h1.2
      (by simp [addSize]; omega)
    rw [g]; simp
  · have hl := hlen inp n outSize ret out hc
    unfold maxInput at hn2
    obtain ⟨rfl, body, hb⟩ := hh.1 inp n outSize ret out (by omega) ho hc
    rw [hg.2 a n out.length (body ++ s) (by omega) (by omega)
      (by rw [hpi]; congr 1; conv => lhs; rw [hb]
          simp) (by omega)]
    simp

theorem apiCompress_len (body : Mem → Nat → Option (List Byte)) (inp : Mem) (n outSize ret : Nat)
    (out : List Byte) (h : apiCompress body (some inp) n true outSize = .ok ret out) :
    out.length ≤ outSize ∧ ∃ b, body inp n = some b ∧ out = le32 n ++ le32 (8 + b.length) ++ b ∧
      ret = (8 + b.length) % 4294967296 := by
  simp only [apiCompress] at h
  split at h
  · cases h
  · split at h
    · cases h
    · next b hb =>
      split at h
      · next hl =>
        cases h
        exact ⟨hl, b, hb, rfl, rfl⟩
      · cases h

/-- The bytes a stream stands for: skip the header, then decode record by record. -/
def refDecode {σ : Type} (start : List Byte → Option (Option (σ × List Byte)))
    (hdr : σ → List Byte → Option (Hdr σ)) (src : List Byte) : Option (List Byte) :=
  (rdU32 src).bind fun (_, r) => (rdU32 r).bind fun (_, r) => (start r).join.bind fun (fs, r) =>
    decS hdr 0 (r.length + 1) ⟨fs, r, []⟩

/-- The prologue parser looks only at what it consumes. -/
def StartLocal {σ : Type} (P : σ → Prop) (start : List Byte → Option (Option (σ × List Byte))) : Prop :=
  ∀ src fs r, start src = some (some (fs, r)) →
    P fs ∧ ∀ t, start (src ++ t) = some (some (fs, r ++ t))

/-- The variant parser `h₂` behaves like `h₁`, except that it may return where `h₁`
lets the offset wrap around. -/
def HdrRel {σ : Type} (h₁ h₂ : σ → List Byte → Option (Hdr σ)) : Prop :=
  ∀ fs src, h₂ fs src = h₁ fs src ∨ ∃ cnt rest, h₁ fs src = some (.wrap cnt rest) ∧ h₂ fs src = some .ret

theorem HdrRel.refl {σ : Type} (h : σ → List Byte → Option (Hdr σ)) : HdrRel h h := fun _ _ => Or.inl rfl

theorem HdrRel.hdrOK {σ : Type} {h₁ h₂ : σ → List Byte → Option (Hdr σ)} {P : σ → Prop} {S : Nat}
    (h : HdrRel h₁ h₂) (hH : HdrOK h₁ P S) : HdrOK h₂ P S := by
  intro fs src lit sym cnt fs' rest hP hh
  rcases h fs src with he | ⟨_, _, he, he'⟩
  · rw [he] at hh; exact hH fs src lit sym cnt fs' rest hP hh
  · rw [he'] at hh; cases hh

theorem HdrRel.decS {σ : Type} {h₁ h₂ : σ → List Byte → Option (Hdr σ)} (h : HdrRel h₁ h₂) {K : Nat} :
    ∀ (f : Nat) (s : DS σ) (out : List Byte), decS h₁ K f s = some out → decS h₂ K f s = some out := by
  intro f
  induction f with
  | zero => intro s out hd; simp [Hrk.decS, loop] at hd
  | succ f ih =>
    rintro ⟨fs, src, acc⟩ out hd
    rcases h fs src with he | ⟨cnt, rest, he, he'⟩
    · simp only [Hrk.decS, loop, decStep, he] at hd ⊢
      cases hx : h₁ fs src with
      | none => simp [hx] at hd
      | some x =>
        rw [hx] at hd
        cases x with
        | ret => exact hd
        | wrap cnt rest =>
          simp only at hd ⊢
          by_cases hl : cnt = none ∧ K ≤ rest.length
          · rw [if_pos hl] at hd ⊢; exact hd
          · rw [if_neg hl] at hd; simp at hd
        | go lit sym cnt fs' rest =>
          simp only at hd ⊢
          by_cases hl : lit + K ≤ rest.length
          · rw [if_pos hl] at hd ⊢
            cases cnt with
            | none => exact hd
            | some c => exact ih _ _ hd
          · rw [if_neg hl] at hd; simp at hd
    · simp only [Hrk.decS, loop, decStep, he] at hd
      simp only [Hrk.decS, loop, decStep, he']
      by_cases hl : cnt = none ∧ K ≤ rest.length
      · rw [if_pos hl] at hd; exact hd
      · rw [if_neg hl] at hd; simp at hd

theorem rdU32_app {src r t : List Byte} {x : Nat} (h : rdU32 src = some (x, r)) :
    rdU32 (src ++ t) = some (x, r ++ t) ∧ src.length = r.length + 4 := by
  match src, h with
  | a :: b :: c :: d :: r', h => simp [rdU32] at h ⊢; obtain ⟨h1, rfl⟩ := h; exact ⟨⟨h1, rfl⟩, rfl⟩

theorem rdU16_app {src r t : List Byte} {x : Nat} (h : rdU16 src = some (x, r)) :
    rdU16 (src ++ t) = some (x, r ++ t) ∧ src.length = r.length + 2 := by
  match src, h with
  | a :: b :: r', h => simp [rdU16] at h ⊢; obtain ⟨h1, rfl⟩ := h; exact ⟨⟨h1, rfl⟩, rfl⟩

theorem rdU8_app {src r t : List Byte} {x : Nat} (h : rdU8 src = some (x, r)) :
    rdU8 (src ++ t) = some (x, r ++ t) ∧ src.length = r.length + 1 := by
  match src, h with
  | a :: r', h => simp [rdU8] at h ⊢; obtain ⟨h1, rfl⟩ := h; exact ⟨⟨h1, rfl⟩, rfl⟩

theorem takeN_app {k : Nat} {src r s t : List Byte} (h : takeN k src = some (s, r)) :
    takeN k (src ++ t) = some (s, r ++ t) ∧ src.length = r.length + k := by
  unfold takeN at h ⊢
  split at h
  · cases h
    rw [if_pos (by simp; omega), List.take_append_of_le_length (by omega),
      List.drop_append_of_le_length (by omega)]
    exact ⟨rfl, by simp; omega⟩
  · cases h

theorem decS_mono {σ : Type} {hdr : σ → List Byte → Option (Hdr σ)} {K f g : Nat} {s : DS σ} {out : List Byte}
    (h : decS hdr K f s = some out) (hg : f ≤ g) : decS hdr K g s = some out := by
  unfold decS at h ⊢
  cases hx : loop (decStep hdr K) f s with
  | none => simp [hx] at h
  | some y =>
    rw [hx] at h
    rw [loop_mono _ _ _ _ hx hg]
    exact h

theorem portableSound_api {σ ι : Type} {start : List Byte → Option (Option (σ × List Byte))}
    {hdr : σ → List Byte → Option (Hdr σ)} {P : σ → Prop} {S : Nat} (v : ι → DecV)
    (hP : StartLocal P start) (hH : HdrOK hdr P S) (hv : ∀ i, (v i).setK.ok S) :
    PortableSound (refDecode start hdr) (fun i => apiDecompress start hdr (v i)) := by
  intro i src a r m' hp h
  simp only [apiDecompress, hp] at h
  split at h
  · cases h
  · cases h
  · next src' m hs hm =>
    cases hs
    split at h
    · cases h
    · split at h
      · cases h
      · next x rest hx =>
        split at h
        · cases h
        · next y rest2 hy =>
          split at h
          · cases h
          · split at h
            · cases h
            · cases h
            · next fs r' hst =>
              split at h
              · cases h
              · cases h
              · next m'' hr =>
                cases h
                obtain ⟨out, h1, h2⟩ := decM_sound hH (v i) (hv i) a.aIn a.aOut a.cap _ fs r' []
                  (8 + (rest2.length - r'.length))
                  m m' (hP _ _ _ hst).1 (by intro k hk; simp at hk) (by
                    simp only [decM]
                    simp only [List.length_nil]
                    rw [hr]; rfl)
                exact ⟨out, by simp [refDecode, hx, hy, hst, h1], h2⟩

theorem portableComplete_api {σ ι : Type} {start : List Byte → Option (Option (σ × List Byte))}
    {hdr : σ → List Byte → Option (Hdr σ)} {P : σ → Prop} {S : Nat}
    (hdrV : ι → σ → List Byte → Option (Hdr σ)) (v : ι → DecV)
    (hP : StartLocal P start) (hH : HdrOK hdr P S) (hL : HdrLocal hdr) (hR : ∀ i, HdrRel hdr (hdrV i))
    (hv : ∀ i, 0 < (v i).copyW ∧ (v i).copyW ≤ 64 ∧ (v i).setK.ok S ∧ (v i).setK.width ≤ 112) :
    PortableComplete (refDecode start hdr) (fun i => apiDecompress start (hdrV i) (v i)) := by
  intro src out href x y rest hx hy i slack a m hsl hpi hpo hi0 ho0 hxo hyi hcap
  obtain ⟨rest2, hy⟩ := hy
  simp only [refDecode, hx, hy, Option.bind_some] at href
  cases hst : start rest2 with
  | none => simp [hst] at href
  | some z =>
    cases z with
    | none => simp [hst] at href
    | some z =>
      obtain ⟨fs, r'⟩ := z
      simp only [hst, Option.join_some, Option.bind_some] at href
      obtain ⟨hPfs, hst2⟩ := hP _ _ _ hst
      obtain ⟨v1, v2, v3, v4⟩ := hv i
      have hd := decS_app hL (K := (v i).copyW) (t := slack) (by omega) _ _ _ _ _ href
      have hd2 := (hR i).decS _ _ _ (decS_mono hd (g := (r' ++ slack).length + 1) (by simp))
      obtain ⟨m', h1, h2, h3⟩ := decM_refines ((hR i).hdrOK hH) (v i) v1 v3 a.aIn a.aOut a.cap 112 (by omega) v4
        _ _ _ (8 + ((rest2 ++ slack).length - (r' ++ slack).length)) m
        hd2 hPfs (by intro k hk; simp at hk) (by simp [addSize] at hcap; omega)
      refine ⟨m', ?_, h2, fun k hk => h3 k (by simp [addSize] at hk; omega)⟩
      simp only [apiDecompress, hpi, hpo]
      rw [if_neg (by omega)]
      simp only [(rdU32_app hx).1, (rdU32_app hy).1]
      rw [if_neg (by omega)]
      have h1 := join_eq_some h1
      simp only [List.length_nil] at h1
      simp only [hst2, h1]

theorem dependsOnPrefix_api {ext : Nat} (body : Mem → Nat → Option (List Byte))
    (h : ∀ inp inp' n, (∀ k, k < n + ext → inp k = inp' k) → body inp n = body inp' n) :
    DependsOnPrefix ext (apiCompress body) := by
  intro inp inp' n pOut outSize hm
  simp only [apiCompress, h inp inp' n hm]

theorem terminates_api {σ : Type} (body : Mem → Nat → Option (List Byte))
    (start : List Byte → Option (Option (σ × List Byte)))
    (hdr : σ → List Byte → Option (Hdr σ)) (v : DecV)
    (hb : ∀ inp n, ∃ b, body inp n = some b) (hL : HdrLocal hdr) :
    Terminates (apiCompress body) (apiDecompress start hdr v) := by
  refine ⟨?_, ?_⟩
  · intro pIn n pOut outSize
    unfold apiCompress
    split
    · simp
    · next inp =>
      obtain ⟨b, hb⟩ := hb inp n
      simp only [hb]
      split
      · simp
      · split <;> simp
  · intro a
    unfold apiDecompress
    split
    · simp
    · simp
    · next src m hs hm =>
      split
      · simp
      · split
        · simp
        · split
          · simp
          · next rest2 _ =>
            split
            · simp
            · split
              · simp
              · simp
              · next fs r' _ =>
                obtain ⟨r, hr⟩ := decM_terminates hL v a.aIn a.aOut a.cap
                  ⟨fs, r', 8 + (rest2.length - r'.length), 0, m⟩
                simp only at hr
                rw [hr]
                cases r <;> simp

/-- The loops inside a record terminate as well: block copies and fills run at most
once per byte. -/
theorem copyBody_terminates {W cap : Nat} {src : List Byte} {o lit : Nat} (hW : 0 < W) (s : Mem × Nat) :
    ∃ r, loop (copyBody W cap src o lit) (lit + 1) s = some r := by
  have h0 : ∀ s, True → Post (copyBody W cap src o lit s)
      (fun s' => True ∧ lit - s'.2 < lit - s.2) (fun _ => True) := by
    intro s _
    unfold copyBody
    split
    · split
      · simp only [Post_inl, true_and]; omega
      · trivial
    · trivial
  obtain ⟨r, h, _⟩ := loop_rule (fun _ => True) (fun _ => True) (fun s => lit - s.2) h0
    (lit + 1) s trivial (by omega)
  exact ⟨r, h⟩

theorem setBody_terminates {G cap : Nat} {reg : Vec} {o cnt : Nat} (hG : 0 < G) (s : Mem × Nat) :
    ∃ r, loop (setBody G cap reg o cnt) (cnt + 1) s = some r := by
  have h0 : ∀ s, True → Post (setBody G cap reg o cnt s)
      (fun s' => True ∧ cnt - s'.2 < cnt - s.2) (fun _ => True) := by
    intro s _
    unfold setBody
    split
    · split
      · simp only [Post_inl, true_and]; omega
      · trivial
    · trivial
  obtain ⟨r, h, _⟩ := loop_rule (fun _ => True) (fun _ => True) (fun s => cnt - s.2) h0
    (cnt + 1) s trivial (by omega)
  exact ⟨r, h⟩

end Hrk
