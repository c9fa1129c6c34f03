import Verif.RleX
import Verif.Rle8
import Verif.Rle128
import Verif.Symlut
import Verif.Short

/-
Inputs above 2^30 bytes: up to which size writers and parsers are inverse, and a general lemma for what the
codecs with 31 bit offsets do with 2^31 bytes that contain no run.
-/

namespace Hrk

theorem XCfg.upto (c : XCfg) : c.cdc.Upto (fun l => l.length = c.S) c.lim where
  fmt := c.fmtOKB
  emitEnd := c.fmtOKB.emit

theorem R8Cfg.upto (c : R8Cfg) : c.cdc.Upto c.Enc c.lim where
  extra := by
    intro e he
    simp only [cdc, List.mem_cons, List.not_mem_nil, or_false] at he
    rcases he with rfl | rfl
    · exact c.emitT_okB
    · exact c.emitF_okB
  fmt := c.fmtOKB
  emitEnd := c.emitT_okB

theorem cdc128_upto (unb packed : Bool) : (cdc128 unb packed).Upto (fun l => l.length = 16) (x128 unb packed).lim where
  fmt := fmt128_okB unb packed
  emitEnd := (x128 unb packed).fmtOKB.emit

theorem SlCfg.upto (c : SlCfg) (hc : c.valid) : c.cdc.Upto (Lut.ok c.N c.S) 4294967280 where
  fmt := c.fmtOKB hc
  emitEnd := (c.fmtOKB hc).emit

theorem ShCfg.upto (c : ShCfg) (hc : c.valid) : c.cdc.Upto (Lut.ok c.tab c.S) 4294967280 where
  fmt := c.fmtOKB hc
  emitEnd := (c.fmtOKB hc).emit

/-! ### Literals whose number does not fit -/

/-- A stream for which the decoder stops after `R` bytes leaves everything behind them, but for the slack, alone. -/
theorem apiDecompress_short {σ : Type} {start : List Byte → Option (Option (σ × List Byte))}
    {hdr : σ → List Byte → Option (Hdr σ)} {P : σ → Prop} {S : Nat} (v : DecV) (hH : HdrOK hdr P S)
    (hW : 0 < v.copyW) (hW2 : v.copyW ≤ 64) (hk : v.setK.ok S) (hk2 : v.setK.width ≤ 112)
    {fs : σ} (hP : P fs) {n : Nat} (hn0 : 0 < n) (hn : n < 4294967296) {b r res slack : List Byte} (hst : start (b ++ slack) = some (some (fs, r ++ slack)))
    (hd : decS hdr v.copyW (r.length + 1) ⟨fs, r ++ slack, []⟩ = some res) (hres : res.length ≤ 16)
    (hb : 8 + b.length < 4294967296) (m : Mem) (a : DArgs)
    (hpi : a.pIn = some (le32 n ++ le32 (8 + b.length) ++ b ++ slack)) (hin : 8 + b.length ≤ a.inSize) (hpo : a.pOut = some m)
    (hout : n ≤ a.outSize) (hcap : 128 ≤ a.cap) :
    ∃ m', apiDecompress start hdr v a = .ok n m' ∧ ∀ k, 128 ≤ k → m' k = m k := by
  obtain ⟨m', h1, h2, h3⟩ := decM_refines hH v hW hk a.aIn a.aOut a.cap 112 (by omega) hk2 _ _ _
    (8 + ((b ++ slack).length - (r ++ slack).length)) m hd hP (by intro k hk; simp at hk) (by omega)
  have h1' : loop (decMStep hdr v a.aIn a.aOut a.cap) ((r ++ slack).length + 1)
      ⟨fs, r ++ slack, 8 + ((b ++ slack).length - (r ++ slack).length), 0, m⟩ = some (some m') :=
    loop_mono _ ((r ++ slack).length + 1) _ _ (join_eq_some h1) (by simp)
  refine ⟨m', ?_, fun k hk => h3 k (by omega)⟩
  simp only [apiDecompress, hpi, hpo]
  rw [if_neg (by omega)]
  simp only [List.append_assoc, rdU32_le32]
  rw [Nat.mod_eq_of_lt hn, Nat.mod_eq_of_lt hb, if_neg (by omega)]
  simp only [hst, h1']

namespace Cdc

variable {σ : Type} {c : Cdc σ} {P D : σ → Prop}

/-- No emission rule takes any run of the input. -/
def NoRun (c : Cdc σ) (inp : Mem) (n : Nat) : Prop :=
  ∀ e ∈ c.emitEnd :: c.F.emit :: c.extra, ∀ sym cnt lits bytes fs', sym.length = c.S →
    rd inp lits cnt = runBytes sym cnt → e (c.first inp n) sym cnt lits ≠ some (bytes, fs')

theorem OK.body_noRun (h : c.OK P D) (cpu : Cpu) (inp : Mem) (n : Nat) (hn : 0 < n) (hr : c.NoRun inp n) :
    ∃ T, n ≤ T ∧ T ≤ n + c.S ∧ c.body cpu inp n = some (c.pre (c.first inp n) ++ (c.F.endLit T ++ rd inp 0 T)) := by
  have key : ∀ e ∈ c.emitEnd :: c.F.emit :: c.extra,
      Closed e inp c.S c.unb (n + c.S) (fun fs out last => fs = c.first inp n ∧ out = [] ∧ last = 0) := by
    rintro e he fs out last sym cnt lits bytes fs' ⟨rfl, rfl, rfl⟩ hl _ _ hrun hem
    rw [Nat.zero_add] at hrun
    exact absurd hem (hr e he sym cnt lits bytes fs' hl hrun)
  obtain ⟨b, h1, fs, out, last, T, ⟨rfl, rfl, rfl⟩, h2, h3, h4, h5⟩ := h.body_scan cpu inp n (n + c.S) _ (Nat.le_refl _)
    (fun e he => key e (List.mem_cons_of_mem _ he)) (key _ (List.mem_cons_self ..)) ⟨rfl, rfl, rfl⟩
  rcases h5 with ⟨h5, _⟩ | rfl
  · omega
  · exact ⟨T, h2, h3, by rw [h1]; simp⟩

/-- 2^31 bytes without runs: the terminator's 31 bit offset wraps around, and the decoder returns the full size having
copied at most a symbol. -/
theorem OK.wraps (h : c.OK P D) (ce cd : Cpu) (inp : Mem) (hr : c.NoRun inp 2147483648)
    (hp : ∀ fs, (c.pre fs).length ≤ 2) (hl : ∀ T, (c.F.endLit T).length ≤ 40)
    (hend : ∀ T tail, 2147483648 ≤ T → T ≤ 2147483648 + c.S → ∃ sym fs',
      c.F.hdr (c.first inp 2147483648) (c.F.endLit T ++ tail) = some (.go (T - 2147483648) sym none fs' tail)) :
    ∃ out, c.compress ce (some inp) 2147483648 true 4000000000 = .ok out.length out ∧
      ∀ (slack : List Byte) (m : Mem) (a : DArgs), 64 ≤ slack.length →
        a.pIn = some (out ++ slack) → out.length ≤ a.inSize → a.pOut = some m →
        2147483648 ≤ a.outSize → 2147483648 + addSize ≤ a.cap →
        ∃ m', c.decompress cd a = .ok 2147483648 m' ∧ ∀ k, 128 ≤ k → m' k = m k := by
  obtain ⟨N, hN⟩ : ∃ N, N = 2147483648 := ⟨_, rfl⟩
  rw [← hN] at hr hend ⊢
  obtain ⟨v1, v2, v3, v4⟩ := h.decV cd
  have hS := h.le
  obtain ⟨T, h1, h2, h3⟩ := h.body_noRun ce inp N (by omega) hr
  have hb0 : bounds N = 0 := by unfold bounds; rw [if_pos (by omega)]
  have hlen : (c.pre (c.first inp N) ++ (c.F.endLit T ++ rd inp 0 T)).length ≤ 2147483648 + 58 := by
    have := hp (c.first inp N)
    have := hl T
    simp only [List.length_append, rd_length]
    omega
  refine ⟨le32 N ++ le32 (8 + (c.pre (c.first inp N) ++ (c.F.endLit T ++ rd inp 0 T)).length) ++
    (c.pre (c.first inp N) ++ (c.F.endLit T ++ rd inp 0 T)), ?_, ?_⟩
  · simp only [compress, apiCompress, hb0, h3]
    rw [if_neg (by simp; omega), if_pos (by simp only [List.length_append, le32_length] at hlen ⊢; omega)]
    simp only [List.length_append, le32_length] at hlen ⊢
    congr 1
    omega
  · intro slack m a hsl hpi hin hpo ho hcap
    refine apiDecompress_short (P := D) (S := c.S) (fs := c.first inp N) (c.decV cd) ((h.rel cd).hdrOK h.hdr) v1 v2 v3 v4
      (h.sub _ (h.first inp N)) (by omega) (by omega)
      (b := c.pre (c.first inp N) ++ (c.F.endLit T ++ rd inp 0 T)) (r := c.F.endLit T ++ rd inp 0 T)
      (res := (rd inp 0 T ++ slack).take (T - N)) (slack := slack) (by rw [List.append_assoc, h.start]) ?_
      (by rw [List.length_take]; omega) (by omega) m a hpi ?_ hpo ho (by unfold addSize at hcap; omega)
    · refine (h.rel cd).decS _ _ _ ?_
      obtain ⟨sym, fs', he⟩ := hend T (rd inp 0 T ++ slack) (by omega) (by omega)
      simp only [decS, loop, decStep, List.append_assoc, he]
      rw [if_pos (by simp only [List.length_append, rd_length]; omega)]
      simp
    · simp only [List.length_append, le32_length] at hin ⊢
      omega

end Cdc

end Hrk
