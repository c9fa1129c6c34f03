import Verif.PropsAhead
import Verif.PropsBlocks
import Verif.PropsSingleSize
import Verif.PropsGreedySize

/-
C75: the program in the README.
-/

namespace Hrk

/-- The program of README.md:296-318, with the compressor `f` and the decompressor `g` in the places of `rle8_multi_compress` and
`rle8_decompress`: `n` bytes at `inp`, of which `lim` may be read, are compressed into a buffer of `rle_compress_bounds` bytes, and what was
returned is given to the decompressor together with that buffer and one of `n + rle_decompress_additional_size()` bytes. `heap` and `m` are what
`malloc` leaves in the two buffers, `aIn` and `aOut` their addresses. A compressor that fails returns 0; what it wrote until then is not modelled. Simplified: `malloc` succeeds. -/
def readme (f : CName) (g : DName) (ce cd : Cpu) (junk : Vec) (m0 : Mem) (lim : Nat) (inp : Mem) (n : Nat) (heap m : Mem) (aIn aOut : Nat) :
    DRes :=
  match f.runIn ce junk m0 lim (some inp) n true (bounds n) with
  | .ok ret out => g.run cd ⟨some (out ++ rd heap out.length (bounds n - out.length)), ret, some m, n, n + addSize, aIn, aOut⟩
  | .fail | .giveUp => g.run cd ⟨some (rd heap 0 (bounds n)), 0, some m, n, n + addSize, aIn, aOut⟩
  | .ub => .ub
  | .hang => .hang

/-- C75: the program ends normally, the decompressor returns the size of the data, and the data is at the start of the last buffer, behind the end of
which nothing was written. -/
def ReadmeWorks (f : CName) (g : DName) (lim : Nat) (inp : Mem) (n : Nat) : Prop :=
  ∀ (ce cd : Cpu) (junk : Vec) (m0 heap m : Mem) (aIn aOut : Nat), ∃ m', readme f g ce cd junk m0 lim inp n heap m aIn aOut = .ok n m' ∧
    (∀ k, k < n → m' k = inp k) ∧ ∀ k, n + addSize ≤ k → m' k = m k

/-- Sizes up to which the stream, and a vector of 64 bytes behind it, is known to fit into `rle_compress_bounds` bytes. -/
def CName.upTo : CName → Nat
  | .r8 false true => 1073741824
  | .r8 false false => 27538
  | .r8 true false => 13768
  | .r8 true true => 6883
  | .x _ _ _ => 1073741824
  | .x128 _ _ => 1073741824
  | .sl _ S _ => if S = 6 ∨ S = 8 then 1073741824 else if S = 3 then 6568 else 3473297
  | .sh _ S unb mode => if mode = .normal ∧ (S = 8 ∨ S = 4 ∧ unb = false) then 1073741824 else 6291255
  | _ => 0

theorem body_fits {body : Mem → Nat → Option (List Byte)} {inp : Mem} {n : Nat} (hn : 0 < n) (hn2 : n ≤ 1073741824)
    (h : ∃ b, body inp n = some b ∧ b.length ≤ n + 121) :
    ∃ out, apiCompress body (some inp) n true (bounds n) = .ok out.length out ∧ out.length + 64 ≤ bounds n := by
  obtain ⟨b, h1, h2⟩ := h
  have hbn := bounds_of_le hn2
  refine ⟨le32 n ++ le32 (8 + b.length) ++ b, ?_, by simp; omega⟩
  simp only [apiCompress]
  rw [if_neg (by simp; omega)]
  simp only [h1]
  rw [if_pos (by simp; omega)]
  congr 1
  simp
  omega

theorem CName.fits (f : CName) (hf : f.exists?) (cpu : Cpu) (junk : Vec) (m : Mem) {inp : Mem} {n : Nat} (hn : 0 < n) (h : n ≤ f.upTo) :
    ∃ out, f.run cpu junk m (some inp) n true (bounds n) = .ok out.length out ∧ out.length + 64 ≤ bounds n := by
  cases f with
  | r8 s p =>
    obtain ⟨b, h1, h2⟩ := R8Cfg.body_size ⟨s, p⟩ cpu inp n
    cases s <;> cases p <;> simp only [CName.upTo] at h <;> simp only [R8Cfg.grow, if_true, Bool.false_eq_true, if_false] at h2 <;>
      exact body_fits hn (by omega) ⟨b, h1, by omega⟩
  | x S u p =>
    obtain ⟨b, h1, h2⟩ := XCfg.enc_size ⟨S, u, p⟩ hf cpu inp n
    have hS := XCfg.valid_S ⟨S, u, p⟩ hf
    simp only [CName.upTo] at h
    dsimp only at h2 hS
    exact body_fits hn (by omega) ⟨b, h1, by omega⟩
  | x128 u p =>
    obtain ⟨b, h1, h2⟩ := cdc128_size u p cpu inp n
    simp only [CName.upTo] at h
    exact body_fits hn (by omega) ⟨b, h1, by omega⟩
  | sl N S u =>
    obtain ⟨b, h1, h2⟩ := SlCfg.body_size ⟨N, S, u⟩ hf cpu inp n
    have hS := SlCfg.valid_S ⟨N, S, u⟩ hf
    have ht := SlCfg.tinyR_eq ⟨N, S, u⟩
    simp only [CName.upTo] at h
    simp only [SlCfg.growE, SlCfg.growL] at h2
    dsimp only at hS ht
    by_cases h6 : S = 6 ∨ S = 8
    · rw [if_pos h6] at h
      rw [if_neg (by omega), if_neg (by omega)] at h2
      exact body_fits hn (by omega) ⟨b, h1, by omega⟩
    · rw [if_neg h6] at h
      by_cases h3 : S = 3
      · subst h3
        rw [if_pos rfl] at h
        simp only [or_true, if_true] at h2
        have ht' : SlCfg.tinyR ⟨N, 3, u⟩ = 127 ∨ SlCfg.tinyR ⟨N, 3, u⟩ = 63 := by split at ht <;> omega
        rcases ht' with e | e <;> rw [e] at h2 <;> exact body_fits hn (by omega) ⟨b, h1, by omega⟩
      · rw [if_neg h3] at h
        rw [if_neg (c := S = 3) h3] at h2
        refine body_fits hn (by omega) ⟨b, h1, ?_⟩
        split at h2
        · omega
        · split at h2 <;> omega
  | sh N S u md =>
    obtain ⟨b, h1, h2⟩ := ShCfg.body_size ⟨N, S, u, md⟩ hf cpu inp n
    have hS := ShCfg.valid_S ⟨N, S, u, md⟩ hf
    simp only [CName.upTo] at h
    simp only [ShCfg.growE] at h2
    dsimp only at hS
    by_cases hm : md = .normal ∧ (S = 8 ∨ S = 4 ∧ u = false)
    · rw [if_pos hm] at h h2
      exact body_fits hn (by omega) ⟨b, h1, by omega⟩
    · rw [if_neg hm] at h h2
      exact body_fits hn (by omega) ⟨b, h1, by omega⟩
  | rsh => simp [CName.upTo] at h; omega
  | mm => simp [CName.upTo] at h; omega
  | le _ _ => simp [CName.upTo] at h; omega

/-- C75, for every codec of the table whose buffers `rle_compress_bounds` is for, as long as the data is not too large. Missing: larger data, for which
the program is wrong with `rle8_multi` (`C75_readme_violated`) and others (`C75_larger_violated`); and data of which only the `n` bytes may be read, where
it is wrong with every codec of symbols of more than 8 bits (`C75_reads_violated`). -/
theorem C75_program_partial (row : Row) (hr : row ∈ table) (inp : Mem) (n lim : Nat) (hn : 0 < n) (h : n ≤ row.comp.upTo)
    (hl : n + row.comp.slack ≤ lim) : ReadmeWorks row.comp row.dec lim inp n := by
  intro ce cd junk m0 heap m aIn aOut
  have key : table.all (fun r => decide r.comp.exists? && (pairs r.comp r.dec || r.comp.upTo == 0)) = true := by decide +kernel
  have hk := List.all_eq_true.mp key row hr
  simp only [Bool.and_eq_true, decide_eq_true_eq, Bool.or_eq_true, beq_iff_eq] at hk
  have hp : pairs row.comp row.dec = true := hk.2.resolve_right (by omega)
  obtain ⟨out, h1, h2⟩ := row.comp.fits hk.1 ce junk m0 (inp := inp) hn h
  have hmax : n ≤ maxInput := by
    have : row.comp.upTo ≤ 1073741824 := by
      unfold CName.upTo
      repeat' split
      all_goals omega
    unfold maxInput
    omega
  have hb := bounds_of_le hmax
  have hv : row.dec.vec cd ≤ 64 := by
    by_cases h0 : row.dec.vec cd = 0
    · omega
    · exact ((C65_vec row hr cd).2 h0).2.1
  unfold readme
  rw [row.comp.runIn_eq hk.1 ce junk m0 (some inp) hl true (bounds n), h1]
  obtain ⟨m', g1, g2, g3⟩ := ahead_sound hp ce cd junk m0 inp n (bounds n) out.length out hn hmax (by unfold maxInput at hmax; omega) h1
    (rd heap out.length (bounds n - out.length)) m
    ⟨some (out ++ rd heap out.length (bounds n - out.length)), out.length, some m, n, n + addSize, aIn, aOut⟩
    (by simp; omega) rfl (Nat.le_refl _) rfl (Nat.le_refl _) (Nat.le_refl _)
  exact ⟨m', g1, g2, g3⟩

/-- C75 for the program as it is printed: data of up to 27538 bytes is restored. -/
theorem C75_readme_partial (inp : Mem) (n : Nat) (hn : 0 < n) (h : n ≤ 27538) : ReadmeWorks (.r8 false false) (.r8 false) n inp n := by
  have hk : table.any (fun r => r.comp == .r8 false false && r.dec == .r8 false) = true := by decide +kernel
  obtain ⟨row, hr, e⟩ := List.any_eq_true.mp hk
  simp only [Bool.and_eq_true, beq_iff_eq] at e
  have := C75_program_partial row hr inp n n hn (by rw [e.1]; exact h) (by rw [e.1]; exact Nat.le_refl _)
  rwa [e.1, e.2] at this

/-- C75: with `rle8_packed_multi_compress` and `rle8_packed_decompress` instead, data of every supported size is restored. -/
theorem C75_packed_multi (inp : Mem) (n : Nat) (hn : 0 < n) (h : n ≤ maxInput) : ReadmeWorks (.r8 false true) (.r8 true) n inp n := by
  have hk : table.any (fun r => r.comp == .r8 false true && r.dec == .r8 true) = true := by decide +kernel
  obtain ⟨row, hr, e⟩ := List.any_eq_true.mp hk
  simp only [Bool.and_eq_true, beq_iff_eq] at e
  have := C75_program_partial row hr inp n n hn (by rw [e.1]; exact h) (by rw [e.1]; exact Nat.le_refl _)
  rwa [e.1, e.2] at this

/-! ### What goes wrong -/

theorem readme_ub {f : CName} {g : DName} {ce cd : Cpu} {junk : Vec} {m0 inp heap m : Mem} {n lim aIn aOut : Nat}
    (h : f.runIn ce junk m0 lim (some inp) n true (bounds n) = .ub) : readme f g ce cd junk m0 lim inp n heap m aIn aOut = .ub := by
  unfold readme
  rw [h]

/-- C75 is false for the program as it is printed, at every size from 125052 bytes on: there is data with which `rle8_multi_compress` writes behind the
end of its buffer, however much of the data may be read. -/
theorem C75_readme_violated (ce : Cpu) (n : Nat) (h1 : 125052 ≤ n) (h2 : n ≤ 1073741824) : ∃ inp, ∀ cd junk m0 lim heap m aIn aOut, n ≤ lim →
    readme (.r8 false false) (.r8 false) ce cd junk m0 lim inp n heap m aIn aOut = .ub := by
  obtain ⟨inp, h⟩ := C17_multi_sizes_violated ce n h1 h2
  exact ⟨inp, fun cd junk m0 lim heap m aIn aOut hl =>
    readme_ub (by rw [CName.runIn_eq (.r8 false false) trivial ce junk m0 (some inp) hl true (bounds n)]; exact h)⟩

/-- Likewise with the other codecs that do not fit, at some size each. -/
theorem C75_larger_violated (f : CName) (g : DName) (ce : Cpu)
    (h : f = .r8 true true ∨ (∃ N S u, f = .sl N S u ∧ SlCfg.valid ⟨N, S, u⟩ ∧ S ≤ 4) ∨
      (∃ N S u, f = .sh N S u .normal ∧ ShCfg.valid ⟨N, S, u, .normal⟩ ∧ (S = 1 ∨ S = 2 ∨ S = 3 ∨ S = 6 ∨ S = 4 ∧ u = true)) ∨
      (∃ N S u, f = .sh N S u .single ∧ ShCfg.valid ⟨N, S, u, .single⟩) ∨ (∃ N S u, f = .sh N S u .greedy ∧ ShCfg.valid ⟨N, S, u, .greedy⟩)) :
    ∃ inp n, n ≤ 20000000 ∧ ∀ cd junk m0 lim heap m aIn aOut, n + f.slack ≤ lim → readme f g ce cd junk m0 lim inp n heap m aIn aOut = .ub := by
  have key : f.exists? ∧ ∃ inp n, n ≤ 20000000 ∧ ∀ junk m0, f.run ce junk m0 (some inp) n true (bounds n) = .ub := by
    rcases h with rfl | ⟨N, S, u, rfl, hv, hS⟩ | ⟨N, S, u, rfl, hv, hS⟩ | ⟨N, S, u, rfl, hv⟩ | ⟨N, S, u, rfl, hv⟩
    · obtain ⟨inp, n, _, h2, h3⟩ := C17_packed_single_violated ce
      exact ⟨trivial, inp, n, by omega, fun _ _ => h3⟩
    · refine ⟨hv, ?_⟩
      have hS' := SlCfg.valid_S ⟨N, S, u⟩ hv
      dsimp only at hS'
      have : S = 1 ∨ S = 3 ∨ S = 2 ∨ S = 4 := by omega
      rcases this with e | e | e
      · obtain ⟨inp, n, _, h2, h3⟩ := C18_symlut8_violated ⟨N, S, u⟩ hv e ce
        exact ⟨inp, n, h2, fun _ _ => h3⟩
      · obtain ⟨inp, n, _, h2, h3⟩ := C18_symlut24_violated ⟨N, S, u⟩ hv e ce
        exact ⟨inp, n, by omega, fun _ _ => h3⟩
      · obtain ⟨inp, n, _, h2, h3⟩ := C18_symlut_violated ⟨N, S, u⟩ hv e ce
        exact ⟨inp, n, h2, fun _ _ => h3⟩
    · refine ⟨hv, ?_⟩
      rcases hS with e | e
      · obtain ⟨inp, n, _, h2, h3⟩ := C19_short8_violated ⟨N, S, u, .normal⟩ hv rfl e ce
        exact ⟨inp, n, h2, fun _ _ => h3⟩
      · obtain ⟨inp, n, _, h2, h3⟩ := C19_short_violated ⟨N, S, u, .normal⟩ hv rfl e ce
        exact ⟨inp, n, h2, fun _ _ => h3⟩
    · obtain ⟨inp, n, _, h2, h3⟩ := C19_single_short_violated ⟨N, S, u, .single⟩ hv rfl ce
      exact ⟨hv, inp, n, h2, fun _ _ => h3⟩
    · obtain ⟨inp, n, _, h2, h3⟩ := C19_greedy_violated ⟨N, S, u, .greedy⟩ hv rfl ce
      exact ⟨hv, inp, n, h2, fun _ _ => h3⟩
  obtain ⟨hf, inp, n, h1, h2⟩ := key
  exact ⟨inp, n, h1, fun cd junk m0 lim heap m aIn aOut hl =>
    readme_ub (by rw [f.runIn_eq hf ce junk m0 (some inp) hl true (bounds n)]; exact h2 junk m0)⟩

/-- C75 is false for every codec of symbols of more than 8 bits if nothing but the data may be read, as in the program, where it has `fileSize` bytes:
there is data of every size with which the compressor reads behind its end. -/
theorem C75_reads_violated (row : Row) (hr : row ∈ table) (hs : 0 < row.comp.slack) (ce cd : Cpu) (junk : Vec) (m0 heap m : Mem)
    (n aIn aOut : Nat) (hn : 0 < n) : readme row.comp row.dec ce cd junk m0 n (fun k => b8 k) n heap m aIn aOut = .ub :=
  readme_ub (C63_violated row hr hs ce junk m0 _ (by
    intro j d h0 h1 e
    have := congrArg UInt8.toNat e
    simp only [b8_toNat] at this
    omega) n n (bounds n) hn (Or.inl (Nat.le_refl _)) (Nat.le_refl _))

/-- 100 bytes with runs, in a buffer of 293 bytes. -/
example : ReadmeWorks (.r8 false false) (.r8 false) 100 runInp 100 ∧ bounds 100 = 293 :=
  ⟨C75_readme_partial runInp 100 (by decide) (by decide), by decide⟩

end Hrk
